import Verif.FastDiagProps

/-!
# The fast diagonal strategy: the theorem (property C42)
-/

namespace Verif.FastDiag
open Verif.Fock

theorem getD_replicate_zero (n i : ℕ) : (List.replicate n 0).getD i 0 = 0 := by
  by_cases h : i < n
  · rw [List.getD_eq_getElem _ _ (by simpa using h), List.getElem_replicate]
  · rw [List.getD_eq_default _ _ (by simpa using h)]

theorem eq_replicate_of_sum {k : List ℕ} (h : k.sum = 0) : k = List.replicate k.length 0 :=
  List.eq_replicate_of_mem fun a ha => List.sum_eq_zero_iff.mp h a ha

/-- **C42** `fast_diagonal` on a non-empty tuple of detector cutoffs never fails, and the matrix it returns
for the outcome `p` is the conditional density matrix: its entry `(r, s)` is the Fock amplitude of
`c exp(½ zᵀAz + bᵀz)` at bra index `(r, p)` and ket index `(s, p)`, for every outcome whose doubled total
photon number stays below the code's bound `2·output_cutoff + 2·Σ pnr_cutoffs − L` (with `L` the number of
modes); the matrices of the remaining outcomes are left at zero. -/
theorem C42_correct (A : ℕ → ℕ → ℂ) (b : ℕ → ℂ) (c : ℂ) (oc : ℕ) (pnr : List ℕ) (stab : Bool)
    (hpnr : pnr ≠ []) (hA : Symm (2 * (pnr.length + 1)) A) :
    ∃ out, fastDiagonal A b c oc pnr stab = some out ∧
      ∀ p, List.Forall₂ (· ≤ ·) p pnr → ∀ r s, r ≤ oc → s ≤ oc →
        out p r s = if p.sum = 0 ∨ (2 * p.sum : ℤ) < 2 * oc + 2 * pnr.sum - (pnr.length + 1) then
          amp (2 * (pnr.length + 1)) A b c ((r :: p) ++ (s :: p)).toFinsupp else 0 := by
  obtain ⟨L, hL⟩ : ∃ L, L = pnr.length + 1 := ⟨_, rfl⟩
  obtain ⟨A', hA'⟩ : ∃ A' : ℕ → ℕ → ℂ, A' = fun i j => A (perm L i) (perm L j) := ⟨_, rfl⟩
  obtain ⟨b', hb'⟩ : ∃ b' : ℕ → ℂ, b' = fun i => b (perm L i) := ⟨_, rfl⟩
  have h2L : 2 * (pnr.length + 1) = 2 * pnr.length + 2 := by ring
  have hS' : Symm (2 * pnr.length + 2) A' := by
    intro i hi j hj
    rw [hA']
    have hi' := sig_lt L i (by omega)
    have hj' := sig_lt L j (by omega)
    unfold sig at hi' hj'
    rw [if_pos (by omega)] at hi' hj'
    exact hA _ (by omega) _ (by omega)
  set g := (if stab then stable else vanilla) [oc + 1, oc + 1] A' b' c
    (List.replicate ((oc + 1) * (oc + 1)) 0) with hg
  set first : Mat := fun r s => g.getD (ravel [oc + 1, oc + 1] [r, s]) 0 with hfirst
  have hS2 : Symm 2 A' := fun i hi j hj => hS' i (by omega) j (by omega)
  have hzero : ∀ n, dup (List.replicate n 0) = List.replicate (2 * n) 0 := by
    intro n
    have := eq_replicate_of_sum (k := dup (List.replicate n 0)) (by rw [dup_sum]; simp)
    rwa [length_dup, List.length_replicate] at this
  have hok : OK (2 * pnr.length + 2) A' b' c oc (dup (List.replicate pnr.length 0)) first := by
    intro r s hr hs
    have hin : InB [oc + 1, oc + 1] [r, s] :=
      List.Forall₂.cons (by omega) (List.Forall₂.cons (by omega) List.Forall₂.nil)
    have hv : g[ravel [oc + 1, oc + 1] [r, s]]? = some (amp 2 A' b' c ([r, s] : List ℕ).toFinsupp) := by
      rw [hg]
      cases stab
      · exact (C19_vanilla_correct [oc + 1, oc + 1] A' b' c _ (by simp) hS2 [r, s] hin).2
      · exact (C20_stable_correct [oc + 1, oc + 1] A' b' c _ (by simp) hS2 [r, s] hin).2
    rw [hfirst]
    show g.getD _ 0 = _
    rw [List.getD_eq_getElem?_getD, hv, Option.getD_some, G]
    have hF : ([r, s] : List ℕ).toFinsupp = (r :: s :: dup (List.replicate pnr.length 0)).toFinsupp := by
      rw [hzero]
      ext x
      rw [List.toFinsupp_apply, List.toFinsupp_apply]
      match x with
      | 0 => simp
      | 1 => simp
      | x + 2 =>
        simp only [List.getD_cons_succ]
        rw [getD_replicate_zero]
        simp
    rw [← hF]
    refine amp_restrict (by omega) b' c hS' _ fun j hj => ?_
    rw [List.toFinsupp_apply, List.getD_eq_default]
    simpa using hj
  obtain ⟨out, h1, h2⟩ := weights_spec (A := A') (b := b') c oc hpnr hS'
    (2 * oc + 2 * pnr.sum - L - 1) 0 (fun _ => none)
    (Function.update (fun _ => none) (dup (List.replicate pnr.length 0)) (some first))
    (Function.update (fun _ => fun _ _ => 0) (List.replicate pnr.length 0) first)
    (by
      intro k hk hs
      have hk0 := eq_replicate_of_sum hs
      rw [hk.len, ← hzero] at hk0
      exact ⟨first, by rw [hk0, Function.update_self], by rw [hk0]; exact hok⟩)
    (fun t' ht' => by omega)
    (by
      intro p hp
      have hlen := hp.length_eq
      split_ifs with hs
      · have hp0 := eq_replicate_of_sum (k := p) (by omega)
        rw [hlen] at hp0
        rw [hp0, Function.update_self]
        exact hok
      · rw [Function.update_of_ne]
        intro h
        rw [h] at hs
        simp at hs)
  refine ⟨out, ?_, ?_⟩
  · unfold fastDiagonal
    simp only [← hL, ← hA', ← hb']
    rw [show L - 1 = pnr.length by omega]
    exact h1
  · intro p hp r s hr hs
    have := h2 p hp
    have hlen := hp.length_eq
    by_cases hc : 2 * p.sum ≤ 0 + (2 * oc + 2 * pnr.sum - L - 1)
    · rw [if_pos hc] at this
      rw [if_pos (by omega), this r s hr hs, G, hA', hb', ← h2L, ← hL]
      exact amp_interleave L A b c r s p (by omega)
    · rw [if_neg hc] at this
      rw [if_neg (by push Not; constructor <;> omega), this]

/-- When the output cutoff is large enough (`L + 1 ≤ 2·output_cutoff`) every outcome is filled. -/
theorem C42_all_outcomes (A : ℕ → ℕ → ℂ) (b : ℕ → ℂ) (c : ℂ) (oc : ℕ) (pnr : List ℕ) (stab : Bool)
    (hpnr : pnr ≠ []) (hA : Symm (2 * (pnr.length + 1)) A) (hoc : pnr.length + 2 ≤ 2 * oc) :
    ∃ out, fastDiagonal A b c oc pnr stab = some out ∧
      ∀ p, List.Forall₂ (· ≤ ·) p pnr → ∀ r s, r ≤ oc → s ≤ oc →
        out p r s = amp (2 * (pnr.length + 1)) A b c ((r :: p) ++ (s :: p)).toFinsupp := by
  obtain ⟨out, h1, h2⟩ := C42_correct A b c oc pnr stab hpnr hA
  refine ⟨out, h1, fun p hp r s hr hs => ?_⟩
  rw [h2 p hp r s hr hs, if_pos]
  right
  have hle : p.sum ≤ pnr.sum := by
    clear h1 h2 hA hoc hpnr
    induction hp with
    | nil => simp
    | cons h _ ih => simp only [List.sum_cons]; omega
  omega

/-- The two values of `stable` give the same result. -/
theorem C42_stable_irrelevant (A : ℕ → ℕ → ℂ) (b : ℕ → ℂ) (c : ℂ) (oc : ℕ) (pnr : List ℕ)
    (hpnr : pnr ≠ []) (hA : Symm (2 * (pnr.length + 1)) A) :
    ∃ o1 o2, fastDiagonal A b c oc pnr true = some o1 ∧ fastDiagonal A b c oc pnr false = some o2 ∧
      ∀ p, List.Forall₂ (· ≤ ·) p pnr → ∀ r s, r ≤ oc → s ≤ oc → o1 p r s = o2 p r s := by
  obtain ⟨o1, h1, h1'⟩ := C42_correct A b c oc pnr true hpnr hA
  obtain ⟨o2, h2, h2'⟩ := C42_correct A b c oc pnr false hpnr hA
  exact ⟨o1, o2, h1, h2, fun p hp r s hr hs => by rw [h1' p hp r s hr hs, h2' p hp r s hr hs]⟩

/-- The amplitude of the two-mode coherent state `exp(z₀ + z₁ + z₂ + z₃)` at one photon in the second mode. -/
theorem coherent_amp : amp 4 (fun _ _ => 0) (fun _ => 1) 1 ([0, 1, 0, 1] : List ℕ).toFinsupp = 1 := by
  have hS : Symm 4 (fun _ _ => (0 : ℂ)) := fun _ _ _ _ => rfl
  have h1 := amp_up (b := fun _ => (1 : ℂ)) 1 hS (i := 1) (by omega) 0
  have h3 := amp_up (b := fun _ => (1 : ℂ)) 1 hS (i := 3) (by omega) (up 0 1)
  have e : up (up 0 1) 3 = ([0, 1, 0, 1] : List ℕ).toFinsupp := by
    ext x
    rw [List.toFinsupp_apply, up, up, zero_add, Finsupp.add_apply, Finsupp.single_apply, Finsupp.single_apply]
    match x with
    | 0 => simp
    | 1 => simp
    | 2 => simp
    | 3 => simp
    | x + 4 => simp
  have hv : up 0 1 3 = 0 := by simp [up]
  have s1 : Fock.sq (0 + 1) = 1 := by simp [Fock.sq]
  simp only [zero_mul, Finset.sum_const_zero, add_zero, one_mul, amp_zero, hv, s1, Finsupp.coe_zero,
    Pi.zero_apply] at h1 h3
  rw [← e, h3, h1]

/-- Disagreement: with `output_cutoff = 1` and a single detector with cutoff 1 the loop stops one weight too
early, and the outcome "one photon" of a two-mode coherent state is reported as the zero matrix although
its vacuum entry is 1. -/
theorem C42_missing_outcome (stab : Bool) :
    ∃ out, fastDiagonal (fun _ _ => 0) (fun _ => 1) 1 1 [1] stab = some out ∧
      (∀ r s, r ≤ 1 → s ≤ 1 → out [1] r s = 0) ∧
      amp 4 (fun _ _ => 0) (fun _ => 1) 1 ([0, 1, 0, 1] : List ℕ).toFinsupp = 1 := by
  obtain ⟨out, h1, h2⟩ := C42_correct (fun _ _ => 0) (fun _ => 1) 1 1 [1] stab (by simp) (fun _ _ _ _ => rfl)
  refine ⟨out, h1, fun r s hr hs => ?_, coherent_amp⟩
  rw [h2 [1] (List.Forall₂.cons (le_refl 1) List.Forall₂.nil) r s hr hs, if_neg (by simp)]

/-- With `output_cutoff = 2` the same outcome is correct: the hypotheses of `C42_all_outcomes` are met. -/
theorem C42_example (stab : Bool) :
    ∃ out, fastDiagonal (fun _ _ => 0) (fun _ => 1) 1 2 [1] stab = some out ∧ out [1] 0 0 = 1 := by
  obtain ⟨out, h1, h2⟩ := C42_all_outcomes (fun _ _ => 0) (fun _ => 1) 1 2 [1] stab (by simp)
    (fun _ _ _ _ => rfl) (by simp)
  refine ⟨out, h1, ?_⟩
  rw [h2 [1] (List.Forall₂.cons (le_refl 1) List.Forall₂.nil) 0 0 (by omega) (by omega)]
  exact coherent_amp

/-- Without detectors the call fails as soon as the loop is entered, that is for `output_cutoff ≥ 2`. -/
theorem C42_no_detectors (A : ℕ → ℕ → ℂ) (b : ℕ → ℂ) (c : ℂ) (oc : ℕ) (stab : Bool) :
    fastDiagonal A b c oc [] stab = none ↔ 2 ≤ oc := by
  unfold fastDiagonal
  simp only [List.length_nil, List.sum_nil]
  by_cases h : 2 ≤ oc
  · obtain ⟨n, hn⟩ : ∃ n, 2 * oc + 2 * 0 - (0 + 1) - 1 = n + 1 := ⟨2 * oc - 3, by omega⟩
    rw [hn, List.range'_succ, weights, if_pos rfl]
    simp [h]
  · rw [show 2 * oc + 2 * 0 - (0 + 1) - 1 = 0 by omega, List.range'_zero, weights]
    simp [h]

end Verif.FastDiag
