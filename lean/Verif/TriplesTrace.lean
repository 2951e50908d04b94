import Verif.TriplesNorm

/-!
# Traces of triples, and normalisation of the mixed states and channels of `physics/triples.py` (C57)
-/

namespace Verif.Triples
open Verif.Fock Verif.Batch Verif.Gauss Verif.PolyExp

variable {B : List ℕ} {N : ℕ} {A : List ℕ → ℕ → ℕ → ℂ} {b : List ℕ → ℕ → ℂ} {c : List ℕ → ℂ}

theorem gM_pair (A : ℕ → ℕ → ℂ) {i j : ℕ} (hs : A j i = A i j) :
    gM A [i] [j] (-1) = Matrix.fromBlocks (Matrix.of fun _ _ => A i i) (Matrix.of fun _ _ => A i j - 1) (Matrix.of fun _ _ => A i j - 1)
      (Matrix.of fun _ _ => A j j) := by
  have u : ∀ k : Fin [i].length, k = ⟨0, by simp⟩ := fun k => Fin.ext (by have := k.2; simp at this; simpa using this)
  ext p q
  rcases p with k | k <;> rcases q with l | l <;> rw [u k, u l] <;>
  simp only [gM, pos, Matrix.add_apply, Matrix.smul_apply, Matrix.of_apply, Matrix.fromBlocks_apply₁₁, Matrix.fromBlocks_apply₁₂,
    Matrix.fromBlocks_apply₂₁, Matrix.fromBlocks_apply₂₂, Sum.elim_inl, Sum.elim_inr, Matrix.one_apply, Matrix.zero_apply, List.getD_cons_zero, hs]
  all_goals simp
  all_goals ring

theorem det_pair (p a q : ℂ) : (Matrix.fromBlocks (Matrix.of fun _ _ : Fin 1 => p) (Matrix.of fun _ _ : Fin 1 => a)
    (Matrix.of fun _ _ : Fin 1 => a) (Matrix.of fun _ _ : Fin 1 => q)).det = p * q - a ^ 2 := by
  have e : Matrix.fromBlocks (Matrix.of fun _ _ : Fin 1 => p) (Matrix.of fun _ _ : Fin 1 => a)
    (Matrix.of fun _ _ : Fin 1 => a) (Matrix.of fun _ _ : Fin 1 => q) = (!![p, a; a, q] : Matrix (Fin 2) (Fin 2) ℂ).submatrix finSumFinEquiv finSumFinEquiv := by
    ext x y
    rcases x with x | x <;> rcases y with y | y <;> fin_cases x <;> fin_cases y <;> rfl
  rw [e, Matrix.det_submatrix_equiv_self, Matrix.det_fin_two_of]
  ring

theorem invB_pair (p a q : ℂ) (h : p * q - a ^ 2 ≠ 0) (u : Fin 1 ⊕ Fin 1 → ℂ) :
    invB (Matrix.fromBlocks (Matrix.of fun _ _ : Fin 1 => p) (Matrix.of fun _ _ : Fin 1 => a)
      (Matrix.of fun _ _ : Fin 1 => a) (Matrix.of fun _ _ : Fin 1 => q)) u u =
      (q * u (.inl 0) ^ 2 - 2 * a * u (.inl 0) * u (.inr 0) + p * u (.inr 0) ^ 2) / (p * q - a ^ 2) := by
  have hinv : (Matrix.fromBlocks (Matrix.of fun _ _ : Fin 1 => p) (Matrix.of fun _ _ : Fin 1 => a)
      (Matrix.of fun _ _ : Fin 1 => a) (Matrix.of fun _ _ : Fin 1 => q))⁻¹ =
      Matrix.fromBlocks (Matrix.of fun _ _ : Fin 1 => q / (p * q - a ^ 2)) (Matrix.of fun _ _ : Fin 1 => -a / (p * q - a ^ 2))
        (Matrix.of fun _ _ : Fin 1 => -a / (p * q - a ^ 2)) (Matrix.of fun _ _ : Fin 1 => p / (p * q - a ^ 2)) := by
    apply Matrix.inv_eq_right_inv
    rw [Matrix.fromBlocks_multiply, ← Matrix.fromBlocks_one]
    congr 1 <;>
    · ext i j
      fin_cases i; fin_cases j
      simp [Matrix.mul_apply]
      field_simp
      try ring
  rw [← invB_eq_sum, hinv]
  simp only [Fintype.sum_sum_type, Finset.univ_unique, Finset.sum_singleton, Fin.default_eq_zero, Matrix.fromBlocks_apply₁₁,
    Matrix.fromBlocks_apply₁₂, Matrix.fromBlocks_apply₂₁, Matrix.fromBlocks_apply₂₂, Matrix.of_apply]
  field_simp
  ring

/-- Trace of a Gaussian ansatz over one pair of variables `(i, j)`: with `D = (1 - A_ij)² - A_ii A_jj` and `u` the linear coefficients,
the value at the remaining variables (`x` with `x i = x j = 0`) is multiplied by
`D^{-1/2} exp((A_jj u_i² + 2 (1 - A_ij) u_i u_j + A_ii u_j²) / (2 D))`; it is infinite iff some `|D| ≤ 1e-12`. -/
theorem trace_pair (sA : ∀ β, ∀ i < N, ∀ j < N, A β i j = A β j i) {i j : ℕ} (hi : i < N) (hj : j < N) (hij : i ≠ j) :
    ((mk B N A b c).trace [i] [j] (-1) = some .infinite ↔ ∃ β, InB B β ∧ ‖(1 - A β i j) ^ 2 - A β i i * A β j j‖ ≤ 1e-12) ∧
    ((∀ β, InB B β → 1e-12 < ‖(1 - A β i j) ^ 2 - A β i i * A β j j‖) →
      ∃ h, (mk B N A b c).trace [i] [j] (-1) = some (.finite h) ∧ h.numCV = (remCV N [i] [j]).length ∧ h.outBatch = B ∧
        ∀ β, InB B β → ∀ x : ℕ → ℂ, x i = 0 → x j = 0 →
          let u k := b β k + ∑ l ∈ Finset.range N, x l * A β l k
          let D := (1 - A β i j) ^ 2 - A β i i * A β j j
          h.call β (fun k => x ((remCV N [i] [j]).getD k 0)) = (mk B N A b c).call β x *
            ((1 / D) ^ (1 / 2 : ℂ) * Complex.exp ((A β j j * u i ^ 2 + 2 * (1 - A β i j) * u i * u j + A β i i * u j ^ 2) / (2 * D)))) := by
  have hdet : ∀ β, (gM (A β) [i] [j] (-1)).det = -((1 - A β i j) ^ 2 - A β i i * A β j j) := by
    intro β
    rw [gM_pair (A β) (sA β j hj i hi)]
    refine (det_pair _ _ _).trans ?_
    ring
  have hb : (mk B N A b c).batch = B := rfl
  have hA : ∀ β, (mk B N A b c).A β = A β := fun _ => rfl
  have hlt : ∀ k ∈ [i] ++ [j], k < (mk B N A b c).numCV := by
    rw [mk_numCV]; simp [hi, hj]
  have hunf : (mk B N A b c).trace [i] [j] (-1) = open Classical in
      if ∀ β ∈ ndindex B, ‖(gM (A β) [i] [j] (-1)).det‖ > 1e-12 then some (.finite (cgiTrue (mk B N A b c) [i] [j] (-1))) else some .infinite := by
    unfold PolyExp.trace cgi1
    rw [if_neg (by simp), if_neg (by simp [hij]), if_neg (by rw [mk_numCV]; simp [hi, hj]), if_neg (by simp), if_neg (by rw [mk_numCV]; simp [hi, hj]), if_neg (by simp)]
    rfl
  refine ⟨?_, ?_⟩
  · rw [hunf]
    split_ifs with h
    · simp only [Option.some.injEq, reduceCtorEq, false_iff, not_exists, not_and, not_le]
      intro β hβ
      have := h β (mem_ndindex.2 hβ)
      rwa [hdet, norm_neg] at this
    · simp only [true_iff]
      push Not at h
      obtain ⟨β, hβ, hle⟩ := h
      refine ⟨β, mem_ndindex.1 hβ, ?_⟩
      rwa [hdet, norm_neg] at hle
  · intro h
    rw [if_pos (fun β hβ => by rw [hdet, norm_neg]; exact h β (mem_ndindex.1 hβ))] at hunf
    have hnum : (cgiTrue (mk B N A b c) [i] [j] (-1)).numCV = (remCV N [i] [j]).length := by
      show (notIdx N [i] [j]).length - 0 = _
      rfl
    refine ⟨_, hunf, hnum, by rfl, ?_⟩
    intro β hβ x xi xj
    dsimp only
    have hD := h β hβ
    have hD0 : (1 - A β i j) ^ 2 - A β i i * A β j j ≠ 0 := by
      intro e; rw [e] at hD; norm_num at hD
    have key := cgi_zero (f := mk B N A b c) (β := β) (zi := [i]) (zc := [j]) (s := -1) mk_wf (mk_symm sA) mk_derived rfl (by simp [hij]) hlt
      (x := x) (y := fun k => x ((remCV N [i] [j]).getD k 0)) (by
        intro p
        rcases p with p | p <;> obtain rfl : p = ⟨0, by simp⟩ := Fin.ext (by have := p.2; simp at this; simpa using this)
        · exact xi
        · exact xj) (by rw [mk_numCV]; intros; rfl) rfl
    have hc : (cgiTrue (mk B N A b c) [i] [j] (-1)).call β (fun k => x ((remCV N [i] [j]).getD k 0)) =
        (cgiTrue (mk B N A b c) [i] [j] (-1)).termAt β (fun k => x ((remCV N [i] [j]).getD k 0)) := by
      unfold PolyExp.call
      exact if_neg (by simp [cgiTrue, mk])
    rw [hc, key, mk_term, ← mk_call, hA, hdet]
    refine congrArg (HMul.hMul _) ?_
    refine congr (congrArg HMul.hMul ?_) (congrArg Complex.exp ?_)
    · refine congrArg (· ^ (1 / 2 : ℂ)) ?_
      simp only [List.length_cons, List.length_nil, zero_add, pow_one]
      rw [neg_div_neg_eq]
    · rw [gM_pair (A β) (sA β j hj i hi)]
      refine (congrArg (HMul.hMul _) (invB_pair (A β i i) (A β i j - 1) (A β j j) (by
        intro e; apply hD0; linear_combination -e) _)).trans ?_
      rw [mk_numCV]
      show -(1 / 2) * ((A β j j * (b β i + ∑ l ∈ Finset.range N, x l * A β l i) ^ 2 - 2 * (A β i j - 1) * (b β i + ∑ l ∈ Finset.range N, x l * A β l i) *
        (b β j + ∑ l ∈ Finset.range N, x l * A β l j) + A β i i * (b β j + ∑ l ∈ Finset.range N, x l * A β l j) ^ 2) / (A β i i * A β j j - (A β i j - 1) ^ 2)) = _
      have hD1 : A β i i * A β j j - (A β i j - 1) ^ 2 ≠ 0 := by
        intro e; apply hD0; linear_combination -e
      rw [show (1 - A β i j) ^ 2 - A β i i * A β j j = -(A β i i * A β j j - (A β i j - 1) ^ 2) by ring]
      field_simp
      ring

theorem overlap_det {f g : PolyExp} {β1 β2 c1 c2 S : List ℕ} (hS : c1.filter (· ∈ c2) = S) :
    (overlapMatrix f β1 g β2 c1 c2).det = (ovl f β1 g β2 c1 c2 S).det := by
  subst hS; rfl

/-- When the norm of a one-mode Gaussian ket comes out infinite. -/
theorem norm_infinite_one {l : ℕ} {bl : List ℕ} (hb : bl.Nodup) (hl : bl.length = B.length) :
    (mk B 1 A b c).contract (mk B 1 A b c).conj bl [l] bl [l] bl [] = some .infinite ↔
      ∃ o, InB B o ∧ ‖1 - A o 0 0 * (starRingEnd ℂ) (A o 0 0)‖ ≤ 1e-12 := by
  rw [conj_mk, (C16_defined mk_wf mk_wf (compat_norm (N := 1) (by simp) rfl hb hl)).2]
  have hS : [l].filter (· ∈ [l]) = [l] := by simp
  have hd : ∀ o, InB B o → ‖(overlapMatrix (mk B 1 A b c) (restrict (· ∈ bl) bl o ++ [])
      (mk B 1 (fun β i j => (starRingEnd ℂ) (A β i j)) (fun β i => (starRingEnd ℂ) (b β i)) fun β => (starRingEnd ℂ) (c β))
      (restrict (· ∈ bl) bl o ++ []) [l] [l]).det‖ = ‖1 - A o 0 0 * (starRingEnd ℂ) (A o 0 0)‖ := by
    intro o ho
    rw [overlap_det hS, List.append_nil, restrict_self hl ho]
    have e : ovl (mk B 1 A b c) o (mk B 1 (fun β i j => (starRingEnd ℂ) (A β i j)) (fun β i => (starRingEnd ℂ) (b β i)) fun β => (starRingEnd ℂ) (c β))
        o [l] [l] [l] = Matrix.fromBlocks (Matrix.of fun _ _ => A o 0 0) (-1) (-1) (Matrix.of fun _ _ => (starRingEnd ℂ) (A o 0 0)) := by
      unfold ovl
      congr 1
      · ext i j; fin_cases i; fin_cases j; simp [mk]
      · ext i j; fin_cases i; fin_cases j; simp [mk]
    rw [e, det_ovl]
    refine (congrArg norm (Matrix.det_fin_one _)).trans ?_
    rw [Matrix.sub_apply, Matrix.mul_apply, ← norm_neg]
    simp
  have hout : outDims bl bl bl (mk B 1 A b c).outBatch (mk B 1 (fun β i j => (starRingEnd ℂ) (A β i j)) (fun β i => (starRingEnd ℂ) (b β i))
      fun β => (starRingEnd ℂ) (c β)).outBatch = B := by
    rw [mk_outBatch, mk_outBatch]; exact outDims_zip hb hl
  rw [hout]
  constructor
  · rintro ⟨_, o, τ1, τ2, ho, h1, h2, h3⟩
    rw [mk_lsBatch] at h1 h2
    cases h1; cases h2
    rw [hd o ho] at h3
    exact ⟨o, ho, h3⟩
  · rintro ⟨o, ho, h3⟩
    refine ⟨⟨l, by simp, by simp⟩, o, [], [], ho, by rw [mk_lsBatch]; exact .nil, by rw [mk_lsBatch]; exact .nil, ?_⟩
    rw [hd o ho]
    exact h3

theorem sq_entry (r φ : ℝ) : (1 : ℂ) - -(Real.sinh r : ℂ) / Real.cosh r * ph φ * (starRingEnd ℂ) (-(Real.sinh r : ℂ) / Real.cosh r * ph φ) =
    (1 / Real.cosh r ^ 2 : ℝ) := by
  have h0 := (Real.cosh_pos r).ne'
  have hD : 1 - (Real.sinh r / Real.cosh r) ^ 2 = 1 / Real.cosh r ^ 2 := by
    field_simp
    linarith [Real.cosh_sq' r]
  rw [← hD, map_mul, map_div₀, map_neg, Complex.conj_ofReal, Complex.conj_ofReal, ph_conj]
  push_cast
  linear_combination (-(Complex.sinh r / Complex.cosh r) ^ 2) * ph_neg_mul φ

/-- **C57**: the norm of a displaced squeezed vacuum state comes out infinite iff `cosh² r ≥ 10¹²` for some batch element. -/
theorem C57_displaced_squeezed_infinite {α : List ℕ → ℂ} {r φ : List ℕ → ℝ} {l : ℕ} {bl : List ℕ} (hb : bl.Nodup) (hl : bl.length = B.length) :
    (displacedSqueezed B α r φ).contract (displacedSqueezed B α r φ).conj bl [l] bl [l] bl [] = some .infinite ↔
      ∃ o, InB B o ∧ 1e12 ≤ Real.cosh (r o) ^ 2 := by
  unfold displacedSqueezed
  rw [norm_infinite_one hb hl]
  refine exists_congr fun o => and_congr_right fun _ => ?_
  simp only [mat_zero_zero]
  have hp : 0 < Real.cosh (r o) ^ 2 := by have := Real.cosh_pos (r o); positivity
  rw [sq_entry, Complex.norm_real, Real.norm_of_nonneg (by positivity), div_le_iff₀ hp]
  constructor <;> intro h <;> linarith

/-- **C57**: every squeezed vacuum state has unit norm below the threshold. -/
theorem C57_squeezed {r φ : List ℕ → ℝ} {l : ℕ} {bl : List ℕ} (hb : bl.Nodup) (hl : bl.length = B.length)
    (hdet : ∀ o, InB B o → Real.cosh (r o) ^ 2 < 1e12) :
    ContractsTo (squeezedVacuum B r φ) (squeezedVacuum B r φ).conj bl [l] bl [l] bl [] fun _ _ => 1 := by
  unfold squeezedVacuum
  rw [conj_mk]
  have i0 : List.idxOf l [l] = 0 := by simp
  refine (one_label (m := l) ?_ ?_ (compat_norm (N := 1) (by simp) rfl hb hl) (by simp) ?_).congr ?_
  · intro β i hi j hj
    interval_cases i; interval_cases j; rfl
  · intro β i hi j hj
    interval_cases i; interval_cases j; rfl
  · intro o ho
    rw [outDims_zip hb hl] at ho
    rw [i0, restrict_self hl ho]
    simp only [mat_zero_zero]
    have hp : 0 < Real.cosh (r o) ^ 2 := by have := Real.cosh_pos (r o); positivity
    rw [sq_entry, Complex.norm_real, Real.norm_of_nonneg (by positivity), lt_div_iff₀ hp]
    linarith [hdet o ho]
  · intro o v ho
    rw [mk_outBatch, mk_outBatch, outDims_zip hb hl] at ho
    dsimp only
    rw [i0, restrict_self hl ho]
    unfold lin
    rw [i0, ev_mk1, ev_mk1]
    simp only [mat_zero_zero, Finset.sum_range_succ, Finset.sum_range_zero, List.getD_cons_zero, Function.update_self, map_zero]
    rw [sq_entry]
    have hc : (1 / ((1 / Real.cosh (r o) ^ 2 : ℝ) : ℂ)) ^ (1 / 2 : ℂ) = Real.cosh (r o) := by
      rw [show (1 / ((1 / Real.cosh (r o) ^ 2 : ℝ) : ℂ)) = ((Real.cosh (r o) ^ 2 : ℝ) : ℂ) by push_cast; rw [one_div_one_div],
        cpow_half (by positivity), Real.sqrt_sq (Real.cosh_pos _).le]
    rw [hc]
    have hs : ((Real.sqrt (Real.cosh (r o)) : ℝ) : ℂ) ^ 2 = Real.cosh (r o) := by
      exact_mod_cast congrArg Complex.ofReal (Real.sq_sqrt (Real.cosh_pos (r o)).le)
    have s0 : ((Real.sqrt (Real.cosh (r o)) : ℝ) : ℂ) ≠ 0 := by exact_mod_cast (Real.sqrt_pos.2 (Real.cosh_pos _)).ne'
    rw [map_div₀, map_one, Complex.conj_ofReal, ← hs]
    simp
    field_simp

/-- **C57**: every two-mode squeezed vacuum state has unit norm, as long as `(1 / cosh² r)²` is above the threshold of the code. -/
theorem C57_tmsv {r φ : List ℕ → ℝ} {l l' : ℕ} {bl : List ℕ} (hb : bl.Nodup) (hl : bl.length = B.length) (hll : l ≠ l')
    (hdet : ∀ o, InB B o → 1e-12 < (1 / Real.cosh (r o) ^ 2) ^ 2) :
    ContractsTo (tmsv B r φ) (tmsv B r φ).conj bl [l, l'] bl [l, l'] bl [] fun _ _ => 1 := by
  have i0 : List.idxOf l [l, l'] = 0 := by simp
  have i1 : List.idxOf l' [l, l'] = 1 := by rw [List.idxOf_cons_ne _ hll]; simp
  have hD : ∀ o, (1 : ℂ) - ph (φ o) * Real.sinh (r o) / Real.cosh (r o) * (starRingEnd ℂ) (ph (φ o) * Real.sinh (r o) / Real.cosh (r o)) =
      (1 / Real.cosh (r o) ^ 2 : ℝ) := by
    intro o
    rw [← sq_entry (r o) (φ o)]
    simp only [map_div₀, map_mul, map_neg, Complex.conj_ofReal]
    ring
  unfold tmsv
  rw [conj_mk]
  refine (two_label (m0 := l) (m1 := l') (a := fun o => ph (φ o) * Real.sinh (r o) / Real.cosh (r o))
    (a' := fun o => (starRingEnd ℂ) (ph (φ o) * Real.sinh (r o) / Real.cosh (r o))) ?_ ?_ (compat_norm (N := 2) (by simp [hll]) rfl hb hl) ?_ ?_ ?_ ?_).congr ?_
  · intro β i hi j hj
    interval_cases i <;> interval_cases j <;> rfl
  · intro β i hi j hj
    interval_cases i <;> interval_cases j <;> rfl
  · simp
  · intro β; rw [i0, i1]; exact ⟨rfl, rfl, rfl, rfl⟩
  · intro β; rw [i0, i1]; exact ⟨map_zero _, map_zero _, rfl, rfl⟩
  · intro o ho
    rw [outDims_zip hb hl] at ho
    rw [restrict_self hl ho, hD, Complex.norm_real, Real.norm_of_nonneg (by positivity), Complex.ofReal_re]
    exact ⟨by have := Real.cosh_pos (r o); positivity, hdet o ho⟩
  · intro o v ho
    rw [mk_outBatch, mk_outBatch, outDims_zip hb hl] at ho
    dsimp only
    rw [restrict_self hl ho, hD]
    unfold lin
    rw [i0, i1, ev_mk2, ev_mk2]
    simp only [mat_zero_zero, mat_succ, mat_col, Finset.sum_range_succ, Finset.sum_range_zero, List.getD_cons_zero, List.getD_cons_succ, Function.update_self,
      Function.update_of_ne hll, map_zero]
    have k1 : (Real.cosh (r o) : ℂ) ≠ 0 := by exact_mod_cast (Real.cosh_pos _).ne'
    simp only [map_div₀, map_mul, map_one, Complex.conj_ofReal]
    push_cast at k1 ⊢
    simp
    field_simp

/-- **C57**: a thermal state has unit trace as long as `1 / (n̄ + 1)²` is above the threshold, and its trace comes out infinite otherwise, i.e. for
`n̄ ≥ 999999`. -/
theorem C57_thermal {n : List ℕ → ℝ} (hn : ∀ β, InB B β → 0 ≤ n β) :
    ((thermal B n).trace [0] [1] (-1) = some .infinite ↔ ∃ β, InB B β ∧ 999999 ≤ n β) ∧
    ((∀ β, InB B β → n β < 999999) → ∃ h, (thermal B n).trace [0] [1] (-1) = some (.finite h) ∧ h.numCV = 0 ∧ h.outBatch = B ∧
      ∀ β, InB B β → ∀ y, h.call β y = 1) := by
  unfold thermal
  have hs : ∀ β, ∀ i < 2, ∀ j < 2, (let t : ℂ := n β / (n β + 1); mat [[0, t], [t, 0]]) i j = (let t : ℂ := n β / (n β + 1); mat [[0, t], [t, 0]]) j i := by
    intro β i hi j hj
    interval_cases i <;> interval_cases j <;> rfl
  have hD : ∀ β, InB B β → (1 - (n β : ℂ) / (n β + 1)) ^ 2 - 0 * 0 = ((1 / (n β + 1) ^ 2 : ℝ) : ℂ) := by
    intro β hβ
    have : (n β : ℂ) + 1 ≠ 0 := by
      have := hn β hβ
      exact_mod_cast (show n β + 1 ≠ 0 by linarith)
    push_cast
    field_simp
    ring
  have hN : ∀ β, InB B β → (‖(1 - (n β : ℂ) / (n β + 1)) ^ 2 - 0 * 0‖ ≤ 1e-12 ↔ 999999 ≤ n β) := by
    intro β hβ
    have h0 := hn β hβ
    rw [hD β hβ, Complex.norm_real, Real.norm_of_nonneg (by positivity), div_le_iff₀ (by positivity)]
    constructor
    · intro h; by_contra hc; nlinarith
    · intro h; nlinarith
  obtain ⟨h1, h2⟩ := trace_pair (B := B) (b := fun _ _ => 0) (c := fun β => 1 / (n β + 1 : ℂ)) hs (i := 0) (j := 1) (by norm_num) (by norm_num) (by norm_num)
  refine ⟨h1.trans (exists_congr fun β => and_congr_right fun hβ => hN β hβ), ?_⟩
  intro hlt
  obtain ⟨h, e1, e2, e3, e4⟩ := h2 (fun β hβ => not_le.1 fun hc => absurd ((hN β hβ).1 hc) (not_le.2 (hlt β hβ)))
  refine ⟨h, e1, e2, e3, ?_⟩
  intro β hβ y
  have e5 := e4 β hβ (fun _ => 0) rfl rfl
  have hy : h.call β y = h.call β (fun k => (fun _ => (0 : ℂ)) ((remCV 2 [0] [1]).getD k 0)) :=
    call_congr fun i hi => by rw [e2] at hi; exact absurd hi (by show ¬ i < 0; omega)
  rw [hy, e5, mk_call]
  have h0 := hn β hβ
  have hp : (n β : ℂ) + 1 ≠ 0 := by exact_mod_cast (show n β + 1 ≠ 0 by linarith)
  have hc : (1 / ((1 / (n β + 1) ^ 2 : ℝ) : ℂ)) ^ (1 / 2 : ℂ) = ((n β + 1 : ℝ) : ℂ) := by
    rw [show (1 / ((1 / (n β + 1) ^ 2 : ℝ) : ℂ)) = (((n β + 1) ^ 2 : ℝ) : ℂ) by push_cast; rw [one_div_one_div],
      cpow_half (by positivity), Real.sqrt_sq (by positivity)]
  simp only [Finset.sum_range_succ, Finset.sum_range_zero, mat_zero_zero, mat_succ, mat_col]
  rw [hD β hβ, hc]
  simp
  field_simp

/-- **C57**: the purity `Tr ρ²` of a thermal state is `1 / (2 n̄ + 1)`, as long as the determinant of the integral is above the threshold. -/
theorem C57_thermal_purity {n : List ℕ → ℝ} {l l' : ℕ} {bl : List ℕ} (hb : bl.Nodup) (hl : bl.length = B.length) (hll : l ≠ l')
    (hn : ∀ β, InB B β → 0 ≤ n β) (hdet : ∀ β, InB B β → 1e-12 < ((2 * n β + 1) / (n β + 1) ^ 2) ^ 2) :
    ContractsTo (thermal B n) (thermal B n).conj bl [l, l'] bl [l, l'] bl [] fun β _ => ((1 / (2 * n β + 1) : ℝ) : ℂ) := by
  have i0 : List.idxOf l [l, l'] = 0 := by simp
  have i1 : List.idxOf l' [l, l'] = 1 := by rw [List.idxOf_cons_ne _ hll]; simp
  have hD : ∀ o, InB B o → (1 : ℂ) - n o / (n o + 1) * (starRingEnd ℂ) (n o / (n o + 1)) = ((2 * n o + 1) / (n o + 1) ^ 2 : ℝ) := by
    intro o ho
    have : (n o : ℂ) + 1 ≠ 0 := by
      have := hn o ho
      exact_mod_cast (show n o + 1 ≠ 0 by linarith)
    simp only [map_div₀, map_add, map_one, Complex.conj_ofReal]
    push_cast
    field_simp
    ring
  unfold thermal
  rw [conj_mk]
  refine (two_label (m0 := l) (m1 := l') (a := fun o => (n o : ℂ) / (n o + 1))
    (a' := fun o => (starRingEnd ℂ) ((n o : ℂ) / (n o + 1))) ?_ ?_ (compat_norm (N := 2) (by simp [hll]) rfl hb hl) ?_ ?_ ?_ ?_).congr ?_
  · intro β i hi j hj
    interval_cases i <;> interval_cases j <;> rfl
  · intro β i hi j hj
    interval_cases i <;> interval_cases j <;> rfl
  · simp
  · intro β; rw [i0, i1]; exact ⟨rfl, rfl, rfl, rfl⟩
  · intro β; rw [i0, i1]; exact ⟨map_zero _, map_zero _, rfl, rfl⟩
  · intro o ho
    rw [outDims_zip hb hl] at ho
    have h0 := hn o ho
    rw [restrict_self hl ho, hD o ho, Complex.norm_real, Real.norm_of_nonneg (by positivity), Complex.ofReal_re]
    exact ⟨by positivity, hdet o ho⟩
  · intro o v ho
    rw [mk_outBatch, mk_outBatch, outDims_zip hb hl] at ho
    dsimp only
    rw [restrict_self hl ho, hD o ho]
    unfold lin
    rw [i0, i1, ev_mk2, ev_mk2]
    simp only [mat_zero_zero, mat_succ, mat_col, Finset.sum_range_succ, Finset.sum_range_zero, List.getD_cons_zero, List.getD_cons_succ, Function.update_self,
      Function.update_of_ne hll, map_zero]
    have h0 := hn o ho
    have k1 : (n o : ℂ) + 1 ≠ 0 := by exact_mod_cast (show n o + 1 ≠ 0 by linarith)
    have k2 : 2 * (n o : ℂ) + 1 ≠ 0 := by exact_mod_cast (show 2 * n o + 1 ≠ 0 by linarith)
    simp only [map_div₀, map_add, map_one, Complex.conj_ofReal]
    push_cast
    simp
    field_simp

/-- **C57**: the pure-loss channel is trace preserving: tracing out its output leaves the kernel of the trace, `exp(z w)`. -/
theorem C57_attenuator {η : List ℕ → ℝ} {f : PolyExp} (hf : attenuator B η = some f) :
    ∃ h, f.trace [0] [2] (-1) = some (.finite h) ∧ h.numCV = 2 ∧ h.outBatch = B ∧
      ∀ β, InB B β → ∀ y, h.call β y = Complex.exp (y 0 * y 1) := by
  have hη := attenuator_some hf
  rw [attenuator_def hη] at hf
  obtain rfl := Option.some.inj hf
  obtain ⟨_, h2⟩ := trace_pair (B := B) (N := 4) (b := fun _ _ => 0) (c := fun _ => 1) (i := 0) (j := 2) (A := fun β =>
      let e1 : ℂ := (Real.sqrt (η β) : ℝ)
      let e2 : ℂ := 1 - η β
      mat [[0, e1, 0, 0], [e1, 0, 0, e2], [0, 0, 0, e1], [0, e2, e1, 0]]) (by
    intro β i hi j hj
    interval_cases i <;> interval_cases j <;> rfl) (by norm_num) (by norm_num) (by norm_num)
  obtain ⟨h, e1, e2, e3, e4⟩ := h2 (by
    intro β hβ
    simp only [mat_zero_zero, mat_succ, mat_col]
    norm_num)
  refine ⟨h, e1, e2, e3, ?_⟩
  intro β hβ y
  have e5 := e4 β hβ (fun k => if k = 1 then y 0 else if k = 3 then y 1 else 0) rfl rfl
  have hy : h.call β y = h.call β (fun k => (fun k => if k = 1 then y 0 else if k = 3 then y 1 else 0) ((remCV 4 [0] [2]).getD k 0)) := by
    apply call_congr
    rw [e2]
    intro i hi
    change i < 2 at hi
    interval_cases i <;> rfl
  rw [hy, e5, mk_call]
  have hs : ((Real.sqrt (η β) : ℝ) : ℂ) ^ 2 = η β := by
    exact_mod_cast congrArg Complex.ofReal (Real.sq_sqrt (hη β hβ).1)
  simp only [Finset.sum_range_succ, Finset.sum_range_zero, mat_zero_zero, mat_succ, mat_col]
  simp only [sub_zero, one_pow, mul_zero, div_one, Complex.one_cpow, one_mul, mul_one]
  rw [← Complex.exp_add]
  refine congrArg Complex.exp ?_
  norm_num
  linear_combination (y 0 * y 1) * hs

/-- **C57**: the amplifier channel is trace preserving as long as `1 / g²` is above the threshold of the code (`g < 10⁶`). -/
theorem C57_amplifier {g : List ℕ → ℝ} {f : PolyExp} (hf : amplifier B g = some f) :
    (f.trace [0] [2] (-1) = some .infinite ↔ ∃ β, InB B β ∧ 1000000 ≤ g β) ∧
    ((∀ β, InB B β → g β < 1000000) → ∃ h, f.trace [0] [2] (-1) = some (.finite h) ∧ h.numCV = 2 ∧ h.outBatch = B ∧
      ∀ β, InB B β → ∀ y, h.call β y = Complex.exp (y 0 * y 1)) := by
  have hg := amplifier_some hf
  rw [amplifier_def hg] at hf
  obtain rfl := Option.some.inj hf
  have hD : ∀ β, InB B β → (1 - (1 - 1 / (g β : ℂ))) ^ 2 - 0 * 0 = ((1 / g β ^ 2 : ℝ) : ℂ) := by
    intro β hβ
    push_cast
    ring
  have hN : ∀ β, InB B β → (‖(1 - (1 - 1 / (g β : ℂ))) ^ 2 - 0 * 0‖ ≤ 1e-12 ↔ 1000000 ≤ g β) := by
    intro β hβ
    have h0 := hg β hβ
    rw [hD β hβ, Complex.norm_real, Real.norm_of_nonneg (by positivity), div_le_iff₀ (by positivity)]
    constructor
    · intro h; by_contra hc; nlinarith
    · intro h; nlinarith
  obtain ⟨h1, h2⟩ := trace_pair (B := B) (N := 4) (b := fun _ _ => 0) (c := fun β => 1 / (g β : ℂ)) (i := 0) (j := 2) (A := fun β =>
      let g1 : ℂ := 1 / ((Real.sqrt (g β) : ℝ) : ℂ)
      let g2 : ℂ := 1 - 1 / (g β : ℂ)
      mat [[0, g1, g2, 0], [g1, 0, 0, 0], [g2, 0, 0, g1], [0, 0, g1, 0]]) (by
    intro β i hi j hj
    interval_cases i <;> interval_cases j <;> rfl) (by norm_num) (by norm_num) (by norm_num)
  refine ⟨h1.trans (exists_congr fun β => and_congr_right fun hβ => hN β hβ), ?_⟩
  intro hlt
  obtain ⟨h, e1, e2, e3, e4⟩ := h2 (fun β hβ => not_le.1 fun hc => absurd ((hN β hβ).1 hc) (not_le.2 (hlt β hβ)))
  refine ⟨h, e1, e2, e3, ?_⟩
  intro β hβ y
  have e5 := e4 β hβ (fun k => if k = 1 then y 0 else if k = 3 then y 1 else 0) rfl rfl
  have hy : h.call β y = h.call β (fun k => (fun k => if k = 1 then y 0 else if k = 3 then y 1 else 0) ((remCV 4 [0] [2]).getD k 0)) := by
    apply call_congr
    rw [e2]
    intro i hi
    change i < 2 at hi
    interval_cases i <;> rfl
  rw [hy, e5, mk_call]
  have h0 := hg β hβ
  have hs : ((Real.sqrt (g β) : ℝ) : ℂ) ^ 2 = g β := by
    exact_mod_cast congrArg Complex.ofReal (Real.sq_sqrt (show 0 ≤ g β by linarith))
  have s0 : ((Real.sqrt (g β) : ℝ) : ℂ) ≠ 0 := by
    exact_mod_cast (Real.sqrt_pos.2 (by linarith : 0 < g β)).ne'
  have hc : (1 / ((1 / g β ^ 2 : ℝ) : ℂ)) ^ (1 / 2 : ℂ) = (g β : ℂ) := by
    rw [show (1 / ((1 / g β ^ 2 : ℝ) : ℂ)) = ((g β ^ 2 : ℝ) : ℂ) by push_cast; rw [one_div_one_div],
      cpow_half (by positivity), Real.sqrt_sq (by linarith)]
  simp only [Finset.sum_range_succ, Finset.sum_range_zero, mat_zero_zero, mat_succ, mat_col]
  rw [hD β hβ, hc]
  have e : ∀ a G d : ℂ, G ≠ 0 → Complex.exp a * (1 / G) * (G * Complex.exp d) = Complex.exp (a + d) := by
    intro a G d h; rw [Complex.exp_add]; field_simp
  rw [e _ _ _ (by exact_mod_cast (show g β ≠ 0 by linarith))]
  refine congrArg Complex.exp ?_
  rw [Complex.ofReal_div, Complex.ofReal_pow, ← hs]
  norm_num
  field_simp

end Verif.Triples
