import Verif.FastDiagCoords
import Verif.Herm
import Mathlib.Tactic.FieldSimp

/-!
# The fast diagonal strategy computes the conditional density matrices (property C42)
-/

namespace Verif.FastDiag
open Verif.Fock

/-! ### Pivots -/

theorem le_foldr_max (l : List ℕ) (x : ℕ) (h : x ∈ l) : x ≤ l.foldr max 0 := by
  induction l with
  | nil => simp at h
  | cons a l ih =>
    rw [List.foldr_cons]
    rcases List.mem_cons.mp h with rfl | h
    · exact le_max_left _ _
    · exact le_trans (ih h) (le_max_right _ _)

theorem foldr_max_mem (l : List ℕ) (h : l ≠ []) : l.foldr max 0 ∈ l := by
  induction l with
  | nil => exact absurd rfl h
  | cons a l ih =>
    rw [List.foldr_cons]
    by_cases hl : l = []
    · subst hl; simp
    · rcases max_choice a (l.foldr max 0) with h | h
      · rw [h]; simp
      · rw [h]; exact List.mem_cons_of_mem _ (ih hl)

theorem argmax_spec (l : List ℕ) (h : l ≠ []) :
    argmax l < l.length ∧ ∀ j, l.getD j 0 ≤ l.getD (argmax l) 0 := by
  have h1 : argmax l < l.length := by
    unfold argmax
    rw [List.findIdx_lt_length]
    exact ⟨_, foldr_max_mem l h, by simp⟩
  refine ⟨h1, fun j => ?_⟩
  have h2 : l[argmax l] = l.foldr max 0 := by
    have := List.findIdx_getElem (w := h1)
    simp only [decide_eq_true_eq] at this
    exact this
  rw [List.getD_eq_getElem _ _ h1, h2]
  by_cases hj : j < l.length
  · rw [List.getD_eq_getElem _ _ hj]
    exact le_foldr_max _ _ (List.getElem_mem hj)
  · rw [List.getD_eq_default _ _ (by omega)]
    exact Nat.zero_le _

theorem lower_getD (k : List ℕ) (j x : ℕ) :
    (lower k j).getD x 0 = if x = j then k.getD j 0 - 1 else k.getD x 0 := by
  unfold lower
  by_cases hx : x < k.length
  · rw [List.getD_eq_getElem _ _ (by simpa using hx), List.getElem_set]
    by_cases h : x = j
    · rw [if_pos h.symm, if_pos h]
    · rw [if_neg (Ne.symm h), if_neg h, List.getD_eq_getElem _ _ hx]
  · rw [List.getD_eq_default _ _ (by simpa using hx)]
    by_cases h : x = j
    · rw [if_pos h, ← h, List.getD_eq_default _ _ (by omega)]
    · rw [if_neg h, List.getD_eq_default _ _ (by omega)]

theorem length_lower (k : List ℕ) (j : ℕ) : (lower k j).length = k.length := by simp [lower]

theorem lower_sum (k : List ℕ) (j : ℕ) (h : 0 < k.getD j 0) : (lower k j).sum + 1 = k.sum := by
  induction k generalizing j with
  | nil => simp at h
  | cons a k ih =>
    cases j with
    | zero =>
      simp only [List.getD_cons_zero] at h
      simp only [lower, List.set_cons_zero, List.getD_cons_zero, List.sum_cons]
      omega
    | succ j =>
      simp only [List.getD_cons_succ] at h
      have := ih j h
      simp only [lower, List.set_cons_succ, List.getD_cons_succ, List.sum_cons] at this ⊢
      omega

/-- Lowering a coordinate all of whose pairs differ by at most one. -/
theorem lower_diag {m k : List ℕ} (hd : Diag m k) (h1 : ∀ i, i < m.length → dl k i ≤ 1) (j : ℕ) :
    Diag m (lower k j) := by
  have hdl : ∀ i, dl (lower k j) i ≠ dl k i → i = j / 2 := by
    intro i hi
    unfold dl at hi
    rw [lower_getD, lower_getD] at hi
    by_contra h
    rw [if_neg (by omega), if_neg (by omega)] at hi
    exact hi rfl
  refine ⟨by rw [length_lower, hd.len], ?_, ?_, ?_⟩
  · intro i hi
    have := hd.bound i hi
    rw [lower_getD, lower_getD]
    split_ifs with h h' h' <;> first | omega | (subst h; omega) | (rw [← h']; omega)
  · intro i hi
    have := h1 i hi
    unfold dl at this ⊢
    rw [lower_getD, lower_getD]
    split_ifs with h h' h'
    · omega
    · rw [← h]; omega
    · rw [← h']; omega
    · omega
  · intro a b ha hb h2 h2'
    have e1 := hdl a (by have := h1 a ha; omega)
    have e2 := hdl b (by have := h1 b hb; omega)
    omega

theorem exists_pos_of_sum {k : List ℕ} (h : 0 < k.sum) : ∃ j, 0 < k.getD j 0 := by
  induction k with
  | nil => simp at h
  | cons a k ih =>
    rw [List.sum_cons] at h
    by_cases ha : 0 < a
    · exact ⟨0, by simpa using ha⟩
    · obtain ⟨j, hj⟩ := ih (by omega)
      exact ⟨j + 1, by simpa using hj⟩

/-- `get_pivot` lowers a positive entry, and in the result all pairs differ by at most one. -/
theorem getPivot_spec {m k : List ℕ} (hm : m ≠ []) (hd : Diag m k) (hs : 0 < k.sum) :
    (getPivot k).1 < k.length ∧ 0 < k.getD (getPivot k).1 0 ∧ (getPivot k).2 = lower k (getPivot k).1 ∧
    Diag m (getPivot k).2 ∧ ∀ i, i < m.length → dl (getPivot k).2 i ≤ 1 := by
  have hml : 0 < m.length := List.length_pos_iff.mpr hm
  have hk : k ≠ [] := by
    intro h; rw [h] at hs; simp at hs
  have hlen := hd.len
  have hh : k.length / 2 = m.length := by omega
  set l := (List.range (k.length / 2)).map (dl k) with hl
  have hll : l.length = m.length := by rw [hl]; simp [hh]
  have hlg : ∀ i, i < m.length → l.getD i 0 = dl k i := fun i hi => by
    rw [List.getD_eq_getElem _ _ (by omega)]
    simp [hl]
  obtain ⟨ha1, ha2⟩ := argmax_spec l (by rw [← List.length_pos_iff]; omega)
  rw [hll] at ha1
  have hmax : ∀ i, i < m.length → dl k i ≤ dl k (argmax l) := fun i hi => by
    rw [← hlg i hi, ← hlg _ ha1]; exact ha2 i
  -- it suffices to treat the three ways of lowering
  have key : ∀ x, x < k.length → 0 < k.getD x 0 →
      (∀ i, i < m.length → i ≠ x / 2 → dl k i ≤ 1) →
      (dl (lower k x) (x / 2) ≤ 1) →
      Diag m (lower k x) ∧ ∀ i, i < m.length → dl (lower k x) i ≤ 1 := by
    intro x hx hpos hoth hself
    have hsame : ∀ i, i ≠ x / 2 → dl (lower k x) i = dl k i := by
      intro i hi
      unfold dl
      rw [lower_getD, lower_getD, if_neg (by omega), if_neg (by omega)]
    have hall : ∀ i, i < m.length → dl (lower k x) i ≤ 1 := by
      intro i hi
      by_cases h : i = x / 2
      · rw [h]; exact hself
      · rw [hsame i h]; exact hoth i hi h
    refine ⟨⟨by rw [length_lower, hlen], ?_, fun i hi => le_trans (hall i hi) (by omega), ?_⟩, hall⟩
    · intro i hi
      have := hd.bound i hi
      rw [lower_getD, lower_getD]
      split_ifs with h h' h' <;> first | omega | (subst h; omega) | (rw [← h']; omega)
    · intro a b ha hb h2 h2'
      have := hall a ha
      omega
  have hpiv : getPivot k = if dl k (argmax l) = 0 then (argmax k, lower k (argmax k))
      else if k.getD (2 * argmax l + 1) 0 < k.getD (2 * argmax l) 0 then (2 * argmax l, lower k (2 * argmax l))
      else (2 * argmax l + 1, lower k (2 * argmax l + 1)) := rfl
  have hoth : dl k (argmax l) ≠ 0 → ∀ i, i < m.length → i ≠ argmax l → dl k i ≤ 1 := by
    intro _ i hi hne
    have h1 := hd.close i hi
    have h2 := hd.once i (argmax l) hi ha1
    have h3 := hmax i hi
    have h4 := hd.close _ ha1
    by_contra hcon
    exact hne (h2 (by omega) (by omega))
  have hc := hd.close _ ha1
  rw [hpiv]
  split_ifs with h0 hlt
  · obtain ⟨hk1, hk2⟩ := argmax_spec k hk
    obtain ⟨j, hj⟩ := exists_pos_of_sum hs
    have hpos : 0 < k.getD (argmax k) 0 := lt_of_lt_of_le hj (hk2 j)
    refine ⟨hk1, hpos, rfl, key _ hk1 hpos (fun i hi _ => ?_) ?_⟩
    · have := hmax i hi; omega
    · have hx : argmax k / 2 < m.length := by omega
      have := hmax _ hx
      rw [h0] at this
      unfold dl at this ⊢
      rw [lower_getD, lower_getD]
      rcases Nat.even_or_odd' (argmax k) with ⟨y, hy | hy⟩
      · rw [show argmax k / 2 = y by omega] at this ⊢
        rw [if_pos hy.symm, if_neg (by omega), hy]
        omega
      · rw [show argmax k / 2 = y by omega] at this ⊢
        rw [if_neg (by omega), if_pos hy.symm, hy]
        omega
  · have hpos : 0 < k.getD (2 * argmax l) 0 := by omega
    refine ⟨by omega, hpos, rfl, key _ (by omega) hpos ?_ ?_⟩
    · intro i hi hne
      exact hoth h0 i hi (by omega)
    · rw [show 2 * argmax l / 2 = argmax l by omega]
      unfold dl at hc ⊢
      rw [lower_getD, lower_getD, if_pos rfl, if_neg (by omega)]
      omega
  · have hpos : 0 < k.getD (2 * argmax l + 1) 0 := by
      unfold dl at h0; omega
    refine ⟨by omega, hpos, rfl, key _ (by omega) hpos ?_ ?_⟩
    · intro i hi hne
      exact hoth h0 i hi (by omega)
    · rw [show (2 * argmax l + 1) / 2 = argmax l by omega]
      unfold dl at hc h0 ⊢
      rw [lower_getD, lower_getD, if_neg (by omega), if_pos rfl]
      omega

/-! ### One step of the recursion -/

/-- The block of amplitudes whose last entries are `k`. -/
noncomputable def G (D : ℕ) (A : ℕ → ℕ → ℂ) (b : ℕ → ℂ) (c : ℂ) (k : List ℕ) : Mat :=
  fun r s => amp D A b c (r :: s :: k).toFinsupp

/-- The matrix `M` agrees with the block of `k` within the output cutoff. -/
def OK (D : ℕ) (A : ℕ → ℕ → ℂ) (b : ℕ → ℂ) (c : ℂ) (oc : ℕ) (k : List ℕ) (M : Mat) : Prop :=
  ∀ r s, r ≤ oc → s ≤ oc → M r s = G D A b c k r s

theorem toF_lower (r s : ℕ) (k : List ℕ) (j : ℕ) :
    dn (r :: s :: k).toFinsupp (j + 2) = (r :: s :: lower k j).toFinsupp := by
  ext x
  rw [dn, Finsupp.tsub_apply, List.toFinsupp_apply, List.toFinsupp_apply, Finsupp.single_apply]
  match x with
  | 0 => simp
  | 1 => simp
  | x + 2 =>
    simp only [List.getD_cons_succ]
    rw [lower_getD]
    by_cases h : x = j
    · rw [if_pos h, if_pos (by omega), h]
    · rw [if_neg h, if_neg (by omega), Nat.sub_zero]

theorem lowSum_eq (A : ℕ → ℕ → ℂ) (buf2 : Dict) (i : ℕ) (pivot : List ℕ) (M : ℕ → Mat) :
    ∀ (js : List ℕ) (val : Mat), (∀ j ∈ js, 0 < pivot.getD j 0 → buf2 (lower pivot j) = some (M j)) →
      lowSum A buf2 i pivot js val = some fun r s =>
        val r s + (js.map fun j => if 0 < pivot.getD j 0 then
          A (i + 2) (j + 2) * Fock.sq (pivot.getD j 0) * M j r s else 0).sum := by
  intro js
  induction js with
  | nil => intro val _; simp [lowSum]
  | cons j js ih =>
    intro val h
    rw [lowSum]
    split_ifs with hp
    · rw [h j (by simp) hp, Option.bind_some, ih _ fun j' hj' => h j' (by simp [hj'])]
      congr 1
      funext r s
      rw [List.map_cons, List.sum_cons, if_pos hp, add_assoc]
    · rw [ih _ fun j' hj' => h j' (by simp [hj'])]
      congr 1
      funext r s
      rw [List.map_cons, List.sum_cons, if_neg hp, zero_add]

theorem list_range_sum (n : ℕ) (f : ℕ → ℂ) : ((List.range n).map f).sum = ∑ j ∈ Finset.range n, f j := by
  rw [Finset.sum_range]
  rw [← List.sum_ofFn, List.ofFn_eq_map]
  rw [← List.map_coe_finRange_eq_range, List.map_map]
  rfl

/-- `single_step` computes the block of `k` from the blocks of the pivot and of the lowered pivots. -/
theorem singleStep_ok {A : ℕ → ℕ → ℂ} {b : ℕ → ℂ} (c : ℂ) {oc : ℕ} {k : List ℕ} {buf1 buf2 : Dict} {i : ℕ}
    (hA : Symm (k.length + 2) A) (hi : i < k.length) (hpos : 0 < k.getD i 0)
    (h1 : ∃ M, buf1 (lower k i) = some M ∧ OK (k.length + 2) A b c oc (lower k i) M)
    (h2 : ∀ j, j < k.length → 0 < (lower k i).getD j 0 →
      ∃ M, buf2 (lower (lower k i) j) = some M ∧ OK (k.length + 2) A b c oc (lower (lower k i) j) M) :
    ∃ M, singleStep A b buf1 buf2 i (lower k i) = some M ∧ OK (k.length + 2) A b c oc k M := by
  obtain ⟨P, hP, hPok⟩ := h1
  classical
  choose! Q hQ using h2
  have hl : (lower k i).length = k.length := length_lower k i
  refine ⟨fun r s => (b (i + 2) * P r s
        + (if 1 ≤ r then A (i + 2) 0 * Fock.sq r * P (r - 1) s else 0)
        + (if 1 ≤ s then A (i + 2) 1 * Fock.sq s * P r (s - 1) else 0)
        + ((List.range (lower k i).length).map fun j => if 0 < (lower k i).getD j 0 then
          A (i + 2) (j + 2) * Fock.sq ((lower k i).getD j 0) * Q j r s else 0).sum)
        / Fock.sq ((lower k i).getD i 0 + 1), ?_, ?_⟩
  · unfold singleStep
    rw [hP, Option.bind_some, lowSum_eq A buf2 i (lower k i) Q, Option.map_some]
    intro j hj hp
    rw [List.mem_range, hl] at hj
    exact (hQ j hj hp).1
  · intro r s hr hs
    have hki : (r :: s :: k).toFinsupp (i + 2) ≠ 0 := by
      rw [List.toFinsupp_apply]
      simp only [List.getD_cons_succ]
      omega
    unfold G
    rw [amp_rec c hA (i := i + 2) (by omega) _ hki, toF_lower, Finset.sum_range_succ', Finset.sum_range_succ']
    have e1 : (r :: s :: k).toFinsupp (i + 2) = (lower k i).getD i 0 + 1 := by
      rw [List.toFinsupp_apply, lower_getD, if_pos rfl]
      simp only [List.getD_cons_succ]
      omega
    rw [e1]
    refine congrArg (· / _) ?_
    rw [hl, list_range_sum]
    have e2 : (∑ j ∈ Finset.range k.length, if 0 < (lower k i).getD j 0 then
          A (i + 2) (j + 2) * Fock.sq ((lower k i).getD j 0) * Q j r s else 0)
        = ∑ j ∈ Finset.range k.length, A (i + 2) (j + 1 + 1) * Fock.sq ((r :: s :: lower k i).toFinsupp (j + 1 + 1))
            * amp (k.length + 2) A b c (dn (r :: s :: lower k i).toFinsupp (j + 1 + 1)) := by
      refine Finset.sum_congr rfl fun j hj => ?_
      have hv : (r :: s :: lower k i).toFinsupp (j + 1 + 1) = (lower k i).getD j 0 := by
        rw [List.toFinsupp_apply]; simp only [List.getD_cons_succ]
      rw [hv]
      split_ifs with hp
      · rw [(hQ j (Finset.mem_range.mp hj) hp).2 r s hr hs, G, toF_lower]
      · rw [show (lower k i).getD j 0 = 0 by omega, Fock.sq_zero]; ring
    have e3 : (if 1 ≤ r then A (i + 2) 0 * Fock.sq r * P (r - 1) s else 0)
        = A (i + 2) 0 * Fock.sq ((r :: s :: lower k i).toFinsupp 0)
            * amp (k.length + 2) A b c (dn (r :: s :: lower k i).toFinsupp 0) := by
      have hv : (r :: s :: lower k i).toFinsupp 0 = r := by rw [List.toFinsupp_apply]; simp
      rw [hv]
      split_ifs with hp
      · rw [hPok (r - 1) s (by omega) hs, G]
        refine congrArg (HMul.hMul _) (congrArg _ ?_)
        ext x
        rw [dn, Finsupp.tsub_apply, List.toFinsupp_apply, List.toFinsupp_apply, Finsupp.single_apply]
        match x with
        | 0 => simp
        | x + 1 => simp
      · rw [show r = 0 by omega, Fock.sq_zero]; ring
    have e4 : (if 1 ≤ s then A (i + 2) 1 * Fock.sq s * P r (s - 1) else 0)
        = A (i + 2) (0 + 1) * Fock.sq ((r :: s :: lower k i).toFinsupp (0 + 1))
            * amp (k.length + 2) A b c (dn (r :: s :: lower k i).toFinsupp (0 + 1)) := by
      have hv : (r :: s :: lower k i).toFinsupp (0 + 1) = s := by rw [List.toFinsupp_apply]; simp
      rw [hv]
      split_ifs with hp
      · rw [hPok r (s - 1) hr (by omega), G]
        refine congrArg (HMul.hMul _) (congrArg _ ?_)
        ext x
        rw [dn, Finsupp.tsub_apply, List.toFinsupp_apply, List.toFinsupp_apply, Finsupp.single_apply]
        match x with
        | 0 => simp
        | 1 => simp
        | x + 2 => simp
      · rw [show s = 0 by omega, Fock.sq_zero]; ring
    rw [e2, e3, e4, hPok r s hr hs, G]
    ring

/-! ### The loops -/

theorem fill_spec {A : ℕ → ℕ → ℂ} {b : ℕ → ℂ} {buf1 buf2 : Dict} (Q : List ℕ → Mat → Prop) :
    ∀ (ws : List (List ℕ)) (d : Dict),
      (∀ w ∈ ws, ∃ M, singleStep A b buf1 buf2 (getPivot w).1 (getPivot w).2 = some M ∧ Q w M) →
      ∃ d', fill A b buf1 buf2 ws d = some d' ∧ (∀ w ∈ ws, ∃ M, d' w = some M ∧ Q w M) ∧
        ∀ w, w ∉ ws → d' w = d w := by
  intro ws
  induction ws with
  | nil => intro d _; exact ⟨d, rfl, by simp, fun _ _ => rfl⟩
  | cons w ws ih =>
    intro d h
    obtain ⟨M, hM, hQ⟩ := h w (by simp)
    obtain ⟨d', h1, h2, h3⟩ := ih (Function.update d w (some M)) fun w' hw' => h w' (by simp [hw'])
    refine ⟨d', by rw [fill, hM, Option.bind_some, h1], ?_, ?_⟩
    · intro w' hw'
      by_cases hin : w' ∈ ws
      · exact h2 w' hin
      · have : w' = w := by
          rcases List.mem_cons.mp hw' with h | h
          · exact h
          · exact absurd h hin
        subst this
        exact ⟨M, by rw [h3 _ hin, Function.update_self], hQ⟩
    · intro w' hw'
      rw [List.mem_cons, not_or] at hw'
      rw [h3 _ hw'.2, Function.update_of_ne hw'.1]

theorem emit_spec {buf0 : Dict} (Q : List ℕ → Mat → Prop) :
    ∀ (ps : List (List ℕ)) (out : List ℕ → Mat),
      (∀ p ∈ ps, ∃ M, buf0 (dup p) = some M ∧ Q p M) →
      ∃ out', emit buf0 ps out = some out' ∧ (∀ p ∈ ps, Q p (out' p)) ∧ ∀ p, p ∉ ps → out' p = out p := by
  intro ps
  induction ps with
  | nil => intro out _; exact ⟨out, rfl, by simp, fun _ _ => rfl⟩
  | cons p ps ih =>
    intro out h
    obtain ⟨M, hM, hQ⟩ := h p (by simp)
    obtain ⟨out', h1, h2, h3⟩ := ih (Function.update out p M) fun p' hp' => h p' (by simp [hp'])
    refine ⟨out', by rw [emit, hM, Option.bind_some, h1], ?_, ?_⟩
    · intro p' hp'
      by_cases hin : p' ∈ ps
      · exact h2 p' hin
      · have : p' = p := by
          rcases List.mem_cons.mp hp' with h | h
          · exact h
          · exact absurd h hin
        subst this
        rw [h3 _ hin, Function.update_self]
        exact hQ
    · intro p' hp'
      rw [List.mem_cons, not_or] at hp'
      rw [h3 _ hp'.2, Function.update_of_ne hp'.1]

theorem dup_eq (p : List ℕ) : dup p = flat (p.map fun x => (x, x)) := by
  induction p with
  | nil => rfl
  | cons a p ih =>
    show a :: a :: dup p = a :: a :: flat (p.map fun x => (x, x))
    rw [ih]

theorem dup_sum (p : List ℕ) : (dup p).sum = 2 * p.sum := by
  induction p with
  | nil => rfl
  | cons a p ih =>
    show (a :: a :: dup p).sum = _
    simp only [List.sum_cons, ih]
    omega

theorem length_dup (p : List ℕ) : (dup p).length = 2 * p.length := by
  rw [dup_eq, length_flat, List.length_map]

theorem dup_getD (p : List ℕ) (i : ℕ) :
    (dup p).getD (2 * i) 0 = p.getD i 0 ∧ (dup p).getD (2 * i + 1) 0 = p.getD i 0 := by
  rw [dup_eq, (flat_getD _ i).1, (flat_getD _ i).2]
  by_cases hi : i < p.length
  · rw [List.getD_eq_getElem _ _ (by simpa using hi), List.getElem_map, List.getD_eq_getElem _ _ hi]
    exact ⟨rfl, rfl⟩
  · rw [List.getD_eq_default _ _ (by simpa using hi), List.getD_eq_default _ _ (by omega)]
    exact ⟨rfl, rfl⟩

theorem dup_diag {m p : List ℕ} (h : List.Forall₂ (· ≤ ·) p m) : Diag m (dup p) := by
  rw [forall2_getD 0 0] at h
  have h0 : ∀ i, dl (dup p) i = 0 := fun i => by
    unfold dl
    rw [(dup_getD p i).1, (dup_getD p i).2]
    simp
  refine ⟨by rw [length_dup, h.1], ?_, ?_, ?_⟩
  · intro i hi
    rw [(dup_getD p i).1, (dup_getD p i).2]
    exact ⟨h.2 i hi, h.2 i hi⟩
  · intro i _; rw [h0]; omega
  · intro i j _ _ h1 _; rw [h0] at h1; omega

/-- A buffer holds the blocks of all coordinates of weight `t`. -/
def Holds (D : ℕ) (A : ℕ → ℕ → ℂ) (b : ℕ → ℂ) (c : ℂ) (oc : ℕ) (m : List ℕ) (t : ℕ) (d : Dict) : Prop :=
  ∀ k, Diag m k → k.sum = t → ∃ M, d k = some M ∧ OK D A b c oc k M

theorem weights_spec {A : ℕ → ℕ → ℂ} {b : ℕ → ℂ} (c : ℂ) (oc : ℕ) {m : List ℕ} (hm : m ≠ [])
    (hA : Symm (2 * m.length + 2) A) :
    ∀ (n t : ℕ) (buf1 buf0 : Dict) (out : List ℕ → Mat),
      Holds (2 * m.length + 2) A b c oc m t buf0 →
      (∀ t', t' + 1 = t → Holds (2 * m.length + 2) A b c oc m t' buf1) →
      (∀ p, List.Forall₂ (· ≤ ·) p m →
        if 2 * p.sum ≤ t then OK (2 * m.length + 2) A b c oc (dup p) (out p) else out p = fun _ _ => 0) →
      ∃ out', weights A b m (List.range' (t + 1) n) buf1 buf0 out = some out' ∧
        ∀ p, List.Forall₂ (· ≤ ·) p m →
          if 2 * p.sum ≤ t + n then OK (2 * m.length + 2) A b c oc (dup p) (out' p) else out' p = fun _ _ => 0 := by
  intro n
  induction n with
  | zero =>
    intro t buf1 buf0 out h0 h1 hout
    exact ⟨out, rfl, hout⟩
  | succ n ih =>
    intro t buf1 buf0 out h0 h1 hout
    -- the new buffer
    obtain ⟨new, hnew, hin, -⟩ := fill_spec (A := A) (b := b) (buf1 := buf0) (buf2 := buf1)
      (OK (2 * m.length + 2) A b c oc) (enumCoords (t + 1) m) (fun _ => none) (by
        intro w hw
        obtain ⟨hd, hs⟩ := (mem_enumCoords m hm (t + 1) w).mp hw
        obtain ⟨g1, g2, g3, g4, g5⟩ := getPivot_spec hm hd (by omega)
        rw [g3] at g4 g5 ⊢
        have hsum := lower_sum w _ g2
        rw [← hd.len] at hA h0 h1 ⊢
        refine singleStep_ok c hA g1 g2 (h0 _ g4 (by omega)) fun j hj hp => ?_
        have hsum2 := lower_sum _ j hp
        exact h1 (t - 1) (by omega) _ (lower_diag g4 g5 j) (by omega))
    have hholds : Holds (2 * m.length + 2) A b c oc m (t + 1) new := fun k hk hs =>
      hin k ((mem_enumCoords m hm (t + 1) k).mpr ⟨hk, hs⟩)
    -- the output after this weight
    obtain ⟨out', hout', hprop⟩ : ∃ out', (if (t + 1) % 2 = 0 then emit new (genPart ((t + 1) / 2) m) out
        else some out) = some out' ∧ ∀ p, List.Forall₂ (· ≤ ·) p m →
          if 2 * p.sum ≤ t + 1 then OK (2 * m.length + 2) A b c oc (dup p) (out' p)
          else out' p = fun _ _ => 0 := by
      split_ifs with hpar
      · obtain ⟨out', e1, e2, e3⟩ := emit_spec (buf0 := new)
          (fun p => OK (2 * m.length + 2) A b c oc (dup p)) (genPart ((t + 1) / 2) m) out (by
            intro p hp
            obtain ⟨hp1, hp2⟩ := (mem_genPart m hm _ p).mp hp
            exact hholds (dup p) (dup_diag hp1) (by rw [dup_sum]; omega))
        refine ⟨out', e1, fun p hp => ?_⟩
        by_cases hs : p.sum = (t + 1) / 2
        · rw [if_pos (by omega)]
          exact e2 p ((mem_genPart m hm _ p).mpr ⟨hp, hs⟩)
        · have hnot : p ∉ genPart ((t + 1) / 2) m := fun h => hs ((mem_genPart m hm _ p).mp h).2
          have := hout p hp
          rw [e3 p hnot]
          by_cases h2 : 2 * p.sum ≤ t
          · rw [if_pos h2] at this
            rw [if_pos (by omega)]
            exact this
          · rw [if_neg h2] at this
            rw [if_neg (by omega)]
            exact this
      · refine ⟨out, rfl, fun p hp => ?_⟩
        have := hout p hp
        by_cases h2 : 2 * p.sum ≤ t
        · rw [if_pos h2] at this
          rw [if_pos (by omega)]
          exact this
        · rw [if_neg h2] at this
          rw [if_neg (by omega)]
          exact this
    obtain ⟨out'', f1, f2⟩ := ih (t + 1) buf0 new out' hholds
      (fun t' ht' => by rw [show t' = t by omega]; exact h0) hprop
    refine ⟨out'', ?_, fun p hp => ?_⟩
    · rw [List.range'_succ, weights, if_neg hm, hnew, Option.bind_some, hout', Option.bind_some]
      exact f1
    · have := f2 p hp
      rwa [show t + 1 + n = t + (n + 1) by omega] at this

/-! ### The reordering of the variables -/

/-- The permutation of `fast_diagonal`, extended by the identity. -/
def sig (L x : ℕ) : ℕ := if x < 2 * L then perm L x else x

theorem sig_even (L i : ℕ) (h : i < L) : sig L (2 * i) = i := by
  unfold sig perm
  rw [if_pos (by omega), if_pos (by omega)]
  omega

theorem sig_odd (L i : ℕ) (h : i < L) : sig L (2 * i + 1) = i + L := by
  unfold sig perm
  rw [if_pos (by omega), if_neg (by omega)]
  omega

theorem sig_inj (L : ℕ) : Function.Injective (sig L) := by
  intro x y h
  unfold sig perm at h
  split_ifs at h <;> omega

theorem sig_lt (L i : ℕ) (h : i < 2 * L) : sig L i < 2 * L := by
  unfold sig perm
  split_ifs <;> omega

/-- The amplitudes of the interleaved variables are those of the original ones. -/
theorem amp_interleave (L : ℕ) (A : ℕ → ℕ → ℂ) (b : ℕ → ℂ) (c : ℂ) (r s : ℕ) (p : List ℕ)
    (hp : p.length + 1 = L) :
    amp (2 * L) (fun i j => A (perm L i) (perm L j)) (fun i => b (perm L i)) c (r :: s :: dup p).toFinsupp
      = amp (2 * L) A b c ((r :: p) ++ (s :: p)).toFinsupp := by
  have h1 : amp (2 * L) (fun i j => A (perm L i) (perm L j)) (fun i => b (perm L i)) c
      (r :: s :: dup p).toFinsupp
      = amp (2 * L) (fun i j => A (sig L i) (sig L j)) (fun i => b (sig L i)) c
      (r :: s :: dup p).toFinsupp := by
    refine amp_congr _ (fun i hi j hj => ?_) (fun i hi => ?_) _
    · unfold sig; rw [if_pos hi, if_pos hj]
    · unfold sig; rw [if_pos hi]
  rw [h1, amp_rename A b c (sig L) (sig_inj L) (fun i hi => sig_lt L i hi)]
  refine congrArg _ ?_
  have hfl : r :: s :: dup p = flat ((r, s) :: p.map fun x => (x, x)) := by
    rw [dup_eq]; rfl
  have hev : ∀ i, (r :: s :: dup p).getD (2 * i) 0 = (r :: p).getD i 0 := by
    intro i
    cases i with
    | zero => simp
    | succ i =>
      rw [show 2 * (i + 1) = 2 * i + 1 + 1 by ring]
      simp only [List.getD_cons_succ]
      exact (dup_getD p i).1
  have hod : ∀ i, (r :: s :: dup p).getD (2 * i + 1) 0 = (s :: p).getD i 0 := by
    intro i
    cases i with
    | zero => simp
    | succ i =>
      rw [show 2 * (i + 1) + 1 = 2 * i + 1 + 1 + 1 by ring]
      simp only [List.getD_cons_succ]
      exact (dup_getD p i).2
  ext y
  have hlen : (r :: p).length = L := by simpa using hp
  rw [List.toFinsupp_apply]
  by_cases hy : y < L
  · rw [← sig_even L y hy, Finsupp.mapDomain_apply (sig_inj L), List.toFinsupp_apply, hev, sig_even L y hy,
      List.getD_append _ _ _ _ (by omega)]
  · by_cases hy2 : y < 2 * L
    · obtain ⟨x, rfl⟩ : ∃ x, y = x + L := ⟨y - L, by omega⟩
      rw [← sig_odd L x (by omega), Finsupp.mapDomain_apply (sig_inj L), List.toFinsupp_apply, hod,
        sig_odd L x (by omega), List.getD_append_right _ _ _ _ (by omega), hlen, Nat.add_sub_cancel]
    · have hs : sig L y = y := by unfold sig; rw [if_neg hy2]
      rw [List.getD_eq_default _ _ (by simp only [List.length_append, List.length_cons]; omega)]
      conv_lhs => rw [← hs]
      rw [Finsupp.mapDomain_apply (sig_inj L), List.toFinsupp_apply, List.getD_eq_default]
      simp only [List.length_cons, length_dup]; omega

end Verif.FastDiag
