import Verif.MixedLayout
import Mathlib.Algebra.BigOperators.Group.Finset.Basic

/-!
# The function of a contraction of a polynomial with a Gaussian (for C111)
-/

namespace Verif.Mixed
open Verif.Fock Verif.Batch Verif.PolyExp PolyExp Verif.ToBargmann Verif.Triples

variable {f g : PolyExp} {c1 c2 co : List ℕ}

/-- The position of an output label among the variables of the two operands. -/
def posL (c1 c2 : List ℕ) (l : ℕ) : ℕ := if l ∈ c2 then c1.length + c2.idxOf l else c1.idxOf l

theorem labels (H : Compat f g [] c1 [] c2 [] co) : Labels c1 c2 co := ⟨H.nc1, H.nc2, H.out⟩

theorem reindex (H : Compat f g [] c1 [] c2 [] co) (Φ : ℕ → ℂ → ℂ) (y : ℕ → ℂ) :
    ∑ x ∈ Finset.range (remCV (f.numCV + g.numCV) (zIdx c1 c2) (zcIdx f.numCV c1 c2)).length,
      Φ ((remCV (f.numCV + g.numCV) (zIdx c1 c2) (zcIdx f.numCV c1 c2)).getD x 0) (y (co.idxOf ((leftover c1 c2).getD x 0))) =
    ∑ a ∈ Finset.range co.length, Φ (posL c1 c2 (co.getD a 0)) (y a) := by
  obtain ⟨R, hR⟩ : ∃ R, R = remCV (f.numCV + g.numCV) (zIdx c1 c2) (zcIdx f.numCV c1 c2) := ⟨_, rfl⟩
  have hRl : R.map (fun i => (c1 ++ c2).getD i 0) = leftover c1 c2 := by rw [hR]; exact rem_labels H
  rw [← hR]
  have hlen : (leftover c1 c2).length = R.length := by rw [← hRl, List.length_map]
  have hpos : ∀ v ∈ R, posL c1 c2 ((c1 ++ c2).getD v 0) = v := by
    intro v hv
    rw [hR] at hv
    unfold remCV at hv
    rw [List.mem_filter, List.mem_range, decide_eq_true_eq, List.mem_append, not_or] at hv
    obtain ⟨hv1, hv2, hv3⟩ := hv
    unfold posL
    by_cases h : v < c1.length
    · rw [List.getD_append _ _ _ _ h, if_neg, PolyExp.idxOf_getD H.nc1 h]
      intro hm
      exact hv2 ((zIdx_mem H (by rw [← H.lc1]; exact h)).2 (mem_sharedL.2 ⟨getD_mem' h, hm⟩))
    · have h2 : v - c1.length < c2.length := by rw [H.lc2, H.lc1]; have := H.lc1; omega
      rw [List.getD_append_right _ _ _ _ (by omega), if_pos (getD_mem' h2), PolyExp.idxOf_getD H.nc2 h2]
      omega
  have hx : ∀ x < R.length, R.getD x 0 = posL c1 c2 ((leftover c1 c2).getD x 0) := by
    intro x hx
    have : (leftover c1 c2).getD x 0 = (c1 ++ c2).getD (R.getD x 0) 0 := by
      rw [← hRl, List.getD_eq_getElem _ _ (by simpa using hx), List.getElem_map, List.getD_eq_getElem R _ hx]
    rw [this, hpos _ (getD_mem' hx)]
  have hco : co.Perm (leftover c1 c2) := by rw [H.leftover_eq]; exact H.out
  have e1 : ∑ x ∈ Finset.range R.length, Φ (R.getD x 0) (y (co.idxOf ((leftover c1 c2).getD x 0))) =
      ∑ x ∈ Finset.range (leftover c1 c2).length, (fun l => Φ (posL c1 c2 l) (y (co.idxOf l))) ((leftover c1 c2).getD x 0) := by
    rw [hlen]
    refine Finset.sum_congr rfl fun x h => ?_
    rw [hx x (Finset.mem_range.1 h)]
  rw [e1, sum_getD (leftover c1 c2) (fun l => Φ (posL c1 c2 l) (y (co.idxOf l))), ← (hco.map _).sum_eq, ← sum_getD co (fun l => Φ (posL c1 c2 l) (y (co.idxOf l)))]
  refine Finset.sum_congr rfl fun a ha => ?_
  rw [PolyExp.idxOf_getD (labels H).n0 (Finset.mem_range.1 ha)]

theorem sum_shared (H : Compat f g [] c1 [] c2 [] co) (X : ℕ → ℂ) {j : ℕ} (hj : j < c1.length) :
    ∑ p : Fin (zIdx c1 c2).length, (if (zIdx c1 c2).getD p 0 = j then (1 : ℂ) else 0) * X ((c1.filter (· ∈ c2)).getD p 0) =
      if c1.getD j 0 ∈ c2 then X (c1.getD j 0) else 0 := by
  rw [Fin.sum_univ_eq_sum_range (fun p => (if (zIdx c1 c2).getD p 0 = j then (1 : ℂ) else 0) * X ((c1.filter (· ∈ c2)).getD p 0)), zIdx_len]
  have e : ∀ p ∈ Finset.range (c1.filter (· ∈ c2)).length, (if (zIdx c1 c2).getD p 0 = j then (1 : ℂ) else 0) * X ((c1.filter (· ∈ c2)).getD p 0) =
      (fun l => if l = c1.getD j 0 then X (c1.getD j 0) else 0) ((c1.filter (· ∈ c2)).getD p 0) := by
    intro p hp
    have hp' := Finset.mem_range.1 hp
    rw [(zIdx_lab H (i := p) (by rw [zIdx_len]; exact hp')).1]
    have hm := mem_sharedL.1 (getD_mem' hp')
    beta_reduce
    by_cases h : (c1.filter (· ∈ c2)).getD p 0 = c1.getD j 0
    · rw [if_pos h, h, if_pos (PolyExp.idxOf_getD H.nc1 hj), one_mul]
    · rw [if_neg h, if_neg, zero_mul]
      intro e
      exact h (by rw [← e, PolyExp.getD_idxOf hm.1])
  rw [Finset.sum_congr rfl e, sum_getD (c1.filter (· ∈ c2)) (fun l => if l = c1.getD j 0 then X (c1.getD j 0) else 0), ← List.sum_toFinset _ (H.nc1.filter _), Finset.sum_ite_eq']
  by_cases h : c1.getD j 0 ∈ c2
  · rw [if_pos h, if_pos (List.mem_toFinset.2 (mem_sharedL.2 ⟨getD_mem' hj, h⟩))]
  · rw [if_neg h, if_neg (fun h' => h (mem_sharedL.1 (List.mem_toFinset.1 h')).2)]

/-- The arrays of the two operands put together. -/
structure Joint (J : PolyExp) (n m : ℕ) (A : ℕ → ℕ → ℂ) (b : ℕ → ℂ) : Prop where
  ff : ∀ i < n, ∀ j < n, J.A [] i j = 0
  fg : ∀ i < n, ∀ j < m, J.A [] i (n + j) = 0
  gf : ∀ i < n, ∀ j < m, J.A [] (n + j) i = 0
  gg : ∀ i < m, ∀ j < m, J.A [] (n + i) (n + j) = A i j
  df : ∀ j < n, ∀ i < n, J.A [] (n + m + j) i = if i = j then 1 else 0
  fd : ∀ j < n, ∀ i < n, J.A [] i (n + m + j) = if i = j then 1 else 0
  dg : ∀ j < n, ∀ i < m, J.A [] (n + m + j) (n + i) = 0
  gd : ∀ j < n, ∀ i < m, J.A [] (n + i) (n + m + j) = 0
  dd : ∀ i < n, ∀ j < n, J.A [] (n + m + i) (n + m + j) = 0
  bf : ∀ i < n, J.b [] i = 0
  bg : ∀ i < m, J.b [] (n + i) = b i
  bd : ∀ j < n, J.b [] (n + m + j) = 0

theorem joint {n : ℕ} (hp : Poly f n) {J : PolyExp}
    (hA : J.A [] = (fun i j => dsumA f.N (f.A []) (g.A []) ((joinPerm f.numCV f.derived.length g.numCV g.derived.length).getD i 0)
        ((joinPerm f.numCV f.derived.length g.numCV g.derived.length).getD j 0)))
    (hB : J.b [] = (fun i => dsumB f.N (f.b []) (g.b []) ((joinPerm f.numCV f.derived.length g.numCV g.derived.length).getD i 0))) :
    Joint J n g.numCV (g.A []) (g.b []) := by
  have hid : ∀ i j, (identity n).A [] i j = if i + n = j ∨ j + n = i then 1 else 0 := fun _ _ => rfl
  have hib : ∀ i, (identity n).b [] i = 0 := fun _ => rfl
  rw [hp.N, hp.A, hp.numCV, hp.der] at hA
  rw [hp.N, hp.b, hp.numCV, hp.der] at hB
  obtain ⟨p1, p2, p3, _⟩ := joinPerm_get n n g.numCV g.derived.length
  refine ⟨?_, ?_, ?_, ?_, ?_, ?_, ?_, ?_, ?_, ?_, ?_, ?_⟩
  · intro i hi j hj
    rw [hA]; beta_reduce
    rw [p1 i hi, p1 j hj, dsumA, if_pos (by omega), hid, if_neg (by omega)]
  · intro i hi j hj
    rw [hA]; beta_reduce
    rw [p1 i hi, p2 j hj, dsumA, if_neg (by omega), if_neg (by omega)]
  · intro i hi j hj
    rw [hA]; beta_reduce
    rw [p1 i hi, p2 j hj, dsumA, if_neg (by omega), if_neg (by omega)]
  · intro i hi j hj
    rw [hA]; beta_reduce
    rw [p2 i hi, p2 j hj, dsumA, if_neg (by omega), if_pos (by omega), show n + n + i - 2 * n = i by omega, show n + n + j - 2 * n = j by omega]
  · intro j hj i hi
    rw [hA]; beta_reduce
    rw [p1 i hi, p3 j hj, dsumA, if_pos (by omega), hid]
    exact if_congr (by omega) rfl rfl
  · intro j hj i hi
    rw [hA]; beta_reduce
    rw [p1 i hi, p3 j hj, dsumA, if_pos (by omega), hid]
    exact if_congr (by omega) rfl rfl
  · intro j hj i hi
    rw [hA]; beta_reduce
    rw [p2 i hi, p3 j hj, dsumA, if_neg (by omega), if_neg (by omega)]
  · intro j hj i hi
    rw [hA]; beta_reduce
    rw [p2 i hi, p3 j hj, dsumA, if_neg (by omega), if_neg (by omega)]
  · intro i hi j hj
    rw [hA]; beta_reduce
    rw [p3 i hi, p3 j hj, dsumA, if_pos (by omega), hid, if_neg (by omega)]
  · intro i hi
    rw [hB]; beta_reduce
    rw [p1 i hi, dsumB, if_pos (by omega), hib]
  · intro i hi
    rw [hB]; beta_reduce
    rw [p2 i hi, dsumB, if_neg (by omega), show n + n + i - 2 * n = i by omega]
  · intro j hj
    rw [hB]; beta_reduce
    rw [p3 j hj, dsumB, if_pos (by omega), hib]

theorem posL_cases (H : Compat f g [] c1 [] c2 [] co) {a : ℕ} (ha : a < co.length) :
    (co.getD a 0 ∈ c2 ∧ posL c1 c2 (co.getD a 0) = c1.length + c2.idxOf (co.getD a 0) ∧ c2.idxOf (co.getD a 0) < c2.length) ∨
    (co.getD a 0 ∉ c2 ∧ posL c1 c2 (co.getD a 0) = c1.idxOf (co.getD a 0) ∧ c1.idxOf (co.getD a 0) < c1.length) := by
  by_cases h : co.getD a 0 ∈ c2
  · exact Or.inl ⟨h, if_pos h, List.idxOf_lt_length_of_mem h⟩
  · have hm := (labels H).mem.1 (getD_mem' ha)
    exact Or.inr ⟨h, if_neg h, List.idxOf_lt_length_of_mem (by tauto)⟩

theorem joint_core (H : Compat f g [] c1 [] c2 [] co) {J : PolyExp} {A b} (hJ : Joint J c1.length c2.length A b) {u v : ℕ} (hu : u < co.length) (hv : v < co.length) :
    J.A [] (posL c1 c2 (co.getD u 0)) (posL c1 c2 (co.getD v 0)) = mixA c1 c2 co A u v := by
  rw [mixA_core (labels H) A hu hv]
  rcases posL_cases H hu with ⟨h1, h2, h3⟩ | ⟨h1, h2, h3⟩ <;> rcases posL_cases H hv with ⟨k1, k2, k3⟩ | ⟨k1, k2, k3⟩
  · rw [if_pos ⟨h1, k1⟩, h2, k2, hJ.gg _ h3 _ k3]
  · rw [if_neg (fun h => k1 h.2), h2, k2, hJ.gf _ k3 _ h3]
  · rw [if_neg (fun h => h1 h.1), h2, k2, hJ.fg _ h3 _ k3]
  · rw [if_neg (fun h => h1 h.1), h2, k2, hJ.ff _ h3 _ k3]

open scoped Classical in
theorem mixB_core (b : ℕ → ℂ) {a : ℕ} (ha : a < co.length) : mixB c1 c2 co b a = if co.getD a 0 ∈ c2 then b (c2.idxOf (co.getD a 0)) else 0 := by
  unfold mixB vecG
  beta_reduce
  rw [lab_lt ha]
  by_cases h : co.getD a 0 ∈ c2
  · rw [if_pos h, if_pos h]
  · rw [if_neg h, if_neg h]

open scoped Classical in
theorem mixB_axis (b : ℕ → ℂ) (j : ℕ) : mixB c1 c2 co b (co.length + j) = if c1.getD j 0 ∈ c2 then b (c2.idxOf (c1.getD j 0)) else 0 := by
  unfold mixB vecG
  beta_reduce
  rw [lab_ge]
  by_cases h : c1.getD j 0 ∈ c2
  · rw [if_pos h, if_pos h]
  · rw [if_neg h, if_neg h]

theorem joint_b (H : Compat f g [] c1 [] c2 [] co) {J : PolyExp} {A b} (hJ : Joint J c1.length c2.length A b) {u : ℕ} (hu : u < co.length) :
    J.b [] (posL c1 c2 (co.getD u 0)) = mixB c1 c2 co b u := by
  rw [mixB_core b hu]
  rcases posL_cases H hu with ⟨h1, h2, h3⟩ | ⟨h1, h2, h3⟩
  · rw [if_pos h1, h2, hJ.bg _ h3]
  · rw [if_neg h1, h2, hJ.bf _ h3]

/-- The value of the integral over the shared variables. -/
theorem mixed_term (H : Compat f g [] c1 [] c2 [] co) {J : PolyExp} {A b} (hw : J.WF) (hs : SymAll J) (hn : J.numCV = f.numCV + g.numCV) (hd : J.derived = f.derived)
    (hfd : f.derived.length = c1.length) (hJ : Joint J c1.length c2.length A b) {γ : ℂ} (hc : ∀ k, InB f.derived k → J.c [] k = f.c [] k * γ) (y : ℕ → ℂ) :
    (cgiTrue J (zIdx c1 c2) (zcIdx f.numCV c1 c2) (-1)).termAt [] (fun x => y (co.idxOf ((leftover c1 c2).getD x 0))) =
      termVal co.length f.derived (mixA c1 c2 co A) (mixB c1 c2 co b) (fun d => f.c [] d * γ) y := by
  have hl : (zIdx c1 c2).length = (zcIdx f.numCV c1 c2).length := by rw [zIdx_len, zcIdx_len]
  have hlt : ∀ i ∈ zIdx c1 c2 ++ zcIdx f.numCV c1 c2, i < J.numCV := by
    intro i hi
    rw [hn]
    rw [List.mem_append] at hi
    rcases hi with hi | hi
    · have := zIdx_lt H hi; omega
    · exact (zcIdx_range H hi).2
  have hn' : J.numCV = c1.length + c2.length := by rw [hn, H.lc1, H.lc2]
  have L : ∀ i (_ : i < (zIdx c1 c2).length), (zIdx c1 c2).getD i 0 < c1.length ∧ (zcIdx f.numCV c1 c2).getD i 0 = c1.length + c2.idxOf ((c1.filter (· ∈ c2)).getD i 0) ∧
      c2.idxOf ((c1.filter (· ∈ c2)).getD i 0) < c2.length := by
    intro i hi
    obtain ⟨z1, z2, z3, z4, _, _⟩ := zIdx_lab H hi
    exact ⟨by rw [z1, H.lc1]; exact z3, by rw [z2, H.lc1], by rw [H.lc2]; exact z4⟩
  have hM := gM_z (A := J.A []) (zi := zIdx c1 c2) (zc := zcIdx f.numCV c1 c2)
    (fun i hi j hj => hJ.ff _ (L i hi).1 _ (L j hj).1)
    (fun i hi j hj => by rw [(L j hj).2.1]; exact hJ.fg _ (L i hi).1 _ (L j hj).2.2)
    (fun i hi j hj => by rw [(L i hi).2.1]; exact hJ.gf _ (L j hj).1 _ (L i hi).2.2)
  have hG : (Matrix.of fun i j : Fin (zIdx c1 c2).length => J.A [] ((zcIdx f.numCV c1 c2).getD i 0) ((zcIdx f.numCV c1 c2).getD j 0)) =
      Matrix.of fun i j : Fin (zIdx c1 c2).length => A (c2.idxOf ((c1.filter (· ∈ c2)).getD i 0)) (c2.idxOf ((c1.filter (· ∈ c2)).getD j 0)) := by
    ext i j
    rw [Matrix.of_apply, Matrix.of_apply, (L i i.2).2.1, (L j j.2).2.1, hJ.gg _ (L i i.2).2.2 _ (L j j.2).2.2]
  rw [hG] at hM
  rw [cgiTrue_term hw hs hl hlt _ rfl rfl rfl rfl rfl rfl rfl, hM, block_det_z]
  beta_reduce
  rw [hn']
  -- the pieces
  obtain ⟨bY, hbY⟩ : ∃ bY : Fin (zIdx c1 c2).length ⊕ Fin (zIdx c1 c2).length → ℂ, bY = fun p => J.b [] (pos (zIdx c1 c2) (zcIdx f.numCV c1 c2) p) +
    ∑ i ∈ Finset.range (remCV (c1.length + c2.length) (zIdx c1 c2) (zcIdx f.numCV c1 c2)).length, y (co.idxOf ((leftover c1 c2).getD i 0)) *
      J.A [] ((remCV (c1.length + c2.length) (zIdx c1 c2) (zcIdx f.numCV c1 c2)).getD i 0) (pos (zIdx c1 c2) (zcIdx f.numCV c1 c2) p) := ⟨_, rfl⟩
  rw [← hbY]
  have hR : c1.length + c2.length = f.numCV + g.numCV := by rw [H.lc1, H.lc2]
  have hrx : ∀ (Φ : ℕ → ℂ → ℂ), ∑ x ∈ Finset.range (remCV (c1.length + c2.length) (zIdx c1 c2) (zcIdx f.numCV c1 c2)).length,
      Φ ((remCV (c1.length + c2.length) (zIdx c1 c2) (zcIdx f.numCV c1 c2)).getD x 0) (y (co.idxOf ((leftover c1 c2).getD x 0))) =
    ∑ a ∈ Finset.range co.length, Φ (posL c1 c2 (co.getD a 0)) (y a) := by
    intro Φ
    rw [hR]
    exact reindex H Φ y
  have bl : ∀ p, bY (.inl p) = 0 := by
    intro p
    rw [hbY]
    simp only [pos, Sum.elim_inl]
    rw [hJ.bf _ (L p p.2).1, zero_add, hrx fun v w => w * J.A [] v ((zIdx c1 c2).getD p 0)]
    refine Finset.sum_eq_zero fun a ha => ?_
    rcases posL_cases H (Finset.mem_range.1 ha) with ⟨h1, h2, h3⟩ | ⟨h1, h2, h3⟩
    · rw [h2, hJ.gf _ (L p p.2).1 _ h3, mul_zero]
    · rw [h2, hJ.ff _ h3 _ (L p p.2).1, mul_zero]
  have br : ∀ p : Fin (zIdx c1 c2).length, bY (.inr p) = (fun l => b (c2.idxOf l) + ∑ a ∈ Finset.range co.length, (if co.getD a 0 ∈ c2 then A (c2.idxOf (co.getD a 0)) (c2.idxOf l) else 0) * y a)
      ((c1.filter (· ∈ c2)).getD p 0) := by
    intro p
    rw [hbY]
    simp only [pos, Sum.elim_inr]
    rw [(L p p.2).2.1, hJ.bg _ (L p p.2).2.2, hrx fun v w => w * J.A [] v (c1.length + c2.idxOf ((c1.filter (· ∈ c2)).getD p 0))]
    refine congrArg _ (Finset.sum_congr rfl fun a ha => ?_)
    rcases posL_cases H (Finset.mem_range.1 ha) with ⟨h1, h2, h3⟩ | ⟨h1, h2, h3⟩
    · rw [h2, hJ.gg _ h3 _ (L p p.2).2.2, if_pos h1, mul_comm]
    · rw [h2, hJ.fg _ h3 _ (L p p.2).2.2, if_neg h1, mul_zero, zero_mul]
  have hbb : invB (Matrix.fromBlocks 0 (-1) (-1) (Matrix.of fun i j : Fin (zIdx c1 c2).length => A (c2.idxOf ((c1.filter (· ∈ c2)).getD i 0)) (c2.idxOf ((c1.filter (· ∈ c2)).getD j 0)))) bY bY = 0 := by
    rw [invB_z]
    simp only [bl, zero_mul, mul_zero, Finset.sum_const_zero, neg_zero, sub_zero]
  have El : ∀ j < c1.length, ∀ p : Fin (zIdx c1 c2).length, J.A [] (c1.length + c2.length + j) (pos (zIdx c1 c2) (zcIdx f.numCV c1 c2) (.inl p)) = if (zIdx c1 c2).getD p 0 = j then 1 else 0 :=
    fun j hj p => hJ.df j hj _ (L p p.2).1
  have Er : ∀ j < c1.length, ∀ p : Fin (zIdx c1 c2).length, J.A [] (c1.length + c2.length + j) (pos (zIdx c1 c2) (zcIdx f.numCV c1 c2) (.inr p)) = 0 := by
    intro j hj p
    simp only [pos, Sum.elim_inr]
    rw [(L p p.2).2.1]
    exact hJ.dg j hj _ (L p p.2).2.2
  have hAdd : ∀ i < c1.length, ∀ j < c1.length, J.A [] (c1.length + c2.length + i) (c1.length + c2.length + j) -
      invB (Matrix.fromBlocks 0 (-1) (-1) (Matrix.of fun i j : Fin (zIdx c1 c2).length => A (c2.idxOf ((c1.filter (· ∈ c2)).getD i 0)) (c2.idxOf ((c1.filter (· ∈ c2)).getD j 0))))
        (fun p => J.A [] (c1.length + c2.length + i) (pos (zIdx c1 c2) (zcIdx f.numCV c1 c2) p)) (fun p => J.A [] (c1.length + c2.length + j) (pos (zIdx c1 c2) (zcIdx f.numCV c1 c2) p)) =
      mixA c1 c2 co A (co.length + i) (co.length + j) := by
    intro i hi j hj
    rw [hJ.dd i hi j hj, invB_z, mixA_axes (labels H) A hi hj]
    simp only [El i hi, El j hj, Er i hi, Er j hj, mul_zero, zero_mul, Finset.sum_const_zero, Matrix.of_apply]
    have e1 : ∀ p : Fin (zIdx c1 c2).length, ∑ q : Fin (zIdx c1 c2).length, (if (zIdx c1 c2).getD p 0 = i then (1 : ℂ) else 0) *
        A (c2.idxOf ((c1.filter (· ∈ c2)).getD p 0)) (c2.idxOf ((c1.filter (· ∈ c2)).getD q 0)) * (if (zIdx c1 c2).getD q 0 = j then (1 : ℂ) else 0) =
        (if (zIdx c1 c2).getD p 0 = i then (1 : ℂ) else 0) * (fun l => if c1.getD j 0 ∈ c2 then A (c2.idxOf l) (c2.idxOf (c1.getD j 0)) else 0) ((c1.filter (· ∈ c2)).getD p 0) := by
      intro p
      beta_reduce
      rw [← sum_shared H (fun l => A (c2.idxOf ((c1.filter (· ∈ c2)).getD p 0)) (c2.idxOf l)) hj, Finset.mul_sum]
      exact Finset.sum_congr rfl fun q _ => by ring
    simp only [e1]
    rw [sum_shared H (fun l => if c1.getD j 0 ∈ c2 then A (c2.idxOf l) (c2.idxOf (c1.getD j 0)) else 0) hi]
    by_cases h1 : c1.getD i 0 ∈ c2 <;> by_cases h2 : c1.getD j 0 ∈ c2
    · rw [if_pos h1, if_pos h2, if_pos ⟨h1, h2⟩]; ring
    · rw [if_pos h1, if_neg h2, if_neg (fun h => h2 h.2)]; ring
    · rw [if_neg h1, if_neg (fun h => h1 h.1)]; ring
    · rw [if_neg h1, if_neg (fun h => h1 h.1)]; ring
  have hlin : ∀ j < c1.length, ∑ x ∈ Finset.range (remCV (c1.length + c2.length) (zIdx c1 c2) (zcIdx f.numCV c1 c2)).length,
      J.A [] ((remCV (c1.length + c2.length) (zIdx c1 c2) (zcIdx f.numCV c1 c2)).getD x 0) (c1.length + c2.length + j) * y (co.idxOf ((leftover c1 c2).getD x 0)) +
      J.b [] (c1.length + c2.length + j) -
      invB (Matrix.fromBlocks 0 (-1) (-1) (Matrix.of fun i j : Fin (zIdx c1 c2).length => A (c2.idxOf ((c1.filter (· ∈ c2)).getD i 0)) (c2.idxOf ((c1.filter (· ∈ c2)).getD j 0))))
        (fun p => J.A [] (c1.length + c2.length + j) (pos (zIdx c1 c2) (zcIdx f.numCV c1 c2) p)) bY =
      ∑ a ∈ Finset.range co.length, mixA c1 c2 co A a (co.length + j) * y a + mixB c1 c2 co b (co.length + j) := by
    intro j hj
    rw [hrx fun v w => J.A [] v (c1.length + c2.length + j) * w, hJ.bd j hj, invB_z, mixB_axis]
    simp only [El j hj, Er j hj, bl, br, mul_zero, zero_mul, Finset.sum_const_zero]
    rw [sum_shared H (fun l => b (c2.idxOf l) + ∑ a ∈ Finset.range co.length, (if co.getD a 0 ∈ c2 then A (c2.idxOf (co.getD a 0)) (c2.idxOf l) else 0) * y a) hj]
    have e1 : ∑ a ∈ Finset.range co.length, mixA c1 c2 co A a (co.length + j) * y a =
        ∑ a ∈ Finset.range co.length, J.A [] (posL c1 c2 (co.getD a 0)) (c1.length + c2.length + j) * y a +
        if c1.getD j 0 ∈ c2 then ∑ a ∈ Finset.range co.length, (if co.getD a 0 ∈ c2 then A (c2.idxOf (co.getD a 0)) (c2.idxOf (c1.getD j 0)) else 0) * y a else 0 := by
      have e2 : (if c1.getD j 0 ∈ c2 then ∑ a ∈ Finset.range co.length, (if co.getD a 0 ∈ c2 then A (c2.idxOf (co.getD a 0)) (c2.idxOf (c1.getD j 0)) else 0) * y a else 0) =
          ∑ a ∈ Finset.range co.length, if c1.getD j 0 ∈ c2 then (if co.getD a 0 ∈ c2 then A (c2.idxOf (co.getD a 0)) (c2.idxOf (c1.getD j 0)) else 0) * y a else 0 := by
        by_cases h : c1.getD j 0 ∈ c2
        · simp only [if_pos h]
        · simp only [if_neg h, Finset.sum_const_zero]
      rw [e2, ← Finset.sum_add_distrib]
      refine Finset.sum_congr rfl fun a ha => ?_
      rw [mixA_cross (labels H) A (Finset.mem_range.1 ha) hj]
      rcases posL_cases H (Finset.mem_range.1 ha) with ⟨h1, h2, h3⟩ | ⟨h1, h2, h3⟩
      · rw [if_pos h1, h2, hJ.gd j hj _ h3]
        by_cases h : c1.getD j 0 ∈ c2
        · rw [if_pos h, if_pos h, if_pos h1]; ring
        · rw [if_neg h, if_neg h]; ring
      · rw [if_neg h1, h2, hJ.fd j hj _ h3, if_neg h1]
        simp only [zero_mul, ite_self, add_zero]
    rw [e1]
    by_cases h : c1.getD j 0 ∈ c2
    · simp only [if_pos h]; ring
    · simp only [if_neg h]; ring
  have hK : ∑ i ∈ Finset.range (remCV (c1.length + c2.length) (zIdx c1 c2) (zcIdx f.numCV c1 c2)).length,
      ∑ j ∈ Finset.range (remCV (c1.length + c2.length) (zIdx c1 c2) (zcIdx f.numCV c1 c2)).length,
        y (co.idxOf ((leftover c1 c2).getD i 0)) * y (co.idxOf ((leftover c1 c2).getD j 0)) *
          J.A [] ((remCV (c1.length + c2.length) (zIdx c1 c2) (zcIdx f.numCV c1 c2)).getD i 0) ((remCV (c1.length + c2.length) (zIdx c1 c2) (zcIdx f.numCV c1 c2)).getD j 0) =
      ∑ a ∈ Finset.range co.length, ∑ a' ∈ Finset.range co.length, y a * y a' * mixA c1 c2 co A a a' := by
    have e : ∀ v w, ∑ j ∈ Finset.range (remCV (c1.length + c2.length) (zIdx c1 c2) (zcIdx f.numCV c1 c2)).length, w * y (co.idxOf ((leftover c1 c2).getD j 0)) *
          J.A [] v ((remCV (c1.length + c2.length) (zIdx c1 c2) (zcIdx f.numCV c1 c2)).getD j 0) =
        ∑ a' ∈ Finset.range co.length, w * y a' * J.A [] v (posL c1 c2 (co.getD a' 0)) := fun v w => hrx fun v' w' => w * w' * J.A [] v v'
    simp only [e]
    rw [hrx fun v w => ∑ a' ∈ Finset.range co.length, w * y a' * J.A [] v (posL c1 c2 (co.getD a' 0))]
    refine Finset.sum_congr rfl fun a ha => Finset.sum_congr rfl fun a' ha' => ?_
    rw [joint_core H hJ (Finset.mem_range.1 ha) (Finset.mem_range.1 ha')]
  have hK2 : ∑ i ∈ Finset.range (remCV (c1.length + c2.length) (zIdx c1 c2) (zcIdx f.numCV c1 c2)).length,
      y (co.idxOf ((leftover c1 c2).getD i 0)) * J.b [] ((remCV (c1.length + c2.length) (zIdx c1 c2) (zcIdx f.numCV c1 c2)).getD i 0) =
      ∑ a ∈ Finset.range co.length, y a * mixB c1 c2 co b a := by
    rw [hrx fun v w => w * J.b [] v]
    exact Finset.sum_congr rfl fun a ha => by rw [joint_b H hJ (Finset.mem_range.1 ha)]
  rw [hK, hK2, hbb, mul_zero, add_zero, div_self (pow_ne_zero _ (by norm_num)), Complex.one_cpow, hd]
  unfold termVal
  rw [← nsum_mul_left]
  refine nsum_congr fun k hk => ?_
  rw [hc k hk, mul_one, mul_assoc]
  refine congrArg _ (congrArg _ ?_)
  refine amp_congr _ ?_ ?_ _
  · intro i hi j hj
    rw [hfd] at hi hj
    exact hAdd i hi j hj
  · intro j hj
    rw [hfd] at hj
    exact hlin j hj

end Verif.Mixed
