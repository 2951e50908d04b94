import Verif.MixedFock

/-!
# Contraction across representations with the array on the right (C111)
-/

namespace Verif.Mixed
open Verif.Fock Verif.Batch Verif.PolyExp PolyExp Verif.Arr Verif.Arr.Arr Verif.ToBargmann Verif.Triples

variable {f g : PolyExp} {c1 c2 co : List ℕ}

theorem Labels.swap (H : Labels c1 c2 co) : Labels c2 c1 co := ⟨H.n2, H.n1, H.out.trans List.perm_append_comm⟩

/-- The position of an output label among the variables of the two operands. -/
def posR (c1 c2 : List ℕ) (l : ℕ) : ℕ := if l ∈ c1 then c1.idxOf l else c1.length + c2.idxOf l

theorem reindexR (H : Compat g f [] c1 [] c2 [] co) (Φ : ℕ → ℂ → ℂ) (y : ℕ → ℂ) :
    ∑ x ∈ Finset.range (remCV (g.numCV + f.numCV) (zIdx c1 c2) (zcIdx g.numCV c1 c2)).length,
      Φ ((remCV (g.numCV + f.numCV) (zIdx c1 c2) (zcIdx g.numCV c1 c2)).getD x 0) (y (co.idxOf ((leftover c1 c2).getD x 0))) =
    ∑ a ∈ Finset.range co.length, Φ (posR c1 c2 (co.getD a 0)) (y a) := by
  rw [reindex H Φ y]
  refine Finset.sum_congr rfl fun a ha => ?_
  have hm := (labels H).mem.1 (getD_mem' (Finset.mem_range.1 ha))
  unfold posL posR
  by_cases h : co.getD a 0 ∈ c2
  · rw [if_pos h, if_neg (by tauto)]
  · rw [if_neg h, if_pos (by tauto)]

theorem sum_sharedR (H : Compat g f [] c1 [] c2 [] co) (X : ℕ → ℂ) {j : ℕ} (hj : j < c2.length) :
    ∑ p : Fin (zIdx c1 c2).length, (if c2.idxOf ((c1.filter (· ∈ c2)).getD p 0) = j then (1 : ℂ) else 0) * X ((c1.filter (· ∈ c2)).getD p 0) =
      if c2.getD j 0 ∈ c1 then X (c2.getD j 0) else 0 := by
  rw [Fin.sum_univ_eq_sum_range (fun p => (if c2.idxOf ((c1.filter (· ∈ c2)).getD p 0) = j then (1 : ℂ) else 0) * X ((c1.filter (· ∈ c2)).getD p 0)), zIdx_len]
  have e : ∀ p ∈ Finset.range (c1.filter (· ∈ c2)).length, (if c2.idxOf ((c1.filter (· ∈ c2)).getD p 0) = j then (1 : ℂ) else 0) * X ((c1.filter (· ∈ c2)).getD p 0) =
      (fun l => if l = c2.getD j 0 then X (c2.getD j 0) else 0) ((c1.filter (· ∈ c2)).getD p 0) := by
    intro p hp
    have hp' := Finset.mem_range.1 hp
    have hm := mem_sharedL.1 (getD_mem' hp')
    beta_reduce
    by_cases h : (c1.filter (· ∈ c2)).getD p 0 = c2.getD j 0
    · rw [if_pos h, h, if_pos (PolyExp.idxOf_getD H.nc2 hj), one_mul]
    · rw [if_neg h, if_neg, zero_mul]
      intro e
      exact h (by rw [← e, PolyExp.getD_idxOf hm.2])
  rw [Finset.sum_congr rfl e, sum_getD (c1.filter (· ∈ c2)) (fun l => if l = c2.getD j 0 then X (c2.getD j 0) else 0), ← List.sum_toFinset _ (H.nc1.filter _), Finset.sum_ite_eq']
  by_cases h : c2.getD j 0 ∈ c1
  · rw [if_pos h, if_pos (List.mem_toFinset.2 (mem_sharedL.2 ⟨h, getD_mem' hj⟩))]
  · rw [if_neg h, if_neg (fun h' => h (mem_sharedL.1 (List.mem_toFinset.1 h')).1)]

/-- The arrays of the two operands put together. -/
structure JointR (J : PolyExp) (m n : ℕ) (A : ℕ → ℕ → ℂ) (b : ℕ → ℂ) : Prop where
  ff : ∀ i < n, ∀ j < n, J.A [] (m + i) (m + j) = 0
  fg : ∀ i < n, ∀ j < m, J.A [] (m + i) j = 0
  gf : ∀ i < n, ∀ j < m, J.A [] j (m + i) = 0
  gg : ∀ i < m, ∀ j < m, J.A [] i j = A i j
  df : ∀ j < n, ∀ i < n, J.A [] (m + n + j) (m + i) = if i = j then 1 else 0
  fd : ∀ j < n, ∀ i < n, J.A [] (m + i) (m + n + j) = if i = j then 1 else 0
  dg : ∀ j < n, ∀ i < m, J.A [] (m + n + j) i = 0
  gd : ∀ j < n, ∀ i < m, J.A [] i (m + n + j) = 0
  dd : ∀ i < n, ∀ j < n, J.A [] (m + n + i) (m + n + j) = 0
  bf : ∀ i < n, J.b [] (m + i) = 0
  bg : ∀ i < m, J.b [] i = b i
  bd : ∀ j < n, J.b [] (m + n + j) = 0

theorem jointR {n : ℕ} (hp : Poly f n) (gd : g.derived = []) {J : PolyExp}
    (hA : J.A [] = (fun i j => dsumA g.N (g.A []) (f.A []) ((joinPerm g.numCV g.derived.length f.numCV f.derived.length).getD i 0)
        ((joinPerm g.numCV g.derived.length f.numCV f.derived.length).getD j 0)))
    (hB : J.b [] = (fun i => dsumB g.N (g.b []) (f.b []) ((joinPerm g.numCV g.derived.length f.numCV f.derived.length).getD i 0))) :
    JointR J g.numCV n (g.A []) (g.b []) := by
  have hid : ∀ i j, (identity n).A [] i j = if i + n = j ∨ j + n = i then 1 else 0 := fun _ _ => rfl
  have hib : ∀ i, (identity n).b [] i = 0 := fun _ => rfl
  have hN : g.N = g.numCV := by unfold numCV; rw [gd]; rfl
  rw [hN, hp.A, hp.numCV, hp.der, gd, List.length_nil] at hA
  rw [hN, hp.b, hp.numCV, hp.der, gd, List.length_nil] at hB
  obtain ⟨p1, p2, _, p4⟩ := joinPerm_get g.numCV 0 n n
  have p3 : ∀ i < n, (joinPerm g.numCV 0 n n).getD (g.numCV + n + i) 0 = g.numCV + (n + i) := by
    intro i hi
    have := p4 i hi
    rwa [Nat.zero_add, Nat.add_zero] at this
  simp only [Nat.add_zero] at p2
  refine ⟨?_, ?_, ?_, ?_, ?_, ?_, ?_, ?_, ?_, ?_, ?_, ?_⟩
  · intro i hi j hj
    rw [hA]; beta_reduce
    rw [p2 i hi, p2 j hj, dsumA, if_neg (by omega), if_pos (by omega), Nat.add_sub_cancel_left, Nat.add_sub_cancel_left, hid, if_neg (by omega)]
  · intro i hi j hj
    rw [hA]; beta_reduce
    rw [p2 i hi, p1 j hj, dsumA, if_neg (by omega), if_neg (by omega)]
  · intro i hi j hj
    rw [hA]; beta_reduce
    rw [p2 i hi, p1 j hj, dsumA, if_neg (by omega), if_neg (by omega)]
  · intro i hi j hj
    rw [hA]; beta_reduce
    rw [p1 i hi, p1 j hj, dsumA, if_pos (by omega)]
  · intro j hj i hi
    rw [hA]; beta_reduce
    rw [p2 i hi, p3 j hj, dsumA, if_neg (by omega), if_pos (by omega), Nat.add_sub_cancel_left, Nat.add_sub_cancel_left, hid]
    exact if_congr (by omega) rfl rfl
  · intro j hj i hi
    rw [hA]; beta_reduce
    rw [p2 i hi, p3 j hj, dsumA, if_neg (by omega), if_pos (by omega), Nat.add_sub_cancel_left, Nat.add_sub_cancel_left, hid]
    exact if_congr (by omega) rfl rfl
  · intro j hj i hi
    rw [hA]; beta_reduce
    rw [p1 i hi, p3 j hj, dsumA, if_neg (by omega), if_neg (by omega)]
  · intro j hj i hi
    rw [hA]; beta_reduce
    rw [p1 i hi, p3 j hj, dsumA, if_neg (by omega), if_neg (by omega)]
  · intro i hi j hj
    rw [hA]; beta_reduce
    rw [p3 i hi, p3 j hj, dsumA, if_neg (by omega), if_pos (by omega), Nat.add_sub_cancel_left, Nat.add_sub_cancel_left, hid, if_neg (by omega)]
  · intro i hi
    rw [hB]; beta_reduce
    rw [p2 i hi, dsumB, if_neg (by omega), hib]
  · intro i hi
    rw [hB]; beta_reduce
    rw [p1 i hi, dsumB, if_pos (by omega)]
  · intro j hj
    rw [hB]; beta_reduce
    rw [p3 j hj, dsumB, if_neg (by omega), hib]

theorem posR_cases (H : Compat g f [] c1 [] c2 [] co) {a : ℕ} (ha : a < co.length) :
    (co.getD a 0 ∈ c1 ∧ posR c1 c2 (co.getD a 0) = c1.idxOf (co.getD a 0) ∧ c1.idxOf (co.getD a 0) < c1.length) ∨
    (co.getD a 0 ∉ c1 ∧ posR c1 c2 (co.getD a 0) = c1.length + c2.idxOf (co.getD a 0) ∧ c2.idxOf (co.getD a 0) < c2.length) := by
  by_cases h : co.getD a 0 ∈ c1
  · exact Or.inl ⟨h, if_pos h, List.idxOf_lt_length_of_mem h⟩
  · have hm := (labels H).mem.1 (getD_mem' ha)
    exact Or.inr ⟨h, if_neg h, List.idxOf_lt_length_of_mem (by tauto)⟩

theorem jointR_core (H : Compat g f [] c1 [] c2 [] co) {J : PolyExp} {A b} (hJ : JointR J c1.length c2.length A b) {u v : ℕ} (hu : u < co.length) (hv : v < co.length) :
    J.A [] (posR c1 c2 (co.getD u 0)) (posR c1 c2 (co.getD v 0)) = mixA c2 c1 co A u v := by
  rw [mixA_core (labels H).swap A hu hv]
  rcases posR_cases H hu with ⟨h1, h2, h3⟩ | ⟨h1, h2, h3⟩ <;> rcases posR_cases H hv with ⟨k1, k2, k3⟩ | ⟨k1, k2, k3⟩
  · rw [if_pos ⟨h1, k1⟩, h2, k2, hJ.gg _ h3 _ k3]
  · rw [if_neg (fun h => k1 h.2), h2, k2, hJ.gf _ k3 _ h3]
  · rw [if_neg (fun h => h1 h.1), h2, k2, hJ.fg _ h3 _ k3]
  · rw [if_neg (fun h => h1 h.1), h2, k2, hJ.ff _ h3 _ k3]

theorem jointR_b (H : Compat g f [] c1 [] c2 [] co) {J : PolyExp} {A b} (hJ : JointR J c1.length c2.length A b) {u : ℕ} (hu : u < co.length) :
    J.b [] (posR c1 c2 (co.getD u 0)) = mixB c2 c1 co b u := by
  rw [mixB_core b hu]
  rcases posR_cases H hu with ⟨h1, h2, h3⟩ | ⟨h1, h2, h3⟩
  · rw [if_pos h1, h2, hJ.bg _ h3]
  · rw [if_neg h1, h2, hJ.bf _ h3]

/-- The value of the integral over the shared variables. -/
theorem mixed_termR (H : Compat g f [] c1 [] c2 [] co) {J : PolyExp} {A b} (hw : J.WF) (hs : SymAll J) (hn : J.numCV = g.numCV + f.numCV) (hd : J.derived = f.derived)
    (hfd : f.derived.length = c2.length) (hJ : JointR J c1.length c2.length A b) {γ : ℂ} (hc : ∀ k, InB f.derived k → J.c [] k = f.c [] k * γ) (y : ℕ → ℂ) :
    (cgiTrue J (zIdx c1 c2) (zcIdx g.numCV c1 c2) (-1)).termAt [] (fun x => y (co.idxOf ((leftover c1 c2).getD x 0))) =
      termVal co.length f.derived (mixA c2 c1 co A) (mixB c2 c1 co b) (fun d => f.c [] d * γ) y := by
  have hl : (zIdx c1 c2).length = (zcIdx g.numCV c1 c2).length := by rw [zIdx_len, zcIdx_len]
  have hlt : ∀ i ∈ zIdx c1 c2 ++ zcIdx g.numCV c1 c2, i < J.numCV := by
    intro i hi
    rw [hn]
    rw [List.mem_append] at hi
    rcases hi with hi | hi
    · have := zIdx_lt H hi; omega
    · exact (zcIdx_range H hi).2
  have hn' : J.numCV = c1.length + c2.length := by rw [hn, H.lc1, H.lc2]
  have L : ∀ i (_ : i < (zIdx c1 c2).length), (zIdx c1 c2).getD i 0 = c1.idxOf ((c1.filter (· ∈ c2)).getD i 0) ∧ c1.idxOf ((c1.filter (· ∈ c2)).getD i 0) < c1.length ∧ (zcIdx g.numCV c1 c2).getD i 0 = c1.length + c2.idxOf ((c1.filter (· ∈ c2)).getD i 0) ∧
      c2.idxOf ((c1.filter (· ∈ c2)).getD i 0) < c2.length := by
    intro i hi
    obtain ⟨z1, z2, z3, z4, _, _⟩ := zIdx_lab H hi
    exact ⟨z1, by rw [H.lc1]; exact z3, by rw [z2, H.lc1], by rw [H.lc2]; exact z4⟩
  have hM := gM_zc (A := J.A []) (zi := zIdx c1 c2) (zc := zcIdx g.numCV c1 c2)
    (fun i hi j hj => by rw [(L i hi).2.2.1, (L j hj).2.2.1]; exact hJ.ff _ (L i hi).2.2.2 _ (L j hj).2.2.2)
    (fun i hi j hj => by rw [(L i hi).1, (L j hj).2.2.1]; exact hJ.gf _ (L j hj).2.2.2 _ (L i hi).2.1)
    (fun i hi j hj => by rw [(L j hj).1, (L i hi).2.2.1]; exact hJ.fg _ (L i hi).2.2.2 _ (L j hj).2.1)
  have hG : (Matrix.of fun i j : Fin (zIdx c1 c2).length => J.A [] ((zIdx c1 c2).getD i 0) ((zIdx c1 c2).getD j 0)) =
      Matrix.of fun i j : Fin (zIdx c1 c2).length => A (c1.idxOf ((c1.filter (· ∈ c2)).getD i 0)) (c1.idxOf ((c1.filter (· ∈ c2)).getD j 0)) := by
    ext i j
    rw [Matrix.of_apply, Matrix.of_apply, (L i i.2).1, (L j j.2).1, hJ.gg _ (L i i.2).2.1 _ (L j j.2).2.1]
  rw [hG] at hM
  rw [cgiTrue_term hw hs hl hlt _ rfl rfl rfl rfl rfl rfl rfl, hM, block_det_zc]
  beta_reduce
  rw [hn']
  -- the pieces
  obtain ⟨bY, hbY⟩ : ∃ bY : Fin (zIdx c1 c2).length ⊕ Fin (zIdx c1 c2).length → ℂ, bY = fun p => J.b [] (pos (zIdx c1 c2) (zcIdx g.numCV c1 c2) p) +
    ∑ i ∈ Finset.range (remCV (c1.length + c2.length) (zIdx c1 c2) (zcIdx g.numCV c1 c2)).length, y (co.idxOf ((leftover c1 c2).getD i 0)) *
      J.A [] ((remCV (c1.length + c2.length) (zIdx c1 c2) (zcIdx g.numCV c1 c2)).getD i 0) (pos (zIdx c1 c2) (zcIdx g.numCV c1 c2) p) := ⟨_, rfl⟩
  rw [← hbY]
  have hR : c1.length + c2.length = g.numCV + f.numCV := by rw [H.lc1, H.lc2]
  have hrx : ∀ (Φ : ℕ → ℂ → ℂ), ∑ x ∈ Finset.range (remCV (c1.length + c2.length) (zIdx c1 c2) (zcIdx g.numCV c1 c2)).length,
      Φ ((remCV (c1.length + c2.length) (zIdx c1 c2) (zcIdx g.numCV c1 c2)).getD x 0) (y (co.idxOf ((leftover c1 c2).getD x 0))) =
    ∑ a ∈ Finset.range co.length, Φ (posR c1 c2 (co.getD a 0)) (y a) := by
    intro Φ
    rw [hR]
    exact reindexR H Φ y
  have bl : ∀ p, bY (.inr p) = 0 := by
    intro p
    rw [hbY]
    simp only [pos, Sum.elim_inr]
    rw [(L p p.2).2.2.1, hJ.bf _ (L p p.2).2.2.2, zero_add, hrx fun v w => w * J.A [] v (c1.length + c2.idxOf ((c1.filter (· ∈ c2)).getD p 0))]
    refine Finset.sum_eq_zero fun a ha => ?_
    rcases posR_cases H (Finset.mem_range.1 ha) with ⟨h1, h2, h3⟩ | ⟨h1, h2, h3⟩
    · rw [h2, hJ.gf _ (L p p.2).2.2.2 _ h3, mul_zero]
    · rw [h2, hJ.ff _ h3 _ (L p p.2).2.2.2, mul_zero]
  have br : ∀ p : Fin (zIdx c1 c2).length, bY (.inl p) = (fun l => b (c1.idxOf l) + ∑ a ∈ Finset.range co.length, (if co.getD a 0 ∈ c1 then A (c1.idxOf (co.getD a 0)) (c1.idxOf l) else 0) * y a)
      ((c1.filter (· ∈ c2)).getD p 0) := by
    intro p
    rw [hbY]
    simp only [pos, Sum.elim_inl]
    rw [(L p p.2).1, hJ.bg _ (L p p.2).2.1, hrx fun v w => w * J.A [] v (c1.idxOf ((c1.filter (· ∈ c2)).getD p 0))]
    refine congrArg _ (Finset.sum_congr rfl fun a ha => ?_)
    rcases posR_cases H (Finset.mem_range.1 ha) with ⟨h1, h2, h3⟩ | ⟨h1, h2, h3⟩
    · rw [h2, hJ.gg _ h3 _ (L p p.2).2.1, if_pos h1, mul_comm]
    · rw [h2, hJ.fg _ h3 _ (L p p.2).2.1, if_neg h1, mul_zero, zero_mul]
  have hbb : invB (Matrix.fromBlocks (Matrix.of fun i j : Fin (zIdx c1 c2).length => A (c1.idxOf ((c1.filter (· ∈ c2)).getD i 0)) (c1.idxOf ((c1.filter (· ∈ c2)).getD j 0))) (-1) (-1) 0) bY bY = 0 := by
    rw [invB_zc]
    simp only [bl, zero_mul, mul_zero, Finset.sum_const_zero, neg_zero, sub_zero]
  have El : ∀ j < c2.length, ∀ p : Fin (zIdx c1 c2).length, J.A [] (c1.length + c2.length + j) (pos (zIdx c1 c2) (zcIdx g.numCV c1 c2) (.inr p)) = if c2.idxOf ((c1.filter (· ∈ c2)).getD p 0) = j then 1 else 0 := by
    intro j hj p
    simp only [pos, Sum.elim_inr]
    rw [(L p p.2).2.2.1]
    exact hJ.df j hj _ (L p p.2).2.2.2
  have Er : ∀ j < c2.length, ∀ p : Fin (zIdx c1 c2).length, J.A [] (c1.length + c2.length + j) (pos (zIdx c1 c2) (zcIdx g.numCV c1 c2) (.inl p)) = 0 := by
    intro j hj p
    simp only [pos, Sum.elim_inl]
    rw [(L p p.2).1]
    exact hJ.dg j hj _ (L p p.2).2.1
  have hAdd : ∀ i < c2.length, ∀ j < c2.length, J.A [] (c1.length + c2.length + i) (c1.length + c2.length + j) -
      invB (Matrix.fromBlocks (Matrix.of fun i j : Fin (zIdx c1 c2).length => A (c1.idxOf ((c1.filter (· ∈ c2)).getD i 0)) (c1.idxOf ((c1.filter (· ∈ c2)).getD j 0))) (-1) (-1) 0)
        (fun p => J.A [] (c1.length + c2.length + i) (pos (zIdx c1 c2) (zcIdx g.numCV c1 c2) p)) (fun p => J.A [] (c1.length + c2.length + j) (pos (zIdx c1 c2) (zcIdx g.numCV c1 c2) p)) =
      mixA c2 c1 co A (co.length + i) (co.length + j) := by
    intro i hi j hj
    rw [hJ.dd i hi j hj, invB_zc, mixA_axes (labels H).swap A hi hj]
    simp only [El i hi, El j hj, Er i hi, Er j hj, mul_zero, zero_mul, Finset.sum_const_zero, Matrix.of_apply]
    have e1 : ∀ p : Fin (zIdx c1 c2).length, ∑ q : Fin (zIdx c1 c2).length, (if c2.idxOf ((c1.filter (· ∈ c2)).getD p 0) = i then (1 : ℂ) else 0) *
        A (c1.idxOf ((c1.filter (· ∈ c2)).getD p 0)) (c1.idxOf ((c1.filter (· ∈ c2)).getD q 0)) * (if c2.idxOf ((c1.filter (· ∈ c2)).getD q 0) = j then (1 : ℂ) else 0) =
        (if c2.idxOf ((c1.filter (· ∈ c2)).getD p 0) = i then (1 : ℂ) else 0) * (fun l => if c2.getD j 0 ∈ c1 then A (c1.idxOf l) (c1.idxOf (c2.getD j 0)) else 0) ((c1.filter (· ∈ c2)).getD p 0) := by
      intro p
      beta_reduce
      rw [← sum_sharedR H (fun l => A (c1.idxOf ((c1.filter (· ∈ c2)).getD p 0)) (c1.idxOf l)) hj, Finset.mul_sum]
      exact Finset.sum_congr rfl fun q _ => by ring
    simp only [e1]
    rw [sum_sharedR H (fun l => if c2.getD j 0 ∈ c1 then A (c1.idxOf l) (c1.idxOf (c2.getD j 0)) else 0) hi]
    by_cases h1 : c2.getD i 0 ∈ c1 <;> by_cases h2 : c2.getD j 0 ∈ c1
    · rw [if_pos h1, if_pos h2, if_pos ⟨h1, h2⟩]; ring
    · rw [if_pos h1, if_neg h2, if_neg (fun h => h2 h.2)]; ring
    · rw [if_neg h1, if_neg (fun h => h1 h.1)]; ring
    · rw [if_neg h1, if_neg (fun h => h1 h.1)]; ring
  have hlin : ∀ j < c2.length, ∑ x ∈ Finset.range (remCV (c1.length + c2.length) (zIdx c1 c2) (zcIdx g.numCV c1 c2)).length,
      J.A [] ((remCV (c1.length + c2.length) (zIdx c1 c2) (zcIdx g.numCV c1 c2)).getD x 0) (c1.length + c2.length + j) * y (co.idxOf ((leftover c1 c2).getD x 0)) +
      J.b [] (c1.length + c2.length + j) -
      invB (Matrix.fromBlocks (Matrix.of fun i j : Fin (zIdx c1 c2).length => A (c1.idxOf ((c1.filter (· ∈ c2)).getD i 0)) (c1.idxOf ((c1.filter (· ∈ c2)).getD j 0))) (-1) (-1) 0)
        (fun p => J.A [] (c1.length + c2.length + j) (pos (zIdx c1 c2) (zcIdx g.numCV c1 c2) p)) bY =
      ∑ a ∈ Finset.range co.length, mixA c2 c1 co A a (co.length + j) * y a + mixB c2 c1 co b (co.length + j) := by
    intro j hj
    rw [hrx fun v w => J.A [] v (c1.length + c2.length + j) * w, hJ.bd j hj, invB_zc, mixB_axis]
    simp only [El j hj, Er j hj, bl, br, mul_zero, zero_mul, Finset.sum_const_zero]
    rw [sum_sharedR H (fun l => b (c1.idxOf l) + ∑ a ∈ Finset.range co.length, (if co.getD a 0 ∈ c1 then A (c1.idxOf (co.getD a 0)) (c1.idxOf l) else 0) * y a) hj]
    have e1 : ∑ a ∈ Finset.range co.length, mixA c2 c1 co A a (co.length + j) * y a =
        ∑ a ∈ Finset.range co.length, J.A [] (posR c1 c2 (co.getD a 0)) (c1.length + c2.length + j) * y a +
        if c2.getD j 0 ∈ c1 then ∑ a ∈ Finset.range co.length, (if co.getD a 0 ∈ c1 then A (c1.idxOf (co.getD a 0)) (c1.idxOf (c2.getD j 0)) else 0) * y a else 0 := by
      have e2 : (if c2.getD j 0 ∈ c1 then ∑ a ∈ Finset.range co.length, (if co.getD a 0 ∈ c1 then A (c1.idxOf (co.getD a 0)) (c1.idxOf (c2.getD j 0)) else 0) * y a else 0) =
          ∑ a ∈ Finset.range co.length, if c2.getD j 0 ∈ c1 then (if co.getD a 0 ∈ c1 then A (c1.idxOf (co.getD a 0)) (c1.idxOf (c2.getD j 0)) else 0) * y a else 0 := by
        by_cases h : c2.getD j 0 ∈ c1
        · simp only [if_pos h]
        · simp only [if_neg h, Finset.sum_const_zero]
      rw [e2, ← Finset.sum_add_distrib]
      refine Finset.sum_congr rfl fun a ha => ?_
      rw [mixA_cross (labels H).swap A (Finset.mem_range.1 ha) hj]
      rcases posR_cases H (Finset.mem_range.1 ha) with ⟨h1, h2, h3⟩ | ⟨h1, h2, h3⟩
      · rw [if_pos h1, h2, hJ.gd j hj _ h3]
        by_cases h : c2.getD j 0 ∈ c1
        · rw [if_pos h, if_pos h, if_pos h1]; ring
        · rw [if_neg h, if_neg h]; ring
      · rw [if_neg h1, h2, hJ.fd j hj _ h3, if_neg h1]
        simp only [zero_mul, ite_self, add_zero]
    rw [e1]
    by_cases h : c2.getD j 0 ∈ c1
    · simp only [if_pos h]; ring
    · simp only [if_neg h]; ring
  have hK : ∑ i ∈ Finset.range (remCV (c1.length + c2.length) (zIdx c1 c2) (zcIdx g.numCV c1 c2)).length,
      ∑ j ∈ Finset.range (remCV (c1.length + c2.length) (zIdx c1 c2) (zcIdx g.numCV c1 c2)).length,
        y (co.idxOf ((leftover c1 c2).getD i 0)) * y (co.idxOf ((leftover c1 c2).getD j 0)) *
          J.A [] ((remCV (c1.length + c2.length) (zIdx c1 c2) (zcIdx g.numCV c1 c2)).getD i 0) ((remCV (c1.length + c2.length) (zIdx c1 c2) (zcIdx g.numCV c1 c2)).getD j 0) =
      ∑ a ∈ Finset.range co.length, ∑ a' ∈ Finset.range co.length, y a * y a' * mixA c2 c1 co A a a' := by
    have e : ∀ v w, ∑ j ∈ Finset.range (remCV (c1.length + c2.length) (zIdx c1 c2) (zcIdx g.numCV c1 c2)).length, w * y (co.idxOf ((leftover c1 c2).getD j 0)) *
          J.A [] v ((remCV (c1.length + c2.length) (zIdx c1 c2) (zcIdx g.numCV c1 c2)).getD j 0) =
        ∑ a' ∈ Finset.range co.length, w * y a' * J.A [] v (posR c1 c2 (co.getD a' 0)) := fun v w => hrx fun v' w' => w * w' * J.A [] v v'
    simp only [e]
    rw [hrx fun v w => ∑ a' ∈ Finset.range co.length, w * y a' * J.A [] v (posR c1 c2 (co.getD a' 0))]
    refine Finset.sum_congr rfl fun a ha => Finset.sum_congr rfl fun a' ha' => ?_
    rw [jointR_core H hJ (Finset.mem_range.1 ha) (Finset.mem_range.1 ha')]
  have hK2 : ∑ i ∈ Finset.range (remCV (c1.length + c2.length) (zIdx c1 c2) (zcIdx g.numCV c1 c2)).length,
      y (co.idxOf ((leftover c1 c2).getD i 0)) * J.b [] ((remCV (c1.length + c2.length) (zIdx c1 c2) (zcIdx g.numCV c1 c2)).getD i 0) =
      ∑ a ∈ Finset.range co.length, y a * mixB c2 c1 co b a := by
    rw [hrx fun v w => w * J.b [] v]
    exact Finset.sum_congr rfl fun a ha => by rw [jointR_b H hJ (Finset.mem_range.1 ha)]
  rw [hK, hK2, hbb, mul_zero, add_zero, div_self (pow_ne_zero _ (by norm_num)), Complex.one_cpow, hd]
  unfold termVal
  rw [← nsum_mul_left]
  refine nsum_congr fun k hk => ?_
  rw [hc k hk, mul_one, mul_assoc]
  refine congrArg _ (congrArg _ ?_)
  refine amp_congr _ ?_ ?_ _
  · intro i hi j hj
    rw [hfd] at hi hj
    exact hAdd i hi j hj
  · intro j hj
    rw [hfd] at hj
    exact hlin j hj

end Verif.Mixed
