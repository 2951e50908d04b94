import Verif.ContractJoin

/-!
# `contract` computes the integral over the shared variables (property C16)
-/

namespace Verif.PolyExp
open Verif.Fock Verif.Batch Verif.Gauss PolyExp MeasureTheory

/-! ### The joined triple -/

theorem joinPerm_lt (n1 m1 n2 m2 i : ℕ) (hi : i < n1 + m1 + (n2 + m2)) :
    (joinPerm n1 m1 n2 m2).getD i 0 < n1 + m1 + (n2 + m2) := by
  obtain ⟨p1, p2, p3, p4⟩ := joinPerm_get n1 m1 n2 m2
  by_cases h1 : i < n1
  · rw [p1 i h1]; omega
  by_cases h2 : i < n1 + n2
  · have := p2 (i - n1) (by omega)
    rw [show n1 + (i - n1) = i by omega] at this
    rw [this]; omega
  by_cases h3 : i < n1 + n2 + m1
  · have := p3 (i - n1 - n2) (by omega)
    rw [show n1 + n2 + (i - n1 - n2) = i by omega] at this
    rw [this]; omega
  · have := p4 (i - n1 - n2 - m1) (by omega)
    rw [show n1 + n2 + (m1 + (i - n1 - n2 - m1)) = i by omega] at this
    rw [this]; omega

theorem joined_symm {f g : PolyExp} (hf : f.WF) (hg : g.WF) (sf : SymAll f) (sg : SymAll g) {in1 in2 out : List ℕ} {J : Joined}
    (hJ : joinAbc f g in1 in2 out = some J) (ls : Bool) : SymAll (J.toPolyExp ls (f.derived ++ g.derived)) := by
  unfold joinAbc at hJ
  split at hJ
  · cases hJ
  · rename_i shape hs
    cases hJ
    have hfd := hf.der
    have hgd := hg.der
    have hN : f.numCV + f.derived.length + (g.numCV + g.derived.length) = f.N + g.N := by unfold numCV; omega
    intro β i hi j hj
    change i < f.N + g.N at hi
    change j < f.N + g.N at hj
    have hi' := joinPerm_lt f.numCV f.derived.length g.numCV g.derived.length i (by omega)
    have hj' := joinPerm_lt f.numCV f.derived.length g.numCV g.derived.length j (by omega)
    simp only [Joined.toPolyExp, dsumA]
    rw [hN] at hi' hj'
    by_cases a : (joinPerm f.numCV f.derived.length g.numCV g.derived.length).getD i 0 < f.N <;>
      by_cases b : (joinPerm f.numCV f.derived.length g.numCV g.derived.length).getD j 0 < f.N
    · rw [if_pos ⟨a, b⟩, if_pos ⟨b, a⟩]
      exact sf _ _ a _ b
    · rw [if_neg (by omega), if_neg (by omega), if_neg (by omega), if_neg (by omega)]
    · rw [if_neg (by omega), if_neg (by omega), if_neg (by omega), if_neg (by omega)]
    · rw [if_neg (by omega), if_pos (by omega), if_neg (by omega), if_pos (by omega)]
      exact sg _ _ (by omega) _ (by omega)

/-- The quadratic form of the joined triple is the sum of the quadratic forms. -/
theorem joined_quad {n1 m1 n2 m2 : ℕ} (A1 A2 : ℕ → ℕ → ℂ) (x : ℕ → ℂ) :
    ∑ i ∈ Finset.range (n1 + n2), ∑ j ∈ Finset.range (n1 + n2), x i * x j *
        dsumA (n1 + m1) A1 A2 ((joinPerm n1 m1 n2 m2).getD i 0) ((joinPerm n1 m1 n2 m2).getD j 0) =
      ∑ i ∈ Finset.range n1, ∑ j ∈ Finset.range n1, x i * x j * A1 i j +
      ∑ i ∈ Finset.range n2, ∑ j ∈ Finset.range n2, x (n1 + i) * x (n1 + j) * A2 i j := by
  obtain ⟨p1, p2, p3, p4⟩ := joinPerm_get n1 m1 n2 m2
  rw [Finset.sum_range_add]
  refine congr (congrArg HAdd.hAdd ?_) ?_
  · refine Finset.sum_congr rfl fun i hi => ?_
    have hi := Finset.mem_range.1 hi
    rw [Finset.sum_range_add, Finset.sum_eq_zero (s := Finset.range n2), add_zero]
    · refine Finset.sum_congr rfl fun j hj => ?_
      have hj := Finset.mem_range.1 hj
      rw [p1 i hi, p1 j hj, dsumA, if_pos (by omega)]
    · intro j hj
      have hj := Finset.mem_range.1 hj
      rw [p1 i hi, p2 j hj, dsumA, if_neg (by omega), if_neg (by omega), mul_zero]
  · refine Finset.sum_congr rfl fun i hi => ?_
    have hi := Finset.mem_range.1 hi
    rw [Finset.sum_range_add, Finset.sum_eq_zero (s := Finset.range n1), zero_add]
    · refine Finset.sum_congr rfl fun j hj => ?_
      have hj := Finset.mem_range.1 hj
      rw [p2 i hi, p2 j hj, dsumA, if_neg (by omega), if_pos (by omega), Nat.add_sub_cancel_left, Nat.add_sub_cancel_left]
    · intro j hj
      have hj := Finset.mem_range.1 hj
      rw [p2 i hi, p1 j hj, dsumA, if_neg (by omega), if_neg (by omega), mul_zero]

/-! ### Labels -/

theorem getD_idxOf {c : List ℕ} {l : ℕ} (h : l ∈ c) : c.getD (c.idxOf l) 0 = l := by
  have hlt : c.idxOf l < c.length := List.idxOf_lt_length_iff.mpr h
  rw [List.getD_eq_getElem _ _ hlt, List.getElem_idxOf]

theorem idxOf_getD {c : List ℕ} (hc : c.Nodup) {i : ℕ} (h : i < c.length) : c.idxOf (c.getD i 0) = i := by
  rw [List.getD_eq_getElem _ _ h]
  exact hc.idxOf_getElem i h

/-- Filtering positions by the label is filtering the labels. -/
theorem filter_positions (l : List ℕ) (P : ℕ → Bool) (Q : ℕ → Bool) (h : ∀ i, i < l.length → Q i = P (l.getD i 0)) :
    ((List.range l.length).filter Q).map (fun i => l.getD i 0) = l.filter P := by
  have h1 : (List.range l.length).filter Q = (List.range l.length).filter (P ∘ fun i => l.getD i 0) :=
    List.filter_congr fun i hi => h i (List.mem_range.mp hi)
  rw [h1, ← List.filter_map]
  congr 1
  apply List.ext_getElem
  · simp
  · intro i h1 h2
    rw [List.getElem_map, List.getElem_range, List.getD_eq_getElem _ _ h2]

/-- What the labels of a contraction must satisfy for the code to do what the documentation says: labels within one operand are
distinct, sizes of shared batch labels agree, the output lists the batch labels of each operand in the operand's order, **the
shared core labels occur in the same order in both operands**, and the output core labels are the unshared ones in any order.
When both operands are superpositions moreover `b_out = b_1` and the second has no derived variables. -/
structure Compat (f g : PolyExp) (b1 c1 b2 c2 bo co : List ℕ) : Prop where
  nb1 : b1.Nodup
  nb2 : b2.Nodup
  lb1 : b1.length = f.outBatch.length
  lb2 : b2.length = g.outBatch.length
  ob1 : bo.filter (· ∈ b1) = b1
  ob2 : bo.filter (· ∈ b2) = b2
  bout : ∀ d ∈ bo, d ∈ b1 ∨ d ∈ b2
  bsz : ∀ d ∈ b1, d ∈ b2 → Batch.sizeOf b1 f.outBatch d = Batch.sizeOf b2 g.outBatch d
  nc1 : c1.Nodup
  nc2 : c2.Nodup
  lc1 : c1.length = f.numCV
  lc2 : c2.length = g.numCV
  same : c1.filter (· ∈ c2) = c2.filter (· ∈ c1)
  out : co.Perm (c1.filter (· ∉ c2) ++ c2.filter (· ∉ c1))
  both : f.linSup = true → g.linSup = true → bo = b1 ∧ g.derived = []

variable {f g : PolyExp} {b1 c1 b2 c2 bo co : List ℕ}

theorem Compat.shared_eq (H : Compat f g b1 c1 b2 c2 bo co) : shared c1 c2 = c1.filter (· ∈ c2) :=
  List.Nodup.dedup (H.nc1.filter _)

theorem mem_sharedL {c1 c2 : List ℕ} {l : ℕ} : l ∈ c1.filter (· ∈ c2) ↔ l ∈ c1 ∧ l ∈ c2 := by
  rw [List.mem_filter, decide_eq_true_eq]

theorem Compat.leftover_eq (H : Compat f g b1 c1 b2 c2 bo co) :
    leftover c1 c2 = c1.filter (· ∉ c2) ++ c2.filter (· ∉ c1) := by
  unfold leftover
  rw [H.shared_eq, List.filter_append]
  refine congr (congrArg HAppend.hAppend ?_) ?_
  · refine List.filter_congr fun x hx => ?_
    simp only [mem_sharedL, hx, true_and]
  · refine List.filter_congr fun x hx => ?_
    simp only [mem_sharedL, hx, and_true]

theorem Compat.left_nodup (H : Compat f g b1 c1 b2 c2 bo co) : (leftover c1 c2).Nodup := by
  rw [H.leftover_eq, List.nodup_append]
  refine ⟨H.nc1.filter _, H.nc2.filter _, ?_⟩
  intro a ha b hb hab
  rw [List.mem_filter] at ha hb
  subst hab
  exact absurd hb.1 (by simpa using ha.2)

theorem Compat.zi_eq (H : Compat f g b1 c1 b2 c2 bo co) :
    sharedPos c1 (shared c1 c2) = (c1.filter (· ∈ c2)).map c1.idxOf := by
  rw [H.shared_eq, sharedPos_eq H.nc1]

theorem Compat.zc_eq (H : Compat f g b1 c1 b2 c2 bo co) :
    sharedPos c2 (shared c1 c2) = (c1.filter (· ∈ c2)).map c2.idxOf := by
  rw [H.shared_eq, H.same, sharedPos_eq H.nc2]

theorem Compat.labels (H : Compat f g b1 c1 b2 c2 bo co) : labelsOk f g b1 c1 b2 c2 bo co := by
  refine ⟨H.lb1, H.lb2, H.lc1, H.lc2, ?_, ?_, ?_⟩
  · -- the output batch labels are the distinct labels
    have hbo : bo.Nodup := by
      rw [List.nodup_iff_count_le_one]
      intro a
      by_contra hcon
      have hmem : a ∈ bo := List.count_pos_iff.mp (by omega)
      rcases H.bout a hmem with h | h
      · have := List.count_filter (p := fun x => decide (x ∈ b1)) (l := bo) (a := a) (by simpa using h)
        rw [H.ob1] at this
        have h1 := List.nodup_iff_count_le_one.mp H.nb1 a
        omega
      · have := List.count_filter (p := fun x => decide (x ∈ b2)) (l := bo) (a := a) (by simpa using h)
        rw [H.ob2] at this
        have h1 := List.nodup_iff_count_le_one.mp H.nb2 a
        omega
    refine List.Perm.length_eq ((List.perm_ext_iff_of_nodup hbo (List.nodup_dedup _)).mpr fun a => ?_)
    rw [List.mem_dedup, List.mem_append]
    constructor
    · exact H.bout a
    · rintro (h | h)
      · rw [← H.ob1] at h; exact List.mem_of_mem_filter h
      · rw [← H.ob2] at h; exact List.mem_of_mem_filter h
  · rw [H.out.length_eq, List.Nodup.dedup]
    rw [← H.leftover_eq]; exact H.left_nodup
  · intro l hl
    rw [H.shared_eq, mem_sharedL]
    have := H.out.mem_iff.mp hl
    rw [List.mem_append, List.mem_filter, List.mem_filter] at this
    rintro ⟨h1, h2⟩
    rcases this with h | h
    · exact absurd h2 (by simpa using h.2)
    · exact absurd h1 (by simpa using h.2)

/-- The positions integrated over. -/
def zIdx (c1 c2 : List ℕ) : List ℕ := (c1.filter (· ∈ c2)).map c1.idxOf
/-- Their partners. -/
def zcIdx (n1 : ℕ) (c1 c2 : List ℕ) : List ℕ := ((c1.filter (· ∈ c2)).map c2.idxOf).map (n1 + ·)

theorem zIdx_mem (H : Compat f g b1 c1 b2 c2 bo co) {i : ℕ} (hi : i < f.numCV) :
    i ∈ zIdx c1 c2 ↔ c1.getD i 0 ∈ c1.filter (· ∈ c2) := by
  unfold zIdx
  rw [List.mem_map]
  have hi' : i < c1.length := by rw [H.lc1]; exact hi
  constructor
  · rintro ⟨l, hl, rfl⟩
    rwa [getD_idxOf (mem_sharedL.mp hl).1]
  · intro h
    exact ⟨_, h, idxOf_getD H.nc1 hi'⟩

theorem zIdx_lt (H : Compat f g b1 c1 b2 c2 bo co) {i : ℕ} (hi : i ∈ zIdx c1 c2) : i < f.numCV := by
  unfold zIdx at hi
  rw [List.mem_map] at hi
  obtain ⟨l, hl, rfl⟩ := hi
  rw [← H.lc1]
  exact List.idxOf_lt_length_iff.mpr (mem_sharedL.mp hl).1

theorem zcIdx_mem (H : Compat f g b1 c1 b2 c2 bo co) {i : ℕ} (hi : i < g.numCV) :
    f.numCV + i ∈ zcIdx f.numCV c1 c2 ↔ c2.getD i 0 ∈ c1.filter (· ∈ c2) := by
  unfold zcIdx
  rw [List.mem_map]
  have hi' : i < c2.length := by rw [H.lc2]; exact hi
  constructor
  · rintro ⟨x, hx, e⟩
    rw [List.mem_map] at hx
    obtain ⟨l, hl, rfl⟩ := hx
    rw [show i = c2.idxOf l by omega, getD_idxOf (mem_sharedL.mp hl).2]
    exact hl
  · intro h
    exact ⟨i, List.mem_map.mpr ⟨_, h, idxOf_getD H.nc2 hi'⟩, rfl⟩

theorem zcIdx_range (H : Compat f g b1 c1 b2 c2 bo co) {i : ℕ} (hi : i ∈ zcIdx f.numCV c1 c2) :
    f.numCV ≤ i ∧ i < f.numCV + g.numCV := by
  unfold zcIdx at hi
  rw [List.mem_map] at hi
  obtain ⟨x, hx, rfl⟩ := hi
  rw [List.mem_map] at hx
  obtain ⟨l, hl, rfl⟩ := hx
  have := List.idxOf_lt_length_iff.mpr (mem_sharedL.mp hl).2
  rw [H.lc2] at this
  omega

theorem zz_nodup (H : Compat f g b1 c1 b2 c2 bo co) : (zIdx c1 c2 ++ zcIdx f.numCV c1 c2).Nodup := by
  rw [List.nodup_append]
  refine ⟨(idxOf_sorted H.nc1 _).imp fun h => ne_of_lt h, ?_, ?_⟩
  · unfold zcIdx
    refine List.Nodup.map (fun a b h => by simpa using h) ?_
    rw [H.same]
    exact (idxOf_sorted H.nc2 _).imp fun h => ne_of_lt h
  · intro a ha b hb hab
    have := zIdx_lt H ha
    have := zcIdx_range H hb
    omega

/-- The labels of the variables that remain, in order. -/
theorem rem_labels (H : Compat f g b1 c1 b2 c2 bo co) :
    ((List.range (f.numCV + g.numCV)).filter (· ∉ zIdx c1 c2 ++ zcIdx f.numCV c1 c2)).map (fun i => (c1 ++ c2).getD i 0)
      = leftover c1 c2 := by
  have hl : f.numCV + g.numCV = (c1 ++ c2).length := by rw [List.length_append, H.lc1, H.lc2]
  rw [hl]
  unfold leftover
  refine filter_positions (c1 ++ c2) _ _ fun i hi => ?_
  rw [H.shared_eq]
  by_cases h : i < f.numCV
  · have hi1 : i < c1.length := by rw [H.lc1]; exact h
    rw [List.getD_append _ _ _ _ hi1]
    rw [decide_eq_decide, not_iff_not, List.mem_append, zIdx_mem H h]
    constructor
    · rintro (h' | h')
      · exact h'
      · have := zcIdx_range H h'; omega
    · exact Or.inl
  · rw [List.getD_append_right _ _ _ _ (by rw [H.lc1]; omega), H.lc1]
    obtain ⟨x, rfl⟩ : ∃ x, i = f.numCV + x := ⟨i - f.numCV, by omega⟩
    rw [Nat.add_sub_cancel_left, decide_eq_decide, not_iff_not, List.mem_append, zcIdx_mem H (by omega)]
    constructor
    · rintro (h' | h')
      · have := zIdx_lt H h'; omega
      · exact h'
    · exact Or.inr

/-- Values at the joined point. -/
theorem point_rem (H : Compat f g b1 c1 b2 c2 bo co) (w v y : ℕ → ℂ) (x : ℕ)
    (hx : x < ((List.range (f.numCV + g.numCV)).filter (· ∉ zIdx c1 c2 ++ zcIdx f.numCV c1 c2)).length) :
    joinPt f.numCV (atLabel c1 (c1.filter (· ∈ c2)) w co y) (atLabel c2 (c1.filter (· ∈ c2)) v co y)
      (((List.range (f.numCV + g.numCV)).filter (· ∉ zIdx c1 c2 ++ zcIdx f.numCV c1 c2)).getD x 0)
      = y (co.idxOf ((leftover c1 c2).getD x 0)) := by
  have hlab : (c1 ++ c2).getD (((List.range (f.numCV + g.numCV)).filter (· ∉ zIdx c1 c2 ++ zcIdx f.numCV c1 c2)).getD x 0) 0
      = (leftover c1 c2).getD x 0 := by
    have aux : ∀ (L : List ℕ) (F : ℕ → ℕ), x < L.length → F (L.getD x 0) = (L.map F).getD x 0 := by
      intro L F h
      rw [List.getD_eq_getElem _ _ h, List.getD_eq_getElem _ _ (by simpa using h), List.getElem_map]
    rw [← rem_labels H]
    exact aux _ (fun i => (c1 ++ c2).getD i 0) hx
  have hmem := List.getElem_mem hx
  rw [← List.getD_eq_getElem _ 0 hx] at hmem
  rw [List.mem_filter, List.mem_range, decide_eq_true_eq, List.mem_append, not_or] at hmem
  obtain ⟨hlt, hn1, hn2⟩ := hmem
  rw [← hlab]
  generalize ((List.range (f.numCV + g.numCV)).filter (· ∉ zIdx c1 c2 ++ zcIdx f.numCV c1 c2)).getD x 0 = p at hlt hn1 hn2
  unfold joinPt
  split_ifs with hp
  · unfold atLabel
    rw [zIdx_mem H hp] at hn1
    rw [if_neg hn1, List.getD_append _ _ _ _ (by rw [H.lc1]; exact hp)]
  · obtain ⟨q, rfl⟩ : ∃ q, p = f.numCV + q := ⟨p - f.numCV, by omega⟩
    rw [zcIdx_mem H (by omega)] at hn2
    rw [Nat.add_sub_cancel_left]
    unfold atLabel
    rw [if_neg hn2, List.getD_append_right _ _ _ _ (by rw [H.lc1]; omega), H.lc1, Nat.add_sub_cancel_left]

theorem point_z (H : Compat f g b1 c1 b2 c2 bo co) (w v y : ℕ → ℂ) (i : ℕ) (hi : i < (c1.filter (· ∈ c2)).length) :
    joinPt f.numCV (atLabel c1 (c1.filter (· ∈ c2)) w co y) (atLabel c2 (c1.filter (· ∈ c2)) v co y) ((zIdx c1 c2).getD i 0) = w i ∧
    joinPt f.numCV (atLabel c1 (c1.filter (· ∈ c2)) w co y) (atLabel c2 (c1.filter (· ∈ c2)) v co y)
      ((zcIdx f.numCV c1 c2).getD i 0) = v i := by
  have hS : (c1.filter (· ∈ c2)).getD i 0 ∈ c1.filter (· ∈ c2) := by
    rw [List.getD_eq_getElem _ _ hi]; exact List.getElem_mem hi
  have hidx := idxOf_getD (H.nc1.filter (· ∈ c2)) hi
  obtain ⟨m1, m2⟩ := mem_sharedL.mp hS
  have ez : (zIdx c1 c2).getD i 0 = c1.idxOf ((c1.filter (· ∈ c2)).getD i 0) := by
    unfold zIdx
    rw [List.getD_eq_getElem _ _ (by simpa using hi), List.getElem_map, List.getD_eq_getElem _ _ hi]
  have ec : (zcIdx f.numCV c1 c2).getD i 0 = f.numCV + c2.idxOf ((c1.filter (· ∈ c2)).getD i 0) := by
    unfold zcIdx
    rw [List.getD_eq_getElem _ _ (by simpa using hi), List.getElem_map, List.getElem_map, List.getD_eq_getElem _ _ hi]
  have hlt : c1.idxOf ((c1.filter (· ∈ c2)).getD i 0) < f.numCV := by
    rw [← H.lc1]; exact List.idxOf_lt_length_iff.mpr m1
  constructor
  · rw [ez, joinPt, if_pos hlt, atLabel, getD_idxOf m1, if_pos hS, hidx]
  · rw [ec, joinPt, if_neg (by omega), Nat.add_sub_cancel_left, atLabel, getD_idxOf m2, if_pos hS, hidx]

end Verif.PolyExp
