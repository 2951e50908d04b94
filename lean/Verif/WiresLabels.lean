import Verif.WiresProps

/-!
# `contracted_indices` and `contracted_labels` (C03, C06)
-/

namespace Verif.WireModel

/-! ### Model of `contracted_labels` -/

/-- physics/wires.py:502-503: `for i, j in zip(idxA, idxB): lblB[j] = lblA[i]`. -/
def relabel (lblA : List Nat) (lblB : List Nat) : List (Nat × Nat) → List Nat
  | [] => lblB
  | (i, j) :: l => relabel lblA (lblB.set j (lblA.getD i 0)) l

/-- physics/wires.py:488-511 `contracted_labels`.  `f` gives the fresh identifiers of the copy of `B`.
A missing dictionary key (`KeyError`) is `none`. -/
def contractedLabels (A B : Wires) (f : Nat → Nat) : Option (List Nat × List Nat × List Nat) :=
  let B' := B.copyNew f
  let idx := A.contractedIndices B'
  let lblA := List.range A.len
  let lblB := relabel lblA (List.range' A.len B'.len) (idx.1.zip idx.2)
  let outputLabels := fun l : Nat => (l ∈ lblA) != (l ∈ lblB)
  -- a later `update` of a Python dict wins, hence the entries of `B'` are searched first
  let id2label := fun d : Nat =>
    (((B'.sortedWires.map (·.id)).zip lblB).lookup d).or (((A.sortedWires.map (·.id)).zip lblA).lookup d)
  match matmul A B' with
  | .error _ => none
  | .ok (R, _) => do
      let ls ← R.sortedWires.mapM (fun w => id2label w.id)
      return (lblA, lblB, ls.filter outputLabels)

/-! ### sub-listings -/

theorem filter_sorted {W : Wires} (hd : Distinct W) (hr : InRange W) (p : Wire → Bool) :
    (⟨W.ws.filter p⟩ : Wires).sortedWires = W.sortedWires.filter p := by
  have hd' : Distinct ⟨W.ws.filter p⟩ := List.Nodup.sublist (List.filter_sublist.map _) hd
  have hr' : InRange ⟨W.ws.filter p⟩ := fun w hw => hr w (List.mem_filter.1 hw).1
  refine perm_stdLt_unique ?_ (sortedWires_stdLt hd' hr') ((sortedWires_stdLt hd hr).filter _)
  exact (sortedWires_perm _).trans ((sortedWires_perm W).filter p).symm

/-- contracted wires of the left operand on one side, in standard order -/
def selA (A B : Wires) (s : Side) : List Wire :=
  A.sortedWires.filter (fun w => w.side == s && w.isOut && decide (Has B s false w.mode))
/-- contracted wires of the right operand on one side, in standard order -/
def selB (A B : Wires) (s : Side) : List Wire :=
  B.sortedWires.filter (fun w => w.side == s && !w.isOut && decide (Has A s true w.mode))

theorem mem_selA {A B s w} : w ∈ selA A B s ↔ w ∈ A.ws ∧ w.side = s ∧ w.isOut = true ∧ Has B s false w.mode := by
  simp [selA, and_assoc]
theorem mem_selB {A B s w} : w ∈ selB A B s ↔ w ∈ B.ws ∧ w.side = s ∧ w.isOut = false ∧ Has A s true w.mode := by
  simp [selB, and_assoc]

theorem contractedIndices_eq {A B : Wires} (hA : Good A) (hB : Good B) :
    A.contractedIndices B =
      ((selA A B .bra).map (·.index) ++ (selA A B .ket).map (·.index),
       (selB A B .bra).map (·.index) ++ (selB A B .ket).map (·.index)) := by
  have h : ∀ (W : Wires) (hW : Good W) (s o) (ms : List Int),
      ((⟨blk W s o⟩ : Wires).getModes ms).indices =
        (W.sortedWires.filter (fun w => w.side == s && w.isOut == o && decide (w.mode ∈ ms))).map (·.index) := by
    intro W hW s o ms
    unfold Wires.indices Wires.getModes blk
    rw [List.filter_filter, filter_sorted hW.distinct hW.inRange]
    congr 1
    apply List.filter_congr
    intro w _
    rw [Bool.and_comm]
  unfold Wires.contractedIndices Wires.overlap
  simp only [output_bra, output_ket, input_bra, input_ket, h A hA, h B hB]
  have mem : ∀ s m, m ∈ ((⟨blk A s true⟩ : Wires).modes.filter (· ∈ (⟨blk B s false⟩ : Wires).modes)) ↔
      Has A s true m ∧ Has B s false m := by
    intro s m
    rw [List.mem_filter, mem_modes_blk, decide_eq_true_eq, mem_modes_blk]
  congr 1 <;> congr 1 <;> congr 1 <;> apply List.filter_congr <;> intro w hw <;>
    rw [mem_sortedWires] at hw <;> rw [Bool.eq_iff_iff] <;>
    simp only [Bool.and_eq_true, beq_iff_eq, decide_eq_true_eq, mem, Bool.not_eq_true'] <;>
    constructor
  · rintro ⟨⟨h1, h2⟩, h3⟩; exact ⟨⟨h1, h2⟩, h3.2⟩
  · rintro ⟨⟨h1, h2⟩, h3⟩; exact ⟨⟨h1, h2⟩, ⟨w, hw, by simp [Wire.slot, h1, h2]⟩, h3⟩
  · rintro ⟨⟨h1, h2⟩, h3⟩; exact ⟨⟨h1, h2⟩, h3.2⟩
  · rintro ⟨⟨h1, h2⟩, h3⟩; exact ⟨⟨h1, h2⟩, ⟨w, hw, by simp [Wire.slot, h1, h2]⟩, h3⟩
  · rintro ⟨⟨h1, h2⟩, h3⟩; exact ⟨⟨h1, h2⟩, h3.1⟩
  · rintro ⟨⟨h1, h2⟩, h3⟩; exact ⟨⟨h1, h2⟩, h3, ⟨w, hw, by simp [Wire.slot, h1, h2]⟩⟩
  · rintro ⟨⟨h1, h2⟩, h3⟩; exact ⟨⟨h1, h2⟩, h3.1⟩
  · rintro ⟨⟨h1, h2⟩, h3⟩; exact ⟨⟨h1, h2⟩, h3, ⟨w, hw, by simp [Wire.slot, h1, h2]⟩⟩

theorem pairwise_mode_of_block {l : List Wire} (h : l.Pairwise StdLt) {s o}
    (hb : ∀ w ∈ l, w.side = s ∧ w.isOut = o) : (l.map Wire.mode).Pairwise (· < ·) := by
  rw [List.pairwise_map]
  refine h.imp_of_mem ?_
  intro a b ha hb' hab
  have h1 := hb a ha
  have h2 := hb b hb'
  unfold StdLt at hab
  rw [h1.1, h1.2, h2.1, h2.2] at hab
  omega

theorem sel_modes {A B : Wires} (hA : Good A) (hB : Good B) (s : Side) :
    (selA A B s).map Wire.mode = (selB A B s).map Wire.mode := by
  have p1 : ((selA A B s).map Wire.mode).Pairwise (· < ·) :=
    pairwise_mode_of_block (s := s) (o := true)
      ((sortedWires_stdLt hA.distinct hA.inRange).filter _) (fun w hw => by
        have := mem_selA.1 hw; exact ⟨this.2.1, this.2.2.1⟩)
  have p2 : ((selB A B s).map Wire.mode).Pairwise (· < ·) :=
    pairwise_mode_of_block (s := s) (o := false)
      ((sortedWires_stdLt hB.distinct hB.inRange).filter _) (fun w hw => by
        have := mem_selB.1 hw; exact ⟨this.2.1, this.2.2.1⟩)
  refine List.Perm.eq_of_pairwise (fun a b _ _ h h' => by omega) p1 p2 ?_
  refine (List.perm_ext_iff_of_nodup (p1.imp (fun h => ne_of_lt h)) (p2.imp (fun h => ne_of_lt h))).2 ?_
  intro m
  simp only [List.mem_map, mem_selA, mem_selB]
  constructor
  · rintro ⟨a, ⟨ha, hs, ho, ⟨b, hb, eb⟩⟩, rfl⟩
    simp only [Wire.slot, Prod.mk.injEq] at eb
    exact ⟨b, ⟨hb, eb.1, eb.2.1, ⟨a, ha, by simp [Wire.slot, hs, ho, eb.2.2]⟩⟩, eb.2.2⟩
  · rintro ⟨b, ⟨hb, hs, ho, ⟨a, ha, ea⟩⟩, rfl⟩
    simp only [Wire.slot, Prod.mk.injEq] at ea
    exact ⟨a, ⟨ha, ea.1, ea.2.1, ⟨b, hb, by simp [Wire.slot, hs, ho, ea.2.2]⟩⟩, ea.2.2⟩

theorem sel_modes_nodup {A B : Wires} (hA : Good A) (s : Side) :
    ((selA A B s).map Wire.mode).Nodup :=
  (pairwise_mode_of_block (s := s) (o := true)
      ((sortedWires_stdLt hA.distinct hA.inRange).filter _) (fun w hw => by
        have := mem_selA.1 hw; exact ⟨this.2.1, this.2.2.1⟩)).imp (fun h => ne_of_lt h)

theorem mem_zip_of_map_eq {α β γ} {la : List α} {lb : List β} {f : α → γ} {g : β → γ}
    (h : la.map f = lb.map g) (hn : (la.map f).Nodup) {a b} :
    (a, b) ∈ la.zip lb ↔ a ∈ la ∧ b ∈ lb ∧ f a = g b := by
  induction la generalizing lb with
  | nil => simp
  | cons x la ih =>
    cases lb with
    | nil => simp at h
    | cons y lb =>
      simp only [List.map_cons, List.cons.injEq, List.nodup_cons] at h hn
      simp only [List.zip_cons_cons, List.mem_cons, Prod.mk.injEq, ih h.2 hn.2]
      constructor
      · rintro (⟨rfl, rfl⟩ | ⟨h1, h2, h3⟩)
        · exact ⟨Or.inl rfl, Or.inl rfl, h.1⟩
        · exact ⟨Or.inr h1, Or.inr h2, h3⟩
      · rintro ⟨h1, h2, h3⟩
        rcases h1 with rfl | h1 <;> rcases h2 with rfl | h2
        · exact Or.inl ⟨rfl, rfl⟩
        · exfalso; apply hn.1; rw [h3, h.2]; exact List.mem_map_of_mem h2
        · exfalso; apply hn.1; rw [h.1, ← h3]; exact List.mem_map_of_mem h1
        · exact Or.inr ⟨h1, h2, h3⟩

theorem Good.getElem?_index {W : Wires} (h : Good W) {w : Wire} (hw : w ∈ W.ws) :
    W.sortedWires[w.index]? = some w := by
  have := mem_sortedWires.2 hw
  obtain ⟨i, hi, e⟩ := List.mem_iff_getElem.1 this
  have hx := h.indexed.getElem i hi
  rw [e] at hx
  rw [hx, List.getElem?_eq_getElem hi, e]

theorem Good.index_of_getElem? {W : Wires} (h : Good W) {i : Nat} {w : Wire}
    (hw : W.sortedWires[i]? = some w) : w ∈ W.ws ∧ w.index = i := by
  obtain ⟨hi, e⟩ := List.getElem?_eq_some_iff.1 hw
  refine ⟨mem_sortedWires.1 (e ▸ List.getElem_mem hi), ?_⟩
  rw [← e]; exact h.indexed.getElem i hi

theorem Good.index_inj {W : Wires} (h : Good W) {v w : Wire} (hv : v ∈ W.ws) (hw : w ∈ W.ws)
    (e : v.index = w.index) : v = w := by
  have h1 := h.getElem?_index hv
  have h2 := h.getElem?_index hw
  rw [e, h2] at h1
  exact (Option.some.inj h1).symm

/-- The specification of a contracted pair: position `i` of `A` is an output wire, position `j` of `B`
an input wire, both quantum, on the same side and mode. -/
def ContractedPair (A B : Wires) (i j : Nat) : Prop :=
  ∃ a b, A.sortedWires[i]? = some a ∧ B.sortedWires[j]? = some b ∧ a.isOut = true ∧ b.isOut = false ∧
    a.side = b.side ∧ a.side ≠ .classical ∧ a.mode = b.mode

theorem mem_zip_sel {A B : Wires} (hA : Good A) (hB : Good B) (s : Side) {i j : Nat} :
    (i, j) ∈ ((selA A B s).map (·.index)).zip ((selB A B s).map (·.index)) ↔
      ∃ a b, A.sortedWires[i]? = some a ∧ B.sortedWires[j]? = some b ∧ a.isOut = true ∧ b.isOut = false ∧
    a.side = s ∧ b.side = s ∧ a.mode = b.mode := by
  rw [List.zip_map, List.mem_map]
  constructor
  · rintro ⟨⟨a, b⟩, hm, e⟩
    rw [mem_zip_of_map_eq (sel_modes hA hB s) (sel_modes_nodup hA s), mem_selA, mem_selB] at hm
    simp only [Prod.map_apply, Prod.mk.injEq] at e
    refine ⟨a, b, ?_, ?_, hm.1.2.2.1, hm.2.1.2.2.1, hm.1.2.1, hm.2.1.2.1, hm.2.2⟩
    · rw [← e.1]; exact hA.getElem?_index hm.1.1
    · rw [← e.2]; exact hB.getElem?_index hm.2.1.1
  · rintro ⟨a, b, ha, hb, oa, ob, sa, sb, m⟩
    have ha' := hA.index_of_getElem? ha
    have hb' := hB.index_of_getElem? hb
    refine ⟨(a, b), ?_, by simp [ha'.2, hb'.2]⟩
    rw [mem_zip_of_map_eq (sel_modes hA hB s) (sel_modes_nodup hA s), mem_selA, mem_selB]
    exact ⟨⟨ha'.1, sa, oa, ⟨b, hb'.1, by simp [Wire.slot, sb, ob, m]⟩⟩,
      ⟨hb'.1, sb, ob, ⟨a, ha'.1, by simp [Wire.slot, sa, oa, m]⟩⟩, m⟩

/-- **C03** `contracted_indices` returns two lists of the same length without repetitions whose entries,
taken position by position, are exactly the contracted pairs. -/
theorem C03_contracted_indices (A B : Wires) (hA : Good A) (hB : Good B) :
    let idx := A.contractedIndices B
    idx.1.length = idx.2.length ∧ idx.1.Nodup ∧ idx.2.Nodup ∧
      ∀ i j, (i, j) ∈ idx.1.zip idx.2 ↔ ContractedPair A B i j := by
  have hlen : ∀ s, ((selA A B s).map (·.index)).length = ((selB A B s).map (·.index)).length := by
    intro s
    have := congrArg List.length (sel_modes hA hB s)
    simpa using this
  rw [contractedIndices_eq hA hB]
  refine ⟨by simp only [List.length_append, hlen], ?_, ?_, ?_⟩
  · show List.Nodup (_ ++ _)
    rw [← List.map_append]
    refine List.Nodup.map_on ?_ ?_
    · intro v hv w hw e
      simp only [List.mem_append, mem_selA] at hv hw
      exact hA.index_inj (hv.elim (·.1) (·.1)) (hw.elim (·.1) (·.1)) e
    · rw [List.nodup_append]
      have nd := (((sortedWires_perm A).nodup_iff).2 hA.distinct.nodup)
      refine ⟨nd.filter _, nd.filter _, ?_⟩
      intro a ha b hb e
      subst e
      have := (mem_selA.1 ha).2.1.symm.trans (mem_selA.1 hb).2.1
      cases this
  · show List.Nodup (_ ++ _)
    rw [← List.map_append]
    refine List.Nodup.map_on ?_ ?_
    · intro v hv w hw e
      simp only [List.mem_append, mem_selB] at hv hw
      exact hB.index_inj (hv.elim (·.1) (·.1)) (hw.elim (·.1) (·.1)) e
    · rw [List.nodup_append]
      have nd := (((sortedWires_perm B).nodup_iff).2 hB.distinct.nodup)
      refine ⟨nd.filter _, nd.filter _, ?_⟩
      intro a ha b hb e
      subst e
      have := (mem_selB.1 ha).2.1.symm.trans (mem_selB.1 hb).2.1
      cases this
  · intro i j
    rw [List.zip_append (hlen .bra), List.mem_append, mem_zip_sel hA hB, mem_zip_sel hA hB]
    constructor
    · rintro (⟨a, b, h1, h2, h3, h4, h5, h6, h7⟩ | ⟨a, b, h1, h2, h3, h4, h5, h6, h7⟩)
      · exact ⟨a, b, h1, h2, h3, h4, by rw [h5, h6], by rw [h5]; decide, h7⟩
      · exact ⟨a, b, h1, h2, h3, h4, by rw [h5, h6], by rw [h5]; decide, h7⟩
    · rintro ⟨a, b, h1, h2, h3, h4, h5, h6, h7⟩
      rcases hs : a.side with _ | _ | _
      · exact Or.inl ⟨a, b, h1, h2, h3, h4, hs, h5 ▸ hs, h7⟩
      · exact Or.inr ⟨a, b, h1, h2, h3, h4, hs, h5 ▸ hs, h7⟩
      · exact absurd hs h6

example : (Wires.mk6 [0, 1] [] [0, 1] [] [] [] id).contractedIndices
    (Wires.mk6 [1] [1] [1] [1] [] [] (· + 10)) = ([1, 3], [1, 3]) := by decide


/-! ### labels -/

theorem copyNew_slot (B : Wires) (f) : (B.copyNew f).ws.map Wire.slot = B.ws.map Wire.slot := by
  simp only [Wires.copyNew, List.map_map]; rfl

theorem copyNew_sorted {B : Wires} (hd : Distinct B) (hr : InRange B) (f) :
    (B.copyNew f).sortedWires = B.sortedWires.map (fun w => { w with id := f w.id }) := by
  have hd' : Distinct (B.copyNew f) := by unfold Distinct; rw [copyNew_slot]; exact hd
  have hr' : InRange (B.copyNew f) := by
    rw [inRange_iff_slot, copyNew_slot, ← inRange_iff_slot]; exact hr
  refine perm_stdLt_unique ?_ (sortedWires_stdLt hd' hr') ?_
  · exact (sortedWires_perm _).trans ((sortedWires_perm B).map _).symm
  · rw [List.pairwise_map]; exact sortedWires_stdLt hd hr

theorem copyNew_good {B : Wires} (h : Good B) (f) : Good (B.copyNew f) := by
  refine ⟨?_, ?_, ?_⟩
  · unfold Distinct; rw [copyNew_slot]; exact h.distinct
  · rw [inRange_iff_slot, copyNew_slot, ← inRange_iff_slot]; exact h.inRange
  · unfold Indexed Wires.indices
    rw [copyNew_sorted h.distinct h.inRange, List.map_map]
    have := h.indexed
    unfold Indexed Wires.indices at this
    have hl : (B.copyNew f).len = B.len := by simp [Wires.copyNew, Wires.len]
    rw [hl]; exact this

theorem has_copyNew (B : Wires) (f s o m) : Has (B.copyNew f) s o m ↔ Has B s o m := by
  rw [has_iff_mem_slot, has_iff_mem_slot, copyNew_slot]

theorem relabel_length (lA lB ps) : (relabel lA lB ps).length = lB.length := by
  induction ps generalizing lB with
  | nil => rfl
  | cons p ps ih => obtain ⟨i, j⟩ := p; rw [relabel, ih]; simp

theorem relabel_not_mem (lA lB ps) (j : Nat) (h : j ∉ ps.map Prod.snd) :
    (relabel lA lB ps)[j]? = lB[j]? := by
  induction ps generalizing lB with
  | nil => rfl
  | cons p ps ih =>
    obtain ⟨i, k⟩ := p
    simp only [List.map_cons, List.mem_cons, not_or] at h
    rw [relabel, ih _ h.2, List.getElem?_set_ne (Ne.symm h.1)]

theorem relabel_mem (lA lB ps) (hn : (ps.map Prod.snd).Nodup) {i j : Nat} (h : (i, j) ∈ ps)
    (hj : j < lB.length) : (relabel lA lB ps)[j]? = some (lA.getD i 0) := by
  induction ps generalizing lB with
  | nil => simp at h
  | cons p ps ih =>
    obtain ⟨i', k⟩ := p
    simp only [List.map_cons, List.nodup_cons] at hn
    rw [relabel]
    rcases List.mem_cons.1 h with e | h
    · cases e
      rw [relabel_not_mem _ _ _ _ hn.1, List.getElem?_set_self hj]
    · exact ih _ hn.2 h (by simpa using hj)

theorem lookup_zip {l : List Wire} {lbl : List Nat} (hn : (l.map Wire.id).Nodup)
    (hl : l.length = lbl.length) {i : Nat} {w : Wire} (h : l[i]? = some w) :
    ((l.map (·.id)).zip lbl).lookup w.id = lbl[i]? := by
  induction l generalizing lbl i with
  | nil => simp at h
  | cons v l ih =>
    cases lbl with
    | nil => simp at hl
    | cons b lbl =>
      simp only [List.map_cons, List.nodup_cons] at hn
      cases i with
      | zero =>
        simp only [List.getElem?_cons_zero, Option.some.injEq] at h
        subst h
        simp
      | succ i =>
        simp only [List.getElem?_cons_succ] at h
        have hne : w.id ≠ v.id := by
          intro e
          exact hn.1 (e ▸ List.mem_map_of_mem (List.mem_of_getElem? h))
        simp only [List.map_cons, List.zip_cons_cons, List.getElem?_cons_succ]
        rw [List.lookup_cons]
        simp only [beq_eq_false_iff_ne.2 hne]
        exact ih hn.2 (by simpa using hl) h

theorem lookup_zip_none {l : List Wire} {lbl : List Nat} {d : Nat} (h : d ∉ l.map Wire.id) :
    ((l.map (·.id)).zip lbl).lookup d = none := by
  induction l generalizing lbl with
  | nil => simp
  | cons v l ih =>
    cases lbl with
    | nil => simp
    | cons b lbl =>
      simp only [List.map_cons, List.mem_cons, not_or] at h
      simp only [List.map_cons, List.zip_cons_cons]
      rw [List.lookup_cons]
      simp only [beq_eq_false_iff_ne.2 h.1]
      exact ih h.2

theorem mapM_some_of_forall {α β} {f : α → Option β} {g : α → β} {l : List α}
    (h : ∀ a ∈ l, f a = some (g a)) : l.mapM f = some (l.map g) := by
  induction l with
  | nil => rfl
  | cons a l ih =>
    rw [List.mapM_cons, h a (by simp), ih (fun b hb => h b (by simp [hb]))]
    rfl

/-- the label of a leftover wire -/
def labelOf (A : Wires) (w : Wire) : Nat := if w ∈ A.ws then w.index else A.len + w.index

/-- **C06** `contracted_labels` gives each operand pairwise different labels; a label of `A` equals a
label of `B` exactly for contracted pairs; the output labels are pairwise different and list, in the
standard order of `A @ B`, the label of the operand wire that each wire of the result is. -/
theorem C06_contracted_labels (A B : Wires) (f : Nat → Nat) (hA : Good A) (hB : Good B)
    (hs : SameRepr A B) (hf : FreshIds A (B.copyNew f)) (hc : Composable A B)
    (hcl : NoClash (leftover A (B.copyNew f))) :
    ∃ (R : Wires) (perm lA lB out : List Nat), matmul A (B.copyNew f) = .ok (R, perm) ∧
      contractedLabels A B f = some (lA, lB, out) ∧
      lA.length = A.len ∧ lB.length = B.len ∧ lA.Nodup ∧ lB.Nodup ∧
      (∀ i j, i < A.len → j < B.len → (lA[i]? = lB[j]? ↔ ContractedPair A B i j)) ∧
      out.length = R.len ∧ out.Nodup ∧
      ∀ (k : Nat) (w : Wire), R.sortedWires[k]? = some w →
        (∃ (i : Nat) (a : Wire), A.sortedWires[i]? = some a ∧ KeepL B a ∧ a.core = w.core ∧ out[k]? = lA[i]?) ∨
        (∃ (j : Nat) (b : Wire), B.sortedWires[j]? = some b ∧ KeepR A b ∧ b.core = w.core ∧ out[k]? = lB[j]?) := by
  set B' := B.copyNew f with hB'def
  have hB' : Good B' := copyNew_good hB f
  have hs' : SameRepr A B' := by
    intro w hw v hv hsd
    simp only [hB'def, Wires.copyNew, List.mem_map] at hv
    obtain ⟨u, hu, rfl⟩ := hv
    exact hs w hw u hu hsd
  have hc' : Composable A B' := by
    intro s m
    simp only [hB'def, has_copyNew]
    exact hc s m
  have hlenB : B'.len = B.len := by simp [hB'def, Wires.copyNew, Wires.len]
  obtain ⟨R, perm, hmat, hR, hperm, hcore, hids⟩ :=
    C03_perm_standardises A B' hA.distinct hB'.distinct hA.inRange hB'.inRange hs' hf hc' hcl
  have hidx := C03_contracted_indices A B' hA hB'
  set idx := A.contractedIndices B' with hidxdef
  obtain ⟨hl, hn1, hn2, hpairs⟩ := hidx
  let lB := relabel (List.range A.len) (List.range' A.len B'.len) (idx.1.zip idx.2)
  have hlB : lB.length = B.len := by
    simp only [lB, relabel_length, List.length_range']; exact hlenB
  have hsnd : ((idx.1.zip idx.2).map Prod.snd).Nodup := by
    rw [List.map_snd_zip (by omega)]; exact hn2
  have hpair' : ∀ i j, ContractedPair A B' i j ↔ ContractedPair A B i j := by
    intro i j
    unfold ContractedPair
    rw [hB'def, copyNew_sorted hB.distinct hB.inRange, List.getElem?_map]
    constructor
    · rintro ⟨a, b, h1, h2, h3⟩
      rw [Option.map_eq_some_iff] at h2
      obtain ⟨b0, h2, rfl⟩ := h2
      exact ⟨a, b0, h1, h2, h3⟩
    · rintro ⟨a, b, h1, h2, h3⟩
      exact ⟨a, { b with id := f b.id }, h1, by rw [h2]; rfl, h3⟩
  -- values of lB
  have lB_pair : ∀ i j, ContractedPair A B' i j → lB[j]? = some i := by
    intro i j h
    have h' := (hpairs i j).2 h
    obtain ⟨a, b, ha, hb, _⟩ := h
    have hj : j < (List.range' A.len B'.len).length := by
      have := (List.getElem?_eq_some_iff.1 hb).1
      simpa using this
    have hi : i < A.len := by
      have := (List.getElem?_eq_some_iff.1 ha).1
      simpa using this
    rw [relabel_mem _ _ _ hsnd h' hj, List.getD_eq_getElem?_getD, List.getElem?_range hi]
    rfl
  have lB_other : ∀ j, j < B.len → (∀ i, ¬ ContractedPair A B' i j) → lB[j]? = some (A.len + j) := by
    intro j hj h
    have : j ∉ (idx.1.zip idx.2).map Prod.snd := by
      intro hm
      obtain ⟨⟨i, j'⟩, hm', rfl⟩ := List.mem_map.1 hm
      exact h i ((hpairs i _).1 hm')
    show (relabel _ _ _)[j]? = _
    rw [relabel_not_mem _ _ _ _ this, List.getElem?_range' (by omega)]
    simp
  have pair_lt : ∀ i j, ContractedPair A B' i j → i < A.len := by
    rintro i j ⟨a, b, ha, hb, _⟩
    have := (List.getElem?_eq_some_iff.1 ha).1
    simpa using this
  have pair_inj : ∀ i j j', ContractedPair A B' i j → ContractedPair A B' i j' → j = j' := by
    rintro i j j' ⟨a, b, ha, hb, h1, h2, h3, h4, h5⟩ ⟨a', b', ha', hb', h1', h2', h3', h4', h5'⟩
    rw [ha] at ha'; cases ha'
    have e1 := hB'.index_of_getElem? hb
    have e2 := hB'.index_of_getElem? hb'
    have : b = b' := hB'.distinct.inj e1.1 e2.1
      (by simp [Wire.slot, ← h3, ← h3', h2, h2', ← h5, ← h5'])
    rw [← e1.2, ← e2.2, this]
  have lA_get : ∀ i, i < A.len → (List.range A.len)[i]? = some i := fun i hi => List.getElem?_range hi
  have hmem_lB : ∀ x, x ∈ lB ↔ (∃ i j, ContractedPair A B' i j ∧ x = i) ∨
      (∃ j, j < B.len ∧ (∀ i, ¬ ContractedPair A B' i j) ∧ x = A.len + j) := by
    intro x
    rw [List.mem_iff_getElem?]
    constructor
    · rintro ⟨j, hj⟩
      have hjl : j < B.len := by rw [← hlB]; exact (List.getElem?_eq_some_iff.1 hj).1
      by_cases h : ∃ i, ContractedPair A B' i j
      · obtain ⟨i, h⟩ := h
        rw [lB_pair i j h] at hj
        exact Or.inl ⟨i, j, h, (Option.some.inj hj).symm⟩
      · push Not at h
        rw [lB_other j hjl h] at hj
        exact Or.inr ⟨j, hjl, h, (Option.some.inj hj).symm⟩
    · rintro (⟨i, j, h, rfl⟩ | ⟨j, hj, h, rfl⟩)
      · exact ⟨j, lB_pair _ j h⟩
      · exact ⟨j, lB_other j hj h⟩
  -- the dictionary
  have hAid : (A.sortedWires.map Wire.id).Nodup := by
    have : (A.ws.map Wire.id).Nodup := by
      unfold FreshIds at hf; rw [List.map_append, List.nodup_append] at hf; exact hf.1
    exact (((sortedWires_perm A).map _).nodup_iff).2 this
  have hBid : (B'.sortedWires.map Wire.id).Nodup := by
    have : (B'.ws.map Wire.id).Nodup := by
      unfold FreshIds at hf; rw [List.map_append, List.nodup_append] at hf; exact hf.2.1
    exact (((sortedWires_perm B').map _).nodup_iff).2 this
  have hABid : ∀ w ∈ A.ws, w.id ∉ B'.sortedWires.map Wire.id := by
    intro w hw h
    obtain ⟨v, hv, e⟩ := List.mem_map.1 h
    have := hf.inj (Or.inr (mem_sortedWires.1 hv)) (Or.inl hw) e
    subst this
    exact hf.disjoint _ hw (mem_sortedWires.1 hv)
  let dict := fun d : Nat =>
    (((B'.sortedWires.map (·.id)).zip lB).lookup d).or
      (((A.sortedWires.map (·.id)).zip (List.range A.len)).lookup d)
  have dictA : ∀ w ∈ A.ws, dict w.id = some w.index := by
    intro w hw
    have hidx := hA.getElem?_index hw
    have hlt : w.index < A.len := by
      have := (List.getElem?_eq_some_iff.1 hidx).1; simpa using this
    simp only [dict]
    rw [lookup_zip_none (hABid w hw), lookup_zip hAid (by simp) hidx, lA_get _ hlt]
    rfl
  have keepB_free : ∀ w ∈ B'.ws, KeepR A w → ∀ i, ¬ ContractedPair A B' i w.index := by
    rintro w hw hk i ⟨a, b, ha, hb, h1, h2, h3, h4, h5⟩
    rw [hB'.getElem?_index hw] at hb
    cases hb
    exact hk h2 ⟨a, (hA.index_of_getElem? ha).1, by simp [Wire.slot, h1, h3, h5]⟩
  have keepA_free : ∀ w ∈ A.ws, KeepL B' w → ∀ j, ¬ ContractedPair A B' w.index j := by
    rintro w hw hk j ⟨a, b, ha, hb, h1, h2, h3, h4, h5⟩
    rw [hA.getElem?_index hw] at ha
    cases ha
    exact hk h1 ⟨b, (hB'.index_of_getElem? hb).1, by simp [Wire.slot, h2, h3, h5]⟩
  have idx_ltB : ∀ w ∈ B'.ws, w.index < B.len := by
    intro w hw
    have := (List.getElem?_eq_some_iff.1 (hB'.getElem?_index hw)).1
    rw [← hlenB]; simpa using this
  have idx_ltA : ∀ w ∈ A.ws, w.index < A.len := by
    intro w hw
    have := (List.getElem?_eq_some_iff.1 (hA.getElem?_index hw)).1
    simpa using this
  have lB_keep : ∀ w ∈ B'.ws, KeepR A w → lB[w.index]? = some (A.len + w.index) :=
    fun w hw hk => lB_other _ (idx_ltB w hw) (keepB_free w hw hk)
  have dictB : ∀ w ∈ B'.ws, KeepR A w → dict w.id = some (A.len + w.index) := by
    intro w hw hk
    simp only [dict]
    rw [lookup_zip hBid (by rw [hlB, length_sortedWires, hlenB]) (hB'.getElem?_index hw),
      lB_keep w hw hk]
    rfl
  have dictL : ∀ w ∈ leftover A B', dict w.id = some (labelOf A w) := by
    intro w hw
    unfold labelOf
    rcases mem_leftover.1 hw with ⟨h, _⟩ | ⟨h, hk⟩
    · rw [if_pos h]; exact dictA w h
    · rw [if_neg (fun h' => hf.disjoint w h' h)]; exact dictB w h hk
  -- the result list
  let out := perm.map (fun i => ((leftover A B')[i]?.map (labelOf A)).getD 0)
  have hperm_lt : ∀ i ∈ perm, i < (leftover A B').length := by
    intro i hi
    have := hperm.mem_iff.1 hi
    simpa using this
  have hls : R.sortedWires.mapM (fun w : Wire => dict w.id) = some out := by
    have h1 : R.sortedWires.mapM (fun w : Wire => dict w.id) = R.ids.mapM dict := by
      unfold Wires.ids; rw [List.mapM_map]; rfl
    rw [h1, hids, List.mapM_map]
    apply mapM_some_of_forall
    intro i hi
    have hlt := hperm_lt i hi
    simp only [List.getElem?_eq_getElem hlt, Option.map_some, Option.getD_some, Function.comp]
    exact dictL _ (List.getElem_mem _)
  have hout_in : ∀ x ∈ out, ((decide (x ∈ List.range A.len)) != (decide (x ∈ lB))) = true := by
    intro x hx
    obtain ⟨i, hi, rfl⟩ := List.mem_map.1 hx
    have hlt := hperm_lt i hi
    simp only [List.getElem?_eq_getElem hlt, Option.map_some, Option.getD_some]
    have hw : (leftover A B')[i] ∈ leftover A B' := List.getElem_mem _
    revert hw
    generalize (leftover A B')[i] = w
    intro hw
    unfold labelOf
    rcases mem_leftover.1 hw with ⟨h, hk⟩ | ⟨h, hk⟩
    · rw [if_pos h]
      have h1 : w.index ∈ List.range A.len := by simpa using idx_ltA w h
      have h2 : w.index ∉ lB := by
        rw [hmem_lB]
        rintro (⟨i, j, hp, e⟩ | ⟨j, _, _, e⟩)
        · exact keepA_free w h hk j (e ▸ hp)
        · have := idx_ltA w h; omega
      simp [h1, h2]
    · rw [if_neg (fun h' => hf.disjoint w h' h)]
      have h1 : A.len + w.index ∉ List.range A.len := by simp
      have h2 : A.len + w.index ∈ lB := by
        rw [hmem_lB]
        exact Or.inr ⟨_, idx_ltB w h, keepB_free w h hk, rfl⟩
      simp [h1, h2]
  have hlabels : contractedLabels A B f = some (List.range A.len, lB, out) := by
    unfold contractedLabels
    simp only [← hB'def, hmat]
    show (do
      let ls ← R.sortedWires.mapM (fun w : Wire => dict w.id)
      return (List.range A.len, lB, ls.filter (fun l : Nat => (l ∈ List.range A.len) != (l ∈ lB)))) = _
    rw [hls]
    simp only [Option.bind_eq_bind, Option.bind_some]
    rw [List.filter_eq_self.2 hout_in]
    rfl
  have hlab_inj : ∀ v ∈ leftover A B', ∀ w ∈ leftover A B', labelOf A v = labelOf A w → v = w := by
    intro v hv w hw e
    unfold labelOf at e
    rcases mem_leftover.1 hv with ⟨hv, _⟩ | ⟨hv, _⟩ <;> rcases mem_leftover.1 hw with ⟨hw, _⟩ | ⟨hw, _⟩
    · rw [if_pos hv, if_pos hw] at e; exact hA.index_inj hv hw e
    · rw [if_pos hv, if_neg (fun h' => hf.disjoint w h' hw)] at e
      have := idx_ltA v hv; omega
    · rw [if_pos hw, if_neg (fun h' => hf.disjoint v h' hv)] at e
      have := idx_ltA w hw; omega
    · rw [if_neg (fun h' => hf.disjoint v h' hv), if_neg (fun h' => hf.disjoint w h' hw)] at e
      exact hB'.index_inj hv hw (by omega)
  have hnd : (leftover A B').Nodup :=
    List.Nodup.of_map _ (leftover_slot_nodup hA.distinct hB'.distinct hc')
  have hpn : perm.Nodup := hperm.nodup_iff.2 List.nodup_range
  refine ⟨R, perm, List.range A.len, lB, out, hmat, hlabels, by simp, hlB, List.nodup_range, ?_, ?_, ?_, ?_, ?_⟩
  · -- lB nodup
    rw [List.nodup_iff_injective_get]
    intro j j' e
    have hj : j.1 < B.len := hlB ▸ j.2
    have hj' : j'.1 < B.len := hlB ▸ j'.2
    have e' : lB[j.1]? = lB[j'.1]? := by
      rw [List.getElem?_eq_getElem j.2, List.getElem?_eq_getElem j'.2]
      exact congrArg some e
    apply Fin.ext
    by_cases h : ∃ i, ContractedPair A B' i j.1 <;> by_cases h' : ∃ i, ContractedPair A B' i j'.1
    · obtain ⟨i, h⟩ := h; obtain ⟨i', h'⟩ := h'
      rw [lB_pair _ _ h, lB_pair _ _ h'] at e'
      cases e'
      exact pair_inj _ _ _ h h'
    · obtain ⟨i, h⟩ := h; push Not at h'
      rw [lB_pair _ _ h, lB_other _ hj' h'] at e'
      have := pair_lt _ _ h
      have := Option.some.inj e'; omega
    · obtain ⟨i', h'⟩ := h'; push Not at h
      rw [lB_pair _ _ h', lB_other _ hj h] at e'
      have := pair_lt _ _ h'
      have := Option.some.inj e'; omega
    · push Not at h h'
      rw [lB_other _ hj h, lB_other _ hj' h'] at e'
      have := Option.some.inj e'; omega
  · intro i j hi hj
    rw [lA_get i hi, ← hpair']
    constructor
    · intro e
      by_cases h : ∃ i', ContractedPair A B' i' j
      · obtain ⟨i', h⟩ := h
        rw [lB_pair _ _ h] at e
        cases e; exact h
      · push Not at h
        rw [lB_other _ hj h] at e
        have := Option.some.inj e; omega
    · intro h
      rw [lB_pair _ _ h]
  · have h1 := congrArg List.length hcore
    simp only [List.length_map, length_sortedWires] at h1
    simp only [out, List.length_map]
    exact h1.symm
  · refine List.Nodup.map_on ?_ hpn
    intro i hi i' hi' e
    have h1 := hperm_lt i hi
    have h2 := hperm_lt i' hi'
    simp only [List.getElem?_eq_getElem h1, List.getElem?_eq_getElem h2, Option.map_some,
      Option.getD_some] at e
    have := hlab_inj _ (List.getElem_mem _) _ (List.getElem_mem _) e
    exact (List.Nodup.getElem_inj_iff hnd).1 this
  · intro k w hk
    have hk' := congrArg (fun l => l[k]?) hcore
    simp only [List.getElem?_map, hk, Option.map_some] at hk'
    rcases hp : perm[k]? with _ | i
    · rw [hp] at hk'; cases hk'
    · rw [hp] at hk'
      simp only [Option.map_some, Option.some.injEq] at hk'
      have hlt := hperm_lt i (List.mem_of_getElem? hp)
      simp only [List.getElem?_eq_getElem hlt, Option.map_some, Option.some.injEq] at hk'
      have hok : out[k]? = some (labelOf A (leftover A B')[i]) := by
        simp only [out, List.getElem?_map, hp, Option.map_some, List.getElem?_eq_getElem hlt,
          Option.getD_some]
      have hu : (leftover A B')[i] ∈ leftover A B' := List.getElem_mem _
      revert hk' hok hu
      generalize (leftover A B')[i] = u
      intro hcoreu hok hu
      rcases mem_leftover.1 hu with ⟨h, hkeep⟩ | ⟨h, hkeep⟩
      · left
        refine ⟨u.index, u, hA.getElem?_index h, ?_, hcoreu.symm, ?_⟩
        · intro ho; have := hkeep ho; rwa [hB'def, has_copyNew] at this
        · rw [hok, lA_get _ (idx_ltA u h), labelOf, if_pos h]
      · right
        have hsrt := hB'.getElem?_index h
        rw [hB'def, copyNew_sorted hB.distinct hB.inRange, List.getElem?_map, Option.map_eq_some_iff] at hsrt
        obtain ⟨b0, hb0, e0⟩ := hsrt
        refine ⟨u.index, b0, hb0, ?_, ?_, ?_⟩
        · intro ho; rw [← e0] at hkeep; exact hkeep ho
        · rw [hcoreu, ← e0]; rfl
        · rw [hok, lB_keep u h hkeep, labelOf, if_neg (fun h' => hf.disjoint u h' h)]

/-- A two-mode Gaussian state contracted with a gate on modes 1 and 2. -/
example : contractedLabels (Wires.mk6 [] [] [0, 1] [] [] [] id) (Wires.mk6 [] [] [1, 2] [1, 2] [] [] id)
    (· + 10) = some ([0, 1], [2, 3, 1, 5], [0, 2, 3, 5]) := by decide

end Verif.WireModel
