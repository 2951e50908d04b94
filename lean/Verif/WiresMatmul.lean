import Verif.WiresLemmas
import Mathlib.Data.List.Nodup
import Mathlib.Data.List.Perm.Lattice

/-! Helper lemmas about construction, `adjoint`, `dual`, `+` and `@` of wires. -/

namespace Verif.WireModel

/-! ### constructor -/

theorem mkBlock_side {s o n ms r ids} {w : Wire} (h : w ∈ mkBlock s o n ms r ids) :
    w.side = s ∧ w.isOut = o ∧ w.mode ∈ ms ∧ w.repr = r := by
  unfold mkBlock at h
  obtain ⟨⟨m, i⟩, hm, rfl⟩ := List.mem_map.1 h
  refine ⟨rfl, rfl, ?_, rfl⟩
  have := List.fst_mem_of_mem_zipIdx hm
  simpa [List.mem_insertionSort] using this

theorem mkBlock_mode (s o n ms r ids) :
    (mkBlock s o n ms r ids).map Wire.mode = ms.insertionSort (· ≤ ·) := by
  unfold mkBlock
  rw [List.map_map]
  exact (map_zipIdx_fst _ 0 id).trans (List.map_id _)

theorem mkBlock_index (s o n ms r ids) :
    (mkBlock s o n ms r ids).map Wire.index = List.range' n ms.length := by
  unfold mkBlock
  rw [List.map_map]
  have : (Wire.index ∘ fun x : Int × Nat =>
      (⟨s, o, x.1, n + x.2, r, ids (n + x.2)⟩ : Wire)) = (fun i => n + i) ∘ Prod.snd := rfl
  have h2 : ((ms.insertionSort (· ≤ ·)).zipIdx.map Prod.snd) = List.range' 0 ms.length := by
    rw [List.zipIdx_map_snd, List.length_insertionSort]
  show List.map (Wire.index ∘ fun x : Int × Nat =>
      (⟨s, o, x.1, n + x.2, r, ids (n + x.2)⟩ : Wire)) _ = _
  rw [this, ← List.map_map, h2, List.map_add_range']
  simp

theorem mkBlock_pairwise {s o n ms r ids} (h : ms.Nodup) :
    (mkBlock s o n ms r ids).Pairwise StdLt := by
  have h1 : (ms.insertionSort (· ≤ ·)).Pairwise (· < ·) := by
    have a := List.pairwise_insertionSort (· ≤ ·) ms
    have b : (ms.insertionSort (· ≤ ·)).Nodup := ((List.perm_insertionSort _ _).nodup_iff).2 h
    exact (a.and b).imp (fun h => lt_of_le_of_ne h.1 h.2)
  rw [← mkBlock_mode s o n ms r ids, List.pairwise_map] at h1
  refine h1.imp_of_mem ?_
  intro a b ha hb hab
  have ha := mkBlock_side ha
  have hb := mkBlock_side hb
  right
  simp [ha.1, ha.2.1, hb.1, hb.2.1, hab]

theorem mkBlock_has {s o n ms r ids m} : (∃ w ∈ mkBlock s o n ms r ids, w.mode = m) ↔ m ∈ ms := by
  rw [← List.mem_map, mkBlock_mode, List.mem_insertionSort]

theorem distinct_of_pairwise {W : Wires} (h : W.ws.Pairwise StdLt) : Distinct W := by
  unfold Distinct List.Nodup
  rw [List.pairwise_map]
  refine h.imp ?_
  intro a b hab e
  simp only [Wire.slot, Prod.mk.injEq] at e
  unfold StdLt at hab
  rw [e.1, e.2.1, e.2.2] at hab
  omega

theorem block_lt {s o n ms r ids s' o' n' ms' r' ids'} (h : rank s o < rank s' o') :
    ∀ a ∈ mkBlock s o n ms r ids, ∀ b ∈ mkBlock s' o' n' ms' r' ids', StdLt a b := by
  intro a ha b hb
  have ha := mkBlock_side ha
  have hb := mkBlock_side hb
  left; rw [ha.1, ha.2.1, hb.1, hb.2.1]; exact h

theorem mk6_pairwise {ob ib ok ik co ci : List Int} {ids}
    (h1 : ob.Nodup) (h2 : ib.Nodup) (h3 : ok.Nodup) (h4 : ik.Nodup) (h5 : co.Nodup)
    (h6 : ci.Nodup) : (Wires.mk6 ob ib ok ik co ci ids).ws.Pairwise StdLt := by
  unfold Wires.mk6
  simp only [List.pairwise_append, List.mem_append]
  refine ⟨⟨⟨⟨⟨mkBlock_pairwise h1, mkBlock_pairwise h2, ?_⟩, mkBlock_pairwise h3, ?_⟩,
    mkBlock_pairwise h4, ?_⟩, mkBlock_pairwise h5, ?_⟩, mkBlock_pairwise h6, ?_⟩
  all_goals
    intro a ha b hb
    repeat' (apply Or.elim ha <;> clear ha <;> intro ha)
    all_goals exact block_lt (by decide) a ha b hb

theorem mk6_indices_range {ob ib ok ik co ci : List Int} {ids} :
    (Wires.mk6 ob ib ok ik co ci ids).ws.map Wire.index =
      List.range (Wires.mk6 ob ib ok ik co ci ids).len := by
  have hlen : (Wires.mk6 ob ib ok ik co ci ids).len =
      ob.length + ib.length + ok.length + ik.length + co.length + ci.length := by
    simp [Wires.mk6, Wires.len, mkBlock]; omega
  rw [hlen, List.range_eq_range']
  unfold Wires.mk6
  simp only [List.map_append, mkBlock_index, List.append_assoc]
  simp only [← List.append_assoc]
  have step : ∀ a b : Nat, List.range' 0 a ++ List.range' a b = List.range' 0 (a + b) := by
    intro a b
    have := List.range'_append_1 (s := 0) (m := a) (n := b)
    simpa using this
  simp only [step]

theorem mk6_slot {ob ib ok ik co ci : List Int} {ids} (s o m) :
    Has (Wires.mk6 ob ib ok ik co ci ids) s o m ↔
      m ∈ (match s, o with
        | .bra, true => ob | .bra, false => ib | .ket, true => ok | .ket, false => ik
        | .classical, true => co | .classical, false => ci) := by
  have aux : ∀ {s' o' n ms r}, (∃ w ∈ mkBlock s' o' n ms r ids, w.slot = (s, o, m)) ↔
      (s' = s ∧ o' = o ∧ m ∈ ms) := by
    intro s' o' n ms r
    constructor
    · rintro ⟨w, hw, e⟩
      have h := mkBlock_side hw
      simp only [Wire.slot, Prod.mk.injEq] at e
      exact ⟨h.1 ▸ e.1, h.2.1 ▸ e.2.1, e.2.2 ▸ h.2.2.1⟩
    · rintro ⟨rfl, rfl, hm⟩
      obtain ⟨w, hw, e⟩ := (mkBlock_has (s := s') (o := o') (n := n) (r := r) (ids := ids)).2 hm
      have h := mkBlock_side hw
      exact ⟨w, hw, by simp [Wire.slot, h.1, h.2.1, e]⟩
  unfold Has Wires.mk6
  simp only [List.mem_append, or_and_right, exists_or, aux]
  cases s <;> cases o <;> simp

/-! ### adjoint and dual -/

/-- exchange of bra and ket -/
def Side.swap : Side → Side
  | .bra => .ket | .ket => .bra | .classical => .classical

@[simp] theorem Side.swap_swap (s : Side) : s.swap.swap = s := by cases s <;> rfl

theorem Side.swap_inj {a b : Side} : a.swap = b.swap ↔ a = b := by
  cases a <;> cases b <;> simp [Side.swap]

theorem flipKet_slot (w : Wire) : w.flipKet.slot = (w.side.swap, w.isOut, w.mode) := by
  cases w with | mk s => cases s <;> rfl

theorem flipOut_slot (w : Wire) : w.flipOut.slot = (w.side, !w.isOut, w.mode) := rfl

/-- the un-reindexed adjoint -/
def preAdj (W : Wires) (f : Nat → Nat) : Wires := ⟨(W.copyNew f).ws.map Wire.flipKet⟩
/-- the un-reindexed dual -/
def preDual (W : Wires) (f : Nat → Nat) : Wires := ⟨(W.copyNew f).ws.map Wire.flipOut⟩

theorem preAdj_slot (W : Wires) (f) :
    (preAdj W f).ws.map Wire.slot = (W.ws.map Wire.slot).map (fun s => (s.1.swap, s.2)) := by
  simp only [preAdj, Wires.copyNew, List.map_map]
  apply List.map_congr_left
  intro w _
  cases w with | mk s => cases s <;> rfl

theorem preDual_slot (W : Wires) (f) :
    (preDual W f).ws.map Wire.slot = (W.ws.map Wire.slot).map (fun s => (s.1, !s.2.1, s.2.2)) := by
  simp only [preDual, Wires.copyNew, List.map_map]
  apply List.map_congr_left
  intro w _
  rfl

theorem preAdj_distinct {W : Wires} (h : Distinct W) (f) : Distinct (preAdj W f) := by
  unfold Distinct
  rw [preAdj_slot]
  refine List.Nodup.map ?_ h
  rintro ⟨a, b⟩ ⟨a', b'⟩ e
  simp only [Prod.mk.injEq, Side.swap_inj] at e
  rw [e.1, e.2]

theorem preDual_distinct {W : Wires} (h : Distinct W) (f) : Distinct (preDual W f) := by
  unfold Distinct
  rw [preDual_slot]
  refine List.Nodup.map ?_ h
  rintro ⟨a, b, c⟩ ⟨a', b', c'⟩ e
  simp only [Prod.mk.injEq, Bool.not_inj_iff] at e
  rw [e.1, e.2.1, e.2.2]

theorem preAdj_inRange {W : Wires} (h : InRange W) (f) : InRange (preAdj W f) := by
  rw [inRange_iff_slot, preAdj_slot]
  rw [inRange_iff_slot] at h
  intro s hs
  obtain ⟨t, ht, rfl⟩ := List.mem_map.1 hs
  exact h t ht

theorem preDual_inRange {W : Wires} (h : InRange W) (f) : InRange (preDual W f) := by
  rw [inRange_iff_slot, preDual_slot]
  rw [inRange_iff_slot] at h
  intro s hs
  obtain ⟨t, ht, rfl⟩ := List.mem_map.1 hs
  exact h t ht

theorem adjoint_eq (W : Wires) (f) : W.adjoint f = (preAdj W f).reindex := rfl
theorem dual_eq (W : Wires) (f) : W.dual f = (preDual W f).reindex := rfl

theorem adjoint_good' {W : Wires} (hd : Distinct W) (hr : InRange W) (f) : Good (W.adjoint f) :=
  reindex_good (preAdj_distinct hd f) (preAdj_inRange hr f)
theorem dual_good' {W : Wires} (hd : Distinct W) (hr : InRange W) (f) : Good (W.dual f) :=
  reindex_good (preDual_distinct hd f) (preDual_inRange hr f)

/-- effect of adjoint on the core of a wire -/
def coreAdj (c : (Side × Bool × Int) × Repr) : (Side × Bool × Int) × Repr :=
  ((c.1.1.swap, c.1.2), c.2)
/-- effect of dual on the core of a wire -/
def coreDual (c : (Side × Bool × Int) × Repr) : (Side × Bool × Int) × Repr :=
  ((c.1.1, !c.1.2.1, c.1.2.2), c.2)

theorem adjoint_core_perm (W : Wires) (f) :
    ((W.adjoint f).ws.map Wire.core).Perm ((W.ws.map Wire.core).map coreAdj) := by
  rw [adjoint_eq, reindex_core]
  refine ((sortedWires_perm _).map _).trans ?_
  simp only [preAdj, Wires.copyNew, List.map_map]
  refine List.Perm.of_eq (List.map_congr_left ?_)
  intro w _
  cases w with | mk s => cases s <;> rfl

theorem dual_core_perm (W : Wires) (f) :
    ((W.dual f).ws.map Wire.core).Perm ((W.ws.map Wire.core).map coreDual) := by
  rw [dual_eq, reindex_core]
  refine ((sortedWires_perm _).map _).trans ?_
  simp only [preDual, Wires.copyNew, List.map_map]
  refine List.Perm.of_eq (List.map_congr_left ?_)
  intro w _
  rfl

theorem coreAdj_coreAdj (c) : coreAdj (coreAdj c) = c := by simp [coreAdj]
theorem coreDual_coreDual (c) : coreDual (coreDual c) = c := by simp [coreDual]
theorem coreAdj_coreDual (c) : coreAdj (coreDual c) = coreDual (coreAdj c) := rfl

end Verif.WireModel
