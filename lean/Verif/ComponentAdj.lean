import Verif.ComponentSeq
import Verif.CompSemAlg

/-!
# `adjoint` and `dual` of Fock components (C88)
-/

namespace Verif.CompV

open Verif.WireModel Verif.Arr Verif.Fock Verif.PolyExp

/-- lab/circuit_components.py:84-103 `adjoint` of a component in the Fock representation; `f` gives the identifiers of the new wires. -/
noncomputable def FComp.adjoint (f : Nat → Nat) (X : FComp) : Option FComp :=
  (X.arr.reorder (adjointOrder X.wires)).map fun a => ⟨X.wires.adjoint f, a.conj⟩

/-- lab/circuit_components.py:113-135 `dual` of a component in the Fock representation. -/
noncomputable def FComp.dual (f : Nat → Nat) (X : FComp) : Option FComp :=
  (X.arr.reorder (dualOrder X.wires)).map fun a => ⟨X.wires.dual f, a.conj⟩

/-- The same channel on the other side. -/
def swapC (c : Chan) : Chan := (c.1.swap, c.2)

theorem swapC_swapC (c : Chan) : swapC (swapC c) = c := by simp [swapC]

/-- Specification: the adjoint operator acts on the other side, with conjugated values. -/
noncomputable def adjK (K : Ker Chan) : Ker Chan where
  outs := K.outs.image swapC
  ins := K.ins.image swapC
  fn := fun o i => (starRingEnd ℂ) (K.fn (fun c => o (swapC c)) fun c => i (swapC c))

theorem inB_iff_getD {s k : List ℕ} : InB s k ↔ k.length = s.length ∧ ∀ i < s.length, k.getD i 0 < s.getD i 0 := by
  unfold InB
  rw [List.forall₂_iff_get]
  constructor
  · rintro ⟨h1, h2⟩
    refine ⟨h1, fun i hi => ?_⟩
    have := h2 i (by omega) (by omega)
    rw [List.getD_eq_getElem?_getD, List.getD_eq_getElem?_getD, List.getElem?_eq_getElem (by omega), List.getElem?_eq_getElem (by omega)]
    exact this
  · rintro ⟨h1, h2⟩
    refine ⟨h1, fun i hi hi' => ?_⟩
    have := h2 i (by omega)
    rw [List.getD_eq_getElem?_getD, List.getD_eq_getElem?_getD, List.getElem?_eq_getElem (by omega), List.getElem?_eq_getElem (by omega)] at this
    exact this

theorem reorder_entry {a : Arr} (hb : a.batchDims = 0) {p : List ℕ} (hp : p.Perm (List.range a.shape.length)) :
    ∃ r, a.reorder p = some r ∧ r.batchDims = 0 ∧ r.shape = p.map (a.shape.getD · 0) ∧
      ∀ k : List ℕ, k.length = a.shape.length → r.entry (p.map (k.getD · 0)) = a.entry k := by
  have e : a.reorder p = a.transpose p := by
    unfold Arr.reorder
    rw [hb]
    simp
  obtain ⟨r, hr⟩ : ∃ r, a.transpose p = some r := by
    unfold Arr.transpose
    rw [if_pos hp]
    exact ⟨_, rfl⟩
  have hs := Arr.transpose_shape hr
  refine ⟨r, e.trans hr, hs.2.2.trans hb, hs.2.1, fun k hk => ?_⟩
  have hlen : p.length = a.shape.length := by rw [hp.length_eq, List.length_range]
  have hiff : InB r.shape (p.map (k.getD · 0)) ↔ InB a.shape k := by
    rw [inB_iff_getD, inB_iff_getD, hs.2.1]
    simp only [List.length_map]
    constructor
    · rintro ⟨_, h⟩
      refine ⟨hk, fun i hi => ?_⟩
      have hm : i ∈ p := hp.mem_iff.mpr (List.mem_range.mpr hi)
      obtain ⟨j, hj, rfl⟩ := List.mem_iff_getElem.mp hm
      have := h j hj
      rw [Arr.getD_map _ hj, Arr.getD_map _ hj] at this
      rw [List.getD_eq_getElem?_getD (l := p), List.getElem?_eq_getElem hj] at this
      exact this
    · rintro ⟨_, h⟩
      refine ⟨trivial, fun j hj => ?_⟩
      rw [Arr.getD_map _ hj, Arr.getD_map _ hj]
      refine h _ ?_
      have hm : p[j] ∈ p := List.getElem_mem _
      have := List.mem_range.mp (hp.mem_iff.mp hm)
      rw [List.getD_eq_getElem?_getD (l := p), List.getElem?_eq_getElem hj]
      exact this
  by_cases h : InB a.shape k
  · rw [Arr.entry_of_inB h, Arr.entry_of_inB (hiff.mpr h), Arr.transpose_get hr hk]
  · rw [Arr.entry_of_not h, Arr.entry_of_not fun h' => h (hiff.mp h')]

/-- The value of the axis of a slot. -/
def sv (o i : Chan → ℕ) (t : Side × Bool × Int) : ℕ := if t.2.1 then o (t.1, t.2.2) else i (t.1, t.2.2)

theorem sv_slot (o i : Chan → ℕ) (w : Wire) : sv o i w.slot = slotVal o i w := rfl

theorem reorder_ker {M : ℕ} {X : FComp} (hX : X.WF M) {W' : Wires} {p : List ℕ} (hp : p.Perm (List.range X.wires.len)) {h : Wire → Side × Bool × Int}
    (hm : W'.sortedWires.map (fun w => some w.slot) = p.map fun i => (X.wires.sortedWires[i]?).map h) :
    ∃ a, X.arr.reorder p = some a ∧ a.batchDims = 0 ∧ a.shape.length = W'.len ∧ (∀ d ∈ a.shape, d ≤ M) ∧
      ∀ o i, a.entry (W'.sortedWires.map (slotVal o i)) = X.arr.entry (X.wires.sortedWires.map fun w => sv o i (h w)) := by
  have hp' : p.Perm (List.range X.arr.shape.length) := by rw [hX.axes]; exact hp
  obtain ⟨a, h1, h2, h3, h4⟩ := reorder_entry hX.batch hp'
  refine ⟨a, h1, h2, ?_, ?_, ?_⟩
  · have := congrArg List.length hm
    rw [List.length_map, List.length_map, length_sortedWires] at this
    rw [h3, List.length_map, this]
  · intro d hd
    rw [h3, List.mem_map] at hd
    obtain ⟨j, _, rfl⟩ := hd
    exact getD_le hX.dims _
  · intro o i
    have := h4 (X.wires.sortedWires.map fun w => sv o i (h w)) (by rw [List.length_map, length_sortedWires, hX.axes])
    rw [← this]
    refine congrArg _ ?_
    have e := congrArg (List.map fun t : Option (Side × Bool × Int) => (t.map (sv o i)).getD 0) hm
    rw [List.map_map, List.map_map] at e
    refine Eq.trans (Eq.trans ?_ e) ?_
    · rfl
    · refine List.map_congr_left fun j _ => ?_
      simp only [Function.comp_apply, List.getD_eq_getElem?_getD, List.getElem?_map, Option.map_map]
      rfl

theorem conj_entry (a : Arr) (k : List ℕ) : a.conj.entry k = (starRingEnd ℂ) (a.entry k) := (Arr.C49_entrywise a 1 k).2.2.2.1

/-- **C88** (`adjoint`) the adjoint of a component is the adjoint operator. -/
theorem adjoint_ker {M : ℕ} {X : FComp} (hX : X.WF M) (f : Nat → Nat) :
    ∃ Y, X.adjoint f = some Y ∧ Y.wires = X.wires.adjoint f ∧ Y.arr.batchDims = 0 ∧ Y.arr.shape.length = Y.wires.len ∧ (∀ d ∈ Y.arr.shape, d ≤ M) ∧
      Y.ker = adjK X.ker := by
  obtain ⟨hp, hm⟩ := C08_adjoint_axes X.wires hX.good hX.quantum f
  obtain ⟨a, h1, h2, h3, h4, h5⟩ := reorder_ker hX hp (W' := X.wires.adjoint f) hm
  have hs := has_adjoint X.wires hX.good.distinct hX.good.inRange f
  refine ⟨⟨X.wires.adjoint f, a.conj⟩, ?_, rfl, h2, h3, h4, Ker.ext' ?_ ?_ ?_⟩
  · unfold FComp.adjoint
    rw [h1]
    rfl
  · ext ⟨s, m⟩
    rw [FComp.mem_outs]
    show _ ↔ (s, m) ∈ X.ker.outs.image swapC
    rw [Finset.mem_image]
    constructor
    · intro h
      exact ⟨(s.swap, m), FComp.mem_outs.mpr ((hs s true m).mp h), by simp [swapC]⟩
    · rintro ⟨⟨s', m'⟩, h, e⟩
      cases e
      refine (hs _ _ _).mpr ?_
      rw [Side.swap_swap]
      exact FComp.mem_outs.mp h
  · ext ⟨s, m⟩
    rw [FComp.mem_ins]
    show _ ↔ (s, m) ∈ X.ker.ins.image swapC
    rw [Finset.mem_image]
    constructor
    · intro h
      exact ⟨(s.swap, m), FComp.mem_ins.mpr ((hs s false m).mp h), by simp [swapC]⟩
    · rintro ⟨⟨s', m'⟩, h, e⟩
      cases e
      refine (hs _ _ _).mpr ?_
      rw [Side.swap_swap]
      exact FComp.mem_ins.mp h
  · intro o i
    show a.conj.entry ((X.wires.adjoint f).sortedWires.map (slotVal o i)) = (starRingEnd ℂ) (X.arr.entry _)
    rw [conj_entry, h5]
    rfl

/-- **C88** (`dual`) the dual of a component is the Hermitian conjugate. -/
theorem dual_ker {M : ℕ} {X : FComp} (hX : X.WF M) (f : Nat → Nat) :
    ∃ Y, X.dual f = some Y ∧ Y.wires = X.wires.dual f ∧ Y.arr.batchDims = 0 ∧ Y.arr.shape.length = Y.wires.len ∧ (∀ d ∈ Y.arr.shape, d ≤ M) ∧
      Y.ker = dualK X.ker := by
  obtain ⟨hp, hm⟩ := C08_dual_axes X.wires hX.good hX.quantum f
  obtain ⟨a, h1, h2, h3, h4, h5⟩ := reorder_ker hX hp (W' := X.wires.dual f) hm
  have hs := (C04_adjoint_dual_wires X.wires hX.good.distinct hX.good.inRange f).2.2.2
  refine ⟨⟨X.wires.dual f, a.conj⟩, ?_, rfl, h2, h3, h4, Ker.ext' ?_ ?_ ?_⟩
  · unfold FComp.dual
    rw [h1]
    rfl
  · ext ⟨s, m⟩
    rw [FComp.mem_outs]
    show _ ↔ (s, m) ∈ X.ker.ins
    rw [FComp.mem_ins]
    exact (hs s m).1
  · ext ⟨s, m⟩
    rw [FComp.mem_ins]
    show _ ↔ (s, m) ∈ X.ker.outs
    rw [FComp.mem_outs]
    exact (hs s m).2
  · intro o i
    show a.conj.entry ((X.wires.dual f).sortedWires.map (slotVal o i)) = (starRingEnd ℂ) (X.arr.entry _)
    rw [conj_entry, h5]
    refine congrArg _ (congrArg _ (List.map_congr_left fun w _ => ?_))
    unfold sv slotVal wchan
    cases w.isOut <;> simp

/-! ## Identifiers -/

/-- Equal identifiers belong to wires in equal slots: `g` is the slot of an identifier.  (Identifiers are random and never reused.) -/
def IdOk (g : ℕ → Side × Bool × Int) (W : Wires) : Prop := ∀ w ∈ W.ws, g w.id = w.slot

theorem IdOk.nodup {g : ℕ → Side × Bool × Int} {W : Wires} (h : IdOk g W) (hd : Distinct W) : (W.ws.map Wire.id).Nodup := by
  refine List.Nodup.of_map g ?_
  rw [List.map_map]
  have : W.ws.map (g ∘ Wire.id) = W.ws.map Wire.slot := List.map_congr_left fun w hw => h w hw
  rw [this]
  exact hd

theorem contract_wf {M : ℕ} {g : ℕ → Side × Bool × Int} {X Y Z : FComp} (hX : X.WF M) (hY : Y.WF M) (iX : IdOk g X.wires) (iY : IdOk g Y.wires)
    (h : X.contract Y = some Z) : Composable X.wires Y.wires ∧ Z.WF M ∧ IdOk g Z.wires ∧ matmulWires X.wires Y.wires = .ok Z.wires ∧
      Z.ker = Ker.seq M X.ker Y.ker := by
  have hk := contract_ker hX hY
  by_cases hc : Composable X.wires Y.wires
  swap
  · rw [hk.1 hc] at h
    cases h
  obtain ⟨Z', h1, h2, h3, h4, h5, h6⟩ := hk.2 hc
  rw [h] at h1
  cases h1
  have hs := sameRepr_of hX hY
  have hm := matmul_open hX.good.distinct hY.good.distinct hX.good.inRange hY.good.inRange hs h2
  have hi : IdOk g Z.wires := by
    intro w hw
    obtain ⟨v, hv, e1, e2⟩ := matmul_from h2 hw
    rw [← e2]
    have e3 : v.slot = w.slot := congrArg Prod.fst e1
    rw [← e3]
    exact hv.elim (fun h => iX v h.1) fun h => iY v h.1
  refine ⟨hc, ⟨hm.2.1, ?_, uniform_matmul hX.repr hY.repr hX.good.distinct hY.good.distinct hs hc h2, hi.nodup hm.2.1.distinct, h3, h4, h5⟩, hi, h2, h6⟩
  intro w hw
  obtain ⟨v, hv, e1, e2⟩ := matmul_from h2 hw
  have e3 : v.side = w.side := congrArg (fun c => c.1.1) e1
  rw [← e3]
  exact hv.elim (fun h => hX.quantum v h.1) fun h => hY.quantum v h.1

theorem adjoint_wf {M : ℕ} {g : ℕ → Side × Bool × Int} {f : Nat → Nat} {X Y : FComp} (hX : X.WF M) (iX : IdOk g X.wires)
    (hf : ∀ n, g (f n) = ((g n).1.swap, (g n).2)) (h : X.adjoint f = some Y) :
    Y.WF M ∧ IdOk g Y.wires ∧ Y.wires = X.wires.adjoint f ∧ Y.ker = adjK X.ker := by
  obtain ⟨Y', h1, h2, h3, h4, h5, h6⟩ := adjoint_ker hX f
  rw [h] at h1
  cases h1
  have gd := adjoint_good' hX.good.distinct hX.good.inRange f
  have mem : ∀ w ∈ Y.wires.ws, ∃ v ∈ X.wires.ws, w.id = f v.id ∧ w.slot = (v.side.swap, v.isOut, v.mode) := by
    intro w hw
    rw [h2, adjoint_eq, reindex_ws, List.mem_map] at hw
    obtain ⟨q, hq, rfl⟩ := hw
    have h1 := List.fst_mem_of_mem_zipIdx hq
    rw [mem_sortedWires] at h1
    unfold preAdj Wires.copyNew at h1
    simp only [List.map_map, List.mem_map, Function.comp_apply] at h1
    obtain ⟨v, hv, e⟩ := h1
    refine ⟨v, hv, ?_, ?_⟩
    · show q.1.id = _
      rw [← e]
      unfold Wire.flipKet
      cases v.side <;> rfl
    · show q.1.slot = _
      rw [← e, flipKet_slot]
  have hi : IdOk g Y.wires := by
    intro w hw
    obtain ⟨v, hv, e1, e2⟩ := mem w hw
    rw [e1, hf, iX v hv, e2]
    rfl
  refine ⟨⟨h2 ▸ gd, ?_, h2 ▸ uniform_adjoint hX.repr f, hi.nodup (h2 ▸ gd.distinct), h3, h4, h5⟩, hi, h2, h6⟩
  intro w hw
  obtain ⟨v, hv, _, e2⟩ := mem w hw
  have := hX.quantum v hv
  have e3 : w.side = v.side.swap := congrArg Prod.fst e2
  rw [e3]
  intro h
  apply this
  rw [← Side.swap_swap v.side, h]
  rfl

end Verif.CompV
