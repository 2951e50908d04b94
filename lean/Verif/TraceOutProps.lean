import Verif.TraceOutOne

/-!
# Tracing out modes of Fock components (C89)
-/

namespace Verif.CompV

open Verif.WireModel Verif.Arr Verif.Fock Verif.PolyExp Verif.Circuits

/-- **C89** (both sides, same order) tracing out output modes of a component with outputs on both sides is the partial trace, whenever Python iterates over the two
sets of modes in the same order. -/
theorem C89_trace_both {M : ℕ} {g : ℕ → Side × Bool × Int} {X : FComp} (hX : X.WF M) (iX : IdOk g X.wires) (f ids : Nat → Nat) {modes oz : List Int} (hne : modes ≠ [])
    (hn : modes.Nodup) (hm : ∀ m ∈ modes, Has X.wires .ket true m ∧ Has X.wires .bra true m) (hz : oz.Perm modes) :
    ∃ Z, X.traceOut f ids modes oz oz = some Z ∧ Z.WF M ∧ IdOk g Z.wires ∧
      (∀ s o m, Has Z.wires s o m ↔ Has X.wires s o m ∧ ¬ (o = true ∧ m ∈ modes)) ∧ Z.ker = trK M modes.toFinset X.ker := by
  obtain ⟨Z, h1, h2, h3, h4, h5⟩ := traceOut_two hX iX f ids hne hn hm hz hz
  refine ⟨Z, h1, h2, h3, h4, h5.trans (Ker.ext' rfl rfl fun o i => ?_)⟩
  show tot M modes.toFinset (fun z => X.ker.fn (fun c => if c.2 ∈ modes.toFinset then (if c.1 = .bra then z (oz.getD (oz.idxOf c.2) 0) else z c.2) else o c) i) =
    tot M modes.toFinset fun z => X.ker.fn (fun c => if c.2 ∈ modes.toFinset then z c.2 else o c) i
  refine tot_congr fun z _ _ => congrArg (fun F => X.ker.fn F i) (funext fun c => ?_)
  by_cases hc : c.2 ∈ modes.toFinset
  · rw [if_pos hc, if_pos hc]
    have hi : oz.idxOf c.2 < oz.length := List.idxOf_lt_length_iff.mpr (hz.mem_iff.mpr (List.mem_toFinset.mp hc))
    have : oz.getD (oz.idxOf c.2) 0 = c.2 := by rw [List.getD_eq_getElem?_getD, List.getElem?_eq_getElem hi, List.getElem_idxOf]; rfl
    rw [this, ite_self]
  · rw [if_neg hc, if_neg hc]

/-- Partial traces over disjoint sets of modes can be done one after the other. -/
theorem trK_trK (M : ℕ) {T U : Finset Int} (h : Disjoint T U) (K : Ker Chan) : trK M U (trK M T K) = trK M (T ∪ U) K := by
  refine Ker.ext' ?_ rfl fun o i => ?_
  · ext c
    simp only [trK, Finset.mem_filter, Finset.mem_union]
    tauto
  · show (tot M U fun z => tot M T fun y => K.fn (fun c => if c.2 ∈ T then y c.2 else if c.2 ∈ U then z c.2 else o c) i) =
      tot M (T ∪ U) fun z => K.fn (fun c => if c.2 ∈ T ∪ U then z c.2 else o c) i
    rw [tot_union h, tot_comm]
    refine tot_congr fun y _ _ => tot_congr fun z _ _ => congrArg (fun F => K.fn F i) (funext fun c => ?_)
    unfold over
    by_cases h1 : c.2 ∈ T
    · simp [h1]
    · by_cases h2 : c.2 ∈ U <;> simp [h1, h2]

/-- **C89** (successive traces) tracing out some modes and then others gives the same operator as tracing them out together. -/
theorem C89_trace_split {M : ℕ} {g : ℕ → Side × Bool × Int} {X : FComp} (hX : X.WF M) (iX : IdOk g X.wires) (f ids ids' ids'' : Nat → Nat)
    {ms ms' oz oz' oz'' : List Int} (hne : ms ≠ []) (hne' : ms' ≠ []) (hn : (ms ++ ms').Nodup)
    (hm : ∀ m ∈ ms ++ ms', Has X.wires .ket true m ∧ Has X.wires .bra true m) (hz : oz.Perm ms) (hz' : oz'.Perm ms') (hz'' : oz''.Perm (ms ++ ms')) :
    ∃ Y Z Z', X.traceOut f ids ms oz oz = some Y ∧ Y.traceOut f ids' ms' oz' oz' = some Z ∧ X.traceOut f ids'' (ms ++ ms') oz'' oz'' = some Z' ∧
      (∀ s o m, Has Z.wires s o m ↔ Has Z'.wires s o m) ∧ Z.ker = Z'.ker := by
  have hn1 := List.nodup_append.mp hn
  obtain ⟨Y, a1, a2, a3, a4, a5⟩ := C89_trace_both hX iX f ids hne hn1.1 (fun m h => hm m (List.mem_append_left _ h)) hz
  obtain ⟨Z, b1, b2, b3, b4, b5⟩ := C89_trace_both a2 a3 f ids' hne' hn1.2.1 (fun m h => by
    have hnot : m ∉ ms := fun h' => hn1.2.2 m h' m h rfl
    have := hm m (List.mem_append_right _ h)
    exact ⟨(a4 _ _ _).mpr ⟨this.1, fun h' => hnot h'.2⟩, (a4 _ _ _).mpr ⟨this.2, fun h' => hnot h'.2⟩⟩) hz'
  obtain ⟨Z', c1, c2, c3, c4, c5⟩ := C89_trace_both hX iX f ids'' (by simp [hne]) hn hm hz''
  refine ⟨Y, Z, Z', a1, b1, c1, ?_, ?_⟩
  · intro s o m
    rw [b4, a4, c4, List.mem_append]
    tauto
  · rw [b5, a5, c5, trK_trK, List.toFinset_append]
    rw [Finset.disjoint_left]
    intro m h1 h2
    exact hn1.2.2 m (List.mem_toFinset.mp h1) m (List.mem_toFinset.mp h2) rfl

/-- lab/states/ket.py:241 `dm` of an unbatched ket in the Fock representation. -/
noncomputable def FComp.dm (f : Nat → Nat) (X : FComp) : Option FComp := do
  let a ← X.adjoint f
  X.contract a

theorem dm_ker {M : ℕ} {g : ℕ → Side × Bool × Int} {f : Nat → Nat} (hf : ∀ n, g (f n) = ((g n).1.swap, (g n).2)) {X : FComp} (hX : X.WF M)
    (iX : IdOk g X.wires) {s : Side} (hs : OneS X.wires s) :
    ∃ D, X.dm f = some D ∧ D.WF M ∧ IdOk g D.wires ∧ (∀ t o m, Has D.wires t o m ↔ (t = .ket ∨ t = .bra) ∧ Has X.wires s o m) ∧ D.ker = dbl M X.ker := by
  obtain ⟨A, hA, _⟩ := adjoint_ker hX f
  obtain ⟨wA, iA, eA, kA⟩ := adjoint_wf hX iX hf hA
  have hap := oneS_self_apart hs
  have hcomp : Composable X.wires A.wires := by
    rw [← comp_iff, kA]
    exact hap.comp
  obtain ⟨D, hD, _⟩ := (contract_ker hX wA).2 hcomp
  obtain ⟨_, wD, iD, mD, kD⟩ := contract_wf hX wA iX iA hD
  refine ⟨D, ?_, wD, iD, ?_, by rw [kD, kA]; rfl⟩
  · unfold FComp.dm
    rw [hA]
    exact hD
  have hs' := hs.2.1
  have swne' : s.swap ≠ s := by
    revert hs'
    cases s <;> simp [Side.swap]
  have swne : ∀ t, t ≠ .classical → (t = s ∨ t.swap = s) := by
    intro t ht
    revert hs' ht
    cases t <;> cases s <;> simp [Side.swap]
  have base : ∀ (t : Side) (o : Bool) (m : Int), Has D.wires t o m ↔ Has X.wires t o m ∨ Has X.wires t.swap o m := by
    intro t o m
    cases o
    · have e : (t, m) ∈ D.ker.ins ↔ (t, m) ∈ X.ker.ins ∨ ((t.swap, m) ∈ X.ker.ins ∧ (t, m) ∉ X.ker.outs) := by
        rw [kD, kA]
        show (t, m) ∈ X.ker.ins ∪ (X.ker.ins.image swapC \ X.ker.outs) ↔ _
        rw [Finset.mem_union, Finset.mem_sdiff, mem_image_swap]
        rfl
      rw [FComp.mem_ins, FComp.mem_ins, FComp.mem_ins, FComp.mem_outs] at e
      rw [e]
      refine or_congr Iff.rfl ⟨fun h => h.1, fun h => ⟨h, fun h3 => ?_⟩⟩
      have h4 := hs.2.2 _ _ _ h
      rw [hs.2.2 _ _ _ h3] at h4
      exact swne' h4
    · have e : (t, m) ∈ D.ker.outs ↔ (t.swap, m) ∈ X.ker.outs ∨ ((t, m) ∈ X.ker.outs ∧ (t.swap, m) ∉ X.ker.ins) := by
        rw [kD, kA]
        show (t, m) ∈ X.ker.outs.image swapC ∪ (X.ker.outs \ X.ker.ins.image swapC) ↔ _
        rw [Finset.mem_union, Finset.mem_sdiff, mem_image_swap, mem_image_swap]
        rfl
      rw [FComp.mem_outs, FComp.mem_outs, FComp.mem_outs, FComp.mem_ins] at e
      rw [e, or_comm]
      refine or_congr ⟨fun h => h.1, fun h => ⟨h, fun h3 => ?_⟩⟩ Iff.rfl
      have h4 := hs.2.2 _ _ _ h
      have h5 := hs.2.2 _ _ _ h3
      rw [h4] at h5
      exact swne' h5
  intro t o m
  rw [base]
  constructor
  · rintro (h | h)
    · have := hs.2.2 _ _ _ h
      subst this
      refine ⟨?_, h⟩
      revert hs'
      cases t <;> simp
    · have h' := hs.2.2 _ _ _ h
      rw [h'] at h
      refine ⟨?_, h⟩
      rw [← h'] at hs'
      revert hs'
      cases t <;> simp [Side.swap]
  · rintro ⟨h1, h2⟩
    rcases swne t (by rintro rfl; simp at h1) with rfl | h
    · exact Or.inl h2
    · exact Or.inr (h ▸ h2)

/-- **C89** (kets) tracing out modes of a ket is tracing them out of its density matrix. -/
theorem C89_ket_dm {M : ℕ} {g : ℕ → Side × Bool × Int} {f : Nat → Nat} (hf : ∀ n, g (f n) = ((g n).1.swap, (g n).2)) {X : FComp} (hX : X.WF M)
    (iX : IdOk g X.wires) {s : Side} (hs : OneS X.wires s) (ids ids' : Nat → Nat) {modes oz : List Int} (oz' ozc' : List Int) (hne : modes ≠ []) (hn : modes.Nodup)
    (hm : ∀ m ∈ modes, Has X.wires s true m) (hz : oz.Perm modes) :
    ∃ D Z Z', X.dm f = some D ∧ X.traceOut f ids modes oz' ozc' = some Z ∧ D.traceOut f ids' modes oz oz = some Z' ∧
      (∀ s o m, Has Z.wires s o m ↔ Has Z'.wires s o m) ∧ Z.ker = Z'.ker := by
  obtain ⟨D, d1, d2, d3, d4, d5⟩ := dm_ker hf hX iX hs
  obtain ⟨Z, a1, a2, a3, a4, a5⟩ := traceOut_one hf hX iX hs ids oz' ozc' hne hn hm
  obtain ⟨Z', b1, b2, b3, b4, b5⟩ := C89_trace_both d2 d3 f ids' hne hn (fun m h => ⟨(d4 _ _ _).mpr ⟨Or.inl rfl, hm m h⟩, (d4 _ _ _).mpr ⟨Or.inr rfl, hm m h⟩⟩) hz
  refine ⟨D, Z, Z', d1, a1, b1, ?_, by rw [a5, b5, d5]⟩
  intro t o m
  rw [a4, b4, d4]
  tauto

/-! ## Two orders -/

/-- The projector on no photon in mode 0 and one photon in mode 8. -/
noncomputable def exTwo : FComp :=
  ⟨⟨[wEx .bra true 0 0, wEx .bra true 8 1, wEx .ket true 0 2, wEx .ket true 8 3]⟩, ⟨0, [2, 2, 2, 2], fun l => if l = [0, 1, 0, 1] then 1 else 0⟩⟩

theorem exTwo_wf : exTwo.WF 2 ∧ IdOk gEx exTwo.wires :=
  ⟨⟨⟨by decide, by decide, by decide⟩, by decide, by decide, by decide, rfl, rfl, by decide⟩, by decide⟩

theorem exTwo_has : ∀ m ∈ [(0 : Int), 8], Has exTwo.wires .ket true m ∧ Has exTwo.wires .bra true m := by
  intro m hm
  simp only [List.mem_cons, List.not_mem_nil, or_false] at hm
  rcases hm with rfl | rfl
  · exact ⟨⟨wEx .ket true 0 2, by simp [exTwo], rfl⟩, ⟨wEx .bra true 0 0, by simp [exTwo], rfl⟩⟩
  · exact ⟨⟨wEx .ket true 8 3, by simp [exTwo], rfl⟩, ⟨wEx .bra true 8 1, by simp [exTwo], rfl⟩⟩

theorem exTwo_sorted : exTwo.wires.sortedWires = [wEx .bra true 0 0, wEx .bra true 8 1, wEx .ket true 0 2, wEx .ket true 8 3] := by decide

/-- **C89** (disagreement) if Python iterates over the bra modes in another order than over the ket modes, the trace of a normalised state is wrong: the trace of the
state with no photon in mode 0 and one photon in mode 8 is 1 when the orders agree and 0 when they differ. -/
theorem C89_orders (f ids : Nat → Nat) : ∃ Z Z', exTwo.traceOut f ids [0, 8] [0, 8] [0, 8] = some Z ∧ exTwo.traceOut f ids [0, 8] [0, 8] [8, 0] = some Z' ∧
    (∀ o i, Z.ker.fn o i = 1) ∧ ∀ o i, Z'.ker.fn o i = 0 := by
  obtain ⟨Z, a1, _, _, _, a5⟩ := C89_trace_both exTwo_wf.1 exTwo_wf.2 f ids (modes := [0, 8]) (oz := [0, 8]) (by simp) (by decide) exTwo_has (List.Perm.refl _)
  obtain ⟨Z', b1, _, _, _, b5⟩ := traceOut_two exTwo_wf.1 exTwo_wf.2 f ids (modes := [0, 8]) (oz := [0, 8]) (ozc := [8, 0]) (by simp) (by decide) exTwo_has
    (List.Perm.refl _) (by decide)
  refine ⟨Z, Z', a1, b1, fun o i => ?_, fun o i => ?_⟩
  · have e : tot 2 [(0 : Int), 8].toFinset (fun z => exTwo.ker.fn (fun c => if c.2 ∈ [(0 : Int), 8].toFinset then z c.2 else o c) i) = tot 2 [(0 : Int), 8].toFinset fun z =>
        (fun l : List ℕ => exTwo.arr.entry [l.getD 0 0, l.getD 1 0, l.getD 0 0, l.getD 1 0]) ([(0 : Int), 8].map z) := by
      refine tot_congr fun z _ _ => ?_
      show exTwo.arr.entry (exTwo.wires.sortedWires.map _) = _
      rw [exTwo_sorted]
      rfl
    rw [a5]
    refine (e.trans (nsum_tot 2 [(0 : Int), 8] (by decide) fun l : List ℕ => exTwo.arr.entry [l.getD 0 0, l.getD 1 0, l.getD 0 0, l.getD 1 0]).symm).trans ?_
    simp [List.replicate, nsum_cons, nsum_nil, Finset.sum_range_succ, exTwo, Arr.entry, inb]
  · have e : tot 2 [(0 : Int), 8].toFinset (fun z => exTwo.ker.fn (fun c => if c.2 ∈ [(0 : Int), 8].toFinset then
        (if c.1 = .bra then z ([(0 : Int), 8].getD ([(8 : Int), 0].idxOf c.2) 0) else z c.2) else o c) i) = tot 2 [(0 : Int), 8].toFinset fun z =>
        (fun l : List ℕ => exTwo.arr.entry [l.getD 1 0, l.getD 0 0, l.getD 0 0, l.getD 1 0]) ([(0 : Int), 8].map z) := by
      refine tot_congr fun z _ _ => ?_
      show exTwo.arr.entry (exTwo.wires.sortedWires.map _) = _
      rw [exTwo_sorted]
      rfl
    rw [b5]
    refine (e.trans (nsum_tot 2 [(0 : Int), 8] (by decide) fun l : List ℕ => exTwo.arr.entry [l.getD 1 0, l.getD 0 0, l.getD 0 0, l.getD 1 0]).symm).trans ?_
    simp [List.replicate, nsum_cons, nsum_nil, Finset.sum_range_succ, exTwo, Arr.entry, inb]

end Verif.CompV
