import Verif.ExpectSpec

/-!
# `expectation` of Fock states (C90)
-/

namespace Verif.CompV

open Verif.WireModel Verif.Arr Verif.Fock Verif.PolyExp Verif.Circuits

/-- lab/states/base.py:49-58 `OperatorType`. -/
inductive OpType
  | ket
  | dm
  | unitary
  deriving DecidableEq

/-- lab/states/base.py:61-94 `_validate_operator`; `none` is `INVALID_TYPE`. -/
def validateOp (w : Wires) : Option OpType :=
  if w.ket.output.ws ≠ [] ∧ w.ket.input.ws = [] ∧ w.bra.ws = [] then some .ket
  else if w.ket.output.ws ≠ [] ∧ w.bra.output.ws ≠ [] ∧ w.ket.input.ws = [] ∧ w.bra.input.ws = [] then
    if w.ket.output.modes.toFinset ≠ w.bra.output.modes.toFinset then none else some .dm
  else if w.ket.input.ws ≠ [] ∧ w.ket.output.ws ≠ [] ∧ w.bra.ws = [] then
    if w.ket.input.modes.toFinset ≠ w.ket.output.modes.toFinset then none else some .unitary
  else none

/-- lab/states/dm.py:285-342 `DM.expectation`, for an unbatched state and operator that are both in the Fock representation.  `f` and `d` provide the identifiers of
adjoints and duals, `ids` those of `TraceOut`; `ordK` and `ordB` are the orders of iteration over sets of modes.  `none` is an exception. -/
noncomputable def FComp.expectDM (f d ids : Nat → Nat) (ordK ordB : List Int → List Int) (X O : FComp) : Option FComp :=
  match validateOp O.wires with
  | none => none
  | some t =>
    if ¬ ∀ m ∈ O.wires.modes, m ∈ X.wires.modes then none
    else
      let left := X.wires.modes.filter fun m => m ∉ O.wires.modes
      match t with
      | .ket => do
          let dl ← O.dual d
          let da ← dl.adjoint f
          let r ← X.contract da
          let r ← r.contract dl
          r.traceOut f ids left (ordK left) (ordB left)
      | .dm => do
          let dl ← O.dual d
          let r ← X.contract dl
          r.traceOut f ids left (ordK left) (ordB left)
      | .unitary => do
          let r ← X.contract O
          r.traceOut f ids X.wires.modes (ordK X.wires.modes) (ordB X.wires.modes)

/-- lab/states/ket.py:283-325 `Ket.expectation`, with the same simplifications. -/
noncomputable def FComp.expectKet (f d ids : Nat → Nat) (ordK ordB : List Int → List Int) (X O : FComp) : Option FComp :=
  match validateOp O.wires with
  | none => none
  | some t =>
    if ¬ ∀ m ∈ O.wires.modes, m ∈ X.wires.modes then none
    else
      let left := X.wires.modes.filter fun m => m ∉ O.wires.modes
      match t with
      | .ket => do
          let dl ← O.dual d
          let r ← X.contract dl
          let ra ← r.adjoint f
          let r ← r.contract ra
          r.traceOut f ids left (ordK left) (ordB left)
      | .dm => do
          let a ← X.adjoint f
          let dl ← O.dual d
          let r ← X.contract dl
          let r ← a.contract r
          r.traceOut f ids left (ordK left) (ordB left)
      | .unitary => do
          let r ← X.contract O
          let dl ← X.dual d
          let r ← r.contract dl
          r.traceOut f ids r.wires.modes (ordK r.wires.modes) (ordB r.wires.modes)

/-! ## Specification of the kinds of components -/

/-- Ket wires on the outputs `N` and nothing else. -/
def KetW (N : Finset Int) (W : Wires) : Prop := ∀ s o m, Has W s o m ↔ s = .ket ∧ o = true ∧ m ∈ N
/-- Ket and bra wires on the outputs `N` and nothing else. -/
def DmW (N : Finset Int) (W : Wires) : Prop := ∀ s o m, Has W s o m ↔ (s = .ket ∨ s = .bra) ∧ o = true ∧ m ∈ N
/-- Ket wires on the inputs and outputs `N` and nothing else. -/
def OpW (N : Finset Int) (W : Wires) : Prop := ∀ s o m, Has W s o m ↔ s = .ket ∧ m ∈ N

theorem blk_nil {W : Wires} {p : Wire → Bool} : W.ws.filter p = [] ↔ ∀ w ∈ W.ws, p w = false := by
  rw [List.filter_eq_nil_iff]
  simp

theorem mem_modes_iff {W : Wires} {m : Int} : m ∈ W.modes.toFinset ↔ ∃ s o, Has W s o m := by
  rw [List.mem_toFinset, mem_modes]
  constructor
  · rintro ⟨w, hw, rfl⟩
    exact ⟨w.side, w.isOut, w, hw, rfl⟩
  · rintro ⟨s, o, w, hw, e⟩
    simp only [Wire.slot, Prod.mk.injEq] at e
    exact ⟨w, hw, e.2.2⟩

theorem side_nil {W : Wires} (s : Side) (o : Bool) : ((W.ws.filter fun w => w.side == s).filter fun w => w.isOut == o) = [] ↔ ∀ m, ¬ Has W s o m := by
  rw [List.filter_eq_nil_iff]
  constructor
  · rintro h m ⟨w, hw, e⟩
    simp only [Wire.slot, Prod.mk.injEq] at e
    exact h w (List.mem_filter.mpr ⟨hw, by simp [e.1]⟩) (by simp [e.2.1])
  · intro h w hw hp
    have h1 := List.mem_filter.mp hw
    simp only [beq_iff_eq] at h1 hp
    exact h w.mode ⟨w, h1.1, by simp [Wire.slot, h1.2, hp]⟩

theorem ket_out_nil {W : Wires} : W.ket.output.ws = [] ↔ ∀ m, ¬ Has W .ket true m := by
  rw [← side_nil]
  simp [Wires.ket, Wires.output]

theorem ket_in_nil {W : Wires} : W.ket.input.ws = [] ↔ ∀ m, ¬ Has W .ket false m := by
  rw [← side_nil]
  simp [Wires.ket, Wires.input]

theorem bra_out_nil {W : Wires} : W.bra.output.ws = [] ↔ ∀ m, ¬ Has W .bra true m := by
  rw [← side_nil]
  simp [Wires.bra, Wires.output]

theorem bra_in_nil {W : Wires} : W.bra.input.ws = [] ↔ ∀ m, ¬ Has W .bra false m := by
  rw [← side_nil]
  simp [Wires.bra, Wires.input]

theorem bra_nil {W : Wires} : W.bra.ws = [] ↔ ∀ o m, ¬ Has W .bra o m := by
  show W.ws.filter _ = [] ↔ _
  rw [List.filter_eq_nil_iff]
  constructor
  · rintro h o m ⟨w, hw, e⟩
    simp only [Wire.slot, Prod.mk.injEq] at e
    exact h w hw (by simp [e.1])
  · intro h w hw hp
    simp only [beq_iff_eq] at hp
    exact h w.isOut w.mode ⟨w, hw, by simp [Wire.slot, hp]⟩

theorem mem_sub_modes {W : Wires} {s : Side} {o : Bool} {m : Int} {V : Wires} (hV : ∀ w, w ∈ V.ws ↔ w ∈ W.ws ∧ w.side = s ∧ w.isOut = o) :
    m ∈ V.modes.toFinset ↔ Has W s o m := by
  rw [List.mem_toFinset, mem_modes]
  constructor
  · rintro ⟨w, hw, rfl⟩
    obtain ⟨h1, h2, h3⟩ := (hV w).mp hw
    exact ⟨w, h1, by simp [Wire.slot, h2, h3]⟩
  · rintro ⟨w, hw, e⟩
    simp only [Wire.slot, Prod.mk.injEq] at e
    exact ⟨w, (hV w).mpr ⟨hw, e.1, e.2.1⟩, e.2.2⟩

theorem mem_ket_out {W : Wires} {m : Int} : m ∈ W.ket.output.modes.toFinset ↔ Has W .ket true m := mem_sub_modes (fun w => by simp [Wires.ket, Wires.output]; exact fun _ => and_comm)
theorem mem_ket_in {W : Wires} {m : Int} : m ∈ W.ket.input.modes.toFinset ↔ Has W .ket false m := mem_sub_modes (fun w => by simp [Wires.ket, Wires.input]; exact fun _ => and_comm)
theorem mem_bra_out {W : Wires} {m : Int} : m ∈ W.bra.output.modes.toFinset ↔ Has W .bra true m := mem_sub_modes (fun w => by simp [Wires.bra, Wires.output]; exact fun _ => and_comm)

/-- **C90** (operators) which components are accepted as operators, for components without classical wires. -/
theorem C90_validate {W : Wires} (hq : ∀ w ∈ W.ws, w.side ≠ .classical) :
    (validateOp W = some .ket ↔ KetW W.modes.toFinset W ∧ W.ws ≠ []) ∧
    (validateOp W = some .dm ↔ DmW W.modes.toFinset W ∧ W.ws ≠ []) ∧
    (validateOp W = some .unitary ↔ OpW W.modes.toFinset W ∧ W.ws ≠ []) := by
  have noCl := no_classical hq
  have ne : W.ws ≠ [] ↔ ∃ s o m, Has W s o m := by
    constructor
    · intro h
      obtain ⟨w, hw⟩ := List.exists_mem_of_ne_nil _ h
      exact ⟨w.side, w.isOut, w.mode, w, hw, rfl⟩
    · rintro ⟨s, o, m, w, hw, _⟩ h
      rw [h] at hw
      simp at hw
  have kk : (W.ket.output.ws ≠ [] ∧ W.ket.input.ws = [] ∧ W.bra.ws = []) ↔ KetW W.modes.toFinset W ∧ W.ws ≠ [] := by
    rw [Ne, ket_out_nil, ket_in_nil, bra_nil, ne]
    constructor
    · rintro ⟨h1, h2, h3⟩
      push Not at h1
      obtain ⟨m0, h1⟩ := h1
      refine ⟨fun s o m => ?_, _, _, _, h1⟩
      rw [mem_modes_iff]
      constructor
      · intro h
        refine ⟨?_, ?_, _, _, h⟩
        · cases s
          · exact absurd h (h3 _ _)
          · rfl
          · exact absurd h (noCl _ _)
        · cases s
          · exact absurd h (h3 _ _)
          · cases o
            · exact absurd h (h2 _)
            · rfl
          · exact absurd h (noCl _ _)
      · rintro ⟨rfl, rfl, s, o, h⟩
        cases s
        · exact absurd h (h3 _ _)
        · cases o
          · exact absurd h (h2 _)
          · exact h
        · exact absurd h (noCl _ _)
    · rintro ⟨h1, s, o, m, h⟩
      have h0 := (h1 _ _ _).mp h
      refine ⟨fun h' => h' m ((h1 _ _ _).mpr ⟨rfl, rfl, h0.2.2⟩), fun m h' => ?_, fun o m h' => ?_⟩
      · simpa using (h1 _ _ _).mp h'
      · simpa using (h1 _ _ _).mp h'
  have dd : (W.ket.output.ws ≠ [] ∧ W.bra.output.ws ≠ [] ∧ W.ket.input.ws = [] ∧ W.bra.input.ws = []) ∧ W.ket.output.modes.toFinset = W.bra.output.modes.toFinset ↔
      DmW W.modes.toFinset W ∧ W.ws ≠ [] := by
    rw [Ne, Ne, ket_out_nil, bra_out_nil, ket_in_nil, bra_in_nil, ne, Finset.ext_iff]
    simp only [mem_ket_out, mem_bra_out]
    constructor
    · rintro ⟨⟨h1, _, h3, h4⟩, h5⟩
      push Not at h1
      obtain ⟨m0, h1⟩ := h1
      refine ⟨fun s o m => ?_, _, _, _, h1⟩
      rw [mem_modes_iff]
      constructor
      · intro h
        refine ⟨?_, ?_, _, _, h⟩
        · cases s
          · exact Or.inr rfl
          · exact Or.inl rfl
          · exact absurd h (noCl _ _)
        · cases o
          · cases s
            · exact absurd h (h4 _)
            · exact absurd h (h3 _)
            · exact absurd h (noCl _ _)
          · rfl
      · rintro ⟨hs, rfl, s', o', h⟩
        have hk : Has W .ket true m := by
          cases o'
          · cases s'
            · exact absurd h (h4 _)
            · exact absurd h (h3 _)
            · exact absurd h (noCl _ _)
          · cases s'
            · exact (h5 m).mpr h
            · exact h
            · exact absurd h (noCl _ _)
        rcases hs with rfl | rfl
        · exact hk
        · exact (h5 m).mp hk
    · rintro ⟨h1, s, o, m, h⟩
      have h0 := (h1 _ _ _).mp h
      refine ⟨⟨fun h' => h' m ((h1 _ _ _).mpr ⟨Or.inl rfl, rfl, h0.2.2⟩), fun h' => h' m ((h1 _ _ _).mpr ⟨Or.inr rfl, rfl, h0.2.2⟩), fun m h' => ?_, fun m h' => ?_⟩, fun m => ?_⟩
      · simpa using (h1 _ _ _).mp h'
      · simpa using (h1 _ _ _).mp h'
      · rw [h1, h1]
        simp
  have uu : (W.ket.input.ws ≠ [] ∧ W.ket.output.ws ≠ [] ∧ W.bra.ws = []) ∧ W.ket.input.modes.toFinset = W.ket.output.modes.toFinset ↔
      OpW W.modes.toFinset W ∧ W.ws ≠ [] := by
    rw [Ne, Ne, ket_in_nil, ket_out_nil, bra_nil, ne, Finset.ext_iff]
    simp only [mem_ket_out, mem_ket_in]
    constructor
    · rintro ⟨⟨h1, _, h3⟩, h5⟩
      push Not at h1
      obtain ⟨m0, h1⟩ := h1
      refine ⟨fun s o m => ?_, _, _, _, h1⟩
      rw [mem_modes_iff]
      constructor
      · intro h
        refine ⟨?_, _, _, h⟩
        cases s
        · exact absurd h (h3 _ _)
        · rfl
        · exact absurd h (noCl _ _)
      · rintro ⟨rfl, s', o', h⟩
        cases s'
        · exact absurd h (h3 _ _)
        · cases o <;> cases o'
          · exact h
          · exact (h5 m).mpr h
          · exact (h5 m).mp h
          · exact h
        · exact absurd h (noCl _ _)
    · rintro ⟨h1, s, o, m, h⟩
      have h0 := (h1 _ _ _).mp h
      refine ⟨⟨fun h' => h' m ((h1 _ _ _).mpr ⟨rfl, h0.2⟩), fun h' => h' m ((h1 _ _ _).mpr ⟨rfl, h0.2⟩), fun o m h' => ?_⟩, fun m => ?_⟩
      · simpa using (h1 _ _ _).mp h'
      · rw [h1, h1]
  unfold validateOp
  rw [← kk, ← dd, ← uu]
  by_cases h1 : W.ket.output.ws ≠ [] ∧ W.ket.input.ws = [] ∧ W.bra.ws = []
  · rw [if_pos h1]
    have hb : W.bra.output.ws = [] := by
      rw [bra_out_nil]
      exact fun m => bra_nil.mp h1.2.2 true m
    refine ⟨by simp [h1], ?_, ?_⟩
    · simp [hb]
    · simp [h1.2.1]
  · rw [if_neg h1]
    by_cases h2 : W.ket.output.ws ≠ [] ∧ W.bra.output.ws ≠ [] ∧ W.ket.input.ws = [] ∧ W.bra.input.ws = []
    · rw [if_pos h2]
      refine ⟨?_, ?_, ?_⟩
      · constructor
        · intro h
          split_ifs at h
          simp at h
        · exact fun h => absurd h h1
      · by_cases h3 : W.ket.output.modes.toFinset = W.bra.output.modes.toFinset
        · simp [h3, h2]
        · simp [h3]
      · constructor
        · intro h
          split_ifs at h
          simp at h
        · rintro ⟨h, _⟩
          exact absurd h2.2.2.1 h.1
    · rw [if_neg h2]
      by_cases h3 : W.ket.input.ws ≠ [] ∧ W.ket.output.ws ≠ [] ∧ W.bra.ws = []
      · rw [if_pos h3]
        refine ⟨?_, ?_, ?_⟩
        · constructor
          · intro h
            split_ifs at h
            simp at h
          · exact fun h => absurd h h1
        · constructor
          · intro h
            split_ifs at h
            simp at h
          · exact fun h => absurd h.1 h2
        · by_cases h4 : W.ket.input.modes.toFinset = W.ket.output.modes.toFinset
          · simp [h4, h3]
          · simp [h4]
      · rw [if_neg h3]
        refine ⟨⟨fun h => (by cases h), fun h => absurd h h1⟩, ⟨fun h => (by cases h), fun h => absurd h.1 h2⟩, ⟨fun h => (by cases h), fun h => absurd h.1 h3⟩⟩

end Verif.CompV
