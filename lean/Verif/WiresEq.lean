import Verif.WiresProps

/-!
# Equality and hash of wires (C113)
-/

namespace Verif.WireModel

/-- physics/wires.py:350-362 `args`: the modes of each kind of wires, as sets (listed in some order). -/
def Wires.args (W : Wires) : List (List Int) :=
  [W.bra.output.modes, W.bra.input.modes, W.ket.output.modes, W.ket.input.modes, W.classical.output.modes, W.classical.input.modes]

/-- Python's `==` between two sets. -/
def sameMembers (l l' : List Int) : Prop := ∀ m, m ∈ l ↔ m ∈ l'

/-- physics/wires.py:572-573 `__eq__`. -/
def Wires.Eq (A B : Wires) : Prop := List.Forall₂ sameMembers A.args B.args

/-- physics/wires.py:585-586 `__hash__`, with 116-117 and 159-160 for the wires: `hw` is Python's hash of the tuple of the attributes, `ht` its hash of a tuple of objects with the given hashes.  The lists in
which the sets are iterated are those of the model.  Simplification: the attributes of both classes of wires are passed to one function, which also gets the class. -/
def Wires.pyHash (hw : Side × Bool × Int × Repr → Int) (ht : List Int → Int) (W : Wires) : Int :=
  ht [ht (W.classical.ws.map fun w => hw (w.side, w.isOut, w.mode, w.repr)), ht (W.quantum.ws.map fun w => hw (w.side, w.isOut, w.mode, w.repr))]

theorem mem_kind (W : Wires) (s : Side) (o : Bool) (m : Int) :
    m ∈ ((W.ws.filter fun w => w.side == s).filter fun w => w.isOut == o).map (·.mode) ↔ Has W s o m := by
  unfold Has Wire.slot
  rw [List.mem_map]
  constructor
  · rintro ⟨w, hw, rfl⟩
    rw [List.mem_filter, List.mem_filter, beq_iff_eq, beq_iff_eq] at hw
    exact ⟨w, hw.1.1, by rw [hw.1.2, hw.2]⟩
  · rintro ⟨w, hw, e⟩
    rw [Prod.mk.injEq, Prod.mk.injEq] at e
    exact ⟨w, List.mem_filter.2 ⟨List.mem_filter.2 ⟨hw, beq_iff_eq.2 e.1⟩, beq_iff_eq.2 e.2.1⟩, e.2.2⟩

theorem filter_out (l : List Wire) : (l.filter fun w => w.isOut) = l.filter (fun w => w.isOut == true) := List.filter_congr fun w _ => by cases w.isOut <;> rfl
theorem filter_in (l : List Wire) : (l.filter fun w => ! w.isOut) = l.filter (fun w => w.isOut == false) := List.filter_congr fun w _ => by cases w.isOut <;> rfl

/-- **C113** two `Wires` objects are equal exactly when they have wires on the same (side, direction, mode); representations, indices and identifiers play no role. -/
theorem C113_eq (A B : Wires) : A.Eq B ↔ ∀ s o m, Has A s o m ↔ Has B s o m := by
  have h : ∀ (s : Side) (o : Bool), sameMembers (((A.ws.filter fun w => w.side == s).filter fun w => w.isOut == o).map (·.mode)).dedup
      (((B.ws.filter fun w => w.side == s).filter fun w => w.isOut == o).map (·.mode)).dedup ↔ ∀ m, Has A s o m ↔ Has B s o m := by
    intro s o
    unfold sameMembers
    simp only [List.mem_dedup, mem_kind]
  have e : A.Eq B ↔ (∀ m, Has A .bra true m ↔ Has B .bra true m) ∧ (∀ m, Has A .bra false m ↔ Has B .bra false m) ∧ (∀ m, Has A .ket true m ↔ Has B .ket true m) ∧
      (∀ m, Has A .ket false m ↔ Has B .ket false m) ∧ (∀ m, Has A .classical true m ↔ Has B .classical true m) ∧ (∀ m, Has A .classical false m ↔ Has B .classical false m) := by
    rw [← h, ← h, ← h, ← h, ← h, ← h]
    unfold Wires.Eq Wires.args Wires.bra Wires.ket Wires.classical Wires.output Wires.input Wires.modes
    dsimp only
    simp only [filter_out, filter_in, List.forall₂_cons, List.forall₂_nil_left_iff, and_true]
  rw [e]
  constructor
  · rintro ⟨h1, h2, h3, h4, h5, h6⟩ s o m
    cases s <;> cases o
    exacts [h2 m, h1 m, h4 m, h3 m, h6 m, h5 m]
  · exact fun h => ⟨h _ _, h _ _, h _ _, h _ _, h _ _, h _ _⟩

/-- **C113** for wires with distinct slots and modes below 20000, equality means that the i-th wires in standard order have the same side, direction and mode, for every i. -/
theorem C113_axes (A B : Wires) (hA : Distinct A) (hB : Distinct B) (rA : InRange A) (rB : InRange B) : A.Eq B ↔ A.sortedWires.map Wire.slot = B.sortedWires.map Wire.slot := by
  rw [C113_eq]
  have hp : ∀ W : Wires, (W.sortedWires.map Wire.slot).Perm (W.ws.map Wire.slot) := fun W => (sortedWires_perm W).map _
  constructor
  · intro h
    have h' : (A.sortedWires.map Wire.slot).Perm (B.sortedWires.map Wire.slot) := by
      refine ((hp A).trans ?_).trans (hp B).symm
      refine (List.perm_ext_iff_of_nodup hA hB).2 fun ⟨s, o, m⟩ => ?_
      rw [← has_iff_mem_slot, ← has_iff_mem_slot]
      exact h s o m
    have sort : ∀ W : Wires, Distinct W → InRange W → (W.sortedWires.map Wire.slot).Pairwise
        (fun a b => rank a.1 a.2.1 < rank b.1 b.2.1 ∨ (rank a.1 a.2.1 = rank b.1 b.2.1 ∧ a.2.2 < b.2.2)) := by
      intro W hd hr
      rw [List.pairwise_map]
      exact sortedWires_stdLt hd hr
    refine List.Perm.eq_of_pairwise (fun a b _ _ h1 h2 => ?_) (sort A hA rA) (sort B hB rB) h'
    omega
  · intro h s o m
    rw [has_iff_mem_slot, has_iff_mem_slot, ← (hp A).mem_iff, ← (hp B).mem_iff, h]

/-- **C113** equality is an equivalence relation. -/
theorem C113_equivalence : Equivalence Wires.Eq :=
  ⟨fun A => (C113_eq A A).2 fun _ _ _ => Iff.rfl, fun {A B} h => (C113_eq B A).2 fun s o m => ((C113_eq A B).1 h s o m).symm,
    fun {A B C} h h' => (C113_eq A C).2 fun s o m => ((C113_eq A B).1 h s o m).trans ((C113_eq B C).1 h' s o m)⟩

/-- **C113** adjoints and duals of equal wires are equal, and equal to nothing else. -/
theorem C113_adjoint_dual (A B : Wires) (hA : Distinct A) (hB : Distinct B) (rA : InRange A) (rB : InRange B) (f g : Nat → Nat) :
    ((A.adjoint f).Eq (B.adjoint g) ↔ A.Eq B) ∧ ((A.dual f).Eq (B.dual g) ↔ A.Eq B) := by
  obtain ⟨-, -, a1, a2⟩ := C04_adjoint_dual_wires A hA rA f
  obtain ⟨-, -, b1, b2⟩ := C04_adjoint_dual_wires B hB rB g
  simp only [C113_eq]
  constructor
  · constructor
    · intro h s o m
      cases s
      · rw [← (a1 o m).1, ← (b1 o m).1]; exact h _ _ _
      · rw [← (a1 o m).2.1, ← (b1 o m).2.1]; exact h _ _ _
      · rw [← (a1 o m).2.2, ← (b1 o m).2.2]; exact h _ _ _
    · intro h s o m
      cases s
      · rw [(a1 o m).2.1, (b1 o m).2.1]; exact h _ _ _
      · rw [(a1 o m).1, (b1 o m).1]; exact h _ _ _
      · rw [(a1 o m).2.2, (b1 o m).2.2]; exact h _ _ _
  · constructor
    · intro h s o m
      cases o
      · rw [← (a2 s m).1, ← (b2 s m).1]; exact h _ _ _
      · rw [← (a2 s m).2, ← (b2 s m).2]; exact h _ _ _
    · intro h s o m
      cases o
      · rw [(a2 s m).2, (b2 s m).2]; exact h _ _ _
      · rw [(a2 s m).1, (b2 s m).1]; exact h _ _ _

/-- **C113** composing equal wires gives equal wires, or an error in both cases, if the representations of the two operands agree on each side. -/
theorem C113_matmul (A B A' B' : Wires) (hA : Distinct A) (hB : Distinct B) (rA : InRange A) (rB : InRange B) (hA' : Distinct A') (hB' : Distinct B') (rA' : InRange A') (rB' : InRange B')
    (hs : SameRepr A B) (hs' : SameRepr A' B') (eA : A.Eq A') (eB : B.Eq B') :
    (∃ R R', matmulWires A B = .ok R ∧ matmulWires A' B' = .ok R' ∧ R.Eq R') ∨ (matmulWires A B = .error .valueError ∧ matmulWires A' B' = .error .valueError) := by
  rw [C113_eq] at eA eB
  have hc : Composable A B ↔ Composable A' B' := by
    unfold Composable
    simp only [eA, eB]
  obtain ⟨o, e⟩ := C02_matmul_open_wires A B hA hB rA rB hs
  obtain ⟨o', e'⟩ := C02_matmul_open_wires A' B' hA' hB' rA' rB' hs'
  by_cases h : Composable A B
  · obtain ⟨R, h1, _, h2⟩ := o h
    obtain ⟨R', k1, _, k2⟩ := o' (hc.1 h)
    refine Or.inl ⟨R, R', h1, k1, (C113_eq R R').2 fun s o m => ?_⟩
    cases o
    · simp only [(h2 s m).2, (k2 s m).2, eA, eB]
    · simp only [(h2 s m).1, (k2 s m).1, eA, eB]
  · exact Or.inr ⟨e h, e' fun h' => h (hc.2 h')⟩

/-- **C113** equal wires with different representations behave differently: `A @ B` succeeds, `A' @ B` raises, although `A == A'`; and they have different hashes if Python's hash has no collisions. -/
theorem C113_repr : ∃ A A' B : Wires, A.Eq A' ∧ (∃ R, matmulWires A B = .ok R ∧ R.len = 2) ∧ matmulWires A' B = .error .valueError ∧
    ∀ hw ht, Function.Injective hw → Function.Injective ht → A.pyHash hw ht ≠ A'.pyHash hw ht := by
  refine ⟨⟨[⟨.ket, true, 0, 0, .fock, 1⟩]⟩, ⟨[⟨.ket, true, 0, 0, .bargmann, 2⟩]⟩, ⟨[⟨.ket, true, 0, 0, .bargmann, 3⟩]⟩, ?_, ⟨_, rfl, by decide⟩, rfl, ?_⟩
  · rw [C113_eq]
    intro s o m
    rw [has_iff_mem_slot, has_iff_mem_slot]
    exact Iff.rfl
  · intro hw ht h1 h2 h
    have h := h2 h
    rw [List.cons.injEq, List.cons.injEq] at h
    have h := h2 h.2.1
    change [hw (.ket, true, 0, .fock)] = [hw (.ket, true, 0, .bargmann)] at h
    rw [List.cons.injEq] at h
    have h := h1 h.1
    rw [Prod.mk.injEq, Prod.mk.injEq, Prod.mk.injEq] at h
    exact absurd h.2.2.2 (by decide)

/-- **C113** even with equal representations the hash depends on the order in which the sets are iterated. -/
theorem C113_order (hw : Side × Bool × Int × Repr → Int) (ht : List Int → Int) (h1 : Function.Injective hw) (h2 : Function.Injective ht) (A B : Wires) :
    A.pyHash hw ht = B.pyHash hw ht ↔ A.classical.ws.map Wire.core = B.classical.ws.map Wire.core ∧ A.quantum.ws.map Wire.core = B.quantum.ws.map Wire.core := by
  have e : ∀ l l' : List Wire, (l.map fun w => hw (w.side, w.isOut, w.mode, w.repr)) = (l'.map fun w => hw (w.side, w.isOut, w.mode, w.repr)) ↔ l.map Wire.core = l'.map Wire.core := by
    intro l
    induction l with
    | nil => intro l'; cases l' <;> simp
    | cons a l ih =>
      intro l'
      cases l' with
      | nil => simp
      | cons b l' =>
        rw [List.map_cons, List.map_cons, List.map_cons, List.map_cons, List.cons.injEq, List.cons.injEq, ih]
        refine and_congr_left fun _ => ?_
        rw [h1.eq_iff]
        unfold Wire.core Wire.slot
        simp only [Prod.mk.injEq, and_assoc]
  unfold Wires.pyHash
  rw [h2.eq_iff, List.cons.injEq, List.cons.injEq, h2.eq_iff, h2.eq_iff, e, e]
  tauto

/-- Wires of a two-mode channel, listed in two orders. -/
example : (Wires.mk6 [0, 1] [0, 1] [0, 1] [0, 1] [] [] id).Eq (Wires.mk6 [1, 0] [1, 0] [1, 0] [0, 1] [] [] (· + 9)) ∧
    ¬ (Wires.mk6 [0, 1] [0, 1] [0, 1] [0, 1] [] [] id).Eq (Wires.mk6 [0, 1] [0, 1] [0, 1] [0] [] [] id) := by
  constructor
  · exact (C113_axes _ _ (by decide) (by decide) (by decide) (by decide)).2 (by decide)
  · rw [C113_axes _ _ (by decide) (by decide) (by decide) (by decide)]
    decide

end Verif.WireModel
