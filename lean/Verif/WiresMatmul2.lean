import Verif.WiresMatmul

/-! Helper lemmas about `@` of wires. -/

namespace Verif.WireModel

theorem eqv_iff (a b : Wire) : a.eqv b = true ↔ a.core = b.core := by
  simp only [Wire.eqv, Wire.core, Wire.slot, Bool.and_eq_true, beq_iff_eq, Prod.mk.injEq]
  tauto

theorem add_ok {A B R : Wires} :
    A.add B = .ok R ↔ (∀ a ∈ A.ws, ∀ b ∈ B.ws, a.core ≠ b.core) ∧ R = ⟨A.ws ++ B.ws⟩ := by
  unfold Wires.add
  split
  · rename_i h
    simp only [List.any_eq_true, eqv_iff] at h
    obtain ⟨a, ha, b, hb, e⟩ := h
    constructor
    · intro h; cases h
    · rintro ⟨h, _⟩; exact absurd e (h a ha b hb)
  · rename_i h
    simp only [List.any_eq_true, eqv_iff, not_exists, not_and] at h
    constructor
    · intro h'; cases h'; exact ⟨h, rfl⟩
    · rintro ⟨_, rfl⟩; rfl

theorem add_cases (A B : Wires) :
    ((∀ a ∈ A.ws, ∀ b ∈ B.ws, a.core ≠ b.core) ∧ A.add B = .ok ⟨A.ws ++ B.ws⟩) ∨
    ((∃ a ∈ A.ws, ∃ b ∈ B.ws, a.core = b.core) ∧ A.add B = .error .valueError) := by
  by_cases h : ∀ a ∈ A.ws, ∀ b ∈ B.ws, a.core ≠ b.core
  · exact Or.inl ⟨h, add_ok.2 ⟨h, rfl⟩⟩
  · right
    push Not at h
    refine ⟨h, ?_⟩
    unfold Wires.add
    rw [if_pos]
    simp only [List.any_eq_true, eqv_iff]
    exact h

/-- wires of `W` in a block -/
def blk (W : Wires) (s : Side) (o : Bool) : List Wire := W.ws.filter (fun w => w.side == s && w.isOut == o)

theorem mem_blk {W : Wires} {s o w} : w ∈ blk W s o ↔ w ∈ W.ws ∧ w.side = s ∧ w.isOut = o := by
  simp [blk]

theorem output_bra (W : Wires) : W.output.bra = ⟨blk W .bra true⟩ := by
  simp [Wires.output, Wires.bra, blk, List.filter_filter, Bool.and_comm]
theorem output_ket (W : Wires) : W.output.ket = ⟨blk W .ket true⟩ := by
  simp [Wires.output, Wires.ket, blk, List.filter_filter, Bool.and_comm]
theorem input_bra (W : Wires) : W.input.bra = ⟨blk W .bra false⟩ := by
  simp [Wires.input, Wires.bra, blk, List.filter_filter]
theorem input_ket (W : Wires) : W.input.ket = ⟨blk W .ket false⟩ := by
  simp [Wires.input, Wires.ket, blk, List.filter_filter]
theorem classical_output (W : Wires) : W.classical.output = ⟨blk W .classical true⟩ := by
  simp [Wires.output, Wires.classical, blk, List.filter_filter, Bool.and_comm]
theorem classical_input (W : Wires) : W.classical.input = ⟨blk W .classical false⟩ := by
  simp [Wires.input, Wires.classical, blk, List.filter_filter, Bool.and_comm]

theorem mem_modes {W : Wires} {m : Int} : m ∈ W.modes ↔ ∃ w ∈ W.ws, w.mode = m := by
  simp [Wires.modes]

theorem mem_modes_blk {W : Wires} {s o m} : m ∈ (⟨blk W s o⟩ : Wires).modes ↔ Has W s o m := by
  rw [mem_modes]
  constructor
  · rintro ⟨w, hw, rfl⟩
    have := mem_blk.1 hw
    exact ⟨w, this.1, by simp [Wire.slot, this.2]⟩
  · rintro ⟨w, hw, e⟩
    simp only [Wire.slot, Prod.mk.injEq] at e
    exact ⟨w, mem_blk.2 ⟨hw, e.1, e.2.1⟩, e.2.2⟩

/-- the wires of one open block of `A @ B` before sorting: (first, second) operands of `+` -/
def openOut (A B : Wires) (s : Side) : Wires × Wires :=
  (⟨blk B s true⟩, (⟨blk A s true⟩ : Wires).sub ⟨blk B s false⟩)
def openIn (A B : Wires) (s : Side) : Wires × Wires :=
  (⟨blk A s false⟩, (⟨blk B s false⟩ : Wires).sub ⟨blk A s true⟩)

/-- A wire of the left operand stays open. -/
def KeepL (B : Wires) (w : Wire) : Prop := w.isOut = true → ¬ Has B w.side false w.mode
/-- A wire of the right operand stays open. -/
def KeepR (A : Wires) (w : Wire) : Prop := w.isOut = false → ¬ Has A w.side true w.mode

instance (W s o m) : Decidable (Has W s o m) := inferInstanceAs (Decidable (∃ _ ∈ _, _))
instance (B w) : Decidable (KeepL B w) := inferInstanceAs (Decidable (_ → _))
instance (B w) : Decidable (KeepR B w) := inferInstanceAs (Decidable (_ → _))

theorem mem_sub {A B : Wires} {w} : w ∈ (A.sub B).ws ↔ w ∈ A.ws ∧ w.mode ∉ B.modes := by
  simp [Wires.sub]

theorem mem_openOut {A B s w} : w ∈ (openOut A B s).1.ws ++ (openOut A B s).2.ws ↔
    w.side = s ∧ w.isOut = true ∧ (w ∈ B.ws ∨ (w ∈ A.ws ∧ ¬ Has B s false w.mode)) := by
  simp only [openOut, List.mem_append, mem_sub, mem_blk, mem_modes_blk]
  tauto

theorem mem_openIn {A B s w} : w ∈ (openIn A B s).1.ws ++ (openIn A B s).2.ws ↔
    w.side = s ∧ w.isOut = false ∧ (w ∈ A.ws ∨ (w ∈ B.ws ∧ ¬ Has A s true w.mode)) := by
  simp only [openIn, List.mem_append, mem_sub, mem_blk, mem_modes_blk]
  tauto

/-- The wires of the composite before re-indexing. -/
def preMat (A B : Wires) : List Wire :=
  let srt := fun p : Wires × Wires => (⟨p.1.ws ++ p.2.ws⟩ : Wires).sortedWires
  srt (openOut A B .bra) ++ srt (openIn A B .bra) ++ srt (openOut A B .ket) ++
    srt (openIn A B .ket) ++ srt (openOut A B .classical) ++ srt (openIn A B .classical)

theorem mem_preMat {A B w} : w ∈ preMat A B ↔ (w ∈ A.ws ∧ KeepL B w) ∨ (w ∈ B.ws ∧ KeepR A w) := by
  simp only [preMat, List.mem_append (s := _ ++ _), List.mem_append, mem_sortedWires]
  have h1 := fun s => @mem_openOut A B s w
  have h2 := fun s => @mem_openIn A B s w
  simp only [List.mem_append] at h1 h2
  simp only [h1, h2, KeepL, KeepR]
  obtain ⟨s, o, m, i, r, d⟩ := w
  cases s <;> cases o <;> simp <;> tauto

/-- no conflict in a pair of operands of `+` -/
def NoConf (p : Wires × Wires) : Prop := ∀ a ∈ p.1.ws, ∀ b ∈ p.2.ws, a.core ≠ b.core

theorem matmulWires_eq (A B : Wires) : matmulWires A B = do
    let a ← (openOut A B .bra).1.add (openOut A B .bra).2
    let b ← (openOut A B .ket).1.add (openOut A B .ket).2
    let c ← (openIn A B .bra).1.add (openIn A B .bra).2
    let d ← (openIn A B .ket).1.add (openIn A B .ket).2
    let e ← (openOut A B .classical).1.add (openOut A B .classical).2
    let f ← (openIn A B .classical).1.add (openIn A B .classical).2
    return Wires.reindex ⟨setOf (a.sortedWires ++ c.sortedWires ++ b.sortedWires ++
      d.sortedWires ++ e.sortedWires ++ f.sortedWires)⟩ := by
  simp only [matmulWires, output_bra, output_ket, input_bra, input_ket, classical_output,
    classical_input, openOut, openIn]

theorem matmulWires_cases (A B : Wires) :
    ((∀ s, NoConf (openOut A B s) ∧ NoConf (openIn A B s)) ∧
      matmulWires A B = .ok (Wires.reindex ⟨setOf (preMat A B)⟩)) ∨
    ((¬ ∀ s, NoConf (openOut A B s) ∧ NoConf (openIn A B s)) ∧
      matmulWires A B = .error .valueError) := by
  rw [matmulWires_eq]
  have hneg : ∀ p : Wires × Wires, (∃ a ∈ p.1.ws, ∃ b ∈ p.2.ws, a.core = b.core) → ¬ NoConf p := by
    rintro p ⟨a, ha, b, hb, e⟩ h
    exact h a ha b hb e
  rcases add_cases (openOut A B .bra).1 (openOut A B .bra).2 with ⟨h1, e1⟩ | ⟨h1, e1⟩
  swap
  · right; rw [e1]; exact ⟨fun h => hneg _ h1 (h .bra).1, rfl⟩
  rcases add_cases (openOut A B .ket).1 (openOut A B .ket).2 with ⟨h2, e2⟩ | ⟨h2, e2⟩
  swap
  · right; rw [e1, e2]; exact ⟨fun h => hneg _ h2 (h .ket).1, rfl⟩
  rcases add_cases (openIn A B .bra).1 (openIn A B .bra).2 with ⟨h3, e3⟩ | ⟨h3, e3⟩
  swap
  · right; rw [e1, e2, e3]; exact ⟨fun h => hneg _ h3 (h .bra).2, rfl⟩
  rcases add_cases (openIn A B .ket).1 (openIn A B .ket).2 with ⟨h4, e4⟩ | ⟨h4, e4⟩
  swap
  · right; rw [e1, e2, e3, e4]; exact ⟨fun h => hneg _ h4 (h .ket).2, rfl⟩
  rcases add_cases (openOut A B .classical).1 (openOut A B .classical).2 with ⟨h5, e5⟩ | ⟨h5, e5⟩
  swap
  · right; rw [e1, e2, e3, e4, e5]; exact ⟨fun h => hneg _ h5 (h .classical).1, rfl⟩
  rcases add_cases (openIn A B .classical).1 (openIn A B .classical).2 with ⟨h6, e6⟩ | ⟨h6, e6⟩
  swap
  · right; rw [e1, e2, e3, e4, e5, e6]; exact ⟨fun h => hneg _ h6 (h .classical).2, rfl⟩
  left
  rw [e1, e2, e3, e4, e5, e6]
  refine ⟨?_, rfl⟩
  intro s
  cases s
  · exact ⟨h1, h3⟩
  · exact ⟨h2, h4⟩
  · exact ⟨h5, h6⟩

theorem setOf_of_nodup {l : List Wire} (h : (l.map Wire.slot).Nodup) : setOf l = l := by
  induction l with
  | nil => rfl
  | cons w l ih =>
    simp only [List.map_cons, List.nodup_cons] at h
    rw [setOf, ih h.2, List.filter_eq_self.2]
    intro v hv
    simp only [Bool.not_eq_true', ← Bool.not_eq_true, eqv_iff]
    intro e
    exact h.1 (List.mem_map.2 ⟨v, hv, (congrArg Prod.fst e).symm⟩)

theorem core_ne_of_noConf_iff {A B : Wires} (hs : SameRepr A B) (s : Side) :
    (NoConf (openOut A B s) ↔ ∀ m, ¬ (Has B s true m ∧ Has A s true m ∧ ¬ Has B s false m)) ∧
    (NoConf (openIn A B s) ↔ ∀ m, ¬ (Has A s false m ∧ Has B s false m ∧ ¬ Has A s true m)) := by
  constructor
  · unfold NoConf openOut
    constructor
    · rintro h m ⟨⟨b, hb, eb⟩, ⟨a, ha, ea⟩, hn⟩
      have ea' := ea; have eb' := eb
      simp only [Wire.slot, Prod.mk.injEq] at ea' eb'
      refine h b (mem_blk.2 ⟨hb, eb'.1, eb'.2.1⟩) a
        (mem_sub.2 ⟨mem_blk.2 ⟨ha, ea'.1, ea'.2.1⟩, ?_⟩) ?_
      · rw [mem_modes_blk, ea'.2.2]; exact hn
      · simp only [Wire.core, Prod.mk.injEq]
        exact ⟨eb.trans ea.symm, (hs a ha b hb (by rw [ea'.1, eb'.1])).symm⟩
    · intro h b hb a ha e
      rw [mem_blk] at hb
      rw [mem_sub, mem_blk, mem_modes_blk] at ha
      have e1 := congrArg Prod.fst e
      simp only [Wire.core, Wire.slot, Prod.mk.injEq] at e1
      exact h a.mode ⟨⟨b, hb.1, by simp [Wire.slot, hb.2, e1.2.2]⟩,
        ⟨a, ha.1.1, by simp [Wire.slot, ha.1.2]⟩, ha.2⟩
  · unfold NoConf openIn
    constructor
    · rintro h m ⟨⟨a, ha, ea⟩, ⟨b, hb, eb⟩, hn⟩
      have ea' := ea; have eb' := eb
      simp only [Wire.slot, Prod.mk.injEq] at ea' eb'
      refine h a (mem_blk.2 ⟨ha, ea'.1, ea'.2.1⟩) b
        (mem_sub.2 ⟨mem_blk.2 ⟨hb, eb'.1, eb'.2.1⟩, ?_⟩) ?_
      · rw [mem_modes_blk, eb'.2.2]; exact hn
      · simp only [Wire.core, Prod.mk.injEq]
        exact ⟨ea.trans eb.symm, (hs a ha b hb (by rw [ea'.1, eb'.1]))⟩
    · intro h a ha b hb e
      rw [mem_blk] at ha
      rw [mem_sub, mem_blk, mem_modes_blk] at hb
      have e1 := congrArg Prod.fst e
      simp only [Wire.core, Wire.slot, Prod.mk.injEq] at e1
      exact h b.mode ⟨⟨a, ha.1, by simp [Wire.slot, ha.2, e1.2.2]⟩,
        ⟨b, hb.1.1, by simp [Wire.slot, hb.1.2]⟩, hb.2⟩

end Verif.WireModel
