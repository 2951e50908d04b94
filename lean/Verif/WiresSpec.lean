import Verif.Wires

/-!
# Specification vocabulary for wires

Independent of the model's helpers: a wire occupies a *slot* (side, direction, mode); the standard
order is lexicographic in (block, mode).
-/

namespace Verif.WireModel

/-- The six blocks in the documented standard order (physics/wires.py docstring 243-246). -/
def rank : Side → Bool → Nat
  | .bra, true => 0
  | .bra, false => 1
  | .ket, true => 2
  | .ket, false => 3
  | .classical, true => 4
  | .classical, false => 5

/-- Strict standard order. -/
def StdLt (a b : Wire) : Prop :=
  rank a.side a.isOut < rank b.side b.isOut ∨
  (rank a.side a.isOut = rank b.side b.isOut ∧ a.mode < b.mode)

instance (a b : Wire) : Decidable (StdLt a b) := inferInstanceAs (Decidable (_ ∨ _))

/-- What identifies a wire for the user. -/
def Wire.slot (w : Wire) : Side × Bool × Int := (w.side, w.isOut, w.mode)

/-- `W` has a wire in the given slot. -/
def Has (W : Wires) (s : Side) (o : Bool) (m : Int) : Prop := ∃ w ∈ W.ws, w.slot = (s, o, m)

/-- No two wires in one slot. -/
def Distinct (W : Wires) : Prop := (W.ws.map Wire.slot).Nodup

instance (W : Wires) : Decidable (Distinct W) := inferInstanceAs (Decidable (List.Nodup _))

/-- All modes in the range for which the sort key separates the blocks. -/
def InRange (W : Wires) : Prop := ∀ w ∈ W.ws, 0 ≤ w.mode ∧ w.mode < 20000

instance (W : Wires) : Decidable (InRange W) := inferInstanceAs (Decidable (∀ _ ∈ _, _))

/-- The index stored in each wire is its position in standard order. -/
def Indexed (W : Wires) : Prop := W.indices = List.range W.len

instance (W : Wires) : Decidable (Indexed W) := inferInstanceAs (Decidable (_ = _))

/-- A well-formed `Wires` object. -/
structure Good (W : Wires) : Prop where
  distinct : Distinct W
  inRange : InRange W
  indexed : Indexed W

/-- Wires of `A` and `B` on the same side carry the same representation. -/
def SameRepr (A B : Wires) : Prop :=
  ∀ w ∈ A.ws, ∀ v ∈ B.ws, w.side = v.side → w.repr = v.repr

instance (A B : Wires) : Decidable (SameRepr A B) := inferInstanceAs (Decidable (∀ _ ∈ _, _))

end Verif.WireModel
