import Mathlib.Data.List.Sort
import Mathlib.Data.List.Dedup

/-!
# Model of `mrmustard/physics/wires.py`

Sets of Python objects are modelled as lists; every function below that builds a Python `set`
removes duplicates with respect to the Python `__eq__` of the element type.  The results about
`sortedWires` show that the arbitrary iteration order of a set is not observable.
-/

namespace Verif.WireModel

/-- physics/wires.py:36-44 `ReprEnum`. -/
inductive Repr
  | unspecified | bargmann | fock | quadrature | phasespace | characteristic
  deriving DecidableEq, Inhabited

/-- The Python code has two classes, `QuantumWire` (with a Boolean `is_ket`) and `ClassicalWire`
(physics/wires.py:59-160).  They are merged into one record with a three-valued side. -/
inductive Side
  | bra | ket | classical
  deriving DecidableEq, Inhabited

/-- physics/wires.py:59-80 `QuantumWire` and 120-137 `ClassicalWire`.
The `fock_cutoff` field is not used by any function modelled here and is left out. -/
structure Wire where
  side : Side
  isOut : Bool
  mode : Int
  index : Nat
  repr : Repr
  id : Nat
  deriving DecidableEq, Inhabited

/-- Python's `True`/`False` used as an integer. -/
def b2i (b : Bool) : Int := if b then 1 else 0

/-- physics/wires.py:101-106 `QuantumWire._order`, 149-154 `ClassicalWire._order`. -/
def Wire.order (w : Wire) : Int :=
  match w.side with
  | .bra => w.mode + 10000 * (1 - 2 * b2i w.isOut) - 100000 * (1 - 2 * b2i false)
  | .ket => w.mode + 10000 * (1 - 2 * b2i w.isOut) - 100000 * (1 - 2 * b2i true)
  | .classical => 1000000 + w.mode + 10000 * (1 - 2 * b2i w.isOut)

/-- physics/wires.py:108-114 and 156-157: `__eq__` between two wires of the same class
(wires of different classes never compare equal here, see `Wire.pyEq` for the exception). -/
def Wire.eqv (a b : Wire) : Bool :=
  a.side == b.side && a.mode == b.mode && a.isOut == b.isOut && a.repr == b.repr

/-- Python exceptions raised by the modelled code. -/
inductive Err
  | valueError | attributeError
  deriving DecidableEq

/-- `a == b` as evaluated by `list.index` in physics/wires.py:651.  Comparing a quantum wire with a
classical wire of the same mode and direction evaluates `other.is_ket`, which does not exist. -/
def Wire.pyEq (a b : Wire) : Except Err Bool :=
  match a.side, b.side with
  | .bra, .classical | .ket, .classical =>
      if a.mode == b.mode && a.isOut == b.isOut then .error .attributeError else .ok false
  | .classical, .bra | .classical, .ket =>
      .ok (a.mode == b.mode && a.isOut == b.isOut && a.repr == b.repr)
  | _, _ => .ok (a.eqv b)

/-- physics/wires.py:163ff. `Wires`: the union of `_quantum_wires` and `_classical_wires`. -/
structure Wires where
  ws : List Wire
  deriving DecidableEq

/-- Building a Python set of wires: later elements equal to an earlier one are dropped. -/
def setOf : List Wire → List Wire
  | [] => []
  | w :: l => w :: (setOf l).filter (fun v => ! w.eqv v)

/-- physics/wires.py:451-456 `sorted_wires`: a stable sort by `_order`. -/
def Wires.sortedWires (W : Wires) : List Wire :=
  W.ws.insertionSort (fun a b => a.order ≤ b.order)

/-- One block of physics/wires.py:319-336: `enumerate(sorted(modes))` with running offset. -/
def mkBlock (side : Side) (isOut : Bool) (n : Nat) (modes : List Int) (repr : Repr) (ids : Nat → Nat) :
    List Wire :=
  (modes.insertionSort (· ≤ ·)).zipIdx.map fun (m, i) =>
    { side := side, isOut := isOut, mode := m, index := n + i, repr := repr, id := ids (n + i) }

/-- physics/wires.py:302-336 `Wires.__init__`.  The six arguments are sets (duplicate-free lists here);
`ids` is the stream of random identifiers. -/
def Wires.mk6 (ob ib ok ik co ci : List Int) (ids : Nat → Nat) : Wires :=
  ⟨mkBlock .bra true 0 ob .bargmann ids
    ++ mkBlock .bra false ob.length ib .bargmann ids
    ++ mkBlock .ket true (ob.length + ib.length) ok .bargmann ids
    ++ mkBlock .ket false (ob.length + ib.length + ok.length) ik .bargmann ids
    ++ mkBlock .classical true (ob.length + ib.length + ok.length + ik.length) co .unspecified ids
    ++ mkBlock .classical false (ob.length + ib.length + ok.length + ik.length + co.length) ci
        .unspecified ids⟩

/-- physics/wires.py:364-370 `bra`. -/
def Wires.bra (W : Wires) : Wires := ⟨W.ws.filter (fun w => w.side == .bra)⟩
/-- physics/wires.py:417-423 `ket`. -/
def Wires.ket (W : Wires) : Wires := ⟨W.ws.filter (fun w => w.side == .ket)⟩
/-- physics/wires.py:372-378 `classical`. -/
def Wires.classical (W : Wires) : Wires := ⟨W.ws.filter (fun w => w.side == .classical)⟩
/-- physics/wires.py:443-449 `quantum`. -/
def Wires.quantum (W : Wires) : Wires := ⟨W.ws.filter (fun w => w.side != .classical)⟩
/-- physics/wires.py:432-441 `output`. -/
def Wires.output (W : Wires) : Wires := ⟨W.ws.filter (fun w => w.isOut)⟩
/-- physics/wires.py:406-415 `input`. -/
def Wires.input (W : Wires) : Wires := ⟨W.ws.filter (fun w => ! w.isOut)⟩
/-- physics/wires.py:425-430 `modes`. -/
def Wires.modes (W : Wires) : List Int := (W.ws.map (·.mode)).dedup
/-- physics/wires.py:575-583 `__getitem__`. -/
def Wires.getModes (W : Wires) (ms : List Int) : Wires := ⟨W.ws.filter (fun w => w.mode ∈ ms)⟩
/-- physics/wires.py:399-404 `indices`. -/
def Wires.indices (W : Wires) : List Nat := W.sortedWires.map (·.index)
/-- physics/wires.py:392-397 `ids`. -/
def Wires.ids (W : Wires) : List Nat := W.sortedWires.map (·.id)
/-- physics/wires.py:591-592 `__len__`. -/
def Wires.len (W : Wires) : Nat := W.ws.length

/-- physics/wires.py:547-552 `_reindex`. -/
def Wires.reindex (W : Wires) : Wires :=
  ⟨W.sortedWires.zipIdx.map fun (w, i) => { w with index := i }⟩

/-- physics/wires.py:513-518 `copy(new_ids=True)`; `f` gives the fresh identifiers. -/
def Wires.copyNew (W : Wires) (f : Nat → Nat) : Wires := ⟨W.ws.map fun w => { w with id := f w.id }⟩

/-- `w.is_ket = not w.is_ket` for quantum wires. -/
def Wire.flipKet (w : Wire) : Wire :=
  { w with side := match w.side with | .bra => .ket | .ket => .bra | .classical => .classical }
/-- `w.is_out = not w.is_out`. -/
def Wire.flipOut (w : Wire) : Wire := { w with isOut := ! w.isOut }

/-- physics/wires.py:338-348 `adjoint`. -/
def Wires.adjoint (W : Wires) (f : Nat → Nat) : Wires :=
  Wires.reindex ⟨(W.copyNew f).ws.map Wire.flipKet⟩
/-- physics/wires.py:380-390 `dual`. -/
def Wires.dual (W : Wires) (f : Nat → Nat) : Wires :=
  Wires.reindex ⟨(W.copyNew f).ws.map Wire.flipOut⟩

/-- physics/wires.py:554-567 `__add__`. -/
def Wires.add (A B : Wires) : Except Err Wires :=
  if A.ws.any (fun w => B.ws.any (fun v => w.eqv v)) then .error .valueError
  else .ok ⟨A.ws ++ B.ws⟩

/-- physics/wires.py:664-672 `__sub__`. -/
def Wires.sub (A B : Wires) : Wires := ⟨A.ws.filter (fun w => w.mode ∉ B.modes)⟩

/-- physics/wires.py:520-529 `overlap`, returns (bra, ket). -/
def Wires.overlap (A B : Wires) : List Int × List Int :=
  (A.output.bra.modes.filter (· ∈ B.input.bra.modes),
   A.output.ket.modes.filter (· ∈ B.input.ket.modes))

/-- physics/wires.py:475-486 `contracted_indices`. -/
def Wires.contractedIndices (A B : Wires) : List Nat × List Nat :=
  let o := A.overlap B
  ((A.output.bra.getModes o.1).indices ++ (A.output.ket.getModes o.2).indices,
   (B.input.bra.getModes o.1).indices ++ (B.input.ket.getModes o.2).indices)

/-- `combined.index(w)`: physics/wires.py:651, Python's `list.index`. -/
def indexOf : List Wire → Wire → Except Err Nat
  | [], _ => .error .valueError
  | v :: l, w => do
      if ← v.pyEq w then pure 0
      else return (← indexOf l w) + 1

/-- The list `combined` of physics/wires.py:648-650. -/
def combined (A B R : Wires) : List Wire :=
  A.sortedWires.filter (fun w => w.id ∈ R.ids) ++ B.sortedWires.filter (fun w => w.id ∈ R.ids)

/-- The wires part of physics/wires.py:594-646 `__matmul__`. -/
def matmulWires (A B : Wires) : Except Err Wires := do
  let braOut ← (B.output.bra).add (A.output.bra.sub B.input.bra)
  let ketOut ← (B.output.ket).add (A.output.ket.sub B.input.ket)
  let braIn ← (A.input.bra).add (B.input.bra.sub A.output.bra)
  let ketIn ← (A.input.ket).add (B.input.ket.sub A.output.ket)
  let clOut ← (B.classical.output).add (A.classical.output.sub B.classical.input)
  let clIn ← (A.classical.input).add (B.classical.input.sub A.classical.output)
  return Wires.reindex ⟨setOf (braOut.sortedWires ++ braIn.sortedWires ++ ketOut.sortedWires ++
      ketIn.sortedWires ++ clOut.sortedWires ++ clIn.sortedWires)⟩

/-- physics/wires.py:594-652 `__matmul__`: new wires and permutation. -/
def matmul (A B : Wires) : Except Err (Wires × List Nat) := do
  let R ← matmulWires A B
  let perm ← R.sortedWires.mapM (indexOf (combined A B R))
  return (R, perm)

end Verif.WireModel
