import Verif.CGIProps
import Mathlib.Data.List.Sort
import Mathlib.Data.List.Dedup

/-!
# `PolyExpAnsatz.contract` (property C16): model

Batch labels (strings) and core labels (integers) are natural numbers.  The two labels `"__ls1"` and `"__ls2"` that the code
adds for the superposition axes are 0 and 1; the user's batch labels are shifted by two so that they cannot clash.
-/

namespace Verif.PolyExp
open Verif.Fock Verif.Batch Verif.Gauss PolyExp

/-- physics/ansatz/polyexp_ansatz.py:345: the batch labels of an operand. -/
def opLabels (b : List ℕ) (ls : Bool) (l : ℕ) : List ℕ := b.map (· + 2) ++ if ls then [l] else []

/-- physics/ansatz/polyexp_ansatz.py:349-353: the batch labels of the output. -/
def outLabels (bo : List ℕ) (ls1 ls2 : Bool) : List ℕ :=
  bo.map (· + 2) ++ ((if ls1 then [0] else []) ++ if ls2 then [1] else [])

/-- physics/ansatz/polyexp_ansatz.py:380: the core labels present in both operands (a set; the order is that of the first operand). -/
def shared (c1 c2 : List ℕ) : List ℕ := (c1.filter (· ∈ c2)).dedup

/-- physics/ansatz/polyexp_ansatz.py:410: the core labels that survive. -/
def leftover (c1 c2 : List ℕ) : List ℕ := (c1 ++ c2).filter (· ∉ shared c1 c2)

/-- physics/ansatz/polyexp_ansatz.py:381, 382: sorted positions of the shared labels in an operand. -/
def sharedPos (c S : List ℕ) : List ℕ := (S.map c.idxOf).insertionSort (· ≤ ·)

/-- physics/ansatz/polyexp_ansatz.py:356-377: the checks on the labels. -/
def labelsOk (f g : PolyExp) (b1 c1 b2 c2 bo co : List ℕ) : Prop :=
  b1.length = f.outBatch.length ∧ b2.length = g.outBatch.length ∧ c1.length = f.numCV ∧ c2.length = g.numCV ∧
  bo.length = (b1 ++ b2).dedup.length ∧
  co.length = (c1.filter (· ∉ c2) ++ c2.filter (· ∉ c1)).dedup.length ∧
  ∀ l ∈ co, l ∉ shared c1 c2

/-- The result of `join_Abc` as an ansatz. -/
def Joined.toPolyExp (J : Joined) (ls : Bool) (derived : List ℕ) : PolyExp :=
  ⟨J.batch, ls, J.N, J.A, J.b, derived, fun β k => J.c (β ++ k)⟩

/-- physics/ansatz/polyexp_ansatz.py:402-407: when both operands are superpositions the arrays are reshaped to the batch shape of the
*first* operand with the two superposition axes merged, and `c` gets the derived axes of the *first* operand only.
`none`: the sizes do not match. -/
def mergeLs (f g r : PolyExp) : Option PolyExp :=
  let nb := f.batch.dropLast ++ [f.batch.getLastD 0 * g.batch.getLastD 0]
  if nb.prod * (r.N * r.N) = r.batch.prod * (r.N * r.N) ∧ nb.prod * r.N = r.batch.prod * r.N ∧
      (nb ++ f.derived).prod = (r.batch ++ r.derived).prod then
    some
      { batch := nb
        linSup := true
        N := r.N
        A := fun β => r.A (unravel r.batch (ravel nb β))
        b := fun β => r.b (unravel r.batch (ravel nb β))
        derived := f.derived
        c := fun β k =>
          let idx := unravel (r.batch ++ r.derived) (ravel (nb ++ f.derived) (β ++ k))
          r.c (idx.take r.batch.length) (idx.drop r.batch.length) }
  else none

/-- physics/ansatz/polyexp_ansatz.py:306-413 `contract`, with physics/gaussian_integrals.py:507-554 `complex_gaussian_integral_2`
(`join_Abc`, shift of the second index list, `complex_gaussian_integral_1` with measure −1).  `b1`, `b2`, `bo` are the batch labels and `c1`, `c2`, `co` the
core labels of `idx1`, `idx2`, `idx_out`.  Simplification: when the integral is infinite, errors of the later reshape and
reorder are not modelled. -/
noncomputable def PolyExp.contract (f g : PolyExp) (b1 c1 b2 c2 bo co : List ℕ) : Option Res :=
  open Classical in
  if ¬ labelsOk f g b1 c1 b2 c2 bo co then none
  else
    let S := shared c1 c2
    match joinAbc f g (opLabels b1 f.linSup 0) (opLabels b2 g.linSup 1) (outLabels bo f.linSup g.linSup) with
    | none => none
    | some J =>
      match cgi1 (J.toPolyExp (f.linSup || g.linSup) (f.derived ++ g.derived)) (sharedPos c1 S)
          ((sharedPos c2 S).map (f.numCV + ·)) (-1) with
      | none => none
      | some .infinite => some .infinite
      | some (.finite r) =>
        match (if f.linSup ∧ g.linSup then mergeLs f g r else some r) with
        | none => none
        | some r' =>
          if ∀ l ∈ co, l ∈ leftover c1 c2 then
            match r'.reorder (co.map (leftover c1 c2).idxOf) with
            | none => none
            | some h => some (.finite h)
          else none

/-! ### Specification -/

/-- The value given to the variable at position `p` of an operand with core labels `c`: the integration variable `w` of its label if the
label is among the contracted labels `S`, otherwise the coordinate of `y` with that label in the output. -/
def atLabel (c S : List ℕ) (w : ℕ → ℂ) (co : List ℕ) (y : ℕ → ℂ) (p : ℕ) : ℂ :=
  if c.getD p 0 ∈ S then w (S.idxOf (c.getD p 0)) else y (co.idxOf (c.getD p 0))

/-- A finite vector as a sequence. -/
def padFin {m : ℕ} (w : Fin m → ℂ) (i : ℕ) : ℂ := if h : i < m then w ⟨i, h⟩ else 0

/-- The quadratic part of the exponent of a term. -/
noncomputable def PolyExp.quad (f : PolyExp) (β : List ℕ) (z : ℕ → ℂ) : ℂ :=
  1 / 2 * ∑ i ∈ Finset.range f.numCV, ∑ j ∈ Finset.range f.numCV, z i * z j * f.A β i j

/-- The integral of the product of the two terms over the shared variables converges absolutely (Bargmann measure). -/
def PairConv (f : PolyExp) (β1 : List ℕ) (g : PolyExp) (β2 : List ℕ) (c1 c2 S : List ℕ) : Prop :=
  ∀ w : Fin S.length → ℂ, w ≠ 0 →
    (f.quad β1 (atLabel c1 S (padFin w) [] 0) + g.quad β2 (atLabel c2 S (padFin fun i => (starRingEnd ℂ) (w i)) [] 0)).re < ∑ i, ‖w i‖ ^ 2

end Verif.PolyExp
