import Verif.AmpRename
import Mathlib.Data.List.Basic

/-!
# The fast diagonal strategy: model (math/lattice/strategies/fast_diagonal.py, property C42)
-/

namespace Verif.FastDiag
open Verif.Fock

/-- A matrix of shape `(output_cutoff + 1, output_cutoff + 1)`; entries outside the shape are not
represented. -/
abbrev Mat := ℕ → ℕ → ℂ

/-- A Python dictionary from coordinates to matrices. -/
abbrev Dict := List ℕ → Option Mat

/-- fast_diagonal.py 141-151 `generate_partitions`. -/
def genPart : ℕ → List ℕ → List (List ℕ)
  | _, [] => []
  | w, [m] => if w ≤ m then [[w]] else []
  | w, m :: m' :: ms =>
    ((List.range (min w m + 1)).reverse).flatMap fun first =>
      (genPart (w - first) (m' :: ms)).map (first :: ·)

/-- `itertools.product(*options)`. -/
def prodL {α : Type} : List (List α) → List (List α)
  | [] => [[]]
  | l :: ls => l.flatMap fun x => (prodL ls).map (x :: ·)

/-- fast_diagonal.py 174-184: the pairs with sum `s` that differ by two. -/
def delta2 (s maxVal : ℕ) : List (ℕ × ℕ) :=
  if s % 2 = 0 then
    (if 1 ≤ s / 2 ∧ s / 2 + 1 ≤ maxVal then [(s / 2 - 1, s / 2 + 1), (s / 2 + 1, s / 2 - 1)] else [])
  else []

/-- fast_diagonal.py 174-184: the pairs with sum `s` that differ by less than two. -/
def nonDelta2 (s maxVal : ℕ) : List (ℕ × ℕ) :=
  if s % 2 = 0 then (if s / 2 ≤ maxVal then [(s / 2, s / 2)] else [])
  else (if s / 2 + 1 ≤ maxVal then [(s / 2, s / 2 + 1), (s / 2 + 1, s / 2)] else [])

/-- `tuple(num for pair in combo for num in pair)` (fast_diagonal.py 193, 197). -/
def flat (ps : List (ℕ × ℕ)) : List ℕ := ps.flatMap fun p => [p.1, p.2]

/-- fast_diagonal.py 154-200 `enumerate_diagonal_coords` (its `functools.cache` is not modelled: the
function reads nothing but its arguments and its result is only iterated over). -/
def enumCoords (weight : ℕ) (m : List ℕ) : List (List ℕ) :=
  (genPart weight (m.map (2 * ·))).flatMap fun part =>
    ((List.range m.length).flatMap fun i =>
      (prodL ((List.zipWith nonDelta2 part m).take i ++ [(List.zipWith delta2 part m).getD i []]
        ++ (List.zipWith nonDelta2 part m).drop (i + 1))).map flat)
    ++ (prodL (List.zipWith nonDelta2 part m)).map flat

/-- `np.argmax`: the first position of the largest entry. -/
def argmax (l : List ℕ) : ℕ := l.findIdx fun x => x = l.foldr max 0

/-- fast_diagonal.py 90-92: absolute differences of the pairs. -/
def dl (k : List ℕ) (m : ℕ) : ℕ := ((k.getD (2 * m) 0 : ℤ) - (k.getD (2 * m + 1) 0 : ℤ)).natAbs

/-- fast_diagonal.py 127-138 `lower`. -/
def lower (k : List ℕ) (j : ℕ) : List ℕ := k.set j (k.getD j 0 - 1)

/-- fast_diagonal.py 80-99 `get_pivot`. -/
def getPivot (k : List ℕ) : ℕ × List ℕ :=
  let m := argmax ((List.range (k.length / 2)).map (dl k))
  if dl k m = 0 then (argmax k, lower k (argmax k))
  else if k.getD (2 * m + 1) 0 < k.getD (2 * m) 0 then (2 * m, lower k (2 * m))
  else (2 * m + 1, lower k (2 * m + 1))

/-- fast_diagonal.py 121-123: the sum over the lowered pivots; a missing key is an error. -/
noncomputable def lowSum (A : ℕ → ℕ → ℂ) (buf2 : Dict) (i : ℕ) (pivot : List ℕ) :
    List ℕ → Mat → Option Mat
  | [], val => some val
  | j :: js, val =>
    if 0 < pivot.getD j 0 then
      (buf2 (lower pivot j)).bind fun mat =>
        lowSum A buf2 i pivot js fun r s =>
          val r s + A (i + 2) (j + 2) * Fock.sq (pivot.getD j 0) * mat r s
    else lowSum A buf2 i pivot js val

/-- fast_diagonal.py 102-124 `single_step`.  The slices `val[1:, :] += … mat[:-1]` add to the entry
`(r, s)` with `r ≥ 1` the entry `(r - 1, s)`. -/
noncomputable def singleStep (A : ℕ → ℕ → ℂ) (b : ℕ → ℂ) (buf1 buf2 : Dict) (i : ℕ) (pivot : List ℕ) :
    Option Mat :=
  (buf1 pivot).bind fun mat =>
    (lowSum A buf2 i pivot (List.range pivot.length) fun r s =>
      b (i + 2) * mat r s
        + (if 1 ≤ r then A (i + 2) 0 * Fock.sq r * mat (r - 1) s else 0)
        + (if 1 ≤ s then A (i + 2) 1 * Fock.sq s * mat r (s - 1) else 0)).map
      fun val => fun r s => val r s / Fock.sq (pivot.getD i 0 + 1)

/-- fast_diagonal.py 71-73: fill the new buffer. -/
noncomputable def fill (A : ℕ → ℕ → ℂ) (b : ℕ → ℂ) (buf1 buf2 : Dict) : List (List ℕ) → Dict → Option Dict
  | [], d => some d
  | w :: ws, d =>
    (singleStep A b buf1 buf2 (getPivot w).1 (getPivot w).2).bind fun mat =>
      fill A b buf1 buf2 ws (Function.update d w (some mat))

/-- `tuple(i for p in partition for i in (p, p))` (fast_diagonal.py 76). -/
def dup (p : List ℕ) : List ℕ := p.flatMap fun x => [x, x]

/-- fast_diagonal.py 75-76: copy the diagonal entries to the output. -/
noncomputable def emit (buf0 : Dict) : List (List ℕ) → (List ℕ → Mat) → Option (List ℕ → Mat)
  | [], out => some out
  | p :: ps, out => (buf0 (dup p)).bind fun mat => emit buf0 ps (Function.update out p mat)

/-- fast_diagonal.py 68-76: the loop over the weights, with `buffer_1`, `buffer_0` and the output.
Without detectors `generate_partitions` fails: it reads `m[0]` of an empty tuple (147). -/
noncomputable def weights (A : ℕ → ℕ → ℂ) (b : ℕ → ℂ) (pnr : List ℕ) :
    List ℕ → Dict → Dict → (List ℕ → Mat) → Option (List ℕ → Mat)
  | [], _, _, out => some out
  | w :: ws, buf1, buf0, out =>
    if pnr = [] then none else
    (fill A b buf0 buf1 (enumCoords w pnr) (fun _ => none)).bind fun new =>
      (if w % 2 = 0 then emit new (genPart (w / 2) pnr) out else some out).bind fun out' =>
        weights A b pnr ws buf0 new out'

/-- fast_diagonal.py 56: the permutation that interleaves the two halves. -/
def perm (L i : ℕ) : ℕ := if i % 2 = 0 then i / 2 else i / 2 + L

/-- fast_diagonal.py 32-77 `fast_diagonal`: the block of the outcome `p` is `out p`. The output is
initialised with zeros. `stab` is the argument `stable`. -/
noncomputable def fastDiagonal (A : ℕ → ℕ → ℂ) (b : ℕ → ℂ) (c : ℂ) (oc : ℕ) (pnr : List ℕ) (stab : Bool) :
    Option (List ℕ → Mat) :=
  let L := pnr.length + 1
  let A' := fun i j => A (perm L i) (perm L j)
  let b' := fun i => b (perm L i)
  let G := (if stab then stable else vanilla) [oc + 1, oc + 1] A' b' c
    (List.replicate ((oc + 1) * (oc + 1)) 0)
  let first : Mat := fun r s => G.getD (ravel [oc + 1, oc + 1] [r, s]) 0
  let zero := List.replicate (L - 1) 0
  weights A' b' pnr (List.range' 1 (2 * oc + 2 * pnr.sum - L - 1))
    (fun _ => none) (Function.update (fun _ => none) (dup zero) (some first))
    (Function.update (fun _ => fun _ _ => 0) zero first)

end Verif.FastDiag
