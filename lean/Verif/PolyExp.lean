import Verif.HermPull
import Verif.Batch
import Mathlib.Analysis.SpecialFunctions.Exp

/-!
# Model of `PolyExpAnsatz`: data, evaluation, algebra

Exact complex arithmetic.  An array is a shape together with a function of its index.  Simplifications common to
the whole file: `c` is stored itself rather than through its logarithm (`join_Abc` multiplies by adding
logarithms and exponentiating), and dtype casts are dropped.
-/

namespace Verif.PolyExp
open Verif.Fock Verif.Batch

/-- physics/ansatz/polyexp_ansatz.py:107-128: the data of an ansatz.  `A β i j`, `b β i`, `c β k` are the entries at batch
index `β`; `N = A.shape[-1]`; `derived = c.shape[batch_dims:]`. -/
structure PolyExp where
  batch : List ℕ
  linSup : Bool
  N : ℕ
  A : List ℕ → ℕ → ℕ → ℂ
  b : List ℕ → ℕ → ℂ
  derived : List ℕ
  c : List ℕ → List ℕ → ℂ

/-- physics/ansatz/polyexp_ansatz.py:107-128 with physics/utils.py:110-134 `verify_batch_triple`: `c` comes as one array of
shape `cshape`, whose first axes must be the batch axes.  Simplification: a 0-dimensional `c` with a batched `A`
(which the check lets through) is not modelled. -/
def init (batch : List ℕ) (linSup : Bool) (N : ℕ) (A : List ℕ → ℕ → ℕ → ℂ) (b : List ℕ → ℕ → ℂ)
    (cshape : List ℕ) (cdata : List ℕ → ℂ) : Option PolyExp :=
  if cshape.take batch.length = batch then
    some ⟨batch, linSup, N, A, b, cshape.drop batch.length, fun β k => cdata (β ++ k)⟩
  else none

namespace PolyExp

/-- physics/ansatz/polyexp_ansatz.py:183-196: `num_CV_vars`, `core_dims`. -/
def numCV (f : PolyExp) : ℕ := f.N - f.derived.length

/-- States produced by the constructor with sensible arguments: the derived variables are among the variables and
a superposition has an axis to sum over. -/
structure WF (f : PolyExp) : Prop where
  der : f.derived.length ≤ f.N
  ls : f.linSup = true → f.batch ≠ []

end PolyExp

/-- Sum over all multi-indices of a shape (an einsum over the axes). -/
noncomputable def nsum (shape : List ℕ) (F : List ℕ → ℂ) : ℂ := ((ndindex shape).map F).sum

/-- physics/ansatz/polyexp_ansatz.py:629-665 and 617-627: the value of one term at one point: the exponential part times
`∑_k c_k poly_k`, where `poly = hermite_renormalized(A[n:,n:], A[:n,n:]ᵀ z + b[n:], 1)` (by C19 this is `amp`).
Without derived variables the sum is just `c`. -/
noncomputable def termVal (n : ℕ) (derived : List ℕ) (A : ℕ → ℕ → ℂ) (b : ℕ → ℂ) (c : List ℕ → ℂ) (z : ℕ → ℂ) : ℂ :=
  Complex.exp (1 / 2 * ∑ i ∈ Finset.range n, ∑ j ∈ Finset.range n, z i * z j * A i j +
      ∑ i ∈ Finset.range n, z i * b i) *
    nsum derived fun k => c k * amp derived.length (fun i j => A (n + i) (n + j))
      (fun j => ∑ a ∈ Finset.range n, A a (n + j) * z a + b (n + j)) 1 (toF k)

namespace PolyExp

/-- Value of the term at full batch index `β`. -/
noncomputable def termAt (f : PolyExp) (β : List ℕ) (z : ℕ → ℂ) : ℂ :=
  termVal f.numCV f.derived (f.A β) (f.b β) (f.c β) z

/-- Batch shape of the value: the superposition axis (the last one) is summed. -/
def outBatch (f : PolyExp) : List ℕ := if f.linSup then f.batch.dropLast else f.batch

/-- physics/ansatz/polyexp_ansatz.py:921-973 `__call__` at one point `z`, at output batch index `β`: the value of the term, summed over
the last batch axis for a linear superposition. -/
noncomputable def call (f : PolyExp) (β : List ℕ) (z : ℕ → ℂ) : ℂ :=
  if f.linSup then ∑ l ∈ Finset.range (f.batch.getLastD 0), f.termAt (β ++ [l]) z else f.termAt β z

/-- physics/ansatz/polyexp_ansatz.py:986-990 `__mul__` by a number. -/
noncomputable def mul (f : PolyExp) (a : ℂ) : PolyExp := { f with c := fun β k => f.c β k * a }
/-- physics/ansatz/polyexp_ansatz.py:1034-1037 `__truediv__` by a number. -/
noncomputable def div (f : PolyExp) (a : ℂ) : PolyExp := { f with c := fun β k => f.c β k / a }
/-- physics/ansatz/polyexp_ansatz.py:998-999 `__neg__`. -/
noncomputable def neg (f : PolyExp) : PolyExp := { f with c := fun β k => -f.c β k }
/-- physics/ansatz/polyexp_ansatz.py:168-174 `conj`. -/
noncomputable def conj (f : PolyExp) : PolyExp :=
  { f with A := fun β i j => (starRingEnd ℂ) (f.A β i j), b := fun β i => (starRingEnd ℂ) (f.b β i),
           c := fun β k => (starRingEnd ℂ) (f.c β k) }

/-- physics/ansatz/polyexp_ansatz.py:521-535 `reorder`: gather rows and columns by `order` followed by the derived variables. -/
def reorder (f : PolyExp) (order : List ℕ) : Option PolyExp :=
  if order.length ≠ f.numCV then none
  else
    let full := order ++ List.range' f.numCV f.derived.length
    some { f with A := fun β i j => f.A β (full.getD i 0) (full.getD j 0), b := fun β i => f.b β (full.getD i 0) }

/-- physics/ansatz/polyexp_ansatz.py:750-821 `_partial_eval`: the variables at positions `e` are fixed to the values `z ζ`, for every
index `ζ` of the batch `zb` of points.  (`none`: all variables would be fixed.) -/
noncomputable def partialEval (f : PolyExp) (zb : List ℕ) (z : List ℕ → ℕ → ℂ) (e : List ℕ) : Option PolyExp :=
  if e.length ≥ f.numCV then none
  else
    let r := (List.range f.numCV).filter (· ∉ e)
    let d := List.range' f.numCV f.derived.length
    let rd := r ++ d
    let zv (β : List ℕ) : ℕ → ℂ := z (β.take zb.length)
    let fb (β : List ℕ) : List ℕ := β.drop zb.length
    some
      { batch := zb ++ f.batch
        linSup := f.linSup
        N := rd.length
        A := fun β i j => f.A (fb β) (rd.getD i 0) (rd.getD j 0)
        b := fun β i => f.b (fb β) (rd.getD i 0) +
          ∑ x ∈ Finset.range e.length, f.A (fb β) (e.getD x 0) (rd.getD i 0) * zv β x
        derived := f.derived
        c := fun β k =>
          Complex.exp (1 / 2 * ∑ x ∈ Finset.range e.length, ∑ y ∈ Finset.range e.length,
                zv β x * zv β y * f.A (fb β) (e.getD x 0) (e.getD y 0) +
              ∑ x ∈ Finset.range e.length, zv β x * f.b (fb β) (e.getD x 0)) * f.c (fb β) k }

end PolyExp

/-- Is the multi-index inside the shape? -/
def inb : List ℕ → List ℕ → Bool
  | [], [] => true
  | k :: ks, n :: s => decide (k < n) && inb ks s
  | _, _ => false

/-- `c` of an ansatz as one array with the superposition axis first
(physics/ansatz/polyexp_ansatz.py:854-859: `expand_dims(axis=0)` unless there is one batch axis). -/
def PolyExp.lead (f : PolyExp) : ℕ := if f.batch.length = 1 then f.batch.getD 0 0 else 1
/-- Batch index in the original ansatz of position `l` of the leading axis. -/
def PolyExp.unlead (f : PolyExp) (l : ℕ) : List ℕ := if f.batch.length = 1 then [l] else []

/-- math/backend_numpy.py:86-87 `atleast_nd`: axes of size one are *prepended*. -/
def atleastNd (n : ℕ) (s : List ℕ) : List ℕ := List.replicate (n - s.length) 1 ++ s

/-- physics/ansatz/polyexp_ansatz.py:854-856: the stacked `A` of one summand, zero-padded (861-869). -/
def PolyExp.padA (f : PolyExp) (l i j : ℕ) : ℂ := if i < f.N ∧ j < f.N then f.A (f.unlead l) i j else 0
/-- The same for `b`. -/
def PolyExp.padB (f : PolyExp) (l i : ℕ) : ℂ := if i < f.N then f.b (f.unlead l) i else 0
/-- physics/ansatz/polyexp_ansatz.py:881-884: the shape of `atleast_nd(c, nd + 1)`. -/
def PolyExp.cShape (f : PolyExp) (nd : ℕ) : List ℕ := atleastNd (nd + 1) (f.lead :: f.derived)
/-- The entries of `atleast_nd(c, nd + 1)`: the prepended axes are ignored; zero-padded outside its own shape
(861-869; the first axis is not padded). -/
def PolyExp.padC (f : PolyExp) (nd : ℕ) (idx : List ℕ) : ℂ :=
  if inb idx.tail (f.cShape nd).tail then
    match idx.drop (nd - f.derived.length) with
    | l :: k => f.c (f.unlead l) k
    | [] => 0
  else 0

/-- physics/ansatz/polyexp_ansatz.py:836-892 `__add__`.
Simplification: superpositions with more than one batch axis (accepted by the
code, stacked along a new axis) are not modelled and return `none` here. -/
noncomputable def PolyExp.add (f g : PolyExp) : Option PolyExp :=
  if f.numCV ≠ g.numCV then none
  else if (f.batch ≠ [] ∧ ¬ f.linSup) ∨ (g.batch ≠ [] ∧ ¬ g.linSup) then none
  else if f.batch.length > 1 ∨ g.batch.length > 1 then none
  else
    let nd := max f.derived.length g.derived.length
    let s1 := f.cShape nd
    let s2 := g.cShape nd
    init [f.lead + g.lead] true (max f.N g.N)
      (fun β => if β.getD 0 0 < f.lead then f.padA (β.getD 0 0) else g.padA (β.getD 0 0 - f.lead))
      (fun β => if β.getD 0 0 < f.lead then f.padB (β.getD 0 0) else g.padB (β.getD 0 0 - f.lead))
      ((s1.getD 0 0 + s2.getD 0 0) :: List.zipWith max s1.tail s2.tail)
      (fun idx => if idx.getD 0 0 < s1.getD 0 0 then f.padC nd idx
        else g.padC nd ((idx.getD 0 0 - s1.getD 0 0) :: idx.tail))

/-! ## Lemmas on sums and evaluation -/

theorem nsum_nil (F) : nsum [] F = F [] := by simp [nsum, ndindex]

theorem nsum_cons (n s F) : nsum (n :: s) F = ∑ k ∈ Finset.range n, nsum s (fun ks => F (k :: ks)) := by
  unfold nsum
  simp only [ndindex, List.map_flatMap, List.map_map]
  induction n with
  | zero => simp
  | succ n ih => rw [List.range_succ, List.flatMap_append, List.sum_append, ih, Finset.sum_range_succ]; simp [Function.comp_def]

theorem mem_ndindex {s k : List ℕ} : k ∈ ndindex s ↔ InB s k := by
  induction s generalizing k with
  | nil => simp [ndindex, InB]
  | cons n s ih =>
    simp only [ndindex, List.mem_flatMap, List.mem_range, List.mem_map, InB]
    constructor
    · rintro ⟨a, ha, ks, hks, rfl⟩
      exact List.Forall₂.cons ha (ih.1 hks)
    · intro h
      cases h with
      | cons h1 h2 => exact ⟨_, h1, _, ih.2 h2, rfl⟩

theorem nsum_congr {s F G} (h : ∀ k, InB s k → F k = G k) : nsum s F = nsum s G := by
  unfold nsum
  congr 1
  exact List.map_congr_left fun k hk => h k (mem_ndindex.1 hk)

theorem nsum_mul_left (s F) (a : ℂ) : nsum s (fun k => a * F k) = a * nsum s F := by
  unfold nsum; rw [List.sum_map_mul_left]

theorem nsum_mul_right (s F) (a : ℂ) : nsum s (fun k => F k * a) = nsum s F * a := by
  unfold nsum; rw [List.sum_map_mul_right]

theorem nsum_append (s t F) : nsum (s ++ t) F = nsum s (fun k => nsum t (fun l => F (k ++ l))) := by
  induction s generalizing F with
  | nil => rw [List.nil_append, nsum_nil]; rfl
  | cons n s ih => rw [List.cons_append, nsum_cons, nsum_cons]; simp only [ih, List.cons_append]

theorem inb_iff {k s : List ℕ} : inb k s = true ↔ InB s k := by
  induction s generalizing k with
  | nil => cases k <;> simp [inb, InB]
  | cons n s ih =>
    cases k with
    | nil => simp [inb, InB]
    | cons a ks => simp [inb, InB, List.forall₂_cons] at ih ⊢; intro _; exact ih

theorem nsum_pad {s t : List ℕ} (h : List.Forall₂ (· ≤ ·) s t) (F : List ℕ → ℂ) :
    nsum t (fun k => if inb k s then F k else 0) = nsum s F := by
  induction h generalizing F with
  | nil => simp [nsum_nil, inb]
  | @cons a b s t hab _ ih =>
    rw [nsum_cons, nsum_cons, ← Finset.sum_subset (Finset.range_subset_range.2 hab)]
    · apply Finset.sum_congr rfl
      intro k hk
      have hk := Finset.mem_range.1 hk
      rw [← ih]
      simp [inb, hk]
    · intro k _ hk
      rw [Finset.mem_range] at hk
      simp [inb, hk, nsum]

theorem termVal_congr {n d A A' b b' c c' z z'} (hA : ∀ i < n + d.length, ∀ j < n + d.length, A i j = A' i j)
    (hb : ∀ i < n + d.length, b i = b' i) (hc : ∀ k, InB d k → c k = c' k) (hz : ∀ i < n, z i = z' i) :
    termVal n d A b c z = termVal n d A' b' c' z' := by
  have e1 : ∑ i ∈ Finset.range n, ∑ j ∈ Finset.range n, z i * z j * A i j =
      ∑ i ∈ Finset.range n, ∑ j ∈ Finset.range n, z' i * z' j * A' i j := by
    refine Finset.sum_congr rfl fun i hi => Finset.sum_congr rfl fun j hj => ?_
    have hi := Finset.mem_range.1 hi
    have hj := Finset.mem_range.1 hj
    rw [hz i hi, hz j hj, hA i (by omega) j (by omega)]
  have e2 : ∑ i ∈ Finset.range n, z i * b i = ∑ i ∈ Finset.range n, z' i * b' i := by
    refine Finset.sum_congr rfl fun i hi => ?_
    have hi := Finset.mem_range.1 hi
    rw [hz i hi, hb i (by omega)]
  unfold termVal
  rw [e1, e2]
  refine congrArg (HMul.hMul _) ?_
  apply nsum_congr
  intro k hk
  rw [hc k hk]
  refine congrArg (HMul.hMul _) ?_
  apply amp_congr
  · intro i hi j hj; exact hA _ (by omega) _ (by omega)
  · intro j hj
    rw [hb _ (by omega)]
    congr 1
    refine Finset.sum_congr rfl fun i hi => ?_
    have hi := Finset.mem_range.1 hi
    rw [hz i hi, hA i (by omega) _ (by omega)]

theorem termVal_smul (n d A b c z) (a : ℂ) : termVal n d A b (fun k => a * c k) z = a * termVal n d A b c z := by
  unfold termVal
  simp only [mul_assoc]
  rw [nsum_mul_left]; ring

end Verif.PolyExp
