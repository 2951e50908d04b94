import Verif.Vanilla
import Mathlib.Data.List.Flatten

/-! # Lattice paths and pivots (C21, C25) -/

namespace Verif.Fock

/-- math/lattice/paths.py:23-52 `_binomial_subspace_basis`, returning the elements it appends.
`tuple_setitem(t, i, v)` is `List.set`.  (The loop variable `basis_element` is rebound on each iteration, but
only at position `mode`, which the next iteration overwrites.) -/
def bsb (cutoffs : List ℕ) (weight mode : ℕ) (elem : List ℕ) : List (List ℕ) :=
  if h : cutoffs.length ≤ mode then (if weight = 0 then [elem] else [])
  else (List.range (cutoffs[mode]'(by omega))).flatMap fun (photons : ℕ) =>
    if (weight : ℤ) - (photons : ℤ) ≥ 0 then bsb cutoffs (weight - photons) (mode + 1) (elem.set mode photons)
    else []
  termination_by cutoffs.length - mode

/-- math/lattice/paths.py:57-72 `binomial_subspace_basis`: the dummy first element is removed again. -/
def binomialSubspaceBasis (cutoffs : List ℕ) (weight : ℕ) : List (List ℕ) :=
  (cutoffs :: bsb cutoffs weight 0 cutoffs).drop 1

theorem bsb_eq (cutoffs : List ℕ) (weight mode : ℕ) (elem : List ℕ) (hm : mode ≤ cutoffs.length)
    (he : elem.length = cutoffs.length) :
    bsb cutoffs weight mode elem =
      ((ndindex (cutoffs.drop mode)).filter (fun t => t.sum = weight)).map (elem.take mode ++ ·) := by
  induction hk : cutoffs.length - mode generalizing weight mode elem with
  | zero =>
    have : mode = cutoffs.length := by omega
    subst this
    rw [bsb, dif_pos le_rfl]
    have h1 : elem.take cutoffs.length = elem := List.take_of_length_le (by omega)
    by_cases h : weight = 0
    · subst h; simp [ndindex, h1]
    · simp [ndindex, h, Ne.symm h]
  | succ k ih =>
    have hlt : mode < cutoffs.length := by omega
    rw [bsb, dif_neg (by omega), List.drop_eq_getElem_cons hlt, ndindex, List.filter_flatMap, List.map_flatMap]
    congr 1
    funext p
    by_cases hp : p ≤ weight
    · rw [if_pos (by omega), ih (weight - p) (mode + 1) (elem.set mode p) (by omega) (by simpa using he) (by omega)]
      rw [List.filter_map, List.map_map]
      have e1 : ((fun t : List ℕ => decide (t.sum = weight)) ∘ fun x => p :: x) =
          fun t => decide (t.sum = weight - p) := by
        funext t
        simp only [Function.comp, List.sum_cons]
        congr 1
        apply propext; omega
      rw [e1]
      apply List.map_congr_left
      intro t _
      simp only [Function.comp]
      rw [List.take_add_one, List.getElem?_set_self (by omega), List.take_set]
      simp [List.set_eq_of_length_le]
    · rw [if_neg (by omega)]
      symm
      rw [List.map_eq_nil_iff, List.filter_eq_nil_iff]
      intro t ht
      obtain ⟨u, _, rfl⟩ := List.mem_map.1 ht
      simp only [List.sum_cons, decide_eq_true_eq]
      intro e
      have : p + u.sum = weight := of_decide_eq_true e
      omega

theorem mem_ndindex {shape idx : List ℕ} : idx ∈ ndindex shape ↔ InB shape idx := by
  induction shape generalizing idx with
  | nil => simp [ndindex, InB]
  | cons n s ih =>
    simp only [ndindex, List.mem_flatMap, List.mem_range, List.mem_map]
    constructor
    · rintro ⟨k, hk, t, ht, rfl⟩
      exact List.Forall₂.cons hk (ih.1 ht)
    · intro h
      cases h with
      | @cons k _ t _ hk ht => exact ⟨k, hk, t, ih.2 ht, rfl⟩

theorem nodup_ndindex (shape : List ℕ) : (ndindex shape).Nodup := by
  induction shape with
  | nil => simp [ndindex]
  | cons n s ih =>
    simp only [ndindex]
    rw [List.nodup_flatMap]
    refine ⟨fun k _ => ih.map (fun a b h => by simpa using h), ?_⟩
    refine List.nodup_range.imp ?_
    intro a b hab
    simp only [Function.onFun, List.disjoint_left, List.mem_map]
    rintro _ ⟨t, _, rfl⟩ ⟨u, _, e⟩
    simp at e
    exact hab e.1.symm

/-- **C21** `binomial_subspace_basis(cutoffs, weight)` lists, in lexicographic order and without repetition,
exactly the multi-indices below the cutoffs whose entries sum to `weight`. -/
theorem C21_subspace_basis (cutoffs : List ℕ) (weight : ℕ) :
    binomialSubspaceBasis cutoffs weight = (ndindex cutoffs).filter (fun t => t.sum = weight) ∧
    (binomialSubspaceBasis cutoffs weight).Nodup ∧
    ∀ idx, idx ∈ binomialSubspaceBasis cutoffs weight ↔ InB cutoffs idx ∧ idx.sum = weight := by
  have e : binomialSubspaceBasis cutoffs weight = (ndindex cutoffs).filter (fun t => t.sum = weight) := by
    unfold binomialSubspaceBasis
    rw [List.drop_one, List.tail_cons, bsb_eq cutoffs weight 0 cutoffs (by omega) rfl]
    simp
  refine ⟨e, ?_, ?_⟩
  · rw [e]; exact (nodup_ndindex _).filter _
  · intro idx; rw [e, List.mem_filter, mem_ndindex]; simp

example : binomialSubspaceBasis [3, 2, 2] 2 = [[0, 1, 1], [1, 0, 1], [1, 1, 0], [2, 0, 0]] := by
  rw [(C21_subspace_basis _ _).1]; decide

/-! ## Pivots and neighbours -/

/-- math/lattice/pivots.py:20-34 `first_available_pivot`; `none` is the `ValueError`. -/
def firstAvailablePivot (index : List ℕ) : Option (ℕ × List ℕ) :=
  match index.zipIdx.find? (fun p => decide (p.1 > 0)) with
  | some (v, i) => some (i, index.set i (v - 1))
  | none => none

/-- math/lattice/pivots.py:37-55 `smallest_pivot`: the running minimum of the positive entries below
`2**64 - 1` with its position. -/
def smallestPivot (index : List ℕ) : Option (ℕ × List ℕ) :=
  let r := index.zipIdx.foldl (fun (acc : ℕ × ℕ) p =>
    if 0 < p.1 ∧ p.1 < acc.1 then (p.1, p.2) else acc) (2 ^ 64 - 1, 0)
  if r.1 = 2 ^ 64 - 1 then none else some (r.2, index.set r.2 (r.1 - 1))

/-- math/lattice/pivots.py:58-71 `all_pivots`. -/
def allPivots (index : List ℕ) : List (ℕ × List ℕ) :=
  (index.zipIdx.filter (fun p => decide (p.1 > 0))).map fun p => (p.2, index.set p.2 (p.1 - 1))

/-- math/lattice/neighbors.py:41-45 `lower_neighbors` (entries may become −1). -/
def lowerNeighbors (pivot : List ℤ) : List (ℕ × List ℤ) :=
  (List.range pivot.length).map fun j => (j, pivot.set j (pivot.getD j 0 - 1))
/-- math/lattice/neighbors.py:53-57 `upper_neighbors`. -/
def upperNeighbors (pivot : List ℤ) : List (ℕ × List ℤ) :=
  (List.range pivot.length).map fun j => (j, pivot.set j (pivot.getD j 0 + 1))
/-- math/lattice/neighbors.py:28-33 `all_neighbors`. -/
def allNeighbors (pivot : List ℤ) : List (ℕ × List ℤ) :=
  (List.range pivot.length).flatMap fun j =>
    [(j, pivot.set j (pivot.getD j 0 - 1)), (j, pivot.set j (pivot.getD j 0 + 1))]
/-- math/lattice/neighbors.py:65-75 `bitstring_neighbors`. -/
def bitstringNeighbors (pivot : List ℤ) (bits : List Bool) : List (ℕ × List ℤ) :=
  bits.zipIdx.map fun (b, i) =>
    if b then (i, pivot.set i (pivot.getD i 0 - 1)) else (i, pivot.set i (pivot.getD i 0 + 1))

/-- One step down in direction `i`. -/
def StepDown (i : ℕ) (idx p : List ℕ) : Prop :=
  p.length = idx.length ∧ i < idx.length ∧
    ∀ j, p.getD j 0 + (if j = i then 1 else 0) = idx.getD j 0

theorem stepDown_set {idx : List ℕ} {i v : ℕ} (h : idx[i]? = some v) (hv : 0 < v) :
    StepDown i idx (idx.set i (v - 1)) := by
  have hi : i < idx.length := (List.getElem?_eq_some_iff.1 h).1
  refine ⟨by simp, hi, ?_⟩
  intro j
  by_cases e : j = i
  · subst e
    simp only [List.getD_eq_getElem?_getD, List.getElem?_set_self hi, h, Option.getD_some, if_true]
    omega
  · simp [List.getD_eq_getElem?_getD, List.getElem?_set_ne (Ne.symm e), e]

theorem mem_zipIdx_iff {l : List ℕ} {v i : ℕ} : (v, i) ∈ l.zipIdx ↔ l[i]? = some v := by
  rw [List.mem_zipIdx_iff_getElem?]

/-- **C25** `first_available_pivot`: raises exactly at the zero index; otherwise returns the first direction
with a positive entry and the index one step down in it. -/
theorem C25_first_pivot (idx : List ℕ) :
    (firstAvailablePivot idx = none ↔ ∀ j, idx.getD j 0 = 0) ∧
    ∀ i p, firstAvailablePivot idx = some (i, p) →
      StepDown i idx p ∧ (∀ j < i, idx.getD j 0 = 0) := by
  unfold firstAvailablePivot
  constructor
  · rcases h : idx.zipIdx.find? (fun p => decide (p.1 > 0)) with _ | ⟨v, i⟩
    · rw [h]
      refine ⟨fun _ => ?_, fun _ => rfl⟩
      intro j
      rw [List.find?_eq_none] at h
      rw [List.getD_eq_getElem?_getD]
      rcases e : idx[j]? with _ | v
      · rfl
      · have := h (v, j) (mem_zipIdx_iff.2 e)
        simp at this; simp [this]
    · rw [h]
      refine ⟨fun hh => (by simp at hh), ?_⟩
      intro hz
      exfalso
      have h1 := List.mem_of_find?_eq_some h
      have h2 := List.find?_some h
      rw [mem_zipIdx_iff] at h1
      have := hz i
      rw [List.getD_eq_getElem?_getD, h1] at this
      simp at this h2; omega
  · intro i p hp
    rcases h : idx.zipIdx.find? (fun p => decide (p.1 > 0)) with _ | ⟨v, i'⟩
    · rw [h] at hp; simp at hp
    · rw [h] at hp
      simp only [Option.some.injEq, Prod.mk.injEq] at hp
      obtain ⟨rfl, rfl⟩ := hp
      have h1 := mem_zipIdx_iff.1 (List.mem_of_find?_eq_some h)
      have h2 : 0 < v := by simpa using List.find?_some h
      refine ⟨stepDown_set h1 h2, ?_⟩
      intro j hj
      rw [List.find?_eq_some_iff_getElem] at h
      obtain ⟨_, k, hk, e, hlt⟩ := h
      simp only [List.getElem_zipIdx, Prod.mk.injEq] at e
      have hjk : j < k := by omega
      have := hlt j hjk
      simp at this
      have hjl : j < idx.length := by simp at hk; omega
      rw [List.getD_eq_getElem?_getD, List.getElem?_eq_getElem hjl]
      simpa using this

/-- **C25** `all_pivots` lists exactly the lowered indices, one per direction with a positive entry. -/
theorem C25_all_pivots (idx : List ℕ) (i : ℕ) (p : List ℕ) :
    (i, p) ∈ allPivots idx ↔ StepDown i idx p := by
  unfold allPivots
  simp only [List.mem_map, List.mem_filter, Prod.mk.injEq, decide_eq_true_eq]
  constructor
  · rintro ⟨⟨v, k⟩, ⟨h1, h2⟩, rfl, rfl⟩
    exact stepDown_set (mem_zipIdx_iff.1 h1) h2
  · rintro ⟨hl, hi, h⟩
    refine ⟨(idx[i], i), ⟨mem_zipIdx_iff.2 (List.getElem?_eq_getElem hi), ?_⟩, rfl, ?_⟩
    · have := h i
      simp [List.getD_eq_getElem?_getD, hi] at this
      simp; omega
    · apply List.ext_getElem
      · simp [hl]
      · intro j h1 h2
        have := h j
        rw [List.getD_eq_getElem?_getD, List.getD_eq_getElem?_getD, List.getElem?_eq_getElem h2,
          List.getElem?_eq_getElem (by omega)] at this
        by_cases e : j = i
        · subst e; simp at this ⊢; omega
        · simp [e] at this
          rw [List.getElem_set_ne (Ne.symm e)]; exact this.symm

theorem smallest_fold (l : List (ℕ × ℕ)) (a : ℕ × ℕ) :
    let r := l.foldl (fun (acc : ℕ × ℕ) p => if 0 < p.1 ∧ p.1 < acc.1 then (p.1, p.2) else acc) a
    (r = a ∨ (r ∈ l ∧ 0 < r.1 ∧ r.1 < a.1)) ∧ r.1 ≤ a.1 ∧ ∀ p ∈ l, 0 < p.1 → r.1 ≤ p.1 := by
  induction l generalizing a with
  | nil => simp
  | cons x l ih =>
    simp only [List.foldl_cons]
    by_cases h : 0 < x.1 ∧ x.1 < a.1
    · rw [if_pos h]
      obtain ⟨h1, h2, h3⟩ := ih (x.1, x.2)
      refine ⟨?_, le_trans h2 h.2.le, ?_⟩
      · rcases h1 with e | ⟨hm, h4, h5⟩
        · right; rw [e]; exact ⟨by simp, h⟩
        · right; exact ⟨by simp [hm], h4, lt_trans h5 h.2⟩
      · intro p hp hpos
        rcases List.mem_cons.1 hp with rfl | hp
        · exact h2
        · exact h3 p hp hpos
    · rw [if_neg h]
      obtain ⟨h1, h2, h3⟩ := ih a
      refine ⟨?_, h2, ?_⟩
      · rcases h1 with e | ⟨hm, h4⟩
        · exact Or.inl e
        · exact Or.inr ⟨by simp [hm], h4⟩
      · intro p hp hpos
        rcases List.mem_cons.1 hp with rfl | hp
        · omega
        · exact h3 p hp hpos

/-- **C25** `smallest_pivot` (entries below `2^64 - 1`): raises exactly at the zero index; otherwise lowers
a direction whose entry is minimal among the positive ones. -/
theorem C25_smallest_pivot (idx : List ℕ) (hb : ∀ v ∈ idx, v < 2 ^ 64 - 1) :
    (smallestPivot idx = none ↔ ∀ j, idx.getD j 0 = 0) ∧
    ∀ i p, smallestPivot idx = some (i, p) →
      StepDown i idx p ∧ ∀ j, idx.getD j 0 ≠ 0 → idx.getD i 0 ≤ idx.getD j 0 := by
  unfold smallestPivot
  obtain ⟨h1, h2, h3⟩ := smallest_fold idx.zipIdx (2 ^ 64 - 1, 0)
  set r := idx.zipIdx.foldl (fun (acc : ℕ × ℕ) p =>
    if 0 < p.1 ∧ p.1 < acc.1 then (p.1, p.2) else acc) (2 ^ 64 - 1, 0) with hr
  have mem : ∀ j, idx.getD j 0 ≠ 0 → (idx.getD j 0, j) ∈ idx.zipIdx := by
    intro j hj
    rw [mem_zipIdx_iff]
    have hl := lt_of_getD_ne hj
    rw [List.getElem?_eq_getElem hl, List.getD_eq_getElem?_getD, List.getElem?_eq_getElem hl]; rfl
  constructor
  · simp only []
    constructor
    · intro h j
      by_contra hj
      have hle := h3 _ (mem j hj) (by simpa using Nat.pos_of_ne_zero hj)
      by_cases e : r.1 = 2 ^ 64 - 1
      · have hl := lt_of_getD_ne hj
        have : idx.getD j 0 ∈ idx := by
          rw [List.getD_eq_getElem?_getD, List.getElem?_eq_getElem hl]; simp
        have := hb _ this
        simp only at hle; omega
      · rw [if_neg e] at h; cases h
    · intro hz
      rw [if_pos]
      rcases h1 with e | ⟨hm, hpos, _⟩
      · rw [e]
      · have := mem_zipIdx_iff.1 (show (r.1, r.2) ∈ idx.zipIdx from hm)
        have hz' := hz r.2
        rw [List.getD_eq_getElem?_getD, this] at hz'
        simp at hz'; omega
  · intro i p h
    simp only [] at h
    by_cases e : r.1 = 2 ^ 64 - 1
    · rw [if_pos e] at h; cases h
    · rw [if_neg e] at h
      simp only [Option.some.injEq, Prod.mk.injEq] at h
      obtain ⟨rfl, rfl⟩ := h
      rcases h1 with e' | ⟨hm, hpos, _⟩
      · rw [e'] at e; exact absurd rfl e
      · have hg := mem_zipIdx_iff.1 (show (r.1, r.2) ∈ idx.zipIdx from hm)
        refine ⟨stepDown_set hg hpos, ?_⟩
        intro j hj
        have := h3 _ (mem j hj) (by simpa using Nat.pos_of_ne_zero hj)
        rw [show idx.getD r.2 0 = r.1 by rw [List.getD_eq_getElem?_getD, hg]; rfl]
        exact this

/-- `q` is `p` with entry `j` changed by `d`. -/
def Differs (j : ℕ) (d : ℤ) (p q : List ℤ) : Prop :=
  j < p.length ∧ q.length = p.length ∧ ∀ i, q.getD i 0 = p.getD i 0 + if i = j then d else 0

theorem differs_iff (j : ℕ) (d : ℤ) (p q : List ℤ) :
    Differs j d p q ↔ j < p.length ∧ q = p.set j (p.getD j 0 + d) := by
  constructor
  · rintro ⟨hj, hl, h⟩
    refine ⟨hj, ?_⟩
    apply List.ext_getElem
    · simp [hl]
    · intro i h1 h2
      have := h i
      have h2' : i < p.length := by simpa using h2
      by_cases e : i = j
      · subst e
        simp only [List.getD_eq_getElem?_getD, List.getElem?_eq_getElem h1, Option.getD_some, if_true] at this
        rw [List.getElem_set_self, this, List.getD_eq_getElem?_getD]
      · simp only [List.getD_eq_getElem?_getD, List.getElem?_eq_getElem h1, List.getElem?_eq_getElem h2',
          Option.getD_some, e, if_false, add_zero] at this
        rw [List.getElem_set_ne (Ne.symm e), this]
  · rintro ⟨hj, rfl⟩
    refine ⟨hj, by simp, ?_⟩
    intro i
    by_cases e : i = j
    · subst e
      simp [List.getD_eq_getElem?_getD, List.getElem?_set_self hj]
    · simp [List.getD_eq_getElem?_getD, List.getElem?_set_ne (Ne.symm e), e]

/-- **C25** the neighbour generators yield exactly the indices that differ from the pivot by −1, +1, ±1,
respectively by −1 where the bit string is set and +1 where it is not; each exactly once. -/
theorem C25_neighbors (p : List ℤ) :
    (∀ j q, (j, q) ∈ lowerNeighbors p ↔ Differs j (-1) p q) ∧
    (∀ j q, (j, q) ∈ upperNeighbors p ↔ Differs j 1 p q) ∧
    (∀ j q, (j, q) ∈ allNeighbors p ↔ Differs j (-1) p q ∨ Differs j 1 p q) ∧
    (∀ bits : List Bool, bits.length = p.length → ∀ j q, (j, q) ∈ bitstringNeighbors p bits ↔
      (bits[j]? = some true ∧ Differs j (-1) p q) ∨ (bits[j]? = some false ∧ Differs j 1 p q)) ∧
    (lowerNeighbors p).Nodup ∧ (upperNeighbors p).Nodup ∧ (allNeighbors p).Nodup := by
  have inj : ∀ f : ℕ → List ℤ, Function.Injective (fun j => (j, f j)) := by
    intro f a b h; exact (Prod.mk.inj h).1
  refine ⟨?_, ?_, ?_, ?_, List.nodup_range.map (inj _), List.nodup_range.map (inj _), ?_⟩
  · intro j q
    simp only [lowerNeighbors, List.mem_map, List.mem_range, Prod.mk.injEq, differs_iff]
    constructor
    · rintro ⟨i, hi, rfl, rfl⟩; exact ⟨hi, rfl⟩
    · rintro ⟨hi, rfl⟩; exact ⟨j, hi, rfl, rfl⟩
  · intro j q
    simp only [upperNeighbors, List.mem_map, List.mem_range, Prod.mk.injEq, differs_iff]
    constructor
    · rintro ⟨i, hi, rfl, rfl⟩; exact ⟨hi, rfl⟩
    · rintro ⟨hi, rfl⟩; exact ⟨j, hi, rfl, rfl⟩
  · intro j q
    simp only [allNeighbors, List.mem_flatMap, List.mem_range, List.mem_cons, Prod.mk.injEq, differs_iff,
      List.not_mem_nil, or_false]
    constructor
    · rintro ⟨i, hi, ⟨rfl, rfl⟩ | ⟨rfl, rfl⟩⟩
      · exact Or.inl ⟨hi, rfl⟩
      · exact Or.inr ⟨hi, rfl⟩
    · rintro (⟨hi, rfl⟩ | ⟨hi, rfl⟩)
      · exact ⟨j, hi, Or.inl ⟨rfl, rfl⟩⟩
      · exact ⟨j, hi, Or.inr ⟨rfl, rfl⟩⟩
  · intro bits hb j q
    simp only [bitstringNeighbors, List.mem_map, differs_iff]
    constructor
    · rintro ⟨⟨v, i⟩, hm, e⟩
      rw [List.mem_zipIdx_iff_getElem?] at hm
      have hi : i < p.length := by
        rw [← hb]; exact (List.getElem?_eq_some_iff.1 hm).1
      simp only at e hm
      cases v
      · simp only [Bool.false_eq_true, if_false, Prod.mk.injEq] at e
        obtain ⟨rfl, rfl⟩ := e
        exact Or.inr ⟨hm, hi, rfl⟩
      · simp only [if_true, Prod.mk.injEq] at e
        obtain ⟨rfl, rfl⟩ := e
        exact Or.inl ⟨hm, hi, rfl⟩
    · rintro (⟨h, hi, rfl⟩ | ⟨h, hi, rfl⟩)
      · exact ⟨(true, j), List.mem_zipIdx_iff_getElem?.2 h, rfl⟩
      · exact ⟨(false, j), List.mem_zipIdx_iff_getElem?.2 h, rfl⟩
  · unfold allNeighbors
    rw [List.nodup_flatMap]
    constructor
    · intro j hj
      have hj : j < p.length := List.mem_range.1 hj
      simp only [List.nodup_cons, List.mem_cons, Prod.mk.injEq, true_and, List.not_mem_nil, or_false,
        not_false_eq_true, List.nodup_nil, and_true]
      intro e
      have := congrArg (fun l => l[j]?) e
      simp only [List.getElem?_set_self hj, Option.some.injEq] at this
      omega
    · refine List.nodup_range.imp ?_
      intro a b hab
      simp only [Function.onFun, List.disjoint_left, List.mem_cons, List.not_mem_nil, or_false]
      rintro _ (rfl | rfl) h <;> simp only [Prod.mk.injEq] at h <;> omega

example : firstAvailablePivot [0, 3, 1] = some (1, [0, 2, 1]) ∧ smallestPivot [0, 3, 1] = some (2, [0, 3, 0]) ∧
    allPivots [0, 3, 1] = [(1, [0, 2, 1]), (2, [0, 3, 0])] := by decide

end Verif.Fock
