import Verif.PolyExpAnd

/-!
# Model of `ArrayAnsatz` (C29, C30, C49)

An array is a shape and a function giving the entry at every multi-index (only multi-indices inside the shape are
meaningful).  Exact complex arithmetic; `allclose` is equality.  Negative axis numbers and sizes are not modelled.
-/

namespace Verif.Arr

open Verif.Fock Verif.PolyExp

/-- physics/ansatz/array_ansatz.py:56-62 `ArrayAnsatz`: the first `batchDims` axes of the array are batch axes. -/
structure Arr where
  batchDims : ℕ
  shape : List ℕ
  get : List ℕ → ℂ

namespace Arr

/-- physics/ansatz/array_ansatz.py:81-85 `batch_shape`. -/
def batch (a : Arr) : List ℕ := a.shape.take a.batchDims
/-- physics/ansatz/array_ansatz.py:102-107 `core_shape`. -/
def core (a : Arr) : List ℕ := a.shape.drop a.batchDims
/-- There are at least as many axes as batch axes. -/
def WF (a : Arr) : Prop := a.batchDims ≤ a.shape.length

/-- Specification: the array continued by zero outside its shape. -/
noncomputable def entry (a : Arr) (k : List ℕ) : ℂ := if inb k a.shape then a.get k else 0

/-- Specification: same shape, same batch axes, same entries. -/
structure Same (a b : Arr) : Prop where
  batchDims : a.batchDims = b.batchDims
  shape : a.shape = b.shape
  get : ∀ k, InB a.shape k → a.get k = b.get k

/-- `s > t` somewhere (physics/ansatz/array_ansatz.py:259). -/
def grows (s t : List ℕ) : Bool := (s.zip t).any fun p => decide (p.1 > p.2)

/-- physics/ansatz/array_ansatz.py:228-270 `reduce`.  `np.pad` rejects a negative pad width, so a request that enlarges one axis
and shrinks another is an error. -/
noncomputable def reduce (a : Arr) (s : List ℕ) : Option Arr :=
  if s = a.core then some a
  else if s.length ≠ a.core.length then none
  else if grows s a.core then
    if grows a.core s then none
    else some { a with shape := a.batch ++ s, get := fun k => if inb k a.shape then a.get k else 0 }
  else some { a with shape := a.batch ++ s }

/-- `np.transpose(a, order)`: axis `i` of the result is axis `order[i]` of `a`; an error unless `order` is a permutation of the axes. -/
def transpose (a : Arr) (order : List ℕ) : Option Arr :=
  if order.Perm (List.range a.shape.length) then
    some { a with
      shape := order.map (a.shape.getD · 0)
      get := fun k => a.get ((List.range a.shape.length).map fun j => k.getD (order.idxOf j) 0) }
  else none

/-- physics/ansatz/array_ansatz.py:272-274 `reorder`. -/
def reorder (a : Arr) (order : List ℕ) : Option Arr :=
  a.transpose (List.range a.batchDims ++ order.map (· + a.batchDims))

/-- physics/ansatz/array_ansatz.py:276-284 `reorder_batch`. -/
def reorderBatch (a : Arr) (order : List ℕ) : Option Arr :=
  if order.length ≠ a.batchDims then none
  else a.transpose (order ++ List.range' a.batchDims a.core.length)

/-- physics/ansatz/array_ansatz.py:347-365 `__add__`.  Simplification: numpy broadcasting of different batch shapes with equally many axes
is not modelled (`none`). -/
noncomputable def add (a b : Arr) : Option Arr :=
  if a.batchDims ≠ b.batchDims then none
  else if a.batch ≠ b.batch then none
  else if a.core ≠ b.core then
    if a.core.prod > b.core.prod then do
      let b' ← b.reduce a.core
      some { a with get := fun k => a.get k + b'.get k }
    else do
      let a' ← a.reduce b.core
      some { b with get := fun k => a'.get k + b.get k }
  else some { a with get := fun k => a.get k + b.get k }

/-- physics/ansatz/array_ansatz.py:367-375 `__and__`: both arrays are flattened to `(batch_size, -1)`, multiplied by
`einsum("ab,ac->abc")` and reshaped. -/
noncomputable def and (a b : Arr) : Option Arr :=
  if a.batch ≠ b.batch then none
  else
    let s1 := a.core.prod
    let s2 := b.core.prod
    let new (x y z : ℕ) : ℂ := a.get (unravel a.shape (x * s1 + y)) * b.get (unravel b.shape (x * s2 + z))
    some { batchDims := a.batchDims
           shape := a.batch ++ a.core ++ b.core
           get := fun k =>
            let f := ravel (a.batch ++ a.core ++ b.core) k
            new (f / (s1 * s2)) (f % (s1 * s2) / s2) (f % s2) }

/-- physics/ansatz/array_ansatz.py:380-388 `__eq__` for arrays with equally many axes, `allclose` being equality. -/
def Eq (a b : Arr) : Prop :=
  a.batch = b.batch ∧ ∀ k, InB (a.batch ++ List.zipWith min a.core b.core) k → a.get k = b.get k

/-- physics/ansatz/array_ansatz.py:390-391 `__mul__` by a number. -/
noncomputable def mul (a : Arr) (x : ℂ) : Arr := { a with get := fun k => a.get k * x }
/-- physics/ansatz/array_ansatz.py:393-394 `__neg__`. -/
noncomputable def neg (a : Arr) : Arr := { a with get := fun k => -a.get k }
/-- physics/ansatz/array_ansatz.py:396-397 `__truediv__` by a number. -/
noncomputable def div (a : Arr) (x : ℂ) : Arr := { a with get := fun k => a.get k / x }
/-- physics/ansatz/array_ansatz.py:98-100 `conj`. -/
noncomputable def conj (a : Arr) : Arr := { a with get := fun k => (starRingEnd ℂ) (a.get k) }
/-- physics/ansatz/array_ansatz.py:117-123 `scalar`, at one batch index. -/
def scalar (a : Arr) (β : List ℕ) : ℂ := a.get (β ++ List.replicate a.core.length 0)

/-- physics/ansatz/array_ansatz.py:289-314 `trace`: transpose the traced axes to the end, cut each pair to its
smaller size, reshape the pairs to an `n × n` matrix and take its trace.  For empty index tuples the slices `shape[-0:]` and `shape[:-0]`
are the whole shape and nothing, so `n` is the size of the array, and reshaping to `(n, n)` fails unless `n * n = n`. -/
noncomputable def trace (a : Arr) (z zc : List ℕ) : Option Arr :=
  if z.length ≠ zc.length ∨ ¬ (∀ i ∈ z, i ∉ zc) then none
  else do
    let bd := a.batchDims
    let rest := (List.range a.core.length).filter (· ∉ z ++ zc)
    let t ← a.transpose (List.range bd ++ rest.map (bd + ·) ++ z.map (bd + ·) ++ zc.map (bd + ·))
    if z = [] then
      if t.shape.prod ≤ 1 then
        some { batchDims := bd, shape := [], get := fun _ => ∑ _i ∈ Finset.range t.shape.prod, t.get (unravel t.shape 0) }
      else none
    else
    let m := z.length
    let keep := t.shape.length - 2 * m
    let zd := (t.shape.drop keep).take m
    let zcd := (t.shape.drop keep).drop m
    let dims := List.zipWith min zd zcd
    let n := dims.prod
    -- the array after the cut has shape `t.shape.take keep ++ dims ++ dims`; row `i`, column `i` of the matrix
    some { batchDims := bd
           shape := t.shape.take keep
           get := fun k => ∑ i ∈ Finset.range n, t.get (k ++ unravel (dims ++ dims) (i * n + i)) }

end Arr

/-! ## Lemmas -/

instance (s k : List ℕ) : Decidable (InB s k) := decidable_of_iff _ inb_iff

theorem inB_length {s k : List ℕ} (h : InB s k) : k.length = s.length := List.Forall₂.length_eq h

theorem inB_append_iff {s t k : List ℕ} : InB (s ++ t) k ↔ InB s (k.take s.length) ∧ InB t (k.drop s.length) := by
  constructor
  · intro h
    exact ⟨List.forall₂_take_append _ _ _ h, List.forall₂_drop_append _ _ _ h⟩
  · rintro ⟨h1, h2⟩
    rw [← List.take_append_drop s.length k]
    exact InB.append h1 h2

theorem inB_iff_getD {s k : List ℕ} : InB s k ↔ k.length = s.length ∧ ∀ i < s.length, k.getD i 0 < s.getD i 0 := by
  rw [InB, List.forall₂_iff_get]
  constructor
  · rintro ⟨h1, h2⟩
    refine ⟨h1, fun i hi => ?_⟩
    have := h2 i (h1 ▸ hi) hi
    simpa [List.getD_eq_getElem?_getD, hi, h1 ▸ hi] using this
  · rintro ⟨h1, h2⟩
    refine ⟨h1, fun i hi hi' => ?_⟩
    have := h2 i hi'
    simpa [List.getD_eq_getElem?_getD, hi, hi'] using this

theorem grows_iff {s t : List ℕ} (h : s.length = t.length) : Arr.grows s t = true ↔ ∃ i < s.length, t.getD i 0 < s.getD i 0 := by
  unfold Arr.grows
  rw [List.any_eq_true]
  constructor
  · rintro ⟨p, hp, hlt⟩
    obtain ⟨i, hi, rfl⟩ := List.getElem_of_mem hp
    rw [List.length_zip] at hi
    refine ⟨i, by omega, ?_⟩
    simp only [List.getElem_zip, decide_eq_true_eq] at hlt
    simpa [List.getD_eq_getElem?_getD, show i < s.length by omega, show i < t.length by omega] using hlt
  · rintro ⟨i, hi, hlt⟩
    refine ⟨(s[i], t[i]'(h ▸ hi)), ?_, ?_⟩
    · rw [List.mem_iff_getElem]
      exact ⟨i, by simp [List.length_zip]; omega, by simp⟩
    · simpa [List.getD_eq_getElem?_getD, hi, h ▸ hi] using hlt

namespace Arr

theorem shape_eq (a : Arr) : a.shape = a.batch ++ a.core := (List.take_append_drop _ _).symm
theorem batch_length {a : Arr} (h : a.WF) : a.batch.length = a.batchDims := by simp only [batch, List.length_take]; exact min_eq_left h

theorem entry_of_inB {a : Arr} {k : List ℕ} (h : InB a.shape k) : a.entry k = a.get k := by
  unfold entry; rw [if_pos (inb_iff.2 h)]
theorem entry_of_not {a : Arr} {k : List ℕ} (h : ¬ InB a.shape k) : a.entry k = 0 := by
  unfold entry; rw [if_neg (fun h' => h (inb_iff.1 h'))]

theorem Same.entry {a b : Arr} (h : Same a b) (k : List ℕ) : a.entry k = b.entry k := by
  by_cases hk : InB a.shape k
  · rw [entry_of_inB hk, entry_of_inB (h.shape ▸ hk), h.get k hk]
  · rw [entry_of_not hk, entry_of_not (fun h' => hk (h.shape ▸ h'))]

/-! ## `reduce` -/

/-- **C29** whenever `reduce(shape)` returns, the result has the requested core shape, and each of its entries is the entry of the original array
if that array has it, and zero otherwise. -/
theorem C29_reduce (a r : Arr) (ha : a.WF) (s : List ℕ) (h : a.reduce s = some r) :
    r.batchDims = a.batchDims ∧ r.batch = a.batch ∧ r.core = s ∧
    ∀ k, InB (a.batch ++ s) k → r.get k = if InB (a.batch ++ a.core) k then a.get k else 0 := by
  have hb := batch_length ha
  have tk : (a.batch ++ s).take a.batchDims = a.batch := List.take_left' hb
  have dr : (a.batch ++ s).drop a.batchDims = s := List.drop_left' hb
  unfold reduce at h
  split_ifs at h with h1 h2 h3 h4
  · cases h; subst h1
    exact ⟨rfl, rfl, rfl, fun k hk => (if_pos hk).symm⟩
  · cases h
    refine ⟨rfl, tk, dr, fun k _ => ?_⟩
    dsimp only
    rw [a.shape_eq]
    simp only [inb_iff]
  · cases h
    refine ⟨rfl, tk, dr, fun k hk => ?_⟩
    rw [if_pos]
    push Not at h2
    rw [Bool.not_eq_true] at h3
    have h3' : ¬ ∃ i < s.length, a.core.getD i 0 < s.getD i 0 := fun h => Bool.eq_false_iff.1 h3 ((grows_iff h2).2 h)
    push Not at h3'
    rw [inB_append_iff] at hk ⊢
    refine ⟨hk.1, ?_⟩
    rw [inB_iff_getD] at hk ⊢
    refine ⟨by rw [(inB_iff_getD.1 hk.2).1, h2], fun i hi => ?_⟩
    exact lt_of_lt_of_le ((inB_iff_getD.1 hk.2).2 i (h2 ▸ hi)) (h3' i (h2 ▸ hi))

/-- **C29** `reduce` fails exactly when the number of axes is wrong or the request enlarges one axis while shrinking another. -/
theorem C29_error (a : Arr) (s : List ℕ) : a.reduce s = none ↔
    s.length ≠ a.core.length ∨ (∃ i < s.length, a.core.getD i 0 < s.getD i 0) ∧ (∃ i < s.length, s.getD i 0 < a.core.getD i 0) := by
  unfold reduce
  by_cases h1 : s = a.core
  · subst h1; rw [if_pos rfl]; simp
  rw [if_neg h1]
  by_cases h2 : s.length = a.core.length
  · rw [if_neg (by simpa using h2)]
    have g1 := grows_iff h2
    have g2 := grows_iff h2.symm
    rw [← h2] at g2
    rw [← g1, ← g2]
    by_cases h3 : grows s a.core = true <;> by_cases h4 : grows a.core s = true <;> simp [h3, h4, h2]
  · rw [if_pos h2]; simp [h2]

/-- **C29** cutting twice is cutting once. -/
theorem C29_twice (a r : Arr) (ha : a.WF) (s t : List ℕ) (hst : List.Forall₂ (· ≤ ·) s t) (hta : List.Forall₂ (· ≤ ·) t a.core)
    (h : a.reduce t = some r) : ∃ r' r'', r.reduce s = some r' ∧ a.reduce s = some r'' ∧ Same r' r'' := by
  have le : ∀ {x y : List ℕ}, List.Forall₂ (· ≤ ·) x y → x.length = y.length ∧ ∀ i < x.length, ¬ y.getD i 0 < x.getD i 0 := by
    intro x y h
    rw [List.forall₂_iff_get] at h
    refine ⟨h.1, fun i hi => ?_⟩
    have := h.2 i hi (h.1 ▸ hi)
    simpa [List.getD_eq_getElem?_getD, hi, h.1 ▸ hi] using this
  obtain ⟨r1, r2, r3, r4⟩ := C29_reduce a r ha t h
  have hra : r.WF := by
    unfold WF
    rw [r.shape_eq, r2, List.length_append, r1, batch_length ha]; omega
  have e1 : r.reduce s ≠ none := by
    rw [Ne, C29_error, r3]
    rintro (h | ⟨⟨i, hi, h⟩, _⟩)
    · exact h (le hst).1
    · exact (le hst).2 i hi h
  have hsa : List.Forall₂ (· ≤ ·) s a.core := by
    clear h r1 r2 r3 r4 e1 hra
    generalize a.core = u at hta
    induction hst generalizing u with
    | nil => exact hta
    | cons h _ ih =>
      cases hta with
      | cons h' t' => exact List.Forall₂.cons (h.trans h') (ih _ t')
  have e2 : a.reduce s ≠ none := by
    rw [Ne, C29_error]
    rintro (h | ⟨⟨i, hi, h⟩, _⟩)
    · exact h (le hsa).1
    · exact (le hsa).2 i hi h
  obtain ⟨r', h'⟩ := Option.ne_none_iff_exists'.1 e1
  obtain ⟨r'', h''⟩ := Option.ne_none_iff_exists'.1 e2
  refine ⟨r', r'', h', h'', ?_⟩
  obtain ⟨p1, p2, p3, p4⟩ := C29_reduce r r' hra s h'
  obtain ⟨q1, q2, q3, q4⟩ := C29_reduce a r'' ha s h''
  refine ⟨by rw [p1, q1, r1], by rw [r'.shape_eq, r''.shape_eq, p2, q2, p3, q3, r2], fun k hk => ?_⟩
  rw [r'.shape_eq, p2, p3] at hk
  rw [p4 k hk, q4 k (r2 ▸ hk)]
  have mono : ∀ {x y : List ℕ} {B : List ℕ}, List.Forall₂ (· ≤ ·) x y → InB (B ++ x) k → InB (B ++ y) k := by
    intro x y B h hk
    rw [inB_append_iff] at hk ⊢
    refine ⟨hk.1, ?_⟩
    rw [inB_iff_getD]
    have := inB_iff_getD.1 hk.2
    refine ⟨by rw [this.1, (le h).1], fun i hi => ?_⟩
    have := this.2 i ((le h).1 ▸ hi)
    have := (le h).2 i ((le h).1 ▸ hi)
    omega
  rw [if_pos (by rw [r3]; exact mono hst hk), if_pos (mono hsa (r2 ▸ hk)), r4 k (by rw [← r2]; exact mono hst hk)]
  exact if_pos (mono hsa (r2 ▸ hk))

/-! ## `reorder` -/

theorem perm_facts {o : List ℕ} {n : ℕ} (h : o.Perm (List.range n)) : o.length = n ∧ o.Nodup ∧ (∀ j, j ∈ o ↔ j < n) :=
  ⟨by simpa using h.length_eq, h.nodup_iff.2 List.nodup_range, fun j => by rw [h.mem_iff, List.mem_range]⟩

theorem getD_idxOf {o : List ℕ} {j : ℕ} (h : j ∈ o) : o.getD (o.idxOf j) 0 = j := by
  have := List.idxOf_lt_length_of_mem h
  rw [List.getD_eq_getElem?_getD, List.getElem?_eq_getElem this]
  simp

theorem getD_map {o : List ℕ} (f : ℕ → ℕ) {i : ℕ} (h : i < o.length) : (o.map f).getD i 0 = f (o.getD i 0) := by
  simp [List.getD_eq_getElem?_getD, h]

theorem range_map_getD (k : List ℕ) {n : ℕ} (h : k.length = n) : (List.range n).map (fun j => k.getD j 0) = k := by
  apply List.ext_getElem (by simp [h])
  intro i h1 h2
  simp [List.getD_eq_getElem?_getD, h2]

theorem transpose_get {a r : Arr} {o : List ℕ} (h : a.transpose o = some r) {k : List ℕ} (hk : k.length = a.shape.length) :
    r.get (o.map (k.getD · 0)) = a.get k := by
  unfold transpose at h
  split_ifs at h with hp
  cases h
  obtain ⟨h1, h2, h3⟩ := perm_facts hp
  dsimp only
  congr 1
  conv_rhs => rw [← range_map_getD k hk]
  apply List.map_congr_left
  intro j hj
  have hj' : j ∈ o := (h3 j).2 (List.mem_range.1 hj)
  rw [getD_map _ (List.idxOf_lt_length_of_mem hj'), getD_idxOf hj']

theorem transpose_shape {a r : Arr} {o : List ℕ} (h : a.transpose o = some r) :
    o.Perm (List.range a.shape.length) ∧ r.shape = o.map (a.shape.getD · 0) ∧ r.batchDims = a.batchDims := by
  unfold transpose at h
  split_ifs at h with hp
  cases h
  exact ⟨hp, rfl, rfl⟩

theorem transpose_trans {a r s : Arr} {o1 o2 : List ℕ} (h1 : a.transpose o1 = some r) (h2 : r.transpose o2 = some s) :
    ∃ s', a.transpose (o2.map (o1.getD · 0)) = some s' ∧ Same s s' := by
  have e1 := transpose_shape h1
  have e2 := transpose_shape h2
  obtain ⟨l1, n1, m1⟩ := perm_facts e1.1
  have hrl : r.shape.length = a.shape.length := by rw [e1.2.1, List.length_map, l1]
  obtain ⟨l2, n2, m2⟩ := perm_facts (hrl ▸ e2.1)
  have hp : (o2.map (o1.getD · 0)).Perm (List.range a.shape.length) := by
    have := (hrl ▸ e2.1).map (o1.getD · 0)
    rw [range_map_getD o1 l1] at this
    exact this.trans e1.1
  refine ⟨_, if_pos hp, e2.2.2.trans e1.2.2, ?_, ?_⟩
  · dsimp only
    rw [e2.2.1, e1.2.1, List.map_map]
    apply List.map_congr_left
    intro j hj
    exact getD_map _ (l1 ▸ (m2 j).1 hj)
  · intro k hk
    have hk : k.length = a.shape.length := by rw [inB_length hk, e2.2.1, List.length_map, l2]
    have d1 : ∀ x, r.get x = a.get ((List.range a.shape.length).map fun j => x.getD (o1.idxOf j) 0) := by
      intro x; unfold transpose at h1; rw [if_pos e1.1] at h1; cases h1; rfl
    have d2 : ∀ x, s.get x = r.get ((List.range r.shape.length).map fun j => x.getD (o2.idxOf j) 0) := by
      intro x; unfold transpose at h2; rw [if_pos e2.1] at h2; cases h2; rfl
    rw [d2, d1]
    dsimp only
    congr 1
    apply List.map_congr_left
    intro j hj
    have hj1 : j ∈ o1 := (m1 j).2 (List.mem_range.1 hj)
    have i1 : o1.idxOf j < a.shape.length := l1 ▸ List.idxOf_lt_length_of_mem hj1
    have i2m : o1.idxOf j ∈ o2 := (m2 _).2 i1
    have i2 := List.idxOf_lt_length_of_mem i2m
    rw [getD_map _ (by simpa [hrl] using i1)]
    congr 1
    have : (List.range r.shape.length).getD (o1.idxOf j) 0 = o1.idxOf j := by
      simp [List.getD_eq_getElem?_getD, hrl, i1]
    rw [this]
    obtain ⟨_, n12, _⟩ := perm_facts hp
    have hlt : o2.idxOf (o1.idxOf j) < (o2.map (o1.getD · 0)).length := by simpa using i2
    have := n12.idxOf_getElem _ hlt
    rw [← this]
    congr 1
    have e : (o2.map (o1.getD · 0)).getD (o2.idxOf (o1.idxOf j)) 0 = j := by rw [getD_map _ i2, getD_idxOf i2m, getD_idxOf hj1]
    rw [List.getD_eq_getElem?_getD, List.getElem?_eq_getElem hlt] at e
    simpa using e

theorem core_length {a : Arr} (h : a.WF) : a.batchDims + a.core.length = a.shape.length := by
  unfold core; rw [List.length_drop]; unfold WF at h; omega

/-- The order passed to `transpose` by `reorder`. -/
theorem order_perm {b n : ℕ} {p : List ℕ} : (List.range b ++ p.map (· + b)).Perm (List.range (b + n)) ↔ p.Perm (List.range n) := by
  rw [List.range_add, List.perm_append_left_iff]
  have : (List.range n).map (b + ·) = (List.range n).map (· + b) := List.map_congr_left fun _ _ => add_comm _ _
  rw [this]
  constructor
  · intro h
    have := h.map (· - b)
    simpa [Function.comp_def] using this
  · exact fun h => h.map _

/-- **C30** (arrays) meaning of reordering: `reorder(p)` is defined exactly for the permutations of the core axes, and axis `i` of the result is
axis `p[i]` of the original. -/
theorem C30_array_eval (a : Arr) (ha : a.WF) (p : List ℕ) :
    (a.reorder p = none ↔ ¬ p.Perm (List.range a.core.length)) ∧
    ∀ r, a.reorder p = some r → r.batchDims = a.batchDims ∧ r.batch = a.batch ∧ r.core = p.map (a.core.getD · 0) ∧
      ∀ β k, β.length = a.batchDims → k.length = a.core.length → r.get (β ++ p.map (k.getD · 0)) = a.get (β ++ k) := by
  have hc := core_length ha
  constructor
  · unfold reorder transpose
    have := @order_perm a.batchDims a.core.length p
    rw [hc] at this
    rw [← this]
    split_ifs with h <;> simp [h]
  · intro r h
    have e := transpose_shape h
    have hsp : ∀ {l m : List ℕ}, l.length = a.batchDims → m.length = a.core.length →
        (List.range a.batchDims ++ p.map (· + a.batchDims)).map ((l ++ m).getD · 0) = l ++ p.map (m.getD · 0) := by
      intro l m hl hm
      rw [List.map_append, List.map_map]
      congr 1
      · conv_rhs => rw [← range_map_getD l hl]
        apply List.map_congr_left
        intro j hj
        rw [List.mem_range] at hj
        simp [List.getD_eq_getElem?_getD, List.getElem?_append_left (hl ▸ hj)]
      · apply List.map_congr_left
        intro j _
        simp [List.getD_eq_getElem?_getD, List.getElem?_append_right, hl]
    have hs : r.shape = a.batch ++ p.map (a.core.getD · 0) := by
      rw [e.2.1, a.shape_eq]; exact hsp (batch_length ha) rfl
    refine ⟨e.2.2, ?_, ?_, ?_⟩
    · unfold batch at hs ⊢; rw [e.2.2, hs, List.take_left' (by simpa [batch] using batch_length ha)]
    · unfold core; rw [e.2.2, hs, List.drop_left' (batch_length ha)]; rfl
    · intro β k hβ hk
      rw [← hsp hβ hk, transpose_get h]
      rw [List.length_append, hβ, hk, hc]

/-- **C30** (arrays) reordering composes. -/
theorem C30_array_compose (a g h : Arr) (ha : a.WF) (p q : List ℕ) (h1 : a.reorder p = some g) (h2 : g.reorder q = some h) :
    ∃ h', a.reorder (q.map fun i => p.getD i 0) = some h' ∧ Same h h' := by
  obtain ⟨s, hs, hsame⟩ := transpose_trans h1 h2
  refine ⟨s, ?_, hsame⟩
  rw [← hs]
  unfold reorder
  congr 1
  have e := transpose_shape h1
  have hp : p.Perm (List.range a.core.length) := by
    have := e.1; rw [← core_length ha, order_perm] at this; exact this
  have e2 := transpose_shape h2
  have hga : g.shape.length = a.shape.length := by
    rw [e.2.1, List.length_map]; simpa using e.1.length_eq
  have hq : q.Perm (List.range a.core.length) := by
    have := e2.1; rw [hga, e.2.2, ← core_length ha, order_perm] at this; exact this
  rw [List.map_append, e.2.2]
  congr 1
  · conv_lhs => rw [← range_map_getD (n := a.batchDims) (List.range a.batchDims) (by simp)]
    apply List.map_congr_left
    intro j hj
    rw [List.mem_range] at hj
    simp [List.getD_eq_getElem?_getD, List.getElem?_append_left, hj]
  · rw [List.map_map, List.map_map]
    apply List.map_congr_left
    intro j hj
    have hj : j < p.length := by rw [(perm_facts hp).1]; exact ((perm_facts hq).2.2 j).1 hj
    simp [List.getD_eq_getElem?_getD, List.getElem?_append_right, hj]

/-- **C30** (arrays) reordering by a permutation and then by its inverse restores the array. -/
theorem C30_array_inverse (a g h : Arr) (ha : a.WF) (p q : List ℕ) (hpq : (q.map fun i => p.getD i 0) = List.range a.core.length)
    (h1 : a.reorder p = some g) (h2 : g.reorder q = some h) : Same h a := by
  obtain ⟨s, hs, hsame⟩ := C30_array_compose a g h ha p q h1 h2
  rw [hpq] at hs
  obtain ⟨e1, e2, e3, e4⟩ := (C30_array_eval a ha _).2 s hs
  have hsh : s.shape = a.shape := by
    rw [s.shape_eq, e2, e3, range_map_getD _ rfl, ← a.shape_eq]
  refine ⟨hsame.batchDims.trans e1, hsame.shape.trans hsh, fun k hk => (hsame.get k hk).trans ?_⟩
  have hk : k.length = a.shape.length := by rw [inB_length hk, hsame.shape, hsh]
  have hc := core_length ha
  have := e4 (k.take a.batchDims) (k.drop a.batchDims) (by rw [List.length_take]; omega) (by rw [List.length_drop]; omega)
  rw [range_map_getD _ (by rw [List.length_drop]; omega), List.take_append_drop] at this
  exact this

/-- **C30** (arrays) `reorder_batch(p)` permutes the batch axes and nothing else. -/
theorem C30_array_batch (a : Arr) (ha : a.WF) (p : List ℕ) :
    (a.reorderBatch p = none ↔ ¬ p.Perm (List.range a.batchDims)) ∧
    ∀ r, a.reorderBatch p = some r → r.batchDims = a.batchDims ∧ r.batch = p.map (a.batch.getD · 0) ∧ r.core = a.core ∧
      ∀ β k, β.length = a.batchDims → k.length = a.core.length → r.get (p.map (β.getD · 0) ++ k) = a.get (β ++ k) := by
  have hc := core_length ha
  have hiff : (p ++ List.range' a.batchDims a.core.length).Perm (List.range a.shape.length) ↔ p.Perm (List.range a.batchDims) := by
    rw [← hc, List.range_add]
    have : List.range' a.batchDims a.core.length = (List.range a.core.length).map (a.batchDims + ·) := by
      rw [List.range'_eq_map_range]
    rw [this, List.perm_append_right_iff]
  constructor
  · unfold reorderBatch transpose
    split_ifs with h1 h2
    · simp only [true_iff]
      intro h; exact h1 (by simpa using h.length_eq)
    · simp [hiff.1 h2]
    · simp only [true_iff]; exact fun h => h2 (hiff.2 h)
  · intro r h
    unfold reorderBatch at h
    split_ifs at h with hl
    push Not at hl
    have e := transpose_shape h
    have hp := hiff.1 e.1
    have hsp : ∀ {l m : List ℕ}, l.length = a.batchDims → m.length = a.core.length →
        (p ++ List.range' a.batchDims a.core.length).map ((l ++ m).getD · 0) = p.map (l.getD · 0) ++ m := by
      intro l m hl hm
      rw [List.map_append]
      congr 1
      · apply List.map_congr_left
        intro j hj
        have := ((perm_facts hp).2.2 j).1 hj
        simp [List.getD_eq_getElem?_getD, List.getElem?_append_left (hl ▸ this)]
      · rw [List.range'_eq_map_range, List.map_map]
        conv_rhs => rw [← range_map_getD m hm]
        apply List.map_congr_left
        intro j _
        simp [List.getD_eq_getElem?_getD, List.getElem?_append_right, hl]
    have hs : r.shape = p.map (a.batch.getD · 0) ++ a.core := by
      rw [e.2.1, a.shape_eq]; exact hsp (batch_length ha) rfl
    refine ⟨e.2.2, ?_, ?_, ?_⟩
    · unfold batch at hs ⊢; rw [e.2.2, hs, List.take_left' (by simpa using hl)]
    · unfold core; rw [e.2.2, hs, List.drop_left' (by simpa using hl)]; rfl
    · intro β k hβ hk
      rw [← hsp hβ hk, transpose_get h]
      rw [List.length_append, hβ, hk, hc]

end Arr

end Verif.Arr
