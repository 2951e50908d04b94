import Mathlib.Data.Complex.Basic
import Mathlib.Algebra.BigOperators.Group.List.Basic
import Mathlib.Data.List.Pairwise
import Mathlib.Tactic.Ring
import Mathlib.Tactic.NormNum

/-!
# Updates of tensor entries in both backends (C116)
-/

namespace Verif.Upd

/-- A tensor: shape and entries. -/
structure Tens where
  shape : List ℕ
  get : List ℕ → ℂ

/-- An integer index on an axis of length `n` (Python: negative indices count from the end); `none` is out of range. -/
def axis (n : ℕ) (i : ℤ) : Option ℕ :=
  if 0 ≤ i ∧ i < n then some i.toNat
  else if -n ≤ i ∧ i < 0 then some (i + n).toNat
  else none

/-- A full multi-index; `none` if some entry is out of range or their number is not that of the axes (fewer indices select a subtensor, which is not modelled). -/
def index : List ℕ → List ℤ → Option (List ℕ)
  | [], [] => some []
  | n :: s, i :: t => (axis n i).bind fun a => (index s t).map (a :: ·)
  | _, _ => none

/-- `tensor[k] += v`. -/
def Tens.add (t : Tens) (k : List ℕ) (v : ℂ) : Tens := { t with get := fun j => if j = k then t.get j + v else t.get j }

/-- math/backend_numpy.py:324-333 `update_add_tensor`: the tensor, which is also the argument, after the call, and whether it returned (`false`: IndexError). -/
def numpyAdd (t : Tens) : List (List ℤ × ℂ) → Tens × Bool
  | [] => (t, true)
  | (i, v) :: l => match index t.shape i with
    | some k => numpyAdd (t.add k v) l
    | none => (t, false)

/-- The pairs `zip(indices, values)` (math/backend_numpy.py:331). -/
def numpyPairs (indices : List (List ℤ)) (values : List ℂ) : List (List ℤ × ℂ) := indices.zip values

/-- The pairs of math/backend_jax.py:202-209, `tensor.at[tuple(indices.T)].add(values)`: one value is broadcast; other lengths are an error. -/
def jaxPairs (indices : List (List ℤ)) (values : List ℂ) : Option (List (List ℤ × ℂ)) :=
  match values with
  | [v] => some (indices.map fun i => (i, v))
  | _ => if indices.length = values.length then some (indices.zip values) else none

/-- math/backend_jax.py:202-209 `update_add_tensor`: updates out of range are dropped (the default scatter mode); the argument is not changed. -/
def jaxAdd (t : Tens) (l : List (List ℤ × ℂ)) : Tens :=
  { t with get := fun j => t.get j + ((l.filter fun p => index t.shape p.1 = some j).map Prod.snd).sum }

/-! ## Specification -/

/-- The sum of all values whose index is the entry `k`. -/
def total (shape : List ℕ) (l : List (List ℤ × ℂ)) (k : List ℕ) : ℂ := (l.map fun p => if index shape p.1 = some k then p.2 else 0).sum

theorem sum_filter (l : List (List ℤ × ℂ)) (q : List ℤ × ℂ → Prop) [DecidablePred q] : ((l.filter fun p => q p).map Prod.snd).sum = (l.map fun p => if q p then p.2 else 0).sum := by
  induction l with
  | nil => rfl
  | cons p l ih =>
    rw [List.map_cons, List.sum_cons, ← ih]
    by_cases h : q p
    · rw [List.filter_cons_of_pos (by simpa using h), List.map_cons, List.sum_cons, if_pos h]
    · rw [List.filter_cons_of_neg (by simpa using h), if_neg h, zero_add]

theorem add_total (t : Tens) {i : List ℤ} {k : List ℕ} (v : ℂ) (h : index t.shape i = some k) (l : List (List ℤ × ℂ)) (j : List ℕ) :
    (t.add k v).get j + total t.shape l j = t.get j + total t.shape ((i, v) :: l) j := by
  unfold Tens.add total
  rw [List.map_cons, List.sum_cons, h]
  dsimp only
  by_cases hj : j = k
  · rw [if_pos hj, if_pos (by rw [hj])]; ring
  · rw [if_neg hj, if_neg (fun e => hj (Option.some.inj e).symm)]; ring

/-- **C116** with all indices in range, the numpy backend adds to each entry the sum of the values with this index (repeated indices accumulate), and returns. -/
theorem C116_numpy (l : List (List ℤ × ℂ)) : ∀ (t : Tens), (∀ p ∈ l, index t.shape p.1 ≠ none) →
    (numpyAdd t l).2 = true ∧ (numpyAdd t l).1.shape = t.shape ∧ ∀ k, (numpyAdd t l).1.get k = t.get k + total t.shape l k := by
  induction l with
  | nil => intro t _; exact ⟨rfl, rfl, fun k => (add_zero _).symm⟩
  | cons p l ih =>
    intro t h
    obtain ⟨i, v⟩ := p
    obtain ⟨k, hk⟩ := Option.ne_none_iff_exists'.1 (h (i, v) List.mem_cons_self)
    have e : numpyAdd t ((i, v) :: l) = numpyAdd (t.add k v) l := by
      rw [numpyAdd, hk]
    obtain ⟨h1, h2, h3⟩ := ih (t.add k v) fun p hp => h p (List.mem_cons_of_mem _ hp)
    rw [e]
    exact ⟨h1, h2, fun j => (h3 j).trans (add_total t v hk l j)⟩

/-- **C116** with one value per index and all indices in range, both backends return the same tensor; the order of the pairs does not matter. -/
theorem C116_agree (t : Tens) (indices : List (List ℤ)) (values : List ℂ) (hl : indices.length = values.length) (h : ∀ i ∈ indices, index t.shape i ≠ none) :
    ∃ l, jaxPairs indices values = some l ∧ (numpyAdd t (numpyPairs indices values)).2 = true ∧
      ∀ l', l'.Perm l → ∀ k, (numpyAdd t (numpyPairs indices values)).1.get k = (jaxAdd t l').get k := by
  have hp : jaxPairs indices values = some (indices.zip values) := by
    unfold jaxPairs
    match values, hl with
    | [], hl => exact if_pos hl
    | [v], hl =>
      obtain ⟨i, rfl⟩ := List.length_eq_one_iff.1 hl
      rfl
    | _ :: _ :: _, hl => exact if_pos hl
  obtain ⟨h1, _, h3⟩ := C116_numpy (numpyPairs indices values) t fun p hp => h p.1 (List.of_mem_zip hp).1
  refine ⟨_, hp, h1, fun l' hl' k => ?_⟩
  rw [h3]
  unfold jaxAdd total
  dsimp only
  rw [sum_filter]
  exact congrArg _ ((hl'.map _).sum_eq.symm)

/-- **C116, disagreement**: at an index out of range the numpy backend raises an error, with the updates before it already made in its argument; the JAX backend
leaves the update out and makes all others. -/
theorem C116_range (t : Tens) (l l' : List (List ℤ × ℂ)) (i : List ℤ) (v : ℂ) (h : ∀ p ∈ l, index t.shape p.1 ≠ none) (hi : index t.shape i = none) :
    (numpyAdd t (l ++ (i, v) :: l')).2 = false ∧ (∀ k, (numpyAdd t (l ++ (i, v) :: l')).1.get k = t.get k + total t.shape l k) ∧
    ∀ k, (jaxAdd t (l ++ (i, v) :: l')).get k = t.get k + total t.shape (l ++ l') k := by
  refine ⟨?_, ?_, fun k => ?_⟩
  · induction l generalizing t with
    | nil => rw [List.nil_append, numpyAdd, hi]
    | cons p l ih =>
      obtain ⟨j, w⟩ := p
      obtain ⟨k, hk⟩ := Option.ne_none_iff_exists'.1 (h (j, w) List.mem_cons_self)
      rw [List.cons_append, numpyAdd, hk]
      exact ih (t.add k w) (fun p hp => h p (List.mem_cons_of_mem _ hp)) hi
  · induction l generalizing t with
    | nil =>
      intro k
      rw [List.nil_append, numpyAdd, hi]
      exact (add_zero _).symm
    | cons p l ih =>
      obtain ⟨j, w⟩ := p
      obtain ⟨k, hk⟩ := Option.ne_none_iff_exists'.1 (h (j, w) List.mem_cons_self)
      intro m
      rw [List.cons_append, numpyAdd, hk]
      exact (ih (t.add k w) (fun p hp => h p (List.mem_cons_of_mem _ hp)) hi m).trans (add_total t w hk l m)
  · unfold jaxAdd total
    dsimp only
    rw [sum_filter, List.map_append, List.map_append, List.sum_append, List.sum_append, List.map_cons, List.sum_cons, hi, if_neg (by simp), zero_add]

/-- **C116, disagreement**: with one value and several indices the numpy backend updates the first index only, the JAX backend all. -/
theorem C116_one_value (t : Tens) (i : List ℤ) (indices : List (List ℤ)) (v : ℂ) (hi : index t.shape i ≠ none) :
    (∀ k, (numpyAdd t (numpyPairs (i :: indices) [v])).1.get k = t.get k + if index t.shape i = some k then v else 0) ∧
    ∃ l, jaxPairs (i :: indices) [v] = some l ∧
      ∀ k, (jaxAdd t l).get k = t.get k + (((i :: indices).filter fun j => index t.shape j = some k).length : ℂ) * v := by
  constructor
  · intro k
    have e : numpyPairs (i :: indices) [v] = [(i, v)] := by cases indices <;> rfl
    rw [e, (C116_numpy [(i, v)] t (by simpa using hi)).2.2 k]
    unfold total
    rw [List.map_cons, List.map_nil, List.sum_cons, List.sum_nil, add_zero]
  · refine ⟨_, rfl, fun k => ?_⟩
    unfold jaxAdd
    dsimp only
    refine congrArg _ ?_
    induction i :: indices with
    | nil => simp
    | cons j l ih =>
      rw [List.map_cons]
      by_cases h : index t.shape j = some k
      · rw [List.filter_cons_of_pos (by simpa using h), List.filter_cons_of_pos (by simpa using h), List.map_cons, List.sum_cons, ih, List.length_cons]
        push_cast
        ring
      · rw [List.filter_cons_of_neg (by simpa using h), List.filter_cons_of_neg (by simpa using h), ih]

/-- A negative index counts from the end, in both backends. -/
theorem C116_negative (n : ℕ) (a : ℕ) (h : a < n) : axis n ((a : ℤ) - n) = axis n a ∧ axis n a = some a := by
  have e : axis n a = some a := by
    unfold axis
    rw [if_pos ⟨by omega, by omega⟩, Int.toNat_natCast]
  refine ⟨?_, e⟩
  rw [e]
  unfold axis
  rw [if_neg (by omega), if_pos (by omega)]
  congr 1
  omega

/-- The indices in range are those from `-n` to `n - 1`. -/
theorem C116_in_range (n : ℕ) (i : ℤ) : axis n i = none ↔ i < -n ∨ n ≤ i := by
  unfold axis
  split_ifs with h1 h2
  · simp only [reduceCtorEq, false_iff]; omega
  · simp only [reduceCtorEq, false_iff]; omega
  · simp only [true_iff]; omega

/-- A multi-index is in range if it has one index per axis, each in range. -/
theorem C116_index (s : List ℕ) (t : List ℤ) : index s t ≠ none ↔ List.Forall₂ (fun (n : ℕ) (i : ℤ) => -n ≤ i ∧ i < n) s t := by
  induction s generalizing t with
  | nil => cases t with
    | nil => exact ⟨fun _ => .nil, fun _ => by simp [index]⟩
    | cons i t => exact ⟨fun h => absurd rfl h, fun h => nomatch h⟩
  | cons n s ih => cases t with
    | nil => exact ⟨fun h => absurd rfl h, fun h => nomatch h⟩
    | cons i t =>
      rw [List.forall₂_cons, ← ih t]
      have h := C116_in_range n i
      rw [show index (n :: s) (i :: t) = (axis n i).bind fun a => (index s t).map (a :: ·) from rfl]
      cases ha : axis n i with
      | none =>
        have := h.1 ha
        simp only [Option.bind_none, ne_eq, not_true_eq_false, false_iff, not_and]
        omega
      | some a =>
        have h' : ¬ (i < -n ∨ (n : ℤ) ≤ i) := fun e => by rw [h.2 e] at ha; cases ha
        simp only [Option.bind_some, ne_eq, Option.map_eq_none_iff]
        exact ⟨fun e => ⟨⟨by omega, by omega⟩, e⟩, fun e => e.2⟩

/-! ## `update_tensor` -/

/-- A tensor as the list of its slices along the first axis. -/
structure Rows (α : Type*) where
  n : ℕ
  row : ℕ → α

/-- math/backend_numpy.py:315-322 `update_tensor`: `tensor[indices] = values` with a list of indices of the first axis and one value per index; the last value wins.  `none`: IndexError, and
nothing is changed.  Otherwise the result is the argument itself, changed. -/
def numpySet {α : Type*} (t : Rows α) (l : List (ℤ × α)) : Option (Rows α) :=
  if ∀ p ∈ l, axis t.n p.1 ≠ none then
    some (l.foldl (fun t p => { t with row := fun j => if axis t.n p.1 = some j then p.2 else t.row j }) t)
  else none

/-- What math/backend_jax.py:193-199 `update_tensor` may return: every entry is the old one if no index names it, else one of the values for it (for repeated indices JAX does not say which).
Indices out of range are dropped; the argument is not changed. -/
def jaxSet {α : Type*} (t : Rows α) (l : List (ℤ × α)) (r : Rows α) : Prop :=
  r.n = t.n ∧ ∀ j, (∃ p ∈ l, axis t.n p.1 = some j ∧ r.row j = p.2) ∨ ((∀ p ∈ l, axis t.n p.1 ≠ some j) ∧ r.row j = t.row j)

theorem foldl_set {α : Type*} (l : List (ℤ × α)) : ∀ (t : Rows α),
    (l.foldl (fun (t : Rows α) p => { t with row := fun j => if axis t.n p.1 = some j then p.2 else t.row j }) t).n = t.n ∧
    ∀ j, (∃ l₁ p l₂, l = l₁ ++ p :: l₂ ∧ axis t.n p.1 = some j ∧ (∀ q ∈ l₂, axis t.n q.1 ≠ some j) ∧
        (l.foldl (fun (t : Rows α) p => { t with row := fun j => if axis t.n p.1 = some j then p.2 else t.row j }) t).row j = p.2) ∨
      ((∀ p ∈ l, axis t.n p.1 ≠ some j) ∧ (l.foldl (fun (t : Rows α) p => { t with row := fun j => if axis t.n p.1 = some j then p.2 else t.row j }) t).row j = t.row j) := by
  induction l with
  | nil => intro t; exact ⟨rfl, fun j => Or.inr ⟨by simp, rfl⟩⟩
  | cons p l ih =>
    intro t
    obtain ⟨h1, h2⟩ := ih { t with row := fun j => if axis t.n p.1 = some j then p.2 else t.row j }
    rw [List.foldl_cons]
    refine ⟨h1, fun j => ?_⟩
    rcases h2 j with ⟨l₁, q, l₂, e, h3, h4, h5⟩ | ⟨h3, h4⟩
    · exact Or.inl ⟨p :: l₁, q, l₂, by rw [e]; rfl, h3, h4, h5⟩
    · dsimp only at h3 h4
      by_cases hp : axis t.n p.1 = some j
      · refine Or.inl ⟨[], p, l, rfl, hp, h3, ?_⟩
        rw [h4, if_pos hp]
      · refine Or.inr ⟨?_, ?_⟩
        · intro q hq
          rcases List.mem_cons.1 hq with rfl | hq
          · exact hp
          · exact h3 q hq
        · rw [h4, if_neg hp]

/-- **C116** `update_tensor` of the numpy backend: each named row is the last value given for it, the others are kept; an error exactly if an index is out of range. -/
theorem C116_set {α : Type*} (t : Rows α) (l : List (ℤ × α)) :
    (numpySet t l = none ↔ ∃ p ∈ l, axis t.n p.1 = none) ∧
    ∀ r, numpySet t l = some r → r.n = t.n ∧ ∀ j,
      (∃ l₁ p l₂, l = l₁ ++ p :: l₂ ∧ axis t.n p.1 = some j ∧ (∀ q ∈ l₂, axis t.n q.1 ≠ some j) ∧ r.row j = p.2) ∨
      ((∀ p ∈ l, axis t.n p.1 ≠ some j) ∧ r.row j = t.row j) := by
  unfold numpySet
  constructor
  · split_ifs with h
    · simp only [reduceCtorEq, false_iff, not_exists, not_and]
      exact h
    · simp only [true_iff]
      push Not at h
      exact h
  · intro r hr
    split_ifs at hr
    cases hr
    exact foldl_set l t

/-- **C116** whatever JAX returns for `update_tensor` with distinct rows in range is what numpy returns. -/
theorem C116_set_agree {α : Type*} (t : Rows α) (l : List (ℤ × α)) (hd : l.Pairwise fun p q => axis t.n p.1 ≠ axis t.n q.1) (hr : ∀ p ∈ l, axis t.n p.1 ≠ none) (r : Rows α) :
    jaxSet t l r ↔ ∃ r', numpySet t l = some r' ∧ r'.n = r.n ∧ ∀ j, r'.row j = r.row j := by
  obtain ⟨r', h'⟩ : ∃ r', numpySet t l = some r' := ⟨_, if_pos hr⟩
  obtain ⟨hn, hj⟩ := (C116_set t l).2 r' h'
  have uniq : ∀ p ∈ l, ∀ q ∈ l, ∀ j, axis t.n p.1 = some j → axis t.n q.1 = some j → p = q := by
    intro p hp q hq j h1 h2
    by_contra hne
    haveI : Std.Symm (fun p q : ℤ × α => axis t.n p.1 ≠ axis t.n q.1) := ⟨fun _ _ h => h.symm⟩
    exact hd.forall hp hq hne (h1.trans h2.symm)
  constructor
  · rintro ⟨h1, h2⟩
    refine ⟨r', h', hn.trans h1.symm, fun j => ?_⟩
    rcases hj j with ⟨l₁, p, l₂, e, h3, _, h5⟩ | ⟨h3, h5⟩ <;> rcases h2 j with ⟨q, hq, h6, h7⟩ | ⟨h6, h7⟩
    · rw [h5, h7, uniq p (by rw [e]; simp) q hq j h3 h6]
    · exact absurd h3 (h6 p (by rw [e]; simp))
    · exact absurd h6 (h3 q hq)
    · rw [h5, h7]
  · rintro ⟨r₂, e, h1, h2⟩
    rw [h'] at e
    cases e
    refine ⟨h1.symm.trans hn, fun j => ?_⟩
    rcases hj j with ⟨l₁, p, l₂, e, h3, _, h5⟩ | ⟨h3, h5⟩
    · exact Or.inl ⟨p, by rw [e]; simp, h3, by rw [← h2, h5]⟩
    · exact Or.inr ⟨h3, by rw [← h2, h5]⟩

/-! ### Cases -/

/-- Two updates of the last entry of a 2 × 3 matrix, one with negative indices. -/
theorem C116_example : (numpyAdd ⟨[2, 3], fun _ => 1⟩ [([1, 2], 10), ([-1, -1], 5)]).1.get [1, 2] = 16 ∧
    (jaxAdd ⟨[2, 3], fun _ => 1⟩ [([1, 2], 10), ([-1, -1], 5), ([2, 0], 7)]).get [1, 2] = 16 ∧
    (numpyAdd ⟨[2, 3], fun _ => 1⟩ [([1, 2], 10), ([2, 0], 7)]).2 = false := by
  refine ⟨?_, ?_, ?_⟩
  · rw [(C116_numpy [([1, 2], 10), ([-1, -1], 5)] ⟨[2, 3], fun _ => 1⟩ (by decide)).2.2]
    unfold total
    rw [List.map_cons, List.map_cons, List.map_nil, if_pos (by decide), if_pos (by decide)]
    norm_num
  · unfold jaxAdd
    dsimp only
    rw [List.filter_cons_of_pos (by decide), List.filter_cons_of_pos (by decide), List.filter_cons_of_neg (by decide)]
    norm_num
  · exact (C116_range ⟨[2, 3], fun _ => 1⟩ [([1, 2], 10)] [] [2, 0] 7 (by decide) (by decide)).1

end Verif.Upd
