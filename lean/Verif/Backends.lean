import Mathlib.Data.List.Basic
import Mathlib.Data.List.Induction
import Mathlib.Order.Basic
import Mathlib.Data.Nat.Basic
import Mathlib.Tactic.SplitIfs
import Mathlib.Logic.Basic

/-!
# The backend manager (C108)

`mrmustard.math` is an instance of `BackendManager`.  The model keeps the object in use, the types bound to the manager and the class attribute
`instance`; the import of a backend may fail at any time (for example because jax is not installed).
-/

namespace Verif.Backends

/-! ## The code -/

/-- A backend object (mrmustard/math/backend_base.py 16-29): its identity and its name. -/
structure Backend where
  id : ℕ
  name : String
  deriving DecidableEq

/-- The exceptions that occur. -/
inductive Err
  | value
  | imp
  | notImplemented
  deriving DecidableEq

/-- What the code of the two backends provides: the functions, and the value of each type attribute (`numpy.complex128`, `jax.numpy.complex128`, ...). -/
structure World where
  fns : String → List String
  dtype : String → String → String

/-- The names bound by `_bind` (mrmustard/math/backend_manager.py 122-130). -/
def typeNames : List String := ["int32", "int64", "float32", "float64", "complex64", "complex128"]

/-- The manager: the backend in use, the attributes set by `_bind`, and the number of backend objects made so far. -/
structure Mgr where
  backend : Backend
  bound : String → Option String
  made : ℕ

/-- The process: the class attribute `_backend` (mrmustard/math/backend_manager.py 83) is the initial one; `inst` is the class attribute `instance`. -/
structure Proc where
  inst : Option Mgr

/-- `_bind` (mrmustard/math/backend_manager.py 118-131). -/
def bind (w : World) (m : Mgr) : Mgr :=
  { m with bound := fun n => if n ∈ typeNames then some (w.dtype m.backend.name n) else m.bound n }

/-- `__new__` and `__init__` (mrmustard/math/backend_manager.py 85-87, 132-138).  The first call makes the instance, whose `_backend` is the class
attribute; a later one returns it, after another `_bind`. -/
def construct (w : World) (p : Proc) : Mgr :=
  match p.inst with
  | some m => bind w m
  | none => bind w ⟨⟨0, "numpy"⟩, fun _ => none, 1⟩

/-- `get_backend` (mrmustard/math/backend_manager.py 180-212): the object, and the new count of objects.  `imports n` says whether importing the module of backend `n`
succeeds now. -/
def getBackend (m : Mgr) (imports : String → Bool) (n : String) : Except Err (Backend × ℕ) :=
  if n ∉ ["numpy", "jax"] then .error .value
  else if m.backend.name ≠ n then
    if imports n then .ok (⟨m.made, n⟩, m.made + 1) else .error .imp
  else .ok (m.backend, m.made)

/-- `change_backend` (mrmustard/math/backend_manager.py 167-178): the new manager, or the exception and the manager left behind. -/
def change (w : World) (m : Mgr) (imports : String → Bool) (n : String) : Mgr × Option Err :=
  if m.backend.name ≠ n then
    match getBackend m imports n with
    | .ok (b, k) => (bind w { m with backend := b, made := k }, none)
    | .error e => (m, some e)
  else (m, none)

/-- `_apply` (mrmustard/math/backend_manager.py 89-116): the backend object whose function is called; `some` backend name, if given and not empty, selects another backend
for this call. -/
def apply (w : World) (m : Mgr) (imports : String → Bool) (fn : String) (name : Option String) : Mgr × Except Err Backend :=
  match (match name with
    | some n => if n ≠ "" then getBackend m imports n else .ok (m.backend, m.made)
    | none => .ok (m.backend, m.made)) with
  | .error e => (m, .error e)
  | .ok (b, k) => ({ m with made := k }, if fn ∈ w.fns b.name then .ok b else .error .notImplemented)

/-- What a user does. -/
inductive Op
  | new
  | change (imports : String → Bool) (n : String)
  | get (imports : String → Bool) (n : String)
  | apply (imports : String → Bool) (fn : String) (name : Option String)

/-- One operation on the manager. -/
def step (w : World) (m : Mgr) : Op → Mgr
  | .new => construct w ⟨some m⟩
  | .change i n => (change w m i n).1
  | .get i n => match getBackend m i n with
    | .ok (_, k) => { m with made := k }
    | .error _ => m
  | .apply i f n => (apply w m i f n).1

/-- The manager after a history, from the import of mrmustard. -/
def run (w : World) (ops : List Op) : Mgr := ops.foldl (step w) (construct w ⟨none⟩)

/-! ## Specification -/

/-- The name that a history selects: the last one among `numpy` and `jax` whose import succeeded or was not needed, `numpy` if there is none. -/
def selected : List Op → String
  | [] => "numpy"
  | .change i n :: ops => if n ∈ ["numpy", "jax"] ∧ (i n = true ∨ selected ops = n) then n else selected ops
  | _ :: ops => selected ops

/-! ## Proofs -/

/-- The invariant. -/
structure Inv (w : World) (m : Mgr) : Prop where
  name : m.backend.name = "numpy" ∨ m.backend.name = "jax"
  types : ∀ n ∈ typeNames, m.bound n = some (w.dtype m.backend.name n)
  others : ∀ n ∉ typeNames, m.bound n = none
  fresh : m.backend.id < m.made

theorem inv_bind {w : World} {m : Mgr} (h1 : m.backend.name = "numpy" ∨ m.backend.name = "jax") (h2 : ∀ n ∉ typeNames, m.bound n = none)
    (h3 : m.backend.id < m.made) : Inv w (bind w m) :=
  ⟨h1, fun n hn => if_pos hn, fun n hn => (if_neg hn).trans (h2 n hn), h3⟩

theorem inv_start (w : World) : Inv w (construct w ⟨none⟩) := inv_bind (Or.inl rfl) (fun _ _ => rfl) Nat.zero_lt_one

theorem getBackend_ok {m : Mgr} {i : String → Bool} {n : String} {b : Backend} {k : ℕ} (h : getBackend m i n = .ok (b, k)) :
    b.name = n ∧ n ∈ ["numpy", "jax"] ∧ m.made ≤ k ∧ (m.backend.name = n → b = m.backend ∧ k = m.made) ∧
      (m.backend.name ≠ n → i n = true ∧ b.id = m.made ∧ k = m.made + 1) := by
  unfold getBackend at h
  split_ifs at h with h1 h2 h3
  · cases h
    exact ⟨rfl, h1, Nat.le_succ _, fun e => absurd e h2, fun _ => ⟨h3, rfl, rfl⟩⟩
  · cases h
    exact ⟨not_not.1 h2, h1, le_rfl, fun _ => ⟨rfl, rfl⟩, fun e => absurd (not_not.1 h2) e⟩

theorem inv_made {w : World} {m : Mgr} (h : Inv w m) {k : ℕ} (hk : m.made ≤ k) : Inv w { m with made := k } :=
  ⟨h.name, h.types, h.others, lt_of_lt_of_le h.fresh hk⟩

theorem apply_state {w : World} {m : Mgr} {i : String → Bool} {f : String} {n : Option String} :
    ∃ k, m.made ≤ k ∧ (apply w m i f n).1 = { m with made := k } := by
  unfold apply
  split
  · exact ⟨m.made, le_rfl, rfl⟩
  · rename_i b k hk
    refine ⟨k, ?_, rfl⟩
    split at hk
    · split_ifs at hk
      · exact (getBackend_ok hk).2.2.1
      · cases hk
        exact le_rfl
    · cases hk
      exact le_rfl

theorem get_state {w : World} {m : Mgr} {i : String → Bool} {n : String} : ∃ k, m.made ≤ k ∧ step w m (.get i n) = { m with made := k } := by
  rcases hb : getBackend m i n with e | ⟨b, k⟩
  · refine ⟨m.made, le_rfl, ?_⟩
    change (match getBackend m i n with | .ok (_, k) => _ | .error _ => m) = _
    rw [hb]
  · refine ⟨k, (getBackend_ok hb).2.2.1, ?_⟩
    change (match getBackend m i n with | .ok (_, k) => { m with made := k } | .error _ => m) = _
    rw [hb]

theorem inv_step {w : World} {m : Mgr} (h : Inv w m) (op : Op) : Inv w (step w m op) := by
  cases op with
  | new => exact inv_bind h.name h.others h.fresh
  | change i n =>
    change Inv w (Verif.Backends.change w m i n).1
    unfold Verif.Backends.change
    split_ifs with hn
    · rcases hb : getBackend m i n with e | ⟨b, k⟩
      · exact h
      · obtain ⟨h1, h2, h3, -, h5⟩ := getBackend_ok hb
        refine inv_bind ?_ h.others ?_
        · change b.name = _ ∨ b.name = _
          rw [h1]
          simpa using h2
        · change b.id < k
          rw [(h5 hn).2.1, (h5 hn).2.2]
          exact Nat.lt_succ_self _
    · exact h
  | get i n =>
    obtain ⟨k, hk, e⟩ := get_state (w := w) (m := m) (i := i) (n := n)
    rw [e]
    exact inv_made h hk
  | apply i f n =>
    obtain ⟨k, hk, e⟩ := apply_state (w := w) (m := m) (i := i) (f := f) (n := n)
    change Inv w (Verif.Backends.apply w m i f n).1
    rw [e]
    exact inv_made h hk

theorem inv_run (w : World) (ops : List Op) : Inv w (run w ops) := by
  unfold run
  suffices ∀ m, Inv w m → Inv w (ops.foldl (step w) m) from this _ (inv_start w)
  induction ops with
  | nil => exact fun m h => h
  | cons op ops ih => exact fun m h => ih _ (inv_step h op)

/-! ## C108 -/

/-- After every history the name of the backend in use is the one selected last, and every type attribute of `math` is the one of that backend. -/
theorem C108_history (w : World) (ops : List Op) : (run w ops).backend.name = selected ops.reverse ∧
    ∀ n ∈ typeNames, (run w ops).bound n = some (w.dtype (selected ops.reverse) n) := by
  have h : (run w ops).backend.name = selected ops.reverse := by
    induction ops using List.reverseRecOn with
    | nil => rfl
    | append_singleton ops op ih =>
      have hi := inv_run w ops
      have e : run w (ops ++ [op]) = step w (run w ops) op := by
        unfold run
        rw [List.foldl_append]
        rfl
      rw [e, List.reverse_append]
      change _ = selected (op :: ops.reverse)
      cases op with
      | new => exact ih
      | change i n =>
        change (Verif.Backends.change w _ i n).1.backend.name = if n ∈ ["numpy", "jax"] ∧ (i n = true ∨ selected ops.reverse = n) then n else selected ops.reverse
        unfold Verif.Backends.change
        rw [← ih]
        by_cases hn : (run w ops).backend.name = n
        · rw [if_neg (not_not.2 hn), hn]
          split_ifs <;> rfl
        · rw [if_pos hn]
          unfold getBackend
          by_cases hv : n ∈ ["numpy", "jax"]
          · rw [if_neg (not_not.2 hv), if_pos hn]
            by_cases hi : i n = true
            · rw [if_pos hi, if_pos ⟨hv, Or.inl hi⟩]
              rfl
            · rw [if_neg hi, if_neg (fun x => x.2.elim hi hn)]
          · rw [if_pos hv, if_neg (fun x => hv x.1)]
      | get i n =>
        obtain ⟨k, -, e⟩ := get_state (w := w) (m := run w ops) (i := i) (n := n)
        rw [e]
        exact ih
      | apply i f n =>
        obtain ⟨k, -, e⟩ := apply_state (w := w) (m := run w ops) (i := i) (f := f) (n := n)
        change (Verif.Backends.apply w (run w ops) i f n).1.backend.name = _
        rw [e]
        exact ih
  refine ⟨h, fun n hn => ?_⟩
  rw [← h]
  exact (inv_run w ops).types n hn

/-- An unknown name always raises a `ValueError`; it and a failing import leave the manager as it was; selecting the backend in use keeps the object; switching
makes a new one. -/
theorem C108_change (w : World) (ops : List Op) (i : String → Bool) (n : String) :
    (n ∉ ["numpy", "jax"] → change w (run w ops) i n = (run w ops, some .value)) ∧
    (n = (run w ops).backend.name → change w (run w ops) i n = (run w ops, none)) ∧
    (n ∈ ["numpy", "jax"] → n ≠ (run w ops).backend.name → i n = false → change w (run w ops) i n = (run w ops, some .imp)) ∧
    (n ∈ ["numpy", "jax"] → n ≠ (run w ops).backend.name → i n = true → (change w (run w ops) i n).2 = none ∧
      (change w (run w ops) i n).1.backend.name = n ∧ (change w (run w ops) i n).1.backend.id ≠ (run w ops).backend.id) := by
  have hi := inv_run w ops
  refine ⟨fun hn => ?_, fun hn => ?_, fun hv hn hf => ?_, fun hv hn ht => ?_⟩
  · have hne : (run w ops).backend.name ≠ n := by
      rintro rfl
      apply hn
      rcases hi.name with h | h <;> rw [h] <;> simp
    unfold change getBackend
    rw [if_pos hne, if_pos hn]
  · unfold change
    rw [if_neg (not_not.2 hn.symm)]
  · unfold change getBackend
    rw [if_pos hn.symm, if_neg (not_not.2 hv), if_pos hn.symm, if_neg (by rw [hf]; simp)]
  · unfold change getBackend
    rw [if_pos hn.symm, if_neg (not_not.2 hv), if_pos hn.symm, if_pos ht]
    exact ⟨rfl, rfl, fun e => absurd hi.fresh (by change (run w ops).made = _ at e; rw [e]; exact lt_irrefl _)⟩

/-- `get_backend(n)` returns a backend of that name or raises, and, like a call with an explicit backend, does not change the backend in use or the types. -/
theorem C108_get (w : World) (ops : List Op) (i : String → Bool) (n : String) :
    ((∃ b k, getBackend (run w ops) i n = .ok (b, k) ∧ b.name = n) ↔ n ∈ ["numpy", "jax"] ∧ (n = (run w ops).backend.name ∨ i n = true)) ∧
    (n = (run w ops).backend.name → ∃ k, getBackend (run w ops) i n = .ok ((run w ops).backend, k)) ∧
    (n ∉ ["numpy", "jax"] → getBackend (run w ops) i n = .error .value) ∧
    (step w (run w ops) (.get i n)).backend = (run w ops).backend ∧ (step w (run w ops) (.get i n)).bound = (run w ops).bound := by
  have hi := inv_run w ops
  have hcur : (run w ops).backend.name ∈ ["numpy", "jax"] := by rcases hi.name with h | h <;> rw [h] <;> simp
  refine ⟨⟨?_, ?_⟩, ?_, ?_, ?_⟩
  · rintro ⟨b, k, h, -⟩
    obtain ⟨-, h2, -, -, h5⟩ := getBackend_ok h
    refine ⟨h2, ?_⟩
    by_cases e : (run w ops).backend.name = n
    · exact Or.inl e.symm
    · exact Or.inr (h5 e).1
  · rintro ⟨hv, h⟩
    unfold getBackend
    rw [if_neg (not_not.2 hv)]
    by_cases e : (run w ops).backend.name = n
    · rw [if_neg (not_not.2 e)]
      exact ⟨_, _, rfl, e⟩
    · rw [if_pos e, if_pos (h.resolve_left fun x => e x.symm)]
      exact ⟨_, _, rfl, rfl⟩
  · rintro rfl
    unfold getBackend
    rw [if_neg (not_not.2 hcur), if_neg (not_not.2 rfl)]
    exact ⟨_, rfl⟩
  · intro hn
    unfold getBackend
    rw [if_pos hn]
  · obtain ⟨k, -, e⟩ := get_state (w := w) (m := run w ops) (i := i) (n := n)
    rw [e]
    exact ⟨rfl, rfl⟩

/-- A function call reaches the backend in use, or the named one; a function that backend does not have raises `NotImplementedError`; in no case the backend in use changes. -/
theorem C108_apply (w : World) (ops : List Op) (i : String → Bool) (fn : String) :
    (apply w (run w ops) i fn none).2 = (if fn ∈ w.fns (run w ops).backend.name then .ok (run w ops).backend else .error .notImplemented) ∧
    (∀ n, n ∈ ["numpy", "jax"] → n = (run w ops).backend.name ∨ i n = true →
      ((∃ b, (apply w (run w ops) i fn (some n)).2 = .ok b ∧ b.name = n) ↔ fn ∈ w.fns n) ∧
      (fn ∉ w.fns n → (apply w (run w ops) i fn (some n)).2 = .error .notImplemented)) ∧
    (∀ n, n ≠ "" → n ∉ ["numpy", "jax"] → (apply w (run w ops) i fn (some n)).2 = .error .value) ∧
    ∀ name, (apply w (run w ops) i fn name).1.backend = (run w ops).backend ∧ (apply w (run w ops) i fn name).1.bound = (run w ops).bound := by
  refine ⟨rfl, fun n hv h => ?_, fun n h0 hv => ?_, fun name => ?_⟩
  · obtain ⟨b, k, hb, hbn⟩ := (C108_get w ops i n).1.2 ⟨hv, h⟩
    have h0 : n ≠ "" := by
      rintro rfl
      revert hv
      decide
    have e : (apply w (run w ops) i fn (some n)).2 = if fn ∈ w.fns b.name then .ok b else .error .notImplemented := by
      unfold apply
      dsimp only
      rw [if_pos h0, hb]
    rw [e, hbn]
    refine ⟨⟨fun ⟨b', h1, _⟩ => ?_, fun h1 => ⟨b, if_pos h1, hbn⟩⟩, fun h1 => if_neg h1⟩
    by_contra h2
    rw [if_neg h2] at h1
    cases h1
  · unfold apply
    dsimp only
    rw [if_pos h0, (C108_get w ops i n).2.2.1 hv]
  · obtain ⟨k, -, e⟩ := apply_state (w := w) (m := run w ops) (i := i) (f := fn) (n := name)
    rw [e]
    exact ⟨rfl, rfl⟩

/-- Making another `BackendManager()` gives the same manager, with the same backend and types: it does not go back to numpy. -/
theorem C108_singleton (w : World) (ops : List Op) : construct w ⟨some (run w ops)⟩ = run w ops := by
  have hi := inv_run w ops
  unfold construct bind
  dsimp only
  have : (fun n => if n ∈ typeNames then some (w.dtype (run w ops).backend.name n) else (run w ops).bound n) = (run w ops).bound := by
    funext n
    split_ifs with h
    · exact (hi.types n h).symm
    · rfl
  rw [this]

/-- A history: select jax, use numpy for one call, ask for a backend that does not exist, fail to select numpy, and make another manager. -/
example (w : World) : (run w [.change (fun _ => true) "jax", .apply (fun _ => true) "sqrtm" (some "numpy"), .change (fun _ => true) "torch",
    .change (fun _ => false) "numpy", .new]).backend.name = "jax" := by
  rw [(C108_history w _).1]
  decide

end Verif.Backends
