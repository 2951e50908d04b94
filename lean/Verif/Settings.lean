import Mathlib.Data.List.Basic
import Mathlib.Logic.Function.Basic
import Mathlib.Tactic.Common
import Mathlib.Data.Int.Basic

/-!
# Model of `mrmustard.settings` (C31, C32)

Attribute access, the frozen `__setattr__`, the properties `HBAR`, `SEED`, `CACHE_DIR`, the call/`with` protocol, and
programs built from them, including exceptions.  Values are opaque except where the code inspects them.
-/

namespace Verif.SettingsModel

abbrev Name := String

/-- Python values stored in settings.  `pyNone` is `None`, `int` an integer, `rng seed draws` a numpy generator
created from `seed` from which `draws` samples were taken, `other` anything else. -/
inductive V where
  | pyNone
  | int (i : Int)
  | rng (seed : Option Int) (draws : ℕ)
  | orig (kv : List (Name × V))
  | other (n : ℕ)

inductive Err where
  | attributeError | valueError | osError | user

/-- The environment: what `np.random.randint(0, 2**31-1)` returns the n-th time it is asked, and whether creating
a directory succeeds. -/
structure Env where
  rand : ℕ → ℕ
  mkdirOk : V → Bool

/-- The settings singleton: instance `__dict__`, and how often the global numpy generator was asked for a seed. -/
structure St where
  attr : Name → Option V
  asked : ℕ

/-- Names of class attributes of `Settings` other than the three properties (utils/settings.py:53-189: `_frozen`,
`_instance`, methods) together with the dunder names every Python object has. -/
def classNames : List Name :=
  ["_frozen", "_instance", "__new__", "__init__", "__call__", "__enter__", "__exit__", "__repr__", "__setattr__",
   "__class__", "__dict__", "__doc__", "__module__", "__weakref__", "__delattr__", "__dir__", "__eq__",
   "__format__", "__ge__", "__getattribute__", "__getstate__", "__gt__", "__hash__", "__init_subclass__",
   "__le__", "__lt__", "__ne__", "__reduce__", "__reduce_ex__", "__sizeof__", "__str__", "__subclasshook__"]

/-- utils/settings.py:60-105: the plain settings stored under their own name. -/
def plainNames : List Name :=
  ["AUTOSHAPE_PROBABILITY", "AUTOSHAPE_MAX", "AUTOSHAPE_MIN", "ATOL", "DEFAULT_FOCK_SIZE", "DEFAULT_REPRESENTATION",
   "DISCRETIZATION_METHOD", "DRAW_CIRCUIT_PARAMS", "EINSUM_OPTIMIZE", "PROGRESSBAR", "STABLE_FOCK_CONVERSION"]

/-- utils/settings.py:106-145: the settings implemented as properties. -/
def propNames : List Name := ["HBAR", "SEED", "CACHE_DIR"]

/-- All documented settings. -/
def publicNames : List Name := plainNames ++ propNames

/-- utils/settings.py:60-105: every instance attribute created by `__init__`. -/
def instanceNames : List Name :=
  plainNames ++ ["_hbar", "_seed", "rng", "_precision_bits_hermite_poly", "_cache_dir", "_original_values", "_frozen"]

def St.put (s : St) (k : Name) (v : V) : St := { s with attr := Function.update s.attr k (some v) }

/-- `np.random.default_rng(seed)`: `None` or a non-negative integer; a negative integer raises `ValueError` and so
(simplification: in numpy a `TypeError`) does anything else. -/
def defaultRng : V → Option V
  | .pyNone => some (.rng none 0)
  | .int i => if 0 ≤ i then some (.rng (some i) 0) else none
  | _ => none

/-- utils/settings.py:129-140 the `SEED` getter: draws a seed if it is `None`. -/
def getSeed (env : Env) (s : St) : St × Option V :=
  match s.attr "_seed" with
  | some .pyNone =>
    let v := V.int (env.rand s.asked)
    let s := (s.put "_seed" v).put "rng" (.rng (some (env.rand s.asked)) 0)
    ({ s with asked := s.asked + 1 }, some v)
  | x => (s, x)

/-- Attribute access `settings.k` (properties first, then the instance dictionary, then the class);
`none` is `AttributeError`. -/
def getattr (env : Env) (s : St) (k : Name) : St × Option V :=
  if k = "HBAR" then (s, s.attr "_hbar")
  else if k = "CACHE_DIR" then (s, s.attr "_cache_dir")
  else if k = "SEED" then getSeed env s
  else match s.attr k with
    | some v => (s, some v)
    | none => (s, if k ∈ classNames then some (.other 0) else none)

/-- utils/settings.py:129-145 the `SEED` setter: stores the value, then builds the generator. -/
def setSeed (s : St) (v : V) : St × Option Err :=
  let s := s.put "_seed" v
  match defaultRng v with
  | some r => (s.put "rng" r, none)
  | none => (s, some .valueError)

/-- utils/settings.py:108-118 the `CACHE_DIR` setter (values are taken to be `Path` objects already). -/
def setCacheDir (env : Env) (s : St) (v : V) : St × Option Err :=
  let s := s.put "_cache_dir" v
  if env.mkdirOk v then (s, none) else (s, some .osError)

/-- Whether `_frozen` is truthy; only the value `other 1`, written by `__init__`, is used for `True` and every other
value counts as false. -/
def frozen (s : St) : Bool := match s.attr "_frozen" with | some (.other 1) => true | _ => false

/-- utils/settings.py:183-189 `__setattr__`: `hasattr` evaluates the attribute (drawing a seed if the name
is `SEED` and it is `None`); assignments inside the property setters hit existing internal attributes and are
written directly. -/
def setattr (env : Env) (s : St) (k : Name) (v : V) : St × Option Err :=
  let r := if frozen s then getattr env s k else (s, some .pyNone)
  match r.2 with
  | none => (r.1, some .attributeError)
  | some _ =>
    if k = "HBAR" then (r.1.put "_hbar" v, none)
    else if k = "CACHE_DIR" then setCacheDir env r.1 v
    else if k = "SEED" then setSeed r.1 v
    else (r.1.put k v, none)

/-- Assign a list of settings in order, stopping at the first exception. -/
def setAll (env : Env) (s : St) : List (Name × V) → St × Option Err
  | [] => (s, none)
  | (k, v) :: rest =>
    match setattr env s k v with
    | (s, some e) => (s, some e)
    | (s, none) => setAll env s rest

/-- The dictionary comprehension `{k: getattr(self, k) for k in kwargs}`. -/
def readAll (env : Env) (s : St) : List Name → St × Option (List (Name × V))
  | [] => (s, some [])
  | k :: rest =>
    match getattr env s k with
    | (s, none) => (s, none)
    | (s, some v) =>
      match readAll env s rest with
      | (s, none) => (s, none)
      | (s, some l) => (s, some ((k, v) :: l))

/-- utils/settings.py:144-151 `settings(**kwargs)`. -/
def call (env : Env) (s : St) (kwargs : List (Name × V)) : St × Option Err :=
  match readAll env s (kwargs.map (·.1)) with
  | (s, none) => (s, some .attributeError)
  | (s, some l) => setAll env (s.put "_original_values" (.orig l)) kwargs

/-- utils/settings.py:157-160 `__exit__`. -/
def exit (env : Env) (s : St) : St × Option Err :=
  match s.attr "_original_values" with
  | some (.orig l) => setAll env s l
  | _ => (s, none)

/-- Programs using the settings. -/
inductive Stmt where
  | assign (k : Name) (v : V)
  | read (k : Name)
  /-- Drawing a sample from `settings.rng`. -/
  | draw
  | raise
  /-- A bare call `settings(**kwargs)`. -/
  | callS (kwargs : List (Name × V))
  /-- `with settings(**kwargs): body`. -/
  | withS (kwargs : List (Name × V)) (body : List Stmt)

mutual
/-- Python's statement semantics: state and pending exception. -/
def exec (env : Env) (s : St) : Stmt → St × Option Err
  | .assign k v => setattr env s k v
  | .read k => match getattr env s k with
    | (s, some _) => (s, none)
    | (s, none) => (s, some .attributeError)
  | .draw => match s.attr "rng" with
    | some (.rng sd n) => (s.put "rng" (.rng sd (n + 1)), none)
    | _ => (s, some .attributeError)
  | .raise => (s, some .user)
  | .callS kw => call env s kw
  | .withS kw body => match call env s kw with
    | (s, some e) => (s, some e)
    | (s, none) => match execAll env s body with
      | (s, e) => match exit env s with
        | (s, some e') => (s, some e')
        | (s, none) => (s, e)

def execAll (env : Env) (s : St) : List Stmt → St × Option Err
  | [] => (s, none)
  | c :: rest => match exec env s c with
    | (s, some e) => (s, some e)
    | (s, none) => execAll env s rest
end

/-! ## Specification -/

/-- What a user reads: the value of setting `k`. -/
def value (env : Env) (s : St) (k : Name) : Option V := (getattr env s k).2

/-- A state in which `__init__` has run and internals were not tampered with. -/
structure Wf (s : St) : Prop where
  names : ∀ k, (s.attr k).isSome ↔ k ∈ instanceNames
  frozen : s.attr "_frozen" = some (.other 1)

/-- Statements that touch the settings only by reading, drawing, raising, and assigning documented settings
(no nested use of the context manager). -/
def Flat : Stmt → Prop
  | .assign k _ => k ∈ publicNames
  | .read _ => True
  | .draw => True
  | .raise => True
  | .callS _ => False
  | .withS _ _ => False

/-- A value that may be restored: a valid seed, and a cache directory that can be created. -/
def Restorable (env : Env) (k : Name) (v : V) : Prop :=
  (k = "SEED" → ∃ i : ℕ, v = .int i) ∧ (k = "CACHE_DIR" → env.mkdirOk v = true)

/-! ## Proofs -/

theorem put_attr (s : St) (k v k') : (s.put k v).attr k' = if k' = k then some v else s.attr k' := by
  unfold St.put
  by_cases h : k' = k
  · subst h; simp
  · simp [h]

theorem Wf.put {s : St} (h : Wf s) {k : Name} (hk : k ∈ instanceNames) (hf : k ≠ "_frozen") (v) : Wf (s.put k v) := by
  constructor
  · intro k'
    rw [put_attr]
    split_ifs with e
    · subst e; simp [hk]
    · exact h.names k'
  · rw [put_attr, if_neg (Ne.symm hf)]; exact h.frozen

theorem Wf.isFrozen {s : St} (h : Wf s) : Verif.SettingsModel.frozen s = true := by
  unfold Verif.SettingsModel.frozen; rw [h.frozen]; rfl

theorem Wf.asked {s : St} (h : Wf s) (n) : Wf { s with asked := n } := ⟨h.names, h.frozen⟩

theorem getSeed_wf {env s} (h : Wf s) : Wf (getSeed env s).1 := by
  unfold getSeed
  split
  · exact ((h.put (by decide) (by decide) _).put (by decide) (by decide) _).asked _
  · exact h

theorem getattr_wf {env s} (h : Wf s) (k) : Wf (getattr env s k).1 := by
  unfold getattr
  split_ifs
  · exact h
  · exact h
  · exact getSeed_wf h
  · split <;> exact h
  · split <;> exact h

/-- The storage slot behind a documented setting. -/
def slot (k : Name) : Name :=
  if k = "HBAR" then "_hbar" else if k = "CACHE_DIR" then "_cache_dir" else if k = "SEED" then "_seed" else k

theorem slot_mem {k : Name} (h : k ∈ publicNames) : slot k ∈ instanceNames ∧ slot k ≠ "_frozen" ∧
    slot k ≠ "rng" ∧ slot k ≠ "_original_values" := by
  revert k; decide

theorem slot_inj {k k' : Name} (h : k ∈ publicNames) (h' : k' ∈ publicNames) (e : slot k = slot k') : k = k' := by
  have : ∀ k ∈ publicNames, ∀ k' ∈ publicNames, slot k = slot k' → k = k' := by decide
  exact this k h k' h' e

/-- Reading never changes a slot other than an unset seed. -/
theorem getattr_attr {env s} (k k' : Name) (h : k' ≠ "rng") (h2 : k' = "_seed" → s.attr "_seed" ≠ some .pyNone) :
    (getattr env s k).1.attr k' = s.attr k' := by
  unfold getattr getSeed
  split_ifs
  · rfl
  · rfl
  · split
    · rename_i e
      by_cases hk : k' = "_seed"
      · exact absurd e (h2 hk)
      · simp [put_attr, hk, h]
    · rfl
  · split <;> rfl
  · split <;> rfl

/-- Value of a documented setting in terms of its slot. -/
theorem value_slot {env s} {k : Name} (h : k ∈ publicNames) (hw : Wf s) (h2 : k = "SEED" → s.attr "_seed" ≠ some .pyNone) :
    value env s k = s.attr (slot k) := by
  have hp := slot_mem h
  have hs := (hw.names (slot k)).2 hp.1
  unfold value getattr
  unfold slot at hs ⊢
  split_ifs at hs ⊢ with e1 e2 e3
  · rfl
  · rfl
  · unfold getSeed
    split
    · rename_i e; exact absurd e (h2 e3)
    · rfl
  all_goals
    split
    · rename_i e; exact e.symm
    · rename_i e; rw [e] at hs; simp at hs

/-- Successful assignment of a documented setting. -/
theorem setattr_ok {env s s'} {k : Name} {v} (h : k ∈ publicNames) (hw : Wf s)
    (e : setattr env s k v = (s', none)) : Wf s' ∧ s'.attr (slot k) = some v ∧
    (∀ k', k' ≠ slot k → k' ≠ "rng" → s'.attr k' = s.attr k') := by
  have hp := slot_mem h
  have hg : ∀ k', k' ≠ slot k → k' ≠ "rng" → (getattr env s k).1.attr k' = s.attr k' := by
    intro k' h1 h2
    by_cases hs : k' = "_seed"
    · subst hs
      have hk : k ≠ "SEED" := by rintro rfl; exact h1 rfl
      unfold getattr
      split_ifs
      · rfl
      · rfl
      all_goals split <;> rfl
    · exact getattr_attr k k' h2 (fun h => absurd h hs)
  have hgw := getattr_wf (env := env) hw k
  unfold setattr at e
  simp only [hw.isFrozen, if_true] at e
  split at e
  · simp at e
  · unfold slot at hp hg ⊢
    by_cases c1 : k = "HBAR"
    · simp only [c1, if_true, Prod.mk.injEq, and_true] at e hp hg ⊢
      subst e
      refine ⟨?_, by simp [put_attr], ?_⟩
      · rw [← c1]; exact hgw.put hp.1 hp.2.1 _
      · intro k' h1 h2; rw [put_attr, if_neg h1]; exact hg k' h1 h2
    · simp only [c1, if_false] at e hp hg ⊢
      by_cases c2 : k = "CACHE_DIR"
      · simp only [c2, if_true, setCacheDir] at e hp hg ⊢
        split_ifs at e
        · simp only [Prod.mk.injEq, and_true] at e
          subst e
          refine ⟨?_, by simp [put_attr], ?_⟩
          · rw [← c2]; exact hgw.put hp.1 hp.2.1 _
          · intro k' h1 h2; rw [put_attr, if_neg h1]; exact hg k' h1 h2
        · simp at e
      · simp only [c2, if_false] at e hp hg ⊢
        by_cases c3 : k = "SEED"
        · simp only [c3, if_true, setSeed] at e hp hg ⊢
          split at e
          · simp only [Prod.mk.injEq, and_true] at e
            subst e
            refine ⟨?_, by simp [put_attr], ?_⟩
            · rw [← c3]; exact (hgw.put hp.1 hp.2.1 _).put (by decide) (by decide) _
            · intro k' h1 h2; rw [put_attr, if_neg h2, put_attr, if_neg h1]; exact hg k' h1 h2
          · simp at e
        · simp only [c3, if_false] at e hp hg ⊢
          simp only [Prod.mk.injEq, and_true] at e
          subst e
          refine ⟨hgw.put hp.1 hp.2.1 _, by simp [put_attr], ?_⟩
          intro k' h1 h2; rw [put_attr, if_neg h1]; exact hg k' h1 h2

/-- Assigning documented settings keeps the object well formed, even on failure, and only touches that slot and
the generator. -/
theorem setattr_wf {env s} {k : Name} {v} (h : k ∈ publicNames) (hw : Wf s) :
    Wf (setattr env s k v).1 ∧
    (∀ k', k' ≠ slot k → k' ≠ "rng" → (setattr env s k v).1.attr k' = s.attr k') := by
  rcases hr : setattr env s k v with ⟨s', (_ | e)⟩
  · have := setattr_ok h hw hr
    exact ⟨this.1, this.2.2⟩
  · have hp := slot_mem h
    have hg : ∀ k', k' ≠ slot k → k' ≠ "rng" → (getattr env s k).1.attr k' = s.attr k' := by
      intro k' h1 h2
      by_cases hs : k' = "_seed"
      · subst hs
        have hk : k ≠ "SEED" := by rintro rfl; exact h1 rfl
        unfold getattr
        split_ifs
        · rfl
        · rfl
        all_goals split <;> rfl
      · exact getattr_attr k k' h2 (fun h => absurd h hs)
    have hgw := getattr_wf (env := env) hw k
    unfold setattr at hr
    simp only [hw.isFrozen, if_true] at hr
    split at hr
    · simp only [Prod.mk.injEq] at hr
      obtain ⟨rfl, _⟩ := hr
      exact ⟨hgw, hg⟩
    · split_ifs at hr with c1 c2 c3
      · simp at hr
      · unfold setCacheDir at hr
        split_ifs at hr
        · simp at hr
        · simp only [Prod.mk.injEq] at hr
          obtain ⟨rfl, _⟩ := hr
          subst c2
          refine ⟨hgw.put hp.1 hp.2.1 _, ?_⟩
          intro k' h1 h2; show (St.put _ _ _).attr k' = _
          rw [put_attr]; exact (if_neg h1).trans (hg k' h1 h2)
      · unfold setSeed at hr
        split at hr
        · simp at hr
        · simp only [Prod.mk.injEq] at hr
          obtain ⟨rfl, _⟩ := hr
          subst c3
          refine ⟨hgw.put hp.1 hp.2.1 _, ?_⟩
          intro k' h1 h2; show (St.put _ _ _).attr k' = _
          rw [put_attr]; exact (if_neg h1).trans (hg k' h1 h2)
      · simp at hr

theorem setAll_ok {env s s'} {l : List (Name × V)} (hl : ∀ p ∈ l, p.1 ∈ publicNames) (hd : (l.map (·.1)).Nodup)
    (hw : Wf s) (e : setAll env s l = (s', none)) : Wf s' ∧ (∀ p ∈ l, s'.attr (slot p.1) = some p.2) ∧
    (∀ k', (∀ p ∈ l, k' ≠ slot p.1) → k' ≠ "rng" → s'.attr k' = s.attr k') := by
  induction l generalizing s with
  | nil =>
    simp only [setAll, Prod.mk.injEq, and_true] at e
    subst e
    exact ⟨hw, by simp, fun _ _ _ => rfl⟩
  | cons p l ih =>
    obtain ⟨k, v⟩ := p
    unfold setAll at e
    split at e
    · simp at e
    · rename_i s1 e1
      have hk := hl (k, v) (by simp)
      obtain ⟨w1, a1, o1⟩ := setattr_ok hk hw e1
      simp only [List.map_cons, List.nodup_cons] at hd
      obtain ⟨w2, a2, o2⟩ := ih (fun p hp => hl p (by simp [hp])) hd.2 w1 e
      refine ⟨w2, ?_, ?_⟩
      · intro p hp
        rcases List.mem_cons.1 hp with rfl | hp
        · rw [o2 _ _ (slot_mem hk).2.2.1, a1]
          intro q hq he
          have := slot_inj hk (hl q (by simp [hq])) he
          exact hd.1 (List.mem_map.2 ⟨q, hq, this.symm⟩)
        · exact a2 p hp
      · intro k' h1 h2
        rw [o2 k' (fun p hp => h1 p (by simp [hp])) h2, o1 k' (h1 (k, v) (by simp)) h2]

/-- Restoring always succeeds for restorable values. -/
theorem setattr_restorable {env s} {k : Name} {v} (h : k ∈ publicNames) (hw : Wf s) (hr : Restorable env k v) :
    (setattr env s k v).2 = none := by
  unfold setattr
  simp only [hw.isFrozen, if_true]
  have hsome : (getattr env s k).2.isSome := by
    have hp := slot_mem h
    have hs := (hw.names (slot k)).2 hp.1
    unfold slot at hs
    unfold getattr
    split_ifs at hs ⊢
    · exact hs
    · exact hs
    · unfold getSeed; split
      · rfl
      · exact hs
    all_goals
      split
      · rfl
      · rename_i e; rw [e] at hs; simp at hs
  split
  · rename_i e; rw [e] at hsome; simp at hsome
  · split_ifs with c1 c2 c3
    · rfl
    · unfold setCacheDir; rw [if_pos (hr.2 c2)]
    · unfold setSeed
      obtain ⟨i, rfl⟩ := hr.1 c3
      simp [defaultRng]
    · rfl

theorem setAll_restorable {env s} {l : List (Name × V)} (hl : ∀ p ∈ l, p.1 ∈ publicNames) (hw : Wf s)
    (hr : ∀ p ∈ l, Restorable env p.1 p.2) : (setAll env s l).2 = none := by
  induction l generalizing s with
  | nil => rfl
  | cons p l ih =>
    obtain ⟨k, v⟩ := p
    have hk := hl (k, v) (by simp)
    have h1 := setattr_restorable (env := env) hk hw (hr (k, v) (by simp))
    unfold setAll
    rcases e : setattr env s k v with ⟨s1, (_ | er)⟩
    · simp only
      exact ih (fun p hp => hl p (by simp [hp])) (setattr_ok hk hw e).1 (fun p hp => hr p (by simp [hp]))
    · rw [e] at h1; simp at h1

theorem readAll_ok {env s s'} {ks : List Name} {l} (hl : ∀ k ∈ ks, k ∈ publicNames) (hw : Wf s)
    (e : readAll env s ks = (s', some l)) : Wf s' ∧ l.map (·.1) = ks ∧
    (∀ p ∈ l, value env s p.1 = some p.2) ∧ (∀ k, k ∈ publicNames → k ≠ "SEED" → s'.attr (slot k) = s.attr (slot k)) ∧
    (s.attr "_seed" ≠ some .pyNone → s'.attr "_seed" = s.attr "_seed") ∧
    (s.attr "_seed" = some .pyNone → (∃ i : ℕ, s'.attr "_seed" = some (.int i)) ∨ s' = s) ∧
    ("SEED" ∉ ks → s' = s) := by
  induction ks generalizing s l with
  | nil =>
    simp only [readAll, Prod.mk.injEq, Option.some.injEq] at e
    obtain ⟨rfl, rfl⟩ := e
    exact ⟨hw, rfl, by simp, fun _ _ _ => rfl, fun _ => rfl, fun _ => Or.inr rfl, fun _ => rfl⟩
  | cons k ks ih =>
    unfold readAll at e
    split at e
    · simp at e
    · rename_i s1 v e1
      split at e
      · simp at e
      · rename_i s2 l2 e2
        simp only [Prod.mk.injEq, Option.some.injEq] at e
        obtain ⟨rfl, rfl⟩ := e
        have hk := hl k (by simp)
        have w1 : Wf s1 := by have := getattr_wf (env := env) hw k; rwa [e1] at this
        obtain ⟨w2, m2, v2, o2, p2, q2, r2⟩ := ih (fun k hk => hl k (by simp [hk])) w1 e2
        have hne : ∀ k, k ∈ publicNames → k ≠ "SEED" → slot k ≠ "_seed" := by decide
        have o1 : ∀ k', k' ∈ publicNames → k' ≠ "SEED" → s1.attr (slot k') = s.attr (slot k') := by
          intro k' h1 h2
          have := getattr_attr (env := env) (s := s) k (slot k') (slot_mem h1).2.2.1
            (fun h => absurd h (hne k' h1 h2))
          rwa [e1] at this
        have same : k ≠ "SEED" → s1 = s := by
          intro h
          unfold getattr at e1
          split_ifs at e1
          · exact (Prod.mk.inj e1).1.symm
          · exact (Prod.mk.inj e1).1.symm
          all_goals
            split at e1
            all_goals exact (Prod.mk.inj e1).1.symm
        have seed : s.attr "_seed" ≠ some .pyNone → s1 = s := by
          intro h
          by_cases hs : k = "SEED"
          · subst hs
            have : getattr env s "SEED" = getSeed env s := by simp [getattr]
            rw [this] at e1
            unfold getSeed at e1
            split at e1
            · rename_i hh; exact absurd hh h
            · exact (Prod.mk.inj e1).1.symm
          · exact same hs
        have seed2 : s.attr "_seed" = some .pyNone → k = "SEED" →
            s1.attr "_seed" = some (.int (env.rand s.asked)) ∧ v = .int (env.rand s.asked) := by
          intro h hs
          subst hs
          have : getattr env s "SEED" = getSeed env s := by simp [getattr]
          rw [this] at e1
          unfold getSeed at e1
          rw [h] at e1
          simp only [Prod.mk.injEq, Option.some.injEq] at e1
          obtain ⟨rfl, rfl⟩ := e1
          exact ⟨by simp [put_attr], rfl⟩
        refine ⟨w2, by simp [m2], ?_, ?_, ?_, ?_, ?_⟩
        · intro p hp
          rcases List.mem_cons.1 hp with rfl | hp
          · unfold value; rw [e1]
          · have hpk : p.1 ∈ ks := by rw [← m2]; exact List.mem_map.2 ⟨p, hp, rfl⟩
            have hpp := hl p.1 (by simp [hpk])
            have hv := v2 p hp
            by_cases hps : p.1 = "SEED"
            · by_cases h0 : s.attr "_seed" = some .pyNone
              · by_cases hs : k = "SEED"
                · obtain ⟨ha, hb⟩ := seed2 h0 hs
                  rw [hps] at hv ⊢
                  rw [value_slot (by decide) w1 (by intro _; rw [ha]; simp)] at hv
                  have hs1 : s1.attr (slot "SEED") = s1.attr "_seed" := rfl
                  rw [hs1, ha] at hv
                  rw [← hv]
                  unfold value
                  rw [← hs, e1, hb]
                · rw [← same hs]; exact hv
              · rw [← seed h0]; exact hv
            · rw [value_slot hpp hw (fun h => absurd h hps)]
              rw [value_slot hpp w1 (fun h => absurd h hps), o1 _ hpp hps] at hv
              exact hv
        · intro k' h1 h2
          rw [o2 k' h1 h2, o1 k' h1 h2]
        · intro h
          have := seed h; subst this
          exact p2 h
        · intro h
          by_cases hs : k = "SEED"
          · left
            obtain ⟨ha, hb⟩ := seed2 h hs
            exact ⟨_, by rw [p2 (by rw [ha]; simp), ha]⟩
          · have := same hs; subst this
            exact q2 h
        · intro h
          simp only [List.mem_cons, not_or] at h
          have := same (Ne.symm h.1); subst this
          exact r2 h.2

theorem exec_flat {env s} (hw : Wf s) {c : Stmt} (hf : Flat c) :
    Wf (exec env s c).1 ∧ (exec env s c).1.attr "_original_values" = s.attr "_original_values" := by
  cases c with
  | assign k v =>
    obtain ⟨h1, h2⟩ := setattr_wf (env := env) (v := v) hf hw
    exact ⟨h1, h2 _ (Ne.symm (slot_mem hf).2.2.2) (by decide)⟩
  | read k =>
    have h1 := getattr_wf (env := env) hw k
    have h2 := getattr_attr (env := env) (s := s) k "_original_values" (by decide) (fun h => absurd h (by decide))
    unfold exec
    split
    · rename_i e; rw [e] at h1 h2; exact ⟨h1, h2⟩
    · rename_i e; rw [e] at h1 h2; exact ⟨h1, h2⟩
  | draw =>
    unfold exec
    split
    · exact ⟨hw.put (by decide) (by decide) _, by simp [put_attr]⟩
    · exact ⟨hw, rfl⟩
  | raise => exact ⟨hw, rfl⟩
  | callS kw => exact absurd hf (by simp [Flat])
  | withS kw b => exact absurd hf (by simp [Flat])

theorem execAll_flat {env s} (hw : Wf s) {b : List Stmt} (hf : ∀ c ∈ b, Flat c) :
    Wf (execAll env s b).1 ∧ (execAll env s b).1.attr "_original_values" = s.attr "_original_values" := by
  induction b generalizing s with
  | nil => exact ⟨hw, rfl⟩
  | cons c b ih =>
    obtain ⟨h1, h2⟩ := exec_flat (env := env) hw (hf c (by simp))
    unfold execAll
    rcases e : exec env s c with ⟨s1, (_ | er)⟩
    · rw [e] at h1 h2
      obtain ⟨h3, h4⟩ := ih h1 (fun c hc => hf c (by simp [hc]))
      exact ⟨h3, h4.trans h2⟩
    · rw [e] at h1 h2
      exact ⟨h1, h2⟩

theorem getattr_noseed {env s} {k : Name} (h : k ≠ "SEED") : (getattr env s k).1 = s := by
  unfold getattr
  split_ifs
  · rfl
  · rfl
  all_goals split <;> rfl

theorem setattr_asked {env s} {k : Name} {v} (h : k ≠ "SEED") : (setattr env s k v).1.asked = s.asked := by
  unfold setattr
  have hg := getattr_noseed (env := env) (s := s) h
  cases hf : frozen s <;> simp only [if_true, Bool.false_eq_true, if_false]
  · split_ifs
    · rfl
    · unfold setCacheDir; simp only; split_ifs <;> rfl
    · rfl
  · split
    · rw [hg]
    · rw [hg]
      split_ifs
      · rfl
      · unfold setCacheDir; simp only; split_ifs <;> rfl
      · rfl

theorem setAll_asked {env s} {l : List (Name × V)} (h : "SEED" ∉ l.map (·.1)) :
    (setAll env s l).1.asked = s.asked := by
  induction l generalizing s with
  | nil => rfl
  | cons p l ih =>
    obtain ⟨k, v⟩ := p
    simp only [List.map_cons, List.mem_cons, not_or] at h
    have h1 := setattr_asked (env := env) (s := s) (v := v) (Ne.symm h.1)
    unfold setAll
    split
    · rename_i e; rw [e] at h1; exact h1
    · rename_i e; rw [e] at h1; rw [ih h.2]; exact h1

theorem value_congr {env s s'} {k : Name} (hk : k ∈ publicNames) (hw : Wf s) (hw' : Wf s')
    (h : s'.attr (slot k) = s.attr (slot k)) (ha : k = "SEED" → s'.asked = s.asked) :
    value env s' k = value env s k := by
  by_cases hs : k = "SEED"
  · subst hs
    have h' : s'.attr "_seed" = s.attr "_seed" := h
    have e : ∀ s, value env s "SEED" = (getSeed env s).2 := by intro s; simp [value, getattr]
    rw [e, e]
    unfold getSeed
    rw [h', ha rfl]
    split <;> rfl
  · rw [value_slot hk hw (fun h => absurd h hs), value_slot hk hw' (fun h => absurd h hs), h]

/-- **C31.** `with settings(**kwargs): body`, where the body reads, draws, raises and assigns documented settings:
if entering succeeds, then on exit — normal or by exception, whose identity is preserved — every setting named in
`kwargs` reads as it did before, whatever the body assigned to it, and every other setting reads as the body left
it.  (`Restorable`: the old seed is a valid seed and the old cache directory can be created, because the exit runs
the property setters.) -/
theorem C31_with_restores (env : Env) (s : St) (hw : Wf s) (kw : List (Name × V)) (body : List Stmt)
    (hk : ∀ p ∈ kw, p.1 ∈ publicNames) (hd : (kw.map (·.1)).Nodup)
    (hr : ∀ p ∈ kw, ∀ v, value env s p.1 = some v → Restorable env p.1 v)
    (hf : ∀ c ∈ body, Flat c) (henter : (call env s kw).2 = none) :
    let inside := execAll env (call env s kw).1 body
    let after := exec env s (.withS kw body)
    after.2 = inside.2 ∧
    (∀ k ∈ kw.map (·.1), value env after.1 k = value env s k) ∧
    (∀ k ∈ publicNames, k ∉ kw.map (·.1) → value env after.1 k = value env inside.1 k) := by
  intro inside after
  rcases hc : call env s kw with ⟨s1, (_ | e)⟩
  swap
  · rw [hc] at henter; simp at henter
  -- the call
  have hkn : ∀ k ∈ kw.map (·.1), k ∈ publicNames := by
    intro k h; obtain ⟨p, hp, rfl⟩ := List.mem_map.1 h; exact hk p hp
  have hcall := hc
  unfold call at hcall
  rcases hra : readAll env s (kw.map (·.1)) with ⟨s0, (_ | l)⟩
  · rw [hra] at hcall; simp at hcall
  rw [hra] at hcall
  simp only at hcall
  obtain ⟨w0, m0, v0, o0, p0, q0, r0⟩ := readAll_ok hkn hw hra
  have w0' : Wf (s0.put "_original_values" (.orig l)) := w0.put (by decide) (by decide) _
  obtain ⟨w1, a1, o1⟩ := setAll_ok hk hd w0' hcall
  have horig : s1.attr "_original_values" = some (.orig l) := by
    rw [o1 _ (fun p hp h => (slot_mem (hk p hp)).2.2.2 h.symm) (by decide)]
    simp [put_attr]
  -- the body
  obtain ⟨w2, h2⟩ := execAll_flat (env := env) w1 hf
  have hin : inside = execAll env s1 body := by show execAll env (call env s kw).1 body = _; rw [hc]
  rw [← hin] at w2 h2
  -- the exit
  have hl : ∀ p ∈ l, p.1 ∈ publicNames := by
    intro p hp; apply hkn; rw [← m0]; exact List.mem_map.2 ⟨p, hp, rfl⟩
  have hrest : ∀ p ∈ l, Restorable env p.1 p.2 := by
    intro p hp
    have : p.1 ∈ kw.map (·.1) := by rw [← m0]; exact List.mem_map.2 ⟨p, hp, rfl⟩
    obtain ⟨q, hq, he⟩ := List.mem_map.1 this
    have hv := v0 p hp
    rw [← he] at hv ⊢
    exact hr q hq _ hv
  have hex : exit env inside.1 = setAll env inside.1 l := by
    unfold exit; rw [h2, horig]
  have hok := setAll_restorable (env := env) hl w2 hrest
  rcases hse : setAll env inside.1 l with ⟨s3, (_ | e)⟩
  swap
  · rw [hse] at hok; simp at hok
  have hafter : after = (s3, inside.2) := by
    show exec env s (.withS kw body) = _
    unfold exec
    rw [hc]
    simp only
    rw [← hin, hex, hse]
  obtain ⟨w3, a3, o3⟩ := setAll_ok hl (by rw [m0]; exact hd) w2 hse
  rw [hafter]
  refine ⟨rfl, ?_, ?_⟩
  · intro k hkm
    have hkm' := hkm
    rw [← m0] at hkm'
    obtain ⟨p, hp, rfl⟩ := List.mem_map.1 hkm'
    have hpub := hl p hp
    rw [v0 p hp]
    have h3 := a3 p hp
    have hval : p.1 = "SEED" → s3.attr "_seed" ≠ some .pyNone := by
      intro h
      obtain ⟨i, hi⟩ := (hrest p hp).1 h
      rw [h, hi] at h3
      have h3' : s3.attr "_seed" = some (.int i) := h3
      rw [h3']; simp
    rw [value_slot hpub w3 hval, h3]
  · intro k hkp hkn'
    apply value_congr hkp w2 w3
    · apply o3 _ _ (slot_mem hkp).2.2.1
      intro p hp h
      have := slot_inj hkp (hl p hp) h
      apply hkn'
      rw [this, ← m0]
      exact List.mem_map.2 ⟨p, hp, rfl⟩
    · intro hks
      subst hks
      have := setAll_asked (env := env) (s := inside.1) (l := l) (by rw [m0]; exact hkn')
      rw [hse] at this
      exact this

/-- The settings object right after import (utils/settings.py:60-105), with arbitrary opaque values. -/
def initial : St :=
  ⟨fun k => if k = "_frozen" then some (.other 1) else if k = "_seed" then some (.int 7)
    else if k = "rng" then some (.rng (some 7) 0) else if k = "_original_values" then some (.orig [])
    else if k ∈ instanceNames then some (.other 2) else none, 0⟩

theorem initial_wf : Wf initial := by
  constructor
  · intro k
    unfold initial
    simp only
    split_ifs with h1 h2 h3 h4 h5
    · subst h1; simp; decide
    · subst h2; simp; decide
    · subst h3; simp; decide
    · subst h4; simp; decide
    · simp [h5]
    · simp [h5]
  · rfl

/-- The hypotheses of `C31_with_restores` are met, with an exception in the body. -/
example : ∃ env : Env, (call env initial [("HBAR", .other 5), ("SEED", .int 3)]).2 = none ∧
    (∀ p ∈ [("HBAR", V.other 5), ("SEED", .int 3)], ∀ v, value env initial p.1 = some v → Restorable env p.1 v) ∧
    (∀ c ∈ [Stmt.assign "HBAR" (.other 6), .draw, .raise], Flat c) := by
  refine ⟨⟨fun _ => 0, fun _ => true⟩, rfl, ?_, ?_⟩
  · intro p hp v hv
    simp only [List.mem_cons, List.not_mem_nil, or_false] at hp
    rcases hp with rfl | rfl
    · exact ⟨fun h => absurd h (by decide), fun _ => rfl⟩
    · refine ⟨fun _ => ?_, fun _ => rfl⟩
      have : value ⟨fun _ => 0, fun _ => true⟩ initial "SEED" = some (.int (7 : ℕ)) := rfl
      rw [this] at hv
      exact ⟨7, (Option.some.inj hv).symm⟩
  · intro c hc
    simp only [List.mem_cons, List.not_mem_nil, or_false] at hc
    rcases hc with rfl | rfl | rfl
    · show "HBAR" ∈ publicNames; decide
    · trivial
    · trivial

theorem setattr_plain {env s} (hw : Wf s) {k : Name} (hk : k ∈ plainNames) (v) :
    setattr env s k v = (s.put k v, none) := by
  have hp : k ∈ publicNames := List.mem_append_left _ hk
  have hne : k ≠ "HBAR" ∧ k ≠ "CACHE_DIR" ∧ k ≠ "SEED" := by revert k; decide
  have hs : slot k = k := by unfold slot; simp [hne]
  have hsome := (hw.names k).2 (List.mem_append_left _ hk)
  obtain ⟨x, hx⟩ := Option.isSome_iff_exists.1 hsome
  unfold setattr
  simp only [hw.isFrozen, if_true]
  have : getattr env s k = (s, some x) := by unfold getattr; simp [hne, hx]
  rw [this]
  simp [hne]

theorem call_plain {env s} (hw : Wf s) {k : Name} (hk : k ∈ plainNames) (v) :
    ∃ x, s.attr k = some x ∧ call env s [(k, v)] = ((s.put "_original_values" (.orig [(k, x)])).put k v, none) := by
  have hne : k ≠ "HBAR" ∧ k ≠ "CACHE_DIR" ∧ k ≠ "SEED" := by revert k; decide
  have hsome := (hw.names k).2 (List.mem_append_left _ hk)
  obtain ⟨x, hx⟩ := Option.isSome_iff_exists.1 hsome
  refine ⟨x, hx, ?_⟩
  have : getattr env s k = (s, some x) := by unfold getattr; simp [hne, hx]
  unfold call
  simp only [List.map_cons, List.map_nil, readAll, this]
  unfold setAll
  rw [setattr_plain (hw.put (by decide) (by decide) _) hk]
  rfl

theorem plain_facts : ∀ k ∈ plainNames, slot k = k ∧ k ≠ "HBAR" ∧ k ≠ "CACHE_DIR" ∧ k ≠ "SEED" ∧ k ≠ "_seed" := by
  decide

theorem plain_slot {k : Name} (hk : k ∈ plainNames) : k ≠ "_original_values" ∧ k ≠ "_frozen" := by
  revert k; decide

/-- **C31 is false for nested contexts**: `with settings(A=a): with settings(B=b): pass` never restores `A`
(for any two plain settings, equal or not, and any values): afterwards `A` still reads `a`. -/
theorem C31_nested_not_restored (env : Env) (s : St) (hw : Wf s) (A B : Name) (hA : A ∈ plainNames)
    (hB : B ∈ plainNames) (a b : V) :
    value env (exec env s (.withS [(A, a)] [.withS [(B, b)] []])).1 A = some a := by
  obtain ⟨x, hx, hc1⟩ := call_plain (env := env) hw hA a
  set s1 := (s.put "_original_values" (.orig [(A, x)])).put A a with hs1
  have w1 : Wf s1 := (hw.put (by decide) (by decide) _).put (List.mem_append_left _ hA) (plain_slot hA).2 _
  obtain ⟨y, hy, hc2⟩ := call_plain (env := env) w1 hB b
  set s2 := (s1.put "_original_values" (.orig [(B, y)])).put B b with hs2
  have w2 : Wf s2 := (w1.put (by decide) (by decide) _).put (List.mem_append_left _ hB) (plain_slot hB).2 _
  have ho2 : s2.attr "_original_values" = some (.orig [(B, y)]) := by
    rw [hs2, put_attr, if_neg (Ne.symm (plain_slot hB).1)]; simp [put_attr]
  have he2 : exit env s2 = (s2.put B y, none) := by
    unfold exit; rw [ho2]; simp only [setAll]; rw [setattr_plain w2 hB]
  have w3 : Wf (s2.put B y) := w2.put (List.mem_append_left _ hB) (plain_slot hB).2 _
  have he3 : exit env (s2.put B y) = ((s2.put B y).put B y, none) := by
    have : (s2.put B y).attr "_original_values" = some (.orig [(B, y)]) := by
      rw [put_attr, if_neg (Ne.symm (plain_slot hB).1), ho2]
    unfold exit; rw [this]; simp only [setAll]; rw [setattr_plain w3 hB]
  have hfin : (exec env s (.withS [(A, a)] [.withS [(B, b)] []])).1 = (s2.put B y).put B y := by
    simp only [exec, execAll, hc1, hc2, he2, he3]
  rw [hfin]
  have hp : A ∈ publicNames := List.mem_append_left _ hA
  have hsl : slot A = A := (plain_facts A hA).1
  have hAS : A ≠ "SEED" := (plain_facts A hA).2.2.2.1
  rw [value_slot hp (w3.put (List.mem_append_left _ hB) (plain_slot hB).2 _) (fun h => absurd h hAS), hsl]
  rw [put_attr, put_attr]
  by_cases h : A = B
  · subst h
    rw [if_pos rfl, ← hy, hs1]
    simp [put_attr]
  · rw [if_neg h, if_neg h, hs2, put_attr, if_neg h, put_attr, if_neg (plain_slot hA).1, hs1]
    simp [put_attr]

/-- **C31: a failing entry is not rolled back.** `with settings(A=a, SEED=-1): ...` raises `ValueError` before the
body runs, and `A` keeps the new value (and the invalid seed stays stored). -/
theorem C31_failed_entry_not_rolled_back (env : Env) (s : St) (hw : Wf s) (A : Name) (hA : A ∈ plainNames) (a : V)
    (i : ℕ) (hi : s.attr "_seed" = some (.int i)) (body : List Stmt) :
    let r := exec env s (.withS [(A, a), ("SEED", .int (-1))] body)
    r.2 = some .valueError ∧ value env r.1 A = some a ∧ value env r.1 "SEED" = some (.int (-1)) := by
  intro r
  have hne : A ≠ "HBAR" ∧ A ≠ "CACHE_DIR" ∧ A ≠ "SEED" ∧ A ≠ "_seed" := (plain_facts A hA).2
  obtain ⟨x, hx⟩ := Option.isSome_iff_exists.1 ((hw.names A).2 (List.mem_append_left _ hA))
  have g1 : getattr env s A = (s, some x) := by unfold getattr; simp [hne, hx]
  have g2 : getattr env s "SEED" = (s, some (.int i)) := by simp [getattr, getSeed, hi]
  set s0 := s.put "_original_values" (.orig [(A, x), ("SEED", .int i)]) with hs0
  have w0 : Wf s0 := hw.put (by decide) (by decide) _
  set s1 := s0.put A a with hs1
  have w1 : Wf s1 := w0.put (List.mem_append_left _ hA) (plain_slot hA).2 _
  have hseed1 : s1.attr "_seed" = some (.int i) := by
    rw [hs1, put_attr, if_neg (Ne.symm hne.2.2.2), hs0, put_attr, if_neg (by decide), hi]
  have g3 : getattr env s1 "SEED" = (s1, some (.int i)) := by simp [getattr, getSeed, hseed1]
  have hset : setattr env s1 "SEED" (.int (-1)) = (s1.put "_seed" (.int (-1)), some .valueError) := by
    unfold setattr
    simp only [w1.isFrozen, if_true, g3]
    simp [setSeed, defaultRng]
  have hcall : call env s [(A, a), ("SEED", .int (-1))] = (s1.put "_seed" (.int (-1)), some .valueError) := by
    unfold call
    simp only [List.map_cons, List.map_nil, readAll, g1, g2]
    unfold setAll
    rw [setattr_plain w0 hA]
    simp only
    unfold setAll
    rw [hset]
  have hr : r = (s1.put "_seed" (.int (-1)), some .valueError) := by
    show exec env s _ = _
    simp only [exec, hcall]
  have wf : Wf (s1.put "_seed" (.int (-1))) := w1.put (by decide) (by decide) _
  have hsl : slot A = A := (plain_facts A hA).1
  rw [hr]
  refine ⟨rfl, ?_, ?_⟩
  · rw [value_slot (List.mem_append_left _ hA) wf (fun h => absurd h hne.2.2.1), hsl, put_attr,
      if_neg hne.2.2.2, hs1]
    simp [put_attr]
  · rw [value_slot (by decide) wf (by intro _; simp [put_attr])]
    show (s1.put "_seed" _).attr "_seed" = _
    simp [put_attr]

/-- **C31: the random generator is not restored**: after drawing a sample, `with settings(SEED=n): ...` puts the
seed back but leaves a generator that replays the stream from its beginning. -/
theorem C31_rng_not_restored (env : Env) (s : St) (hw : Wf s) (i n d : ℕ) (hi : s.attr "_seed" = some (.int i))
    (hg : s.attr "rng" = some (.rng (some i) (d + 1))) :
    let r := exec env s (.withS [("SEED", .int n)] [])
    r.2 = none ∧ value env r.1 "SEED" = some (.int i) ∧ r.1.attr "rng" = some (.rng (some i) 0) ∧
      r.1.attr "rng" ≠ s.attr "rng" := by
  intro r
  have g1 : getattr env s "SEED" = (s, some (.int i)) := by simp [getattr, getSeed, hi]
  set s0 := s.put "_original_values" (.orig [("SEED", .int i)]) with hs0
  have w0 : Wf s0 := hw.put (by decide) (by decide) _
  have hset : ∀ (s : St) (j k : ℕ), Wf s → s.attr "_seed" = some (.int j) →
      setattr env s "SEED" (.int k) = ((s.put "_seed" (.int k)).put "rng" (.rng (some k) 0), none) := by
    intro s j k w h
    have g : getattr env s "SEED" = (s, some (.int j)) := by simp [getattr, getSeed, h]
    unfold setattr
    simp only [w.isFrozen, if_true, g]
    simp [setSeed, defaultRng]
  have h0 : s0.attr "_seed" = some (.int i) := by rw [hs0, put_attr, if_neg (by decide), hi]
  have hcall : call env s [("SEED", .int n)] = ((s0.put "_seed" (.int n)).put "rng" (.rng (some n) 0), none) := by
    unfold call
    simp only [List.map_cons, List.map_nil, readAll, g1]
    unfold setAll
    rw [hset s0 i n w0 h0]
    rfl
  set s1 := (s0.put "_seed" (.int n)).put "rng" (.rng (some n) 0) with hs1
  have w1 : Wf s1 := (w0.put (by decide) (by decide) _).put (by decide) (by decide) _
  have h1 : s1.attr "_seed" = some (.int n) := by simp [hs1, put_attr]
  have ho : s1.attr "_original_values" = some (.orig [("SEED", .int i)]) := by simp [hs1, hs0, put_attr]
  have he : exit env s1 = ((s1.put "_seed" (.int i)).put "rng" (.rng (some i) 0), none) := by
    unfold exit; rw [ho]; simp only [setAll]; rw [hset s1 n i w1 h1]
  have hr : r = ((s1.put "_seed" (.int i)).put "rng" (.rng (some i) 0), none) := by
    show exec env s _ = _
    simp only [exec, execAll, hcall, he]
  have wf : Wf r.1 := by
    rw [hr]; exact (w1.put (by decide) (by decide) _).put (by decide) (by decide) _
  refine ⟨by rw [hr], ?_, ?_, ?_⟩
  · have : r.1.attr "_seed" = some (.int i) := by rw [hr]; simp [put_attr]
    rw [value_slot (by decide) wf (by intro _; rw [this]; simp)]
    exact this
  · rw [hr]; simp [put_attr]
  · rw [hr, hg]; simp [put_attr]

/-! ## C32 -/

/-- A name that is neither a documented setting nor any other attribute of the object or its class. -/
def Unknown (k : Name) : Prop := k ∉ instanceNames ∧ k ∉ classNames ∧ k ∉ propNames

theorem getattr_unknown {env s} (hw : Wf s) {k : Name} (h : Unknown k) : getattr env s k = (s, none) := by
  have hn : s.attr k = none := by
    cases e : s.attr k with
    | none => rfl
    | some v => exact absurd ((hw.names k).1 (by simp [e])) h.1
  have h3 : k ≠ "HBAR" ∧ k ≠ "CACHE_DIR" ∧ k ≠ "SEED" := by
    have := h.2.2
    simp only [propNames, List.mem_cons, List.not_mem_nil, or_false, not_or] at this
    exact ⟨this.1, this.2.2, this.2.1⟩
  unfold getattr
  simp [h3, hn, h.2.1]

/-- **C32 (assignment).** Assigning an unknown setting raises `AttributeError` and changes nothing. -/
theorem C32_assign_unknown (env : Env) (s : St) (hw : Wf s) (k : Name) (h : Unknown k) (v : V) :
    exec env s (.assign k v) = (s, some .attributeError) := by
  show setattr env s k v = _
  unfold setattr
  simp only [hw.isFrozen, if_true, getattr_unknown hw h]

theorem readAll_attr {env s} (ks : List Name) (k' : Name) (h : k' ≠ "rng") (h2 : k' ≠ "_seed") :
    (readAll env s ks).1.attr k' = s.attr k' := by
  induction ks generalizing s with
  | nil => rfl
  | cons k ks ih =>
    have h1 := getattr_attr (env := env) (s := s) k k' h (fun e => absurd e h2)
    unfold readAll
    split
    · rename_i e; rw [e] at h1; exact h1
    · rename_i s1 v e; rw [e] at h1
      have h3 := ih (s := s1)
      split
      · rename_i e; rw [e] at h3; exact h3.trans h1
      · rename_i e; rw [e] at h3; exact h3.trans h1

theorem value_getattr {env s} (k k' : Name) (hw : Wf s) (hk : k' ∈ publicNames) :
    value env (getattr env s k).1 k' = value env s k' := by
  by_cases hs : k = "SEED"
  · subst hs
    have hg : getattr env s "SEED" = getSeed env s := by simp [getattr]
    rw [hg]
    by_cases h0 : s.attr "_seed" = some .pyNone
    · by_cases hk' : k' = "SEED"
      · subst hk'
        have e : ∀ s, value env s "SEED" = (getSeed env s).2 := by intro s; simp [value, getattr]
        rw [e, e]
        simp [getSeed, h0, put_attr]
      · apply value_congr hk hw (getSeed_wf hw)
        · have := getattr_attr (env := env) (s := s) "SEED" (slot k') (slot_mem hk).2.2.1 (by
            intro h; exfalso
            have : ∀ k ∈ publicNames, slot k = "_seed" → k = "SEED" := by decide
            exact hk' (this k' hk h))
          rwa [hg] at this
        · intro h; exact absurd h hk'
    · have : (getSeed env s).1 = s := by
        unfold getSeed
        split
        · rename_i e; exact absurd e h0
        · rfl
      rw [this]
  · rw [getattr_noseed hs]

theorem value_readAll {env s} (ks : List Name) (k' : Name) (hw : Wf s) (hk : k' ∈ publicNames) :
    value env (readAll env s ks).1 k' = value env s k' := by
  induction ks generalizing s with
  | nil => rfl
  | cons k ks ih =>
    have h1 := value_getattr (env := env) k k' hw hk
    have hw1 := getattr_wf (env := env) hw k
    unfold readAll
    split
    · rename_i e; rw [e] at h1; exact h1
    · rename_i s1 v e; rw [e] at h1 hw1
      have h3 := ih hw1
      split
      · rename_i e; rw [e] at h3; exact h3.trans h1
      · rename_i e; rw [e] at h3; exact h3.trans h1

theorem readAll_wf {env s} (ks : List Name) (hw : Wf s) : Wf (readAll env s ks).1 := by
  induction ks generalizing s with
  | nil => exact hw
  | cons k ks ih =>
    have hw1 := getattr_wf (env := env) hw k
    unfold readAll
    split
    · rename_i e; rw [e] at hw1; exact hw1
    · rename_i s1 v e; rw [e] at hw1
      have h3 := ih hw1
      split
      · rename_i e; rw [e] at h3; exact h3
      · rename_i e; rw [e] at h3; exact h3

theorem readAll_unknown {env s} (ks : List Name) (hw : Wf s) (h : ∃ k ∈ ks, Unknown k) :
    (readAll env s ks).2 = none := by
  induction ks generalizing s with
  | nil => simp at h
  | cons k ks ih =>
    have hw1 := getattr_wf (env := env) hw k
    unfold readAll
    split
    · rfl
    · rename_i s1 v e
      rw [e] at hw1
      have : ∃ k ∈ ks, Unknown k := by
        obtain ⟨k', hk', hu⟩ := h
        rcases List.mem_cons.1 hk' with rfl | hk'
        · rw [getattr_unknown hw hu] at e; simp at e
        · exact ⟨k', hk', hu⟩
      have h3 := ih hw1 this
      split
      · rfl
      · rename_i e; rw [e] at h3; simp at h3

/-- **C32 (context).** Calling `settings(...)` with an unknown name anywhere among the keywords raises
`AttributeError`, assigns none of the keywords, and every documented setting reads as before; used in a `with`
statement the body does not run. -/
theorem C32_call_unknown (env : Env) (s : St) (hw : Wf s) (kw : List (Name × V)) (h : ∃ p ∈ kw, Unknown p.1)
    (body : List Stmt) :
    let r := exec env s (.withS kw body)
    r = exec env s (.callS kw) ∧ r.2 = some .attributeError ∧ ∀ k ∈ publicNames, value env r.1 k = value env s k := by
  have h1 := readAll_unknown (env := env) (kw.map (·.1)) hw (by
    obtain ⟨p, hp, hu⟩ := h; exact ⟨p.1, List.mem_map.2 ⟨p, hp, rfl⟩, hu⟩)
  have h2 : call env s kw = ((readAll env s (kw.map (·.1))).1, some .attributeError) := by
    unfold call
    split
    · rename_i e; rw [e]
    · rename_i e; rw [e] at h1; simp at h1
  intro r
  have hr : r = ((readAll env s (kw.map (·.1))).1, some .attributeError) := by
    show exec env s (.withS kw body) = _
    simp only [exec, h2]
  refine ⟨?_, by rw [hr], ?_⟩
  · rw [hr]; simp only [exec, h2]
  · intro k hk; rw [hr]; exact value_readAll _ k hw hk

/-- Names a program may use without tampering with the object's internals. -/
def Untampering (k : Name) : Prop := k ∈ publicNames ∨ Unknown k

mutual
/-- A program assigning only documented or unknown names, arbitrarily nested. -/
def Clean : Stmt → Prop
  | .assign k _ => Untampering k
  | .read _ => True
  | .draw => True
  | .raise => True
  | .callS kw => ∀ p ∈ kw, Untampering p.1
  | .withS kw body => (∀ p ∈ kw, Untampering p.1) ∧ CleanAll body

def CleanAll : List Stmt → Prop
  | [] => True
  | c :: rest => Clean c ∧ CleanAll rest
end

/-- Invariant: well formed, and the saved values only mention documented settings. -/
def Inv (s : St) : Prop :=
  Wf s ∧ ∀ l, s.attr "_original_values" = some (.orig l) → ∀ p ∈ l, p.1 ∈ publicNames

theorem setattr_inv {env s} (h : Inv s) {k : Name} (hk : Untampering k) (v) : Inv (setattr env s k v).1 := by
  rcases hk with hk | hk
  · obtain ⟨h1, h2⟩ := setattr_wf (env := env) (v := v) hk h.1
    refine ⟨h1, ?_⟩
    rw [h2 _ (Ne.symm (slot_mem hk).2.2.2) (by decide)]
    exact h.2
  · have := C32_assign_unknown env s h.1 k hk v
    have e : setattr env s k v = (s, some .attributeError) := this
    rw [e]; exact h

theorem setAll_inv {env s} (h : Inv s) {l : List (Name × V)} (hl : ∀ p ∈ l, Untampering p.1) :
    Inv (setAll env s l).1 := by
  induction l generalizing s with
  | nil => exact h
  | cons p l ih =>
    obtain ⟨k, v⟩ := p
    have h1 := setattr_inv (env := env) h (hl (k, v) (by simp)) v
    unfold setAll
    split
    · rename_i e; rw [e] at h1; exact h1
    · rename_i e; rw [e] at h1; exact ih h1 (fun p hp => hl p (by simp [hp]))

theorem readAll_names {env s} (ks : List Name) (hw : Wf s) {s' l} (e : readAll env s ks = (s', some l)) :
    l.map (·.1) = ks ∧ ∀ k ∈ ks, ¬ Unknown k := by
  induction ks generalizing s s' l with
  | nil => simp only [readAll, Prod.mk.injEq, Option.some.injEq] at e; obtain ⟨_, rfl⟩ := e; simp
  | cons k ks ih =>
    have hw1 := getattr_wf (env := env) hw k
    unfold readAll at e
    split at e
    · simp at e
    · rename_i s1 v e1
      rw [e1] at hw1
      split at e
      · simp at e
      · rename_i s2 l2 e2
        simp only [Prod.mk.injEq, Option.some.injEq] at e
        obtain ⟨_, rfl⟩ := e
        obtain ⟨h1, h2⟩ := ih hw1 e2
        refine ⟨by simp [h1], ?_⟩
        intro k' hk'
        rcases List.mem_cons.1 hk' with rfl | hk'
        · intro hu; rw [getattr_unknown hw hu] at e1; simp at e1
        · exact h2 k' hk'

theorem call_inv {env s} (h : Inv s) {kw : List (Name × V)} (hk : ∀ p ∈ kw, Untampering p.1) :
    Inv (call env s kw).1 := by
  have hw1 := readAll_wf (env := env) (kw.map (·.1)) h.1
  have ho := readAll_attr (env := env) (s := s) (kw.map (·.1)) "_original_values" (by decide) (by decide)
  unfold call
  split
  · rename_i e; rw [e] at hw1 ho
    refine ⟨hw1, ?_⟩
    rw [ho]; exact h.2
  · rename_i s1 l e
    rw [e] at hw1
    apply setAll_inv _ hk
    refine ⟨hw1.put (by decide) (by decide) _, ?_⟩
    intro l' hl' p hp
    rw [put_attr, if_pos rfl] at hl'
    simp only [Option.some.injEq, V.orig.injEq] at hl'
    subst hl'
    obtain ⟨h1, h2⟩ := readAll_names _ h.1 e
    have hpk : p.1 ∈ kw.map (·.1) := by rw [← h1]; exact List.mem_map.2 ⟨p, hp, rfl⟩
    obtain ⟨q, hq, he⟩ := List.mem_map.1 hpk
    rcases hk q hq with h | h
    · rwa [he] at h
    · exact absurd (he ▸ h) (h2 _ hpk)

theorem exit_inv {env s} (h : Inv s) : Inv (exit env s).1 := by
  unfold exit
  split
  · rename_i l e
    exact setAll_inv h (fun p hp => Or.inl (h.2 l e p hp))
  · exact h

mutual
theorem exec_inv {env s} (h : Inv s) : (c : Stmt) → Clean c → Inv (exec env s c).1
  | .assign k v, hc => setattr_inv h hc v
  | .read k, _ => by
    have h1 := getattr_wf (env := env) h.1 k
    have h2 := getattr_attr (env := env) (s := s) k "_original_values" (by decide) (fun h => absurd h (by decide))
    unfold exec
    split
    · rename_i e; rw [e] at h1 h2; exact ⟨h1, by rw [h2]; exact h.2⟩
    · rename_i e; rw [e] at h1 h2; exact ⟨h1, by rw [h2]; exact h.2⟩
  | .draw, _ => by
    unfold exec
    split
    · exact ⟨h.1.put (by decide) (by decide) _, by rw [put_attr, if_neg (by decide)]; exact h.2⟩
    · exact h
  | .raise, _ => h
  | .callS kw, hc => call_inv h hc
  | .withS kw body, hc => by
    have h1 := call_inv (env := env) h hc.1
    unfold exec
    split
    · rename_i e; rw [e] at h1; exact h1
    · rename_i s1 e
      rw [e] at h1
      have h2 := execAll_inv (env := env) h1 body hc.2
      split
      rename_i s2 e2 he2
      rw [he2] at h2
      have h3 := exit_inv (env := env) h2
      split
      · rename_i e; rw [e] at h3; exact h3
      · rename_i e; rw [e] at h3; exact h3

theorem execAll_inv {env s} (h : Inv s) : (b : List Stmt) → CleanAll b → Inv (execAll env s b).1
  | [], _ => h
  | c :: rest, hc => by
    have h1 := exec_inv (env := env) h c hc.1
    unfold execAll
    split
    · rename_i e; rw [e] at h1; exact h1
    · rename_i e; rw [e] at h1; exact execAll_inv h1 rest hc.2
end

/-- **C32 (all histories).** After any program — nested contexts, exceptions, failed assignments of unknown names —
the attributes of the settings object are exactly those created at import, and it is still frozen. -/
theorem C32_names_never_grow (env : Env) (prog : List Stmt) (hc : CleanAll prog) (k : Name) :
    ((execAll env initial prog).1.attr k).isSome ↔ k ∈ instanceNames := by
  have : Inv initial := ⟨initial_wf, by
    intro l hl
    have : initial.attr "_original_values" = some (.orig []) := rfl
    rw [this] at hl
    simp only [Option.some.injEq, V.orig.injEq] at hl
    subst hl; simp⟩
  exact (execAll_inv this prog hc).1.names k

example : CleanAll [.withS [("HBAR", .other 3), ("HBRA", .other 3)] [.assign "TYPO" .pyNone], .assign "ATOL" (.other 9)] := by
  simp only [CleanAll, Clean, Untampering, Unknown, and_true]
  decide

end Verif.SettingsModel
