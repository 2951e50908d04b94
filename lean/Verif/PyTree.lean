import Mathlib.Data.String.Basic
import Mathlib.Data.List.Sort
import Mathlib.Data.List.Nodup
import Mathlib.Data.List.GetD
import Mathlib.Tactic.SplitIfs
import Mathlib.Tactic.Cases

/-!
# Components as trees of parameters: what jax transformations and the optimizer do to them (C104)

Every jax transformation (`jit`, `grad`, `tree_map`, the update of the optimizer) takes an object apart into the list of its leaves and puts it together again with other leaves.
-/

namespace Verif.Tree

/-! ## The code -/

/-- A `Variable` (math/parameters.py 171-239). -/
structure Var (V : Type*) where
  value : V
  name : String
  bounds : Option V × Option V
  upd : String

/-- An argument of the function of an ansatz: a `Variable`, a `Constant` (math/parameters.py 121-169) or a plain value. -/
inductive Arg (V : Type*)
  | var (v : Var V)
  | const (value : V) (name : String)
  | plain (v : V)

/-- The value passed to the function (physics/ansatz/polyexp_ansatz.py 700-704). -/
def Arg.value {V : Type*} : Arg V → V
  | .var v => v.value
  | .const v _ => v
  | .plain v => v

/-- `type(param) is Variable`. -/
def Arg.isVar {V : Type*} : Arg V → Bool
  | .var _ => true
  | _ => false

/-- A `ParameterSet` (math/parameter_set.py 57-89); dictionaries are lists of pairs, a `Constant` is its value. -/
structure PSet (V : Type*) where
  names : List String
  constants : List (String × V)
  vars : List (String × Var V)

/-- An ansatz: function (of named arguments, a partial function of the name), arguments, computed data, and the remaining static data `X` (batch shape, `lin_sup`, name) (physics/ansatz/base.py 197-204, physics/ansatz/polyexp_ansatz.py 831-834,
physics/ansatz/array_ansatz.py 342-345). -/
structure Ans (V D X : Type*) where
  kwargs : List (String × Arg V)
  fn : (String → Option V) → Option D
  data : Option D
  aux : X

/-- What a read of the data of the ansatz gives (physics/ansatz/polyexp_ansatz.py 694-711, 823-829, physics/ansatz/array_ansatz.py 316-327, 335-340); `none` if it raises. -/
def Ans.read {V D X : Type*} (a : Ans V D X) : Option D :=
  if a.data.isNone || a.kwargs.any fun p => p.2.isVar then a.fn (fun k => (a.kwargs.lookup k).map Arg.value) else a.data

/-- A component (lab/circuit_components.py 68-82); `W` are its wires. -/
structure Comp (V D X W : Type*) where
  params : PSet V
  ansatz : Option (Ans V D X)
  wires : W
  name : String

/-- A dictionary is taken apart in the order of its keys, and put together in that order (`jax.tree_util`). -/
def sortKeys {α : Type*} (d : List (String × α)) : List (String × α) := d.insertionSort fun a b => a.1 ≤ b.1

/-- The leaves of an argument: `Variable._tree_flatten` (math/parameters.py 319-322), `Constant._tree_flatten` (math/parameters.py 159-162); a plain value is a leaf. -/
def Arg.leaves {V : Type*} : Arg V → List V
  | .var v => [v.value]
  | .const _ _ => []
  | .plain v => [v]

/-- The leaves of a component: `CircuitComponent._tree_flatten` (lab/circuit_components.py 854-857), `ParameterSet._tree_flatten` (math/parameter_set.py 176-179), `Ansatz._tree_flatten`
(physics/ansatz/base.py 197-204).  (`None` has no leaves.) -/
def Comp.leaves {V D X W : Type*} (c : Comp V D X W) : List V :=
  (sortKeys c.params.vars).map (·.2.value) ++ match c.ansatz with
    | none => []
    | some a => (sortKeys a.kwargs).flatMap fun p => p.2.leaves

/-- `ParameterSet._tree_unflatten` (math/parameter_set.py 91-100), with `Variable._tree_unflatten` (math/parameters.py 240-245) for each variable. -/
def PSet.fill {V : Type*} (s : PSet V) (l : List V) : PSet V :=
  { s with vars := List.zipWith (fun p v => (p.1, { p.2 with value := v })) (sortKeys s.vars) l }

/-- The arguments put together again with new leaves (math/parameters.py 153-157, 240-245). -/
def fillArgs {V : Type*} : List (String × Arg V) → List V → List (String × Arg V)
  | [], _ => []
  | (k, .const v n) :: d, l => (k, .const v n) :: fillArgs d l
  | (k, .var v) :: d, x :: l => (k, .var { v with value := x }) :: fillArgs d l
  | (k, .plain _) :: d, x :: l => (k, .plain x) :: fillArgs d l
  | p :: d, [] => p :: fillArgs d []

/-- `parameters.all_parameters[name]` (math/parameter_set.py 62-67): the union of dictionaries prefers the variables; `none` is a KeyError. -/
def PSet.get {V : Type*} (s : PSet V) (n : String) : Option (Arg V) :=
  match s.vars.lookup n with
  | some v => some (.var v)
  | none => (s.constants.lookup n).map fun v => .const v n

/-- The loop of `CircuitComponent._tree_unflatten` (lab/circuit_components.py 370-375): every variable of the ansatz becomes the parameter with its name. -/
def rebind {V : Type*} (s : PSet V) (d : List (String × Arg V)) : Option (List (String × Arg V)) :=
  d.mapM fun p => match p.2 with
    | .var v => (s.get v.name).map fun q => (p.1, q)
    | q => some (p.1, q)

/-- `CircuitComponent._tree_unflatten` (lab/circuit_components.py 364-377) on a list of leaves; `none` if it raises (KeyError, or AttributeError without an ansatz) or the number of leaves is wrong. -/
def Comp.unflatten {V D X W : Type*} (c : Comp V D X W) (l : List V) : Option (Comp V D X W) :=
  if l.length ≠ c.leaves.length then none
  else match c.ansatz with
    | none => none
    | some a =>
      let s := c.params.fill (l.take c.params.vars.length)
      (rebind s (fillArgs (sortKeys a.kwargs) (l.drop c.params.vars.length))).map fun k => { c with params := s, ansatz := some { a with kwargs := k } }

/-- A circuit (lab/circuits.py 76-84). -/
structure Circ (V D X W : Type*) where
  components : List (Comp V D X W)
  path : List (ℕ × ℕ)

/-- `Circuit._tree_flatten` (lab/circuits.py 283-286). -/
def Circ.leaves {V D X W : Type*} (c : Circ V D X W) : List V := c.components.flatMap Comp.leaves

/-- Putting a list of components together: each takes as many leaves as it has. -/
def unflattenAll {V D X W : Type*} : List (Comp V D X W) → List V → Option (List (Comp V D X W))
  | [], l => if l = [] then some [] else none
  | c :: cs, l => do
    let c' ← c.unflatten (l.take c.leaves.length)
    let cs' ← unflattenAll cs (l.drop c.leaves.length)
    pure (c' :: cs')

/-- `Circuit._tree_unflatten` (lab/circuits.py 100-105). -/
def Circ.unflatten {V D X W : Type*} (c : Circ V D X W) (l : List V) : Option (Circ V D X W) := (unflattenAll c.components l).map fun cs => { c with components := cs }

/-- The labels of the optimizer (training/optimizer.py 192-196): `str(node.update_fn)` at every variable; `none` if some leaf is not a variable (AttributeError). -/
def Comp.labels {V D X W : Type*} (c : Comp V D X W) : Option (List String) :=
  (((sortKeys c.params.vars).map fun p => some p.2.upd) ++ match c.ansatz with
    | none => []
    | some a => (sortKeys a.kwargs).flatMap fun p => match p.2 with
      | .var v => [some v.upd]
      | .const _ _ => []
      | .plain _ => [none]).mapM id

/-! ## Specification -/

/-- A component as the constructors of the library build it: dictionaries without repeated keys, variables stored under their names, which are not names of constants, and every variable of the ansatz is the
parameter of the component with that name. -/
structure Comp.Built {V D X W : Type*} (c : Comp V D X W) (a : Ans V D X) : Prop where
  ansatz : c.ansatz = some a
  vnodup : (c.params.vars.map (·.1)).Nodup
  vname : ∀ p ∈ c.params.vars, p.2.name = p.1
  knodup : (a.kwargs.map (·.1)).Nodup
  bound : ∀ p ∈ a.kwargs, ∀ v, p.2 = .var v → (v.name, v) ∈ c.params.vars

/-- The position of the variable `n` among the leaves: the variables come first, in alphabetical order. -/
def varPos {V : Type*} (s : PSet V) (n : String) : ℕ := s.vars.countP fun p => p.1 < n

/-- The position of the argument `k` among the leaves of the ansatz: alphabetical order, constants are no leaves. -/
def argPos {V : Type*} (d : List (String × Arg V)) (k : String) : ℕ :=
  d.countP fun p => decide (p.1 < k) && (match p.2 with | .const _ _ => false | _ => true)

/-- The value of the argument stored under `k` in the new component. -/
def newValue {V D X W : Type*} [Inhabited V] (c : Comp V D X W) (a : Ans V D X) (l : List V) (k : String) : Arg V → V
  | .var v => l.getD (varPos c.params v.name) default
  | .const v _ => v
  | .plain _ => l.getD (c.params.vars.length + argPos a.kwargs k) default

/-! ## Proofs -/

section lists
variable {α : Type*}

/-- Strictly increasing keys. -/
abbrev Inc (d : List (String × α)) : Prop := d.Pairwise fun a b => a.1 < b.1

theorem sortKeys_perm (d : List (String × α)) : (sortKeys d).Perm d := List.perm_insertionSort _ _

theorem sortKeys_inc {d : List (String × α)} (h : (d.map (·.1)).Nodup) : Inc (sortKeys d) := by
  have h1 : (sortKeys d).Pairwise fun a b => a.1 ≤ b.1 := by
    haveI : IsTotal (String × α) fun a b => a.1 ≤ b.1 := ⟨fun a b => le_total a.1 b.1⟩
    haveI : IsTrans (String × α) fun a b => a.1 ≤ b.1 := ⟨fun a b c => le_trans⟩
    exact List.pairwise_insertionSort _ d
  have h2 : (sortKeys d).Pairwise fun a b => a.1 ≠ b.1 := by
    have := ((sortKeys_perm d).map (·.1)).nodup_iff.2 h
    exact List.pairwise_map.1 this
  exact (h1.and h2).imp fun h => lt_of_le_of_ne h.1 h.2

theorem Inc.nodup {d : List (String × α)} (h : Inc d) : (d.map (·.1)).Nodup := List.pairwise_map.2 (h.imp fun h => ne_of_lt h)

theorem lookup_of_mem {d : List (String × α)} (h : (d.map (·.1)).Nodup) {k : String} {x : α} (hm : (k, x) ∈ d) : d.lookup k = some x := by
  induction d with
  | nil => exact absurd hm (by simp)
  | cons p d ih =>
    rw [List.map_cons, List.nodup_cons] at h
    rcases List.mem_cons.1 hm with e | hm
    · rw [← e, List.lookup_cons_self]
    · have : k ≠ p.1 := fun e => h.1 (e ▸ List.mem_map_of_mem hm)
      rw [List.lookup_cons, beq_false_of_ne this]
      exact ih h.2 hm

theorem mem_of_lookup {d : List (String × α)} {k : String} {x : α} (h : d.lookup k = some x) : (k, x) ∈ d := by
  induction d with
  | nil => exact absurd h (by simp)
  | cons p d ih =>
    rw [List.lookup_cons] at h
    by_cases e : k = p.1
    · rw [e, beq_self_eq_true] at h
      rw [e, ← Option.some.inj h]
      exact List.mem_cons_self
    · rw [beq_false_of_ne e] at h
      exact List.mem_cons_of_mem _ (ih h)

theorem lookup_perm {d e : List (String × α)} (h : (d.map (·.1)).Nodup) (hp : d.Perm e) (k : String) : d.lookup k = e.lookup k := by
  rcases e1 : d.lookup k with _ | x
  · rcases e2 : e.lookup k with _ | y
    · rfl
    · exact absurd (lookup_of_mem h (hp.mem_iff.2 (mem_of_lookup e2))) (by rw [e1]; simp)
  · exact (lookup_of_mem ((hp.map _).nodup_iff.1 h) (hp.mem_iff.1 (mem_of_lookup e1))).symm

theorem lookup_map {β : Type*} (g : String → α → β) (d : List (String × α)) (k : String) : (d.map fun p => (p.1, g p.1 p.2)).lookup k = (d.lookup k).map (g k) := by
  induction d with
  | nil => rfl
  | cons p d ih =>
    rw [List.map_cons, List.lookup_cons, List.lookup_cons]
    by_cases e : k = p.1
    · rw [e, beq_self_eq_true]
      rfl
    · rw [beq_false_of_ne e]
      exact ih

theorem mapM_some {β γ : Type*} (f : β → Option γ) (g : β → γ) (d : List β) (h : ∀ p ∈ d, f p = some (g p)) : d.mapM f = some (d.map g) := by
  induction d with
  | nil => rfl
  | cons p d ih =>
    rw [List.mapM_cons, h p List.mem_cons_self, ih fun q hq => h q (List.mem_cons_of_mem _ hq)]
    rfl

theorem mapM_none {β γ : Type*} (f : β → Option γ) (d : List β) {p : β} (hp : p ∈ d) (h : f p = none) : d.mapM f = none := by
  induction d with
  | nil => exact absurd hp (by simp)
  | cons q d ih =>
    rw [List.mapM_cons]
    rcases List.mem_cons.1 hp with e | hp
    · rw [← e, h]
      rfl
    · rw [ih hp]
      rcases f q with _ | x <;> rfl

end lists

section fill
variable {V : Type*} [Inhabited V]

/-- Filling the variables. -/
theorem zip_fill {s : List (String × Var V)} (h : Inc s) (l : List V) (hl : l.length = s.length) :
    List.zipWith (fun p v => (p.1, { p.2 with value := v })) s l = s.map fun p => (p.1, { p.2 with value := l.getD (s.countP fun q => q.1 < p.1) default }) := by
  induction s generalizing l with
  | nil => rfl
  | cons q s ih =>
    rcases l with _ | ⟨x, l⟩
    · exact absurd hl (by simp)
    · obtain ⟨h1, h2⟩ := List.pairwise_cons.1 h
      have h0 : (q :: s).countP (fun r => r.1 < q.1) = 0 := by
        rw [List.countP_eq_zero]
        intro r hr
        rcases List.mem_cons.1 hr with e | hr
        · rw [e]
          simp
        · have := h1 r hr
          rw [decide_eq_true_eq]
          exact not_lt.2 (le_of_lt this)
      rw [List.zipWith_cons_cons, List.map_cons, h0, ih h2 l (by simpa using hl)]
      refine congrArg ((q.1, ({ q.2 with value := x } : Var V)) :: ·) ?_
      refine List.map_congr_left fun r hr => ?_
      rw [List.countP_cons_of_pos (by simpa using h1 r hr), List.getD_cons_succ]

/-- The argument after filling, before rebinding. -/
def filled (s : List (String × Arg V)) (l : List V) (p : String × Arg V) : String × Arg V :=
  (p.1, match p.2 with
    | .var v => .var { v with value := l.getD (argPos s p.1) default }
    | .const v n => .const v n
    | .plain _ => .plain (l.getD (argPos s p.1) default))

theorem argPos_head {q : String × Arg V} {s : List (String × Arg V)} (h : Inc (q :: s)) : argPos (q :: s) q.1 = 0 := by
  unfold argPos
  rw [List.countP_eq_zero]
  intro r hr
  rcases List.mem_cons.1 hr with e | hr
  · rw [e]
    simp
  · have := (List.pairwise_cons.1 h).1 r hr
    have h3 : ¬ r.1 < q.1 := not_lt.2 (le_of_lt this)
    simp [h3]

theorem argPos_tail {q : String × Arg V} {s : List (String × Arg V)} (h : Inc (q :: s)) {r : String × Arg V} (hr : r ∈ s) :
    argPos (q :: s) r.1 = argPos s r.1 + match q.2 with | .const _ _ => 0 | _ => 1 := by
  have h1 := (List.pairwise_cons.1 h).1 r hr
  unfold argPos
  rw [List.countP_cons]
  rcases q with ⟨k, q⟩
  cases q <;> simp [show k < r.1 from h1]

theorem fillArgs_eq {s : List (String × Arg V)} (h : Inc s) (l : List V) (hl : l.length = (s.flatMap fun p => p.2.leaves).length) : fillArgs s l = s.map (filled s l) := by
  induction s generalizing l with
  | nil => rfl
  | cons q s ih =>
    have h2 := (List.pairwise_cons.1 h).2
    have h0 := argPos_head h
    have ht := fun r hr => argPos_tail h (r := r) hr
    rcases q with ⟨k, q⟩
    cases q with
    | const v n =>
      have hl' : l.length = (s.flatMap fun p => p.2.leaves).length := by simpa [Arg.leaves] using hl
      unfold fillArgs
      rw [List.map_cons, ih h2 l hl']
      refine congrArg ((k, Arg.const v n) :: ·) (List.map_congr_left fun r hr => ?_)
      have := ht r hr
      dsimp only at this
      unfold filled
      rw [this, Nat.add_zero]
    | var v =>
      rcases l with _ | ⟨x, l⟩
      · exact absurd hl (by simp [Arg.leaves])
      have hl' : l.length = (s.flatMap fun p => p.2.leaves).length := by simpa [Arg.leaves] using hl
      unfold fillArgs
      rw [List.map_cons, ih h2 l hl']
      refine congrArg₂ List.cons ?_ (List.map_congr_left fun r hr => ?_)
      · unfold filled
        dsimp only at h0 ⊢
        rw [h0]
        rfl
      · have := ht r hr
        dsimp only at this
        unfold filled
        rw [this, List.getD_cons_succ]
    | plain v =>
      rcases l with _ | ⟨x, l⟩
      · exact absurd hl (by simp [Arg.leaves])
      have hl' : l.length = (s.flatMap fun p => p.2.leaves).length := by simpa [Arg.leaves] using hl
      unfold fillArgs
      rw [List.map_cons, ih h2 l hl']
      refine congrArg₂ List.cons ?_ (List.map_congr_left fun r hr => ?_)
      · unfold filled
        dsimp only at h0 ⊢
        rw [h0]
        rfl
      · have := ht r hr
        dsimp only at this
        unfold filled
        rw [this, List.getD_cons_succ]

end fill

variable {V D X W : Type*} [Inhabited V]

/-- The new argument. -/
def newArg (c : Comp V D X W) (a : Ans V D X) (l : List V) (k : String) : Arg V → Arg V
  | .var v => .var { v with value := l.getD (varPos c.params v.name) default }
  | .const v n => .const v n
  | .plain _ => .plain (l.getD (c.params.vars.length + argPos a.kwargs k) default)

theorem newArg_value (c : Comp V D X W) (a : Ans V D X) (l : List V) (k : String) (x : Arg V) : (newArg c a l k x).value = newValue c a l k x := by
  cases x <;> rfl

theorem argPos_sort (d : List (String × Arg V)) (k : String) : argPos (sortKeys d) k = argPos d k := (sortKeys_perm d).countP_eq _

theorem fill_vars {s : PSet V} (h : (s.vars.map (·.1)).Nodup) (l : List V) (hl : l.length = s.vars.length) :
    (s.fill l).vars = (sortKeys s.vars).map fun p => (p.1, { p.2 with value := l.getD (varPos s p.1) default }) := by
  unfold PSet.fill
  dsimp only
  rw [zip_fill (sortKeys_inc h) l (by rw [hl, (sortKeys_perm _).length_eq])]
  refine List.map_congr_left fun p _ => ?_
  rw [(sortKeys_perm s.vars).countP_eq]
  rfl

theorem fill_lookup {s : PSet V} (h : (s.vars.map (·.1)).Nodup) (l : List V) (hl : l.length = s.vars.length) (n : String) :
    (s.fill l).vars.lookup n = (s.vars.lookup n).map fun v => { v with value := l.getD (varPos s n) default } := by
  rw [fill_vars h l hl, lookup_map (fun k (v : Var V) => ({ v with value := l.getD (varPos s k) default } : Var V)),
    lookup_perm ((sortKeys_perm _).map _ |>.nodup_iff.2 h) (sortKeys_perm _)]

theorem varPos_lt {s : PSet V} {n : String} {v : Var V} (h : (n, v) ∈ s.vars) : varPos s n < s.vars.length := by
  unfold varPos
  refine lt_of_le_of_ne List.countP_le_length fun e => ?_
  have := List.countP_eq_length.1 e _ h
  simp at this

theorem unflatten_eq {c : Comp V D X W} {a : Ans V D X} (h : c.Built a) (l : List V) (hl : l.length = c.leaves.length) :
    c.unflatten l = some { c with params := c.params.fill (l.take c.params.vars.length), ansatz := some { a with kwargs := (sortKeys a.kwargs).map fun p => (p.1, newArg c a l p.1 p.2) } } := by
  have hlen : c.leaves.length = c.params.vars.length + ((sortKeys a.kwargs).flatMap fun p => p.2.leaves).length := by
    unfold Comp.leaves
    rw [h.ansatz, List.length_append, List.length_map, (sortKeys_perm _).length_eq]
  have hv : c.params.vars.length ≤ l.length := by omega
  have ht : (l.take c.params.vars.length).length = c.params.vars.length := by rw [List.length_take, Nat.min_eq_left hv]
  have hd : (l.drop c.params.vars.length).length = ((sortKeys a.kwargs).flatMap fun p => p.2.leaves).length := by rw [List.length_drop]; omega
  unfold Comp.unflatten
  rw [if_neg (not_not.2 hl), h.ansatz]
  dsimp only
  rw [fillArgs_eq (sortKeys_inc h.knodup) _ hd]
  have : rebind (c.params.fill (l.take c.params.vars.length)) ((sortKeys a.kwargs).map (filled (sortKeys a.kwargs) (l.drop c.params.vars.length))) =
      some ((sortKeys a.kwargs).map fun p => (p.1, newArg c a l p.1 p.2)) := by
    unfold rebind
    rw [List.mapM_map]
    refine mapM_some _ _ _ fun p hp => ?_
    have hp' : p ∈ a.kwargs := (sortKeys_perm _).mem_iff.1 hp
    rcases p with ⟨k, p⟩
    cases p with
    | const v n => rfl
    | plain v =>
      show some (k, Arg.plain ((l.drop c.params.vars.length).getD (argPos (sortKeys a.kwargs) k) default)) = some (k, Arg.plain (l.getD (c.params.vars.length + argPos a.kwargs k) default))
      rw [argPos_sort, List.getD_eq_getElem?_getD, List.getElem?_drop, ← List.getD_eq_getElem?_getD]
    | var v =>
      have hb := h.bound _ hp' v rfl
      have hlk : (c.params.fill (l.take c.params.vars.length)).vars.lookup v.name = some { v with value := l.getD (varPos c.params v.name) default } := by
        rw [fill_lookup h.vnodup _ ht, lookup_of_mem h.vnodup hb, Option.map_some]
        have : (l.take c.params.vars.length).getD (varPos c.params v.name) default = l.getD (varPos c.params v.name) default := by
          rw [List.getD_eq_getElem?_getD, List.getElem?_take_of_lt (varPos_lt hb), ← List.getD_eq_getElem?_getD]
        rw [this]
      show ((c.params.fill (l.take c.params.vars.length)).get v.name).map (fun q => (k, q)) = some (k, Arg.var _)
      unfold PSet.get
      rw [hlk]
      rfl
  rw [this]
  rfl

/-- Some argument is a variable. -/
def hasVar (d : List (String × Arg V)) : Prop := ∃ p ∈ d, ∃ v, p.2 = .var v

theorem any_iff (d : List (String × Arg V)) : (d.any fun p => p.2.isVar) = true ↔ hasVar d := by
  rw [List.any_eq_true]
  unfold hasVar
  constructor
  · rintro ⟨⟨k, p⟩, hp, h⟩
    cases p with
    | var v => exact ⟨_, hp, v, rfl⟩
    | const v n => exact absurd h (by simp [Arg.isVar])
    | plain v => exact absurd h (by simp [Arg.isVar])
  · rintro ⟨⟨k, p⟩, hp, v, h⟩
    obtain rfl : p = .var v := h
    exact ⟨_, hp, rfl⟩

/-- **C104 (new leaves)** Putting a component together with any list of leaves of the right length succeeds.  The result has the same wires, name, parameter names and constants; the value of each of its
variables is the leaf at the variable's place, and nothing else of it has changed; its ansatz is bound to these variables, so a read of the data gives the function at the new values of the
parameters (the leaves that belong to the variables inside the ansatz are not used). -/
theorem C104_unflatten {c : Comp V D X W} {a : Ans V D X} (h : c.Built a) (l : List V) (hl : l.length = c.leaves.length) :
    ∃ c' a', c.unflatten l = some c' ∧ c'.Built a' ∧ c'.wires = c.wires ∧ c'.name = c.name ∧ c'.params.names = c.params.names ∧ c'.params.constants = c.params.constants ∧
      (∀ n, c'.params.vars.lookup n = (c.params.vars.lookup n).map fun v => { v with value := l.getD (varPos c.params n) default }) ∧ a'.aux = a.aux ∧
      ((a.data = none ∨ hasVar a.kwargs) → a'.read = a.fn fun k => (a.kwargs.lookup k).map (newValue c a l k)) ∧ (¬ (a.data = none ∨ hasVar a.kwargs) → a'.read = a.data) := by
  have hlen : c.params.vars.length ≤ c.leaves.length := by
    unfold Comp.leaves
    rw [List.length_append, List.length_map, (sortKeys_perm _).length_eq]
    omega
  have ht : (l.take c.params.vars.length).length = c.params.vars.length := by rw [List.length_take]; omega
  have hlk : ∀ n, (c.params.fill (l.take c.params.vars.length)).vars.lookup n = (c.params.vars.lookup n).map fun v => { v with value := l.getD (varPos c.params n) default } := fun n => by
    rw [fill_lookup h.vnodup _ ht]
    rcases e : c.params.vars.lookup n with _ | v
    · rfl
    · rw [Option.map_some, Option.map_some]
      have : (l.take c.params.vars.length).getD (varPos c.params n) default = l.getD (varPos c.params n) default := by
        rw [List.getD_eq_getElem?_getD, List.getElem?_take_of_lt (varPos_lt (mem_of_lookup e)), ← List.getD_eq_getElem?_getD]
      rw [this]
  refine ⟨_, { a with kwargs := (sortKeys a.kwargs).map fun p => (p.1, newArg c a l p.1 p.2) }, unflatten_eq h l hl, ⟨rfl, ?_, ?_, ?_, ?_⟩, rfl, rfl, rfl, rfl, hlk, rfl, ?_⟩
  · show ((c.params.fill (l.take c.params.vars.length)).vars.map (·.1)).Nodup
    rw [fill_vars h.vnodup _ ht, List.map_map]
    exact ((sortKeys_perm _).map _).nodup_iff.2 h.vnodup
  · intro p hp
    replace hp : p ∈ (c.params.fill (l.take c.params.vars.length)).vars := hp
    rw [fill_vars h.vnodup _ ht] at hp
    obtain ⟨q, hq, rfl⟩ := List.mem_map.1 hp
    exact h.vname q ((sortKeys_perm _).mem_iff.1 hq)
  · show (((sortKeys a.kwargs).map fun p => (p.1, newArg c a l p.1 p.2)).map (·.1)).Nodup
    rw [List.map_map]
    exact ((sortKeys_perm _).map _).nodup_iff.2 h.knodup
  · intro p hp v hv
    obtain ⟨⟨k, q⟩, hq, rfl⟩ := List.mem_map.1 (show p ∈ (sortKeys a.kwargs).map fun p => (p.1, newArg c a l p.1 p.2) from hp)
    cases q with
    | const x n => exact absurd hv (by simp [newArg])
    | plain x => exact absurd hv (by simp [newArg])
    | var x =>
      have hb := h.bound _ ((sortKeys_perm _).mem_iff.1 hq) x rfl
      have e : ({ x with value := l.getD (varPos c.params x.name) default } : Var V) = v := by
        have : Arg.var ({ x with value := l.getD (varPos c.params x.name) default } : Var V) = Arg.var v := hv
        exact Arg.var.inj this
      rw [← e]
      refine mem_of_lookup ?_
      show (c.params.fill (l.take c.params.vars.length)).vars.lookup x.name = _
      rw [hlk, lookup_of_mem h.vnodup hb]
      rfl
  · have hany : (((sortKeys a.kwargs).map fun p => (p.1, newArg c a l p.1 p.2)).any fun p => p.2.isVar) = a.kwargs.any fun p => p.2.isVar := by
      rw [List.any_map]
      rw [Bool.eq_iff_iff, List.any_eq_true, List.any_eq_true]
      constructor
      · rintro ⟨⟨k, q⟩, hq, e⟩
        refine ⟨(k, q), (sortKeys_perm _).mem_iff.1 hq, ?_⟩
        cases q with
        | var v => rfl
        | const v n => exact e
        | plain v => exact e
      · rintro ⟨⟨k, q⟩, hq, e⟩
        refine ⟨(k, q), (sortKeys_perm _).mem_iff.2 hq, ?_⟩
        cases q with
        | var v => rfl
        | const v n => exact e
        | plain v => exact e
    have hfn : (fun k => (((sortKeys a.kwargs).map fun p => (p.1, newArg c a l p.1 p.2)).lookup k).map Arg.value) = fun k => (a.kwargs.lookup k).map (newValue c a l k) := by
      funext k
      rw [lookup_map (newArg c a l), lookup_perm (((sortKeys_perm _).map _).nodup_iff.2 h.knodup) (sortKeys_perm _), Option.map_map]
      refine congrArg (fun f => Option.map f (a.kwargs.lookup k)) ?_
      funext x
      exact newArg_value c a l k x
    have hd : ∀ o : Option D, o.isNone = true ↔ o = none := fun o => by rcases o with _ | x <;> simp
    constructor
    · intro hc
      unfold Ans.read
      dsimp only
      rw [hany, if_pos (by rw [Bool.or_eq_true, any_iff, hd]; exact hc), hfn]
    · intro hc
      unfold Ans.read
      dsimp only
      rw [hany, if_neg (by rw [Bool.or_eq_true, any_iff, hd]; exact hc)]

theorem map_at {β : Type*} (f : Var V → β) (dflt : β) {d : List (String × Var V)} (hn : (d.map (·.1)).Nodup) {n : String} {v : Var V} (hm : (n, v) ∈ d) :
    ((sortKeys d).map fun p => f p.2).getD (d.countP fun q => q.1 < n) dflt = f v := by
  have key : ∀ s : List (String × Var V), Inc s → (n, v) ∈ s → (s.map fun p => f p.2).getD (s.countP fun q => q.1 < n) dflt = f v := by
    intro s
    induction s with
    | nil => exact fun _ h => absurd h (by simp)
    | cons q s ih =>
      intro h hm
      obtain ⟨h1, h2⟩ := List.pairwise_cons.1 h
      rcases List.mem_cons.1 hm with e | hm
      · have : (q :: s).countP (fun r => r.1 < n) = 0 := by
          rw [List.countP_eq_zero]
          intro r hr
          rw [decide_eq_true_eq]
          rcases List.mem_cons.1 hr with e' | hr
          · rw [e', ← e]
            exact lt_irrefl _
          · have := h1 r hr
            rw [← e] at this
            exact not_lt.2 (le_of_lt this)
        rw [this, ← e]
        rfl
      · rw [List.countP_cons_of_pos (by simpa using h1 _ hm), List.map_cons, List.getD_cons_succ]
        exact ih h2 hm
  have h1 := key _ (sortKeys_inc hn) ((sortKeys_perm _).mem_iff.2 hm)
  rw [(sortKeys_perm d).countP_eq] at h1
  exact h1

theorem leaves_var {c : Comp V D X W} (hn : (c.params.vars.map (·.1)).Nodup) {n : String} {v : Var V} (hm : (n, v) ∈ c.params.vars) :
    c.leaves.getD (varPos c.params n) default = v.value := by
  unfold Comp.leaves
  have hlt : varPos c.params n < ((sortKeys c.params.vars).map (·.2.value)).length := by
    rw [List.length_map, (sortKeys_perm _).length_eq]
    exact varPos_lt hm
  rw [List.getD_append _ _ _ _ hlt]
  exact map_at (fun v => v.value) default hn hm

theorem leaves_arg {c : Comp V D X W} {a : Ans V D X} (h : c.ansatz = some a) (hn : (a.kwargs.map (·.1)).Nodup) {k : String} {x : V} (hm : (k, Arg.plain x) ∈ a.kwargs) :
    c.leaves.getD (c.params.vars.length + argPos a.kwargs k) default = x := by
  have key : ∀ s : List (String × Arg V), Inc s → (k, Arg.plain x) ∈ s → (s.flatMap fun p => p.2.leaves).getD (argPos s k) default = x := by
    intro s
    induction s with
    | nil => exact fun _ h => absurd h (by simp)
    | cons q s ih =>
      intro h hm
      rcases List.mem_cons.1 hm with e | hm
      · have h0 := argPos_head h
        rw [← e] at h0 ⊢
        dsimp only at h0
        rw [h0, List.flatMap_cons]
        rfl
      · have ht := argPos_tail h hm
        have hi := ih (List.pairwise_cons.1 h).2 hm
        rcases q with ⟨k', q⟩
        rw [List.flatMap_cons]
        dsimp only at ht ⊢
        rw [ht]
        cases q with
        | const v n => exact hi
        | var v => exact hi
        | plain v => exact hi
  have h1 := key _ (sortKeys_inc hn) ((sortKeys_perm _).mem_iff.2 hm)
  rw [argPos_sort] at h1
  unfold Comp.leaves
  rw [h]
  dsimp only
  have hlen : ((sortKeys c.params.vars).map (·.2.value)).length = c.params.vars.length := by rw [List.length_map, (sortKeys_perm _).length_eq]
  rw [List.getD_append_right _ _ _ _ (by omega), hlen, Nat.add_sub_cancel_left]
  exact h1

/-- **C104 (round trip)** Taking a component apart and putting it together with its own leaves changes nothing observable: the same wires, name and parameters, and the same data. -/
theorem C104_roundtrip {c : Comp V D X W} {a : Ans V D X} (h : c.Built a) :
    ∃ c' a', c.unflatten c.leaves = some c' ∧ c'.Built a' ∧ c'.wires = c.wires ∧ c'.name = c.name ∧ c'.params.names = c.params.names ∧ c'.params.constants = c.params.constants ∧
      (∀ n, c'.params.vars.lookup n = c.params.vars.lookup n) ∧ a'.read = a.read := by
  obtain ⟨c', a', h1, h2, h3, h4, h5, h6, h7, -, h8, h9⟩ := C104_unflatten h c.leaves rfl
  refine ⟨c', a', h1, h2, h3, h4, h5, h6, fun n => ?_, ?_⟩
  · rw [h7]
    rcases e : c.params.vars.lookup n with _ | v
    · rfl
    · rw [Option.map_some, leaves_var h.vnodup (mem_of_lookup e)]
  · have hd : ∀ o : Option D, o.isNone = true ↔ o = none := fun o => by rcases o with _ | x <;> simp
    unfold Ans.read at h8 h9
    by_cases hc : a.data = none ∨ hasVar a.kwargs
    · rw [show a.read = a.fn fun k => (a.kwargs.lookup k).map Arg.value from if_pos (by rw [Bool.or_eq_true, any_iff, hd]; exact hc)]
      refine (h8 hc).trans (congrArg a.fn ?_)
      funext k
      rcases e : a.kwargs.lookup k with _ | x
      · rfl
      · rw [Option.map_some, Option.map_some]
        refine congrArg some ?_
        have hm := mem_of_lookup e
        cases x with
        | const v n => rfl
        | plain v => exact leaves_arg h.ansatz h.knodup hm
        | var v => exact leaves_var h.vnodup (h.bound _ hm v rfl)
    · rw [show a.read = a.data from if_neg (by rw [Bool.or_eq_true, any_iff, hd]; exact hc)]
      exact h9 hc

/-- **C104 (KeyError)** If the ansatz has a variable that is not among the parameters of the component, the component cannot be put together again with any leaves. -/
theorem C104_key_error (c : Comp V D X W) (a : Ans V D X) (ha : c.ansatz = some a) (hn : (a.kwargs.map (·.1)).Nodup) {k : String} {v : Var V} (hk : (k, .var v) ∈ a.kwargs)
    (h1 : ∀ p ∈ c.params.vars, p.1 ≠ v.name) (h2 : ∀ p ∈ c.params.constants, p.1 ≠ v.name) (l : List V) : c.unflatten l = none := by
  unfold Comp.unflatten
  by_cases hl : l.length = c.leaves.length
  · rw [if_neg (not_not.2 hl), ha]
    dsimp only
    have hlen : c.leaves.length = c.params.vars.length + ((sortKeys a.kwargs).flatMap fun p => p.2.leaves).length := by
      unfold Comp.leaves
      rw [ha, List.length_append, List.length_map, (sortKeys_perm _).length_eq]
    have hd : (l.drop c.params.vars.length).length = ((sortKeys a.kwargs).flatMap fun p => p.2.leaves).length := by rw [List.length_drop]; omega
    rw [fillArgs_eq (sortKeys_inc hn) _ hd]
    have e1 : (c.params.fill (l.take c.params.vars.length)).vars.lookup v.name = none := by
      rcases e : (c.params.fill (l.take c.params.vars.length)).vars.lookup v.name with _ | x
      · rfl
      · have hm := mem_of_lookup e
        unfold PSet.fill at hm
        dsimp only at hm
        rw [List.mem_iff_getElem] at hm
        obtain ⟨i, hi, hx⟩ := hm
        rw [List.getElem_zipWith] at hx
        have hi' : i < (sortKeys c.params.vars).length := by
          rw [List.length_zipWith] at hi
          omega
        exact absurd (congrArg Prod.fst hx) (h1 (sortKeys c.params.vars)[i] ((sortKeys_perm _).mem_iff.1 (List.getElem_mem _)))
    have e2 : c.params.constants.lookup v.name = none := by
      rcases e : c.params.constants.lookup v.name with _ | x
      · rfl
      · exact absurd rfl (h2 _ (mem_of_lookup e))
    have : rebind (c.params.fill (l.take c.params.vars.length)) ((sortKeys a.kwargs).map (filled (sortKeys a.kwargs) (l.drop c.params.vars.length))) = none := by
      unfold rebind
      refine mapM_none _ _ (List.mem_map_of_mem ((sortKeys_perm _).mem_iff.2 hk)) ?_
      show ((c.params.fill (l.take c.params.vars.length)).get v.name).map _ = none
      unfold PSet.get
      rw [e1]
      dsimp only
      rw [show (c.params.fill (l.take c.params.vars.length)).constants = c.params.constants from rfl, e2]
      rfl
    rw [this]
    rfl
  · rw [if_pos hl]

/-- **C104 (labels)** The optimizer can label the component exactly if no argument of its ansatz is a plain value. -/
theorem C104_labels (c : Comp V D X W) (a : Ans V D X) (ha : c.ansatz = some a) : c.labels.isSome ↔ ∀ p ∈ a.kwargs, ∀ v, p.2 ≠ .plain v := by
  unfold Comp.labels
  rw [ha]
  dsimp only
  constructor
  · intro h p hp v e
    rw [mapM_none id _ (p := none) (List.mem_append_right _ (List.mem_flatMap.2 ⟨p, (sortKeys_perm _).mem_iff.2 hp, by rw [e]; simp⟩)) rfl] at h
    exact absurd h (by simp)
  · intro h
    rw [mapM_some id (fun o => o.getD "")]
    · rfl
    · intro o ho
      rcases List.mem_append.1 ho with ho | ho
      · obtain ⟨q, -, rfl⟩ := List.mem_map.1 ho
        rfl
      · obtain ⟨⟨k, q⟩, hq, ho⟩ := List.mem_flatMap.1 ho
        cases q with
        | var v =>
          obtain rfl := List.mem_singleton.1 ho
          rfl
        | const v n => exact absurd ho (by simp)
        | plain v => exact absurd rfl (h _ ((sortKeys_perm _).mem_iff.1 hq) v)

/-- **C104 (labels)** There is one label for each leaf, and the label at the place of a variable is its update rule. -/
theorem C104_labels_at (c : Comp V D X W) (hn : (c.params.vars.map (·.1)).Nodup) (L : List String) (hL : c.labels = some L) :
    L.length = c.leaves.length ∧ ∀ n v, (n, v) ∈ c.params.vars → L.getD (varPos c.params n) "" = v.upd := by
  have hm : ∀ (o : List (Option String)) (L : List String), o.mapM id = some L → o = L.map some := by
    intro o
    induction o with
    | nil =>
      intro L h
      obtain rfl : [] = L := Option.some.inj h
      rfl
    | cons x o ih =>
      intro L h
      rw [List.mapM_cons] at h
      rcases x with _ | x
      · exact absurd h (by simp)
      · rcases e : o.mapM id with _ | L'
        · rw [e] at h
          exact absurd h (by simp)
        · rw [e] at h
          obtain rfl : x :: L' = L := Option.some.inj h
          rw [List.map_cons, ← ih L' e]
  unfold Comp.labels at hL
  have h0 := hm _ _ hL
  constructor
  · have := congrArg List.length h0
    rw [List.length_map] at this
    rw [← this]
    unfold Comp.leaves
    rcases c.ansatz with _ | a
    · rw [List.length_append, List.length_append, List.length_map, List.length_map]
      rfl
    · dsimp only
      rw [List.length_append, List.length_append, List.length_map, List.length_map, List.length_flatMap, List.length_flatMap]
      refine congrArg (fun f => (sortKeys c.params.vars).length + (List.map f (sortKeys a.kwargs)).sum) ?_
      funext p
      rcases p with ⟨k, p⟩
      cases p <;> rfl
  · intro n v hv
    have h1 := map_at (fun v => some v.upd) none hn hv
    have hlt : varPos c.params n < ((sortKeys c.params.vars).map fun p => some p.2.upd).length := by
      rw [List.length_map, (sortKeys_perm _).length_eq]
      exact varPos_lt hv
    have h2 : (L.map some).getD (varPos c.params n) none = some v.upd := by
      rw [← h0, List.getD_append _ _ _ _ hlt]
      exact h1
    rw [List.getD_eq_getElem?_getD, List.getElem?_map] at h2
    rw [List.getD_eq_getElem?_getD]
    rcases e : L[varPos c.params n]? with _ | x
    · rw [e] at h2
      exact absurd h2 (by simp)
    · rw [e] at h2
      exact Option.some.inj h2

/-! ## Circuits -/

/-- The part of the leaves of a circuit that belongs to its `i`-th component. -/
def segment (cs : List (Comp V D X W)) (l : List V) (i : ℕ) : List V :=
  (l.drop (((cs.take i).map fun c => c.leaves.length).sum)).take ((cs[i]?.map fun c => c.leaves.length).getD 0)

/-- **C104 (circuits)** A circuit is put together component by component from consecutive parts of the leaves; the path and the number of components do not change. -/
theorem C104_circuit (c : Circ V D X W) (hb : ∀ x ∈ c.components, ∃ a, x.Built a) (l : List V) (hl : l.length = c.leaves.length) :
    ∃ c', c.unflatten l = some c' ∧ c'.path = c.path ∧ c'.components.length = c.components.length ∧
      ∀ i (h : i < c.components.length) (h' : i < c'.components.length), c.components[i].unflatten (segment c.components l i) = some c'.components[i] := by
  have key : ∀ (cs : List (Comp V D X W)) (l : List V), (∀ x ∈ cs, ∃ a, x.Built a) → l.length = (cs.flatMap Comp.leaves).length →
      ∃ cs', unflattenAll cs l = some cs' ∧ cs'.length = cs.length ∧ ∀ i (h : i < cs.length) (h' : i < cs'.length), cs[i].unflatten (segment cs l i) = some cs'[i] := by
    intro cs
    induction cs with
    | nil =>
      intro l _ hl
      refine ⟨[], ?_, rfl, fun i h => absurd h (by simp)⟩
      exact if_pos (List.length_eq_zero_iff.1 hl)
    | cons x cs ih =>
      intro l hb hl
      rw [List.flatMap_cons, List.length_append] at hl
      obtain ⟨a, ha⟩ := hb x List.mem_cons_self
      obtain ⟨x', -, hx, -⟩ := C104_unflatten ha (l.take x.leaves.length) (by rw [List.length_take]; omega)
      obtain ⟨cs', hcs, hlen, hi⟩ := ih (l.drop x.leaves.length) (fun y hy => hb y (List.mem_cons_of_mem _ hy)) (by rw [List.length_drop]; omega)
      refine ⟨x' :: cs', ?_, by rw [List.length_cons, List.length_cons, hlen], fun i h h' => ?_⟩
      · unfold unflattenAll
        rw [hx, hcs]
        rfl
      · rcases i with _ | i
        · exact hx
        · have := hi i (Nat.lt_of_succ_lt_succ h) (Nat.lt_of_succ_lt_succ h')
          rw [List.getElem_cons_succ, List.getElem_cons_succ, ← this]
          refine congrArg _ ?_
          unfold segment
          rw [List.take_succ_cons, List.map_cons, List.sum_cons, List.getElem?_cons_succ, List.drop_drop]
  obtain ⟨cs', h1, h2, h3⟩ := key c.components l hb hl
  refine ⟨{ c with components := cs' }, ?_, rfl, h2, h3⟩
  unfold Circ.unflatten
  rw [h1]
  rfl

/-! ## Concrete cases -/

/-- A gate with one variable `r` and one constant `phi`; its data are `r + phi`. -/
def exGate (r : ℤ) : Comp ℤ ℤ Unit ℕ :=
  ⟨⟨["r", "phi"], [("phi", 5)], [("r", ⟨r, "r", (none, none), "update_euclidean"⟩)]⟩,
    some ⟨[("r", .var ⟨r, "r", (none, none), "update_euclidean"⟩), ("phi", .const 5 "phi")], fun f => (f "r").bind fun x => (f "phi").map (x + ·), none, ()⟩, 0, "S"⟩

/-- An identity: its ansatz has the plain argument `n_modes`. -/
def exId : Comp ℤ ℤ Unit ℕ := ⟨⟨[], [], []⟩, some ⟨[("n_modes", .plain 1)], fun f => f "n_modes", none, ()⟩, 0, "I"⟩

theorem exGate_built (r : ℤ) : (exGate r).Built ⟨[("r", .var ⟨r, "r", (none, none), "update_euclidean"⟩), ("phi", .const 5 "phi")], fun f => (f "r").bind fun x => (f "phi").map (x + ·), none, ()⟩ where
  ansatz := rfl
  vnodup := by simp [exGate]
  vname := by simp [exGate]
  knodup := by simp
  bound := by
    intro p hp v hv
    rcases List.mem_cons.1 hp with rfl | hp
    · obtain rfl := Arg.var.inj hv
      exact List.mem_cons_self
    · obtain rfl := List.mem_singleton.1 hp
      exact absurd hv (by simp)

/-- New leaves `7` (the parameter) and `100` (inside the ansatz, not used): the data are `7 + 5`. -/
example : ∃ c' a', (exGate 2).unflatten [7, 100] = some c' ∧ c'.Built a' ∧ a'.read = some 12 := by
  obtain ⟨c', a', h1, h2, -, -, -, -, -, -, h3, -⟩ := C104_unflatten (exGate_built 2) [7, 100] rfl
  exact ⟨c', a', h1, h2, h3 (Or.inl rfl)⟩

/-- **C104 (the optimizer refuses plain arguments)** An `Identity` among the optimized objects makes the optimizer raise; the gate above does not. -/
theorem C104_identity : exId.labels = none ∧ (exGate 2).labels = some ["update_euclidean", "update_euclidean"] := ⟨rfl, rfl⟩

/-- **C104 (sharing is lost)** Two gates built with one variable: after the leaves are replaced their values can differ. -/
theorem C104_shared : ∃ c' : Circ ℤ ℤ Unit ℕ, (⟨[exGate 2, exGate 2], [(0, 1)]⟩ : Circ ℤ ℤ Unit ℕ).unflatten [7, 0, 8, 0] = some c' ∧
    c'.components.map (fun x => (x.params.vars.lookup "r").map (·.value)) = [some 7, some 8] := ⟨_, rfl, rfl⟩

end Verif.Tree
