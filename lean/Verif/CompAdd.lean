import Verif.PolyExpProps
import Verif.LazyAnsatz
import Verif.Triples

/-!
# Sums and multiples of circuit components (C107)

`CircuitComponent.__add__` has two branches: if both ansatze are generated by the same function, the *parameters* are concatenated and
the class is instantiated again; otherwise the ansatze are added.
-/

namespace Verif.CompAdd
open Verif.PolyExp Verif.Fock

/-! ## The code -/

/-- A tensor. -/
abbrev Tens := Verif.Lazy.Tens

/-- The kinds of exceptions that occur. -/
inductive Err
  | value
  | attribute
  | type
  | generator
  deriving DecidableEq

/-- A `Variable` (`trainable`) or `Constant` (mrmustard/math/parameters.py 121-239); the bounds of a constant are not used. -/
structure Param where
  trainable : Bool
  bounds : Option ℝ × Option ℝ
  value : Tens

/-- `math.atleast_nd(v, 1)` (mrmustard/math/backend_numpy.py 86-87). -/
def atleast1 (t : Tens) : Tens := if t.shape = [] then ⟨[1], fun _ => t.data []⟩ else t

/-- `math.concat((s, t), axis=0)` (mrmustard/math/backend_numpy.py 109-114); `none` if the other axes differ (then
`np.asarray` of arrays of different shapes raises, too). -/
def concat0 (s t : Tens) : Option Tens :=
  if s.shape.tail = t.shape.tail then
    some ⟨(s.shape.headD 0 + t.shape.headD 0) :: s.shape.tail, fun idx =>
      if idx.headD 0 < s.shape.headD 0 then s.data idx else t.data ((idx.headD 0 - s.shape.headD 0) :: idx.tail)⟩
  else none

/-- What a built-in class does in its constructor (e.g. mrmustard/lab/states/coherent.py 83-100, mrmustard/lab/transformations/attenuator.py
82-109): it stores parameters and makes a lazy ansatz.  `kw` lists the keyword arguments of the generating function with the name of the
parameter they are bound to; `fixed` the keyword arguments that are not parameters; `lam`: the function is a `lambda` made by the constructor. -/
structure Cls where
  name : String
  mro : List String
  fnId : ℕ
  lam : Bool
  gen : List (String × Tens) → Option PolyExp
  kw : List (String × String)
  fixed : List (String × Tens)

/-- An ansatz in Bargmann representation: generated by the function `id`, or given by data (mrmustard/physics/ansatz/polyexp_ansatz.py 107-127,
280-288). -/
inductive Ans
  | gen (id : ℕ) (f : List (String × Tens) → Option PolyExp) (kw : List (String × String)) (fixed : List (String × Tens)) (linSup : Bool)
  | data (f : PolyExp)

/-- A component (mrmustard/lab/circuit_components.py 67-82); `cls` is its class if that is a built-in one, `mro` the names of the
classes it is an instance of, `cutoffs` the entries of `manual_shape`. -/
structure Comp (W : Type*) where
  cls : Option Cls
  mro : List String
  wires : W
  name : String
  params : List (String × Param)
  ans : Ans
  cutoffs : ℕ → Option ℕ

variable {W : Type*}

/-- The arguments handed to the generating function (mrmustard/physics/ansatz/polyexp_ansatz.py 699-704). -/
def args (ps : List (String × Param)) (kw : List (String × String)) (fixed : List (String × Tens)) : Option (List (String × Tens)) :=
  (kw.mapM fun kp => (ps.lookup kp.2).map fun p => (kp.1, p.value)).map (· ++ fixed)

/-- The data of the ansatz (mrmustard/physics/ansatz/polyexp_ansatz.py 694-711). -/
def Comp.poly (c : Comp W) : Option PolyExp :=
  match c.ans with
  | .gen _ f kw fixed ls => ((args c.params kw fixed).bind f).map fun h => { h with linSup := ls }
  | .data f => some f

/-- `component.ansatz(z)`. -/
noncomputable def Comp.value (c : Comp W) (z : ℕ → ℂ) : Option ℂ := c.poly.map fun f => f.call [] z

/-- `getattr(parameters, name)` (mrmustard/math/parameter_set.py 119-127). -/
def getattr (ps : List (String × Param)) (n : String) : Except Err Param :=
  match ps.lookup n with
  | some p => .ok p
  | none => .error .attribute

/-- `ansatz.batch_dims - ansatz._lin_sup > 0` (mrmustard/lab/circuit_components.py 879-881). -/
def Comp.batched (c : Comp W) : Except Err Bool :=
  match c.poly with
  | none => .error .generator
  | some f => .ok (decide (f.batch.length > if f.linSup then 1 else 0))

open Classical in
/-- mrmustard/lab/circuit_components.py 872-892: one turn of the loop over the keyword arguments. -/
noncomputable def addOne (a b : Comp W) (n : String) : Except Err (String × Param) :=
  (getattr a.params n).bind fun p => (getattr b.params n).bind fun q =>
    if p.trainable ≠ q.trainable then .error .value
    else a.batched.bind fun x =>
      if x then .error .value
      else b.batched.bind fun y =>
        if y then .error .value
        else if p.trainable = true ∧ p.bounds ≠ q.bounds then .error .value
        else match concat0 (atleast1 p.value) (atleast1 q.value) with
          | none => .error .value
          | some v => .ok (n, ⟨p.trainable, p.bounds, v⟩)

/-- The constructor of a built-in class (mrmustard/lab/states/coherent.py 83-100).  Simplifications: an omitted argument is an error (no built-in class
reaches this); checks of the values made by some constructors are not modelled. -/
def Cls.make (k : Cls) (newId : ℕ) (w : W) (given : List (String × Param)) : Except Err (Comp W) :=
  if given.any fun g => k.kw.all fun kp => kp.2 != g.1 then .error .type
  else
    match k.kw.mapM fun kp => (given.lookup kp.2).map fun p => (kp.2, p) with
    | none => .error .type
    | some ps => .ok ⟨some k, k.mro, w, k.name, ps, .gen (if k.lam then newId else k.fnId) k.gen k.kw k.fixed false, fun _ => none⟩

/-- `ret.ansatz._lin_sup = True` (mrmustard/lab/circuit_components.py 894). -/
def Comp.superpose (c : Comp W) : Comp W :=
  match c.ans with
  | .gen i f kw fixed _ => { c with ans := .gen i f kw fixed true }
  | .data f => { c with ans := .data { f with linSup := true } }

/-- `_from_attributes` (mrmustard/lab/circuit_components.py 358-362): an instance of the closest parent among these types, with an empty parameter
set. -/
def baseTypes : List String := ["Ket", "DM", "Unitary", "Operation", "Channel", "Map"]

/-- The classes of what `_from_attributes` returns (mrmustard/lab/circuit_components.py 358-362). -/
def closest (mro : List String) : List String :=
  match mro.dropWhile (fun t => t ∉ baseTypes) with
  | [] => ["CircuitComponent"]
  | l => l

/-- `_from_attributes` (mrmustard/lab/circuit_components.py 330-362). -/
def fromAttributes (mro : List String) (f : PolyExp) (w : W) (name : String) : Comp W :=
  ⟨none, closest mro, w, name, [], .data f, fun _ => none⟩

/-- mrmustard/lab/circuit_components.py 899-902: `max(a, b) if a is not None and b is not None else a or b`. -/
def maxCutoff : Option ℕ → Option ℕ → Option ℕ
  | some a, some b => some (max a b)
  | some 0, none => none
  | some a, none => some a
  | none, b => b

/-- mrmustard/lab/circuit_components.py 896-903: the ansatze are added. -/
noncomputable def addData (a b : Comp W) : Except Err (Comp W) :=
  match a.poly, b.poly with
  | some f, some g =>
    match f.add g with
    | some h => .ok { fromAttributes a.mro h a.wires (if a.name = b.name then a.name else "") with
        cutoffs := fun i => maxCutoff (a.cutoffs i) (b.cutoffs i) }
    | none => .error .value
  | _, _ => .error .generator

/-- `__add__` (mrmustard/lab/circuit_components.py 859-903); `newId` is the identity of a `lambda` created by the constructor.  The keyword
arguments are visited in the order `kw`, `fixed`. -/
noncomputable def add [DecidableEq W] (newId : ℕ) (a b : Comp W) : Except Err (Comp W) :=
  if a.wires ≠ b.wires then .error .value
  else
    match a.ans, b.ans with
    | .gen i _ kw fixed _, .gen j _ _ _ _ =>
      if i = j then
        ((kw.map (·.1) ++ fixed.map (·.1)).mapM (addOne a b)).bind fun ps =>
          match a.cls with
          | none => .error .type
          | some k => (k.make newId a.wires ps).map Comp.superpose
      else addData a b
    | _, _ => addData a b

/-- `__sub__` (mrmustard/lab/circuit_components.py 1010-1018), with mrmustard/physics/ansatz/base.py 275-282. -/
noncomputable def sub [DecidableEq W] (a b : Comp W) : Except Err (Comp W) :=
  if a.wires ≠ b.wires then .error .value
  else
    match a.poly, b.poly with
    | some f, some g =>
      match f.add g.neg with
      | some h => .ok (fromAttributes a.mro h a.wires (if a.name = b.name then a.name else ""))
      | none => .error .value
    | _, _ => .error .generator

/-- `__mul__`, `__rmul__`, `__rmatmul__` by a number (mrmustard/lab/circuit_components.py 916-920, 933-943). -/
noncomputable def mul (a : Comp W) (x : ℂ) : Except Err (Comp W) :=
  match a.poly with
  | some f => .ok (fromAttributes a.mro (f.mul x) a.wires a.name)
  | none => .error .generator

/-- `__truediv__` by a number (mrmustard/lab/circuit_components.py 1020-1024). -/
noncomputable def div (a : Comp W) (x : ℂ) : Except Err (Comp W) :=
  match a.poly with
  | some f => .ok (fromAttributes a.mro (f.div x) a.wires a.name)
  | none => .error .generator

/-- `component.parameters.<n>.value = v` (mrmustard/math/parameters.py 236-238). -/
def Comp.assign (c : Comp W) (n : String) (v : Tens) : Comp W :=
  { c with params := c.params.map fun np => if np.1 = n then (np.1, { np.2 with value := v }) else np }

/-! ## Specification -/

/-- Entry `l` of a scalar or vector parameter. -/
def entry (t : Tens) (l : ℕ) : ℂ := if t.shape = [] then t.data [] else t.data [l]

/-- The named parameters, entry `l` of each. -/
def entries (ps : List (String × Param)) (l : ℕ) : List (String × ℂ) := ps.map fun np => (np.1, entry np.2.value l)

/-- The generating function, called with the keyword arguments `names`, computes `F` for scalar arguments and, for vectors of a common length,
`F` of the entries. -/
structure Vectorised (names : List String) (g : List (String × Tens) → Option PolyExp) (F : List (String × ℂ) → (ℕ → ℂ) → ℂ) : Prop where
  scalar : ∀ A : List (String × Tens), A.map (·.1) = names → (∀ x ∈ A, x.2.shape = []) →
    ∃ h, g A = some h ∧ h.batch = [] ∧ ∀ z, h.termAt [] z = F (A.map fun x => (x.1, x.2.data [])) z
  vector : ∀ (A : List (String × Tens)) (L : ℕ), A.map (·.1) = names → (∀ x ∈ A, x.2.shape = [L]) →
    ∃ h, g A = some h ∧ h.batch = [L] ∧ ∀ l < L, ∀ z, h.termAt [l] z = F (A.map fun x => (x.1, x.2.data [l])) z

/-- The keyword arguments of the generating function have the names of the parameters. -/
def Named (k : Cls) : Prop := (∀ kp ∈ k.kw, kp.1 = kp.2) ∧ k.fixed = [] ∧ (k.kw.map (·.1)).Nodup ∧ k.kw ≠ []

/-- The components a user makes from a class: instances with scalar parameters, sums, and assignments to variables that keep the shape. -/
inductive Built [DecidableEq W] (k : Cls) : Comp W → Prop
  | new {newId w given c} : (∀ g ∈ given, g.2.value.shape = []) → k.make newId w given = .ok c → Built k c
  | sum {newId a b c} : Built k a → Built k b → add newId a b = .ok c → Built k c
  | assign {c n p v} : Built k c → c.params.lookup n = some p → p.trainable = true → v.shape = p.value.shape → Built k (c.assign n v)

/-- Number of terms: 1 for scalar parameters, the length for vectors. -/
def terms (c : Comp W) : ℕ :=
  match c.params with
  | [] => 1
  | np :: _ => match np.2.value.shape with
    | [] => 1
    | L :: _ => L

/-! ## Proofs -/

theorem mapM_except {α β : Type*} {f : α → Except Err β} {l : List α} {ys : List β} :
    l.mapM f = .ok ys ↔ List.Forall₂ (fun x y => f x = .ok y) l ys := by
  induction l generalizing ys with
  | nil =>
    rw [List.mapM_nil, List.forall₂_nil_left_iff]
    exact ⟨fun h => by injection h with h; exact h.symm, fun h => h ▸ rfl⟩
  | cons x l ih =>
    rw [List.mapM_cons]
    constructor
    · intro h
      rcases hx : f x with e | y
      · rw [hx] at h; cases h
      · rw [hx] at h
        rcases hl : l.mapM f with e | zs
        · rw [hl] at h; cases h
        · rw [hl] at h
          cases h
          exact .cons hx (ih.1 hl)
    · intro h
      cases h with
      | cons h1 h2 =>
        rw [h1, ih.2 h2]
        rfl

theorem mapM_option {α β : Type*} {f : α → Option β} {l : List α} {ys : List β} :
    l.mapM f = some ys ↔ List.Forall₂ (fun x y => f x = some y) l ys := by
  induction l generalizing ys with
  | nil =>
    rw [List.mapM_nil, List.forall₂_nil_left_iff]
    exact ⟨fun h => by injection h with h; exact h.symm, fun h => h ▸ rfl⟩
  | cons x l ih =>
    rw [List.mapM_cons]
    constructor
    · intro h
      rcases hx : f x with _ | y
      · rw [hx] at h; cases h
      · rw [hx] at h
        rcases hl : l.mapM f with _ | zs
        · rw [hl] at h; cases h
        · rw [hl] at h
          cases h
          exact .cons hx (ih.1 hl)
    · intro h
      cases h with
      | cons h1 h2 =>
        rw [h1, ih.2 h2]
        rfl

theorem forall₂_mem {α β : Type*} {R : α → β → Prop} {l : List α} {l' : List β} (h : List.Forall₂ R l l') :
    List.Forall₂ (fun x y => R x y ∧ x ∈ l ∧ y ∈ l') l l' := by
  induction h with
  | nil => exact .nil
  | cons h1 _ ih =>
    exact .cons ⟨h1, List.mem_cons_self, List.mem_cons_self⟩
      (ih.imp fun x y h => ⟨h.1, List.mem_cons_of_mem _ h.2.1, List.mem_cons_of_mem _ h.2.2⟩)

theorem forall₂_of_map {α β γ : Type*} {f : α → γ} {g : β → γ} {l : List α} {l' : List β} (h : l.map f = l'.map g) :
    List.Forall₂ (fun x y => f x = g y) l l' := by
  induction l generalizing l' with
  | nil => cases l' with
    | nil => exact .nil
    | cons => cases h
  | cons x l ih => cases l' with
    | nil => cases h
    | cons y l' =>
      rw [List.map_cons, List.map_cons] at h
      injection h with h1 h2
      exact .cons h1 (ih h2)

theorem map_of_forall₂ {α β γ : Type*} {f : α → γ} {g : β → γ} {l : List α} {l' : List β} (h : List.Forall₂ (fun x y => f x = g y) l l') :
    l.map f = l'.map g := by
  induction h with
  | nil => rfl
  | cons h1 _ ih => rw [List.map_cons, List.map_cons, h1, ih]

theorem lookup_mem {β : Type*} {l : List (String × β)} (hn : (l.map (·.1)).Nodup) {x : String × β} (hx : x ∈ l) : l.lookup x.1 = some x.2 := by
  induction l with
  | nil => cases hx
  | cons y l ih =>
    rw [List.map_cons, List.nodup_cons] at hn
    rcases List.mem_cons.1 hx with rfl | hx'
    · obtain ⟨a, b⟩ := x
      simp [List.lookup]
    · obtain ⟨a, b⟩ := y
      have hne : x.1 ≠ a := fun e => hn.1 (List.mem_map.2 ⟨x, hx', e⟩)
      rw [List.lookup_cons, beq_false_of_ne hne]
      exact ih hn.2 hx'

theorem mem_lookup {β : Type*} {l : List (String × β)} {n : String} {v : β} (h : l.lookup n = some v) : (n, v) ∈ l := by
  induction l with
  | nil => cases h
  | cons y l ih =>
    obtain ⟨a, b⟩ := y
    rw [List.lookup_cons] at h
    by_cases e : n = a
    · subst e
      simp at h
      subst h
      exact List.mem_cons_self
    · rw [beq_false_of_ne e] at h
      exact List.mem_cons_of_mem _ (ih h)

theorem lookup_none {β : Type*} {l : List (String × β)} {n : String} (h : n ∉ l.map (·.1)) : l.lookup n = none := by
  rcases e : l.lookup n with _ | v
  · rfl
  · exact absurd (List.mem_map_of_mem (f := (·.1)) (mem_lookup e)) h

theorem lookup_some {β : Type*} {l : List (String × β)} {n : String} (h : n ∈ l.map (·.1)) : ∃ v, l.lookup n = some v := by
  rcases e : l.lookup n with _ | v
  · induction l with
    | nil => cases h
    | cons y l ih =>
      obtain ⟨a, b⟩ := y
      rw [List.lookup_cons] at e
      by_cases hn : n = a
      · subst hn; simp at e
      · rw [beq_false_of_ne hn] at e
        rw [List.map_cons, List.mem_cons] at h
        exact ih (h.resolve_left hn) e
  · exact ⟨v, rfl⟩

/-- The weak invariant: the class's own keyword arguments and parameters. -/
structure Inv0 (k : Cls) (c : Comp W) : Prop where
  cls : c.cls = some k
  mro : c.mro = k.mro
  names : c.params.map (·.1) = k.kw.map (·.2)
  ans : ∃ ls, c.ans = .gen k.fnId k.gen k.kw k.fixed ls

theorem inv0_make {k : Cls} (hl : k.lam = false) {newId : ℕ} {w : W} {given : List (String × Param)} {c : Comp W} (h : k.make newId w given = .ok c) :
    Inv0 k c ∧ c.wires = w ∧ (∀ i, c.cutoffs i = none) ∧ c.ans = .gen k.fnId k.gen k.kw k.fixed false ∧
      List.Forall₂ (fun kp np => kp.2 = np.1 ∧ given.lookup kp.2 = some np.2) k.kw c.params := by
  unfold Cls.make at h
  rw [hl, if_neg Bool.false_ne_true] at h
  split_ifs at h
  split at h
  · cases h
  · rename_i ps hps
    cases h
    rw [mapM_option] at hps
    have hp : List.Forall₂ (fun kp np => kp.2 = np.1 ∧ given.lookup kp.2 = some np.2) k.kw ps := by
      refine hps.imp fun kp np hkp => ?_
      rcases e : given.lookup kp.2 with _ | p
      · rw [e] at hkp; cases hkp
      · rw [e] at hkp
        cases hkp
        exact ⟨rfl, rfl⟩
    refine ⟨⟨rfl, rfl, ?_, false, rfl⟩, rfl, fun _ => rfl, rfl, hp⟩
    exact (map_of_forall₂ (hp.imp fun _ _ x => x.1)).symm

theorem superpose_gen {c : Comp W} {i f kw fixed ls} (h : c.ans = .gen i f kw fixed ls) : c.superpose = { c with ans := .gen i f kw fixed true } := by
  unfold Comp.superpose
  rw [h]

theorem add_gen [DecidableEq W] {newId : ℕ} {a b : Comp W} {i f kw fixed ls f' kw' fixed' ls'} (hw : a.wires = b.wires)
    (ha : a.ans = .gen i f kw fixed ls) (hb : b.ans = .gen i f' kw' fixed' ls') :
    add newId a b = ((kw.map (·.1) ++ fixed.map (·.1)).mapM (addOne a b)).bind fun ps =>
          match a.cls with
          | none => .error .type
          | some k => (k.make newId a.wires ps).map Comp.superpose := by
  unfold add
  rw [if_neg (not_not.2 hw), ha, hb]
  dsimp only
  rw [if_pos rfl]

theorem inv0_built [DecidableEq W] {k : Cls} (hl : k.lam = false) {c : Comp W} (h : Built k c) : Inv0 k c := by
  induction h with
  | new _ hm => exact (inv0_make hl hm).1
  | @sum newId a b c _ _ hadd iha ihb =>
    obtain ⟨la, ea⟩ := iha.ans
    obtain ⟨lb, eb⟩ := ihb.ans
    by_cases hw : a.wires = b.wires
    · rw [add_gen hw ea eb] at hadd
      rcases hps : (k.kw.map (·.1) ++ k.fixed.map (·.1)).mapM (addOne a b) with e | ps
      · rw [hps] at hadd; cases hadd
      · rw [hps] at hadd
        change (match a.cls with | none => _ | some k => _) = _ at hadd
        rw [iha.cls] at hadd
        dsimp only at hadd
        rcases hm : k.make newId a.wires ps with e | c'
        · rw [hm] at hadd; cases hadd
        · rw [hm] at hadd
          cases hadd
          have h0 := inv0_make hl hm
          rw [superpose_gen h0.2.2.2.1]
          exact ⟨h0.1.cls, h0.1.mro, h0.1.names, true, rfl⟩
    · unfold add at hadd
      rw [if_pos hw] at hadd
      cases hadd
  | @assign c n p v _ _ _ _ ih =>
    refine ⟨ih.cls, ih.mro, ?_, ih.ans⟩
    rw [← ih.names]
    change List.map _ (List.map _ c.params) = _
    rw [List.map_map]
    refine List.map_congr_left fun np _ => ?_
    simp only [Function.comp]
    split_ifs <;> rfl

/-- The invariant of a class whose keyword arguments have the names of the parameters: scalars, or vectors of a common length. -/
structure Inv (k : Cls) (c : Comp W) : Prop extends Inv0 k c where
  shapes : (c.ans = .gen k.fnId k.gen k.kw k.fixed false ∧ ∀ np ∈ c.params, np.2.value.shape = []) ∨
    (c.ans = .gen k.fnId k.gen k.kw k.fixed true ∧ ∃ L, ∀ np ∈ c.params, np.2.value.shape = [L])

theorem terms_scalar {c : Comp W} (hne : c.params ≠ []) (h : ∀ np ∈ c.params, np.2.value.shape = []) : terms c = 1 := by
  unfold terms
  rcases e : c.params with _ | ⟨np, l⟩
  · exact absurd e hne
  · dsimp only
    rw [h np (e ▸ List.mem_cons_self)]

theorem terms_vector {c : Comp W} (hne : c.params ≠ []) {L : ℕ} (h : ∀ np ∈ c.params, np.2.value.shape = [L]) : terms c = L := by
  unfold terms
  rcases e : c.params with _ | ⟨np, l⟩
  · exact absurd e hne
  · dsimp only
    rw [h np (e ▸ List.mem_cons_self)]

theorem args_eq {k : Cls} (hN : Named k) {c : Comp W} (h : Inv0 k c) :
    args c.params k.kw k.fixed = some (c.params.map fun np => (np.1, np.2.value)) := by
  unfold args
  have hnd : (c.params.map (·.1)).Nodup := by
    rw [h.names, ← List.map_congr_left hN.1]
    exact hN.2.2.1
  have : k.kw.mapM (fun kp => (c.params.lookup kp.2).map fun p => (kp.1, p.value)) = some (c.params.map fun np => (np.1, np.2.value)) := by
    rw [mapM_option, List.forall₂_map_right_iff]
    refine (forall₂_mem (forall₂_of_map h.names.symm)).imp fun kp np hh => ?_
    rw [hh.1, lookup_mem hnd hh.2.2, hN.1 kp hh.2.1, hh.1]
    rfl
  rw [this, hN.2.1]
  simp

theorem params_ne {k : Cls} (hN : Named k) {c : Comp W} (h : Inv0 k c) : c.params ≠ [] := by
  intro e
  have := h.names
  rw [e] at this
  exact hN.2.2.2 (List.map_eq_nil_iff.1 this.symm)

/-- What the generating function returns for a component. -/
theorem poly_eq {k : Cls} (hN : Named k) {F} (hv : Vectorised (k.kw.map (·.1)) k.gen F) {c : Comp W} (h : Inv k c) :
    ∃ f : PolyExp, c.poly = some f ∧ f.batch.length = (if f.linSup then 1 else 0) ∧
      ∀ z, f.call [] z = ∑ l ∈ Finset.range (terms c), F (entries c.params l) z := by
  have hnames : (c.params.map fun np => (np.1, np.2.value)).map (·.1) = k.kw.map (·.1) := by
    rw [List.map_map, List.map_congr_left hN.1, ← h.names]
    rfl
  rcases h.shapes with ⟨ha, hs⟩ | ⟨ha, L, hs⟩
  · obtain ⟨f, hf, hb, ht⟩ := hv.scalar _ hnames (by
      intro x hx
      obtain ⟨np, hnp, rfl⟩ := List.mem_map.1 hx
      exact hs np hnp)
    refine ⟨{ f with linSup := false }, ?_, ?_, fun z => ?_⟩
    · unfold Comp.poly
      rw [ha]
      dsimp only
      rw [args_eq hN h.toInv0, Option.bind_some, hf]
      rfl
    · change f.batch.length = _
      rw [hb]
      rfl
    · rw [terms_scalar (params_ne hN h.toInv0) hs, Finset.sum_range_one]
      refine (ht z).trans ?_
      refine congrArg (fun e => F e z) ?_
      unfold entries
      rw [List.map_map]
      refine List.map_congr_left fun np hnp => ?_
      simp only [Function.comp, entry]
      rw [if_pos (hs np hnp)]
  · obtain ⟨f, hf, hb, ht⟩ := hv.vector _ L hnames (by
      intro x hx
      obtain ⟨np, hnp, rfl⟩ := List.mem_map.1 hx
      exact hs np hnp)
    refine ⟨{ f with linSup := true }, ?_, ?_, fun z => ?_⟩
    · unfold Comp.poly
      rw [ha]
      dsimp only
      rw [args_eq hN h.toInv0, Option.bind_some, hf]
      rfl
    · change f.batch.length = _
      rw [hb]
      rfl
    · rw [terms_vector (params_ne hN h.toInv0) hs]
      change ∑ l ∈ Finset.range (f.batch.getLastD 0), f.termAt ([] ++ [l]) z = _
      rw [hb]
      refine Finset.sum_congr rfl fun l hl => ?_
      refine (ht l (Finset.mem_range.1 hl) z).trans ?_
      refine congrArg (fun e => F e z) ?_
      unfold entries
      rw [List.map_map]
      refine List.map_congr_left fun np hnp => ?_
      simp only [Function.comp, entry]
      rw [if_neg (by rw [hs np hnp]; simp)]

theorem atleast1_data {t : Tens} (h : t.shape = [] ∨ ∃ L, t.shape = [L]) (l : ℕ) : (atleast1 t).data [l] = entry t l := by
  unfold atleast1 entry
  rcases h with h | ⟨L, h⟩
  · rw [if_pos h, if_pos h]
  · rw [if_neg (by rw [h]; simp), if_neg (by rw [h]; simp)]

theorem shape_terms {k : Cls} (hN : Named k) {c : Comp W} (h : Inv k c) {np : String × Param} (hnp : np ∈ c.params) :
    (atleast1 np.2.value).shape = [terms c] ∧ (np.2.value.shape = [] ∨ ∃ L, np.2.value.shape = [L]) := by
  unfold atleast1
  rcases h.shapes with ⟨-, hs⟩ | ⟨-, L, hs⟩
  · rw [terms_scalar (params_ne hN h.toInv0) hs, if_pos (hs np hnp)]
    exact ⟨rfl, Or.inl (hs np hnp)⟩
  · rw [terms_vector (params_ne hN h.toInv0) hs, if_neg (by rw [hs np hnp]; simp)]
    exact ⟨hs np hnp, Or.inr ⟨L, hs np hnp⟩⟩

theorem batched_eq {k : Cls} (hN : Named k) {F} (hv : Vectorised (k.kw.map (·.1)) k.gen F) {c : Comp W} (h : Inv k c) : c.batched = .ok false := by
  obtain ⟨f, hf, hb, -⟩ := poly_eq hN hv h
  unfold Comp.batched
  rw [hf]
  dsimp only
  rw [hb, decide_eq_false (lt_irrefl _)]

/-- The condition under which two parameters can be concatenated. -/
def Compat (p q : Param) : Prop := p.trainable = q.trainable ∧ (p.trainable = true → p.bounds = q.bounds)

/-- The concatenation of two vectors. -/
def cat (p q : Param) (L M : ℕ) : Tens :=
  ⟨[L + M], fun idx => if idx.headD 0 < L then (atleast1 p.value).data idx else (atleast1 q.value).data ((idx.headD 0 - L) :: idx.tail)⟩

theorem addOne_ok {k : Cls} (hN : Named k) {F} (hv : Vectorised (k.kw.map (·.1)) k.gen F) {a b : Comp W} (ha : Inv k a) (hb : Inv k b)
    {n : String} {p q : Param} (hp : a.params.lookup n = some p) (hq : b.params.lookup n = some q) (hc : Compat p q) :
    addOne a b n = .ok (n, ⟨p.trainable, p.bounds, cat p q (terms a) (terms b)⟩) := by
  have h1 := (shape_terms hN ha (mem_lookup hp)).1
  have h2 := (shape_terms hN hb (mem_lookup hq)).1
  dsimp only at h1 h2
  unfold addOne getattr
  rw [hp, hq, batched_eq hN hv ha, batched_eq hN hv hb]
  simp only [Except.bind, Bool.false_eq_true, if_false]
  rw [if_neg (not_not.2 hc.1), if_neg (fun x => x.2 (hc.2 x.1))]
  unfold concat0
  rw [h1, h2, if_pos (show [terms a].tail = [terms b].tail from rfl)]
  rfl

theorem addOne_fail {k : Cls} (hN : Named k) {F} (hv : Vectorised (k.kw.map (·.1)) k.gen F) {a b : Comp W} (ha : Inv k a) (hb : Inv k b)
    {n : String} {p q : Param} (hp : a.params.lookup n = some p) (hq : b.params.lookup n = some q) (hc : ¬ Compat p q) :
    addOne a b n = .error .value := by
  unfold addOne getattr
  rw [hp, hq, batched_eq hN hv ha, batched_eq hN hv hb]
  simp only [Except.bind, Bool.false_eq_true, if_false]
  by_cases ht : p.trainable = q.trainable
  · rw [if_neg (not_not.2 ht), if_pos]
    by_contra hh
    refine hc ⟨ht, fun h1 => ?_⟩
    by_contra h2
    exact hh ⟨h1, h2⟩
  · rw [if_pos ht]

theorem mapM_error {α β : Type*} {f : α → Except Err β} {e : Err} {l : List α} (hl : ∀ x ∈ l, (∃ y, f x = .ok y) ∨ f x = .error e) (hx : ∃ x ∈ l, f x = .error e) :
    l.mapM f = .error e := by
  induction l with
  | nil => obtain ⟨x, hx, -⟩ := hx; cases hx
  | cons y l ih =>
    rw [List.mapM_cons]
    rcases hl y List.mem_cons_self with ⟨z, hz⟩ | hy
    · obtain ⟨x, hx, he⟩ := hx
      rcases List.mem_cons.1 hx with rfl | hx
      · rw [hz] at he; cases he
      · rw [hz, ih (fun x hx => hl x (List.mem_cons_of_mem _ hx)) ⟨x, hx, he⟩]
        rfl
    · rw [hy]
      rfl

/-- The sum of two components of a class. -/
theorem add_ok [DecidableEq W] {k : Cls} (hN : Named k) (hl : k.lam = false) {F} (hv : Vectorised (k.kw.map (·.1)) k.gen F) {a b : Comp W}
    (ha : Inv k a) (hb : Inv k b) (hw : a.wires = b.wires)
    (hc : ∀ n p q, a.params.lookup n = some p → b.params.lookup n = some q → Compat p q) (newId : ℕ) :
    ∃ c, add newId a b = .ok c ∧ Inv k c ∧ c.wires = a.wires ∧ (∀ i, c.cutoffs i = none) ∧
      List.Forall₂ (fun x y => x.1 = y.1 ∧ ∃ q, b.params.lookup x.1 = some q ∧ y.2 = ⟨x.2.trainable, x.2.bounds, cat x.2 q (terms a) (terms b)⟩)
        a.params c.params := by
  obtain ⟨la, ea⟩ := ha.ans
  obtain ⟨lb, eb⟩ := hb.ans
  have hnd : (a.params.map (·.1)).Nodup := by
    rw [ha.names, ← List.map_congr_left hN.1]
    exact hN.2.2.1
  have key : ∀ x ∈ a.params, ∃ y, addOne a b x.1 = .ok y ∧ y.1 = x.1 ∧ ∃ q, b.params.lookup x.1 = some q ∧ y.2 = ⟨x.2.trainable, x.2.bounds, cat x.2 q (terms a) (terms b)⟩ := by
    intro x hx
    have hp := lookup_mem hnd hx
    obtain ⟨q, hq⟩ := lookup_some (l := b.params) (n := x.1) (by rw [hb.names, ← ha.names]; exact List.mem_map_of_mem hx)
    exact ⟨_, addOne_ok hN hv ha hb hp hq (hc _ _ _ hp hq), rfl, q, hq, rfl⟩
  choose! y hy1 hy2 hy3 using key
  have hps : (k.kw.map (·.1) ++ k.fixed.map (·.1)).mapM (addOne a b) = .ok (a.params.map y) := by
    rw [hN.2.1, List.map_nil, List.append_nil, List.map_congr_left hN.1, ← ha.names, mapM_except, List.forall₂_map_left_iff, List.forall₂_map_right_iff]
    exact List.forall₂_same.2 hy1
  have hnames : (a.params.map y).map (·.1) = k.kw.map (·.2) := by
    rw [List.map_map, ← ha.names]
    exact List.map_congr_left hy2
  have hnd' : ((a.params.map y).map (·.1)).Nodup := by
    rw [hnames, ← ha.names]
    exact hnd
  have hmk : ∃ c, k.make newId a.wires (a.params.map y) = .ok c := by
    unfold Cls.make
    rw [if_neg, (mapM_option (ys := a.params.map y)).2]
    · exact ⟨_, rfl⟩
    · refine (forall₂_mem (forall₂_of_map hnames.symm)).imp fun kp np hh => ?_
      rw [hh.1, lookup_mem hnd' hh.2.2]
      rfl
    · intro h
      obtain ⟨g, hg, h⟩ := List.any_eq_true.1 h
      have : g.1 ∈ k.kw.map (·.2) := hnames ▸ List.mem_map_of_mem hg
      obtain ⟨kp, hkp, e⟩ := List.mem_map.1 this
      have := List.all_eq_true.1 h kp hkp
      simp [e] at this
  obtain ⟨c, hmk⟩ := hmk
  have h0 := inv0_make hl hmk
  have hpar : c.params = a.params.map y := by
    have h1 := h0.2.2.2.2
    have h2 : List.Forall₂ (fun kp np => kp.2 = np.1 ∧ (a.params.map y).lookup kp.2 = some np.2) k.kw (a.params.map y) := by
      refine (forall₂_mem (forall₂_of_map hnames.symm)).imp fun kp np hh => ⟨hh.1, ?_⟩
      rw [hh.1, lookup_mem hnd' hh.2.2]
    generalize a.params.map y = ys at h1 h2
    generalize hcp : c.params = xs at h1
    clear hcp
    have : ∀ (L : List (String × Param)) {l xs ys}, List.Forall₂ (fun (kp : String × String) (np : String × Param) => kp.2 = np.1 ∧ L.lookup kp.2 = some np.2) l xs →
        List.Forall₂ (fun (kp : String × String) (np : String × Param) => kp.2 = np.1 ∧ L.lookup kp.2 = some np.2) l ys → xs = ys := by
      intro L l xs ys h1 h2
      induction h1 generalizing ys with
      | nil => cases h2; rfl
      | cons g1 _ ih =>
        cases h2 with
        | cons g2 t2 =>
          rw [ih t2]
          refine congrArg (· :: _) (Prod.ext (g1.1.symm.trans g2.1) ?_)
          have := g1.2.symm.trans g2.2
          injection this
    exact this _ h1 h2
  refine ⟨c.superpose, ?_, ?_, ?_, ?_, ?_⟩
  · rw [add_gen hw ea eb, hps]
    change (match a.cls with | none => _ | some k => _) = _
    rw [ha.cls]
    dsimp only
    rw [hmk]
    rfl
  · rw [superpose_gen h0.2.2.2.1]
    refine ⟨⟨h0.1.cls, h0.1.mro, h0.1.names, true, rfl⟩, Or.inr ⟨rfl, terms a + terms b, ?_⟩⟩
    dsimp only
    rw [hpar]
    intro np hnp
    obtain ⟨x, hx, rfl⟩ := List.mem_map.1 hnp
    obtain ⟨q, -, e⟩ := hy3 x hx
    rw [e]
    rfl
  · rw [superpose_gen h0.2.2.2.1]
    exact h0.2.1
  · rw [superpose_gen h0.2.2.2.1]
    exact h0.2.2.1
  · rw [superpose_gen h0.2.2.2.1]
    dsimp only
    rw [hpar, List.forall₂_map_right_iff]
    exact List.forall₂_same.2 fun x hx => ⟨(hy2 x hx).symm, hy3 x hx⟩

theorem add_fail [DecidableEq W] {k : Cls} (hN : Named k) {F} (hv : Vectorised (k.kw.map (·.1)) k.gen F) {a b : Comp W}
    (ha : Inv k a) (hb : Inv k b) (hw : a.wires = b.wires)
    (hc : ¬ ∀ n p q, a.params.lookup n = some p → b.params.lookup n = some q → Compat p q) (newId : ℕ) : add newId a b = .error .value := by
  obtain ⟨la, ea⟩ := ha.ans
  obtain ⟨lb, eb⟩ := hb.ans
  push Not at hc
  obtain ⟨n, p, q, hp, hq, hc⟩ := hc
  rw [add_gen hw ea eb, hN.2.1, List.map_nil, List.append_nil, List.map_congr_left hN.1, ← ha.names]
  rw [mapM_error (e := .value)]
  · rfl
  · intro x hx
    obtain ⟨p', hp'⟩ := lookup_some hx
    obtain ⟨q', hq'⟩ := lookup_some (l := b.params) (n := x) (by rw [hb.names, ← ha.names]; exact hx)
    by_cases h : Compat p' q'
    · exact Or.inl ⟨_, addOne_ok hN hv ha hb hp' hq' h⟩
    · exact Or.inr (addOne_fail hN hv ha hb hp' hq' h)
  · exact ⟨n, List.mem_map.2 ⟨(n, p), mem_lookup hp, rfl⟩, addOne_fail hN hv ha hb hp hq hc⟩

theorem inv_built [DecidableEq W] {k : Cls} (hN : Named k) (hl : k.lam = false) {F} (hv : Vectorised (k.kw.map (·.1)) k.gen F) {c : Comp W} (h : Built k c) : Inv k c := by
  induction h with
  | @new newId w given c hs hm =>
    have h0 := inv0_make hl hm
    refine ⟨h0.1, Or.inl ⟨h0.2.2.2.1, fun np hnp => ?_⟩⟩
    have hf := h0.2.2.2.2
    obtain ⟨kp, -, hkp⟩ : ∃ kp ∈ k.kw, given.lookup kp.2 = some np.2 := by
      generalize k.kw = l at hf
      generalize c.params = xs at hf hnp
      induction hf with
      | nil => cases hnp
      | cons g _ ih =>
        rcases List.mem_cons.1 hnp with rfl | hnp
        · exact ⟨_, List.mem_cons_self, g.2⟩
        · obtain ⟨kp, h1, h2⟩ := ih hnp
          exact ⟨kp, List.mem_cons_of_mem _ h1, h2⟩
    exact hs (kp.2, np.2) (mem_lookup hkp)
  | @sum newId a b c hA hB hadd iha ihb =>
    by_cases hw : a.wires = b.wires
    · by_cases hc : ∀ n p q, a.params.lookup n = some p → b.params.lookup n = some q → Compat p q
      · obtain ⟨c', h1, h2, -⟩ := add_ok hN hl hv iha ihb hw hc newId
        rw [h1] at hadd
        injection hadd with hadd
        exact hadd ▸ h2
      · rw [add_fail hN hv iha ihb hw hc] at hadd
        cases hadd
    · unfold add at hadd
      rw [if_pos hw] at hadd
      cases hadd
  | @assign c n p v hC hp ht hsh ih =>
    have h0 := inv0_built hl (Built.assign hC hp ht hsh)
    refine ⟨h0, ?_⟩
    have hmem : ∀ S, (∀ np ∈ c.params, np.2.value.shape = S) → ∀ np ∈ (c.assign n v).params, np.2.value.shape = S := by
      intro S hS np hnp
      obtain ⟨x, hx, rfl⟩ := List.mem_map.1 hnp
      split_ifs
      · exact hsh.trans (hS _ (mem_lookup hp))
      · exact hS x hx
    rcases ih.shapes with ⟨e, hs⟩ | ⟨e, L, hs⟩
    · exact Or.inl ⟨e, hmem _ hs⟩
    · exact Or.inr ⟨e, L, hmem _ hs⟩

/-! ## C107 -/

/-- Components on different wires cannot be added or subtracted. -/
theorem C107_wires [DecidableEq W] (newId : ℕ) (a b : Comp W) (h : a.wires ≠ b.wires) : add newId a b = .error .value ∧ sub a b = .error .value := by
  unfold add sub
  rw [if_pos h, if_pos h]
  exact ⟨rfl, rfl⟩

/-- The value of every component built from a class, over every history of sums and assignments: the sum of the generating formula over the entries of
its present parameters. -/
theorem C107_value [DecidableEq W] (k : Cls) (hN : Named k) (hl : k.lam = false) (F : List (String × ℂ) → (ℕ → ℂ) → ℂ)
    (hv : Vectorised (k.kw.map (·.1)) k.gen F) (c : Comp W) (h : Built k c) (z : ℕ → ℂ) :
    c.value z = some (∑ l ∈ Finset.range (terms c), F (entries c.params l) z) := by
  obtain ⟨f, hf, -, hz⟩ := poly_eq hN hv (inv_built hN hl hv h)
  unfold Comp.value
  rw [hf, Option.map_some, hz]

/-- The constructor stores the parameters it is given, and a name that is not a parameter of the class is rejected. -/
theorem C107_new (k : Cls) (newId : ℕ) (w : W) (given : List (String × Param)) :
    (∀ c, k.make newId w given = .ok c → c.wires = w ∧ c.mro = k.mro ∧ c.name = k.name ∧ (∀ i, c.cutoffs i = none) ∧ (∀ g ∈ given, g.1 ∈ k.kw.map (·.2)) ∧
      ∀ n ∈ k.kw.map (·.2), ∃ p, given.lookup n = some p ∧ c.params.lookup n = some p) ∧
    ((∃ g ∈ given, g.1 ∉ k.kw.map (·.2)) → k.make newId w given = .error .type) := by
  constructor
  · intro c h
    unfold Cls.make at h
    generalize (if k.lam = true then newId else k.fnId) = fid at h
    split_ifs at h with hg
    rcases hm : k.kw.mapM (fun kp => (given.lookup kp.2).map fun p => (kp.2, p)) with _ | ps
    · rw [hm] at h
      cases h
    · rw [hm] at h
      cases h
      refine ⟨rfl, rfl, rfl, fun _ => rfl, fun g hgm => ?_, fun n hn => ?_⟩
      · by_contra hne
        refine hg (List.any_eq_true.2 ⟨g, hgm, List.all_eq_true.2 fun kp hkp => ?_⟩)
        rw [bne_iff_ne]
        exact fun e => hne (List.mem_map.2 ⟨kp, hkp, e⟩)
      · rw [mapM_option] at hm
        dsimp only
        clear hg
        generalize k.kw = l at hm hn
        induction hm with
        | nil => cases hn
        | @cons kp np l ps g _ ih =>
          rcases hq : given.lookup kp.2 with _ | p
          · rw [hq] at g; cases g
          · rw [hq] at g
            cases g
            rw [List.lookup_cons]
            by_cases e : n = kp.2
            · rw [e, beq_self_eq_true]
              exact ⟨p, hq, rfl⟩
            · rw [beq_false_of_ne e]
              rw [List.map_cons, List.mem_cons] at hn
              exact ih (hn.resolve_left e)
  · rintro ⟨g, hg, hn⟩
    unfold Cls.make
    rw [if_pos]
    refine List.any_eq_true.2 ⟨g, hg, List.all_eq_true.2 fun kp hkp => ?_⟩
    rw [bne_iff_ne]
    exact fun e => hn (List.mem_map.2 ⟨kp, hkp, e⟩)

/-- Assigning a value changes this parameter and nothing else. -/
theorem C107_assign (c : Comp W) (n : String) (p : Param) (v : Tens) (hp : c.params.lookup n = some p) :
    (c.assign n v).params.lookup n = some { p with value := v } ∧ (∀ m, m ≠ n → (c.assign n v).params.lookup m = c.params.lookup m) ∧
      (c.assign n v).wires = c.wires ∧ (c.assign n v).mro = c.mro ∧ (c.assign n v).name = c.name ∧ (c.assign n v).cutoffs = c.cutoffs ∧
      (c.assign n v).params.map (·.1) = c.params.map (·.1) := by
  have h1 : (c.assign n v).params.lookup n = some { p with value := v } := by
    unfold Comp.assign
    dsimp only
    generalize c.params = l at hp
    induction l with
    | nil => cases hp
    | cons x l ih =>
      obtain ⟨a, q⟩ := x
      rw [List.lookup_cons] at hp
      rw [List.map_cons]
      by_cases e : n = a
      · subst e
        rw [beq_self_eq_true] at hp
        injection hp with hp
        subst hp
        simp [List.lookup_cons]
      · rw [beq_false_of_ne e] at hp
        dsimp only
        rw [if_neg (Ne.symm e), List.lookup_cons, beq_false_of_ne e]
        exact ih hp
  have h2 : ∀ m, m ≠ n → (c.assign n v).params.lookup m = c.params.lookup m := by
    intro m hm
    unfold Comp.assign
    dsimp only
    generalize c.params = l
    induction l with
    | nil => rfl
    | cons x l ih =>
      obtain ⟨a, q⟩ := x
      rw [List.map_cons]
      dsimp only
      split_ifs with h
      · subst h
        rw [List.lookup_cons, List.lookup_cons, beq_false_of_ne hm]
        exact ih
      · rw [List.lookup_cons, List.lookup_cons, ih]
  refine ⟨h1, h2, rfl, rfl, rfl, rfl, ?_⟩
  unfold Comp.assign
  dsimp only
  rw [List.map_map]
  refine List.map_congr_left fun np _ => ?_
  simp only [Function.comp]
  split_ifs <;> rfl

/-- Adding two components of one class succeeds exactly if each parameter is a variable of both, with the same bounds, or a constant of both. -/
theorem C107_sum_iff [DecidableEq W] (k : Cls) (hN : Named k) (hl : k.lam = false) (F : List (String × ℂ) → (ℕ → ℂ) → ℂ)
    (hv : Vectorised (k.kw.map (·.1)) k.gen F) (newId : ℕ) (a b : Comp W) (ha : Built k a) (hb : Built k b) (hw : a.wires = b.wires) :
    ((∃ c, add newId a b = .ok c) ↔ ∀ n p q, a.params.lookup n = some p → b.params.lookup n = some q →
      p.trainable = q.trainable ∧ (p.trainable = true → p.bounds = q.bounds)) ∧
    ((¬ ∃ c, add newId a b = .ok c) → add newId a b = .error .value) := by
  have h : (∃ c, add newId a b = .ok c) ↔ ∀ n p q, a.params.lookup n = some p → b.params.lookup n = some q → Compat p q := by
    constructor
    · rintro ⟨c, hc⟩
      by_contra hn
      rw [add_fail hN hv (inv_built hN hl hv ha) (inv_built hN hl hv hb) hw hn] at hc
      cases hc
    · intro hc
      obtain ⟨c, h, -⟩ := add_ok hN hl hv (inv_built hN hl hv ha) (inv_built hN hl hv hb) hw hc newId
      exact ⟨c, h⟩
  refine ⟨h, fun hn => ?_⟩
  rw [h] at hn
  exact add_fail hN hv (inv_built hN hl hv ha) (inv_built hN hl hv hb) hw hn newId

/-- The sum of two components of one class: the function is the sum, the class, wires, trainability and bounds are kept, each parameter is the
concatenation, and cutoffs set by the user are forgotten. -/
theorem C107_sum [DecidableEq W] (k : Cls) (hN : Named k) (hl : k.lam = false) (F : List (String × ℂ) → (ℕ → ℂ) → ℂ)
    (hv : Vectorised (k.kw.map (·.1)) k.gen F) (newId : ℕ) (a b c : Comp W) (ha : Built k a) (hb : Built k b) (hadd : add newId a b = .ok c) :
    c.wires = a.wires ∧ c.wires = b.wires ∧ c.mro = a.mro ∧ (∀ i, c.cutoffs i = none) ∧ terms c = terms a + terms b ∧
      (∀ z, ∃ x y, a.value z = some x ∧ b.value z = some y ∧ c.value z = some (x + y)) ∧
      ∀ n p q, a.params.lookup n = some p → b.params.lookup n = some q → ∃ r, c.params.lookup n = some r ∧ r.trainable = p.trainable ∧
        r.bounds = p.bounds ∧ r.value.shape = [terms a + terms b] ∧ (∀ l < terms a, r.value.data [l] = entry p.value l) ∧
        ∀ l < terms b, r.value.data [terms a + l] = entry q.value l := by
  have hw : a.wires = b.wires := by
    by_contra h
    rw [(C107_wires newId a b h).1] at hadd
    cases hadd
  have ia := inv_built hN hl hv ha
  have ib := inv_built hN hl hv hb
  have hc : ∀ n p q, a.params.lookup n = some p → b.params.lookup n = some q → Compat p q := by
    by_contra hn
    rw [add_fail hN hv ia ib hw hn] at hadd
    cases hadd
  obtain ⟨c', h1, ic, h3, h4, h5⟩ := add_ok hN hl hv ia ib hw hc newId
  rw [h1] at hadd
  injection hadd with hadd
  subst hadd
  have hnda : (a.params.map (·.1)).Nodup := by
    rw [ia.names, ← List.map_congr_left hN.1]
    exact hN.2.2.1
  have hndc : (c'.params.map (·.1)).Nodup := by
    rw [ic.names, ← List.map_congr_left hN.1]
    exact hN.2.2.1
  have hndb : (b.params.map (·.1)).Nodup := by
    rw [ib.names, ← List.map_congr_left hN.1]
    exact hN.2.2.1
  have hpar : ∀ n p q, a.params.lookup n = some p → b.params.lookup n = some q →
      c'.params.lookup n = some ⟨p.trainable, p.bounds, cat p q (terms a) (terms b)⟩ := by
    intro n p q hp hq
    have hm := mem_lookup hp
    obtain ⟨y, hy, e1, q', hq', e2⟩ : ∃ y ∈ c'.params, n = y.1 ∧ ∃ q, b.params.lookup n = some q ∧ y.2 = ⟨p.trainable, p.bounds, cat p q (terms a) (terms b)⟩ := by
      generalize a.params = l at h5 hm
      generalize c'.params = l' at h5
      induction h5 with
      | nil => cases hm
      | cons g _ ih =>
        rcases List.mem_cons.1 hm with rfl | hm
        · exact ⟨_, List.mem_cons_self, g⟩
        · obtain ⟨y, h1, h2⟩ := ih hm
          exact ⟨y, List.mem_cons_of_mem _ h1, h2⟩
    rw [hq] at hq'
    injection hq' with hq'
    subst hq'
    rw [← e2, e1]
    exact lookup_mem hndc hy
  have hterm : terms c' = terms a + terms b := by
    obtain ⟨x, hx⟩ : ∃ x, x ∈ c'.params := List.exists_mem_of_ne_nil _ (params_ne hN ic.toInv0)
    have hs := (shape_terms hN ic hx).1
    obtain ⟨p, hp⟩ := lookup_some (l := a.params) (n := x.1) (by rw [ia.names, ← ic.names]; exact List.mem_map_of_mem hx)
    obtain ⟨q, hq⟩ := lookup_some (l := b.params) (n := x.1) (by rw [ib.names, ← ic.names]; exact List.mem_map_of_mem hx)
    have := hpar _ _ _ hp hq
    rw [lookup_mem hndc hx] at this
    injection this with this
    rw [this] at hs
    unfold atleast1 cat at hs
    simpa using hs.symm
  have hrow : ∀ n p q, a.params.lookup n = some p → b.params.lookup n = some q →
      (∀ l < terms a, (cat p q (terms a) (terms b)).data [l] = entry p.value l) ∧
      ∀ l < terms b, (cat p q (terms a) (terms b)).data [terms a + l] = entry q.value l := by
    intro n p q hp hq
    refine ⟨fun l hl => ?_, fun l _ => ?_⟩
    · change (if l < terms a then _ else _) = _
      rw [if_pos hl]
      exact atleast1_data (shape_terms hN ia (mem_lookup hp)).2 l
    · change (if terms a + l < terms a then _ else (atleast1 q.value).data [terms a + l - terms a]) = _
      rw [if_neg (by omega), Nat.add_sub_cancel_left]
      exact atleast1_data (shape_terms hN ib (mem_lookup hq)).2 l
  refine ⟨h3, h3.trans hw, ic.mro.trans ia.mro.symm, h4, hterm, fun z => ?_, fun n p q hp hq => ⟨_, hpar n p q hp hq, rfl, rfl, rfl, hrow n p q hp hq⟩⟩
  refine ⟨_, _, C107_value k hN hl F hv a ha z, C107_value k hN hl F hv b hb z, ?_⟩
  rw [C107_value k hN hl F hv c' (Built.sum ha hb h1) z, hterm, Finset.sum_range_add]
  refine congrArg some (congrArg₂ (· + ·) (Finset.sum_congr rfl fun l hl => ?_) (Finset.sum_congr rfl fun l hl => ?_))
  · refine congrArg (fun e => F e z) ?_
    unfold entries
    refine (map_of_forall₂ ((forall₂_mem h5).imp fun x y hh => ?_)).symm
    obtain ⟨⟨e1, q, hq, e2⟩, hx, -⟩ := hh
    refine Prod.ext e1 ?_
    dsimp only
    rw [e2]
    refine ((hrow _ _ _ (lookup_mem hnda hx) hq).1 l (Finset.mem_range.1 hl)).symm.trans ?_
    unfold entry
    rw [if_neg (by simp [cat])]
  · refine congrArg (fun e => F e z) ?_
    unfold entries
    have hbc : List.Forall₂ (fun (x y : String × Param) => x.1 = y.1) b.params c'.params := forall₂_of_map (by rw [ib.names, ic.names])
    refine (map_of_forall₂ ((forall₂_mem hbc).imp fun x y hh => ?_)).symm
    refine Prod.ext hh.1 ?_
    dsimp only
    have hq := lookup_mem hndb hh.2.1
    obtain ⟨p, hp⟩ := lookup_some (l := a.params) (n := x.1) (by rw [ia.names, ← ib.names]; exact List.mem_map_of_mem hh.2.1)
    have hy := hpar _ _ _ hp hq
    rw [hh.1, lookup_mem hndc hh.2.2] at hy
    injection hy with hy
    rw [hy]
    refine ((hrow _ _ _ hp hq).2 l (Finset.mem_range.1 hl)).symm.trans ?_
    unfold entry
    rw [if_neg (by simp [cat])]

/-- If a keyword argument of the generating function is not the name of a parameter, two components of the class can never be added. -/
theorem C107_unaddable [DecidableEq W] (k : Cls) (hl : k.lam = false) (hk : ∃ n ∈ k.kw.map (·.1) ++ k.fixed.map (·.1), n ∉ k.kw.map (·.2)) (newId : ℕ)
    (a b : Comp W) (ha : Built k a) (hb : Built k b) : ∃ e, add newId a b = .error e := by
  have ia := inv0_built hl ha
  have ib := inv0_built hl hb
  obtain ⟨la, ea⟩ := ia.ans
  obtain ⟨lb, eb⟩ := ib.ans
  obtain ⟨n, hn, hnn⟩ := hk
  by_cases hw : a.wires = b.wires
  · rw [add_gen hw ea eb]
    rcases h : (k.kw.map (·.1) ++ k.fixed.map (·.1)).mapM (addOne a b) with e | ps
    · exact ⟨e, rfl⟩
    · exfalso
      rw [mapM_except] at h
      have : addOne a b n = .error .attribute := by
        unfold addOne getattr
        rw [lookup_none (by rw [ia.names]; exact hnn)]
        rfl
      generalize k.kw.map (·.1) ++ k.fixed.map (·.1) = l at h hn
      induction h with
      | nil => cases hn
      | cons g _ ih =>
        rcases List.mem_cons.1 hn with rfl | hn
        · rw [this] at g; cases g
        · exact ih hn
  · exact ⟨_, (C107_wires newId a b hw).1⟩

/-- With one keyword argument it is an `AttributeError`: for instance two attenuators. -/
theorem C107_attribute [DecidableEq W] (k : Cls) (hl : k.lam = false) (x y : String) (hxy : x ≠ y) (hk : k.kw = [(x, y)]) (hf : k.fixed = []) (newId : ℕ)
    (a b : Comp W) (ha : Built k a) (hb : Built k b) (hw : a.wires = b.wires) : add newId a b = .error .attribute := by
  have ia := inv0_built hl ha
  have ib := inv0_built hl hb
  obtain ⟨la, ea⟩ := ia.ans
  obtain ⟨lb, eb⟩ := ib.ans
  rw [add_gen hw ea eb, hk, hf]
  have : addOne a b x = .error .attribute := by
    unfold addOne getattr
    rw [lookup_none (by rw [ia.names, hk]; simpa using hxy)]
    rfl
  change (([x].mapM (addOne a b)).bind _) = _
  rw [List.mapM_cons, this]
  rfl

/-- A component made from data and a generating function with plain arguments, as `DM.from_phase_space` does, cannot be added to another one. -/
theorem C107_plain [DecidableEq W] (newId : ℕ) (a b : Comp W) (i : ℕ) (f f' : List (String × Tens) → Option PolyExp) (x : String × Tens) (fixed fixed' : List (String × Tens))
    (ls ls' : Bool) (ha : a.ans = .gen i f [] (x :: fixed) ls) (hb : b.ans = .gen i f' [] fixed' ls') (hp : a.params = []) (hw : a.wires = b.wires) :
    add newId a b = .error .attribute := by
  rw [add_gen hw ha hb]
  have : addOne a b x.1 = .error .attribute := by
    unfold addOne getattr
    rw [hp]
    rfl
  change (((x.1 :: fixed.map (·.1)).mapM (addOne a b)).bind _) = _
  rw [List.mapM_cons, this]
  rfl

/-- Matrix parameters are not stacked: the sum has a parameter of twice as many rows. -/
theorem C107_matrix [DecidableEq W] (k : Cls) (hl : k.lam = false) (n : String) (hk : k.kw = [(n, n)]) (hf : k.fixed = []) (newId : ℕ) (a b c : Comp W) (w : W)
    (p q : Param) (d e : ℕ) (i j : ℕ) (ha : k.make i w [(n, p)] = .ok a) (hb : k.make j w [(n, q)] = .ok b) (hp : p.value.shape = [d, e]) (hq : q.value.shape = [d, e])
    (hadd : add newId a b = .ok c) : ∃ r, c.params.lookup n = some r ∧ r.value.shape = [d + d, e] := by
  have ia := inv0_make hl ha
  have ib := inv0_make hl hb
  have pa : a.params = [(n, p)] := by
    have := ia.2.2.2.2
    rw [hk] at this
    generalize a.params = L at this
    cases this with
    | @cons kp np _ l g t =>
      cases t
      rw [show [(n, p)].lookup n = some p by simp] at g
      rw [show np = (n, p) from Prod.ext g.1.symm (Option.some.inj g.2).symm]
  have pb : b.params = [(n, q)] := by
    have := ib.2.2.2.2
    rw [hk] at this
    generalize b.params = L at this
    cases this with
    | @cons kp np _ l g t =>
      cases t
      rw [show [(n, q)].lookup n = some q by simp] at g
      rw [show np = (n, q) from Prod.ext g.1.symm (Option.some.inj g.2).symm]
  have hw : a.wires = b.wires := ia.2.1.trans ib.2.1.symm
  rw [add_gen hw ia.2.2.2.1 ib.2.2.2.1, hk, hf, ia.1.cls] at hadd
  change (([n].mapM (addOne a b)).bind _) = _ at hadd
  rcases h1 : addOne a b n with er | y
  · rw [List.mapM_cons, h1] at hadd; cases hadd
  · rw [List.mapM_cons, h1] at hadd
    change (k.make newId a.wires [y]).map Comp.superpose = _ at hadd
    have hy : y.1 = n ∧ y.2.value.shape = [d + d, e] := by
      unfold addOne getattr at h1
      rw [pa, pb, show [(n, p)].lookup n = some p by simp, show [(n, q)].lookup n = some q by simp] at h1
      rcases ha' : a.batched with er | x
      · rw [ha'] at h1
        change (if p.trainable ≠ q.trainable then _ else Except.error er) = _ at h1
        split_ifs at h1
      rcases hb' : b.batched with er | x'
      · rw [ha', hb'] at h1
        change (if p.trainable ≠ q.trainable then _ else if x = true then _ else Except.error er) = _ at h1
        split_ifs at h1
      have hcat : concat0 (atleast1 p.value) (atleast1 q.value) = some ⟨[d + d, e], fun idx => if idx.headD 0 < d then p.value.data idx else q.value.data ((idx.headD 0 - d) :: idx.tail)⟩ := by
        have e1 : atleast1 p.value = p.value := if_neg (by rw [hp]; simp)
        have e2 : atleast1 q.value = q.value := if_neg (by rw [hq]; simp)
        rw [e1, e2]
        unfold concat0
        rw [hp, hq, if_pos (show [d, e].tail = [d, e].tail from rfl)]
        rfl
      rw [ha', hb'] at h1
      change (if p.trainable ≠ q.trainable then _ else if x = true then _ else if x' = true then _ else if p.trainable = true ∧ p.bounds ≠ q.bounds then _ else
        match concat0 (atleast1 p.value) (atleast1 q.value) with | none => _ | some v => _) = _ at h1
      rw [hcat] at h1
      split_ifs at h1
      cases h1
      exact ⟨rfl, rfl⟩
    rcases hm : k.make newId a.wires [y] with er | c'
    · rw [hm] at hadd; cases hadd
    · rw [hm] at hadd
      cases hadd
      have ic := inv0_make hl hm
      rw [superpose_gen ic.2.2.2.1]
      have := ic.2.2.2.2
      rw [hk] at this
      obtain ⟨y1, y2⟩ := y
      obtain ⟨rfl, hs⟩ := hy
      generalize hcp : c'.params = l at this
      cases this with
      | @cons kp np _ l g t =>
        cases t
        dsimp only
        rw [show [(y1, y2)].lookup y1 = some y2 by simp] at g
        refine ⟨y2, ?_, hs⟩
        rw [show np = (y1, y2) from Prod.ext g.1.symm (Option.some.inj g.2).symm]
        simp

/-! ### Sums of data, differences and multiples -/

/-- The type of what `+`, `-`, `*`, `/` return: the same base types as the operand, the closest one first. -/
theorem C107_types (mro : List String) : (∀ t ∈ baseTypes, t ∈ closest mro ↔ t ∈ mro) ∧
    ((∃ t ∈ baseTypes, t ∈ mro) → (closest mro).head? = mro.find? fun t => t ∈ baseTypes) := by
  unfold closest
  have hd : ∀ l : List String, (∀ t ∈ baseTypes, t ∈ l.dropWhile (fun t => t ∉ baseTypes) ↔ t ∈ l) ∧
      (l.dropWhile (fun t => t ∉ baseTypes)).head? = l.find? fun t => t ∈ baseTypes := by
    intro l
    induction l with
    | nil => exact ⟨fun _ _ => Iff.rfl, rfl⟩
    | cons x l ih =>
      by_cases hx : x ∈ baseTypes
      · rw [List.dropWhile_cons_of_neg (by simpa using hx), List.find?_cons_of_pos (by simpa using hx)]
        exact ⟨fun _ _ => Iff.rfl, rfl⟩
      · rw [List.dropWhile_cons_of_pos (by simpa using hx), List.find?_cons_of_neg (by simpa using hx)]
        refine ⟨fun t ht => (ih.1 t ht).trans ?_, ih.2⟩
        rw [List.mem_cons]
        exact ⟨Or.inr, fun h => h.resolve_left fun e => hx (e ▸ ht)⟩
  obtain ⟨h1, h2⟩ := hd mro
  split
  · rename_i e
    rw [e] at h1 h2
    refine ⟨fun t ht => ?_, fun ⟨t, ht, hm⟩ => ?_⟩
    · rw [← h1 t ht]
      simp only [List.mem_singleton, List.not_mem_nil, iff_false]
      rintro rfl
      revert ht
      decide
    · exact absurd ((h1 t ht).2 hm) List.not_mem_nil
  · exact ⟨h1, fun _ => h2⟩

/-- Sums of components that are not generated by the same function. -/
theorem C107_data [DecidableEq W] (newId : ℕ) (a b c : Comp W) (f g : PolyExp) (hf : a.poly = some f) (hg : b.poly = some g) (wf : f.WF) (wg : g.WF)
    (hne : ∀ i j f1 k1 x1 l1 f2 k2 x2 l2, a.ans = .gen i f1 k1 x1 l1 → b.ans = .gen j f2 k2 x2 l2 → i ≠ j)
    (hm : f.derived.length = g.derived.length ∨ f.derived = [] ∨ g.derived = []) (hadd : add newId a b = .ok c) :
    c.wires = a.wires ∧ c.wires = b.wires ∧ c.mro = closest a.mro ∧ c.params = [] ∧ c.name = (if a.name = b.name then a.name else "") ∧
      (∀ i m n, a.cutoffs i = some m → b.cutoffs i = some n → c.cutoffs i = some (max m n)) ∧
      (∀ i m, 0 < m → (a.cutoffs i = some m ∧ b.cutoffs i = none ∨ a.cutoffs i = none ∧ b.cutoffs i = some m) → c.cutoffs i = some m) ∧
      (∀ i, a.cutoffs i = none → b.cutoffs i = none → c.cutoffs i = none) ∧
      ∀ z, ∃ x y, a.value z = some x ∧ b.value z = some y ∧ c.value z = some (x + y) := by
  have hw : a.wires = b.wires := by
    by_contra h
    rw [(C107_wires newId a b h).1] at hadd
    cases hadd
  have hd : addData a b = .ok c := by
    unfold add at hadd
    rw [if_neg (not_not.2 hw)] at hadd
    split at hadd
    · rename_i e1 e2
      rw [if_neg (hne _ _ _ _ _ _ _ _ _ _ e1 e2)] at hadd
      exact hadd
    · exact hadd
  unfold addData at hd
  rw [hf, hg] at hd
  dsimp only at hd
  rcases hh : f.add g with _ | h
  · rw [hh] at hd; cases hd
  · rw [hh] at hd
    cases hd
    refine ⟨rfl, hw, rfl, rfl, rfl, fun i m n h1 h2 => ?_, fun i m h0 h => ?_, fun i h1 h2 => ?_, fun z => ⟨f.call [] z, g.call [] z, ?_, ?_, ?_⟩⟩
    · change maxCutoff _ _ = _
      rw [h1, h2]
      rfl
    · change maxCutoff _ _ = _
      obtain ⟨m, rfl⟩ := Nat.exists_eq_succ_of_ne_zero h0.ne'
      rcases h with ⟨h1, h2⟩ | ⟨h1, h2⟩ <;> rw [h1, h2] <;> rfl
    · change maxCutoff _ _ = _
      rw [h1, h2]
      rfl
    · unfold Comp.value; rw [hf]; rfl
    · unfold Comp.value; rw [hg]; rfl
    · change some (h.call [] z) = _
      rw [(C27_add f g h wf wg hh hm z).2.2.2]

/-- Differences. -/
theorem C107_sub [DecidableEq W] (a b c : Comp W) (f g : PolyExp) (hf : a.poly = some f) (hg : b.poly = some g) (wf : f.WF) (wg : g.WF)
    (hm : f.derived.length = g.derived.length ∨ f.derived = [] ∨ g.derived = []) (hsub : sub a b = .ok c) :
    c.wires = a.wires ∧ c.wires = b.wires ∧ c.mro = closest a.mro ∧ c.params = [] ∧ c.name = (if a.name = b.name then a.name else "") ∧
      ∀ z, ∃ x y, a.value z = some x ∧ b.value z = some y ∧ c.value z = some (x - y) := by
  have hw : a.wires = b.wires := by
    by_contra h
    rw [(C107_wires 0 a b h).2] at hsub
    cases hsub
  unfold sub at hsub
  rw [if_neg (not_not.2 hw), hf, hg] at hsub
  dsimp only at hsub
  rcases hh : f.add g.neg with _ | h
  · rw [hh] at hsub; cases hsub
  · rw [hh] at hsub
    cases hsub
    refine ⟨rfl, hw, rfl, rfl, rfl, fun z => ⟨f.call [] z, g.call [] z, ?_, ?_, ?_⟩⟩
    · unfold Comp.value; rw [hf]; rfl
    · unfold Comp.value; rw [hg]; rfl
    · change some (h.call [] z) = _
      rw [(C27_add f g.neg h wf ⟨wg.der, wg.ls⟩ hh hm z).2.2.2, (C27_scalar g 0 [] z).2.2, sub_eq_add_neg]

/-- Multiples and quotients by a number: same wires and name, scaled function. -/
theorem C107_scale (a c d : Comp W) (x : ℂ) (hmul : mul a x = .ok c) (hdiv : div a x = .ok d) :
    c.wires = a.wires ∧ d.wires = a.wires ∧ c.name = a.name ∧ d.name = a.name ∧ c.mro = closest a.mro ∧ d.mro = closest a.mro ∧
      ∀ z, ∃ y, a.value z = some y ∧ c.value z = some (y * x) ∧ d.value z = some (y / x) := by
  unfold mul at hmul
  unfold div at hdiv
  rcases hf : a.poly with _ | f
  · rw [hf] at hmul; cases hmul
  · rw [hf] at hmul hdiv
    cases hmul
    cases hdiv
    refine ⟨rfl, rfl, rfl, rfl, rfl, rfl, fun z => ⟨f.call [] z, ?_, ?_, ?_⟩⟩
    · unfold Comp.value; rw [hf]; rfl
    · change some ((f.mul x).call [] z) = _
      rw [(C27_scalar f x [] z).1]
    · change some ((f.div x).call [] z) = _
      rw [(C27_scalar f x [] z).2.1]

/-! ### The built-in classes -/

/-- The keyword arguments of the generating function, with the parameter each one is bound to; those that are not parameters; whether the function is a
`lambda` (mrmustard/lab/states, mrmustard/lab/transformations, mrmustard/lab/circuit_components_utils: the calls of `PolyExpAnsatz.from_function`, e.g.
mrmustard/lab/transformations/attenuator.py 100-103). -/
structure Sig where
  name : String
  kw : List (String × String)
  fixed : List String
  lam : Bool := false

/-- The built-in components with a generating function: mrmustard/lab/states/bargmann_eigenstate.py 82-85, coherent.py 96-99, displaced_squeezed.py
102-107, gaussian_state.py 89-92 and 182-186, quadrature_eigenstate.py 91-95, sauron.py 68-72, squeezed_vacuum.py 86-90, thermal.py 74-77,
two_mode_squeezed_vacuum.py 85-89; mrmustard/lab/transformations/amplifier.py 99, attenuator.py 100-103, bsgate.py 106-110, cxgate.py 77-83,
czgate.py 77-83, dgate.py 89-92, fockdamping.py 89-92, gaussrandnoise.py 92-95, ggate.py 72-75, identity.py 72, interferometer.py 76-82, mzgate.py 83-91,
pgate.py 74-80, realinterferometer.py 78-84, rgate.py 67-70, s2gate.py 97-101, sgate.py 110-114; mrmustard/lab/circuit_components_utils/b_to_ch.py 86-90,
b_to_ps.py 55-59, b_to_q.py 69-73, trace_out.py 71. -/
def builtins : List Sig :=
  [⟨"BargmannEigenstate", [("alpha", "alpha")], [], false⟩, ⟨"Coherent", [("alpha", "alpha")], [], false⟩,
   ⟨"DisplacedSqueezed", [("alpha", "alpha"), ("r", "r"), ("phi", "phi")], [], false⟩, ⟨"GKet", [("symplectic", "symplectic")], [], false⟩,
   ⟨"GDM", [("betas", "beta"), ("symplectic", "symplectic")], [], false⟩, ⟨"QuadratureEigenstate", [("x", "x"), ("phi", "phi")], [], false⟩,
   ⟨"Sauron", [("n", "n"), ("epsilon", "epsilon")], [], false⟩, ⟨"SqueezedVacuum", [("r", "r"), ("phi", "phi")], [], false⟩,
   ⟨"Thermal", [("nbar", "nbar")], [], false⟩, ⟨"TwoModeSqueezedVacuum", [("r", "r"), ("phi", "phi")], [], false⟩,
   ⟨"Amplifier", [("g", "gain")], [], false⟩, ⟨"Attenuator", [("eta", "transmissivity")], [], false⟩,
   ⟨"BSgate", [("theta", "theta"), ("phi", "phi")], [], false⟩, ⟨"CXgate", [("s", "s")], [], true⟩, ⟨"CZgate", [("s", "s")], [], true⟩,
   ⟨"Dgate", [("alpha", "alpha")], [], false⟩, ⟨"FockDamping", [("beta", "damping")], [], false⟩, ⟨"GaussRandNoise", [("Y", "Y")], [], false⟩,
   ⟨"Ggate", [("s", "symplectic")], [], true⟩, ⟨"Identity", [], ["n_modes"], false⟩, ⟨"Interferometer", [("uni", "unitary")], [], true⟩,
   ⟨"MZgate", [("phi_a", "phi_a"), ("phi_b", "phi_b")], ["internal"], true⟩, ⟨"Pgate", [("shearing", "shearing")], [], true⟩,
   ⟨"RealInterferometer", [("ortho", "orthogonal")], [], true⟩, ⟨"Rgate", [("theta", "theta")], [], false⟩,
   ⟨"S2gate", [("r", "r"), ("phi", "phi")], [], false⟩, ⟨"Sgate", [("r", "r"), ("phi", "phi")], [], false⟩,
   ⟨"BtoCH", [("s", "s")], ["n_modes"], false⟩, ⟨"BtoPS", [("s", "s")], ["n_modes"], false⟩, ⟨"BtoQ", [("phi", "phi")], ["n_modes"], false⟩,
   ⟨"TraceOut", [], ["n_modes"], false⟩]

/-- The class `k` has this signature. -/
def HasSig (k : Cls) (s : Sig) : Prop := k.kw = s.kw ∧ k.fixed.map (·.1) = s.fixed ∧ k.lam = s.lam

/-- The built-in classes two components of which (on the same wires) can never be added. -/
def neverAdd : List String := ["GDM", "Amplifier", "Attenuator", "FockDamping", "Identity", "BtoCH", "BtoPS", "BtoQ", "TraceOut"]

/-- Two attenuators, amplifiers, Fock dampings, `GDM`s or identities can never be added. -/
theorem C107_never [DecidableEq W] (s : Sig) (hs : s ∈ builtins) (hn : s.name ∈ neverAdd) (k : Cls) (hk : HasSig k s) (newId : ℕ) (a b : Comp W)
    (ha : Built k a) (hb : Built k b) : ∃ e, add newId a b = .error e := by
  have hall : ∀ s ∈ builtins, s.name ∈ neverAdd → s.lam = false ∧ ∃ n ∈ s.kw.map (·.1) ++ s.fixed, n ∉ s.kw.map (·.2) := by decide
  obtain ⟨hl, n, h1, h2⟩ := hall s hs hn
  refine C107_unaddable k (hk.2.2.trans hl) ⟨n, ?_, ?_⟩ newId a b ha hb
  · rw [hk.1, hk.2.1]; exact h1
  · rw [hk.1]; exact h2

/-- For the other ones whose function is not a `lambda`, the keyword arguments are the parameters, so `C107_sum` applies if the function is vectorised. -/
theorem C107_others (s : Sig) (hs : s ∈ builtins) (hn : s.name ∉ neverAdd) (hl : s.lam = false) (k : Cls) (hk : HasSig k s) : Named k := by
  have hall : ∀ s ∈ builtins, s.name ∉ neverAdd → s.lam = false →
      (∀ kp ∈ s.kw, kp.1 = kp.2) ∧ s.fixed = [] ∧ (s.kw.map (·.1)).Nodup ∧ s.kw ≠ [] := by decide
  obtain ⟨h1, h2, h3, h4⟩ := hall s hs hn hl
  refine ⟨by rw [hk.1]; exact h1, List.map_eq_nil_iff.1 (hk.2.1.trans h2), by rw [hk.1]; exact h3, by rw [hk.1]; exact h4⟩

/-! ### Example: cat states -/

/-- `Coherent` (mrmustard/lab/states/coherent.py 83-100). -/
noncomputable def coherentCls : Cls :=
  ⟨"Coherent", ["Coherent", "Ket", "State", "CircuitComponent"], 7, false,
    fun A => (A.lookup "alpha").map fun t => Verif.Triples.coherent t.shape t.data, [("alpha", "alpha")], []⟩

theorem coherent_named : Named coherentCls := ⟨by simp [coherentCls], rfl, by simp [coherentCls], by simp [coherentCls]⟩

/-- `F(z) = exp(-|α|²/2) exp(α z)`. -/
noncomputable def cohF (l : List (String × ℂ)) (z : ℕ → ℂ) : ℂ :=
  match l with
  | [] => 0
  | x :: _ => Complex.exp (x.2 * z 0) * Complex.exp (((-(1 / 2) * ‖x.2‖ ^ 2 : ℝ)) : ℂ)

theorem coherent_term (B : List ℕ) (α : List ℕ → ℂ) (β : List ℕ) (z : ℕ → ℂ) :
    (Verif.Triples.coherent B α).termAt β z = Complex.exp (α β * z 0) * Complex.exp (((-(1 / 2) * ‖α β‖ ^ 2 : ℝ)) : ℂ) := by
  unfold PolyExp.termAt termVal PolyExp.numCV Verif.Triples.coherent Verif.Triples.mk
  have h0 : toF [] = 0 := by ext i; simp [toF]
  simp [Verif.Triples.vec, nsum, ndindex, h0, amp_zero, mul_comm]

theorem coherent_vectorised : Vectorised (coherentCls.kw.map (·.1)) coherentCls.gen cohF := by
  have key : ∀ A : List (String × Tens), A.map (·.1) = ["alpha"] → ∃ t, A = [("alpha", t)] := by
    intro A hA
    rcases A with _ | ⟨⟨n, t⟩, _ | ⟨y, l⟩⟩
    · cases hA
    · injection hA with h1
      exact ⟨t, by rw [← h1]⟩
    · cases hA
  constructor
  · intro A hA hs
    obtain ⟨t, rfl⟩ := key A hA
    refine ⟨_, rfl, hs _ List.mem_cons_self, fun z => coherent_term _ _ _ _⟩
  · intro A L hA hs
    obtain ⟨t, rfl⟩ := key A hA
    refine ⟨_, rfl, hs _ List.mem_cons_self, fun l _ z => coherent_term _ _ _ _⟩

/-- A trainable scalar parameter `alpha`. -/
def alphaPar (α : ℂ) : Param := ⟨true, (none, none), ⟨[], fun _ => α⟩⟩

/-- A coherent state on mode 0. -/
noncomputable def coh (α : ℂ) : Comp ℕ :=
  ⟨some coherentCls, coherentCls.mro, 0, "Coherent", [("alpha", alphaPar α)], .gen 7 coherentCls.gen coherentCls.kw [] false, fun _ => none⟩

theorem coh_built (α : ℂ) : Built coherentCls (coh α) := by
  refine Built.new (newId := 0) (w := 0) (given := [("alpha", alphaPar α)]) (fun g hg => ?_) ?_
  · rw [List.mem_singleton.1 hg]; rfl
  · rfl

/-- `C107_new` and `C107_assign`: `Coherent(0, 2)` stores 2, and after `state.parameters.alpha.value = 5` its function is the one of `Coherent(0, 5)`. -/
example (z : ℕ → ℂ) : coherentCls.make 0 (0 : ℕ) [("alpha", alphaPar 2)] = .ok (coh 2) ∧ (coh 2).params.lookup "alpha" = some (alphaPar 2) ∧
    ((coh 2).assign "alpha" ⟨[], fun _ => 5⟩).params.lookup "alpha" = some (alphaPar 5) ∧
    ((coh 2).assign "alpha" ⟨[], fun _ => 5⟩).value z = (coh 5).value z := by
  refine ⟨rfl, rfl, (C107_assign (coh 2) "alpha" (alphaPar 2) ⟨[], fun _ => 5⟩ rfl).1, ?_⟩
  rw [C107_value coherentCls coherent_named rfl cohF coherent_vectorised _ (coh_built 5),
    C107_value coherentCls coherent_named rfl cohF coherent_vectorised _ (Built.assign (n := "alpha") (v := ⟨[], fun _ => 5⟩) (p := alphaPar 2) (coh_built 2) rfl rfl rfl)]
  rfl

/-- A cat state: `Coherent(0, 2) + Coherent(0, -2)` is a trainable component with the two amplitudes, and its function is the sum. -/
example : ∃ c, add 0 (coh 2) (coh (-2)) = .ok c ∧ Built coherentCls c ∧ "Ket" ∈ c.mro ∧ terms c = 2 ∧
    ∀ z, c.value z = some (Complex.exp (2 * z 0) * Complex.exp (((-(1 / 2) * ‖(2 : ℂ)‖ ^ 2 : ℝ)) : ℂ) +
      Complex.exp (-2 * z 0) * Complex.exp (((-(1 / 2) * ‖(-2 : ℂ)‖ ^ 2 : ℝ)) : ℂ)) := by
  obtain ⟨c, hc⟩ := (C107_sum_iff coherentCls coherent_named rfl cohF coherent_vectorised 0 (coh 2) (coh (-2)) (coh_built _) (coh_built _) rfl).1.2 (by
    intro n p q hp hq
    have h1 := List.mem_singleton.1 (mem_lookup hp)
    have h2 := List.mem_singleton.1 (mem_lookup hq)
    injection h1 with _ h1
    injection h2 with _ h2
    rw [h1, h2]
    exact ⟨rfl, fun _ => rfl⟩)
  have h := C107_sum coherentCls coherent_named rfl cohF coherent_vectorised 0 _ _ c (coh_built _) (coh_built _) hc
  refine ⟨c, hc, Built.sum (coh_built _) (coh_built _) hc, ?_, h.2.2.2.2.1, fun z => ?_⟩
  · rw [h.2.2.1]
    decide
  · obtain ⟨x, y, hx, hy, hxy⟩ := h.2.2.2.2.2.1 z
    have v := fun α => C107_value coherentCls coherent_named rfl cohF coherent_vectorised (coh α) (coh_built α) z
    have t : ∀ α, terms (coh α) = 1 := fun _ => rfl
    rw [v, t, Finset.sum_range_one] at hx hy
    rw [hxy, ← Option.some.inj hx, ← Option.some.inj hy]
    rfl

/-- `Attenuator` with some generating function. -/
def attCls (g : List (String × Tens) → Option PolyExp) : Cls :=
  ⟨"Attenuator", ["Attenuator", "Channel", "Map", "CircuitComponent"], 8, false, g, [("eta", "transmissivity")], []⟩

/-- An attenuator on mode 0. -/
def att (g : List (String × Tens) → Option PolyExp) (η : ℂ) : Comp ℕ :=
  ⟨some (attCls g), (attCls g).mro, 0, "Attenuator", [("transmissivity", ⟨false, (none, none), ⟨[], fun _ => η⟩⟩)], .gen 8 g (attCls g).kw [] false, fun _ => none⟩

/-- `Attenuator(0, 1/2) + Attenuator(0, 1/3)` raises an `AttributeError`. -/
example (g : List (String × Tens) → Option PolyExp) : add 0 (att g (1 / 2)) (att g (1 / 3)) = .error .attribute := by
  have hb : ∀ η, Built (attCls g) (att g η) := fun η =>
    Built.new (newId := 0) (w := 0) (given := [("transmissivity", ⟨false, (none, none), ⟨[], fun _ => η⟩⟩)])
      (fun x hx => by rw [List.mem_singleton.1 hx]) rfl
  exact C107_attribute (attCls g) rfl "eta" "transmissivity" (by decide) rfl rfl 0 _ _ (hb _) (hb _) rfl

/-- The hypotheses of `C107_data` and `C107_scale`: twice a coherent state, plus a coherent state. -/
example : ∃ c d, mul (coh 2) 2 = .ok c ∧ add 0 c (coh 1) = .ok d ∧ closest coherentCls.mro = ["Ket", "State", "CircuitComponent"] ∧ d.mro = ["Ket", "State", "CircuitComponent"] := by
  have hp : ∀ α, ∃ f : PolyExp, (coh α).poly = some f ∧ f.batch = [] ∧ f.derived = [] ∧ f.N = 1 ∧ f.linSup = false := fun α =>
    ⟨{ Verif.Triples.coherent [] (fun _ => α) with linSup := false }, rfl, rfl, rfl, rfl, rfl⟩
  obtain ⟨f, hf, f1, f2, f3, f4⟩ := hp 2
  obtain ⟨g, hg, g1, g2, g3, g4⟩ := hp 1
  have hadd : ∃ h, (f.mul 2).add g = some h := by
    rw [PolyExp.C27_add_defined]
    · simp [PolyExp.mul, f2, g2]
    · simp [PolyExp.mul, PolyExp.numCV, f2, f3, g2, g3]
    · simp [PolyExp.mul, f1]
    · simp [g1]
    · simp [PolyExp.mul, f1]
    · simp [g1]
  obtain ⟨h, hh⟩ := hadd
  refine ⟨fromAttributes coherentCls.mro (f.mul 2) 0 "Coherent",
    { fromAttributes (closest coherentCls.mro) h 0 "Coherent" with cutoffs := fun _ => none }, ?_, ?_, by decide, show closest (closest coherentCls.mro) = _ by decide⟩
  · unfold mul
    rw [hf]
    rfl
  · unfold add
    rw [if_neg (by simp [coh, fromAttributes])]
    change addData _ _ = _
    unfold addData
    rw [hg]
    change (match (f.mul 2).add g with | some h => _ | none => _) = _
    rw [hh]
    rfl

end Verif.CompAdd
