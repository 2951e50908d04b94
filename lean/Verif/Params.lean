import Mathlib.Data.List.Basic
import Mathlib.Data.List.Nodup
import Mathlib.Data.List.Induction
import Mathlib.Tactic.Common

/-!
# Model of `ParameterSet` (C36)
-/

namespace Verif.Params

/-- math/parameters.py:121-168, 163-230: a `Constant` or a `Variable` (with bounds), its value of an arbitrary
type `V`. -/
structure Param (V : Type) where
  name : String
  isVar : Bool
  value : V
  bounds : Option ℕ × Option ℕ
  updateFn : ℕ
  deriving DecidableEq

/-- Python `dict` in insertion order. -/
abbrev Dict (α : Type) := List (String × α)

/-- `d.get(k)`. -/
def Dict.get? {α} (d : Dict α) (k : String) : Option α :=
  match d with
  | [] => none
  | p :: d => if k = p.1 then some p.2 else Dict.get? d k

/-- `d[k] = v`: overwrite in place, or append. -/
def Dict.set {α} (d : Dict α) (k : String) (v : α) : Dict α :=
  match d with
  | [] => [(k, v)]
  | p :: d => if k = p.1 then (k, v) :: d else p :: Dict.set d k v

/-- `d1 | d2`. -/
def Dict.merge {α} (d e : Dict α) : Dict α := e.foldl (fun d p => Dict.set d p.1 p.2) d

/-- math/parameter_set.py:58-61: the three fields of a `ParameterSet` (`vars` is `_variables`). -/
structure PS (V : Type) where
  names : List String
  constants : Dict (Param V)
  vars : Dict (Param V)

/-- math/parameter_set.py:58-61 `__init__`. -/
def PS.empty {V} : PS V := ⟨[], [], []⟩

/-- math/parameter_set.py:103-127 `add_parameter`; `none` is `ValueError`.  Simplification: the attribute created in
`__dict__` (line 125/128) is not modelled; a parameter called `_names`, `_constants` or `_variables` would overwrite the
fields themselves; such names are outside the model (see DESIGN.md). -/
def PS.add {V} (s : PS V) (p : Param V) : Option (PS V) :=
  if p.name ∈ s.names then none
  else if p.isVar then some { s with names := s.names ++ [p.name], vars := Dict.set s.vars p.name p }
  else some { s with names := s.names ++ [p.name], constants := Dict.set s.constants p.name p }

/-- math/parameter_set.py:63-68 `all_parameters`. -/
def PS.all {V} (s : PS V) : Dict (Param V) := Dict.merge s.constants s.vars

/-- Values of the dictionary returned by `to_dict`. -/
inductive DVal (V : Type) where
  | value (v : V)
  | yes
  | bounds (b : Option ℕ × Option ℕ)
  deriving DecidableEq

/-- math/parameter_set.py:140-151 `to_dict`. -/
def PS.toDict {V} (s : PS V) : Dict (DVal V) :=
  s.all.foldl (fun ret p =>
    let ret := Dict.set ret p.1 (.value p.2.value)
    if p.2.isVar then Dict.set (Dict.set ret (p.1 ++ "_trainable") .yes) (p.1 ++ "_bounds") (.bounds p.2.bounds)
    else ret) []

/-- math/parameter_set.py:129-138 `tagged_variables`. -/
def PS.tagged {V} (s : PS V) (tag : String) : Dict (Param V) :=
  s.vars.foldl (fun ret p => Dict.set ret (tag ++ "/" ++ p.1) p.2) []

/-- math/parameter_set.py:199-256 `__getitem__`: `slice` is `math.gather(·, items)`, `isScalar` is `shape == ()`.
`none`: an exception. -/
def PS.getItem {V} (s : PS V) (isScalar : V → Bool) (slice : V → V) : Option (PS V) :=
  let step (acc : Option (PS V)) (p : String × Param V) : Option (PS V) :=
    acc.bind fun r => r.add (if isScalar p.2.value then p.2 else { p.2 with name := p.1, value := slice p.2.value })
  s.vars.foldl step (s.constants.foldl step (some PS.empty))

/-- A history of additions, in which the caller catches the `ValueError`s. -/
def run {V} (ps : List (Param V)) : PS V := ps.foldl (fun s p => (s.add p).getD s) PS.empty

/-! ## Specification -/

/-- The parameters that must be present after a history: the first one of each name. -/
def firsts {V} : List (Param V) → List (Param V)
  | [] => []
  | p :: ps => p :: (firsts ps).filter (fun q => q.name != p.name)

/-! ## Proofs -/

theorem get?_set {α} (d : Dict α) (k k' : String) (v : α) :
    Dict.get? (Dict.set d k v) k' = if k' = k then some v else Dict.get? d k' := by
  induction d with
  | nil => simp [Dict.set, Dict.get?]
  | cons p d ih =>
    unfold Dict.set
    by_cases h : k = p.1
    · rw [if_pos h]
      unfold Dict.get?
      by_cases h' : k' = k
      · simp [h']
      · have : k' ≠ p.1 := by rwa [← h]
        simp [h', this]
    · rw [if_neg h]
      unfold Dict.get?
      rw [ih]
      by_cases h' : k' = p.1
      · have : k' ≠ k := by rw [h']; exact fun e => h e.symm
        rw [if_pos h', if_neg this, if_pos h']
      · rw [if_neg h', if_neg h']

theorem get?_none {α} {d : Dict α} {k : String} (h : k ∉ d.map (·.1)) : Dict.get? d k = none := by
  induction d with
  | nil => rfl
  | cons p d ih =>
    simp only [List.map_cons, List.mem_cons, not_or] at h
    unfold Dict.get?
    rw [if_neg h.1, ih h.2]

theorem set_new {α} {d : Dict α} {k : String} (h : k ∉ d.map (·.1)) (v : α) : Dict.set d k v = d ++ [(k, v)] := by
  induction d with
  | nil => rfl
  | cons p d ih =>
    simp only [List.map_cons, List.mem_cons, not_or] at h
    unfold Dict.set
    rw [if_neg h.1, ih h.2]; rfl

theorem firsts_append {V} (ps : List (Param V)) (p : Param V) :
    firsts (ps ++ [p]) = if p.name ∈ (firsts ps).map (·.name) then firsts ps else firsts ps ++ [p] := by
  induction ps with
  | nil => simp [firsts]
  | cons q ps ih =>
    have e1 : firsts (q :: ps ++ [p]) = q :: (firsts (ps ++ [p])).filter (fun r => r.name != q.name) := rfl
    rw [e1, ih]
    by_cases hq : p.name = q.name
    · rw [if_pos (show p.name ∈ (firsts (q :: ps)).map (·.name) by simp [firsts, hq])]
      by_cases h1 : p.name ∈ (firsts ps).map (·.name)
      · rw [if_pos h1]; rfl
      · rw [if_neg h1]; simp [firsts, hq]
    · by_cases h1 : p.name ∈ (firsts ps).map (·.name)
      · have : p.name ∈ (firsts (q :: ps)).map (·.name) := by
          simp only [firsts, List.map_cons, List.mem_cons]
          right
          obtain ⟨r, hr, e⟩ := List.mem_map.1 h1
          refine List.mem_map.2 ⟨r, List.mem_filter.2 ⟨hr, ?_⟩, e⟩
          simp [e, hq]
        rw [if_pos h1, if_pos this]; rfl
      · have : p.name ∉ (firsts (q :: ps)).map (·.name) := by
          simp only [firsts, List.map_cons, List.mem_cons, not_or]
          refine ⟨hq, ?_⟩
          intro hc
          obtain ⟨r, hr, e⟩ := List.mem_map.1 hc
          exact h1 (List.mem_map.2 ⟨r, (List.mem_filter.1 hr).1, e⟩)
        rw [if_neg h1, if_neg this]
        simp [firsts, hq]

theorem firsts_nodup {V} (ps : List (Param V)) : ((firsts ps).map (·.name)).Nodup := by
  induction ps with
  | nil => simp [firsts]
  | cons p ps ih =>
    simp only [firsts, List.map_cons, List.nodup_cons]
    constructor
    · intro h
      obtain ⟨r, hr, e⟩ := List.mem_map.1 h
      have := (List.mem_filter.1 hr).2
      simp [e] at this
    · exact (List.filter_sublist.map _).nodup ih

theorem run_append {V} (ps : List (Param V)) (p : Param V) : run (ps ++ [p]) = ((run ps).add p).getD (run ps) := by
  unfold run; rw [List.foldl_append]; rfl

theorem run_spec {V} (ps : List (Param V)) :
    (run ps).names = (firsts ps).map (·.name) ∧
    (run ps).constants = ((firsts ps).filter (fun p => !p.isVar)).map (fun p => (p.name, p)) ∧
    (run ps).vars = ((firsts ps).filter (fun p => p.isVar)).map (fun p => (p.name, p)) := by
  induction ps using List.reverseRecOn with
  | nil => simp [run, PS.empty, firsts]
  | append_singleton ps p ih =>
    obtain ⟨h1, h2, h3⟩ := ih
    rw [run_append, firsts_append]
    unfold PS.add
    rw [h1]
    split_ifs with hin hv
    · exact ⟨h1, h2, h3⟩
    · simp only [Option.getD_some]
      refine ⟨by simp, ?_, ?_⟩
      · rw [h2]; simp [List.filter_append, hv]
      · rw [set_new, h3]
        · simp [List.filter_append, hv]
        · rw [h3]
          intro hc
          apply hin
          simp only [List.map_map, List.mem_map, List.mem_filter, Function.comp] at hc ⊢
          obtain ⟨q, ⟨hq, _⟩, e⟩ := hc
          exact ⟨q, hq, e⟩
    · simp only [Option.getD_some]
      have hv' : p.isVar = false := by simpa using hv
      refine ⟨by simp, ?_, ?_⟩
      · rw [set_new, h2]
        · simp [List.filter_append, hv']
        · rw [h2]
          intro hc
          apply hin
          simp only [List.map_map, List.mem_map, List.mem_filter, Function.comp] at hc ⊢
          obtain ⟨q, ⟨hq, _⟩, e⟩ := hc
          exact ⟨q, hq, e⟩
      · rw [h3]; simp [List.filter_append, hv']

/-- **C36 (bookkeeping).** After any history of `add_parameter` calls, failing ones included: the names are those of
the first parameter added under each name, in insertion order and without repetition; the constants and variables
are those parameters, each stored under its own name, split by kind; adding raises exactly when the name is present
and then changes nothing. -/
theorem C36_bookkeeping {V} (ps : List (Param V)) :
    (run ps).names.Nodup ∧ (run ps).names = (firsts ps).map (·.name) ∧
    (run ps).constants = ((firsts ps).filter (fun p => !p.isVar)).map (fun p => (p.name, p)) ∧
    (run ps).vars = ((firsts ps).filter (fun p => p.isVar)).map (fun p => (p.name, p)) ∧
    (∀ p, (run ps).add p = none ↔ p.name ∈ (run ps).names) ∧
    (∀ p, (run ps).add p = none → run (ps ++ [p]) = run ps) := by
  obtain ⟨h1, h2, h3⟩ := run_spec ps
  refine ⟨by rw [h1]; exact firsts_nodup ps, h1, h2, h3, ?_, ?_⟩
  · intro p
    unfold PS.add
    split_ifs <;> simp_all
  · intro p hp
    rw [run_append, hp]; rfl

theorem merge_disjoint {α} (d e : Dict α) (h : ((d ++ e).map (·.1)).Nodup) : Dict.merge d e = d ++ e := by
  unfold Dict.merge
  induction e generalizing d with
  | nil => simp
  | cons p e ih =>
    rw [List.foldl_cons, set_new, ih]
    · simp
    · simpa using h
    · intro hc
      rw [List.map_append, List.nodup_append] at h
      exact h.2.2 _ hc _ (by simp) rfl

theorem split_nodup {V} (l : List (Param V)) (h : (l.map (·.name)).Nodup) :
    ((l.filter (fun p => !p.isVar)).map (·.name) ++ (l.filter (fun p => p.isVar)).map (·.name)).Nodup := by
  rw [List.nodup_append]
  refine ⟨(List.filter_sublist.map _).nodup h, (List.filter_sublist.map _).nodup h, ?_⟩
  intro a ha b hb e
  obtain ⟨p, hp, rfl⟩ := List.mem_map.1 ha
  obtain ⟨q, hq, rfl⟩ := List.mem_map.1 hb
  have hp' := List.mem_filter.1 hp
  have hq' := List.mem_filter.1 hq
  have := List.inj_on_of_nodup_map h hp'.1 hq'.1 e
  subst this
  simp_all

theorem all_eq {V} (ps : List (Param V)) : (run ps).all =
    ((firsts ps).filter (fun p => !p.isVar) ++ (firsts ps).filter (fun p => p.isVar)).map (fun p => (p.name, p)) := by
  obtain ⟨h1, h2, h3⟩ := run_spec ps
  unfold PS.all
  rw [h2, h3, List.map_append]
  apply merge_disjoint
  rw [← List.map_append, List.map_map]
  have := split_nodup _ (firsts_nodup ps)
  rw [← List.map_append] at this
  exact this

/-- No parameter name is another one's name followed by `_trainable` or `_bounds`. -/
def NoClash {V} (l : List (Param V)) : Prop :=
  ∀ p ∈ l, ∀ q ∈ l, q.isVar → p.name ≠ q.name ++ "_trainable" ∧ p.name ≠ q.name ++ "_bounds"

theorem str_append_inj {a b s : String} (h : a ++ s = b ++ s) : a = b := by
  have := congrArg String.toList h
  simp only [String.toList_append] at this
  exact String.toList_injective (List.append_cancel_right this)

theorem str_suffix_ne (a b : String) : a ++ "_trainable" ≠ b ++ "_bounds" := by
  intro h
  have h1 := congrArg String.toList h
  simp only [String.toList_append] at h1
  have h2 := congrArg List.getLast? h1
  rw [List.getLast?_append, List.getLast?_append] at h2
  have e1 : "_trainable".toList.getLast? = some 'e' := by decide
  have e2 : "_bounds".toList.getLast? = some 's' := by decide
  rw [e1, e2] at h2
  simp at h2

/-- One iteration of the loop of `to_dict`. -/
def dictStep {V} (ret : Dict (DVal V)) (p : Param V) : Dict (DVal V) :=
  let ret := Dict.set ret p.name (.value p.value)
  if p.isVar then Dict.set (Dict.set ret (p.name ++ "_trainable") .yes) (p.name ++ "_bounds") (.bounds p.bounds) else ret

theorem get?_dictStep {V} (ret : Dict (DVal V)) (p : Param V) (k : String) :
    Dict.get? (dictStep ret p) k =
      if p.isVar = true ∧ k = p.name ++ "_bounds" then some (.bounds p.bounds)
      else if p.isVar = true ∧ k = p.name ++ "_trainable" then some .yes
      else if k = p.name then some (.value p.value) else Dict.get? ret k := by
  unfold dictStep
  cases p.isVar
  · simp [get?_set]
  · simp [get?_set]

theorem foldl_dictStep {V} (l : List (Param V)) (hn : (l.map (·.name)).Nodup) (hc : NoClash l) (d : Dict (DVal V)) :
    (∀ p ∈ l, Dict.get? (l.foldl dictStep d) p.name = some (.value p.value)) ∧
    (∀ p ∈ l, p.isVar → Dict.get? (l.foldl dictStep d) (p.name ++ "_trainable") = some .yes ∧
      Dict.get? (l.foldl dictStep d) (p.name ++ "_bounds") = some (.bounds p.bounds)) ∧
    (∀ k, (∀ p ∈ l, k ≠ p.name ∧ (p.isVar → k ≠ p.name ++ "_trainable" ∧ k ≠ p.name ++ "_bounds")) →
      Dict.get? (l.foldl dictStep d) k = Dict.get? d k) := by
  induction l using List.reverseRecOn with
  | nil => simp
  | append_singleton l q ih =>
    have hn' : (l.map (·.name)).Nodup := by
      rw [List.map_append, List.nodup_append] at hn; exact hn.1
    have hq : ∀ p ∈ l, p.name ≠ q.name := by
      intro p hp
      rw [List.map_append, List.nodup_append] at hn
      exact hn.2.2 _ (List.mem_map.2 ⟨p, hp, rfl⟩) _ (by simp)
    obtain ⟨i1, i2, i3⟩ := ih hn' (fun p hp q hq => hc p (by simp [hp]) q (by simp [hq]))
    rw [List.foldl_append]
    simp only [List.foldl_cons, List.foldl_nil, List.mem_append, List.mem_singleton]
    have hcl : ∀ p ∈ l ++ [q], ∀ r ∈ l ++ [q], r.isVar → p.name ≠ r.name ++ "_trainable" ∧ p.name ≠ r.name ++ "_bounds" := hc
    refine ⟨?_, ?_, ?_⟩
    · intro p hp
      rw [get?_dictStep]
      have hcp : q.isVar = true → p.name ≠ q.name ++ "_trainable" ∧ p.name ≠ q.name ++ "_bounds" :=
        fun h => hcl p (by simpa using hp) q (by simp) h
      rw [if_neg (fun h => (hcp h.1).2 h.2), if_neg (fun h => (hcp h.1).1 h.2)]
      rcases hp with hp | rfl
      · rw [if_neg (hq p hp), i1 p hp]
      · rw [if_pos rfl]
    · intro p hp hv
      have hb : ∀ s, (s = "_trainable" ∨ s = "_bounds") → p.name ++ s ≠ q.name := by
        intro s hs e
        have := hcl q (by simp) p (by simpa using hp) hv
        rcases hs with rfl | rfl
        · exact this.1 e.symm
        · exact this.2 e.symm
      rw [get?_dictStep, get?_dictStep]
      constructor
      · rw [if_neg (fun h => str_suffix_ne _ _ h.2)]
        rcases hp with hp | rfl
        · rw [if_neg (fun h => hq p hp (str_append_inj h.2)), if_neg (hb _ (Or.inl rfl))]
          exact (i2 p hp hv).1
        · rw [if_pos ⟨hv, rfl⟩]
      · rcases hp with hp | rfl
        · rw [if_neg (fun h => hq p hp (str_append_inj h.2)), if_neg (fun h => str_suffix_ne _ _ h.2.symm),
            if_neg (hb _ (Or.inr rfl))]
          exact (i2 p hp hv).2
        · rw [if_pos ⟨hv, rfl⟩]
    · intro k hk
      have hkq := hk q (Or.inr rfl)
      rw [get?_dictStep, if_neg (fun h => (hkq.2 h.1).2 h.2), if_neg (fun h => (hkq.2 h.1).1 h.2), if_neg hkq.1]
      exact i3 k (fun p hp => hk p (Or.inl hp))

/-- **C36 (`to_dict`).** The dictionary has, for every parameter of the set, its value under its name, and for every
variable `True` and its bounds under `name_trainable` and `name_bounds`; it has no other keys — provided no parameter is
itself called `x_trainable` or `x_bounds` for a variable `x`. -/
theorem C36_to_dict {V} (ps : List (Param V)) (hc : NoClash (firsts ps)) :
    (∀ p ∈ firsts ps, Dict.get? (run ps).toDict p.name = some (.value p.value)) ∧
    (∀ p ∈ firsts ps, p.isVar → Dict.get? (run ps).toDict (p.name ++ "_trainable") = some .yes ∧
      Dict.get? (run ps).toDict (p.name ++ "_bounds") = some (.bounds p.bounds)) ∧
    (∀ k, (∀ p ∈ firsts ps, k ≠ p.name ∧ (p.isVar → k ≠ p.name ++ "_trainable" ∧ k ≠ p.name ++ "_bounds")) →
      Dict.get? (run ps).toDict k = none) := by
  set l := (firsts ps).filter (fun p => !p.isVar) ++ (firsts ps).filter (fun p => p.isVar) with hl
  have mem : ∀ p, p ∈ l ↔ p ∈ firsts ps := by
    intro p
    rw [hl, List.mem_append, List.mem_filter, List.mem_filter]
    cases p.isVar <;> simp
  have e : (run ps).toDict = l.foldl dictStep [] := by
    unfold PS.toDict
    rw [all_eq, ← hl, List.foldl_map]
    rfl
  have hn : (l.map (·.name)).Nodup := by
    have := split_nodup _ (firsts_nodup ps)
    rwa [← List.map_append] at this
  obtain ⟨h1, h2, h3⟩ := foldl_dictStep l hn
    (fun p hp q hq => hc p ((mem p).1 hp) q ((mem q).1 hq)) []
  rw [e]
  refine ⟨fun p hp => h1 p ((mem p).2 hp), fun p hp => h2 p ((mem p).2 hp), ?_⟩
  intro k hk
  rw [h3 k (fun p hp => hk p ((mem p).1 hp))]
  rfl

/-- The side condition is needed: with a constant called `x_trainable` and a variable `x`, `to_dict` loses the
constant. -/
theorem C36_to_dict_clash :
    Dict.get? (run [⟨"x_trainable", false, (5 : ℕ), (none, none), 0⟩, ⟨"x", true, 1, (none, none), 0⟩]).toDict
      "x_trainable" = some .yes := by
  decide

/-- **C36 (indexing).** `ps[items]` succeeds and contains exactly the same parameters, of the same kind and bounds, array values
sliced and scalars kept; but its names come with all constants first. -/
theorem C36_getitem {V} (ps : List (Param V)) (isScalar : V → Bool) (slice : V → V) :
    ∃ r, (run ps).getItem isScalar slice = some r ∧
      (∀ q, q ∈ r.all.map (·.2) ↔ ∃ p ∈ firsts ps, q = { p with value := if isScalar p.value then p.value else slice p.value }) ∧
      r.names = (run ps).constants.map (·.1) ++ (run ps).vars.map (·.1) := by
  obtain ⟨h1, h2, h3⟩ := run_spec ps
  set f : Param V → Param V := fun p => { p with value := if isScalar p.value then p.value else slice p.value } with hf
  set l := (firsts ps).filter (fun p => !p.isVar) ++ (firsts ps).filter (fun p => p.isVar) with hl
  have mem : ∀ p, p ∈ l ↔ p ∈ firsts ps := by
    intro p
    rw [hl, List.mem_append, List.mem_filter, List.mem_filter]
    cases p.isVar <;> simp
  have hn : (l.map (·.name)).Nodup := by
    have := split_nodup _ (firsts_nodup ps)
    rwa [← List.map_append] at this
  have hnf : ((l.map f).map (·.name)).Nodup := by
    rw [List.map_map]; exact hn
  have hstep : ∀ p : Param V, (if isScalar p.value then p else { p with name := p.name, value := slice p.value }) = f p := by
    intro p
    simp only [hf]
    split_ifs <;> rfl
  -- adding a list of parameters with new, distinct names succeeds
  have addAll : ∀ (qs : List (Param V)) (done : List (Param V)), ((done ++ qs).map (·.name)).Nodup →
      qs.foldl (fun acc p => acc.bind fun r => r.add p) (some (run done)) = some (run (done ++ qs)) ∧ True := by
    intro qs
    induction qs with
    | nil => intro done _; simp
    | cons q qs ih =>
      intro done hnd
      have hq : q.name ∉ (run done).names := by
        rw [(run_spec done).1]
        intro hc
        have hsub : ∀ (l : List (Param V)) p, p ∈ firsts l → p ∈ l := by
          intro l
          induction l with
          | nil => simp [firsts]
          | cons a l ih2 =>
            intro p hp
            simp only [firsts, List.mem_cons, List.mem_filter] at hp
            rcases hp with rfl | ⟨hp, _⟩
            · simp
            · simp [ih2 p hp]
        obtain ⟨p, hp, e⟩ := List.mem_map.1 hc
        rw [List.map_append, List.nodup_append] at hnd
        exact hnd.2.2 _ (List.mem_map.2 ⟨p, hsub _ _ hp, rfl⟩) _ (by simp) e
      have hsome : (run done).add q = some (run (done ++ [q])) := by
        rw [run_append]
        unfold PS.add
        rw [if_neg hq]
        split_ifs <;> rfl
      simp only [List.foldl_cons, Option.bind_some, hsome]
      have := ih (done ++ [q]) (by simpa using hnd)
      simpa using this
  have hget : (run ps).getItem isScalar slice = some (run (l.map f)) := by
    unfold PS.getItem
    rw [h2, h3, List.foldl_map, List.foldl_map]
    simp only [hstep]
    have := (addAll (l.map f) [] (by simpa using hnf)).1
    rw [List.nil_append, List.foldl_map, hl, List.foldl_append] at this
    exact this
  have hfirsts : firsts (l.map f) = l.map f := by
    have : ∀ l : List (Param V), (l.map (·.name)).Nodup → firsts l = l := by
      intro l
      induction l with
      | nil => simp [firsts]
      | cons a l ih =>
        intro h
        simp only [List.map_cons, List.nodup_cons] at h
        simp only [firsts, ih h.2]
        congr 1
        rw [List.filter_eq_self]
        intro q hq
        simp only [bne_iff_ne, ne_eq]
        intro e
        exact h.1 (List.mem_map.2 ⟨q, hq, e⟩)
    exact this _ hnf
  refine ⟨_, hget, ?_, ?_⟩
  · intro q
    rw [all_eq, hfirsts, List.map_map]
    simp only [List.mem_map, List.mem_append, List.mem_filter, Function.comp]
    constructor
    · rintro ⟨p, hp, rfl⟩
      have : p ∈ l.map f := by rcases hp with h | h <;> exact List.mem_map.2 h.1
      obtain ⟨p', hp', rfl⟩ := List.mem_map.1 this
      exact ⟨p', (mem p').1 hp', rfl⟩
    · rintro ⟨p, hp, rfl⟩
      refine ⟨f p, ?_, rfl⟩
      have : f p ∈ l.map f := List.mem_map.2 ⟨p, (mem p).2 hp, rfl⟩
      have hm : ∃ a ∈ l, f a = f p := ⟨p, (mem p).2 hp, rfl⟩
      cases hv : (f p).isVar
      · exact Or.inl ⟨hm, by simp [hv]⟩
      · exact Or.inr ⟨hm, by simp [hv]⟩
  · rw [(run_spec _).1, hfirsts, h2, h3, List.map_map, hl]
    simp [Function.comp_def, hf]

/-- Indexing does not preserve the documented order of names ("in the order in which they were added"). -/
theorem C36_getitem_reorders :
    ((run [⟨"v", true, (1 : ℕ), (none, none), 0⟩, ⟨"c", false, 2, (none, none), 0⟩]).getItem (fun _ => true) id).map
      (·.names) = some ["c", "v"] ∧
    (run [⟨"v", true, (1 : ℕ), (none, none), 0⟩, ⟨"c", false, 2, (none, none), 0⟩]).names = ["v", "c"] := by
  decide

example : NoClash (firsts [⟨"r", true, (1 : ℕ), (none, none), 0⟩, ⟨"phi", false, 2, (none, none), 0⟩,
    ⟨"r", false, 3, (none, none), 0⟩]) := by
  unfold NoClash
  decide

end Verif.Params
