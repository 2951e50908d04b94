import Mathlib.Data.Complex.Basic
import Mathlib.Tactic.SplitIfs

/-!
# Ansatze generated from parameters: freshness over every history (C99)

`PolyExpAnsatz.from_function` and `ArrayAnsatz.from_function` keep a function and its arguments; the data are computed when they are
read.  A history is any sequence of assignments to variables and reads.
-/

namespace Verif.Lazy

/-! ## The code -/

/-- A tensor. -/
structure Tens where
  shape : List ℕ
  data : List ℕ → ℂ

/-- An argument of the function: a `Variable` (an object whose value can be assigned), a `Constant`, or a plain value
(mrmustard/math/parameters.py 121-169, 171-239). -/
inductive Prm (V : Type*)
  | var (id : ℕ)
  | const (v : V)
  | plain (v : V)

/-- `type(param) is Variable`. -/
def Prm.isVar {V : Type*} : Prm V → Bool
  | .var _ => true
  | _ => false

/-- `param.value` or `param` (physics/ansatz/polyexp_ansatz.py 700-704). -/
def Prm.value {V : Type*} (σ : ℕ → V) : Prm V → V
  | .var i => σ i
  | .const v => v
  | .plain v => v

/-- The dictionary of arguments `params` (physics/ansatz/polyexp_ansatz.py 699-704, physics/ansatz/array_ansatz.py 321-326). -/
def args {V : Type*} (σ : ℕ → V) (K : List (String × Prm V)) : List (String × V) := K.map fun p => (p.1, p.2.value σ)

/-- The state of a `PolyExpAnsatz` (physics/ansatz/polyexp_ansatz.py 107-127). -/
structure PState where
  A : Option Tens
  b : Option Tens
  c : Option Tens
  batch : List ℕ

/-- `from_function` (physics/ansatz/polyexp_ansatz.py 280-288): nothing is computed. -/
def PState.fresh : PState := ⟨none, none, none, []⟩

/-- `verify_batch_triple` passes (physics/utils.py 110-134). -/
def verify (A b c : Tens) : Bool :=
  let batch := A.shape.take (A.shape.length - 2)
  !(batch != b.shape.take batch.length || (c.shape.length != 0 && batch != c.shape.take batch.length))

/-- `_should_regenerate` (physics/ansatz/polyexp_ansatz.py 823-829). -/
def PState.shouldRegenerate {V : Type*} (K : List (String × Prm V)) (s : PState) : Bool :=
  s.A.isNone || s.b.isNone || s.c.isNone || K.any fun p => p.2.isVar

/-- `_generate_ansatz` (physics/ansatz/polyexp_ansatz.py 694-711): the new state and whether an exception was raised; a failing
`verify_batch_triple` leaves the new `A`, `b`, `c` in place. -/
def PState.generate {V : Type*} (fn : List (String × V) → Option (Tens × Tens × Tens)) (K : List (String × Prm V)) (σ : ℕ → V) (s : PState) : PState × Bool :=
  if s.shouldRegenerate K then
    match fn (args σ K) with
    | none => (s, true)
    | some (A, b, c) => if verify A b c then (⟨some A, some b, some c, A.shape.take (A.shape.length - 2)⟩, false) else (⟨some A, some b, some c, s.batch⟩, true)
  else (s, false)

/-- What a user does. -/
inductive Op (V : Type*)
  | set (id : ℕ) (v : V)
  | readA
  | readb
  | readc
  | readBatch

/-- What a user sees. -/
inductive Out
  | done
  | raised
  | tens (t : Option Tens)
  | shape (l : List ℕ)

/-- One operation: properties `A`, `b`, `c` (physics/ansatz/polyexp_ansatz.py 129-135, 137-143, 159-165) and `batch_shape` (149-153). -/
def step {V : Type*} (fn : List (String × V) → Option (Tens × Tens × Tens)) (K : List (String × Prm V)) (σ : ℕ → V) (s : PState) : Op V → (ℕ → V) × PState × Out
  | .set i v => (Function.update σ i v, s, .done)
  | .readA => let r := s.generate fn K σ; (σ, r.1, if r.2 then .raised else .tens r.1.A)
  | .readb => let r := s.generate fn K σ; (σ, r.1, if r.2 then .raised else .tens r.1.b)
  | .readc => let r := s.generate fn K σ; (σ, r.1, if r.2 then .raised else .tens r.1.c)
  | .readBatch =>
    if s.A.isNone then let r := s.generate fn K σ; (σ, r.1, if r.2 then .raised else .shape r.1.batch)
    else (σ, s, .shape s.batch)

/-- A history. -/
def run {V : Type*} (fn : List (String × V) → Option (Tens × Tens × Tens)) (K : List (String × Prm V)) (σ : ℕ → V) (s : PState) : List (Op V) → (ℕ → V) × PState
  | [] => (σ, s)
  | o :: l => let r := step fn K σ s o; run fn K r.1 r.2.1 l

/-! ## Specification -/

/-- The values of the variables after a history. -/
def store {V : Type*} (σ : ℕ → V) : List (Op V) → ℕ → V
  | [] => σ
  | .set i v :: l => store (Function.update σ i v) l
  | _ :: l => store σ l

/-- The named arguments at the values `σ` of the variables. -/
def present {V : Type*} (σ : ℕ → V) : List (String × Prm V) → List (String × V)
  | [] => []
  | (n, .var i) :: K => (n, σ i) :: present σ K
  | (n, .const v) :: K => (n, v) :: present σ K
  | (n, .plain v) :: K => (n, v) :: present σ K

/-- Some argument is a `Variable`. -/
def hasVar {V : Type*} : List (String × Prm V) → Bool
  | [] => false
  | (_, .var _) :: _ => true
  | _ :: K => hasVar K

/-- The answer to a read of `A`, `b` or `c` computed from the present values. -/
def answer (r : Option (Tens × Tens × Tens)) (pick : Tens × Tens × Tens → Tens) : Out :=
  match r with
  | none => .raised
  | some t => .tens (some (pick t))

/-- The batch shape of a triple. -/
def batchOf (t : Tens × Tens × Tens) : List ℕ := t.1.shape.take (t.1.shape.length - 2)

/-! ## Proofs -/

variable {V : Type*} (fn : List (String × V) → Option (Tens × Tens × Tens)) (K : List (String × Prm V))

theorem run_append (σ : ℕ → V) (s : PState) (l l' : List (Op V)) : run fn K σ s (l ++ l') = run fn K (run fn K σ s l).1 (run fn K σ s l).2 l' := by
  induction l generalizing σ s with
  | nil => rfl
  | cons o l ih => exact ih _ _

theorem run_store (σ : ℕ → V) (s : PState) (l : List (Op V)) : (run fn K σ s l).1 = store σ l := by
  induction l generalizing σ s with
  | nil => rfl
  | cons o l ih =>
    cases o with
    | readBatch =>
      have : (step fn K σ s .readBatch).1 = σ := by
        unfold step
        dsimp only
        split
        · rfl
        · rfl
      unfold run store
      dsimp only
      rw [this]
      exact ih _ _
    | _ => exact ih _ _

theorem args_eq (σ : ℕ → V) : args σ K = present σ K := by
  induction K with
  | nil => rfl
  | cons p K ih =>
    rcases p with ⟨n, p⟩
    cases p with
    | var i => exact congrArg ((n, σ i) :: ·) ih
    | const v => exact congrArg ((n, v) :: ·) ih
    | plain v => exact congrArg ((n, v) :: ·) ih

theorem any_eq : K.any (fun p => p.2.isVar) = hasVar K := by
  induction K with
  | nil => rfl
  | cons p K ih =>
    rcases p with ⟨n, p⟩
    cases p with
    | var i => rfl
    | const v => exact ih
    | plain v => exact ih

/-- The arguments do not change if there are no variables. -/
theorem args_const (h : K.any (fun p => p.2.isVar) = false) (σ σ' : ℕ → V) : args σ K = args σ' K := by
  unfold args
  refine List.map_congr_left fun p hp => ?_
  have := List.any_eq_false.1 h p hp
  rcases p with ⟨n, p⟩
  cases p with
  | var i => exact absurd rfl this
  | const v => rfl
  | plain v => rfl

/-- The state invariant: nothing, or the triple at some earlier values, which are the present ones if there are no variables. -/
def Inv (σs : Set (ℕ → V)) (s : PState) : Prop :=
  s = .fresh ∨ ∃ σ' ∈ σs, ∃ t, fn (args σ' K) = some t ∧ s = ⟨some t.1, some t.2.1, some t.2.2, batchOf t⟩

theorem generate_eq (hv : ∀ x A b c, fn x = some (A, b, c) → verify A b c = true) {σs : Set (ℕ → V)} {s : PState} (h : Inv fn K σs s) (σ : ℕ → V) :
    s.generate fn K σ = match fn (args σ K) with
      | none => (s, true)
      | some t => (⟨some t.1, some t.2.1, some t.2.2, batchOf t⟩, false) := by
  unfold PState.generate
  by_cases hr : s.shouldRegenerate K = true
  · rw [if_pos hr]
    rcases e : fn (args σ K) with _ | ⟨A, b, c⟩
    · rfl
    · dsimp only
      rw [if_pos (hv _ A b c e)]
      rfl
  · rw [if_neg hr]
    rcases h with h | ⟨σ', -, t, ht, h⟩
    · rw [h] at hr
      exact absurd rfl hr
    · have hK : K.any (fun p => p.2.isVar) = false := by
        rw [h] at hr
        unfold PState.shouldRegenerate at hr
        simpa using hr
      rw [args_const K hK σ σ', ht, h]

theorem inv_mono {σs σs' : Set (ℕ → V)} (hs : σs ⊆ σs') {s : PState} (h : Inv fn K σs s) : Inv fn K σs' s := by
  rcases h with h | ⟨σ', hσ, t, ht⟩
  · exact Or.inl h
  · exact Or.inr ⟨σ', hs hσ, t, ht⟩

theorem inv_generate (hv : ∀ x A b c, fn x = some (A, b, c) → verify A b c = true) {σs : Set (ℕ → V)} {s : PState} (h : Inv fn K σs s) (σ : ℕ → V) (hσ : σ ∈ σs) :
    Inv fn K σs (s.generate fn K σ).1 := by
  rw [generate_eq fn K hv h]
  rcases e : fn (args σ K) with _ | t
  · exact h
  · exact Or.inr ⟨σ, hσ, t, e, rfl⟩

theorem inv_run (hv : ∀ x A b c, fn x = some (A, b, c) → verify A b c = true) (σ : ℕ → V) (s : PState) (l : List (Op V)) (h : Inv fn K Set.univ s) :
    Inv fn K Set.univ (run fn K σ s l).2 := by
  induction l generalizing σ s with
  | nil => exact h
  | cons o l ih =>
    refine ih _ _ ?_
    cases o with
    | set i v => exact h
    | readA => exact inv_generate fn K hv h σ trivial
    | readb => exact inv_generate fn K hv h σ trivial
    | readc => exact inv_generate fn K hv h σ trivial
    | readBatch =>
      unfold step
      dsimp only
      split
      · exact inv_generate fn K hv h σ trivial
      · exact h

/-- **C99 (freshness)** If the function only returns consistent triples, then after every history a read of `A`, `b` or `c` gives exactly what
the function returns on the present values of the parameters (and raises exactly if the function raises). -/
theorem C99_fresh (hv : ∀ x A b c, fn x = some (A, b, c) → verify A b c = true) (σ : ℕ → V) (l : List (Op V)) :
    let w := run fn K σ .fresh l
    (step fn K w.1 w.2 .readA).2.2 = answer (fn (present (store σ l) K)) (·.1) ∧
    (step fn K w.1 w.2 .readb).2.2 = answer (fn (present (store σ l) K)) (·.2.1) ∧
    (step fn K w.1 w.2 .readc).2.2 = answer (fn (present (store σ l) K)) (·.2.2) := by
  intro w
  simp only [← args_eq]
  have hi : Inv fn K Set.univ w.2 := inv_run fn K hv σ .fresh l (Or.inl rfl)
  have hs : w.1 = store σ l := run_store fn K σ .fresh l
  unfold step
  dsimp only
  rw [generate_eq fn K hv hi, hs]
  rcases fn (args (store σ l) K) with _ | t
  · exact ⟨rfl, rfl, rfl⟩
  · exact ⟨rfl, rfl, rfl⟩

/-- An operation other than a read of `A`, `b` or `c`. -/
def Op.quiet : Op V → Bool
  | .set _ _ => true
  | .readBatch => true
  | _ => false

/-- **C99 (batch shape)** After a successful read of `A`, `b` or `c`, whatever is assigned to variables afterwards, `batch_shape` is the batch shape
of the triple that was read, until `A`, `b` or `c` is read again. -/
theorem C99_batch (hv : ∀ x A b c, fn x = some (A, b, c) → verify A b c = true) (σ : ℕ → V) (l : List (Op V)) (o : Op V) (ho : o = .readA ∨ o = .readb ∨ o = .readc)
    (rest : List (Op V)) (hq : ∀ o ∈ rest, o.quiet = true) (t : Tens × Tens × Tens) (ht : fn (present (store σ l) K) = some t) :
    let w := run fn K σ .fresh (l ++ o :: rest)
    (step fn K w.1 w.2 .readBatch).2.2 = .shape (batchOf t) := by
  rw [← args_eq] at ht
  intro w
  have hi : Inv fn K Set.univ (run fn K σ .fresh l).2 := inv_run fn K hv σ .fresh l (Or.inl rfl)
  have hs : (run fn K σ .fresh l).1 = store σ l := run_store fn K σ .fresh l
  have hset : ∀ (σ : ℕ → V) (s : PState), s.A.isNone = false → (run fn K σ s rest).2 = s := by
    clear ht
    intro σ s hA
    clear w
    induction rest generalizing σ with
    | nil => rfl
    | cons p ps ih =>
      have h1 : (step fn K σ s p).2.1 = s := by
        have := hq p (List.mem_cons_self)
        cases p with
        | set i v => rfl
        | readBatch =>
          unfold step
          rw [if_neg (by rw [hA]; simp)]
        | readA => exact absurd this (by simp [Op.quiet])
        | readb => exact absurd this (by simp [Op.quiet])
        | readc => exact absurd this (by simp [Op.quiet])
      unfold run
      dsimp only
      rw [h1]
      exact ih (fun o h => hq o (List.mem_cons_of_mem _ h)) _
  have hw : w.2 = ⟨some t.1, some t.2.1, some t.2.2, batchOf t⟩ := by
    show (run fn K σ .fresh (l ++ o :: rest)).2 = _
    rw [run_append]
    have : ∀ o : Op V, (o = .readA ∨ o = .readb ∨ o = .readc) → (step fn K (run fn K σ .fresh l).1 (run fn K σ .fresh l).2 o).2.1 = ⟨some t.1, some t.2.1, some t.2.2, batchOf t⟩ := by
      rintro o (rfl | rfl | rfl)
      all_goals
        unfold step
        dsimp only
        rw [generate_eq fn K hv hi, hs, ht]
    unfold run
    dsimp only
    rw [this o ho, hset _ _ rfl]
  show (step fn K w.1 w.2 .readBatch).2.2 = _
  rw [hw]
  rfl

/-- Before any read `batch_shape` is computed from the present values. -/
theorem C99_batch_first (hv : ∀ x A b c, fn x = some (A, b, c) → verify A b c = true) (σ : ℕ → V) (sets : List (ℕ × V)) :
    let l := sets.map fun p => Op.set p.1 p.2
    let w := run fn K σ .fresh l
    (step fn K w.1 w.2 .readBatch).2.2 = match fn (present (store σ l) K) with | none => .raised | some t => .shape (batchOf t) := by
  intro l w
  simp only [← args_eq]
  have hset : ∀ (σ : ℕ → V) (s : PState) (sets : List (ℕ × V)), (run fn K σ s (sets.map fun p => Op.set p.1 p.2)).2 = s := by
    intro σ s sets
    induction sets generalizing σ with
    | nil => rfl
    | cons p ps ih => exact ih _
  have hw : w.2 = .fresh := hset σ .fresh sets
  have hs : w.1 = store σ l := run_store fn K σ .fresh l
  rw [hw, hs]
  unfold step
  dsimp only
  rw [if_pos (show PState.fresh.A.isNone = true from rfl), generate_eq fn K hv (σs := Set.univ) (Or.inl rfl)]
  rcases fn (args (store σ l) K) with _ | t
  · rfl
  · rfl

/-- **C99 (inconsistent triples)** If there are no variables and the function returns an inconsistent triple, the first read raises and every later read
returns the inconsistent triple without an error. -/
theorem C99_inconsistent (hK : hasVar K = false) (σ : ℕ → V) {A b c : Tens} (h : fn (present σ K) = some (A, b, c)) (hv : verify A b c = false) :
    (step fn K σ .fresh .readA).2.2 = .raised ∧ ∀ σ', (step fn K σ' (step fn K σ .fresh .readA).2.1 .readA).2.2 = .tens (some A) := by
  rw [← args_eq] at h
  rw [← any_eq] at hK
  have h1 : PState.generate fn K σ .fresh = (⟨some A, some b, some c, []⟩, true) := by
    unfold PState.generate
    rw [if_pos (by rfl), h]
    dsimp only
    rw [if_neg (by rw [hv]; simp)]
    rfl
  have h2 : (step fn K σ .fresh .readA).2.1 = ⟨some A, some b, some c, []⟩ := by
    unfold step
    dsimp only
    rw [h1]
  refine ⟨by unfold step; dsimp only; rw [h1]; rfl, fun σ' => ?_⟩
  rw [h2]
  have h3 : PState.generate fn K σ' ⟨some A, some b, some c, []⟩ = (⟨some A, some b, some c, []⟩, false) := by
    have h4 : ¬ (PState.shouldRegenerate K ⟨some A, some b, some c, []⟩ = true) := by
      unfold PState.shouldRegenerate
      rw [hK]
      simp
    unfold PState.generate
    exact if_neg h4
  unfold step
  dsimp only
  rw [h3]
  rfl

/-! ## Arrays -/

/-- The state of an `ArrayAnsatz` (physics/ansatz/array_ansatz.py 51-62). -/
structure AState where
  array : Option Tens
  batch : List ℕ

/-- Assignment to `array` (physics/ansatz/array_ansatz.py 72-75). -/
def AState.assign (bd : ℕ) (v : Tens) : AState := ⟨some v, v.shape.take bd⟩

/-- `_generate_ansatz` (physics/ansatz/array_ansatz.py 316-327) with `_should_regenerate` (335-340). -/
def AState.generate (fa : List (String × V) → Option Tens) (bd : ℕ) (s : AState) (σ : ℕ → V) : AState × Bool :=
  if s.array.isNone || K.any (fun p => p.2.isVar) then
    match fa (args σ K) with
    | none => (s, true)
    | some v => (AState.assign bd v, false)
  else (s, false)

/-- What a user does with an `ArrayAnsatz`. -/
inductive AOp (V : Type*)
  | set (id : ℕ) (v : V)
  | assign (t : Tens)
  | read
  | readBatch

/-- One operation: property `array` (physics/ansatz/array_ansatz.py 64-70), its setter (72-75), `batch_shape` (81-85). -/
def astep (fa : List (String × V) → Option Tens) (bd : ℕ) (σ : ℕ → V) (s : AState) : AOp V → (ℕ → V) × AState × Out
  | .set i v => (Function.update σ i v, s, .done)
  | .assign t => (σ, AState.assign bd t, .done)
  | .read => let r := s.generate K fa bd σ; (σ, r.1, if r.2 then .raised else .tens r.1.array)
  | .readBatch =>
    if s.array.isNone then let r := s.generate K fa bd σ; (σ, r.1, if r.2 then .raised else .shape r.1.batch)
    else (σ, s, .shape s.batch)

/-- A history. -/
def arun (fa : List (String × V) → Option Tens) (bd : ℕ) (σ : ℕ → V) (s : AState) : List (AOp V) → (ℕ → V) × AState
  | [] => (σ, s)
  | o :: l => let r := astep K fa bd σ s o; arun fa bd r.1 r.2.1 l

/-- Specification: the values of the variables after a history. -/
def astore (σ : ℕ → V) : List (AOp V) → ℕ → V
  | [] => σ
  | .set i v :: l => astore (Function.update σ i v) l
  | _ :: l => astore σ l

/-- Specification: the last array assigned. -/
def lastAssigned : List (AOp V) → Option Tens
  | [] => none
  | .assign t :: l => (lastAssigned l).or (some t)
  | _ :: l => lastAssigned l

theorem arun_store (fa : List (String × V) → Option Tens) (bd : ℕ) (σ : ℕ → V) (s : AState) (l : List (AOp V)) : (arun K fa bd σ s l).1 = astore σ l := by
  induction l generalizing σ s with
  | nil => rfl
  | cons o l ih =>
    cases o with
    | readBatch =>
      have : (astep K fa bd σ s .readBatch).1 = σ := by
        unfold astep
        dsimp only
        split
        · rfl
        · rfl
      unfold arun astore
      dsimp only
      rw [this]
      exact ih _ _
    | _ => exact ih _ _

/-- **C99 (arrays)** After every history a read of `array` gives: with a variable among the parameters, the function at the present values, also after an
assignment to `array` (which is lost); without variables, the last array assigned, or the function's value if none was assigned. -/
theorem C99_array (fa : List (String × V) → Option Tens) (bd : ℕ) (σ : ℕ → V) (l : List (AOp V)) :
    let w := arun K fa bd σ ⟨none, []⟩ l
    (astep K fa bd w.1 w.2 .read).2.2 =
      if hasVar K then (match fa (present (astore σ l) K) with | none => .raised | some v => .tens (some v))
      else match lastAssigned l with
        | some t => .tens (some t)
        | none => match fa (present σ K) with | none => .raised | some v => .tens (some v) := by
  intro w
  simp only [← args_eq, ← any_eq]
  have hs : w.1 = astore σ l := arun_store K fa bd σ _ l
  by_cases hK : K.any (fun p => p.2.isVar) = true
  · rw [if_pos hK]
    have hg : w.2.generate K fa bd w.1 = match fa (args (astore σ l) K) with | none => (w.2, true) | some v => (AState.assign bd v, false) := by
      unfold AState.generate
      rw [hs]
      exact if_pos (by rw [hK, Bool.or_true])
    unfold astep
    dsimp only
    rw [hg]
    rcases fa (args (astore σ l) K) with _ | v
    · rfl
    · rfl
  · rw [if_neg hK]
    have hK' : K.any (fun p => p.2.isVar) = false := by simpa using hK
    -- the state is empty, the assigned array, or the value of the function
    have key : ∀ (l : List (AOp V)) (σ' : ℕ → V) (s : AState),
        (∀ v, (arun K fa bd σ' s l).2.array = some v → some v = (lastAssigned l).or (s.array.or (fa (args σ K)))) ∧
        ((arun K fa bd σ' s l).2.array = none → lastAssigned l = none ∧ s.array = none) := by
      intro l
      induction l with
      | nil =>
        intro σ' s
        refine ⟨fun v hv => ?_, fun h => ⟨rfl, h⟩⟩
        show some v = (none : Option Tens).or (s.array.or (fa (args σ K)))
        rw [show s.array = some v from hv]
        rfl
      | cons o l ih =>
        intro σ' s
        have hgen : ∀ σ', (s.generate K fa bd σ').1 = s ∨ (s.array = none ∧ ∃ v, fa (args σ K) = some v ∧ (s.generate K fa bd σ').1 = AState.assign bd v) := by
          intro σ'
          unfold AState.generate
          by_cases h : s.array.isNone = true
          · rw [if_pos (by rw [h, Bool.true_or]), args_const K hK' σ' σ]
            rcases e : fa (args σ K) with _ | v
            · exact Or.inl rfl
            · exact Or.inr ⟨by simpa using h, v, rfl, rfl⟩
          · rw [if_neg (by simp only [Bool.or_eq_true]; exact fun h' => h'.elim h hK)]
            exact Or.inl rfl
        have hread : ∀ (σ'' : ℕ → V) (s' : AState), (s' = s ∨ (s.array = none ∧ ∃ v, fa (args σ K) = some v ∧ s' = AState.assign bd v)) →
            (∀ v, (arun K fa bd σ'' s' l).2.array = some v → some v = (lastAssigned l).or (s.array.or (fa (args σ K)))) ∧
            ((arun K fa bd σ'' s' l).2.array = none → lastAssigned l = none ∧ s.array = none) := by
          rintro σ'' s' (rfl | ⟨h1, v, h2, rfl⟩)
          · exact ih σ'' s'
          · obtain ⟨i1, i2⟩ := ih σ'' (AState.assign bd v)
            refine ⟨fun x hx => ?_, fun h => absurd (i2 h).2 (by simp [AState.assign])⟩
            rw [i1 x hx, h1, h2]
            rfl
        cases o with
        | set i v => exact ih _ s
        | assign t =>
          obtain ⟨i1, i2⟩ := ih σ' (AState.assign bd t)
          refine ⟨fun x hx => ?_, fun h => absurd (i2 h).2 (by simp [AState.assign])⟩
          rw [i1 x hx]
          show (lastAssigned l).or (some t) = ((lastAssigned l).or (some t)).or (s.array.or (fa (args σ K)))
          rcases lastAssigned l with _ | y <;> rfl
        | read => exact hread σ' _ (hgen σ')
        | readBatch =>
          have h1 : (astep K fa bd σ' s .readBatch).1 = σ' := by
            unfold astep
            dsimp only
            split
            · rfl
            · rfl
          have h2 : (astep K fa bd σ' s .readBatch).2.1 = s ∨ (astep K fa bd σ' s .readBatch).2.1 = (s.generate K fa bd σ').1 := by
            unfold astep
            dsimp only
            split
            · exact Or.inr rfl
            · exact Or.inl rfl
          have h3 := hread σ' (astep K fa bd σ' s .readBatch).2.1 (h2.elim Or.inl fun e => e ▸ hgen σ')
          unfold arun
          dsimp only
          rw [h1]
          exact h3
    obtain ⟨k1, k2⟩ := key l σ ⟨none, []⟩
    unfold astep
    dsimp only
    rcases e : w.2.array with _ | v
    · have hg : w.2.generate K fa bd w.1 = match fa (args σ K) with | none => (w.2, true) | some v => (AState.assign bd v, false) := by
        unfold AState.generate
        rw [hs, args_const K hK' (astore σ l) σ]
        exact if_pos (by rw [e]; rfl)
      rw [hg, (k2 e).1]
      rcases fa (args σ K) with _ | v
      · rfl
      · rfl
    · have hg : w.2.generate K fa bd w.1 = (w.2, false) := by
        unfold AState.generate
        exact if_neg (by rw [e, hK']; simp)
      rw [hg]
      have := k1 v e
      rcases e2 : lastAssigned l with _ | y
      · rw [e2] at this
        have : some v = fa (args σ K) := this
        rw [← this]
        simp [e]
      · rw [e2] at this
        have : some v = some y := this
        rw [← this]
        simp [e]

/-- **C99 (consistency check)** For `A` of shape `(batch..., n, m)` the check passes exactly if the shape of `b` begins with the batch shape and `c` is a scalar or
its shape begins with the batch shape. -/
theorem C99_verify (batch : List ℕ) (n m : ℕ) (A b c : Tens) (hA : A.shape = batch ++ [n, m]) :
    verify A b c = true ↔ batch <+: b.shape ∧ (c.shape = [] ∨ batch <+: c.shape) := by
  have h1 : A.shape.take (A.shape.length - 2) = batch := by
    rw [hA]
    simp
  unfold verify
  dsimp only
  rw [h1]
  simp only [List.prefix_iff_eq_take, Bool.not_eq_true', Bool.or_eq_false_iff, bne_eq_false_iff_eq, Bool.and_eq_false_iff, List.length_eq_zero_iff]

/-- **C99 (batch shape of arrays)** After a successful read or an assignment of an array, whatever is assigned to variables afterwards, `batch_shape` is the
batch shape of that array, until the array is read or assigned again. -/
theorem C99_array_batch (fa : List (String × V) → Option Tens) (bd : ℕ) (σ : ℕ → V) (l : List (AOp V)) (o : AOp V) (v : Tens)
    (ho : o = .assign v ∨ (o = .read ∧ (astep K fa bd (arun K fa bd σ ⟨none, []⟩ l).1 (arun K fa bd σ ⟨none, []⟩ l).2 .read).2.2 = .tens (some v)))
    (sets : List (ℕ × V)) :
    let w := arun K fa bd σ ⟨none, []⟩ (l ++ o :: sets.map fun p => AOp.set p.1 p.2)
    (astep K fa bd w.1 w.2 .readBatch).2.2 = .shape (v.shape.take bd) := by
  intro w
  have happ : ∀ (σ : ℕ → V) (s : AState) (l l' : List (AOp V)), arun K fa bd σ s (l ++ l') = arun K fa bd (arun K fa bd σ s l).1 (arun K fa bd σ s l).2 l' := by
    intro σ s l l'
    induction l generalizing σ s with
    | nil => rfl
    | cons o l ih => exact ih _ _
  have hset : ∀ (σ : ℕ → V) (s : AState), (arun K fa bd σ s (sets.map fun p => AOp.set p.1 p.2)).2 = s := by
    intro σ s
    clear w
    induction sets generalizing σ with
    | nil => rfl
    | cons p ps ih => exact ih _
  have hinv : ∀ (l : List (AOp V)) (σ : ℕ → V) (s : AState), (∀ x, s.array = some x → s.batch = x.shape.take bd) →
      ∀ x, (arun K fa bd σ s l).2.array = some x → (arun K fa bd σ s l).2.batch = x.shape.take bd := by
    intro l
    induction l with
    | nil => exact fun σ s h => h
    | cons o l ih =>
      intro σ s h
      have hg : ∀ x, (s.generate K fa bd σ).1.array = some x → (s.generate K fa bd σ).1.batch = x.shape.take bd := by
        unfold AState.generate
        by_cases hc : (s.array.isNone || K.any (fun p => p.2.isVar)) = true
        · rw [if_pos hc]
          rcases fa (args σ K) with _ | y
          · exact h
          · intro x hx
            obtain rfl : y = x := Option.some.inj hx
            rfl
        · rw [if_neg hc]
          exact h
      refine ih _ _ ?_
      cases o with
      | set i v => exact h
      | assign t =>
        intro x hx
        obtain rfl : t = x := Option.some.inj hx
        rfl
      | read => exact hg
      | readBatch =>
        unfold astep
        dsimp only
        split
        · exact hg
        · exact h
  have hw : w.2.array = some v := by
    show (arun K fa bd σ ⟨none, []⟩ (l ++ o :: sets.map fun p => AOp.set p.1 p.2)).2.array = some v
    rw [happ]
    unfold arun
    dsimp only
    rw [hset]
    rcases ho with rfl | ⟨rfl, h⟩
    · rfl
    · unfold astep at h ⊢
      dsimp only at h ⊢
      split at h
      · exact absurd h (by simp)
      · exact Out.tens.inj h
  have hb := hinv (l ++ o :: sets.map fun p => AOp.set p.1 p.2) σ ⟨none, []⟩ (fun x hx => absurd hx (by simp)) v hw
  unfold astep
  dsimp only
  rw [if_neg (by rw [hw]; simp)]
  exact congrArg Out.shape hb

/-- Before any read or assignment the batch shape of an array is computed from the present values. -/
theorem C99_array_batch_first (fa : List (String × V) → Option Tens) (bd : ℕ) (σ : ℕ → V) (sets : List (ℕ × V)) :
    let l := sets.map fun p => AOp.set p.1 p.2
    let w := arun K fa bd σ ⟨none, []⟩ l
    (astep K fa bd w.1 w.2 .readBatch).2.2 = match fa (present (astore σ l) K) with | none => .raised | some v => .shape (v.shape.take bd) := by
  intro l w
  simp only [← args_eq]
  have hset : ∀ (σ : ℕ → V) (s : AState) (sets : List (ℕ × V)), (arun K fa bd σ s (sets.map fun p => AOp.set p.1 p.2)).2 = s := by
    intro σ s sets
    induction sets generalizing σ with
    | nil => rfl
    | cons p ps ih => exact ih _
  have hw : w.2 = ⟨none, []⟩ := hset σ _ sets
  have hs : w.1 = astore σ l := arun_store K fa bd σ _ l
  rw [hw, hs]
  unfold astep
  dsimp only
  rw [if_pos (by rfl)]
  have hg : AState.generate K fa bd ⟨none, []⟩ (astore σ l) = match fa (args (astore σ l) K) with | none => (⟨none, []⟩, true) | some v => (AState.assign bd v, false) := by
    unfold AState.generate
    exact if_pos (by rfl)
  rw [hg]
  rcases fa (args (astore σ l) K) with _ | v
  · rfl
  · rfl

/-! ## Concrete histories -/

/-- A function of one variable: a batch of as many one-mode triples as its value says. -/
def exFn (x : List (String × ℕ)) : Option (Tens × Tens × Tens) :=
  let n := (x.headD ("", 0)).2
  some (⟨[n, 1, 1], fun _ => 0⟩, ⟨[n, 1], fun _ => 0⟩, ⟨[n], fun _ => 1⟩)

theorem exFn_valid : ∀ x A b c, exFn x = some (A, b, c) → verify A b c = true := by
  intro x A b c h
  unfold exFn at h
  simp only [Option.some.injEq, Prod.mk.injEq] at h
  obtain ⟨rfl, rfl, rfl⟩ := h
  simp [verify]

/-- **C99 (disagreement)** After `A` was read, an assignment to the variable changes `A` but not `batch_shape`: the two then disagree. -/
theorem C99_stale : let w := run exFn [("x", .var 0)] (fun _ => 2) .fresh [.readA, .set 0 5]
    (step exFn [("x", .var 0)] w.1 w.2 .readBatch).2.2 = .shape [2] ∧
    ∃ A, (step exFn [("x", .var 0)] w.1 w.2 .readA).2.2 = .tens (some A) ∧ A.shape = [5, 1, 1] := by
  constructor
  · exact C99_batch exFn [("x", .var 0)] exFn_valid (fun _ => 2) [] .readA (Or.inl rfl) [.set 0 5] (by simp [Op.quiet]) _ rfl
  · exact ⟨_, (C99_fresh exFn [("x", .var 0)] exFn_valid (fun _ => 2) [.readA, .set 0 5]).1, rfl⟩

/-- A scalar `c` is consistent with every batch; a vector `b` of another batch is not. -/
example : verify ⟨[3, 2, 2], fun _ => 0⟩ ⟨[3, 2], fun _ => 0⟩ ⟨[], fun _ => 1⟩ = true ∧ verify ⟨[3, 2, 2], fun _ => 0⟩ ⟨[4, 2], fun _ => 0⟩ ⟨[3], fun _ => 1⟩ = false := by
  constructor
  · rw [C99_verify [3] 2 2 _ _ _ rfl]
    exact ⟨⟨[2], rfl⟩, Or.inl rfl⟩
  · rw [← Bool.not_eq_true, C99_verify [3] 2 2 _ _ _ rfl]
    simp

/-- An assigned array fixes the batch shape. -/
example : let w := arun [("x", Prm.var 0)] (fun x : List (String × ℕ) => some ⟨[(x.headD ("", 0)).2, 3], fun _ => 0⟩) 1 (fun _ => 2) ⟨none, []⟩ [.read, .set 0 5]
    (astep [("x", .var 0)] (fun x : List (String × ℕ) => some ⟨[(x.headD ("", 0)).2, 3], fun _ => 0⟩) 1 w.1 w.2 .readBatch).2.2 = .shape [2] :=
  C99_array_batch [("x", Prm.var 0)] _ 1 (fun _ => 2) [] .read ⟨[2, 3], fun _ => 0⟩ (Or.inr ⟨rfl, rfl⟩) [(0, 5)]

end Verif.Lazy
