import Verif.Oscillator

/-!
# Cached functions (property C33)

`functools.lru_cache` as used by `tensor_int_cache` (math/caching.py 26-47), by the constant matrices
of the backend manager and by the quadrature axis estimators: a list of at most `max` entries, the
most recently used first.  The function may also read the environment (`settings`), which is not part
of the key.
-/

namespace Verif.Caches

variable {Env κ ν : Type}

/-- The cache: entries in order of last use. -/
abbrev Cache (κ ν : Type) := List (κ × ν)

/-- A call of the cached function (math/caching.py 35-42; `functools.lru_cache`, default
`maxsize=128`): on a hit the stored object is returned and becomes the most recent entry; on a miss
the function is evaluated, stored, and the least recently used entry beyond `max` is dropped. -/
def callCached [DecidableEq κ] (max : ℕ) (fn : κ → ν) (st : Cache κ ν) (k : κ) : ν × Cache κ ν :=
  match st.find? (fun e => e.1 = k) with
  | some e => (e.2, e :: st.filter (fun e' => ¬ e'.1 = k))
  | none => (fn k, ((k, fn k) :: st).take max)

/-- What a program does: call the function, change the setting the function reads
(utils/settings.py 126-129 for `HBAR`), clear the cache (`cache_clear`, math/caching.py 45-46), or
modify in place the array it was given for a key (the cache holds the same object). -/
inductive Event (Env κ ν : Type) where
  | call (k : κ)
  | set (e : Env)
  | clear
  | modify (k : κ) (f : ν → ν)

/-- Environment and cache. -/
structure State (Env κ ν : Type) where
  env : Env
  cache : Cache κ ν

/-- One event; a call produces an output. -/
def stepEv [DecidableEq κ] (max : ℕ) (fn : Env → κ → ν) (s : State Env κ ν) :
    Event Env κ ν → State Env κ ν × Option (κ × ν)
  | .call k => ({ s with cache := (callCached max (fn s.env) s.cache k).2 },
      some (k, (callCached max (fn s.env) s.cache k).1))
  | .set e => ({ s with env := e }, none)
  | .clear => ({ s with cache := [] }, none)
  | .modify k f => ({ s with cache := s.cache.map fun e => if e.1 = k then (e.1, f e.2) else e }, none)

/-- The outputs of a history with the cached function. -/
def run [DecidableEq κ] (max : ℕ) (fn : Env → κ → ν) : State Env κ ν → List (Event Env κ ν) → List ν
  | _, [] => []
  | s, ev :: evs =>
    match (stepEv max fn s ev).2 with
    | some (_, v) => v :: run max fn (stepEv max fn s ev).1 evs
    | none => run max fn (stepEv max fn s ev).1 evs

/-- Specification: the outputs of the same history with the plain function. -/
def plain (fn : Env → κ → ν) : Env → List (Event Env κ ν) → List ν
  | _, [] => []
  | e, .call k :: evs => fn e k :: plain fn e evs
  | _, .set e' :: evs => plain fn e' evs
  | e, .clear :: evs => plain fn e evs
  | e, .modify _ _ :: evs => plain fn e evs

/-- Every entry is what the function gives in the environment `e`. -/
def Fresh (fn : Env → κ → ν) (e : Env) (st : Cache κ ν) : Prop := ∀ p ∈ st, p.2 = fn e p.1

theorem callCached_fresh [DecidableEq κ] (max : ℕ) (fn : Env → κ → ν) (e : Env) (st : Cache κ ν)
    (h : Fresh fn e st) (k : κ) :
    (callCached max (fn e) st k).1 = fn e k ∧ Fresh fn e (callCached max (fn e) st k).2 := by
  unfold callCached
  cases hf : st.find? (fun p => p.1 = k) with
  | some p =>
    have hm := List.mem_of_find?_eq_some hf
    have hk : p.1 = k := by simpa using List.find?_some hf
    refine ⟨by rw [← hk]; exact h p hm, ?_⟩
    intro p' hp'
    rcases List.mem_cons.mp hp' with rfl | hp'
    · exact h _ hm
    · exact h _ (List.mem_filter.mp hp').1
  | none =>
    refine ⟨rfl, ?_⟩
    intro p' hp'
    rcases List.mem_cons.mp (List.mem_of_mem_take hp') with rfl | hp'
    · rfl
    · exact h _ hp'

/-- The histories for which the cache is safe: no array is modified in place, and every change of
the environment that matters to the function is followed by clearing the cache. -/
def Safe (fn : Env → κ → ν) : Env → List (Event Env κ ν) → Prop
  | _, [] => True
  | e, .call _ :: evs => Safe fn e evs
  | _, .set e' :: .clear :: evs => Safe fn e' evs
  | e, .set e' :: evs => (∀ k, fn e' k = fn e k) ∧ Safe fn e' evs
  | e, .clear :: evs => Safe fn e evs
  | _, .modify _ _ :: _ => False

/-- **C33**: on every safe history, of any length and for any cache size, the cached function returns
exactly what the plain function would. -/
theorem C33_transparent [DecidableEq κ] (max : ℕ) (fn : Env → κ → ν) (evs : List (Event Env κ ν))
    (s : State Env κ ν) (hs : Fresh fn s.env s.cache) (h : Safe fn s.env evs) :
    run max fn s evs = plain fn s.env evs := by
  induction evs using List.twoStepInduction generalizing s with
  | nil => rfl
  | singleton ev =>
    cases ev with
    | call k => simp [run, stepEv, plain, (callCached_fresh max fn s.env s.cache hs k).1]
    | set e => rfl
    | clear => rfl
    | modify k f => exact absurd h (by simp [Safe])
  | cons_cons ev ev' evs ih1 ih2 =>
    have hcall : ∀ (k : κ), Safe fn s.env (ev' :: evs) →
        run max fn s (.call k :: ev' :: evs) = plain fn s.env (.call k :: ev' :: evs) := by
      intro k h'
      have hc := callCached_fresh max fn s.env s.cache hs k
      rw [run, plain]
      simp only [stepEv]
      rw [hc.1, ih2 ev' { s with cache := (callCached max (fn s.env) s.cache k).2 } hc.2 h']
    cases ev with
    | call k => exact hcall k (by cases ev' <;> exact h)
    | clear =>
      have h' : Safe fn s.env (ev' :: evs) := by cases ev' <;> exact h
      rw [run, plain]
      simp only [stepEv]
      exact ih2 ev' { s with cache := [] } (by intro p hp; cases hp) h'
    | modify k f => exact absurd h (by cases ev' <;> simp [Safe])
    | set e =>
      cases ev' with
      | clear =>
        rw [run, plain]
        simp only [stepEv]
        rw [run, plain]
        simp only [stepEv]
        exact ih1 ⟨e, []⟩ (by intro p hp; cases hp) h
      | call k =>
        rw [run, plain]
        simp only [stepEv]
        exact ih2 (.call k) ⟨e, s.cache⟩ (fun p hp => by rw [hs p hp, h.1]) h.2
      | set e' =>
        rw [run, plain]
        simp only [stepEv]
        exact ih2 (.set e') ⟨e, s.cache⟩ (fun p hp => by rw [hs p hp, h.1]) h.2
      | modify k f =>
        rw [run, plain]
        simp only [stepEv]
        exact ih2 (.modify k f) ⟨e, s.cache⟩ (fun p hp => by rw [hs p hp, h.1]) h.2

/-- **C33** for functions that read no setting (the constant matrices, the axis estimators): any
history without in-place modification is answered as by the plain function. -/
theorem C33_pure_functions [DecidableEq κ] (max : ℕ) (fn : Env → κ → ν)
    (hfn : ∀ e e' k, fn e k = fn e' k) (e : Env) (evs : List (Event Env κ ν))
    (h : ∀ ev ∈ evs, ∀ k f, ev ≠ .modify k f) :
    run max fn ⟨e, []⟩ evs = plain fn e evs := by
  refine C33_transparent max fn evs ⟨e, []⟩ (by intro p hp; cases hp) ?_
  change Safe fn e evs
  induction evs using List.twoStepInduction generalizing e with
  | nil => trivial
  | singleton ev =>
    cases ev with
    | call k => trivial
    | set e' => exact ⟨fun k => hfn _ _ k, trivial⟩
    | clear => trivial
    | modify k f => exact absurd rfl (h _ List.mem_cons_self k f)
  | cons_cons ev ev' evs ih1 ih2 =>
    have h2 := fun e => ih2 ev' e (fun x hx => h x (List.mem_cons_of_mem _ hx))
    cases ev with
    | call k => have := h2 e; cases ev' <;> exact this
    | clear => have := h2 e; cases ev' <;> exact this
    | modify k f => exact absurd rfl (h _ List.mem_cons_self k f)
    | set e' =>
      have := h2 e'
      cases ev' with
      | clear => exact ih1 e' (fun x hx => h x (List.mem_cons_of_mem _ (List.mem_cons_of_mem _ hx)))
      | call k => exact ⟨fun k => hfn _ _ k, this⟩
      | set e'' => exact ⟨fun k => hfn _ _ k, this⟩
      | modify k f => exact ⟨fun k => hfn _ _ k, this⟩

/-- **C33**, size: the cache never holds more than its limit. -/
theorem C33_bounded [DecidableEq κ] (max : ℕ) (hmax : 0 < max) (fn : κ → ν) (st : Cache κ ν) (k : κ)
    (h : st.length ≤ max) : (callCached max fn st k).2.length ≤ max := by
  unfold callCached
  cases hf : st.find? (fun p => p.1 = k) with
  | some p =>
    have hm := List.mem_of_find?_eq_some hf
    have hk : p.1 = k := by simpa using List.find?_some hf
    have : (st.filter (fun e' => ¬ e'.1 = k)).length < st.length := by
      refine List.length_filter_lt_length_iff_exists.mpr ⟨p, hm, ?_⟩
      simp [hk]
    simp only [List.length_cons]
    omega
  | none => simp only [List.length_take]; omega

/-! ## The oscillator eigenstates -/

open Classical in
/-- physics/fock_utils.py 80-81: `oscillator_eigenstate` is cached on the points and the cutoff; it
reads `settings.HBAR`. -/
noncomputable def osc (hbar : ℝ) (k : List ℝ × ℕ) : List (List ℂ) :=
  (List.range k.2).map fun n => k.1.map fun q => Osc.oscEntry hbar q k.2 n

/-- Ask for the vacuum wave function at the origin, change `settings.HBAR` from 1 to 2, ask again. -/
noncomputable def stale : List (Event ℝ (List ℝ × ℕ) (List (List ℂ))) :=
  [.call ([0], 1), .set 2, .call ([0], 1)]

open Classical in
/-- **C33**, disagreement: after a change of `settings.HBAR` the cached eigenstates are returned
although the function would now give different ones; clearing the cache repairs it. -/
theorem C33_stale_hbar :
    run 128 osc ⟨1, []⟩ stale ≠ plain osc 1 stale ∧
    run 128 osc ⟨1, []⟩ [.call ([0], 1), .set 2, .clear, .call ([0], 1)]
      = plain osc 1 [.call ([0], 1), .set 2, .clear, .call ([0], 1)] := by
  refine ⟨?_, C33_transparent 128 osc _ ⟨1, []⟩ (by intro p hp; cases hp) trivial⟩
  have hr : run 128 osc ⟨1, []⟩ stale = [osc 1 ([0], 1), osc 1 ([0], 1)] := by
    simp [stale, run, stepEv, callCached]
  have hp : plain osc 1 stale = [osc 1 ([0], 1), osc 2 ([0], 1)] := rfl
  rw [hr, hp]
  intro h
  have h1 : osc 1 ([0], 1) = osc 2 ([0], 1) := by
    simpa using h
  have h2 : Osc.oscEntry 1 0 1 0 = Osc.oscEntry 2 0 1 0 := by
    simpa [osc] using h1
  rw [Osc.C51_formula 1 0 (by norm_num) 1 0 (by norm_num),
    Osc.C51_formula 2 0 (by norm_num) 1 0 (by norm_num)] at h2
  have h3 := Complex.ofReal_injective h2
  simp only [Osc.psi, Osc.H] at h3
  norm_num at h3
  have hpi := Real.pi_pos
  have h4 : (Real.pi * 2) ^ (-(1 / 4) : ℝ) < Real.pi ^ (-(1 / 4) : ℝ) :=
    Real.rpow_lt_rpow_of_neg hpi (by linarith) (by norm_num)
  norm_num at h4
  linarith

/-- **C33**, disagreement: the cache hands out the stored array itself, so modifying a result in
place changes what later calls return. -/
theorem C33_aliasing :
    run 128 (fun (_ : Unit) (n : ℕ) => List.replicate n 0) ⟨(), []⟩
        [.call 2, .modify 2 (fun l => l.set 0 7), .call 2] = [[0, 0], [7, 0]] := by
  decide

end Verif.Caches
