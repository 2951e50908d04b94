import Mathlib.Probability.ProbabilityMassFunction.Constructions
import Mathlib.Algebra.BigOperators.Group.Finset.Basic
import Mathlib.Data.Finset.Sort

/-!
# Sampling a state (lab/samplers.py)

The photon-number sampler draws the first mode from its marginal, groups equal outcomes, and recurses
on the conditional state of the remaining modes.  A state is modelled by its Born weights: the
function that gives, for every row of photon numbers, the weight of that row.
-/

namespace Verif.Samplers

open scoped ENNReal

/-- Rows of outcomes: one entry per mode. -/
abbrev Row := List ℕ

/-- Born weights of a state on photon-number rows.  (lab/states/base.py 446-467 `fock_distribution`
returns these, restricted to the cutoff.)  Simplification: weights are non-negative extended reals;
amplitudes and phases are not represented. -/
abbrev Weights := Row → ℝ≥0∞

/-- samplers.py 164-182 `_validate_probs`, on non-negative weights of the outcomes `0 … c-1`:
the sum must be within `tol` of one, and then the weights are divided by it.
`tol` stands for `atol + rtol·1` of `math.allclose`.  A zero or infinite sum makes `rng.choice`
raise, so it is an error too. -/
noncomputable def validate (c : ℕ) (tol : ℝ≥0∞) (w : ℕ → ℝ≥0∞) : Option (PMF ℕ) :=
  open scoped Classical in
  if h : (1 ≤ (∑ x ∈ Finset.range c, w x) + tol ∧ (∑ x ∈ Finset.range c, w x) ≤ 1 + tol)
      ∧ (∑ x ∈ Finset.range c, w x) ≠ 0 ∧ (∑ x ∈ Finset.range c, w x) ≠ ∞ then
    some (PMF.ofFinset (fun x => if x ∈ Finset.range c then w x / ∑ y ∈ Finset.range c, w y else 0)
      (Finset.range c)
      (by
        rw [Finset.sum_congr rfl (fun x hx => if_pos hx)]
        simp only [div_eq_mul_inv]
        rw [← Finset.sum_mul, ENNReal.mul_inv_cancel h.2.1 h.2.2])
      (fun x hx => if_neg hx))
  else none

/-- The marginal weights of the first mode: `state[initial_mode]` traces out the other modes
(samplers.py 96-97). -/
noncomputable def marginal (w : Weights) (x : ℕ) : ℝ≥0∞ := ∑' r : Row, w (x :: r)

/-- The conditional state of the other modes, `(state >> meas_op) / norm` (samplers.py 106-109):
its Born weights are those of the rows starting with `x`, divided by the probability `p` of `x`
(for a ket the amplitudes are divided by the square root of `p`). -/
noncomputable def conditional (w : Weights) (x : ℕ) (p : ℝ≥0∞) : Weights := fun r => w (x :: r) / p

/-- `rng = np.random.default_rng(seed) if seed else settings.rng` (samplers.py 132):
seed zero is falsy, so it selects the global generator. -/
def effSeed : Option ℕ → Option ℕ
  | some 0 => none
  | s => s

/-- samplers.py 105-111, the loop over the distinct outcomes of the first mode, in the order of
`np.unique`; an error in a recursive call is an error of the whole call. -/
def groups {M : Type → Type} [Monad M] (rec : ℕ → M (Option (List Row))) :
    List ℕ → M (Option (List Row))
  | [] => pure (some [])
  | x :: us => rec x >>= fun r =>
      match r with
      | none => pure none
      | some rows => groups rec us >>= fun rest =>
          pure (rest.map fun rs => rows.map (x :: ·) ++ rs)

/-- samplers.py 81-112 `Sampler.sample` for the photon-number sampler with cutoff `c`, on a state
with `m + 1` modes.  `draw seed p n` stands for `rng.choice(a, p, size=n)` with the generator chosen
by the seed.  `np.unique` returns the distinct values in increasing order and their counts.
Note that the recursive call passes no seed. -/
noncomputable def sample {M : Type → Type} [Monad M]
    (draw : Option ℕ → PMF ℕ → ℕ → M (List ℕ)) (c : ℕ) (tol : ℝ≥0∞) :
    ℕ → Weights → ℕ → Option ℕ → M (Option (List Row))
  | 0, w, n, seed =>
      match validate c tol (fun x => w [x]) with
      | none => pure none
      | some p => draw (effSeed seed) p n >>= fun xs => pure (some (xs.map fun x => [x]))
  | m + 1, w, n, seed =>
      match validate c tol (marginal w) with
      | none => pure none
      | some p => draw (effSeed seed) p n >>= fun xs =>
          groups (fun x => sample draw c tol m (conditional w x (p x)) (xs.count x) none)
            (xs.toFinset.sort (· ≤ ·))

/-! ## Specification -/

/-- `n` independent draws from `p`. -/
noncomputable def iid {α : Type} (p : PMF α) : ℕ → PMF (List α)
  | 0 => PMF.pure []
  | n + 1 => p.bind fun x => (iid p n).map (x :: ·)

/-- The ideal generator: the draws are independent, whatever the seed. -/
noncomputable def ideal : Option ℕ → PMF ℕ → ℕ → PMF (List ℕ) := fun _ p n => iid p n

/-- The rows of a result, forgetting their order. -/
def bag {α : Type} (l : List α) : Multiset α := (l : Multiset α)

/-! ## Laws of bags of outcomes -/

/-- A law of a finite bag. -/
abbrev Law (β : Type) := PMF (Multiset β)

noncomputable instance {β : Type} : CommMonoid (Law β) where
  mul a b := (PMF.bind a fun s => PMF.map (fun t => s + t) b : PMF (Multiset β))
  one := (PMF.pure 0 : PMF (Multiset β))
  mul_assoc a b c := by
    change PMF.bind (PMF.bind a _) _ = PMF.bind a fun s => PMF.map _ (PMF.bind b _)
    rw [PMF.bind_bind]
    refine congrArg (PMF.bind a) (funext fun s => ?_)
    rw [PMF.bind_map, PMF.map_bind]
    refine congrArg (PMF.bind b) (funext fun t => ?_)
    rw [PMF.map_comp]
    refine congrArg (fun f => PMF.map f c) (funext fun u => ?_)
    simp [add_assoc]
  one_mul a := by
    change PMF.bind (PMF.pure 0) (fun s => PMF.map (fun t => s + t) a) = a
    rw [PMF.pure_bind]
    simp only [zero_add]
    exact PMF.map_id a
  mul_one a := by
    change PMF.bind a (fun s => PMF.map (fun t => s + t) (PMF.pure 0)) = a
    simp only [PMF.pure_map, add_zero]
    exact PMF.bind_pure a
  mul_comm a b := by
    change PMF.bind a (fun s => PMF.map (fun t => s + t) b) = PMF.bind b (fun s => PMF.map (fun t => s + t) a)
    simp only [PMF.map]
    rw [PMF.bind_comm]
    simp only [Function.comp_def]
    refine congrArg (PMF.bind b) (funext fun t => congrArg (PMF.bind a) (funext fun s => ?_))
    rw [add_comm]

theorem Law.mul_def {β : Type} (a b : Law β) :
    a * b = (PMF.bind a fun s => PMF.map (fun t => s + t) b : PMF (Multiset β)) := rfl

theorem Law.one_def {β : Type} : (1 : Law β) = (PMF.pure 0 : PMF (Multiset β)) := rfl

/-- The bag of `n` independent draws. -/
theorem iid_bag {α : Type} (p : PMF α) (n : ℕ) :
    ((iid p n).map bag : Law α) = (p.map (fun x => {x}) : Law α) ^ n := by
  induction n with
  | zero => simp only [iid, PMF.pure_map, pow_zero]; rfl
  | succ n ih =>
    rw [pow_succ', ← ih, Law.mul_def, iid]
    erw [PMF.map_bind, PMF.bind_map]
    refine congrArg (PMF.bind p) (funext fun x => ?_)
    simp only [Function.comp_def]
    erw [PMF.map_comp, PMF.map_comp]
    rfl

/-- Mapping the elements of a bag commutes with union. -/
theorem Law.map_pow {α β : Type} (f : α → β) (p : Law α) (n : ℕ) :
    (PMF.map (Multiset.map f) (p ^ n : Law α) : Law β) = (PMF.map (Multiset.map f) p : Law β) ^ n := by
  induction n with
  | zero =>
    simp only [pow_zero, Law.one_def]
    erw [PMF.pure_map]
    rfl
  | succ n ih =>
    rw [pow_succ', pow_succ', ← ih, Law.mul_def, Law.mul_def]
    erw [PMF.map_bind, PMF.bind_map]
    refine congrArg (PMF.bind p) (funext fun x => ?_)
    simp only [Function.comp_def]
    erw [PMF.map_comp, PMF.map_comp]
    simp only [Function.comp_def, Multiset.map_add]

/-- Drawing a list of outcomes and then independent bags for each of them. -/
theorem iid_bind_prod {β : Type} (p : PMF ℕ) (e : ℕ → Law β) (n : ℕ) :
    ((iid p n).bind (fun xs => ((xs.map e).prod : Law β)) : PMF (Multiset β))
      = ((p.bind e : Law β) ^ n : Law β) := by
  induction n with
  | zero => simp only [iid, PMF.pure_bind, List.map_nil, List.prod_nil, pow_zero]
  | succ n ih =>
    rw [pow_succ', ← ih, Law.mul_def, iid, PMF.bind_bind]
    erw [PMF.bind_bind]
    refine congrArg (PMF.bind p) (funext fun x => ?_)
    rw [PMF.bind_map]
    simp only [Function.comp_def, List.map_cons, List.prod_cons, Law.mul_def]
    erw [PMF.bind_comm]
    refine congrArg (PMF.bind (e x)) (funext fun s => ?_)
    erw [PMF.map_bind]

theorem groups_law (rec : ℕ → PMF (Option (List Row))) (L : ℕ → Law Row) (us : List ℕ)
    (h : ∀ x ∈ us, (rec x).map (Option.map bag) = PMF.map some (L x)) :
    (groups rec us).map (Option.map bag)
      = PMF.map some ((us.map fun x => (PMF.map (Multiset.map (x :: ·)) (L x) : Law Row)).prod) := by
  induction us with
  | nil =>
    simp only [groups, List.map_nil, List.prod_nil, Law.one_def]
    erw [PMF.pure_map, PMF.pure_map]
    rfl
  | cons x us ih =>
    have ih' := ih (fun y hy => h y (List.mem_cons_of_mem _ hy))
    have hx := h x List.mem_cons_self
    simp only [groups, List.map_cons, List.prod_cons, Law.mul_def]
    have key : ((rec x >>= fun r =>
        match r with
        | none => pure none
        | some rows => groups rec us >>= fun rest =>
            pure (rest.map fun rs => rows.map (x :: ·) ++ rs) : PMF (Option (List Row)))).map
              (Option.map bag)
        = ((rec x).map (Option.map bag)).bind (fun r =>
            match r with
            | none => PMF.pure none
            | some s => (((groups rec us).map (Option.map bag)).map
                (Option.map fun t => s.map (x :: ·) + t))) := by
      rw [PMF.bind_map]
      erw [PMF.map_bind]
      refine congrArg (PMF.bind (rec x)) (funext fun r => ?_)
      cases r with
      | none => erw [PMF.pure_map]; rfl
      | some rows =>
        simp only [Function.comp_def, Option.map_some]
        erw [PMF.map_bind, PMF.map_comp]
        rw [← PMF.bind_pure_comp]
        refine congrArg (PMF.bind (groups rec us)) (funext fun rest => ?_)
        erw [PMF.pure_map]
        cases rest <;> simp [Function.comp_def, bag]
    rw [key, hx, ih', PMF.bind_map]
    simp only [Function.comp_def]
    erw [PMF.bind_map, PMF.map_bind]
    refine congrArg (PMF.bind (L x)) (funext fun s => ?_)
    simp only [Function.comp_def]
    erw [PMF.map_comp, PMF.map_comp]
    rfl

end Verif.Samplers
