import Verif.SamplersSeed
import Mathlib.MeasureTheory.Constructions.Pi
import Mathlib.MeasureTheory.Measure.Haar.OfBasis
import Mathlib.MeasureTheory.Measure.OpenPos
import Mathlib.Analysis.SpecialFunctions.Gaussian.GaussianIntegral
import Mathlib.Analysis.Real.Pi.Bounds
import Mathlib.Analysis.Complex.ExponentialBounds

/-!
# The homodyne sampler (C100)

States are represented by the probability density of the measured quadratures.
-/

namespace Verif.Samplers

open scoped ENNReal
open MeasureTheory

/-! ## The code -/

/-- The probability density of the measured quadratures of the modes. -/
abbrev Dens (k : ℕ) := (Fin k → ℝ) → ℝ≥0∞

/-- The class of the state. -/
inductive HKind | ket | dm
deriving DecidableEq

/-- The batch of the state: none, a linear superposition, or a batch of states. -/
inductive Form | single | superposition | batch
deriving DecidableEq

/-- The number of variables of a state on `k` modes (lab/states/ket.py 142-145, lab/states/dm.py 136-139). -/
def HKind.vars (κ : HKind) (k : ℕ) : ℕ := match κ with | .ket => k | .dm => 2 * k

/-- The spacing of the grid (lab/samplers.py 218, `np.linspace(..., retstep=True)`). -/
noncomputable def gridStep (lo hi : ℝ) (num : ℕ) : ℝ := (hi - lo) / (num - 1)

/-- The measurement outcomes (lab/samplers.py 218-219). -/
noncomputable def gridPt (lo hi : ℝ) (num i : ℕ) : ℝ := lo + i * gridStep lo hi num

/-- The quadrature distribution of the first mode, `state[initial_mode]` (lab/samplers.py 235). -/
noncomputable def hmarg {m : ℕ} (w : Dens (m + 2)) (x : ℝ) : ℝ≥0∞ := ∫⁻ r : Fin (m + 1) → ℝ, w (Fin.cons x r)

/-- The state of the other modes after the first has been evaluated at `x` and the norm divided out (lab/samplers.py 245-249): a ket is divided by the square
root of `prob`, its density by `prob`. -/
noncomputable def hcond {m : ℕ} (w : Dens (m + 2)) (x : ℝ) (prob : ℝ≥0∞) : Dens (m + 1) := fun r => w (Fin.cons x r) / prob

/-- `from_bargmann(modes, triple)` is called without `lin_sup` (lab/samplers.py 246): the terms of a superposition become a batch. -/
def Form.reduced : Form → Form
  | .single => .single
  | _ => .batch

/-- `HomodyneSampler.sample` (lab/samplers.py 230-252) on `m + 1` modes, with `probabilities` (223-228), `sample_prob_dist` (114-140) and `_validate_probs` (164-182).
The samples are the numbers of the grid points.  For a batch of states the array of probabilities has more than one dimension and `rng.choice` raises.  Only the first
variable is evaluated (245), and `from_bargmann` raises unless the number of remaining variables fits the remaining modes. -/
noncomputable def hsample {M : Type → Type} [Monad M] (draw : Option ℕ → PMF ℕ → ℕ → M (List ℕ)) (lo hi : ℝ) (num : ℕ) (tol : ℝ≥0∞) (κ : HKind) :
    (m : ℕ) → Form → Dens (m + 1) → ℕ → Option ℕ → M (Option (List Row))
  | 0, f, w, n, seed =>
      if f = .batch then pure none else
      match validate num tol (fun i => w (fun _ => gridPt lo hi num i) * ENNReal.ofReal (gridStep lo hi num)) with
      | none => pure none
      | some p => draw (effSeed seed) p n >>= fun xs => pure (some (xs.map fun x => [x]))
  | m + 1, f, w, n, seed =>
      if f = .batch then pure none else
      match validate num tol (fun i => hmarg w (gridPt lo hi num i) * ENNReal.ofReal (gridStep lo hi num)) with
      | none => pure none
      | some p => draw (effSeed seed) p n >>= fun xs =>
          groups (fun i =>
              if κ.vars (m + 2) - 1 ≠ κ.vars (m + 1) then pure none
              else hsample draw lo hi num tol κ m f.reduced (hcond w (gridPt lo hi num i) (p i / ENNReal.ofReal (gridStep lo hi num))) (xs.count i) none)
            (xs.toFinset.sort (· ≤ ·))

/-! ## Specification -/

/-- The point of the grid named by a row of `k` indices. -/
noncomputable def pointOf (lo hi : ℝ) (num k : ℕ) (r : Row) : Fin k → ℝ := fun j => gridPt lo hi num (r.getD j 0)

/-! ## Proofs -/

theorem validate_some {c : ℕ} {tol : ℝ≥0∞} {w : ℕ → ℝ≥0∞} {p : PMF ℕ} (h : validate c tol w = some p) :
    ∃ S : ℝ≥0∞, S ≠ 0 ∧ S ≠ ∞ ∧ 1 ≤ S + tol ∧ S ≤ 1 + tol ∧ ∀ x, p x = if x < c then w x / S else 0 := by
  unfold validate at h
  split_ifs at h with hc
  obtain rfl := Option.some.inj h
  refine ⟨_, hc.2.1, hc.2.2, hc.1.1, hc.1.2, fun x => ?_⟩
  rw [PMF.ofFinset_apply]
  simp only [Finset.mem_range]

/-- A density that vanishes where its marginals vanish. -/
def Regular : (m : ℕ) → Dens (m + 1) → Prop
  | 0, _ => True
  | m + 1, w => ∀ x, (hmarg w x = 0 → ∀ r, w (Fin.cons x r) = 0) ∧ Regular m (fun r => w (Fin.cons x r))

theorem regular_of_continuous (m : ℕ) (w : Dens (m + 1)) (h : Continuous w) : Regular m w := by
  induction m with
  | zero => trivial
  | succ m ih =>
    intro x
    have hc : Continuous fun r : Fin (m + 1) → ℝ => w (Fin.cons x r) := h.comp (by
      refine continuous_pi fun j => ?_
      refine Fin.cases ?_ (fun j => ?_) j
      · simpa using continuous_const
      · simpa using continuous_apply j)
    refine ⟨fun h0 r => ?_, ih _ hc⟩
    have h1 := (lintegral_eq_zero_iff hc.measurable).1 h0
    exact congrFun ((hc.ae_eq_iff_eq volume continuous_const).1 h1) r

theorem regular_mul (m : ℕ) (w : Dens (m + 1)) (c : ℝ≥0∞) (hc : c ≠ 0) (hc' : c ≠ ∞) (h : Regular m w) : Regular m (fun r => c * w r) := by
  induction m with
  | zero => trivial
  | succ m ih =>
    intro x
    refine ⟨fun h0 r => ?_, ih _ (h x).2⟩
    unfold hmarg at h0
    rw [lintegral_const_mul' _ _ hc', mul_eq_zero] at h0
    show c * w (Fin.cons x r) = 0
    rw [(h x).1 (h0.resolve_left hc) r, mul_zero]

/-- No reachable stage is rejected. -/
def NoReject (lo hi : ℝ) (num : ℕ) (tol : ℝ≥0∞) : (m : ℕ) → Dens (m + 1) → Prop
  | 0, w => ∃ p, validate num tol (fun i => w (fun _ => gridPt lo hi num i) * ENNReal.ofReal (gridStep lo hi num)) = some p
  | m + 1, w => ∃ p, validate num tol (fun i => hmarg w (gridPt lo hi num i) * ENNReal.ofReal (gridStep lo hi num)) = some p ∧
      ∀ i ∈ p.support, NoReject lo hi num tol m (hcond w (gridPt lo hi num i) (p i / ENNReal.ofReal (gridStep lo hi num)))

theorem pointOf_cons (lo hi : ℝ) (num k i : ℕ) (r : Row) : pointOf lo hi num (k + 1) (i :: r) = Fin.cons (gridPt lo hi num i) (pointOf lo hi num k r) := by
  funext j
  refine Fin.cases ?_ (fun j => ?_) j
  · rfl
  · rfl

/-- The telescoping product of the stages. -/
theorem chain_law {lo hi : ℝ} {num : ℕ} (hlo : lo < hi) (hnum : 2 ≤ num) (tol : ℝ≥0∞) (m : ℕ) (w : Dens (m + 1)) (hr : Regular m w)
    (h : NoReject lo hi num tol m w) :
    ∃ P : PMF Row, Inside P (m + 1) num ∧
      (∀ r : Row, r.length = m + 1 → (∀ x ∈ r, x < num) →
        ENNReal.ofReal (gridStep lo hi num) ^ (m + 1) * w (pointOf lo hi num (m + 1) r) ≤ P r + tol * P r ∧
        P r ≤ ENNReal.ofReal (gridStep lo hi num) ^ (m + 1) * w (pointOf lo hi num (m + 1) r) + tol * P r) ∧
      ∀ (f : Form), f = .single → ∀ (n : ℕ) (seed : Option ℕ),
        (hsample ideal lo hi num tol .ket m f w n seed).map (Option.map bag) = (iid P n).map (fun l => some (bag l)) := by
  have hst : 0 < gridStep lo hi num := by
    unfold gridStep
    have : (2 : ℝ) ≤ num := by exact_mod_cast hnum
    exact div_pos (by linarith) (by linarith)
  have hs0 : ENNReal.ofReal (gridStep lo hi num) ≠ 0 := by
    rw [ne_eq, ENNReal.ofReal_eq_zero, not_le]
    exact hst
  have hst' : ENNReal.ofReal (gridStep lo hi num) ≠ ∞ := ENNReal.ofReal_ne_top
  induction m with
  | zero =>
    obtain ⟨p, hp⟩ := h
    obtain ⟨S, S0, S1, S2, S3, hpx⟩ := validate_some hp
    refine ⟨p.map fun x => [x], ?_, ?_, ?_⟩
    · intro r hr'
      rw [PMF.mem_support_map_iff] at hr'
      obtain ⟨x, hx, rfl⟩ := hr'
      rw [PMF.mem_support_iff, hpx] at hx
      refine ⟨rfl, fun y hy => ?_⟩
      rw [List.mem_singleton] at hy
      subst hy
      by_contra h0
      exact hx (if_neg h0)
    · intro r hl hb
      match r, hl with
      | [i], _ =>
        have hi' : i < num := hb i (List.mem_singleton_self i)
        have e1 : (p.map fun x => [x]) [i] = p i := by
          rw [map_apply', tsum_eq_single i]
          · rw [if_pos rfl]
          · intro j hj
            rw [if_neg]
            intro h0
            exact hj (List.cons.inj h0).1.symm
        have e2 : pointOf lo hi num (0 + 1) [i] = fun _ => gridPt lo hi num i := by
          funext j
          refine Fin.cases rfl (fun j => j.elim0) j
        have e3 : ENNReal.ofReal (gridStep lo hi num) ^ (0 + 1) * w (pointOf lo hi num (0 + 1) [i]) = p i * S := by
          rw [hpx, if_pos hi', ENNReal.div_mul_cancel S0 S1, e2, mul_comm]
          exact congrArg (HMul.hMul _) (pow_one _)
        rw [e1, e3]
        constructor
        · calc p i * S ≤ p i * (1 + tol) := mul_le_mul_right S3 _
            _ = p i + tol * p i := by ring
        · calc p i = p i * 1 := (mul_one _).symm
            _ ≤ p i * (S + tol) := mul_le_mul_right S2 _
            _ = p i * S + tol * p i := by ring
    · rintro f rfl n seed
      rw [hsample, if_neg (by simp), hp]
      simp only [ideal]
      conv_rhs => rw [iid_map, PMF.map_comp]
      erw [PMF.map_bind]
      rw [← PMF.bind_pure_comp]
      refine congrArg (PMF.bind (iid p n)) (funext fun xs => ?_)
      erw [PMF.pure_map]
      rfl
  | succ m ih =>
    obtain ⟨p, hp, hnr⟩ := h
    obtain ⟨S, S0, S1, S2, S3, hpx⟩ := validate_some hp
    have hprob : ∀ i ∈ p.support, (p i / ENNReal.ofReal (gridStep lo hi num)) ≠ 0 ∧ (p i / ENNReal.ofReal (gridStep lo hi num)) ≠ ∞ := by
      intro i hi'
      exact ⟨ENNReal.div_ne_zero.2 ⟨(PMF.mem_support_iff _ _).1 hi', hst'⟩, ENNReal.div_ne_top (PMF.apply_ne_top _ _) hs0⟩
    have hreg : ∀ i ∈ p.support, Regular m (hcond w (gridPt lo hi num i) (p i / ENNReal.ofReal (gridStep lo hi num))) := by
      intro i hi'
      have := regular_mul m _ (p i / ENNReal.ofReal (gridStep lo hi num))⁻¹ (ENNReal.inv_ne_zero.2 (hprob i hi').2) (ENNReal.inv_ne_top.2 (hprob i hi').1) (hr (gridPt lo hi num i)).2
      have e : hcond w (gridPt lo hi num i) (p i / ENNReal.ofReal (gridStep lo hi num)) =
          fun r => (p i / ENNReal.ofReal (gridStep lo hi num))⁻¹ * w (Fin.cons (gridPt lo hi num i) r) := by
        funext r
        unfold hcond
        rw [div_eq_mul_inv (w _), mul_comm]
      rw [e]
      exact this
    have hex : ∀ i, ∃ Q : PMF Row, i ∈ p.support → Inside Q (m + 1) num ∧
        (∀ r : Row, r.length = m + 1 → (∀ x ∈ r, x < num) →
          ENNReal.ofReal (gridStep lo hi num) ^ (m + 1) * hcond w (gridPt lo hi num i) (p i / ENNReal.ofReal (gridStep lo hi num)) (pointOf lo hi num (m + 1) r) ≤ Q r + tol * Q r ∧
          Q r ≤ ENNReal.ofReal (gridStep lo hi num) ^ (m + 1) * hcond w (gridPt lo hi num i) (p i / ENNReal.ofReal (gridStep lo hi num)) (pointOf lo hi num (m + 1) r) + tol * Q r) ∧
        ∀ (f : Form), f = .single → ∀ (n : ℕ) (seed : Option ℕ),
          (hsample ideal lo hi num tol .ket m f (hcond w (gridPt lo hi num i) (p i / ENNReal.ofReal (gridStep lo hi num))) n seed).map (Option.map bag) =
            (iid Q n).map (fun l => some (bag l)) := by
      intro i
      by_cases hi' : i ∈ p.support
      · obtain ⟨Q, hQ⟩ := ih _ (hreg i hi') (hnr i hi')
        exact ⟨Q, fun _ => hQ⟩
      · exact ⟨PMF.pure [], fun h0 => absurd h0 hi'⟩
    choose Q hQ using hex
    have happ : ∀ i r, (p.bind fun i => (Q i).map (i :: ·)) (i :: r) = p i * Q i r := by
      intro i r
      rw [PMF.bind_apply, tsum_eq_single i]
      · refine congrArg (HMul.hMul _) ?_
        rw [map_apply', tsum_eq_single r]
        · rw [if_pos rfl]
        · intro r' hr'
          rw [if_neg]
          intro h0
          exact hr' (List.cons.inj h0).2.symm
      · intro j hj
        rw [map_apply']
        have : (∑' a : Row, if i :: r = j :: a then (Q j) a else 0) = 0 := by
          rw [ENNReal.tsum_eq_zero]
          intro a
          rw [if_neg]
          intro h0
          exact hj (List.cons.inj h0).1.symm
        exact (congrArg _ this).trans (mul_zero _)
    have hlt : ∀ i ∈ p.support, i < num := by
      intro i hi'
      rw [PMF.mem_support_iff, hpx] at hi'
      by_contra h0
      exact hi' (if_neg h0)
    refine ⟨p.bind fun i => (Q i).map (i :: ·), ?_, ?_, ?_⟩
    · intro r hr'
      rw [PMF.mem_support_bind_iff] at hr'
      obtain ⟨i, hi', hr'⟩ := hr'
      rw [PMF.mem_support_map_iff] at hr'
      obtain ⟨t, ht, rfl⟩ := hr'
      obtain ⟨q1, q2⟩ := (hQ i hi').1 t ht
      refine ⟨by simp [q1], fun x hx => ?_⟩
      rcases List.mem_cons.1 hx with rfl | hx
      · exact hlt _ hi'
      · exact q2 x hx
    · intro r hl hb
      match r, hl with
      | i :: r, hl =>
        have hl' : r.length = m + 1 := by simpa using hl
        have hib : i < num := hb i List.mem_cons_self
        rw [happ, pointOf_cons]
        by_cases hi' : i ∈ p.support
        · obtain ⟨a, b⟩ := (hQ i hi').2.1 r hl' fun x hx => hb x (List.mem_cons_of_mem _ hx)
          have hp0 : p i ≠ 0 := (PMF.mem_support_iff _ _).1 hi'
          have hpt : p i ≠ ∞ := PMF.apply_ne_top _ _
          have e : ∀ W : ℝ≥0∞, ENNReal.ofReal (gridStep lo hi num) ^ (m + 1 + 1) * W =
              p i * (ENNReal.ofReal (gridStep lo hi num) ^ (m + 1) * (W / (p i / ENNReal.ofReal (gridStep lo hi num)))) := by
            intro W
            have e1 : p i / (p i / ENNReal.ofReal (gridStep lo hi num)) = ENNReal.ofReal (gridStep lo hi num) := by
              rw [div_eq_mul_inv (p i) (p i / _), ENNReal.inv_div (Or.inl hst') (Or.inl hs0)]
              exact ENNReal.mul_div_cancel hp0 hpt
            calc ENNReal.ofReal (gridStep lo hi num) ^ (m + 1 + 1) * W = ENNReal.ofReal (gridStep lo hi num) ^ (m + 1) * W * ENNReal.ofReal (gridStep lo hi num) := by ring
              _ = ENNReal.ofReal (gridStep lo hi num) ^ (m + 1) * W * (p i / (p i / ENNReal.ofReal (gridStep lo hi num))) := by rw [e1]
              _ = _ := by
                rw [div_eq_mul_inv (p i) (p i / _), div_eq_mul_inv W]
                ring
          rw [e]
          constructor
          · calc _ ≤ p i * (Q i r + tol * Q i r) := mul_le_mul_right a _
              _ = _ := by ring
          · calc p i * Q i r ≤ p i * (_ + tol * Q i r) := mul_le_mul_right b _
              _ = _ := by
                rw [mul_add]
                refine congrArg (HAdd.hAdd _) ?_
                ring
        · have hp0 : p i = 0 := by
            by_contra h0
            exact hi' ((PMF.mem_support_iff _ _).2 h0)
          have hm : hmarg w (gridPt lo hi num i) = 0 := by
            have := hpx i
            rw [hp0, if_pos hib, eq_comm, ENNReal.div_eq_zero_iff] at this
            rcases this with h0 | h0
            · exact (mul_eq_zero.1 h0).resolve_right hs0
            · exact absurd h0 S1
          rw [hp0, (hr _).1 hm]
          simp
    · rintro f rfl n seed
      rw [hsample, if_neg (by simp), hp]
      simp only [ideal]
      erw [PMF.map_bind]
      have e1 : (iid p n).bind (fun xs => PMF.map (Option.map bag)
          (groups (fun i =>
              if HKind.ket.vars (m + 2) - 1 ≠ HKind.ket.vars (m + 1) then pure none
              else hsample ideal lo hi num tol .ket m Form.single.reduced (hcond w (gridPt lo hi num i) (p i / ENNReal.ofReal (gridStep lo hi num))) (xs.count i) none)
            (xs.toFinset.sort (· ≤ ·))))
          = (iid p n).bind (fun xs => PMF.map some
              ((xs.map fun x => (PMF.map (fun t => {x :: t}) (Q x) : Law Row)).prod)) := by
        refine bind_congr_support _ _ _ fun xs hxs => ?_
        obtain ⟨_, hs⟩ := mem_iid _ _ _ hxs
        rw [groups_law _ (fun x => (PMF.map (fun t => {t}) (Q x) : Law Row) ^ xs.count x)]
        · rw [← prod_sort xs (fun x => (PMF.map (fun t => {x :: t}) (Q x) : Law Row))]
          refine congrArg (fun z => PMF.map some (List.prod z)) (List.map_congr_left fun x _ => ?_)
          rw [Law.map_pow]
          refine congrArg (fun z : Law Row => z ^ xs.count x) ?_
          rw [PMF.map_comp]
          rfl
        · intro x hx
          rw [Finset.mem_sort, List.mem_toFinset] at hx
          rw [if_neg (by simp [HKind.vars]), (hQ x (hs x hx)).2.2 Form.single.reduced rfl, ← iid_bag, PMF.map_comp]
          rfl
      refine e1.trans ?_
      rw [← PMF.map_bind, iid_bind_prod]
      have e2 : p.bind (fun x => (PMF.map (fun t => {x :: t}) (Q x) : Law Row))
          = (PMF.map (fun r => {r}) (p.bind fun i => (Q i).map (i :: ·)) : Law Row) := by
        conv_rhs => rw [PMF.map_bind]
        refine congrArg (PMF.bind p) (funext fun x => ?_)
        rw [PMF.map_comp]
        rfl
      rw [e2, ← iid_bag, PMF.map_comp]
      rfl

theorem groups_none {M : Type → Type} [Monad M] (R : Runs M) (rec : ℕ → M (Option (List Row))) (us : List ℕ) (hus : us ≠ [])
    (h : ∀ x ∈ us, ∀ res, R.can (rec x) res → res = none) (res : Option (List Row)) (hr : R.can (groups rec us) res) : res = none := by
  cases us with
  | nil => exact absurd rfl hus
  | cons x us =>
    rw [groups] at hr
    obtain ⟨a, h1, h2⟩ := R.bind hr
    obtain rfl := h x List.mem_cons_self a h1
    exact R.pure h2

theorem hsample_batch {M : Type → Type} [Monad M] (draw : Option ℕ → PMF ℕ → ℕ → M (List ℕ)) (lo hi : ℝ) (num : ℕ) (tol : ℝ≥0∞) (κ : HKind) (m : ℕ) (w : Dens (m + 1))
    (n : ℕ) (seed : Option ℕ) : hsample draw lo hi num tol κ m .batch w n seed = pure none := by
  cases m <;> rw [hsample, if_pos rfl]

/-- **C100 (what cannot be sampled)** For two or more modes and at least one sample, every run of the sampler on a density matrix raises, and so does every run on a linear
superposition of kets. -/
theorem C100_raises {M : Type → Type} [Monad M] (R : Runs M) (draw : Option ℕ → PMF ℕ → ℕ → M (List ℕ))
    (hdraw : ∀ s p n xs, R.can (draw s p n) xs → xs.length = n ∧ ∀ x ∈ xs, x ∈ p.support)
    (lo hi : ℝ) (num : ℕ) (tol : ℝ≥0∞) (m : ℕ) (w : Dens (m + 2)) (n : ℕ) (hn : 1 ≤ n) (seed : Option ℕ) (κ : HKind) (f : Form)
    (hf : κ = .dm ∨ f ≠ .single) (res : Option (List Row)) (h : R.can (hsample draw lo hi num tol κ (m + 1) f w n seed) res) : res = none := by
  rw [hsample] at h
  by_cases hb : f = .batch
  · rw [if_pos hb] at h
    exact R.pure h
  rw [if_neg hb] at h
  cases hv : validate num tol (fun i => hmarg w (gridPt lo hi num i) * ENNReal.ofReal (gridStep lo hi num)) with
  | none =>
    rw [hv] at h
    exact R.pure h
  | some p =>
    rw [hv] at h
    obtain ⟨xs, h1, h2⟩ := R.bind h
    have hl := (hdraw _ _ _ _ h1).1
    refine groups_none R _ _ (fun h0 => ?_) (fun i _ res hres => ?_) res h2
    · have : xs.toFinset = ∅ := by
        rw [← Finset.sort_toFinset (s := xs.toFinset) (r := (· ≤ ·)), h0]
        rfl
      rw [List.toFinset_eq_empty_iff] at this
      rw [this] at hl
      simp at hl
      omega
    · by_cases hk : κ.vars (m + 2) - 1 ≠ κ.vars (m + 1)
      · rw [if_pos hk] at hres
        exact R.pure hres
      · rw [if_neg hk] at hres
        have hred : f.reduced = .batch := by
          rcases hf with rfl | hf
          · exact absurd (by unfold HKind.vars; dsimp only; omega) hk
          · cases f with
            | single => exact absurd rfl hf
            | superposition => rfl
            | batch => rfl
        rw [hred, hsample_batch] at hres
        exact R.pure hres

theorem groups_single_none (rec : ℕ → PMF (Option (List Row))) (i : ℕ) (h : none ∈ (rec i).support) : none ∈ (groups rec [i] : PMF (Option (List Row))).support := by
  rw [groups]
  erw [PMF.mem_support_bind_iff]
  refine ⟨none, h, ?_⟩
  erw [PMF.mem_support_pure_iff]

theorem replicate_mem_iid {α : Type} (p : PMF α) (x : α) (hx : x ∈ p.support) (n : ℕ) : List.replicate n x ∈ (iid p n).support := by
  induction n with
  | zero =>
    rw [iid, PMF.mem_support_pure_iff]
    rfl
  | succ n ih =>
    rw [iid, PMF.mem_support_bind_iff]
    exact ⟨x, hx, (PMF.mem_support_map_iff _ _ _).2 ⟨_, ih, rfl⟩⟩

theorem noReject_of (lo hi : ℝ) (num : ℕ) (tol : ℝ≥0∞) (m : ℕ) (w : Dens (m + 1)) (n : ℕ) (hn : 1 ≤ n) (seed : Option ℕ)
    (h : none ∉ (hsample ideal lo hi num tol .ket m .single w n seed).support) : NoReject lo hi num tol m w := by
  induction m generalizing n seed with
  | zero =>
    rw [hsample, if_neg (by simp)] at h
    cases hv : validate num tol (fun i => w (fun _ => gridPt lo hi num i) * ENNReal.ofReal (gridStep lo hi num)) with
    | none =>
      rw [hv] at h
      exact absurd (by erw [PMF.mem_support_pure_iff]) h
    | some p => exact ⟨p, hv⟩
  | succ m ih =>
    rw [hsample, if_neg (by simp)] at h
    cases hv : validate num tol (fun i => hmarg w (gridPt lo hi num i) * ENNReal.ofReal (gridStep lo hi num)) with
    | none =>
      rw [hv] at h
      exact absurd (by erw [PMF.mem_support_pure_iff]) h
    | some p =>
      refine ⟨p, hv, fun i hi' => ?_⟩
      rw [hv] at h
      refine ih _ n hn none fun hnone => h ?_
      erw [PMF.mem_support_bind_iff]
      refine ⟨List.replicate n i, replicate_mem_iid p i hi' n, ?_⟩
      have e1 : (List.replicate n i).toFinset.sort (· ≤ ·) = [i] := by
        rw [List.toFinset_replicate_of_ne_zero (by omega), Finset.sort_singleton]
      rw [e1]
      refine groups_single_none _ i ?_
      rw [if_neg (by simp [HKind.vars]), List.count_replicate_self]
      exact hnone

/-- **C100 (kets)** If no call can raise, the bag of rows returned for a ket on any number of modes is distributed as `n` independent draws from one distribution `P` on the rows of grid
points, and `P` agrees with the joint density times the volume of a cell of the grid up to the relative tolerance of the validation, for any number of modes. -/
theorem C100_ket {lo hi : ℝ} {num : ℕ} (hlo : lo < hi) (hnum : 2 ≤ num) (tol : ℝ≥0∞) (m : ℕ) (w : Dens (m + 1)) (hw : Continuous w)
    (hok : ∃ n seed, 1 ≤ n ∧ none ∉ (hsample ideal lo hi num tol .ket m .single w n seed).support) :
    ∃ P : PMF Row, (∀ r ∈ P.support, r.length = m + 1 ∧ ∀ x ∈ r, x < num) ∧
      (∀ r : Row, r.length = m + 1 → (∀ x ∈ r, x < num) →
        ENNReal.ofReal (gridStep lo hi num) ^ (m + 1) * w (pointOf lo hi num (m + 1) r) ≤ (1 + tol) * P r ∧
        P r ≤ ENNReal.ofReal (gridStep lo hi num) ^ (m + 1) * w (pointOf lo hi num (m + 1) r) + tol * P r) ∧
      ∀ (n : ℕ) (seed : Option ℕ),
        (hsample ideal lo hi num tol .ket m .single w n seed).map (Option.map bag) = (iid P n).map (fun l => some (bag l)) := by
  obtain ⟨n, seed, hn, h⟩ := hok
  obtain ⟨P, h1, h2, h3⟩ := chain_law hlo hnum tol m w (regular_of_continuous m w hw) (noReject_of lo hi num tol m w n hn seed h)
  refine ⟨P, h1, fun r hl hb => ⟨?_, (h2 r hl hb).2⟩, h3 .single rfl⟩
  rw [add_mul, one_mul]
  exact (h2 r hl hb).1

/-- **C100 (shape)** Whatever the generator, a run that does not raise returns `n` rows with one grid point per mode. -/
theorem C100_shape {M : Type → Type} [Monad M] (R : Runs M) (draw : Option ℕ → PMF ℕ → ℕ → M (List ℕ))
    (hdraw : ∀ s p n xs, R.can (draw s p n) xs → xs.length = n ∧ ∀ x ∈ xs, x ∈ p.support)
    (lo hi : ℝ) (num : ℕ) (tol : ℝ≥0∞) (κ : HKind) (m : ℕ) (f : Form) (w : Dens (m + 1)) (n : ℕ) (seed : Option ℕ) (rows : List Row)
    (h : R.can (hsample draw lo hi num tol κ m f w n seed) (some rows)) : Good num (m + 1) n rows := by
  induction m generalizing f n seed rows with
  | zero =>
    rw [hsample] at h
    by_cases hb : f = .batch
    · rw [if_pos hb] at h
      exact absurd (R.pure h) (by simp)
    rw [if_neg hb] at h
    cases hv : validate num tol (fun i => w (fun _ => gridPt lo hi num i) * ENNReal.ofReal (gridStep lo hi num)) with
    | none =>
      rw [hv] at h
      exact absurd (R.pure h) (by simp)
    | some p =>
      rw [hv] at h
      obtain ⟨xs, h1, h2⟩ := R.bind h
      have h3 := Option.some.inj (R.pure h2)
      obtain ⟨d1, d2⟩ := hdraw _ _ _ _ h1
      subst h3
      refine ⟨by simp [d1], by simp, ?_⟩
      intro r hr y hy
      obtain ⟨x, hx, rfl⟩ := List.mem_map.mp hr
      rw [List.mem_singleton] at hy
      subst hy
      exact validate_lt hv y (d2 y hx)
  | succ m ih =>
    rw [hsample] at h
    by_cases hb : f = .batch
    · rw [if_pos hb] at h
      exact absurd (R.pure h) (by simp)
    rw [if_neg hb] at h
    cases hv : validate num tol (fun i => hmarg w (gridPt lo hi num i) * ENNReal.ofReal (gridStep lo hi num)) with
    | none =>
      rw [hv] at h
      exact absurd (R.pure h) (by simp)
    | some p =>
      rw [hv] at h
      obtain ⟨xs, h1, h2⟩ := R.bind h
      obtain ⟨d1, d2⟩ := hdraw _ _ _ _ h1
      have hg := (groups_good R _ num (m + 1) (fun x => xs.count x) _ ?_ ?_ rows h2).1
      · rw [sum_counts, d1] at hg
        exact hg
      · intro x hx
        rw [Finset.mem_sort, List.mem_toFinset] at hx
        exact validate_lt hv x (d2 x hx)
      · intro x _ rs hrs
        by_cases hk : κ.vars (m + 2) - 1 ≠ κ.vars (m + 1)
        · rw [if_pos hk] at hrs
          exact absurd (R.pure hrs) (by simp)
        · rw [if_neg hk] at hrs
          exact ih _ _ _ _ rs hrs

/-! ## A concrete state -/

/-- A Gaussian density. -/
noncomputable def bellD (x : ℝ) : ℝ := Real.exp (-Real.pi * x ^ 2)

/-- Two independent modes. -/
noncomputable def exDens : Dens 2 := fun r => ENNReal.ofReal (bellD (r 0)) * ENNReal.ofReal (bellD (r 1))

theorem bellD_cont : Continuous fun x : ℝ => ENNReal.ofReal (bellD x) := by
  unfold bellD
  exact ENNReal.continuous_ofReal.comp (by fun_prop)

theorem bellD_int : ∫⁻ x : ℝ, ENNReal.ofReal (bellD x) = 1 := by
  unfold bellD
  rw [← ofReal_integral_eq_lintegral_ofReal (integrable_exp_neg_mul_sq Real.pi_pos) (.of_forall fun x => (Real.exp_pos _).le)]
  rw [integral_gaussian, div_self Real.pi_pos.ne', Real.sqrt_one, ENNReal.ofReal_one]

theorem exDens_marg (x : ℝ) : hmarg exDens x = ENNReal.ofReal (bellD x) := by
  unfold hmarg exDens
  show ∫⁻ r : Fin 1 → ℝ, ENNReal.ofReal (bellD x) * ENNReal.ofReal (bellD (r 0)) = _
  rw [lintegral_const_mul' _ _ ENNReal.ofReal_ne_top]
  have := (volume_preserving_funUnique (Fin 1) ℝ).lintegral_comp bellD_cont.measurable
  have e : ∫⁻ r : Fin 1 → ℝ, ENNReal.ofReal (bellD (r 0)) = 1 := this.trans bellD_int
  rw [e, mul_one]

/-- The sum over the grid `-1, 0, 1`. -/
theorem bellD_sum : ∃ S : ℝ, 1 ≤ S ∧ S ≤ 11 / 10 ∧
    ∀ c : ℝ≥0∞, ∑ i ∈ Finset.range 3, (c * ENNReal.ofReal (bellD (gridPt (-1) 1 3 i)) * ENNReal.ofReal (gridStep (-1) 1 3)) = c * ENNReal.ofReal S := by
  have h1 : gridStep (-1) 1 3 = 1 := by
    unfold gridStep
    norm_num
  refine ⟨1 + 2 * Real.exp (-Real.pi), by linarith [Real.exp_pos (-Real.pi)], ?_, fun c => ?_⟩
  · have h3 : Real.exp (-Real.pi) ≤ 1 / 20 := by
      have a : Real.exp (-Real.pi) ≤ Real.exp (-3) := Real.exp_le_exp.2 (by linarith [Real.pi_gt_three])
      have b : Real.exp (-3) = (Real.exp 1 ^ 3)⁻¹ := by
        rw [← Real.exp_nat_mul, ← Real.exp_neg]
        norm_num
      have d : (20 : ℝ) ≤ Real.exp 1 ^ 3 := by
        have := Real.exp_one_gt_d9
        calc (20 : ℝ) ≤ 2.7182818283 ^ 3 := by norm_num
          _ ≤ Real.exp 1 ^ 3 := by gcongr
      rw [b] at a
      refine a.trans ?_
      rw [one_div]
      exact inv_anti₀ (by norm_num) d
    linarith
  · have g0 : bellD (gridPt (-1) 1 3 0) = Real.exp (-Real.pi) := by
      unfold bellD gridPt
      rw [h1]
      norm_num
    have g1 : bellD (gridPt (-1) 1 3 1) = 1 := by
      unfold bellD gridPt
      rw [h1]
      norm_num
    have g2 : bellD (gridPt (-1) 1 3 2) = Real.exp (-Real.pi) := by
      unfold bellD gridPt
      rw [h1]
      norm_num
    rw [Finset.sum_range_succ, Finset.sum_range_succ, Finset.sum_range_succ, Finset.sum_range_zero, g0, g1, g2, h1, ENNReal.ofReal_one, mul_one, mul_one, mul_one, zero_add]
    rw [show 1 + 2 * Real.exp (-Real.pi) = Real.exp (-Real.pi) + 1 + Real.exp (-Real.pi) by ring, ENNReal.ofReal_add (by positivity) (Real.exp_pos _).le,
      ENNReal.ofReal_add (Real.exp_pos _).le zero_le_one, ENNReal.ofReal_one, mul_add, mul_add, mul_one]

theorem validate_isSome {c : ℕ} {tol : ℝ≥0∞} {w : ℕ → ℝ≥0∞} {S : ℝ} (h : ∑ x ∈ Finset.range c, w x = ENNReal.ofReal S) (h1 : 1 ≤ S) (h2 : ENNReal.ofReal S ≤ 1 + tol) :
    ∃ p, validate c tol w = some p := by
  unfold validate
  refine ⟨_, dif_pos ⟨⟨?_, by rw [h]; exact h2⟩, ?_, ?_⟩⟩
  · rw [h]
    exact le_add_right (by rw [← ENNReal.ofReal_one]; exact ENNReal.ofReal_le_ofReal h1)
  · rw [h, ne_eq, ENNReal.ofReal_eq_zero]
    linarith
  · rw [h]
    exact ENNReal.ofReal_ne_top

theorem exDens_ok : NoReject (-1) 1 3 (1 / 4) 1 exDens := by
  obtain ⟨S, h1, h2, hS⟩ := bellD_sum
  have h14 : (1 : ℝ≥0∞) + 1 / 4 = ENNReal.ofReal (5 / 4) := by
    rw [show (5 / 4 : ℝ) = 1 + 1 / 4 by norm_num, ENNReal.ofReal_add zero_le_one (by norm_num), ENNReal.ofReal_one, ENNReal.ofReal_div_of_pos (by norm_num), ENNReal.ofReal_one]
    norm_num
  have hsum : ∑ i ∈ Finset.range 3, hmarg exDens (gridPt (-1) 1 3 i) * ENNReal.ofReal (gridStep (-1) 1 3) = ENNReal.ofReal S := by
    have := hS 1
    simp only [one_mul] at this
    simp only [exDens_marg]
    exact this
  obtain ⟨p, hp⟩ := validate_isSome hsum h1 (by rw [h14]; exact ENNReal.ofReal_le_ofReal (by linarith))
  refine ⟨p, hp, fun i hi => ?_⟩
  have hlt : i < 3 := validate_lt hp i hi
  have h1' : gridStep (-1) 1 3 = 1 := by
    unfold gridStep
    norm_num
  have hpi : p i = ENNReal.ofReal (bellD (gridPt (-1) 1 3 i)) / ENNReal.ofReal S := by
    unfold validate at hp
    split_ifs at hp with hc
    obtain rfl := Option.some.inj hp
    rw [PMF.ofFinset_apply, if_pos (Finset.mem_range.2 hlt), hsum]
    dsimp only
    rw [exDens_marg, h1', ENNReal.ofReal_one, mul_one]
  have hb : ENNReal.ofReal (bellD (gridPt (-1) 1 3 i)) ≠ 0 := by
    rw [ne_eq, ENNReal.ofReal_eq_zero, not_le]
    exact Real.exp_pos _
  have hS0 : ENNReal.ofReal S ≠ 0 := by
    rw [ne_eq, ENNReal.ofReal_eq_zero, not_le]
    linarith
  have hcond' : ∀ j : ℕ, hcond exDens (gridPt (-1) 1 3 i) (p i / ENNReal.ofReal (gridStep (-1) 1 3)) (fun _ => gridPt (-1) 1 3 j) =
      ENNReal.ofReal S * ENNReal.ofReal (bellD (gridPt (-1) 1 3 j)) := by
    intro j
    unfold hcond exDens
    show ENNReal.ofReal (bellD (gridPt (-1) 1 3 i)) * ENNReal.ofReal (bellD (gridPt (-1) 1 3 j)) / _ = _
    rw [hpi, h1', ENNReal.ofReal_one, div_one, div_eq_mul_inv, ENNReal.inv_div (Or.inl ENNReal.ofReal_ne_top) (Or.inl hS0), mul_comm (ENNReal.ofReal (bellD (gridPt (-1) 1 3 i))),
      mul_assoc, ENNReal.mul_div_cancel hb ENNReal.ofReal_ne_top, mul_comm]
  refine validate_isSome (S := S * S) ?_ (by nlinarith) (by rw [h14]; exact ENNReal.ofReal_le_ofReal (by nlinarith))
  simp only [hcond']
  rw [hS (ENNReal.ofReal S), ← ENNReal.ofReal_mul (by linarith)]

/-- Two Gaussian modes on the grid `-1, 0, 1` with tolerance `1/4`: no call raises, and the law is near the density. -/
example : ∃ P : PMF Row, (∀ r : Row, r.length = 2 → (∀ x ∈ r, x < 3) → ENNReal.ofReal (gridStep (-1) 1 3) ^ 2 * exDens (pointOf (-1) 1 3 2 r) ≤ P r + 1 / 4 * P r) ∧
    ∀ n, (hsample ideal (-1) 1 3 (1 / 4) .ket 1 .single exDens n none).map (Option.map bag) = (iid P n).map (fun l => some (bag l)) := by
  obtain ⟨P, -, h2, h3⟩ := chain_law (lo := -1) (hi := 1) (num := 3) (by norm_num) (by norm_num) (1 / 4) 1 exDens
    (regular_of_continuous 1 exDens (by
      unfold exDens
      simp only [bellD, ← ENNReal.ofReal_mul (Real.exp_pos _).le]
      exact ENNReal.continuous_ofReal.comp (by fun_prop))) exDens_ok
  exact ⟨P, fun r hl hb => (h2 r hl hb).1, fun n => h3 .single rfl n none⟩

end Verif.Samplers
