import Verif.ArrayAnsatz
import Mathlib.Probability.Distributions.Gaussian.Real
import Mathlib.MeasureTheory.Integral.Pi
import Mathlib.Tactic.Linarith

/-!
# The phase noise channel

`state >> PhaseNoise(modes, phase_stdev)` (lab/transformations/phasenoise.py) is the only channel of
the library that is not a contraction: it overwrites the Fock array of the state. The model works on
the Fock array of a density matrix (`Verif.Arr.Arr`); the core axes of a density matrix on `n` modes
are the `n` bra axes followed by the `n` ket axes, in increasing order of the mode labels.
-/

namespace Verif.Arr
open MeasureTheory ProbabilityTheory

/-- One turn of the loop: `array *= exp(-0.5 * (mode_indices[mode] - mode_indices[n_modes + mode])**2 * phase_stdev**2)`
(lab/transformations/phasenoise.py 100-107); `mode_indices = np.indices(core_shape)`, so `mode_indices[x]` at a core index
is its `x`-th component. -/
noncomputable def damp (σ : ℝ) (n m : ℕ) (a : Arr) : Arr :=
  { a with get := fun k => a.get k * ((Real.exp (-0.5 * (((k.drop a.batchDims).getD m 0 : ℝ) - ((k.drop a.batchDims).getD (n + m) 0 : ℝ)) ^ 2 * σ ^ 2) : ℝ) : ℂ) }

/-- The loop over `self.modes` (lab/transformations/phasenoise.py 101-107). The array is updated in place, turn by turn;
the Boolean records the `IndexError` of `mode_indices[n_modes + mode]` for a missing axis. -/
noncomputable def dampLoop (σ : ℝ) (n : ℕ) : List ℕ → Arr → Arr × Bool
  | [], a => (a, false)
  | m :: ms, a => if n + m < a.core.length then dampLoop σ n ms (damp σ n m a) else (a, true)

/-- `PhaseNoise.__custom_rrshift__` on a component in the Fock representation whose array is `a` and which has `n` modes
(lab/transformations/phasenoise.py 85-111); `none` is the `IndexError`. Simplified: the completion of a ket with its adjoint and the
conversion to the Fock representation (95-99) happen before. -/
noncomputable def phaseNoise (σ : ℝ) (modes : List ℕ) (n : ℕ) (a : Arr) : Option Arr :=
  if (dampLoop σ n modes a).2 then none else some (dampLoop σ n modes a).1

/-- The same call on the store (numpy backend): a component in the Fock representation holds a reference `l` to its array.
`to_fock()` and `fock_array()` (lab/circuit_components.py 490-533, 695-740) with the default shape go through
`ansatz.reduce(core_shape)`, which returns `self` (physics/ansatz/array_ansatz.py 254-255), and `.array` returns the held object
(64-70): the array multiplied in place is the one of the operand, and the result is built around that same object (109-113). -/
noncomputable def phaseNoiseStore (σ : ℝ) (modes : List ℕ) (n : ℕ) (mem : ℕ → Arr) (l : ℕ) : (ℕ → Arr) × Option ℕ :=
  (Function.update mem l (dampLoop σ n modes (mem l)).1, if (dampLoop σ n modes (mem l)).2 then none else some l)

/-! ## Specification -/

/-- The index of the matrix element between the number states `j` (bra axes) and `k` (ket axes) at batch index `β`. -/
def bk {n : ℕ} (β : List ℕ) (j k : Fin n → ℕ) : List ℕ := β ++ List.ofFn j ++ List.ofFn k

/-- `a` is the Fock array of a batch of operators on `n` modes with cutoffs `d`. -/
structure IsOp {n : ℕ} (a : Arr) (d : Fin n → ℕ) : Prop where
  wf : a.WF
  core : a.core = List.ofFn d ++ List.ofFn d

/-- The density matrix after the phase-space rotations by the angles `φ`: `⟨k|RρR†|j⟩ = e^{i φ·k} ⟨k|ρ|j⟩ e^{-i φ·j}`. -/
noncomputable def rotated {n : ℕ} (φ : Fin n → ℝ) (ρ : (Fin n → ℕ) → (Fin n → ℕ) → ℂ) (j k : Fin n → ℕ) : ℂ :=
  Complex.exp (Complex.I * ∑ i, φ i * k i) * ρ j k * Complex.exp (-(Complex.I * ∑ i, φ i * j i))

/-- The law of the random phases: independent, Gaussian with mean zero and standard deviation `σ` on the modes of the noise,
zero on the others. -/
noncomputable def phaseLaw {n : ℕ} (σ : ℝ) (modes : List ℕ) : Measure (Fin n → ℝ) :=
  Measure.pi fun i => if (i : ℕ) ∈ modes then gaussianReal 0 (Real.toNNReal (σ ^ 2)) else Measure.dirac 0

/-- The matrix with entries `ρ j k = ⟨k|ρ|j⟩`, cut at `d`, is positive semidefinite. -/
def PosOn {n : ℕ} (d : Fin n → ℕ) (ρ : (Fin n → ℕ) → (Fin n → ℕ) → ℂ) : Prop :=
  ∀ v : (Fin n → ℕ) → ℂ, ∃ r : ℝ, 0 ≤ r ∧
    ∑ j ∈ Fintype.piFinset fun i => Finset.range (d i), ∑ k ∈ Fintype.piFinset fun i => Finset.range (d i), (starRingEnd ℂ) (v k) * ρ j k * v j = r

/-! ## The entries -/

theorem dampLoop_meta (σ : ℝ) (n : ℕ) (ms : List ℕ) (a : Arr) :
    (dampLoop σ n ms a).1.batchDims = a.batchDims ∧ (dampLoop σ n ms a).1.shape = a.shape := by
  induction ms generalizing a with
  | nil => exact ⟨rfl, rfl⟩
  | cons m ms ih =>
    unfold dampLoop
    split
    · exact ih _
    · exact ⟨rfl, rfl⟩

theorem dampLoop_ok (σ : ℝ) (n : ℕ) (ms : List ℕ) (a : Arr) (h : ∀ m ∈ ms, n + m < a.core.length) (k : List ℕ) :
    (dampLoop σ n ms a).2 = false ∧ (dampLoop σ n ms a).1.get k = a.get k *
      (ms.map fun m => ((Real.exp (-0.5 * (((k.drop a.batchDims).getD m 0 : ℝ) - ((k.drop a.batchDims).getD (n + m) 0 : ℝ)) ^ 2 * σ ^ 2) : ℝ) : ℂ)).prod := by
  induction ms generalizing a with
  | nil => simp [dampLoop]
  | cons m ms ih =>
    have hm := h m (by simp)
    rw [dampLoop, if_pos hm]
    obtain ⟨h1, h2⟩ := ih (damp σ n m a) (fun x hx => h x (by simp [hx]))
    refine ⟨h1, h2.trans ?_⟩
    rw [List.map_cons, List.prod_cons, ← mul_assoc]
    rfl

theorem dampLoop_fail (σ : ℝ) (n : ℕ) (ms : List ℕ) (a : Arr) (h : ∃ m ∈ ms, a.core.length ≤ n + m) : (dampLoop σ n ms a).2 = true := by
  induction ms generalizing a with
  | nil => simp at h
  | cons m ms ih =>
    rw [dampLoop]
    split
    · next hm =>
      refine ih _ ?_
      obtain ⟨x, hx, hl⟩ := h
      rcases List.mem_cons.1 hx with rfl | hx
      · omega
      · exact ⟨x, hx, hl⟩
    · rfl

theorem bk_drop {n : ℕ} {β : List ℕ} {B : ℕ} (hβ : β.length = B) (j k : Fin n → ℕ) (i : Fin n) :
    ((bk β j k).drop B).getD i 0 = j i ∧ ((bk β j k).drop B).getD (n + i) 0 = k i := by
  subst hβ
  have h : (bk β j k).drop β.length = List.ofFn j ++ List.ofFn k := by
    rw [bk, List.append_assoc, List.drop_left]
  rw [h]
  constructor
  · rw [List.getD_append _ _ _ _ (by simp)]; simp
  · rw [List.getD_append_right _ _ _ _ (by simp)]; simp

theorem core_len {n : ℕ} {a : Arr} {d : Fin n → ℕ} (h : IsOp a d) : a.core.length = n + n := by
  rw [h.core]; simp

/-- On the Fock array of a density matrix on the modes `0, …, n-1`, phase noise on some of those modes always succeeds, keeps the shape,
and multiplies the element between `j` and `k` by `exp(-σ²/2 Σ_i (k_i - j_i)²)`, the sum being over the noisy modes. -/
theorem C77_entries {n : ℕ} {a : Arr} {d : Fin n → ℕ} (ha : IsOp a d) (σ : ℝ) {modes : List ℕ} (hm : ∀ m ∈ modes, m < n) (hd : modes.Nodup) :
    ∃ r, phaseNoise σ modes n a = some r ∧ r.batchDims = a.batchDims ∧ r.shape = a.shape ∧
      ∀ (β : List ℕ) (j k : Fin n → ℕ), β.length = a.batchDims →
        r.get (bk β j k) = a.get (bk β j k) * ((Real.exp (-(σ ^ 2 / 2) * ∑ i : Fin n, if (i : ℕ) ∈ modes then ((k i : ℝ) - j i) ^ 2 else 0) : ℝ) : ℂ) := by
  have hl : ∀ m ∈ modes, n + m < a.core.length := fun m h => by have := hm m h; rw [core_len ha]; omega
  refine ⟨(dampLoop σ n modes a).1, ?_, (dampLoop_meta σ n modes a).1, (dampLoop_meta σ n modes a).2, ?_⟩
  · rw [phaseNoise, (dampLoop_ok σ n modes a hl []).1]; rfl
  · intro β j k hβ
    rw [(dampLoop_ok σ n modes a hl _).2, ← Finset.sum_filter, Finset.mul_sum, Real.exp_sum, Complex.ofReal_prod]
    congr 1
    have e : (Finset.univ.filter fun i : Fin n => (i : ℕ) ∈ modes) = modes.attach.toFinset.image (fun m => (⟨m.1, hm _ m.2⟩ : Fin n)) := by
      ext i
      simp only [Finset.mem_filter, Finset.mem_univ, true_and, Finset.mem_image, List.mem_toFinset, List.mem_attach, Subtype.exists]
      constructor
      · intro h; exact ⟨i, h, rfl⟩
      · rintro ⟨x, hx, h⟩; rw [← h]; exact hx
    rw [e, Finset.prod_image (by intro x _ y _ h; exact Subtype.ext (by simpa using h)),
      List.prod_toFinset _ (by simpa using hd)]
    conv_lhs => rw [← List.attach_map_subtype_val modes, List.map_map]
    refine congrArg List.prod (List.map_congr_left fun m _ => ?_)
    obtain ⟨h1, h2⟩ := bk_drop hβ j k ⟨m.1, hm _ m.2⟩
    simp only at h1 h2
    rw [Function.comp, h1, h2]
    congr 2
    ring

/-! ## The noise is the average over random phases -/

theorem phase_mean (σ : ℝ) (t : ℝ) : ∫ x, Complex.exp (Complex.I * (x * t)) ∂gaussianReal 0 (Real.toNNReal (σ ^ 2)) = Complex.exp (-(σ ^ 2 / 2) * t ^ 2) := by
  have h := charFun_gaussianReal (μ := 0) (v := Real.toNNReal (σ ^ 2)) t
  rw [charFun_apply_real] at h
  rw [show (fun x : ℝ => Complex.exp (Complex.I * (x * t))) = fun x : ℝ => Complex.exp (t * x * Complex.I) by funext x; congr 1; ring, h]
  congr 1
  rw [show ((Real.toNNReal (σ ^ 2) : NNReal) : ℂ) = ((σ ^ 2 : ℝ) : ℂ) by
    rw [show ((Real.toNNReal (σ ^ 2) : NNReal) : ℂ) = (((Real.toNNReal (σ ^ 2) : NNReal) : ℝ) : ℂ) from rfl, Real.coe_toNNReal _ (sq_nonneg σ)]]
  push_cast
  ring

theorem rotated_eq {n : ℕ} (φ : Fin n → ℝ) (ρ : (Fin n → ℕ) → (Fin n → ℕ) → ℂ) (j k : Fin n → ℕ) :
    rotated φ ρ j k = ρ j k * ∏ i, Complex.exp (Complex.I * (φ i * ((k i : ℝ) - j i : ℝ))) := by
  rw [← Complex.exp_sum, rotated, mul_comm (Complex.exp _) (ρ j k), mul_assoc, ← Complex.exp_add]
  congr 2
  rw [Complex.ofReal_sum, Complex.ofReal_sum, Finset.mul_sum, Finset.mul_sum, ← sub_eq_add_neg, ← Finset.sum_sub_distrib]
  refine Finset.sum_congr rfl fun i _ => ?_
  push_cast; ring

instance phaseLaw_prob {n : ℕ} (σ : ℝ) (modes : List ℕ) : IsProbabilityMeasure (phaseLaw (n := n) σ modes) := by
  unfold phaseLaw
  have : ∀ i : Fin n, IsProbabilityMeasure (if (i : ℕ) ∈ modes then gaussianReal 0 (Real.toNNReal (σ ^ 2)) else Measure.dirac (0 : ℝ)) := by
    intro i; split <;> infer_instance
  infer_instance

theorem rotated_avg {n : ℕ} (σ : ℝ) (modes : List ℕ) (ρ : (Fin n → ℕ) → (Fin n → ℕ) → ℂ) (j k : Fin n → ℕ) :
    ∫ φ, rotated φ ρ j k ∂phaseLaw σ modes = ρ j k * ((Real.exp (-(σ ^ 2 / 2) * ∑ i : Fin n, if (i : ℕ) ∈ modes then ((k i : ℝ) - j i) ^ 2 else 0) : ℝ) : ℂ) := by
  simp_rw [rotated_eq]
  rw [integral_const_mul]
  congr 1
  rw [phaseLaw]
  have : ∀ i : Fin n, IsProbabilityMeasure (if (i : ℕ) ∈ modes then gaussianReal 0 (Real.toNNReal (σ ^ 2)) else Measure.dirac (0 : ℝ)) := by
    intro i; split <;> infer_instance
  rw [integral_fintype_prod_eq_prod (f := fun (i : Fin n) (x : ℝ) => Complex.exp (Complex.I * (x * ((k i : ℝ) - j i : ℝ)))), Finset.mul_sum, Real.exp_sum,
    Complex.ofReal_prod]
  refine Finset.prod_congr rfl fun i _ => ?_
  split
  · rw [phase_mean]; push_cast; rfl
  · simp

/-- Phase noise is what its documentation says: the average of the density matrix over independent Gaussian random phases of mean zero and standard
deviation `phase_stdev` on the noisy modes, for every standard deviation (zero included), every number of modes and every batch index. -/
theorem C77_random_phase {n : ℕ} {a : Arr} {d : Fin n → ℕ} (ha : IsOp a d) (σ : ℝ) {modes : List ℕ} (hm : ∀ m ∈ modes, m < n) (hd : modes.Nodup) :
    ∃ r, phaseNoise σ modes n a = some r ∧ r.shape = a.shape ∧ ∀ (β : List ℕ) (j k : Fin n → ℕ), β.length = a.batchDims →
      r.get (bk β j k) = ∫ φ, rotated φ (fun j k => a.get (bk β j k)) j k ∂phaseLaw σ modes := by
  obtain ⟨r, h1, _, h3, h4⟩ := C77_entries ha σ hm hd
  exact ⟨r, h1, h3, fun β j k hβ => by rw [h4 β j k hβ, rotated_avg]⟩

theorem rotated_pos {n : ℕ} {d : Fin n → ℕ} {ρ : (Fin n → ℕ) → (Fin n → ℕ) → ℂ} (h : PosOn d ρ) (φ : Fin n → ℝ) : PosOn d (rotated φ ρ) := by
  intro v
  obtain ⟨r, hr, e⟩ := h fun j => Complex.exp (-(Complex.I * ∑ i, φ i * j i)) * v j
  refine ⟨r, hr, ?_⟩
  rw [← e]
  refine Finset.sum_congr rfl fun j _ => Finset.sum_congr rfl fun k _ => ?_
  rw [rotated, map_mul, ← Complex.exp_conj, map_neg, map_mul, Complex.conj_I, Complex.conj_ofReal]
  rw [neg_mul, neg_neg]
  ring

/-- Phase noise maps states to states: diagonal elements (so the trace and the photon number distribution) are unchanged, a Hermitian array
stays Hermitian and a positive one stays positive. -/
theorem C77_state {n : ℕ} {a r : Arr} {d : Fin n → ℕ} (ha : IsOp a d) {σ : ℝ} {modes : List ℕ} (hm : ∀ m ∈ modes, m < n) (hd : modes.Nodup)
    (hr : phaseNoise σ modes n a = some r) {β : List ℕ} (hβ : β.length = a.batchDims) :
    (∀ j : Fin n → ℕ, r.get (bk β j j) = a.get (bk β j j)) ∧
    ((∀ j k : Fin n → ℕ, a.get (bk β k j) = (starRingEnd ℂ) (a.get (bk β j k))) → ∀ j k : Fin n → ℕ, r.get (bk β k j) = (starRingEnd ℂ) (r.get (bk β j k))) ∧
    (PosOn d (fun j k => a.get (bk β j k)) → PosOn d (fun j k => r.get (bk β j k))) := by
  obtain ⟨r', h1, _, _, h4⟩ := C77_entries ha σ hm hd
  obtain rfl : r' = r := Option.some.inj (h1.symm.trans hr)
  refine ⟨fun j => ?_, fun hH j k => ?_, fun hP v => ?_⟩
  · rw [h4 β j j hβ]; simp
  · rw [h4 β j k hβ, h4 β k j hβ, map_mul, Complex.conj_ofReal, hH]
    refine congrArg (HMul.hMul _) (congrArg _ (congrArg _ (congrArg _ (Finset.sum_congr rfl fun i _ => ?_))))
    split
    · ring
    · rfl
  · choose q hq0 hq using fun φ => rotated_pos hP φ v
    refine ⟨∫ φ, q φ ∂phaseLaw σ modes, integral_nonneg hq0, ?_⟩
    rw [← integral_complex_ofReal]
    simp_rw [← hq]
    have hi : ∀ j k, Integrable (fun φ => (starRingEnd ℂ) (v k) * rotated φ (fun j k => a.get (bk β j k)) j k * v j) (phaseLaw σ modes) := by
      intro j k
      refine (Integrable.const_mul ?_ _).mul_const _
      have hc : Continuous fun φ : Fin n → ℝ => rotated φ (fun j k => a.get (bk β j k)) j k := by unfold rotated; fun_prop
      refine Integrable.of_bound hc.aestronglyMeasurable ‖a.get (bk β j k)‖ (Filter.Eventually.of_forall fun φ => ?_)
      rw [rotated_eq, norm_mul, norm_prod]
      refine mul_le_of_le_one_right (norm_nonneg _) (Finset.prod_le_one (fun _ _ => norm_nonneg _) fun i _ => ?_)
      rw [mul_comm, show ((φ i : ℂ) * ((k i : ℝ) - j i : ℝ)) = ((φ i * ((k i : ℝ) - j i) : ℝ) : ℂ) by push_cast; ring, Complex.norm_exp_ofReal_mul_I]
    rw [integral_finset_sum _ fun j _ => integrable_finset_sum _ fun k _ => hi j k]
    refine Finset.sum_congr rfl fun j _ => ?_
    rw [integral_finset_sum _ fun k _ => hi j k]
    refine Finset.sum_congr rfl fun k _ => ?_
    rw [integral_mul_const, integral_const_mul, rotated_avg, h4 β j k hβ]

/-! ## Algebra of the noise -/

theorem IsOp_result {n : ℕ} {a r : Arr} {d : Fin n → ℕ} (ha : IsOp a d) {σ : ℝ} {modes : List ℕ} (hr : phaseNoise σ modes n a = some r) : IsOp r d := by
  have : r = (dampLoop σ n modes a).1 := by
    unfold phaseNoise at hr
    split at hr
    · cases hr
    · exact (Option.some.inj hr).symm
  obtain ⟨h1, h2⟩ := dampLoop_meta σ n modes a
  subst this
  refine ⟨?_, ?_⟩
  · unfold Arr.WF; rw [h1, h2]; exact ha.wf
  · unfold Arr.core; rw [h1, h2]; exact ha.core

/-- Two noises in a row on the same modes are one noise whose variance is the sum of the variances; noises on disjoint sets of modes
are one noise on the union, in either order; a noise with zero standard deviation does nothing. -/
theorem C77_compose {n : ℕ} {a : Arr} {d : Fin n → ℕ} (ha : IsOp a d) (σ τ : ℝ) {ms ms' : List ℕ} (hm : ∀ m ∈ ms, m < n) (hd : ms.Nodup)
    (hm' : ∀ m ∈ ms', m < n) (hd' : ms'.Nodup) (hdis : ∀ m ∈ ms, m ∉ ms') :
    (∃ r s t, phaseNoise σ ms n a = some r ∧ phaseNoise τ ms n r = some s ∧ phaseNoise (Real.sqrt (σ ^ 2 + τ ^ 2)) ms n a = some t ∧
      s.shape = t.shape ∧ ∀ (β : List ℕ) (j k : Fin n → ℕ), β.length = a.batchDims → s.get (bk β j k) = t.get (bk β j k)) ∧
    (∃ r s r' s' t, phaseNoise σ ms n a = some r ∧ phaseNoise σ ms' n r = some s ∧ phaseNoise σ ms' n a = some r' ∧ phaseNoise σ ms n r' = some s' ∧
      phaseNoise σ (ms ++ ms') n a = some t ∧
      ∀ (β : List ℕ) (j k : Fin n → ℕ), β.length = a.batchDims → s.get (bk β j k) = t.get (bk β j k) ∧ s'.get (bk β j k) = t.get (bk β j k)) ∧
    (∃ r, phaseNoise 0 ms n a = some r ∧ ∀ (β : List ℕ) (j k : Fin n → ℕ), β.length = a.batchDims → r.get (bk β j k) = a.get (bk β j k)) := by
  obtain ⟨r, h1, h2, h3, h4⟩ := C77_entries ha σ hm hd
  obtain ⟨r', h1', h2', h3', h4'⟩ := C77_entries ha σ hm' hd'
  have hdd : (ms ++ ms').Nodup := List.nodup_append.2 ⟨hd, hd', fun x hx y hy e => hdis x hx (e ▸ hy)⟩
  have hmm : ∀ m ∈ ms ++ ms', m < n := fun m h => (List.mem_append.1 h).elim (hm m) (hm' m)
  refine ⟨?_, ?_, ?_⟩
  · obtain ⟨s, g1, g2, g3, g4⟩ := C77_entries (IsOp_result ha h1) τ hm hd
    obtain ⟨t, f1, f2, f3, f4⟩ := C77_entries ha (Real.sqrt (σ ^ 2 + τ ^ 2)) hm hd
    refine ⟨r, s, t, h1, g1, f1, g3.trans (h3.trans f3.symm), fun β j k hβ => ?_⟩
    rw [g4 β j k (hβ.trans h2.symm), h4 β j k hβ, f4 β j k hβ, mul_assoc, ← Complex.ofReal_mul, ← Real.exp_add, Real.sq_sqrt (by positivity)]
    congr 3
    ring
  · obtain ⟨s, g1, g2, g3, g4⟩ := C77_entries (IsOp_result ha h1) σ hm' hd'
    obtain ⟨s', g1', g2', g3', g4'⟩ := C77_entries (IsOp_result ha h1') σ hm hd
    obtain ⟨t, f1, f2, f3, f4⟩ := C77_entries ha σ hmm hdd
    refine ⟨r, s, r', s', t, h1, g1, h1', g1', f1, fun β j k hβ => ?_⟩
    have hs : (∑ i : Fin n, if (i : ℕ) ∈ ms ++ ms' then ((k i : ℝ) - j i) ^ 2 else 0) =
        (∑ i : Fin n, if (i : ℕ) ∈ ms then ((k i : ℝ) - j i) ^ 2 else 0) + ∑ i : Fin n, if (i : ℕ) ∈ ms' then ((k i : ℝ) - j i) ^ 2 else 0 := by
      rw [← Finset.sum_add_distrib]
      refine Finset.sum_congr rfl fun i _ => ?_
      by_cases hi : (i : ℕ) ∈ ms
      · simp [hi, hdis _ hi]
      · simp [hi]
    rw [g4 β j k (hβ.trans h2.symm), h4 β j k hβ, g4' β j k (hβ.trans h2'.symm), h4' β j k hβ, f4 β j k hβ, hs, mul_assoc, mul_assoc, ← Complex.ofReal_mul,
      ← Complex.ofReal_mul, ← Real.exp_add, ← Real.exp_add]
    constructor <;> · congr 3; ring
  · obtain ⟨z, f1, f2, f3, f4⟩ := C77_entries ha 0 hm hd
    exact ⟨z, f1, fun β j k hβ => by rw [f4 β j k hβ]; simp⟩

/-! ## Which mode is affected -/

/-- What the user asks for: noise on the mode labels `modes` of a state whose (increasing) mode labels are `L`. Position `i` of the state is affected
when its label is in `modes`. -/
noncomputable def noiseByLabel {n : ℕ} (σ : ℝ) (modes : List ℕ) (L : Fin n → ℕ) (ρ : (Fin n → ℕ) → (Fin n → ℕ) → ℂ) (j k : Fin n → ℕ) : ℂ :=
  ∫ φ, rotated φ ρ j k ∂phaseLaw σ ((List.finRange n).filterMap fun i => if L i ∈ modes then some (i : ℕ) else none)

/-- For a state on the modes `0, …, n-1` the noise acts on the modes asked for. -/
theorem C77_label_ok {n : ℕ} {a : Arr} {d : Fin n → ℕ} (ha : IsOp a d) (σ : ℝ) {modes : List ℕ} (hm : ∀ m ∈ modes, m < n) (hd : modes.Nodup) :
    ∃ r, phaseNoise σ modes n a = some r ∧ ∀ (β : List ℕ) (j k : Fin n → ℕ), β.length = a.batchDims →
      r.get (bk β j k) = noiseByLabel σ modes (fun i => (i : ℕ)) (fun j k => a.get (bk β j k)) j k := by
  obtain ⟨r, h1, _, _, h4⟩ := C77_entries ha σ hm hd
  refine ⟨r, h1, fun β j k hβ => ?_⟩
  rw [h4 β j k hβ, noiseByLabel, rotated_avg]
  refine congrArg (HMul.hMul _) (congrArg _ (congrArg _ (congrArg _ (Finset.sum_congr rfl fun i _ => ?_))))
  refine if_congr ?_ rfl rfl
  rw [List.mem_filterMap]
  constructor
  · intro h; exact ⟨i, List.mem_finRange i, by simp [h]⟩
  · rintro ⟨x, _, hx⟩
    split at hx
    · next h => rw [← Option.some.inj hx]; exact h
    · cases hx

/-- For any other labels it does not: the label is used as the position. If the largest label of the noise is not a position the call raises `IndexError`
whatever the labels of the state are; otherwise the positions equal to the requested labels are the ones affected, so that for a state on the modes
`1, 2` noise on mode `1` acts on mode `2` and leaves mode `1` untouched. -/
theorem C77_label_bad :
    (∀ {n : ℕ} {a : Arr} {d : Fin n → ℕ}, IsOp a d → ∀ (σ : ℝ) {modes : List ℕ}, (∃ m ∈ modes, n ≤ m) → phaseNoise σ modes n a = none) ∧
    (∀ {a : Arr} {d : Fin 2 → ℕ}, IsOp a d → ∀ σ : ℝ, ∃ r, phaseNoise σ [1] 2 a = some r ∧ ∀ (β : List ℕ) (j k : Fin 2 → ℕ), β.length = a.batchDims →
      r.get (bk β j k) = noiseByLabel σ [2] ![1, 2] (fun j k => a.get (bk β j k)) j k) := by
  refine ⟨fun {n a d} ha σ modes ⟨m, hm, hn⟩ => ?_, fun {a d} ha σ => ?_⟩
  · rw [phaseNoise, dampLoop_fail σ n modes a ⟨m, hm, by rw [core_len ha]; omega⟩]; rfl
  · obtain ⟨r, h1, _, _, h4⟩ := C77_entries ha σ (modes := [1]) (by simp) (by simp)
    refine ⟨r, h1, fun β j k hβ => ?_⟩
    rw [h4 β j k hβ, noiseByLabel, rotated_avg]
    simp [Fin.sum_univ_two, List.finRange_succ]

/-! ## The operand is overwritten -/

/-- Applying phase noise to a state held in the Fock representation changes that state: after `out = rho >> PhaseNoise(...)` the array of `rho` is the
array of `out`, every other array is untouched, and running the same line again
gives a different answer: the noise has been applied twice. -/
theorem C77_operand_overwritten {n : ℕ} {mem : ℕ → Arr} {l : ℕ} {d : Fin n → ℕ} (ha : IsOp (mem l) d) (σ : ℝ) {modes : List ℕ} (hm : ∀ m ∈ modes, m < n) (hd : modes.Nodup) :
    (phaseNoiseStore σ modes n mem l).2 = some l ∧
    (∀ r, phaseNoise σ modes n (mem l) = some r → (phaseNoiseStore σ modes n mem l).1 l = r) ∧
    (∀ l', l' ≠ l → (phaseNoiseStore σ modes n mem l).1 l' = mem l') ∧
    ∃ r, phaseNoise (Real.sqrt 2 * σ) modes n (mem l) = some r ∧ ∀ (β : List ℕ) (j k : Fin n → ℕ), β.length = (mem l).batchDims →
      ((phaseNoiseStore σ modes n (phaseNoiseStore σ modes n mem l).1 l).1 l).get (bk β j k) = r.get (bk β j k) := by
  have hl : ∀ m ∈ modes, n + m < (mem l).core.length := fun m h => by have := hm m h; rw [core_len ha]; omega
  have e1 := (dampLoop_ok σ n modes (mem l) hl []).1
  have h1 : phaseNoise σ modes n (mem l) = some (dampLoop σ n modes (mem l)).1 := by rw [phaseNoise, e1]; rfl
  refine ⟨by simp [phaseNoiseStore, e1], fun r hr => ?_, fun l' hl' => by simp [phaseNoiseStore, hl'], ?_⟩
  · have := h1.symm.trans hr
    simpa [phaseNoiseStore] using this
  · obtain ⟨⟨r, s, t, g1, g2, g3, _, g5⟩, -, -⟩ := C77_compose ha σ σ hm hd (ms' := []) (by simp) (by simp) (by simp)
    obtain ⟨u, q1, _, _, q4⟩ := C77_entries ha (Real.sqrt 2 * σ) hm hd
    refine ⟨u, q1, fun β j k hβ => ?_⟩
    obtain rfl : r = (dampLoop σ n modes (mem l)).1 := Option.some.inj (g1.symm.trans h1)
    have e2 : s = (dampLoop σ n modes (dampLoop σ n modes (mem l)).1).1 := by
      unfold phaseNoise at g2
      split at g2
      · cases g2
      · exact (Option.some.inj g2).symm
    have : ((phaseNoiseStore σ modes n (phaseNoiseStore σ modes n mem l).1 l).1 l) = s := by
      rw [e2]; simp [phaseNoiseStore]
    rw [this, g5 β j k hβ, q4 β j k hβ]
    obtain ⟨t', f1, _, _, f4⟩ := C77_entries ha (Real.sqrt (σ ^ 2 + σ ^ 2)) hm hd
    obtain rfl : t' = t := Option.some.inj (f1.symm.trans g3)
    rw [f4 β j k hβ, Real.sq_sqrt (by positivity), mul_pow, Real.sq_sqrt (by norm_num)]
    congr 3
    ring

/-- The operand is changed even by a call that raises: noise on the modes `0` and `1` of a state of the single mode `0` is an `IndexError`, and
leaves the operand with the noise on mode `0`. -/
theorem C77_raises_halfway {mem : ℕ → Arr} {l : ℕ} {d : Fin 1 → ℕ} (ha : IsOp (mem l) d) (σ : ℝ) :
    (phaseNoiseStore σ [0, 1] 1 mem l).2 = none ∧ phaseNoise σ [0] 1 (mem l) = some ((phaseNoiseStore σ [0, 1] 1 mem l).1 l) := by
  have hl : (mem l).core.length = 2 := core_len ha
  have hl' : (damp σ 1 0 (mem l)).core.length = 2 := hl
  simp [phaseNoiseStore, phaseNoise, dampLoop, hl, hl']

/-! ## A concrete case -/

/-- The density matrix of `(|0⟩ + |1⟩)/√2`, in the Fock representation. -/
noncomputable def plusDM : Arr := { batchDims := 0, shape := [2, 2], get := fun _ => 1 / 2 }

theorem plus_isOp : IsOp plusDM (![2] : Fin 1 → ℕ) := ⟨Nat.zero_le _, by simp [plusDM, Arr.core, List.ofFn_succ]⟩

/-- The hypotheses are met by the density matrix of `(|0⟩ + |1⟩)/√2`: it is positive and of unit trace; after the noise the coherence is `e^{-σ²/2}/2`,
and for `σ ≠ 0` the operand itself has lost coherence. -/
theorem C77_example (σ : ℝ) : PosOn (![2] : Fin 1 → ℕ) (fun j k => plusDM.get (bk [] j k)) ∧
    (∃ r, phaseNoise σ [0] 1 plusDM = some r ∧ r.get (bk [] (![0] : Fin 1 → ℕ) ![1]) = ((Real.exp (-(σ ^ 2 / 2)) / 2 : ℝ) : ℂ)) ∧
    (σ ≠ 0 → ((phaseNoiseStore σ [0] 1 (fun _ => plusDM) 0).1 0).get (bk [] (![0] : Fin 1 → ℕ) ![1]) ≠ plusDM.get (bk [] (![0] : Fin 1 → ℕ) ![1])) := by
  obtain ⟨r, h1, _, _, h4⟩ := C77_entries plus_isOp σ (modes := [0]) (by simp) (by simp)
  have hv : r.get (bk [] (![0] : Fin 1 → ℕ) ![1]) = ((Real.exp (-(σ ^ 2 / 2)) / 2 : ℝ) : ℂ) := by
    rw [h4 [] _ _ rfl]
    simp [plusDM]
    ring
  refine ⟨fun v => ?_, ⟨r, h1, hv⟩, fun hσ h => ?_⟩
  · refine ⟨‖∑ j ∈ Fintype.piFinset fun i => Finset.range ((![2] : Fin 1 → ℕ) i), v j‖ ^ 2 / 2, by positivity, ?_⟩
    push_cast
    rw [← Complex.conj_mul', map_sum, Finset.sum_mul_sum, Finset.sum_comm, Finset.sum_div]
    refine Finset.sum_congr rfl fun j _ => ?_
    rw [Finset.sum_div]
    refine Finset.sum_congr rfl fun k _ => ?_
    simp [plusDM]; ring
  · rw [(C77_operand_overwritten (mem := fun _ => plusDM) (l := 0) plus_isOp σ (modes := [0]) (by simp) (by simp)).2.1 r h1, hv] at h
    have h' : Real.exp (-(σ ^ 2 / 2)) / 2 = 1 / 2 := by
      have : plusDM.get (bk [] (![0] : Fin 1 → ℕ) ![1]) = ((1 / 2 : ℝ) : ℂ) := by simp [plusDM]
      rw [this] at h; exact_mod_cast h
    have : Real.exp (-(σ ^ 2 / 2)) < 1 := Real.exp_lt_one_iff.2 (by have := sq_pos_of_ne_zero hσ; linarith)
    linarith

end Verif.Arr
