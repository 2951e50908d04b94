import Verif.PhaseMoments
import Mathlib.Analysis.Analytic.Uniqueness
import Mathlib.Analysis.Analytic.IsolatedZeros
import Mathlib.Analysis.Complex.CauchyIntegral

/-!
# The Husimi function of the state built from phase space data, uniqueness, photon numbers (C65)
-/

namespace Verif.Manifold
open Matrix Verif.Gauss MeasureTheory

variable {n : Type*} [Fintype n] [DecidableEq n]

/-- The phase space point of the coherent state `α`. -/
noncomputable def point (ħ : ℝ) (α : n → ℂ) : n ⊕ n → ℝ :=
  fun r => Real.sqrt (2 * ħ) * Sum.elim (fun i => (α i).re) (fun i => (α i).im) r

theorem exp_dm_pair {g : (n ⊕ n → ℂ) → ℂ} {F : (n → ℂ) → (n → ℂ) → ℂ}
    (h : ∀ z w, F z w = g ((rotmat n)ᴴ.mulVec (Sum.elim w z)) *
      Complex.exp (1 / 2 * ((rotmat n)ᴴ.mulVec (Sum.elim w z) ⬝ᵥ (rotmat n)ᴴ.mulVec (Sum.elim w z)))) (α : n → ℂ) :
    Complex.exp (-∑ i, (‖α i‖ : ℂ) ^ 2) * F (star α) α =
      g (fun r => ((Real.sqrt 2 * Sum.elim (fun i => (α i).re) (fun i => (α i).im) r : ℝ) : ℂ)) := by
  rw [h, rot_pair, mul_left_comm, ← Complex.exp_add]
  have : -∑ i, (‖α i‖ : ℂ) ^ 2 + (1 : ℂ) / 2 * ((fun r => ((Real.sqrt 2 * Sum.elim (fun i => (α i).re) (fun i => (α i).im) r : ℝ) : ℂ)) ⬝ᵥ
      fun r => ((Real.sqrt 2 * Sum.elim (fun i => (α i).re) (fun i => (α i).im) r : ℝ) : ℂ)) = 0 := by
    have h2' : ((Real.sqrt 2 : ℝ) : ℂ) * ((Real.sqrt 2 : ℝ) : ℂ) = 2 := by
      rw [← Complex.ofReal_mul, Real.mul_self_sqrt (by norm_num)]; norm_num
    rw [dotProduct, Fintype.sum_sum_type]
    have hn : ∀ i, (‖α i‖ : ℂ) ^ 2 = ((α i).re : ℂ) ^ 2 + ((α i).im : ℂ) ^ 2 := fun i => by
      rw [← Complex.ofReal_pow, ← Complex.normSq_eq_norm_sq, Complex.normSq_apply]
      push_cast
      ring
    simp only [hn, Sum.elim_inl, Sum.elim_inr]
    rw [← Finset.sum_add_distrib, Finset.mul_sum, neg_add_eq_sub, ← Finset.sum_sub_distrib]
    refine Finset.sum_eq_zero fun i _ => ?_
    push_cast
    linear_combination 1 / 2 * (((α i).re : ℂ) ^ 2 + ((α i).im : ℂ) ^ 2) * h2'
  rw [this, Complex.exp_zero, mul_one]

/-- **C65 (Husimi function)** `⟨α|ρ|α⟩` is the Gaussian with the given means and covariance matrix `cov + ħ/2`. -/
theorem C65_husimi {ħ : ℝ} (hħ : 0 < ħ) {cov : Matrix (n ⊕ n) (n ⊕ n) ℝ} (h : (cov + (ħ / 2) • 1).PosDef) (μ : n ⊕ n → ℝ) (coeff : ℂ)
    (α : n → ℂ) :
    Complex.exp (-∑ i, (‖α i‖ : ℂ) ^ 2) * dmFromPhaseSpace ħ cov μ coeff (star α) α =
      coeff * (ħ ^ Fintype.card n / Real.sqrt (cov + (ħ / 2) • 1).det *
        Real.exp (-(1 / 2) * ((point ħ α - μ) ⬝ᵥ (cov + (ħ / 2) • 1)⁻¹.mulVec (point ħ α - μ))) : ℝ) := by
  rw [exp_dm_pair (g := fun ξ => coeff * hus (vac ħ cov) (mean ħ μ) ξ) (dm_rot hħ h μ coeff)]
  refine congrArg _ ?_
  rw [bell_hus, ← Complex.ofReal_mul]
  refine congrArg _ ?_
  have hs : Real.sqrt ħ ≠ 0 := (Real.sqrt_pos.2 hħ).ne'
  have hdet : (vac ħ cov).det = (ħ ^ Fintype.card n)⁻¹ ^ 2 * (cov + (ħ / 2) • 1).det := by
    unfold vac
    rw [det_smul, Fintype.card_sum, ← two_mul, mul_comm 2, pow_mul, inv_pow]
  have h1 : (Real.sqrt (vac ħ cov).det)⁻¹ = ħ ^ Fintype.card n / Real.sqrt (cov + (ħ / 2) • 1).det := by
    rw [hdet, Real.sqrt_mul (by positivity), Real.sqrt_sq (by positivity), mul_inv, inv_inv]; rfl
  rw [h1]
  refine congrArg _ ?_
  unfold bell
  refine congrArg Real.exp ?_
  have hinv : (vac ħ cov)⁻¹ = ħ • (cov + (ħ / 2) • 1)⁻¹ := by
    unfold vac
    refine inv_eq_right_inv ?_
    rw [Matrix.smul_mul, Matrix.mul_smul, smul_smul, inv_mul_cancel₀ hħ.ne', one_smul, (posDef_inv h).1]
  have hp : ((fun r => Real.sqrt 2 * Sum.elim (fun i => (α i).re) (fun i => (α i).im) r) - mean ħ μ) = (Real.sqrt ħ)⁻¹ • (point ħ α - μ) := by
    funext r
    simp only [Pi.sub_apply, Pi.smul_apply, smul_eq_mul, mean, point]
    rw [Real.sqrt_mul (by norm_num)]
    field_simp
  rw [hinv, hp, Matrix.smul_mulVec, Matrix.mulVec_smul, dotProduct_smul, smul_dotProduct, dotProduct_smul]
  simp only [smul_eq_mul]
  have : ħ * ((Real.sqrt ħ)⁻¹ * (Real.sqrt ħ)⁻¹) = 1 := by
    rw [← mul_inv, Real.mul_self_sqrt hħ.le, mul_inv_cancel₀ hħ.ne']
  linear_combination -(1 / 2) * ((point ħ α - μ) ⬝ᵥ (cov + (ħ / 2) • 1)⁻¹.mulVec (point ħ α - μ)) * this

/-! ## Uniqueness -/

/-- An entire function that vanishes at the real points vanishes. -/
theorem entire_zero {κ : Type*} [Fintype κ] [DecidableEq κ] {f : (κ → ℂ) → ℂ} (hf : Differentiable ℂ f)
    (h0 : ∀ x : κ → ℝ, f (fun i => (x i : ℂ)) = 0) (v : κ → ℂ) : f v = 0 := by
  have key : ∀ (s : Finset κ) (v : κ → ℂ), (∀ i ∉ s, (v i).im = 0) → f v = 0 := by
    intro s
    induction s using Finset.induction_on with
    | empty =>
      intro v hv
      have : v = fun i => ((v i).re : ℂ) := funext fun i => Complex.ext (by simp) (by simpa using hv i (by simp))
      rw [this]
      exact h0 _
    | insert a s ha ih =>
      intro v hv
      have hd : Differentiable ℂ fun t : ℂ => f (Function.update v a t) := by
        refine hf.comp ?_
        rw [differentiable_pi]
        intro i
        by_cases hi : i = a
        · subst hi; simp
        · simp [hi]
      have han : AnalyticOnNhd ℂ (fun t : ℂ => f (Function.update v a t)) Set.univ := fun t _ => hd.analyticAt t
      have hz : ∀ t : ℝ, f (Function.update v a (t : ℂ)) = 0 := fun t => ih _ fun i hi => by
        by_cases hia : i = a
        · subst hia; simp
        · rw [Function.update_of_ne hia]
          exact hv i (by simp [hia, hi])
      have hfreq : ∃ᶠ t in nhdsWithin (0 : ℂ) {0}ᶜ, (fun t : ℂ => f (Function.update v a t)) t = 0 := by
        have hseq : Filter.Tendsto (fun k : ℕ => ((1 / ((k : ℝ) + 1) : ℝ) : ℂ)) Filter.atTop (nhdsWithin (0 : ℂ) {0}ᶜ) := by
          rw [tendsto_nhdsWithin_iff]
          refine ⟨?_, .of_forall fun k => ?_⟩
          · have := (Complex.continuous_ofReal.tendsto 0).comp tendsto_one_div_add_atTop_nhds_zero_nat
            exact this
          · have : (1 / ((k : ℝ) + 1)) ≠ 0 := by positivity
            exact Complex.ofReal_ne_zero.2 this
        exact hseq.frequently (Filter.Frequently.of_forall fun k => hz _)
      have := han.eqOn_zero_of_preconnected_of_frequently_eq_zero isPreconnected_univ (Set.mem_univ 0) hfreq (Set.mem_univ (v a))
      simpa using this
  exact key Finset.univ v fun i hi => absurd (Finset.mem_univ i) hi

/-- **C65 (uniqueness)** Operators with entire Bargmann functions and equal Husimi functions are equal: the state of
`DM.from_phase_space` is the only one with the Husimi function of `C65_husimi`. -/
theorem C65_unique {F G : (n ⊕ n → ℂ) → ℂ} (hF : Differentiable ℂ F) (hG : Differentiable ℂ G)
    (h : ∀ α : n → ℂ, F (Sum.elim α (star α)) = G (Sum.elim α (star α))) : F = G := by
  have hd : Differentiable ℂ fun ξ : n ⊕ n → ℂ => F ((rotmat n).mulVec ξ) - G ((rotmat n).mulVec ξ) := by
    have hl : Differentiable ℂ fun ξ : n ⊕ n → ℂ => (rotmat n).mulVec ξ := by
      rw [differentiable_pi]
      intro i
      simp only [mulVec, dotProduct]
      fun_prop
    exact (hF.comp hl).sub (hG.comp hl)
  have hz : ∀ x : n ⊕ n → ℝ, F ((rotmat n).mulVec fun i => (x i : ℂ)) - G ((rotmat n).mulVec fun i => (x i : ℂ)) = 0 := fun x => by
    have hα : (rotmat n).mulVec (fun i => (x i : ℂ)) =
        Sum.elim (fun i => ((Real.sqrt 2 : ℝ) : ℂ)⁻¹ * (x (.inl i) + x (.inr i) * Complex.I))
          (star fun i => ((Real.sqrt 2 : ℝ) : ℂ)⁻¹ * (x (.inl i) + x (.inr i) * Complex.I)) := by
      set u : n → ℂ := fun i => ((Real.sqrt 2 : ℝ) : ℂ)⁻¹ * (x (.inl i) + x (.inr i) * Complex.I) with hu
      have h2 : Real.sqrt 2 ≠ 0 := by positivity
      have hx : (fun i => (x i : ℂ)) = (rotmat n)ᴴ.mulVec (Sum.elim u (star u)) := by
        rw [rot_pair]
        funext r
        rcases r with i | i <;>
          simp only [hu, Sum.elim_inl, Sum.elim_inr, ← Complex.ofReal_inv, Complex.re_ofReal_mul, Complex.im_ofReal_mul] <;>
          simp [h2]
      rw [hx, Matrix.mulVec_mulVec, rotmat_mul, Matrix.one_mulVec]
    rw [hα, h, sub_self]
  funext v
  have := entire_zero hd hz ((rotmat n)ᴴ.mulVec v)
  rw [Matrix.mulVec_mulVec, rotmat_mul, Matrix.one_mulVec] at this
  exact sub_eq_zero.1 this

/-- The Bargmann function of the state is entire. -/
theorem C65_entire (ħ : ℝ) (cov : Matrix (n ⊕ n) (n ⊕ n) ℝ) (μ : n ⊕ n → ℝ) (coeff : ℂ) :
    Differentiable ℂ fun v : n ⊕ n → ℂ => dmFromPhaseSpace ħ cov μ coeff (v ∘ Sum.inr) (v ∘ Sum.inl) := by
  have e : ∀ v : n ⊕ n → ℂ, Sum.elim (v ∘ Sum.inl) (v ∘ Sum.inr) = v := fun v => Sum.elim_comp_inl_inr v
  unfold dmFromPhaseSpace
  simp only [e]
  simp only [dotProduct, mulVec]
  fun_prop

/-! ## Photon numbers -/

/-- physics/gaussian.py:25-42 `number_means`. -/
noncomputable def numberMeans (ħ : ℝ) (cov : Matrix (n ⊕ n) (n ⊕ n) ℝ) (μ : n ⊕ n → ℝ) (i : n) : ℝ :=
  (μ (.inl i) ^ 2 + μ (.inr i) ^ 2 + cov (.inl i) (.inl i) + cov (.inr i) (.inr i) - ħ) / (2 * ħ)

/-- The Bargmann function of `a_i† a_i ρ`: `z_i ∂/∂z_i`. -/
noncomputable def numLeft (F : (n → ℂ) → (n → ℂ) → ℂ) (i : n) (z w : n → ℂ) : ℂ :=
  z i * deriv (fun t => F (Function.update z i t) w) (z i)

theorem number_quads {F : (n → ℂ) → (n → ℂ) → ℂ} (i : n) (z w : n → ℂ) (hF : Differentiable ℂ fun t => F (Function.update z i t) w) :
    numLeft F i z w = 1 / 2 * (quadLeft (quadLeft F (.inl i)) (.inl i) z w + quadLeft (quadLeft F (.inr i)) (.inr i) z w - F z w) := by
  set φ : ℂ → ℂ := fun t => F (Function.update z i t) w with hφ
  have hφz : F z w = φ (z i) := by rw [hφ]; simp
  have hd1 : ∀ t, HasDerivAt φ (deriv φ t) t := fun t => (hF t).hasDerivAt
  have hd2 : HasDerivAt (deriv φ) (deriv (deriv φ) (z i)) (z i) := (hF.analyticAt (z i)).deriv.differentiableAt.hasDerivAt
  have h2' : ((Real.sqrt 2 : ℝ) : ℂ) * ((Real.sqrt 2 : ℝ) : ℂ) = 2 := by
    rw [← Complex.ofReal_mul, Real.mul_self_sqrt (by norm_num)]; norm_num
  have h2 : ((Real.sqrt 2 : ℝ) : ℂ) ≠ 0 := by rw [Complex.ofReal_ne_zero]; positivity
  have hid := hasDerivAt_id (z i)
  have eq : (fun t => quadLeft F (.inl i) (Function.update z i t) w) = fun t => (deriv φ t + t * φ t) / (Real.sqrt 2 : ℝ) := by
    funext t
    simp only [quadLeft, Function.update_self, Function.update_idem, hφ]
  have ep : (fun t => quadLeft F (.inr i) (Function.update z i t) w) = fun t => (deriv φ t - t * φ t) / (Complex.I * (Real.sqrt 2 : ℝ)) := by
    funext t
    simp only [quadLeft, Function.update_self, Function.update_idem, hφ]
  have dq : deriv (fun t => quadLeft F (.inl i) (Function.update z i t) w) (z i) =
      (deriv (deriv φ) (z i) + (1 * φ (z i) + z i * deriv φ (z i))) / (Real.sqrt 2 : ℝ) := by
    rw [eq]
    exact ((hd2.add (hid.mul (hd1 (z i)))).div_const _).deriv
  have dp : deriv (fun t => quadLeft F (.inr i) (Function.update z i t) w) (z i) =
      (deriv (deriv φ) (z i) - (1 * φ (z i) + z i * deriv φ (z i))) / (Complex.I * (Real.sqrt 2 : ℝ)) := by
    rw [ep]
    exact ((hd2.sub (hid.mul (hd1 (z i)))).div_const _).deriv
  have vq : quadLeft F (.inl i) z w = (deriv φ (z i) + z i * φ (z i)) / (Real.sqrt 2 : ℝ) := by
    have := congrFun eq (z i)
    simpa using this
  have vp : quadLeft F (.inr i) z w = (deriv φ (z i) - z i * φ (z i)) / (Complex.I * (Real.sqrt 2 : ℝ)) := by
    have := congrFun ep (z i)
    simpa using this
  have o1 : quadLeft (quadLeft F (.inl i)) (.inl i) z w =
      (deriv (fun t => quadLeft F (.inl i) (Function.update z i t) w) (z i) + z i * quadLeft F (.inl i) z w) / (Real.sqrt 2 : ℝ) := rfl
  have o2 : quadLeft (quadLeft F (.inr i)) (.inr i) z w =
      (deriv (fun t => quadLeft F (.inr i) (Function.update z i t) w) (z i) - z i * quadLeft F (.inr i) z w) / (Complex.I * (Real.sqrt 2 : ℝ)) := rfl
  rw [o1, o2, dq, dp, vq, vp, hφz]
  show z i * deriv φ (z i) = _
  generalize deriv φ (z i) = φ1
  generalize deriv (deriv φ) (z i) = φ2
  generalize φ (z i) = φ0
  field_simp
  rw [Complex.I_sq, show (((Real.sqrt 2 : ℝ) : ℂ)) ^ 2 = 2 by rw [sq, h2']]
  ring

/-- **C65 (photon numbers)** `number_means` is the expectation value of the photon number operators `a_i† a_i`. -/
theorem C65_number {ħ : ℝ} (hħ : 0 < ħ) {cov : Matrix (n ⊕ n) (n ⊕ n) ℝ} (h : (cov + (ħ / 2) • 1).PosDef) (μ : n ⊕ n → ℝ) (coeff : ℂ)
    (i : n) : opTr (numLeft (dmFromPhaseSpace ħ cov μ coeff) i) = coeff * numberMeans ħ cov μ i := by
  obtain ⟨g1, hg1, i1⟩ := quad_dm_two hħ h μ coeff (.inl i) (.inl i)
  obtain ⟨g2, hg2, i2⟩ := quad_dm_two hħ h μ coeff (.inr i) (.inr i)
  have hg3 := dm_rot hħ h μ coeff
  have i3 : Integrable fun x : n ⊕ n → ℝ => coeff * hus (vac ħ cov) (mean ħ μ) (fun r => (x r : ℂ)) := by
    have := hus_integrable (vac_pos hħ h) (mean ħ μ) 1 1 coeff 0 0
    simpa using this
  have hn : ∀ z w, numLeft (dmFromPhaseSpace ħ cov μ coeff) i z w = (fun ξ => 1 / 2 * (g1 ξ + g2 ξ - coeff * hus (vac ħ cov) (mean ħ μ) ξ))
      ((rotmat n)ᴴ.mulVec (Sum.elim w z)) *
      Complex.exp (1 / 2 * ((rotmat n)ᴴ.mulVec (Sum.elim w z) ⬝ᵥ (rotmat n)ᴴ.mulVec (Sum.elim w z))) := fun z w => by
    have hd : Differentiable ℂ fun t => dmFromPhaseSpace ħ cov μ coeff (Function.update z i t) w := by
      have hc := (C65_entire ħ cov μ coeff).comp (f := fun t : ℂ => Sum.elim w (Function.update z i t)) (by
        rw [differentiable_pi]
        intro r
        rcases r with j | j
        · simp
        · by_cases hj : j = i
          · subst hj; simp
          · simp [hj])
      exact hc
    rw [number_quads i z w hd, hg1, hg2, hg3]
    ring
  rw [opTr_rot (g := fun ξ => 1 / 2 * (g1 ξ + g2 ξ - coeff * hus (vac ħ cov) (mean ħ μ) ξ)) hn]
  have t1 := C65_covariance hħ h μ coeff (.inl i) (.inl i)
  have t2 := C65_covariance hħ h μ coeff (.inr i) (.inr i)
  have t3 := C65_trace hħ h μ coeff
  rw [opTr_rot hg1] at t1
  rw [opTr_rot hg2] at t2
  rw [opTr_rot (g := fun ξ => coeff * hus (vac ħ cov) (mean ħ μ) ξ) hg3] at t3
  have i12 : Integrable (fun x : n ⊕ n → ℝ => (g1 fun r => (x r : ℂ)) + g2 fun r => (x r : ℂ)) := i1.add i2
  rw [integral_const_mul, integral_sub i12 i3, integral_add i1 i2]
  have hħ' : (ħ : ℂ) ≠ 0 := by exact_mod_cast hħ.ne'
  have s1 : symForm n (.inl i) (.inl i) = 0 := rfl
  have s2 : symForm n (.inr i) (.inr i) = 0 := rfl
  rw [s1] at t1
  rw [s2] at t2
  unfold numberMeans
  push_cast at t1 t2 t3 ⊢
  rw [mul_div_assoc', eq_div_iff (by simpa using hħ')]
  generalize (∫ x : n ⊕ n → ℝ, g1 fun r => (x r : ℂ)) = J1 at *
  generalize (∫ x : n ⊕ n → ℝ, g2 fun r => (x r : ℂ)) = J2 at *
  generalize (∫ x : n ⊕ n → ℝ, coeff * hus (vac ħ cov) (mean ħ μ) fun r => (x r : ℂ)) = J3 at *
  linear_combination t1 + t2 - ħ * t3

end Verif.Manifold
