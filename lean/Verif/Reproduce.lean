import Verif.PhaseEx
import Verif.GaussSymm
import Mathlib.Tactic.LinearCombination
import Mathlib.Topology.Order.IntermediateValue

/-!
# The reproducing property of the Gaussian measure

`π^{-n} ∫ f(ū) e^{x·u} e^{-|u|²} du = f(x)` for the Gaussians `f(v) = exp(½ vᵀQv + y·v)`: contracting with a Bargmann function that is the exponential of a
linear form is evaluation. Used for the stellar decompositions.
-/

namespace Verif.Manifold
open Matrix Verif.Gauss MeasureTheory

variable {n : Type*} [Fintype n] [DecidableEq n]

omit [DecidableEq n] in
theorem shrinks_smul {Q : Matrix n n ℂ} (h : Shrinks Q) {t : ℝ} (h0 : 0 ≤ t) (h1 : t ≤ 1) : Shrinks ((t : ℂ) • Q) := by
  intro w hw
  refine lt_of_le_of_lt (Finset.sum_le_sum fun i _ => ?_) (h w hw)
  rw [Matrix.smul_mulVec, Pi.smul_apply, norm_smul, Complex.norm_real, Real.norm_of_nonneg h0, mul_pow]
  exact mul_le_of_le_one_left (by positivity) (pow_le_one₀ h0 h1)

theorem anti_symm {Q : Matrix n n ℂ} (hQ : Qᵀ = Q) : ∀ p q, (fromBlocks (0 : Matrix n n ℂ) (-1) (-1) Q) p q = (fromBlocks 0 (-1) (-1) Q) q p := by
  have : (fromBlocks (0 : Matrix n n ℂ) (-1) (-1) Q)ᵀ = fromBlocks 0 (-1) (-1) Q := by
    rw [fromBlocks_transpose, hQ, transpose_neg, transpose_one, transpose_zero]
  intro p q
  conv_lhs => rw [← this]
  rfl

theorem anti_sq {Q : Matrix n n ℂ} (hQ : Qᵀ = Q) (sQ : Shrinks Q) : gaussConst (fromBlocks (0 : Matrix n n ℂ) (-1) (-1) Q) ^ 2 = 1 := by
  rw [overlap_sq (transpose_zero) hQ shrinks_zero sQ (W := 1) (by simp), det_one]

theorem anti_cont {Q : Matrix n n ℂ} (hQ : Qᵀ = Q) (sQ : Shrinks Q) :
    ContinuousOn (fun t : ℝ => gaussConst (fromBlocks (0 : Matrix n n ℂ) (-1) (-1) ((t : ℂ) • Q))) (Set.Icc 0 1) := by
  unfold gaussConst
  refine continuousOn_const.mul ?_
  have e : ∀ (t : ℝ) (w : n → ℂ), cform (fromBlocks (0 : Matrix n n ℂ) (-1) (-1) ((t : ℂ) • Q)) 0 w =
      1 / 2 * (t * (star w ⬝ᵥ Q.mulVec (star w)) - 2 * (w ⬝ᵥ star w)) := by
    intro t w
    unfold cform
    rw [overlap_quad]
    simp [Matrix.smul_mulVec, dotProduct_smul]
  have h1 := integrable_cform (anti_symm hQ) (overlap_negRe shrinks_zero sQ)
  have h0 := integrable_cform (anti_symm (n := n) (transpose_zero)) (overlap_negRe shrinks_zero shrinks_zero)
  refine continuousOn_of_dominated (bound := fun w => ‖Complex.exp (cform (fromBlocks (0 : Matrix n n ℂ) (-1) (-1) 0) 0 w)‖ +
    ‖Complex.exp (cform (fromBlocks (0 : Matrix n n ℂ) (-1) (-1) Q) 0 w)‖) ?_ ?_ (h0.norm.add h1.norm) ?_
  · intro t _
    refine Continuous.aestronglyMeasurable ?_
    simp only [e]
    simp only [dotProduct, Matrix.mulVec, Pi.star_apply]
    fun_prop
  · intro t ht
    refine .of_forall fun w => ?_
    have ez := e 0 w
    have eo := e 1 w
    simp only [Complex.ofReal_zero, zero_smul, Complex.ofReal_one, one_smul, zero_mul, one_mul] at ez eo
    rw [e, ez, eo, Complex.norm_exp, Complex.norm_exp, Complex.norm_exp]
    have r : ∀ x y : ℂ, ((1 / 2 : ℂ) * ((t : ℂ) * x - 2 * y)).re = 1 / 2 * (t * x.re - 2 * y.re) := by
      intro x y
      have : (1 / 2 : ℂ) * ((t : ℂ) * x - 2 * y) = ((1 / 2 * t : ℝ) : ℂ) * x - y := by push_cast; ring
      rw [this, Complex.sub_re, Complex.re_ofReal_mul]; ring
    have r0 : ∀ y : ℂ, ((1 / 2 : ℂ) * (0 - 2 * y)).re = - y.re := by
      intro y
      have : (1 / 2 : ℂ) * (0 - 2 * y) = -y := by ring
      rw [this, Complex.neg_re]
    have r1 : ∀ x y : ℂ, ((1 / 2 : ℂ) * (x - 2 * y)).re = 1 / 2 * x.re - y.re := by
      intro x y
      have : (1 / 2 : ℂ) * (x - 2 * y) = ((1 / 2 : ℝ) : ℂ) * x - y := by push_cast; ring
      rw [this, Complex.sub_re, Complex.re_ofReal_mul]
    rw [r, r0, r1]
    generalize (star w ⬝ᵥ Q.mulVec (star w)).re = x
    generalize (w ⬝ᵥ star w).re = y
    rcases le_total 0 x with hx | hx
    · have : Real.exp (1 / 2 * (t * x - 2 * y)) ≤ Real.exp (1 / 2 * x - y) := Real.exp_le_exp.2 (by nlinarith [ht.2])
      have := Real.exp_pos (-y)
      linarith
    · have : Real.exp (1 / 2 * (t * x - 2 * y)) ≤ Real.exp (-y) := Real.exp_le_exp.2 (by nlinarith [ht.1])
      have := Real.exp_pos (1 / 2 * x - y)
      linarith
  · refine .of_forall fun w => ?_
    simp only [e]
    fun_prop

theorem pm_of_sq {x : ℂ} (h : x ^ 2 = 1) : x = 1 ∨ x = -1 := by
  have : (x - 1) * (x + 1) = 0 := by linear_combination h
  rcases mul_eq_zero.1 this with h | h
  · exact .inl (sub_eq_zero.1 h)
  · exact .inr (eq_neg_of_add_eq_zero_left h)

theorem anti_one {Q : Matrix n n ℂ} (hQ : Qᵀ = Q) (sQ : Shrinks Q) : gaussConst (fromBlocks (0 : Matrix n n ℂ) (-1) (-1) Q) = 1 := by
  have hsm : ∀ t : ℝ, ((t : ℂ) • Q)ᵀ = (t : ℂ) • Q := fun t => by rw [transpose_smul, hQ]
  have h00 : gaussConst (fromBlocks (0 : Matrix n n ℂ) (-1) (-1) 0) = 1 := by
    have := gaussConst_real (anti_symm (n := n) (transpose_zero)) (overlap_negRe shrinks_zero shrinks_zero) (by
      intro p q
      rcases p with p | p <;> rcases q with q | q <;> simp [Matrix.one_apply] <;> split_ifs <;> simp_all)
    rw [← this, overlap_det (W := 1) (by simp), det_one, Complex.one_cpow]
  have hsq : ∀ t ∈ Set.Icc (0 : ℝ) 1, gaussConst (fromBlocks (0 : Matrix n n ℂ) (-1) (-1) ((t : ℂ) • Q)) ^ 2 = 1 := fun t ht =>
    anti_sq (hsm t) (shrinks_smul sQ ht.1 ht.2)
  rcases pm_of_sq (anti_sq hQ sQ) with h | h
  · exact h
  · exfalso
    have hc : ContinuousOn (fun t : ℝ => (gaussConst (fromBlocks (0 : Matrix n n ℂ) (-1) (-1) ((t : ℂ) • Q))).re) (Set.Icc 0 1) :=
      Complex.continuous_re.comp_continuousOn (anti_cont hQ sQ)
    have hi := intermediate_value_Icc' zero_le_one hc
    simp only [Complex.ofReal_zero, zero_smul, Complex.ofReal_one, one_smul, h00, h] at hi
    obtain ⟨t, ht, h0⟩ := hi (show (0 : ℝ) ∈ _ from ⟨by simp, by simp⟩)
    simp only at h0
    have := hsq t ht
    rcases pm_of_sq this with g | g <;> rw [g] at h0 <;> simp at h0

/-- Contracting a Gaussian with the exponential of a linear form evaluates it. -/
theorem reproduce {Q : Matrix n n ℂ} (hQ : Qᵀ = Q) (sQ : Shrinks Q) (x y : n → ℂ) :
    ((Real.pi : ℂ) ^ Fintype.card n)⁻¹ * ∫ u : n → ℂ,
      Complex.exp (1 / 2 * (star u ⬝ᵥ Q.mulVec (star u)) + y ⬝ᵥ star u) * Complex.exp (x ⬝ᵥ u) * Complex.exp (-∑ i, (‖u i‖ : ℂ) ^ 2) =
      Complex.exp (1 / 2 * (x ⬝ᵥ Q.mulVec x) + y ⬝ᵥ x) := by
  have := gauss_overlap (P := 0) transpose_zero hQ shrinks_zero sQ (W := 1) (by simp) x y
  rw [anti_one hQ sQ, one_mul, Matrix.one_mul, Matrix.zero_mul, Matrix.zero_mulVec, dotProduct_zero, mul_zero, add_zero, Matrix.one_mulVec] at this
  rw [dotProduct_comm y x, ← this]
  refine congrArg _ (integral_congr_ae (.of_forall fun u => ?_))
  simp only [Matrix.zero_mulVec, dotProduct_zero, mul_zero, zero_add]
  ring

end Verif.Manifold
