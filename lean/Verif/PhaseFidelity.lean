import Verif.SympEigs

/-!
# Fidelity of Gaussian states (C67)
-/

namespace Verif.Manifold
open Matrix Verif.Gauss MeasureTheory
open scoped ComplexOrder MatrixOrder

variable {n : Type*} [Fintype n] [DecidableEq n]

theorem toC_symForm : toC (symForm n) = fromBlocks 0 1 (-1) 0 := by
  ext i j
  rcases i with i | i <;> rcases j with j | j <;> simp [toC, symForm, Matrix.one_apply, apply_ite]

theorem toC_T {p q : Type*} (M : Matrix p q ℝ) : toC Mᵀ = (toC M)ᵀ := by ext; simp [toC]

theorem toC_neg {p q : Type*} (M : Matrix p q ℝ) : toC (-M) = -toC M := by ext; simp [toC]

theorem toC_inv' {p : Type*} [Fintype p] [DecidableEq p] {M : Matrix p p ℝ} (h : M.det ≠ 0) : toC M⁻¹ = (toC M)⁻¹ := by
  refine (Matrix.inv_eq_right_inv ?_).symm
  rw [← toC_mul, Matrix.mul_nonsing_inv _ h.isUnit, toC_one]

/-- What `fidelity` computes when the auxiliary matrix squares to one. -/
theorem fidelity_core {ħ : ℝ} (hħ : 0 < ħ) (sqrtm : Matrix (n ⊕ n) (n ⊕ n) ℂ → Matrix (n ⊕ n) (n ⊕ n) ℂ) (h0 : sqrtm 0 = 0)
    (μ1 μ2 : n ⊕ n → ℝ) {cov1 cov2 : Matrix (n ⊕ n) (n ⊕ n) ℝ} (hp : (cov1 + cov2).PosDef) {V : Matrix (n ⊕ n) (n ⊕ n) ℝ}
    (hV : (symForm n)ᵀ * (ħ⁻¹ • (cov1 + cov2))⁻¹ * ((1 / 4 : ℝ) • symForm n + (ħ⁻¹ • cov2) * symForm n * (ħ⁻¹ • cov1)) = V)
    (h2 : V * symForm n * V * symForm n = -(1 / 4 : ℝ) • 1) (hd : ((2 : ℝ) • V).det = 1) :
    fidelityFn ħ sqrtm μ1 cov1 μ2 cov2 =
      ħ ^ Fintype.card n / Real.sqrt (cov1 + cov2).det * Real.exp (-(1 / 2) * ((μ1 - μ2) ⬝ᵥ (cov1 + cov2)⁻¹.mulVec (μ1 - μ2))) := by
  have m1 : ∀ M : Matrix (n ⊕ n) (n ⊕ n) ℝ, M.map (· / ħ) = ħ⁻¹ • M := fun M => by
    ext i j; simp [div_eq_inv_mul]
  have hdp := hp.det_pos
  have hσ : (ħ⁻¹ • (cov1 + cov2)).PosDef := hp.smul (inv_pos.2 hħ)
  have e12 : toC (ħ⁻¹ • cov1) + toC (ħ⁻¹ • cov2) = toC (ħ⁻¹ • (cov1 + cov2)) := by rw [← toC_add, smul_add]
  have eV : (toC (symForm n))ᵀ * toC (ħ⁻¹ • (cov1 + cov2))⁻¹ * ((1 / 4 : ℂ) • toC (symForm n) + toC (ħ⁻¹ • cov2) * toC (symForm n) * toC (ħ⁻¹ • cov1)) =
      toC V := by
    rw [← hV, toC_mul, toC_mul, toC_T, toC_add, toC_mul, toC_mul, toC_smul (1 / 4)]
    norm_num
  have eW : ((-2 : ℂ) • (toC V * (Complex.I • toC (symForm n)))) * ((-2 : ℂ) • (toC V * (Complex.I • toC (symForm n)))) = 1 := by
    have := congrArg toC h2
    rw [toC_mul, toC_mul, toC_mul, toC_smul, toC_one] at this
    have e : ((-2 : ℂ) • (toC V * (Complex.I • toC (symForm n)))) * ((-2 : ℂ) • (toC V * (Complex.I • toC (symForm n)))) =
        (-2 * Complex.I * (-2 * Complex.I)) • (toC V * toC (symForm n) * toC V * toC (symForm n)) := by
      simp only [Matrix.mul_smul, Matrix.smul_mul, smul_smul, Matrix.mul_assoc]
    rw [e, this, smul_smul]
    have hI := Complex.I_mul_I
    rw [show (-2 * Complex.I * (-2 * Complex.I) * ((-(1 / 4 : ℝ) : ℝ) : ℂ)) = 1 by push_cast; linear_combination -hI, one_smul]
  have eT : ((0 + 1) * (((-2 : ℂ) • (toC V * (Complex.I • toC (symForm n)))) * (Complex.I • toC (symForm n)))).det = 1 := by
    have hJ : (Complex.I • toC (symForm n)) * (Complex.I • toC (symForm n)) = 1 := by
      rw [Matrix.smul_mul, Matrix.mul_smul, smul_smul, ← toC_mul, symForm_sq, Complex.I_mul_I, toC_neg, toC_one]; simp
    rw [zero_add, Matrix.one_mul, Matrix.smul_mul, Matrix.mul_assoc, hJ, Matrix.mul_one,
      show (-2 : ℂ) • toC V = (-1 : ℂ) • toC ((2 : ℝ) • V) by rw [toC_smul, smul_smul]; norm_num, det_smul, toC_det, hd, Fintype.card_sum,
      ← two_mul, pow_mul]
    norm_num
  have eB : (toC (ħ⁻¹ • (cov1 + cov2))).det = ((((ħ⁻¹) ^ Fintype.card n) ^ 2 * (cov1 + cov2).det : ℝ) : ℂ) := by
    rw [toC_det, det_smul, Fintype.card_sum, ← two_mul, mul_comm 2, pow_mul]
  unfold fidelityFn
  simp only [m1, ← toC_symForm (n := n), e12]
  rw [← toC_inv' hσ.det_pos.ne', eV, Matrix.inv_eq_right_inv eW, eW, sub_self, h0, eT, eB]
  have t1 : (1 / ((((ħ⁻¹) ^ Fintype.card n) ^ 2 * (cov1 + cov2).det : ℝ) : ℂ)) ^ (1 / 2 : ℂ) =
      ((ħ ^ Fintype.card n / Real.sqrt (cov1 + cov2).det : ℝ) : ℂ) := by
    rw [← Complex.ofReal_one, ← Complex.ofReal_div, show (((1 : ℝ) : ℂ) / 2) = ((1 / 2 : ℝ) : ℂ) by norm_num,
      ← Complex.ofReal_cpow (by positivity), ← Real.sqrt_eq_rpow]
    refine congrArg _ ?_
    rw [Real.sqrt_div zero_le_one, Real.sqrt_one, Real.sqrt_mul (by positivity), Real.sqrt_sq (by positivity), inv_pow]
    field_simp
  have t2 : ∑ r, ((μ2 r : ℂ) - (μ1 r : ℂ)) / ((Real.sqrt ħ : ℝ) : ℂ) *
      ((toC (ħ⁻¹ • (cov1 + cov2))⁻¹).mulVec fun r => ((μ2 r : ℂ) - (μ1 r : ℂ)) / ((Real.sqrt ħ : ℝ) : ℂ)) r =
      (((μ1 - μ2) ⬝ᵥ (cov1 + cov2)⁻¹.mulVec (μ1 - μ2) : ℝ) : ℂ) := by
    have hi : (ħ⁻¹ • (cov1 + cov2))⁻¹ = ħ • (cov1 + cov2)⁻¹ := by
      refine Matrix.inv_eq_right_inv ?_
      rw [Matrix.smul_mul, Matrix.mul_smul, smul_smul, inv_mul_cancel₀ hħ.ne', one_smul, Matrix.mul_nonsing_inv _ hdp.ne'.isUnit]
    have hv : (fun r => ((μ2 r : ℂ) - (μ1 r : ℂ)) / ((Real.sqrt ħ : ℝ) : ℂ)) = fun r => ((((Real.sqrt ħ)⁻¹ • (μ2 - μ1)) r : ℝ) : ℂ) := by
      funext r; simp [div_eq_inv_mul]
    have hs := Real.mul_self_sqrt hħ.le
    have hs0 := (Real.sqrt_pos.2 hħ).ne'
    rw [hv, toC_mulVec]
    have : (∑ r, ((μ2 r : ℂ) - (μ1 r : ℂ)) / ((Real.sqrt ħ : ℝ) : ℂ) * (((ħ⁻¹ • (cov1 + cov2))⁻¹.mulVec ((Real.sqrt ħ)⁻¹ • (μ2 - μ1)) r : ℝ) : ℂ)) =
        ((((Real.sqrt ħ)⁻¹ • (μ2 - μ1)) ⬝ᵥ (ħ⁻¹ • (cov1 + cov2))⁻¹.mulVec ((Real.sqrt ħ)⁻¹ • (μ2 - μ1)) : ℝ) : ℂ) := by
      rw [dotProduct]
      push_cast
      refine Finset.sum_congr rfl fun r _ => ?_
      refine congrArg (· * _) ?_
      simp [div_eq_inv_mul]
    rw [this]
    refine congrArg _ ?_
    rw [hi, Matrix.smul_mulVec, Matrix.mulVec_smul, smul_dotProduct, dotProduct_smul, dotProduct_smul,
      ← neg_sub μ1 μ2, Matrix.mulVec_neg, neg_dotProduct_neg]
    simp only [smul_eq_mul]
    generalize (μ1 - μ2) ⬝ᵥ (cov1 + cov2)⁻¹.mulVec (μ1 - μ2) = x
    have : (Real.sqrt ħ)⁻¹ * (ħ * ((Real.sqrt ħ)⁻¹ * x)) = x := by
      generalize Real.sqrt ħ = s at hs hs0 ⊢
      field_simp
      rw [← hs]; ring
    linarith
  rw [t1, t2, show (-(1 / 2) * (((μ1 - μ2) ⬝ᵥ (cov1 + cov2)⁻¹.mulVec (μ1 - μ2) : ℝ) : ℂ)) =
    ((-(1 / 2) * ((μ1 - μ2) ⬝ᵥ (cov1 + cov2)⁻¹.mulVec (μ1 - μ2)) : ℝ) : ℂ) by push_cast; ring, ← Complex.ofReal_exp, ← Complex.ofReal_mul, Complex.ofReal_re]

/-- The covariance matrix of a pure state is positive definite. -/
theorem pure_cov_posDef {S : Matrix (n ⊕ n) (n ⊕ n) ℝ} (hS : Symplectic S) {ħ : ℝ} (hħ : 0 < ħ) : ((ħ / 2) • (S * Sᵀ)).PosDef :=
  uncertainty_posDef hħ (C66_pure_uncertainty hS hħ)

theorem pure_J {S : Matrix (n ⊕ n) (n ⊕ n) ℝ} (hS : Symplectic S) {ħ : ℝ} (hħ : 0 < ħ) :
    (ħ⁻¹ • (ħ / 2) • (S * Sᵀ)) * symForm n * (ħ⁻¹ • (ħ / 2) • (S * Sᵀ)) = (1 / 4 : ℝ) • symForm n := by
  have e : ħ⁻¹ • (ħ / 2) • (S * Sᵀ) = (1 / 2 : ℝ) • (S * Sᵀ) := by
    rw [smul_smul]
    refine congrArg (· • _) ?_
    field_simp
  have h1 := symp_T hS
  have h2 : S * symForm n * Sᵀ = symForm n := hS
  rw [e, Matrix.smul_mul, Matrix.smul_mul, Matrix.mul_smul, smul_smul]
  norm_num
  calc S * Sᵀ * symForm n * (S * Sᵀ) = S * (Sᵀ * symForm n * S) * Sᵀ := by simp only [Matrix.mul_assoc]
    _ = symForm n := by rw [h1, h2]

theorem pure_det {S : Matrix (n ⊕ n) (n ⊕ n) ℝ} (hS : Symplectic S) {ħ : ℝ} (hħ : 0 < ħ) :
    ((2 : ℝ) • (ħ⁻¹ • (ħ / 2) • (S * Sᵀ))).det = 1 := by
  have e : (2 : ℝ) • (ħ⁻¹ • (ħ / 2) • (S * Sᵀ)) = S * Sᵀ := by
    rw [smul_smul, smul_smul, show 2 * ħ⁻¹ * (ħ / 2) = 1 by field_simp, one_smul]
  rw [e, det_mul, det_transpose, symp_det hS]

/-- **C67 (fidelity)** When one of the two states is pure, `fidelity` returns the overlap `Tr(ρ₁ρ₂)` — which is then the fidelity — for all means. -/
theorem C67_fidelity_left {ħ : ℝ} (hħ : 0 < ħ) (sqrtm : Matrix (n ⊕ n) (n ⊕ n) ℂ → Matrix (n ⊕ n) (n ⊕ n) ℂ) (h0 : sqrtm 0 = 0)
    {S : Matrix (n ⊕ n) (n ⊕ n) ℝ} (hS : Symplectic S) {cov : Matrix (n ⊕ n) (n ⊕ n) ℝ} (h : cov.PosDef) (μ1 μ2 : n ⊕ n → ℝ) :
    (fidelityFn ħ sqrtm μ1 ((ħ / 2) • (S * Sᵀ)) μ2 cov : ℂ) =
      opTr (opMul (dmFromPhaseSpace ħ ((ħ / 2) • (S * Sᵀ)) μ1 1) (dmFromPhaseSpace ħ cov μ2 1)) := by
  have hp := pure_cov_posDef hS hħ
  rw [C67_overlap hħ hp h, one_mul, one_mul]
  refine congrArg _ (fidelity_core hħ sqrtm h0 μ1 μ2 (hp.add h) (V := ħ⁻¹ • (ħ / 2) • (S * Sᵀ)) ?_ ?_ (pure_det hS hħ))
  · rw [← pure_J hS hħ, ← Matrix.add_mul, ← Matrix.add_mul, ← smul_add]
    have hd : IsUnit (ħ⁻¹ • ((ħ / 2) • (S * Sᵀ) + cov)).det := ((hp.add h).smul (inv_pos.2 hħ)).det_pos.ne'.isUnit
    generalize ħ⁻¹ • ((ħ / 2) • (S * Sᵀ) + cov) = X at hd
    generalize ħ⁻¹ • (ħ / 2) • (S * Sᵀ) = Y
    calc (symForm n)ᵀ * X⁻¹ * (X * symForm n * Y) = (symForm n)ᵀ * (X⁻¹ * X) * symForm n * Y := by simp only [Matrix.mul_assoc]
      _ = Y := by rw [Matrix.nonsing_inv_mul _ hd, Matrix.mul_one, symForm_T, Matrix.neg_mul, symForm_sq, neg_neg, Matrix.one_mul]
  · rw [pure_J hS hħ, Matrix.smul_mul, symForm_sq]
    simp

theorem C67_fidelity_right {ħ : ℝ} (hħ : 0 < ħ) (sqrtm : Matrix (n ⊕ n) (n ⊕ n) ℂ → Matrix (n ⊕ n) (n ⊕ n) ℂ) (h0 : sqrtm 0 = 0)
    {S : Matrix (n ⊕ n) (n ⊕ n) ℝ} (hS : Symplectic S) {cov : Matrix (n ⊕ n) (n ⊕ n) ℝ} (h : cov.PosDef) (μ1 μ2 : n ⊕ n → ℝ) :
    (fidelityFn ħ sqrtm μ1 cov μ2 ((ħ / 2) • (S * Sᵀ)) : ℂ) =
      opTr (opMul (dmFromPhaseSpace ħ cov μ1 1) (dmFromPhaseSpace ħ ((ħ / 2) • (S * Sᵀ)) μ2 1)) := by
  have hp := pure_cov_posDef hS hħ
  rw [C67_overlap hħ h hp, one_mul, one_mul]
  have hd : IsUnit (ħ⁻¹ • (cov + (ħ / 2) • (S * Sᵀ))).det := ((h.add hp).smul (inv_pos.2 hħ)).det_pos.ne'.isUnit
  have hJ := pure_J hS hħ
  have hdet := pure_det hS hħ
  refine congrArg _ (fidelity_core hħ sqrtm h0 μ1 μ2 (h.add hp)
    (V := (symForm n)ᵀ * (ħ⁻¹ • (cov + (ħ / 2) • (S * Sᵀ)))⁻¹ * (ħ⁻¹ • (ħ / 2) • (S * Sᵀ)) * symForm n * (ħ⁻¹ • (cov + (ħ / 2) • (S * Sᵀ)))) ?_ ?_ ?_)
  · rw [← hJ]
    generalize (ħ⁻¹ • (cov + (ħ / 2) • (S * Sᵀ)))⁻¹ = X
    rw [smul_add]
    generalize ħ⁻¹ • (ħ / 2) • (S * Sᵀ) = Y
    simp only [Matrix.mul_add, Matrix.mul_assoc]
    rw [add_comm]
  · generalize ħ⁻¹ • (cov + (ħ / 2) • (S * Sᵀ)) = X at hd
    generalize ħ⁻¹ • (ħ / 2) • (S * Sᵀ) = Y at hJ
    calc (symForm n)ᵀ * X⁻¹ * Y * symForm n * X * symForm n * ((symForm n)ᵀ * X⁻¹ * Y * symForm n * X) * symForm n
        = (symForm n)ᵀ * X⁻¹ * Y * symForm n * X * (symForm n * (symForm n)ᵀ) * X⁻¹ * Y * symForm n * X * symForm n := by simp only [Matrix.mul_assoc]
      _ = (symForm n)ᵀ * X⁻¹ * Y * symForm n * (X * X⁻¹) * Y * symForm n * X * symForm n := by
          rw [symForm_T, Matrix.mul_neg, symForm_sq, neg_neg, Matrix.mul_one]; simp only [Matrix.mul_assoc]
      _ = (symForm n)ᵀ * X⁻¹ * (Y * symForm n * Y) * symForm n * X * symForm n := by
          rw [Matrix.mul_nonsing_inv _ hd, Matrix.mul_one]; simp only [Matrix.mul_assoc]
      _ = (1 / 4 : ℝ) • ((symForm n)ᵀ * X⁻¹ * (symForm n * symForm n) * X * symForm n) := by
          rw [hJ]; simp only [Matrix.mul_assoc, Matrix.smul_mul, Matrix.mul_smul]
      _ = -((1 / 4 : ℝ) • ((symForm n)ᵀ * (X⁻¹ * X) * symForm n)) := by
          rw [symForm_sq]; simp only [Matrix.mul_neg, Matrix.neg_mul, Matrix.mul_one, smul_neg, Matrix.mul_assoc]
      _ = -(1 / 4 : ℝ) • 1 := by
          rw [Matrix.nonsing_inv_mul _ hd, Matrix.mul_one, symForm_T, Matrix.neg_mul, symForm_sq, neg_neg, neg_smul]
  · generalize ħ⁻¹ • (cov + (ħ / 2) • (S * Sᵀ)) = X at hd
    generalize ħ⁻¹ • (ħ / 2) • (S * Sᵀ) = Y at hdet
    rw [det_smul] at hdet ⊢
    rw [det_mul, det_mul, det_mul, det_mul, det_transpose]
    have hJ2 : (symForm n).det * (symForm n).det = 1 := by
      rw [← det_mul, symForm_sq, det_neg, det_one, mul_one, Fintype.card_sum, ← two_mul, pow_mul]; norm_num
    have hX : (X⁻¹).det * X.det = 1 := by rw [← det_mul, Matrix.nonsing_inv_mul _ hd, det_one]
    linear_combination hdet * 1 + (2 ^ Fintype.card (n ⊕ n) * Y.det * (X⁻¹).det * X.det) * hJ2 + (2 ^ Fintype.card (n ⊕ n) * Y.det) * hX

end Verif.Manifold
