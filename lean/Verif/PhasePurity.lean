import Verif.PhaseOverlap

/-!
# Purity and fidelity of Gaussian states (C67)
-/

namespace Verif.Manifold
open Matrix Verif.Gauss MeasureTheory
open scoped ComplexOrder MatrixOrder

variable {n : Type*} [Fintype n] [DecidableEq n]

/-! ## Model -/

/-- `purity` (`mrmustard/physics/gaussian.py` 45-54). -/
noncomputable def purityFn (ħ : ℝ) (cov : Matrix (n ⊕ n) (n ⊕ n) ℝ) : ℝ := 1 / Real.sqrt ((2 / ħ) • cov).det

/-- The purity test of `Ket.from_phase_space` (`mrmustard/lab/states/ket.py` 163-169): no test when `atol_purity` is `None` or `0`;
otherwise an error if the purity is below `1 - atol_purity`. -/
noncomputable def ketAccepts (ħ : ℝ) (cov : Matrix (n ⊕ n) (n ⊕ n) ℝ) (atol : Option ℝ) : Prop :=
  match atol with
  | none => True
  | some a => a = 0 ∨ ¬ purityFn ħ cov < 1 - a

/-- `fidelity` (`mrmustard/physics/gaussian.py` 96-146).  `sqrtm` is the matrix square root of the backend
(`mrmustard/math/backend_numpy.py` 357-365), of which only `sqrtm 0 = 0` will be used. -/
noncomputable def fidelityFn (ħ : ℝ) (sqrtm : Matrix (n ⊕ n) (n ⊕ n) ℂ → Matrix (n ⊕ n) (n ⊕ n) ℂ) (μ1 : n ⊕ n → ℝ) (cov1 : Matrix (n ⊕ n) (n ⊕ n) ℝ)
    (μ2 : n ⊕ n → ℝ) (cov2 : Matrix (n ⊕ n) (n ⊕ n) ℝ) : ℝ :=
  let c1 := toC (cov1.map (· / ħ))
  let c2 := toC (cov2.map (· / ħ))
  let δ : n ⊕ n → ℂ := fun r => ((μ2 r : ℂ) - (μ1 r : ℂ)) / ((Real.sqrt ħ : ℝ) : ℂ)
  let J : Matrix (n ⊕ n) (n ⊕ n) ℂ := fromBlocks 0 1 (-1) 0
  let inv12 := (c1 + c2)⁻¹
  let V := Jᵀ * inv12 * ((1 / 4 : ℂ) • J + c2 * J * c1)
  let W := (-2 : ℂ) • (V * (Complex.I • J))
  let root := sqrtm (1 - W⁻¹ * W⁻¹)
  let top := ((root + 1) * (W * (Complex.I • J))).det
  let bot := (c1 + c2).det
  let f0 := (top / bot) ^ (1 / 2 : ℂ)
  let dot := ∑ r, δ r * (inv12.mulVec δ) r
  (f0 * Complex.exp (-(1 / 2) * dot)).re

/-! ## Purity -/

theorem scaled_det {ħ : ℝ} (hħ : 0 < ħ) (cov : Matrix (n ⊕ n) (n ⊕ n) ℝ) :
    ħ ^ Fintype.card n / Real.sqrt (cov + cov).det = purityFn ħ cov := by
  unfold purityFn
  have e : (cov + cov) = ħ • ((2 / ħ) • cov) := by
    rw [smul_smul, mul_div_cancel₀ _ hħ.ne', two_smul]
  have ph : 0 < ħ ^ Fintype.card n := pow_pos hħ _
  rw [e, det_smul, Fintype.card_sum, pow_add, Real.sqrt_mul (by positivity), Real.sqrt_mul_self ph.le]
  rw [div_mul_eq_div_div, div_self ph.ne']

/-- **C67 (purity)** `purity(cov)` is `Tr ρ² / (Tr ρ)²` for the state built by `DM.from_phase_space` with any mean and non-zero coefficient. -/
theorem C67_purity {ħ : ℝ} (hħ : 0 < ħ) {cov : Matrix (n ⊕ n) (n ⊕ n) ℝ} (h : cov.PosDef) (μ : n ⊕ n → ℝ) {k : ℂ} (hk : k ≠ 0) :
    opTr (opMul (dmFromPhaseSpace ħ cov μ k) (dmFromPhaseSpace ħ cov μ k)) / opTr (dmFromPhaseSpace ħ cov μ k) ^ 2 = purityFn ħ cov := by
  rw [C67_overlap hħ h h, C65_trace hħ (cov_vac_posDef hħ h), sub_self, zero_dotProduct, mul_zero, Real.exp_zero, mul_one, scaled_det hħ]
  field_simp

/-- The uncertainty relation forces the covariance matrix to be positive definite. -/
theorem uncertainty_posDef {ħ : ℝ} (hħ : 0 < ħ) {cov : Matrix (n ⊕ n) (n ⊕ n) ℝ}
    (hu : (toC cov + (Complex.I * (ħ / 2)) • toC (symForm n)).PosSemidef) : cov.PosDef := by
  have hsy : covᵀ = cov := by
    have := (C66_admissible hħ hu).isHermitian
    unfold IsHermitian at this
    rw [conjTranspose_eq_transpose_of_trivial, transpose_add, transpose_smul, transpose_one] at this
    exact add_right_cancel this
  have hΩ : (symForm n)ᵀ = -symForm n := by
    unfold symForm; rw [fromBlocks_transpose, fromBlocks_neg]; simp
  have hΩ2 : symForm n * symForm n = -1 := by
    unfold symForm; rw [fromBlocks_multiply, ← fromBlocks_one, fromBlocks_neg]; simp
  have hval : ∀ x : n ⊕ n → ℝ, star (fun r => (x r : ℂ)) ⬝ᵥ (toC cov + (Complex.I * (ħ / 2)) • toC (symForm n)).mulVec (fun r => (x r : ℂ)) =
      ((x ⬝ᵥ cov.mulVec x : ℝ) : ℂ) := by
    intro x
    have hx : star (fun r => (x r : ℂ)) = fun r => (x r : ℂ) := by ext r; simp
    rw [hx, Matrix.add_mulVec, Matrix.smul_mulVec, toC_mulVec, toC_mulVec, dotProduct_add, dotProduct_smul]
    have h1 : (fun r => (x r : ℂ)) ⬝ᵥ (fun r => ((cov.mulVec x r : ℝ) : ℂ)) = ((x ⬝ᵥ cov.mulVec x : ℝ) : ℂ) := by simp [dotProduct]
    have h2 : (fun r => (x r : ℂ)) ⬝ᵥ (fun r => (((symForm n).mulVec x r : ℝ) : ℂ)) = ((x ⬝ᵥ (symForm n).mulVec x : ℝ) : ℂ) := by
      simp [dotProduct]
    have h3 : x ⬝ᵥ (symForm n).mulVec x = 0 := by
      have : x ⬝ᵥ (symForm n).mulVec x = -(x ⬝ᵥ (symForm n).mulVec x) := by
        conv_lhs => rw [Matrix.dotProduct_mulVec, ← Matrix.mulVec_transpose, hΩ, Matrix.neg_mulVec, neg_dotProduct, dotProduct_comm]
      linarith
    rw [h1, h2, h3]
    simp
  refine PosDef.of_dotProduct_mulVec_pos ?_ fun {x} hx => ?_
  · unfold IsHermitian; rw [conjTranspose_eq_transpose_of_trivial, hsy]
  · rw [star_trivial]
    have h0 := hu.dotProduct_mulVec_nonneg (fun r => (x r : ℂ))
    rw [hval] at h0
    refine lt_of_le_of_ne (by exact_mod_cast h0) fun e => hx ?_
    have hz := (hu.dotProduct_mulVec_zero_iff (fun r => (x r : ℂ))).1 (by rw [hval, ← e]; simp)
    rw [Matrix.add_mulVec, Matrix.smul_mulVec, toC_mulVec, toC_mulVec] at hz
    have hΩx : (symForm n).mulVec x = 0 := by
      funext r
      have := congrArg Complex.im (congrFun hz r)
      simp at this
      rcases this with h | h
      · exact absurd h hħ.ne'
      · exact h
    have := congrArg (symForm n).mulVec hΩx
    rw [Matrix.mulVec_mulVec, hΩ2, Matrix.mulVec_zero, Matrix.neg_mulVec, Matrix.one_mulVec, neg_eq_zero] at this
    exact this

end Verif.Manifold
