import Verif.PhasePos

/-!
# The uncertainty relation (C66)
-/

namespace Verif.Manifold
open Matrix Verif.Gauss MeasureTheory
open scoped ComplexOrder MatrixOrder

variable {n : Type*} [Fintype n] [DecidableEq n]

theorem toC_posSemidef {p : Type*} [Fintype p] [DecidableEq p] {V : Matrix p p ℝ} (h : V.PosSemidef) : (toC V).PosSemidef := by
  obtain ⟨B, hB, -, hBB⟩ := CFC.exists_sqrt_of_isSelfAdjoint_of_quasispectrumRestricts h.isHermitian
    (QuasispectrumRestricts.nnreal_of_nonneg h.nonneg)
  have e : toC V = (toC B)ᴴ * toC B := by
    have h1 : (toC B)ᴴ = toC B := by
      have := hB.star_eq
      rw [star_eq_conjTranspose, conjTranspose_eq_transpose_of_trivial] at this
      conv_rhs => rw [← this]
      ext i j; simp [toC]
    rw [h1, ← toC_mul, hBB]
  rw [e]
  exact posSemidef_conjTranspose_mul_self _

theorem toC_posDef {p : Type*} [Fintype p] [DecidableEq p] {V : Matrix p p ℝ} (h : V.PosDef) : (toC V).PosDef := by
  rw [(toC_posSemidef h.posSemidef).posDef_iff_det_ne_zero, toC_det]
  exact_mod_cast h.det_pos.ne'

/-- The triple of a phase-space description is that of a Hermitian operator. -/
theorem rhoA_herm {ħ : ℝ} (hħ : 0 < ħ) {cov : Matrix (n ⊕ n) (n ⊕ n) ℝ} (h : (cov + (ħ / 2) • 1).PosDef) :
    (rhoA ħ cov)ᵀ = rhoA ħ cov ∧ rhoA ħ cov = Xmat n * cj (rhoA ħ cov) * Xmat n := by
  have hX : Xmat n * Xmat n = 1 := by unfold Xmat; rw [fromBlocks_multiply]; simp
  have hXc : cj (Xmat n) = Xmat n := by
    unfold Xmat; ext i j
    rcases i with i | i <;> rcases j with j | j <;> by_cases h : i = j <;> simp [cj, h]
  have hXt : (Xmat n)ᵀ = Xmat n := by unfold Xmat; rw [fromBlocks_transpose]; simp
  have hsy := (posDef_symm (vac_pos hħ h)).2
  have hre : cj (toC (vac ħ cov)⁻¹) = toC (vac ħ cov)⁻¹ := by ext; simp [cj, toC]
  have hQ := (husimiQ_inv hħ h).1
  set W := toC (vac ħ cov)⁻¹
  have hcQ : cj (husimiQ ħ cov)⁻¹ = Xmat n * (husimiQ ħ cov)⁻¹ * Xmat n := by
    have e2 : (rotmat n)ᴴ * Xmat n = (rotmat n)ᵀ := by
      rw [← cj_transpose', ← Xmat_rot, transpose_mul, hXt, Matrix.mul_assoc, hX, Matrix.mul_one]
    rw [hQ, cj_mul, cj_mul, hre, cj_conjT, ← Xmat_rot, ← e2]
    simp only [Matrix.mul_assoc]
  have htQ : (husimiQ ħ cov)⁻¹ᵀ = Xmat n * (husimiQ ħ cov)⁻¹ * Xmat n := by
    rw [← hcQ, hQ, transpose_mul, transpose_mul, hsy, conjT_transpose, cj_mul, cj_mul, hre, cj_conjT, Matrix.mul_assoc]
  have hA := rhoA_eq hħ h
  have hsub : cj (1 - (husimiQ ħ cov)⁻¹) = 1 - cj (husimiQ ħ cov)⁻¹ := by
    ext i j; by_cases hij : i = j <;> simp [cj, hij]
  constructor
  · rw [hA, transpose_mul, transpose_sub, transpose_one, htQ, hXt, Matrix.sub_mul, Matrix.one_mul, Matrix.mul_assoc, hX, Matrix.mul_one,
      Matrix.mul_sub, Matrix.mul_one]
  · rw [hA, cj_mul, hXc, ← Matrix.mul_assoc, hX, Matrix.one_mul, hsub, hcQ, Matrix.sub_mul, Matrix.one_mul, Matrix.mul_assoc, hX,
      Matrix.mul_one, Matrix.mul_sub, Matrix.mul_one]

theorem rot_diag : (rotmat n)ᴴ * fromBlocks 1 0 0 (-1) * rotmat n = Complex.I • toC (symForm n) := by
  rw [rotmat_conjT]
  unfold rotmat symForm
  rw [Matrix.smul_mul, Matrix.smul_mul, Matrix.mul_smul, smul_smul, half_sq, fromBlocks_multiply, fromBlocks_multiply]
  ext i j
  rcases i with i | i <;> rcases j with j | j <;> by_cases hij : i = j <;> simp [toC, hij] <;> ring_nf

/-- Schur complement: the coupling block is positive iff the uncertainty relation holds. -/
theorem gamma_iff {ħ : ℝ} (hħ : 0 < ħ) {cov : Matrix (n ⊕ n) (n ⊕ n) ℝ} (h : (cov + (ħ / 2) • 1).PosDef) :
    (rhoA ħ cov).toBlocks₁₂.PosSemidef ↔ (toC cov + (Complex.I * (ħ / 2)) • toC (symForm n)).PosSemidef := by
  have hV := toC_posDef (vac_pos hħ h)
  have hQd : (husimiQ ħ cov).PosDef := by
    rw [husimiQ_eq hħ]
    refine hV.mul_mul_conjTranspose_same ?_
    exact Matrix.vecMul_injective_of_isUnit (IsUnit.of_mul_eq_one _ rotmat_mul)
  have i1 : Invertible (1 : Matrix n n ℂ) := invertibleOne
  have : Invertible (husimiQ ħ cov) := hQd.isUnit.invertible
  set P : Matrix (n ⊕ n) n ℂ := Matrix.of fun r j => Sum.elim (fun _ => 0) (fun i => (1 : Matrix n n ℂ) i j) r
  have e1 : (rhoA ħ cov).toBlocks₁₂ = 1 - Pᴴ * (husimiQ ħ cov)⁻¹ * P := by
    rw [rhoA_eq hħ h]
    conv_rhs => rw [← fromBlocks_toBlocks (husimiQ ħ cov)⁻¹]
    conv_lhs => rw [← fromBlocks_toBlocks (husimiQ ħ cov)⁻¹]
    rw [← fromBlocks_one, sub_eq_add_neg, fromBlocks_neg, fromBlocks_add, Xmat, fromBlocks_multiply, toBlocks_fromBlocks₁₂]
    ext i j
    simp [P, Matrix.mul_apply, Matrix.one_apply, sub_eq_add_neg]
  rw [e1, ← PosDef.fromBlocks₁₁ P 1 hQd, PosDef.fromBlocks₂₂ _ _ PosDef.one, inv_one, Matrix.mul_one]
  have e2 : husimiQ ħ cov - P * Pᴴ = rotmat n * ((ħ⁻¹ : ℂ) • (toC cov + (Complex.I * (ħ / 2)) • toC (symForm n))) * (rotmat n)ᴴ := by
    have hh : (ħ : ℂ) ≠ 0 := by exact_mod_cast hħ.ne'
    have e3 : (ħ⁻¹ : ℂ) • (toC cov + (Complex.I * (ħ / 2)) • toC (symForm n)) =
        toC (cov.map (· / ħ)) + (1 / 2 : ℂ) • ((rotmat n)ᴴ * fromBlocks 1 0 0 (-1) * rotmat n) := by
      rw [rot_diag]
      ext i j
      simp [toC]
      field_simp
    rw [e3, Matrix.mul_add, Matrix.add_mul, Matrix.mul_smul, Matrix.smul_mul]
    have e4 : rotmat n * ((rotmat n)ᴴ * fromBlocks 1 0 0 (-1) * rotmat n) * (rotmat n)ᴴ = fromBlocks 1 0 0 (-1) := by
      calc _ = (rotmat n * (rotmat n)ᴴ) * fromBlocks 1 0 0 (-1) * (rotmat n * (rotmat n)ᴴ) := by simp only [Matrix.mul_assoc]
        _ = _ := by rw [rotmat_mul, Matrix.one_mul, Matrix.mul_one]
    rw [e4]
    unfold husimiQ pqMat
    rw [add_sub_assoc]
    refine congrArg (HAdd.hAdd _) ?_
    have e5 : P * Pᴴ = fromBlocks 0 0 0 1 := by
      ext i j
      rcases i with i | i <;> rcases j with j | j <;> simp [P, Matrix.mul_apply, Matrix.one_apply]
    rw [e5, ← fromBlocks_one, fromBlocks_smul, fromBlocks_smul, sub_eq_add_neg, fromBlocks_neg, fromBlocks_add]
    congr 1
    · simp
    · simp
    · simp
    · ext i j; by_cases hij : i = j <;> simp [hij]; ring
  rw [e2]
  have hU : IsUnit (rotmat n) := IsUnit.of_mul_eq_one _ rotmat_mul
  rw [← star_eq_conjTranspose, hU.posSemidef_star_right_conjugate_iff]
  constructor
  · intro hp
    have := hp.smul (show (0 : ℂ) ≤ (ħ : ℂ) by exact_mod_cast hħ.le)
    rwa [smul_smul, mul_inv_cancel₀ (by exact_mod_cast hħ.ne'), one_smul] at this
  · intro hp
    refine hp.smul ?_
    rw [← Complex.ofReal_inv]
    exact_mod_cast (inv_pos.2 hħ).le

theorem OpPos_congr {F G : (n → ℂ) → (n → ℂ) → ℂ} (h : ∀ z w, F z w = G z w) : OpPos F ↔ OpPos G := by
  rw [show F = G from funext fun z => funext fun w => h z w]

theorem dm_dmFun {ħ : ℝ} (cov : Matrix (n ⊕ n) (n ⊕ n) ℝ) (μ : n ⊕ n → ℝ) (coeff : ℂ) (z w : n → ℂ) :
    dmFromPhaseSpace ħ cov μ coeff z w = dmFun (rhoA ħ cov) (rhoB ħ cov μ) (coeff * rhoC ħ cov μ) z w := by
  unfold dmFromPhaseSpace dmFun
  rw [mul_assoc]

theorem gamma_herm {A : Matrix (n ⊕ n) (n ⊕ n) ℂ} (hs : Aᵀ = A) (hA : A = Xmat n * cj A * Xmat n) : A.toBlocks₁₂.IsHermitian := by
  have hAb := (fromBlocks_toBlocks A).symm
  have h12 : A.toBlocks₁₂ = cj A.toBlocks₂₁ := by
    have := congrArg toBlocks₁₂ hA
    conv_rhs at this => rw [hAb]
    rw [show cj (fromBlocks A.toBlocks₁₁ A.toBlocks₁₂ A.toBlocks₂₁ A.toBlocks₂₂) =
      fromBlocks (cj A.toBlocks₁₁) (cj A.toBlocks₁₂) (cj A.toBlocks₂₁) (cj A.toBlocks₂₂) from fromBlocks_map ..] at this
    rw [Xmat, fromBlocks_multiply, fromBlocks_multiply, toBlocks_fromBlocks₁₂] at this
    simpa using this
  ext i j
  conv_rhs => rw [h12]
  simp only [cj, conjTranspose_apply, Matrix.map_apply, toBlocks₂₁, toBlocks₁₂, of_apply, Complex.star_def]
  exact congrArg _ (congrFun (congrFun hs (Sum.inr i)) (Sum.inl j))

theorem isPositive_iff {A : Matrix (n ⊕ n) (n ⊕ n) ℂ} (hΓ : A.toBlocks₁₂.IsHermitian) {atol : ℝ} (h0 : 0 ≤ atol) :
    isPositive atol A ↔ (A.toBlocks₁₂ + (atol : ℂ) • 1).PosSemidef := by
  rw [← eig_iff hΓ atol]
  unfold isPositive
  refine and_iff_right ?_
  rw [hΓ.eq, sub_self]
  simpa using h0

/-- **C66 (uncertainty relation)** The operator built by `DM.from_phase_space` with a positive coefficient is positive exactly if the
covariance matrix satisfies the uncertainty relation `cov + (iħ/2) Ω ≥ 0`. -/
theorem C66_uncertainty {ħ : ℝ} (hħ : 0 < ħ) {cov : Matrix (n ⊕ n) (n ⊕ n) ℝ} (h : (cov + (ħ / 2) • 1).PosDef) (μ : n ⊕ n → ℝ)
    {coeff : ℝ} (hc : 0 < coeff) :
    OpPos (dmFromPhaseSpace ħ cov μ coeff) ↔ (toC cov + (Complex.I * (ħ / 2)) • toC (symForm n)).PosSemidef := by
  obtain ⟨hs, hA⟩ := rhoA_herm hħ h
  have hb : rhoB ħ cov μ ∘ Sum.inr = star (rhoB ħ cov μ ∘ Sum.inl) := by rw [rhoB_conj hħ h, star_star]
  have hd : 0 < (vac ħ cov).det := (vac_pos hħ h).det_pos
  rw [← gamma_iff hħ h]
  rw [OpPos_congr (G := dmFun (rhoA ħ cov) (rhoB ħ cov μ) ((coeff * ((Real.sqrt (vac ħ cov).det)⁻¹ *
    Real.exp (-(1 / 2) * (mean ħ μ ⬝ᵥ (vac ħ cov)⁻¹.mulVec (mean ħ μ)))) : ℝ) : ℂ))
    (fun z w => by rw [dm_dmFun, rhoC_eq hħ h, Complex.ofReal_mul coeff])]
  rw [← C66_is_positive_exact hs hA hb (mul_pos hc (mul_pos (inv_pos.2 (Real.sqrt_pos.2 hd)) (Real.exp_pos _))),
    isPositive_iff (gamma_herm hs hA) le_rfl]
  simp

/-- **C66 (is_positive of a phase-space state)** A state built by `DM.from_phase_space` from a covariance matrix obeying the uncertainty
relation is reported positive, at every tolerance; and at tolerance `0` no other is. -/
theorem C66_reported {ħ : ℝ} (hħ : 0 < ħ) {cov : Matrix (n ⊕ n) (n ⊕ n) ℝ} (h : (cov + (ħ / 2) • 1).PosDef) :
    ((toC cov + (Complex.I * (ħ / 2)) • toC (symForm n)).PosSemidef → ∀ atol : ℝ, 0 ≤ atol → isPositive atol (rhoA ħ cov)) ∧
    (isPositive 0 (rhoA ħ cov) → (toC cov + (Complex.I * (ħ / 2)) • toC (symForm n)).PosSemidef) := by
  obtain ⟨hs, hA⟩ := rhoA_herm hħ h
  have hΓ := gamma_herm hs hA
  rw [← gamma_iff hħ h]
  refine ⟨fun hp atol h0 => ?_, fun hp => ?_⟩
  · rw [isPositive_iff hΓ h0]
    exact hp.add (PosSemidef.one.smul (by exact_mod_cast h0))
  · rw [isPositive_iff hΓ le_rfl] at hp
    simpa using hp

/-- A symmetric matrix obeying the uncertainty relation meets the hypothesis of the conversion theorems. -/
theorem C66_admissible {ħ : ℝ} (hħ : 0 < ħ) {cov : Matrix (n ⊕ n) (n ⊕ n) ℝ}
    (hu : (toC cov + (Complex.I * (ħ / 2)) • toC (symForm n)).PosSemidef) : (cov + (ħ / 2) • 1).PosDef := by
  have hΩ : (symForm n)ᵀ = -symForm n := by
    unfold symForm; rw [fromBlocks_transpose, fromBlocks_neg]; simp
  have hre : ∀ x : n ⊕ n → ℝ, 0 ≤ x ⬝ᵥ cov.mulVec x := by
    intro x
    have := hu.dotProduct_mulVec_nonneg (fun r => (x r : ℂ))
    have hx : star (fun r => (x r : ℂ)) = fun r => (x r : ℂ) := by ext r; simp
    rw [hx, Matrix.add_mulVec, Matrix.smul_mulVec, toC_mulVec, toC_mulVec, dotProduct_add, dotProduct_smul] at this
    have h1 : (fun r => (x r : ℂ)) ⬝ᵥ (fun r => ((cov.mulVec x r : ℝ) : ℂ)) = ((x ⬝ᵥ cov.mulVec x : ℝ) : ℂ) := by simp [dotProduct]
    have h2 : (fun r => (x r : ℂ)) ⬝ᵥ (fun r => (((symForm n).mulVec x r : ℝ) : ℂ)) = ((x ⬝ᵥ (symForm n).mulVec x : ℝ) : ℂ) := by
      simp [dotProduct]
    have h3 : x ⬝ᵥ (symForm n).mulVec x = 0 := by
      have : x ⬝ᵥ (symForm n).mulVec x = -(x ⬝ᵥ (symForm n).mulVec x) := by
        conv_lhs => rw [Matrix.dotProduct_mulVec, ← Matrix.mulVec_transpose, hΩ, Matrix.neg_mulVec, neg_dotProduct, dotProduct_comm]
      linarith
    rw [h1, h2, h3] at this
    simp only [Complex.ofReal_zero, smul_zero, add_zero] at this
    exact_mod_cast this
  have hsy : covᵀ = cov := by
    ext i j
    have h1 := congrArg Complex.re (congrFun (congrFun hu.isHermitian.eq i) j)
    simp only [conjTranspose_apply, Matrix.add_apply, Matrix.smul_apply, toC, Matrix.map_apply, smul_eq_mul, Complex.star_def,
      Complex.conj_re, Complex.add_re, Complex.mul_re, Complex.ofReal_re, Complex.I_re, Complex.ofReal_im, Complex.mul_im, Complex.I_im,
      mul_zero, sub_zero, zero_mul] at h1
    rw [transpose_apply]
    have e : ((ħ : ℂ) / 2).im = 0 := by
      rw [show (ħ : ℂ) / 2 = ((ħ / 2 : ℝ) : ℂ) by push_cast; rfl, Complex.ofReal_im]
    simpa [e] using h1
  have hp : cov.PosSemidef := by
    refine PosSemidef.of_dotProduct_mulVec_nonneg ?_ fun x => ?_
    · unfold IsHermitian; rw [conjTranspose_eq_transpose_of_trivial, hsy]
    · rw [star_trivial]; exact hre x
  have h1 : ((ħ / 2) • (1 : Matrix (n ⊕ n) (n ⊕ n) ℝ)).PosDef := PosDef.one.smul (half_pos hħ)
  rw [add_comm]
  exact h1.add_posSemidef hp

end Verif.Manifold
