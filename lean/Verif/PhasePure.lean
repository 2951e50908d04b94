import Verif.PhaseHusimi

/-!
# Pure Gaussian states from phase space (C66)
-/

namespace Verif.Manifold
open Matrix Verif.Gauss MeasureTheory

variable {n : Type*} [Fintype n] [DecidableEq n]

theorem rhoB_eq {ħ : ℝ} (hħ : 0 < ħ) {cov : Matrix (n ⊕ n) (n ⊕ n) ℝ} (h : (cov + (ħ / 2) • 1).PosDef) (μ : n ⊕ n → ℝ) :
    rhoB ħ cov μ = (cj (rotmat n)).mulVec fun r => (((vac ħ cov)⁻¹.mulVec (mean ħ μ) r : ℝ) : ℂ) := by
  obtain ⟨hQ, -⟩ := husimiQ_inv hħ h
  have hb : (husimiQ ħ cov)⁻¹.mulVec (pqVec ħ μ) = (rotmat n).mulVec fun r => (((vac ħ cov)⁻¹.mulVec (mean ħ μ) r : ℝ) : ℂ) := by
    rw [hQ, show pqVec ħ μ = (rotmat n).mulVec (fun r => (mean ħ μ r : ℂ)) from rfl, Matrix.mulVec_mulVec, Matrix.mul_assoc, rotmat_mul',
      Matrix.mul_one, ← Matrix.mulVec_mulVec, toC_mulVec]
  unfold rhoB
  rw [hb, Matrix.star_mulVec, ← cj_transpose', ← Matrix.mulVec_transpose, transpose_transpose]
  refine congrArg _ ?_
  ext i; simp

theorem cj_rot_mulVec (x : n ⊕ n → ℂ) : (cj (rotmat n)).mulVec x =
    Sum.elim (fun i => (x (.inl i) - Complex.I * x (.inr i)) / (Real.sqrt 2 : ℝ)) (fun i => (x (.inl i) + Complex.I * x (.inr i)) / (Real.sqrt 2 : ℝ)) := by
  have hs : ((Real.sqrt (1 / 2) : ℝ) : ℂ) = 1 / (Real.sqrt 2 : ℝ) := by rw [← sqrt_half']; push_cast; rfl
  have hc : cj (rotmat n) = ((Real.sqrt (1 / 2) : ℝ) : ℂ) • fromBlocks 1 (-(Complex.I • 1)) 1 (Complex.I • (1 : Matrix n n ℂ)) := by
    rw [← conjT_transpose, rotmat_conjT, transpose_smul, fromBlocks_transpose]
    simp
  rw [hc, Matrix.smul_mulVec, ← Sum.elim_comp_inl_inr x, fromBlocks_mulVec, hs]
  funext r
  rcases r with i | i
  · simp [Matrix.neg_mulVec, Matrix.smul_mulVec]; ring
  · simp [Matrix.smul_mulVec]; ring

/-- The bra part of `B` is the conjugate of the ket part. -/
theorem rhoB_conj {ħ : ℝ} (hħ : 0 < ħ) {cov : Matrix (n ⊕ n) (n ⊕ n) ℝ} (h : (cov + (ħ / 2) • 1).PosDef) (μ : n ⊕ n → ℝ) :
    rhoB ħ cov μ ∘ Sum.inl = star (rhoB ħ cov μ ∘ Sum.inr) := by
  rw [rhoB_eq hħ h, cj_rot_mulVec]
  funext i
  simp only [Function.comp, Sum.elim_inl, Sum.elim_inr, Pi.star_apply, Complex.star_def, map_div₀, map_add, map_mul, Complex.conj_ofReal,
    Complex.conj_I]
  ring

/-- The constant is positive. -/
theorem rhoC_eq {ħ : ℝ} (hħ : 0 < ħ) {cov : Matrix (n ⊕ n) (n ⊕ n) ℝ} (h : (cov + (ħ / 2) • 1).PosDef) (μ : n ⊕ n → ℝ) :
    rhoC ħ cov μ = ((Real.sqrt (vac ħ cov).det)⁻¹ * Real.exp (-(1 / 2) * (mean ħ μ ⬝ᵥ (vac ħ cov)⁻¹.mulVec (mean ħ μ))) : ℝ) := by
  have := dm_rot hħ h μ 1 0 0
  unfold dmFromPhaseSpace at this
  rw [show (Sum.elim 0 0 : n ⊕ n → ℂ) = 0 from Sum.elim_zero_zero] at this
  simp only [Matrix.mulVec_zero, zero_dotProduct, dotProduct_zero, mul_zero, add_zero, Complex.exp_zero, mul_one, one_mul] at this
  rw [this]
  have e := bell_hus (vac ħ cov) (mean ħ μ) 0
  have z0 : (fun r => (((0 : n ⊕ n → ℝ) r : ℝ) : ℂ)) = 0 := by funext r; simp
  rw [z0] at e
  rw [e, ← Complex.ofReal_mul]
  unfold bell
  rw [zero_sub, Matrix.mulVec_neg, neg_dotProduct_neg]

/-- The matrix of the Husimi function of a pure state. -/
theorem pure_inv {S : Matrix (n ⊕ n) (n ⊕ n) ℝ} (hS : Symplectic S) {ħ : ℝ} (hħ : 0 < ħ) :
    fromBlocks 1 (-(cS2 S * cj (cS1 S)⁻¹)) (-cj (cS2 S * cj (cS1 S)⁻¹)) 1 * husimiQ ħ ((ħ / 2) • (S * Sᵀ)) = 1 ∧
    fromBlocks 1 (-(cS2 S * cj (cS1 S)⁻¹)) (-cj (cS2 S * cj (cS1 S)⁻¹)) 1 * (rotmat n * toC S * (rotmat n)ᴴ) =
      fromBlocks ((cS1 S)⁻¹)ᴴ 0 0 ((cS1 S)⁻¹)ᵀ := by
  obtain ⟨h1, h2⟩ := complex_symplectic hS
  obtain ⟨i1, i2, k1, k2, k3⟩ := block_relations h1 h2
  set S1 := cS1 S
  set S2 := cS2 S
  set A := S2 * cj S1⁻¹ with hA
  have hTS : fromBlocks 1 (-A) (-cj A) 1 * (rotmat n * toC S * (rotmat n)ᴴ) = fromBlocks (S1⁻¹)ᴴ 0 0 (S1⁻¹)ᵀ := by
    rw [rot_blocks, fromBlocks_multiply]
    have j1 : cj S1⁻¹ * cj S1 = 1 := by rw [← cj_mul, i1, cj_one]
    have e1 : S1 - A * cj S2 = (S1⁻¹)ᴴ := by rw [← k3, hA, Matrix.mul_assoc, ← cj_mul]
    have e2 : S2 - A * cj S1 = 0 := by rw [hA, Matrix.mul_assoc, j1, Matrix.mul_one, sub_self]
    have e1' := congrArg cj e1
    have e2' := congrArg cj e2
    rw [sub_eq_add_neg, cj_add, cj_neg, cj_mul, cj_cj, cj_conjT] at e1'
    rw [sub_eq_add_neg, cj_add, cj_neg, cj_mul, cj_cj, show cj (0 : Matrix n n ℂ) = 0 by ext; simp [cj]] at e2'
    congr 1
    · rw [Matrix.one_mul, Matrix.neg_mul, ← sub_eq_add_neg, e1]
    · rw [Matrix.one_mul, Matrix.neg_mul, ← sub_eq_add_neg, e2]
    · rw [Matrix.one_mul, Matrix.neg_mul, add_comm, e2']
    · rw [Matrix.one_mul, Matrix.neg_mul, add_comm, e1']
  refine ⟨?_, hTS⟩
  have hq : husimiQ ħ ((ħ / 2) • (S * Sᵀ)) = (1 / 2 : ℂ) • ((rotmat n * toC S * (rotmat n)ᴴ) * (rotmat n * toC S * (rotmat n)ᴴ)ᴴ + 1) := by
    rw [husimiQ_eq hħ, vac]
    have e : ħ⁻¹ • ((ħ / 2) • (S * Sᵀ) + (ħ / 2) • (1 : Matrix (n ⊕ n) (n ⊕ n) ℝ)) = (1 / 2 : ℝ) • (S * Sᵀ + 1) := by
      rw [← smul_add, smul_smul]; congr 1; field_simp
    rw [e, toC_smul, toC_add, toC_one, toC_mul, Matrix.mul_smul, Matrix.smul_mul, Matrix.mul_add, Matrix.add_mul, Matrix.mul_one, rotmat_mul]
    have : (rotmat n * toC S * (rotmat n)ᴴ) * (rotmat n * toC S * (rotmat n)ᴴ)ᴴ = rotmat n * (toC S * toC Sᵀ) * (rotmat n)ᴴ := by
      have hc : (toC S)ᴴ = toC Sᵀ := by ext; simp [toC]
      rw [conjTranspose_mul, conjTranspose_mul, conjTranspose_conjTranspose, hc]
      calc _ = rotmat n * toC S * ((rotmat n)ᴴ * rotmat n) * toC Sᵀ * (rotmat n)ᴴ := by simp only [Matrix.mul_assoc]
        _ = _ := by rw [rotmat_mul', Matrix.mul_one]; simp only [Matrix.mul_assoc]
    rw [this]
    norm_num
  rw [hq, Matrix.mul_smul, Matrix.mul_add, ← Matrix.mul_assoc, hTS, Matrix.mul_one, rot_blocks, fromBlocks_conjTranspose, fromBlocks_multiply,
    fromBlocks_add, fromBlocks_smul]
  refine Eq.trans ?_ fromBlocks_one
  have f1 : (S1⁻¹)ᴴ * S1ᴴ = 1 := by rw [← conjTranspose_mul, i2, conjTranspose_one]
  have f2 : (S1⁻¹)ᵀ * S1ᵀ = 1 := by rw [← transpose_mul, i2, transpose_one]
  have f3 : cj A = (S1⁻¹)ᵀ * S2ᴴ := by rw [k2, cj_mul, cj_conjT, cj_transpose]
  simp only [Matrix.zero_mul, add_zero, zero_add, conjT_cj]
  have two : ∀ M : Matrix n n ℂ, (1 / 2 : ℂ) • (M + M) = M := fun M => by rw [← two_smul ℂ M, smul_smul]; norm_num
  congr 1
  · rw [f1, two]
  · rw [← k2, add_neg_cancel, smul_zero]
  · rw [← f3, add_neg_cancel, smul_zero]
  · rw [f2, two]

theorem pure_posDef (S : Matrix (n ⊕ n) (n ⊕ n) ℝ) {ħ : ℝ} (hħ : 0 < ħ) : ((ħ / 2) • (S * Sᵀ) + (ħ / 2) • 1).PosDef := by
  have h1 : (S * Sᵀ).PosSemidef := by
    have := Matrix.posSemidef_self_mul_conjTranspose S
    rwa [conjTranspose_eq_transpose_of_trivial] at this
  have h2 : ((1 : Matrix (n ⊕ n) (n ⊕ n) ℝ)).PosDef := Matrix.PosDef.one
  rw [← smul_add]
  exact (h2.posSemidef_add h1).smul (half_pos hħ)

/-- The matrix `A` of a pure state. -/
theorem pure_A {S : Matrix (n ⊕ n) (n ⊕ n) ℝ} (hS : Symplectic S) {ħ : ℝ} (hħ : 0 < ħ) :
    rhoA ħ ((ħ / 2) • (S * Sᵀ)) = fromBlocks (cj (cS2 S * cj (cS1 S)⁻¹)) 0 0 (cS2 S * cj (cS1 S)⁻¹) := by
  rw [rhoA_eq hħ (pure_posDef S hħ), Matrix.inv_eq_left_inv (pure_inv hS hħ).1]
  unfold Xmat
  rw [← fromBlocks_one, sub_eq_add_neg, fromBlocks_neg, fromBlocks_add, fromBlocks_multiply]
  simp

theorem pure_C {S : Matrix (n ⊕ n) (n ⊕ n) ℝ} (hS : Symplectic S) {ħ : ℝ} (hħ : 0 < ħ) :
    rhoC ħ ((ħ / 2) • (S * Sᵀ)) 0 = (‖(cS1 S)⁻¹.det‖ : ℝ) := by
  have hp := pure_posDef S hħ
  have hV := vac_pos hħ hp
  obtain ⟨t1, t2⟩ := pure_inv hS hħ
  rw [rhoC_eq hħ hp]
  have hm : mean ħ (0 : n ⊕ n → ℝ) = 0 := by funext r; simp [mean]
  rw [hm, zero_dotProduct, mul_zero, Real.exp_zero, mul_one]
  have hdQ : (husimiQ ħ ((ħ / 2) • (S * Sᵀ))).det = ((vac ħ ((ħ / 2) • (S * Sᵀ))).det : ℂ) := by
    rw [husimiQ_eq hħ, det_mul, det_mul, mul_right_comm, ← det_mul, rotmat_mul, det_one, one_mul, toC_det]
  have hdS : (rotmat n * toC S * (rotmat n)ᴴ).det = (S.det : ℂ) := by
    rw [det_mul, det_mul, mul_right_comm, ← det_mul, rotmat_mul, det_one, one_mul, toC_det]
  have d1 := congrArg det t1
  have d2 := congrArg det t2
  rw [det_mul, det_one, hdQ] at d1
  rw [det_mul, hdS, det_fromBlocks_zero₂₁, det_conjTranspose, det_transpose, mul_comm (star _), Complex.star_def, Complex.mul_conj,
    Complex.normSq_eq_norm_sq] at d2
  set T := (fromBlocks 1 (-(cS2 S * cj (cS1 S)⁻¹)) (-cj (cS2 S * cj (cS1 S)⁻¹)) 1).det
  set D := (vac ħ ((ħ / 2) • (S * Sᵀ))).det
  have hD : 0 < D := hV.det_pos
  have hs2 : S.det * S.det = 1 := by
    have := congrArg det hS
    rw [det_mul, det_mul, det_transpose] at this
    have hJ : (fromBlocks 0 1 (-1) 0 : Matrix (n ⊕ n) (n ⊕ n) ℝ).det ≠ 0 := by
      have hJJ : (fromBlocks 0 1 (-1) 0 : Matrix (n ⊕ n) (n ⊕ n) ℝ) * fromBlocks 0 (-1) 1 0 = 1 := by
        rw [fromBlocks_multiply]; simp
      intro e
      have := congrArg det hJJ
      rw [det_mul, e, zero_mul, det_one] at this
      exact zero_ne_one this
    exact mul_right_cancel₀ hJ (by linarith)
  have hT : T = ((D⁻¹ : ℝ) : ℂ) := by
    rw [Complex.ofReal_inv]
    exact eq_inv_of_mul_eq_one_left d1
  rw [hT, ← Complex.ofReal_mul] at d2
  have d2' : D⁻¹ * S.det = ‖(cS1 S)⁻¹.det‖ ^ 2 := by exact_mod_cast d2
  have hSd : S.det = 1 := by
    have h0 : 0 ≤ S.det := by
      by_contra hc
      push Not at hc
      have h3 : D⁻¹ * S.det < 0 := mul_neg_of_pos_of_neg (inv_pos.2 hD) hc
      rw [d2'] at h3
      exact absurd h3 (not_lt.2 (by positivity))
    nlinarith
  rw [hSd, mul_one] at d2'
  rw [← Real.sqrt_inv, d2', Real.sqrt_sq (norm_nonneg _)]

/-- **C66 (pure states)** For the covariance matrix `(ħ/2) S Sᵀ` of a pure state (`S` symplectic) and any means, the density matrix of
`DM.from_phase_space` is the projector `|ψ⟩⟨ψ|` on the state `ψ` of `Ket.from_phase_space`. -/
theorem C66_projector {S : Matrix (n ⊕ n) (n ⊕ n) ℝ} (hS : Symplectic S) {ħ : ℝ} (hħ : 0 < ħ) (μ : n ⊕ n → ℝ) (k : ℂ) (z w : n → ℂ) :
    dmFromPhaseSpace ħ ((ħ / 2) • (S * Sᵀ)) μ (k * (starRingEnd ℂ) k) z w =
      ketFromPhaseSpace ħ ((ħ / 2) • (S * Sᵀ)) μ k z * (starRingEnd ℂ) (ketFromPhaseSpace ħ ((ħ / 2) • (S * Sᵀ)) μ k (star w)) := by
  have hp := pure_posDef S hħ
  unfold dmFromPhaseSpace ketFromPhaseSpace
  rw [pure_A hS hħ, toBlocks_fromBlocks₂₂, rhoC_eq hħ hp]
  set c : ℝ := (Real.sqrt (vac ħ ((ħ / 2) • (S * Sᵀ))).det)⁻¹ *
    Real.exp (-(1 / 2) * (mean ħ μ ⬝ᵥ (vac ħ ((ħ / 2) • (S * Sᵀ)))⁻¹.mulVec (mean ħ μ)))
  have hc : 0 ≤ c := by positivity
  have hsq : (c : ℂ) ^ (1 / 2 : ℂ) = ((Real.sqrt c : ℝ) : ℂ) := by
    rw [show (1 / 2 : ℂ) = ((1 / 2 : ℝ) : ℂ) by norm_num, ← Complex.ofReal_cpow hc, ← Real.sqrt_eq_rpow]
  have hcc : (c : ℂ) = ((Real.sqrt c : ℝ) : ℂ) * ((Real.sqrt c : ℝ) : ℂ) := by rw [← Complex.ofReal_mul, Real.mul_self_sqrt hc]
  rw [hsq]
  conv_lhs => rw [hcc]
  simp only [map_mul, Complex.conj_ofReal, ← Complex.exp_conj, map_add]
  set A := cS2 S * cj (cS1 S)⁻¹
  set B := rhoB ħ ((ħ / 2) • (S * Sᵀ)) μ
  have hB : B ∘ Sum.inl = star (B ∘ Sum.inr) := rhoB_conj hħ hp μ
  have e1 : Sum.elim w z ⬝ᵥ (fromBlocks (cj A) 0 0 A).mulVec (Sum.elim w z) = w ⬝ᵥ (cj A).mulVec w + z ⬝ᵥ A.mulVec z := by
    rw [fromBlocks_mulVec, Sum.elim_comp_inl, Sum.elim_comp_inr, sumElim_dotProduct_sumElim]
    simp
  have e2 : B ⬝ᵥ Sum.elim w z = star (B ∘ Sum.inr) ⬝ᵥ w + (B ∘ Sum.inr) ⬝ᵥ z := by
    conv_lhs => rw [← Sum.elim_comp_inl_inr B]
    rw [sumElim_dotProduct_sumElim, hB]
  have e3 : (starRingEnd ℂ) (star w ⬝ᵥ A.mulVec (star w)) = w ⬝ᵥ (cj A).mulVec w := by
    simp only [dotProduct, mulVec, map_sum, map_mul, cj, Matrix.map_apply, Pi.star_apply, Complex.star_def, Complex.conj_conj]
  have e4 : (starRingEnd ℂ) ((B ∘ Sum.inr) ⬝ᵥ star w) = star (B ∘ Sum.inr) ⬝ᵥ w := by
    simp only [dotProduct, map_sum, map_mul, Pi.star_apply, Complex.star_def, Complex.conj_conj]
  have hh : (starRingEnd ℂ) (1 / 2 : ℂ) = 1 / 2 := by simp [Complex.conj_ofNat]
  rw [e1, e2, e3, e4, hh]
  rw [show 1 / 2 * (w ⬝ᵥ (cj A).mulVec w + z ⬝ᵥ A.mulVec z) + (star (B ∘ Sum.inr) ⬝ᵥ w + (B ∘ Sum.inr) ⬝ᵥ z) =
    (1 / 2 * (z ⬝ᵥ A.mulVec z) + (B ∘ Sum.inr) ⬝ᵥ z) + (1 / 2 * (w ⬝ᵥ (cj A).mulVec w) + star (B ∘ Sum.inr) ⬝ᵥ w) by ring, Complex.exp_add]
  ring

/-- **C66 (vacuum)** With zero means, `Ket.from_phase_space` is the unitary `Unitary.from_symplectic(S)` applied to the vacuum. -/
theorem C66_vacuum {S : Matrix (n ⊕ n) (n ⊕ n) ℝ} (hS : Symplectic S) {ħ : ℝ} (hħ : 0 < ħ) (k : ℂ) (z : n → ℂ) :
    ketFromPhaseSpace ħ ((ħ / 2) • (S * Sᵀ)) 0 k z = k * fromSymplectic S z 0 := by
  have hp := pure_posDef S hħ
  unfold ketFromPhaseSpace fromSymplectic
  rw [pure_A hS hħ, toBlocks_fromBlocks₂₂, pure_C hS hħ, fromSymplecticC_eq hS, symplectic2Au_eq hS]
  have hm : mean ħ (0 : n ⊕ n → ℝ) = 0 := by funext r; simp [mean]
  have hB : rhoB ħ ((ħ / 2) • (S * Sᵀ)) 0 = 0 := by
    rw [rhoB_eq hħ hp, hm, Matrix.mulVec_zero]
    have : (fun r => (((0 : n ⊕ n → ℝ) r : ℝ) : ℂ)) = 0 := by funext r; simp
    rw [this, Matrix.mulVec_zero]
  rw [hB, show (1 / 2 : ℂ) = ((1 / 2 : ℝ) : ℂ) by norm_num, ← Complex.ofReal_cpow (norm_nonneg _)]
  rw [fromBlocks_mulVec, Sum.elim_comp_inl, Sum.elim_comp_inr, sumElim_dotProduct_sumElim, Matrix.mulVec_zero, Matrix.mulVec_zero]
  simp

end Verif.Manifold
