import Verif.PhaseEx
import Mathlib.MeasureTheory.Integral.Prod

/-!
# Overlaps and purity of Gaussian states (C67)
-/

namespace Verif.Manifold
open Matrix Verif.Gauss MeasureTheory
open scoped ComplexOrder MatrixOrder

variable {n : Type*} [Fintype n] [DecidableEq n]

/-! ## Double integrals -/

omit [DecidableEq n] in
theorem double_integral {H : (n ⊕ n → ℂ) → ℂ} (hi : Integrable H) : ∫ t : n → ℂ, ∫ s : n → ℂ, H (Sum.elim s t) = ∫ v : n ⊕ n → ℂ, H v := by
  have mp := volume_measurePreserving_sumPiEquivProdPi (fun _ : n ⊕ n => ℂ)
  rw [← mp.symm.integral_comp' H]
  rw [Measure.volume_eq_prod, integral_prod_symm]
  · refine integral_congr_ae (.of_forall fun t => integral_congr_ae (.of_forall fun s => ?_))
    refine congrArg H ?_
    funext r
    rcases r with i | i <;> rfl
  · rw [← Measure.volume_eq_prod]
    exact (mp.symm.integrable_comp_emb (MeasurableEquiv.measurableEmbedding _)).2 hi

omit [DecidableEq n] in
theorem integral_star (f : (n → ℂ) → ℂ) : ∫ u : n → ℂ, f (star u) = ∫ u : n → ℂ, f u := by
  rw [← (conjPerm_mp (Equiv.refl n)).integral_comp' f]
  refine integral_congr_ae (.of_forall fun u => ?_)
  have hc : conjPerm (Equiv.refl n) u = star u := funext fun i => conjPerm_apply (Equiv.refl n) u i
  simp only [hc]

theorem overlap_symm {P Q : Matrix n n ℂ} (hP : Pᵀ = P) (hQ : Qᵀ = Q) (p q : n ⊕ n) :
    (fromBlocks P (-1) (-1) Q) p q = (fromBlocks P (-1) (-1) Q) q p := by
  have : (fromBlocks P (-1) (-1) Q)ᵀ = fromBlocks P (-1) (-1) Q := by
    rw [fromBlocks_transpose, hP, hQ, transpose_neg, transpose_one]
  conv_lhs => rw [← this]
  rfl

theorem integrable_overlap_of {P Q : Matrix n n ℂ} (hP : Pᵀ = P) (hQ : Qᵀ = Q) (hN : NegRe (fromBlocks P (-1) (-1) Q)) (x y : n → ℂ) :
    Integrable fun u : n → ℂ =>
      Complex.exp (1 / 2 * (u ⬝ᵥ P.mulVec u) + x ⬝ᵥ u) * Complex.exp (1 / 2 * (star u ⬝ᵥ Q.mulVec (star u)) + y ⬝ᵥ star u) *
        Complex.exp (-∑ i, (‖u i‖ : ℂ) ^ 2) := by
  have key := integrable_complex (overlap_symm hP hQ) hN (Sum.elim x y) (D := 0) (fun _ _ => 0) (fun _ => 0) (fun _ _ => 0) 0
    (fun _ _ => rfl)
  simp only [Fock.amp_zero, one_mul] at key
  refine key.congr (.of_forall fun u => ?_)
  dsimp only
  rw [← Complex.exp_add, ← Complex.exp_add]
  refine congrArg Complex.exp ?_
  unfold cform
  rw [overlap_quad]
  have e1 : ∑ p, Sum.elim x y p * pair u p = x ⬝ᵥ u + y ⬝ᵥ star u := by
    rw [Fintype.sum_sum_type]; rfl
  have e2 : u ⬝ᵥ star u = ∑ i, (‖u i‖ : ℂ) ^ 2 := by
    refine Finset.sum_congr rfl fun i _ => ?_
    rw [Pi.star_apply, Complex.star_def, Complex.mul_conj, Complex.normSq_eq_norm_sq]
    push_cast
    rfl
  rw [e1, e2]
  ring

theorem Xmat_elim (s t : n → ℂ) : (Xmat n).mulVec (Sum.elim s t) = Sum.elim t s := by
  unfold Xmat
  rw [fromBlocks_mulVec, Sum.elim_comp_inl, Sum.elim_comp_inr]
  simp

theorem Xmat_T : (Xmat n)ᵀ = Xmat n := by unfold Xmat; rw [fromBlocks_transpose]; simp
theorem Xmat_sq : Xmat n * Xmat n = 1 := by unfold Xmat; rw [fromBlocks_multiply]; simp

/-- The trace of a product as an integral over both arguments. -/
theorem trace_mul_of {A1 A2 : Matrix (n ⊕ n) (n ⊕ n) ℂ} (h1 : A1ᵀ = A1) (h2 : A2ᵀ = A2) (hN : NegRe (fromBlocks A1 (-1) (-1) (Xmat n * A2 * Xmat n)))
    (b1 b2 : n ⊕ n → ℂ) (c1 c2 : ℂ) :
    opTr (opMul (dmFun A1 b1 c1) (dmFun A2 b2 c2)) = c1 * c2 * (((Real.pi : ℂ) ^ Fintype.card (n ⊕ n))⁻¹ * ∫ u : n ⊕ n → ℂ,
      Complex.exp (1 / 2 * (u ⬝ᵥ A1.mulVec u) + b1 ⬝ᵥ u) *
        Complex.exp (1 / 2 * (star u ⬝ᵥ (Xmat n * A2 * Xmat n).mulVec (star u)) + (Xmat n).mulVec b2 ⬝ᵥ star u) *
        Complex.exp (-∑ i, (‖u i‖ : ℂ) ^ 2)) := by
  have hQ : (Xmat n * A2 * Xmat n)ᵀ = Xmat n * A2 * Xmat n := by
    rw [transpose_mul, transpose_mul, Xmat_T, h2, Matrix.mul_assoc]
  have hi := integrable_overlap_of h1 hQ hN b1 ((Xmat n).mulVec b2)
  rw [← double_integral hi]
  unfold opTr opMul
  have e : ∀ t : n → ℂ, ((Real.pi : ℂ) ^ Fintype.card n)⁻¹ * (∫ u : n → ℂ, dmFun A1 b1 c1 t (star u) * dmFun A2 b2 c2 u (star t) *
      Complex.exp (-∑ i, (‖u i‖ : ℂ) ^ 2)) * Complex.exp (-∑ i, (‖t i‖ : ℂ) ^ 2) =
      (((Real.pi : ℂ) ^ Fintype.card n)⁻¹ * (c1 * c2)) * ∫ s : n → ℂ, Complex.exp (1 / 2 * (Sum.elim s t ⬝ᵥ A1.mulVec (Sum.elim s t)) + b1 ⬝ᵥ Sum.elim s t) *
        Complex.exp (1 / 2 * (star (Sum.elim s t) ⬝ᵥ (Xmat n * A2 * Xmat n).mulVec (star (Sum.elim s t))) + (Xmat n).mulVec b2 ⬝ᵥ star (Sum.elim s t)) *
        Complex.exp (-∑ i, (‖(Sum.elim s t : n ⊕ n → ℂ) i‖ : ℂ) ^ 2) := by
    intro t
    rw [← integral_star, mul_assoc, mul_assoc, ← integral_mul_const, ← integral_const_mul (c1 * c2)]
    refine congrArg (HMul.hMul _) (integral_congr_ae (.of_forall fun s => ?_))
    have hst : star (Sum.elim s t : n ⊕ n → ℂ) = Sum.elim (star s) (star t) := by funext r; rcases r with i | i <;> rfl
    have q2 : star (Sum.elim s t) ⬝ᵥ (Xmat n * A2 * Xmat n).mulVec (star (Sum.elim s t)) = Sum.elim (star t) (star s) ⬝ᵥ A2.mulVec (Sum.elim (star t) (star s)) := by
      rw [hst, ← Matrix.mulVec_mulVec, ← Matrix.mulVec_mulVec, Xmat_elim, Matrix.dotProduct_mulVec, ← Matrix.mulVec_transpose, Xmat_T, Xmat_elim]
    have l2 : (Xmat n).mulVec b2 ⬝ᵥ star (Sum.elim s t) = b2 ⬝ᵥ Sum.elim (star t) (star s) := by
      rw [hst, ← Xmat_elim (star s) (star t), Matrix.dotProduct_mulVec b2, ← Matrix.mulVec_transpose, Xmat_T]
    have nrm : ∑ i, (‖(Sum.elim s t : n ⊕ n → ℂ) i‖ : ℂ) ^ 2 = ∑ i, (‖s i‖ : ℂ) ^ 2 + ∑ i, (‖t i‖ : ℂ) ^ 2 := by
      rw [Fintype.sum_sum_type]; rfl
    dsimp only
    rw [q2, l2, nrm, neg_add, Complex.exp_add (-_) (-_)]
    unfold dmFun
    simp only [star_star, Pi.star_apply, norm_star]
    ring
  simp only [e]
  rw [integral_const_mul, Fintype.card_sum, pow_add, mul_inv]
  ring

/-- The trace of a product as an integral over both arguments. -/
theorem trace_mul {A1 A2 : Matrix (n ⊕ n) (n ⊕ n) ℂ} (h1 : A1ᵀ = A1) (h2 : A2ᵀ = A2) (s1 : Shrinks A1) (s2 : Shrinks (Xmat n * A2 * Xmat n))
    (b1 b2 : n ⊕ n → ℂ) (c1 c2 : ℂ) :
    opTr (opMul (dmFun A1 b1 c1) (dmFun A2 b2 c2)) = c1 * c2 * (((Real.pi : ℂ) ^ Fintype.card (n ⊕ n))⁻¹ * ∫ u : n ⊕ n → ℂ,
      Complex.exp (1 / 2 * (u ⬝ᵥ A1.mulVec u) + b1 ⬝ᵥ u) *
        Complex.exp (1 / 2 * (star u ⬝ᵥ (Xmat n * A2 * Xmat n).mulVec (star u)) + (Xmat n).mulVec b2 ⬝ᵥ star u) *
        Complex.exp (-∑ i, (‖u i‖ : ℂ) ^ 2)) :=
  trace_mul_of h1 h2 (overlap_negRe s1 s2) b1 b2 c1 c2

/-! ## Contraction property of states with positive covariance -/

omit [DecidableEq n] in
theorem norm_sum_eq {p : Type*} [Fintype p] (x : p → ℂ) : ((∑ i, ‖x i‖ ^ 2 : ℝ) : ℂ) = star x ⬝ᵥ x := by
  push_cast
  refine Finset.sum_congr rfl fun i _ => ?_
  rw [Pi.star_apply, Complex.star_def, mul_comm, Complex.mul_conj, Complex.normSq_eq_norm_sq]
  push_cast
  rfl

theorem norm_iso {p : Type*} [Fintype p] [DecidableEq p] {U : Matrix p p ℂ} (h : Uᴴ * U = 1) (x : p → ℂ) :
    ∑ i, ‖U.mulVec x i‖ ^ 2 = ∑ i, ‖x i‖ ^ 2 := by
  have : ((∑ i, ‖U.mulVec x i‖ ^ 2 : ℝ) : ℂ) = ((∑ i, ‖x i‖ ^ 2 : ℝ) : ℂ) := by
    rw [norm_sum_eq, norm_sum_eq, Matrix.star_mulVec, ← Matrix.dotProduct_mulVec, Matrix.mulVec_mulVec, h, Matrix.one_mulVec]
  exact_mod_cast this

theorem vac_two {ħ : ℝ} (hħ : 0 < ħ) (cov : Matrix (n ⊕ n) (n ⊕ n) ℝ) : vac ħ cov + vac ħ cov - 1 = (2 / ħ) • cov := by
  unfold vac
  rw [smul_add, smul_smul, show ħ⁻¹ * (ħ / 2) = 1 / 2 by field_simp]
  ext i j
  simp only [Matrix.sub_apply, Matrix.add_apply, Matrix.smul_apply, smul_eq_mul]
  field_simp
  ring

theorem cov_vac_posDef {ħ : ℝ} (hħ : 0 < ħ) {cov : Matrix (n ⊕ n) (n ⊕ n) ℝ} (h : cov.PosDef) : (cov + (ħ / 2) • 1).PosDef :=
  h.add (PosDef.one.smul (half_pos hħ))

theorem shrinks_vac {ħ : ℝ} (hħ : 0 < ħ) {cov : Matrix (n ⊕ n) (n ⊕ n) ℝ} (h : cov.PosDef) : Shrinks (1 - toC (vac ħ cov)⁻¹) := by
  have hV := vac_pos hħ (cov_vac_posDef hħ h)
  have hK : ((2 / ħ : ℝ) • cov).PosDef := h.smul (div_pos two_pos hħ)
  rw [← vac_two hħ] at hK
  set V := vac ħ cov with hVd
  clear_value V
  have hKC := toC_posDef hK
  obtain ⟨v1, v2⟩ := posDef_inv hV
  intro w hw
  set u := (toC V⁻¹).mulVec w with hu
  have hwu : w = (toC V).mulVec u := by rw [hu, Matrix.mulVec_mulVec, ← toC_mul, v1, toC_one, Matrix.one_mulVec]
  clear_value u
  have hu0 : u ≠ 0 := by
    intro e
    rw [e, Matrix.mulVec_zero] at hwu
    exact hw hwu
  have hpos := hKC.dotProduct_mulVec_pos hu0
  have hH : (toC V)ᴴ = toC V := (toC_posDef hV).isHermitian
  have key : ((∑ i, ‖w i‖ ^ 2 - ∑ i, ‖(1 - toC V⁻¹).mulVec w i‖ ^ 2 : ℝ) : ℂ) = star u ⬝ᵥ (toC (V + V - 1)).mulVec u := by
    rw [Complex.ofReal_sub, norm_sum_eq, norm_sum_eq]
    have e1 : (1 - toC V⁻¹).mulVec w = (toC V - 1).mulVec u := by
      rw [Matrix.sub_mulVec, Matrix.one_mulVec, Matrix.sub_mulVec, Matrix.one_mulVec, ← hwu, ← hu]
    rw [e1, hwu, Matrix.star_mulVec, Matrix.star_mulVec, ← Matrix.dotProduct_mulVec, ← Matrix.dotProduct_mulVec, Matrix.mulVec_mulVec,
      Matrix.mulVec_mulVec, ← dotProduct_sub, ← Matrix.sub_mulVec, conjTranspose_sub, hH, conjTranspose_one]
    refine congrArg (fun M : Matrix (n ⊕ n) (n ⊕ n) ℂ => star u ⬝ᵥ M.mulVec u) ?_
    rw [sub_eq_add_neg (V + V), toC_add, toC_add, show toC (-1 : Matrix (n ⊕ n) (n ⊕ n) ℝ) = -1 by
      ext i j; by_cases hij : i = j <;> simp [toC, hij]]
    simp only [Matrix.sub_mul, Matrix.mul_sub, Matrix.one_mul, Matrix.mul_one]
    abel
  rw [← key] at hpos
  have : (0 : ℝ) < ∑ i, ‖w i‖ ^ 2 - ∑ i, ‖(1 - toC V⁻¹).mulVec w i‖ ^ 2 := by exact_mod_cast hpos
  linarith

/-- The matrix `A` in phase space coordinates. -/
theorem rhoA_rot {ħ : ℝ} (hħ : 0 < ħ) {cov : Matrix (n ⊕ n) (n ⊕ n) ℝ} (h : (cov + (ħ / 2) • 1).PosDef) :
    rhoA ħ cov = cj (rotmat n) * (1 - toC (vac ħ cov)⁻¹) * (rotmat n)ᴴ ∧
    Xmat n * rhoA ħ cov * Xmat n = rotmat n * (1 - toC (vac ħ cov)⁻¹) * (rotmat n)ᵀ := by
  have e1 : rhoA ħ cov = cj (rotmat n) * (1 - toC (vac ħ cov)⁻¹) * (rotmat n)ᴴ := by
    rw [rhoA_eq hħ h, (husimiQ_inv hħ h).1, ← Xmat_rot]
    conv_lhs => rw [← rotmat_mul (n := n)]
    simp only [Matrix.mul_sub, Matrix.sub_mul, Matrix.mul_assoc, Matrix.mul_one]
  refine ⟨e1, ?_⟩
  have e2 : (rotmat n)ᴴ * Xmat n = (rotmat n)ᵀ := by
    rw [← cj_transpose', ← Xmat_rot, transpose_mul, Xmat_T, Matrix.mul_assoc, Xmat_sq, Matrix.mul_one]
  rw [e1, ← Xmat_rot, ← e2]
  calc _ = (Xmat n * Xmat n) * rotmat n * (1 - toC (vac ħ cov)⁻¹) * ((rotmat n)ᴴ * Xmat n) := by simp only [Matrix.mul_assoc]
    _ = _ := by rw [Xmat_sq, Matrix.one_mul]

theorem cj_rot_unitary : (cj (rotmat n))ᴴ * cj (rotmat n) = 1 ∧ (rotmat n)ᵀ * cj (rotmat n) = 1 ∧ (rotmat n)ᵀᴴ * (rotmat n)ᵀ = 1 := by
  have h : (rotmat n)ᵀ * cj (rotmat n) = 1 := by
    have := congrArg cj (rotmat_mul' (n := n))
    rwa [cj_mul, cj_conjT, show cj (1 : Matrix (n ⊕ n) (n ⊕ n) ℂ) = 1 by simp [cj]] at this
  refine ⟨by rw [conjT_cj]; exact h, h, ?_⟩
  rw [transpose_conjT]
  exact mul_eq_one_comm.mp h

theorem shrinks_conj {p : Type*} [Fintype p] [DecidableEq p] {U T M : Matrix p p ℂ} (hU : Uᴴ * U = 1) (hT : Tᴴ * T = 1) (h : Shrinks M) :
    Shrinks (U * M * T) := by
  intro w hw
  rw [← Matrix.mulVec_mulVec, ← Matrix.mulVec_mulVec, norm_iso hU, ← norm_iso hT w]
  refine h _ fun e => hw ?_
  have := congrArg (Tᴴ).mulVec e
  rwa [Matrix.mulVec_mulVec, hT, Matrix.one_mulVec, Matrix.mulVec_zero] at this

theorem shrinks_rhoA {ħ : ℝ} (hħ : 0 < ħ) {cov : Matrix (n ⊕ n) (n ⊕ n) ℝ} (h : cov.PosDef) :
    Shrinks (rhoA ħ cov) ∧ Shrinks (Xmat n * rhoA ħ cov * Xmat n) := by
  obtain ⟨e1, e2⟩ := rhoA_rot hħ (cov_vac_posDef hħ h)
  obtain ⟨u1, u2, u3⟩ := cj_rot_unitary (n := n)
  rw [e2, e1]
  refine ⟨shrinks_conj u1 ?_ (shrinks_vac hħ h), shrinks_conj rotmat_mul' u3 (shrinks_vac hħ h)⟩
  rw [conjTranspose_conjTranspose, rotmat_mul]

/-! ## The overlap formula -/

theorem toC_inv_real {p : Type*} (M : Matrix p p ℝ) : cj (toC M) = toC M := by ext; simp [cj, toC]

/-- **C67 (overlap)** The overlap `Tr(ρ₁ρ₂)` of two states built by `DM.from_phase_space` from positive definite covariance matrices is
`ħ^m / √det(cov₁ + cov₂) · exp(-½ (μ₁-μ₂)ᵀ (cov₁+cov₂)⁻¹ (μ₁-μ₂))` times the coefficients. -/
theorem C67_overlap {ħ : ℝ} (hħ : 0 < ħ) {cov1 cov2 : Matrix (n ⊕ n) (n ⊕ n) ℝ} (h1 : cov1.PosDef) (h2 : cov2.PosDef)
    (μ1 μ2 : n ⊕ n → ℝ) (k1 k2 : ℂ) :
    opTr (opMul (dmFromPhaseSpace ħ cov1 μ1 k1) (dmFromPhaseSpace ħ cov2 μ2 k2)) =
      k1 * k2 * (ħ ^ Fintype.card n / Real.sqrt (cov1 + cov2).det *
        Real.exp (-(1 / 2) * ((μ1 - μ2) ⬝ᵥ (cov1 + cov2)⁻¹.mulVec (μ1 - μ2))) : ℝ) := by
  have g1 := cov_vac_posDef hħ h1
  have g2 := cov_vac_posDef hħ h2
  have V1 := vac_pos hħ g1
  have V2 := vac_pos hħ g2
  obtain ⟨i1, j1⟩ := posDef_inv V1
  obtain ⟨i2, j2⟩ := posDef_inv V2
  have hσ : (cov1 + cov2).PosDef := h1.add h2
  have hS : (ħ⁻¹ • (cov1 + cov2)).PosDef := hσ.smul (inv_pos.2 hħ)
  have hSv : vac ħ cov1 + vac ħ cov2 - 1 = ħ⁻¹ • (cov1 + cov2) := by
    unfold vac
    rw [smul_add, smul_add, smul_smul, smul_add, show ħ⁻¹ * (ħ / 2) = 1 / 2 by field_simp]
    ext i j
    simp only [Matrix.sub_apply, Matrix.add_apply, Matrix.smul_apply, smul_eq_mul]
    ring
  obtain ⟨iS, jS⟩ := posDef_inv hS
  obtain ⟨r1, -⟩ := rhoA_rot hħ g1
  obtain ⟨-, r2⟩ := rhoA_rot hħ g2
  have c1 := rhoC_eq hħ g1 μ1
  have c2 := rhoC_eq hħ g2 μ2
  have b1 := rhoB_eq hħ g1 μ1
  have b2 := rhoB_eq hħ g2 μ2
  obtain ⟨sy1, hm1⟩ := rhoA_herm hħ g1
  obtain ⟨sy2, hm2⟩ := rhoA_herm hħ g2
  obtain ⟨sh1, -⟩ := shrinks_rhoA hħ h1
  obtain ⟨-, sh2⟩ := shrinks_rhoA hħ h2
  have hsyQ : (Xmat n * rhoA ħ cov2 * Xmat n)ᵀ = Xmat n * rhoA ħ cov2 * Xmat n := by
    rw [transpose_mul, transpose_mul, Xmat_T, sy2, Matrix.mul_assoc]
  rw [show dmFromPhaseSpace ħ cov1 μ1 k1 = _ from funext fun z => funext fun w => dm_dmFun cov1 μ1 k1 z w,
    show dmFromPhaseSpace ħ cov2 μ2 k2 = _ from funext fun z => funext fun w => dm_dmFun cov2 μ2 k2 z w,
    trace_mul sy1 sy2 sh1 sh2]
  set R := rotmat n
  set v1 := vac ħ cov1
  set v2 := vac ħ cov2
  set T := ħ⁻¹ • (cov1 + cov2)
  have hTC : toC v1 + toC v2 - 1 = toC T := by
    rw [← hSv, sub_eq_add_neg (v1 + v2), toC_add, toC_add, show toC (-1 : Matrix (n ⊕ n) (n ⊕ n) ℝ) = -1 by
      ext i j; by_cases hij : i = j <;> simp [toC, hij], ← sub_eq_add_neg]
  have ci1 : toC v1 * toC v1⁻¹ = 1 := by rw [← toC_mul, i1, toC_one]
  have cj1 : toC v1⁻¹ * toC v1 = 1 := by rw [← toC_mul, j1, toC_one]
  have ci2 : toC v2 * toC v2⁻¹ = 1 := by rw [← toC_mul, i2, toC_one]
  have cj2 : toC v2⁻¹ * toC v2 = 1 := by rw [← toC_mul, j2, toC_one]
  have ciT : toC T * toC T⁻¹ = 1 := by rw [← toC_mul, iS, toC_one]
  have cjT : toC T⁻¹ * toC T = 1 := by rw [← toC_mul, jS, toC_one]
  obtain ⟨-, u2, -⟩ := cj_rot_unitary (n := n)
  have hRR : Rᴴ * R = 1 := rotmat_mul'
  -- the inverse of 1 - QP
  have hQP : 1 - (1 - toC v2⁻¹) * (1 - toC v1⁻¹) = toC v2⁻¹ * toC T * toC v1⁻¹ := by
    rw [← hTC]
    simp only [Matrix.mul_sub, Matrix.sub_mul, Matrix.mul_add, Matrix.add_mul, Matrix.mul_one, Matrix.one_mul, Matrix.mul_assoc, ci1, cj1]
    rw [← Matrix.mul_assoc (toC v2⁻¹) (toC v2), cj2, Matrix.one_mul]
    abel
  have hW : (1 - Xmat n * rhoA ħ cov2 * Xmat n * rhoA ħ cov1) * (R * (toC v1 * toC T⁻¹ * toC v2) * Rᴴ) = 1 := by
    have e : Xmat n * rhoA ħ cov2 * Xmat n * rhoA ħ cov1 = R * ((1 - toC v2⁻¹) * (1 - toC v1⁻¹)) * Rᴴ := by
      rw [r2, r1]
      calc _ = R * (1 - toC v2⁻¹) * (Rᵀ * cj R) * (1 - toC v1⁻¹) * Rᴴ := by simp only [Matrix.mul_assoc]
        _ = _ := by rw [u2, Matrix.mul_one]; simp only [Matrix.mul_assoc]
    have e' : 1 - R * ((1 - toC v2⁻¹) * (1 - toC v1⁻¹)) * Rᴴ = R * (toC v2⁻¹ * toC T * toC v1⁻¹) * Rᴴ := by
      rw [← hQP]
      generalize (1 - toC v2⁻¹) * (1 - toC v1⁻¹) = N
      rw [Matrix.mul_sub, Matrix.sub_mul, Matrix.mul_one, rotmat_mul]
    rw [e, e']
    calc _ = R * (toC v2⁻¹ * toC T * toC v1⁻¹ * (Rᴴ * R) * toC v1 * toC T⁻¹ * toC v2) * Rᴴ := by simp only [Matrix.mul_assoc]
      _ = R * (toC v2⁻¹ * (toC T * (toC v1⁻¹ * toC v1) * toC T⁻¹) * toC v2) * Rᴴ := by rw [hRR, Matrix.mul_one]; simp only [Matrix.mul_assoc]
      _ = 1 := by rw [cj1, Matrix.mul_one, ciT, Matrix.mul_one, cj2, Matrix.mul_one, rotmat_mul]
  rw [gauss_overlap sy1 hsyQ sh1 sh2 hW]
  -- the constant
  have hconst : gaussConst (fromBlocks (rhoA ħ cov1) (-1) (-1) (Xmat n * rhoA ħ cov2 * Xmat n)) =
      ((Real.sqrt (v1.det * T.det⁻¹ * v2.det) : ℝ) : ℂ) := by
    have hX : ∀ M : Matrix (n ⊕ n) (n ⊕ n) ℂ, ∀ p q, (Xmat n * M * Xmat n) p q = M p.swap q.swap := by
      intro M p q
      rcases p with p | p <;> rcases q with q | q <;>
        simp [Xmat, Matrix.mul_apply, Fintype.sum_sum_type, Matrix.one_apply]
    rw [← gaussConst_herm (Equiv.sumComm n n) (overlap_symm sy1 hsyQ) (overlap_negRe sh1 sh2), overlap_det hW, det_mul, det_mul, mul_right_comm,
      ← det_mul, rotmat_mul, det_one, one_mul, det_mul, det_mul, toC_det, toC_det, toC_det, det_nonsing_inv, Ring.inverse_eq_inv']
    · rw [show (1 / 2 : ℂ) = ((1 / 2 : ℝ) : ℂ) by norm_num, ← Complex.ofReal_mul, ← Complex.ofReal_mul, ← Complex.ofReal_cpow,
        ← Real.sqrt_eq_rpow]
      exact mul_nonneg (mul_nonneg V1.det_pos.le (inv_nonneg.2 hS.det_pos.le)) V2.det_pos.le
    · intro p q
      have a1 : ∀ p q, rhoA ħ cov1 p.swap q.swap = (starRingEnd ℂ) (rhoA ħ cov1 p q) := fun p q => by
        have := congrFun (congrFun hm1 p.swap) q.swap
        rw [hX, Sum.swap_swap, Sum.swap_swap] at this
        exact this
      have a2 : ∀ p q, rhoA ħ cov2 p.swap q.swap = (starRingEnd ℂ) (rhoA ħ cov2 p q) := fun p q => by
        have := congrFun (congrFun hm2 p.swap) q.swap
        rw [hX, Sum.swap_swap, Sum.swap_swap] at this
        exact this
      have one : ∀ p q : n ⊕ n, (1 : Matrix (n ⊕ n) (n ⊕ n) ℂ) p.swap q.swap = (starRingEnd ℂ) ((1 : Matrix (n ⊕ n) (n ⊕ n) ℂ) p q) := by
        intro p q
        by_cases h : p = q
        · subst h; simp
        · rw [Matrix.one_apply_ne h, Matrix.one_apply_ne (fun e => h (Sum.swap_leftInverse.injective e)), map_zero]
      rcases p with p | p <;> rcases q with q | q <;>
        simp only [Sum.map_inl, Sum.map_inr, Equiv.sumComm_apply, fromBlocks_apply₁₁, fromBlocks_apply₁₂, fromBlocks_apply₂₁, fromBlocks_apply₂₂,
          Matrix.neg_apply, map_neg, hX, a1, a2, one]
  rw [hconst, b1, b2, r2]
  set m1 : n ⊕ n → ℂ := fun r => (mean ħ μ1 r : ℂ) with hm1'
  set m2 : n ⊕ n → ℂ := fun r => (mean ħ μ2 r : ℂ) with hm2'
  have x1 : (fun r => ((v1⁻¹.mulVec (mean ħ μ1) r : ℝ) : ℂ)) = (toC v1⁻¹).mulVec m1 := (toC_mulVec _ _).symm
  have x2 : (fun r => ((v2⁻¹.mulVec (mean ħ μ2) r : ℝ) : ℂ)) = (toC v2⁻¹).mulVec m2 := (toC_mulVec _ _).symm
  have ky1 : (toC v1⁻¹)ᵀ = toC v1⁻¹ := (posDef_symm V1).2
  have ky2 : (toC v2⁻¹)ᵀ = toC v2⁻¹ := (posDef_symm V2).2
  have kyT : (toC T⁻¹)ᵀ = toC T⁻¹ := (posDef_symm hS).2
  rw [x1, x2]
  have hy : (Xmat n).mulVec ((cj R).mulVec ((toC v2⁻¹).mulVec m2)) = R.mulVec ((toC v2⁻¹).mulVec m2) := by
    rw [Matrix.mulVec_mulVec, ← Xmat_rot, ← Matrix.mul_assoc, Xmat_sq, Matrix.one_mul]
  have kdot : ∀ {K : Matrix (n ⊕ n) (n ⊕ n) ℂ}, Kᵀ = K → ∀ x y, K.mulVec x ⬝ᵥ y = x ⬝ᵥ K.mulVec y := fun hK x y => by
    rw [Matrix.dotProduct_mulVec, ← Matrix.mulVec_transpose, hK]
  have q1 : (cj R).mulVec ((toC v1⁻¹).mulVec m1) ⬝ᵥ (R * (toC v1 * toC T⁻¹ * toC v2) * Rᴴ * (R * (1 - toC v2⁻¹) * Rᵀ)).mulVec
      ((cj R).mulVec ((toC v1⁻¹).mulVec m1)) = m1 ⬝ᵥ (toC v1⁻¹).mulVec m1 - m1 ⬝ᵥ (toC T⁻¹).mulVec m1 := by
    rw [dot_rot, kdot ky1]
    simp only [Matrix.mulVec_mulVec]
    rw [← dotProduct_sub, ← Matrix.sub_mulVec]
    refine congrArg (fun M : Matrix (n ⊕ n) (n ⊕ n) ℂ => m1 ⬝ᵥ M.mulVec m1) ?_
    calc _ = (toC v1⁻¹ * ((Rᴴ * R) * toC v1) * toC T⁻¹ * toC v2) * (Rᴴ * R) * (1 - toC v2⁻¹) * (Rᵀ * cj R) * toC v1⁻¹ := by
          simp only [Matrix.mul_assoc]; rfl
      _ = toC T⁻¹ * (toC v2 * (1 - toC v2⁻¹)) * toC v1⁻¹ := by
          rw [hRR, u2, Matrix.one_mul, cj1, Matrix.mul_one, Matrix.mul_one, Matrix.one_mul]; simp only [Matrix.mul_assoc]
      _ = toC T⁻¹ * (toC T - toC v1) * toC v1⁻¹ := by
          rw [Matrix.mul_sub, Matrix.mul_one, ci2, ← hTC]
          congr 2
          abel
      _ = _ := by rw [Matrix.mul_sub, cjT, Matrix.sub_mul, Matrix.one_mul, Matrix.mul_assoc, ci1, Matrix.mul_one]
  have q2 : (cj R).mulVec ((toC v1⁻¹).mulVec m1) ⬝ᵥ (R * (toC v1 * toC T⁻¹ * toC v2) * Rᴴ).mulVec (R.mulVec ((toC v2⁻¹).mulVec m2)) =
      m1 ⬝ᵥ (toC T⁻¹).mulVec m2 := by
    rw [dot_rot, kdot ky1]
    simp only [Matrix.mulVec_mulVec]
    refine congrArg (fun M : Matrix (n ⊕ n) (n ⊕ n) ℂ => m1 ⬝ᵥ M.mulVec m2) ?_
    calc _ = (toC v1⁻¹ * ((Rᴴ * R) * toC v1)) * toC T⁻¹ * (toC v2 * ((Rᴴ * R) * toC v2⁻¹)) := by simp only [Matrix.mul_assoc]; rfl
      _ = _ := by rw [hRR, Matrix.one_mul, Matrix.one_mul, cj1, ci2, Matrix.one_mul, Matrix.mul_one]
  have q3 : R.mulVec ((toC v2⁻¹).mulVec m2) ⬝ᵥ (rhoA ħ cov1 * (R * (toC v1 * toC T⁻¹ * toC v2) * Rᴴ)).mulVec
      (R.mulVec ((toC v2⁻¹).mulVec m2)) = m2 ⬝ᵥ (toC v2⁻¹).mulVec m2 - m2 ⬝ᵥ (toC T⁻¹).mulVec m2 := by
    have rdot : ∀ x y, R.mulVec x ⬝ᵥ y = x ⬝ᵥ Rᵀ.mulVec y := fun x y => by
      rw [Matrix.dotProduct_mulVec, ← Matrix.mulVec_transpose, transpose_transpose]
    rw [rdot, kdot ky2, r1]
    simp only [Matrix.mulVec_mulVec]
    rw [← dotProduct_sub, ← Matrix.sub_mulVec]
    refine congrArg (fun M : Matrix (n ⊕ n) (n ⊕ n) ℂ => m2 ⬝ᵥ M.mulVec m2) ?_
    calc _ = toC v2⁻¹ * (Rᵀ * cj R) * (1 - toC v1⁻¹) * (Rᴴ * R) * toC v1 * toC T⁻¹ * (toC v2 * ((Rᴴ * R) * toC v2⁻¹)) := by
          simp only [Matrix.mul_assoc]
      _ = toC v2⁻¹ * ((1 - toC v1⁻¹) * toC v1) * toC T⁻¹ := by
          rw [hRR, u2, Matrix.one_mul, ci2, Matrix.mul_one, Matrix.mul_one, Matrix.mul_one]; simp only [Matrix.mul_assoc]
      _ = toC v2⁻¹ * (toC T - toC v2) * toC T⁻¹ := by
          rw [Matrix.sub_mul, Matrix.one_mul, cj1, ← hTC]
          congr 2
          abel
      _ = _ := by rw [Matrix.mul_sub, cj2, Matrix.sub_mul, Matrix.one_mul, Matrix.mul_assoc, ciT, Matrix.mul_one]
  rw [hy, q1, q2, q3, c1, c2]
  -- collect
  have d1 : ((mean ħ μ1 ⬝ᵥ v1⁻¹.mulVec (mean ħ μ1) : ℝ) : ℂ) = m1 ⬝ᵥ (toC v1⁻¹).mulVec m1 := by
    rw [hm1', toC_mulVec]; simp [dotProduct]
  have d2 : ((mean ħ μ2 ⬝ᵥ v2⁻¹.mulVec (mean ħ μ2) : ℝ) : ℂ) = m2 ⬝ᵥ (toC v2⁻¹).mulVec m2 := by
    rw [hm2', toC_mulVec]; simp [dotProduct]
  have hTi : T⁻¹ = ħ • (cov1 + cov2)⁻¹ := by
    refine Matrix.inv_eq_right_inv ?_
    rw [Matrix.smul_mul, Matrix.mul_smul, smul_smul, inv_mul_cancel₀ hħ.ne', one_smul, (posDef_inv hσ).1]
  have d3 : (((μ1 - μ2) ⬝ᵥ (cov1 + cov2)⁻¹.mulVec (μ1 - μ2) : ℝ) : ℂ) =
      m1 ⬝ᵥ (toC T⁻¹).mulVec m1 - 2 * (m1 ⬝ᵥ (toC T⁻¹).mulVec m2) + m2 ⬝ᵥ (toC T⁻¹).mulVec m2 := by
    have e1 : (μ1 - μ2) ⬝ᵥ (cov1 + cov2)⁻¹.mulVec (μ1 - μ2) = (mean ħ μ1 - mean ħ μ2) ⬝ᵥ T⁻¹.mulVec (mean ħ μ1 - mean ħ μ2) := by
      have hmd : mean ħ μ1 - mean ħ μ2 = (Real.sqrt ħ)⁻¹ • (μ1 - μ2) := by
        funext r
        simp only [Pi.sub_apply, mean, Pi.smul_apply, smul_eq_mul]
        ring
      rw [hmd, hTi, Matrix.smul_mulVec, Matrix.mulVec_smul, dotProduct_smul, smul_dotProduct, dotProduct_smul]
      simp only [smul_eq_mul]
      rw [← mul_assoc, ← mul_assoc, show ħ * (Real.sqrt ħ)⁻¹ * (Real.sqrt ħ)⁻¹ = 1 by
        rw [mul_assoc, ← mul_inv, Real.mul_self_sqrt hħ.le, mul_inv_cancel₀ hħ.ne'], one_mul]
    have e2 : (((mean ħ μ1 - mean ħ μ2) ⬝ᵥ T⁻¹.mulVec (mean ħ μ1 - mean ħ μ2) : ℝ) : ℂ) = (m1 - m2) ⬝ᵥ (toC T⁻¹).mulVec (m1 - m2) := by
      have : m1 - m2 = fun r => (((mean ħ μ1 - mean ħ μ2) r : ℝ) : ℂ) := by funext r; simp [hm1', hm2']
      rw [this, toC_mulVec]; simp [dotProduct]
    rw [e1, e2, Matrix.mulVec_sub, dotProduct_sub, sub_dotProduct, sub_dotProduct, symm_dot kyT m2 m1]
    ring
  have hdT : T.det = (ħ ^ Fintype.card n)⁻¹ * (ħ ^ Fintype.card n)⁻¹ * (cov1 + cov2).det := by
    rw [show T = ħ⁻¹ • (cov1 + cov2) from rfl, det_smul, Fintype.card_sum, pow_add, inv_pow]
  have hroot : (Real.sqrt v1.det)⁻¹ * (Real.sqrt v2.det)⁻¹ * Real.sqrt (v1.det * T.det⁻¹ * v2.det) = ħ ^ Fintype.card n / Real.sqrt (cov1 + cov2).det := by
    have p1 := Real.sqrt_pos.2 V1.det_pos
    have p2 := Real.sqrt_pos.2 V2.det_pos
    have pσ := Real.sqrt_pos.2 hσ.det_pos
    have ph : 0 < ħ ^ Fintype.card n := pow_pos hħ _
    rw [Real.sqrt_mul (mul_nonneg V1.det_pos.le (inv_nonneg.2 hS.det_pos.le)), Real.sqrt_mul V1.det_pos.le, Real.sqrt_inv, hdT,
      Real.sqrt_mul (by positivity), Real.sqrt_mul_self (by positivity)]
    field_simp
  rw [← hroot]
  push_cast
  rw [d3, d1, d2]
  set E1 := m1 ⬝ᵥ (toC v1⁻¹).mulVec m1
  set E2 := m2 ⬝ᵥ (toC v2⁻¹).mulVec m2
  set E3 := m1 ⬝ᵥ (toC T⁻¹).mulVec m1
  set E4 := m1 ⬝ᵥ (toC T⁻¹).mulVec m2
  set E5 := m2 ⬝ᵥ (toC T⁻¹).mulVec m2
  rw [show -(1 / 2) * (E3 - 2 * E4 + E5) = -(1 / 2) * E1 + (-(1 / 2) * E2 + (1 / 2 * (E1 - E3) + E4 + 1 / 2 * (E2 - E5))) by ring,
    Complex.exp_add (-(1 / 2) * E1), Complex.exp_add (-(1 / 2) * E2)]
  ring

end Verif.Manifold
