import Verif.Channel

/-!
# The action of Gaussian channels on covariance matrices and means (C73)
-/

namespace Verif.Manifold
open Matrix Verif.Gauss MeasureTheory
open scoped ComplexOrder MatrixOrder

variable {p q : Type*} [Fintype p] [DecidableEq p] [Fintype q] [DecidableEq q]

section Algebra
variable {a b : Type*} [Fintype a] [DecidableEq a] [Fintype b] [DecidableEq b]
  {ξ ξi T Ti : Matrix a a ℂ} {V Vi : Matrix b b ℂ} {X : Matrix a b ℂ} {Y : Matrix b a ℂ}

theorem wb_core (hξ : ξi * ξ = 1) (hT : T * Ti = 1) (hTd : T = ξ + X * (V - 1) * Y) :
    ξi * (X * (V - 1) * Y) * Ti = ξi - Ti := by
  have : X * (V - 1) * Y = T - ξ := by rw [hTd]; abel
  rw [this, Matrix.mul_sub, Matrix.sub_mul, hξ, Matrix.one_mul, Matrix.mul_assoc, hT, Matrix.mul_one]

theorem wb_core' (hξ : ξ * ξi = 1) (hT : Ti * T = 1) (hTd : T = ξ + X * (V - 1) * Y) :
    Ti * (X * (V - 1) * Y) * ξi = ξi - Ti := by
  have : X * (V - 1) * Y = T - ξ := by rw [hTd]; abel
  rw [this, Matrix.mul_sub, Matrix.sub_mul, hT, Matrix.one_mul, Matrix.mul_assoc, hξ, Matrix.mul_one]

/-- The matrix `V (1 - Xᵀ T⁻¹ X (V - 1))`. -/
theorem wb_one (hξ : ξi * ξ = 1) (hT : T * Ti = 1) (hTd : T = ξ + X * (V - 1) * Y) (hV : Vi * V = 1) :
    (1 - (1 - Y * ξi * X) * (1 - Vi)) * (V * (1 - Y * Ti * X * (V - 1))) = 1 := by
  have h := wb_core hξ hT hTd
  have e1 : (1 - (1 - Y * ξi * X) * (1 - Vi)) * V = 1 + Y * ξi * X * (V - 1) := by
    simp only [Matrix.sub_mul, Matrix.mul_sub, Matrix.mul_one, Matrix.one_mul, Matrix.mul_assoc, hV]
    abel
  rw [← Matrix.mul_assoc, e1]
  set D := V - 1
  have e2 : (1 + Y * ξi * X * D) * (1 - Y * Ti * X * D) = 1 + Y * (ξi - Ti - ξi * (X * D * Y) * Ti) * X * D := by
    simp only [Matrix.add_mul, Matrix.sub_mul, Matrix.mul_sub, Matrix.mul_one, Matrix.one_mul, Matrix.mul_assoc]
    abel
  rw [e2, h, sub_self]
  simp

theorem wb_two (hξ : ξ * ξi = 1) (hT : Ti * T = 1) (hTd : T = ξ + X * (V - 1) * Y) (hV : Vi * V = 1) (hV' : V * Vi = 1) :
    Vi * (V * (1 - Y * Ti * X * (V - 1)) * (1 - Y * ξi * X)) * Vi = Vi - Y * Ti * X := by
  have h := wb_core' hξ hT hTd
  have e1 : Vi * (V * (1 - Y * Ti * X * (V - 1)) * (1 - Y * ξi * X)) = (1 - Y * Ti * X * (V - 1)) * (1 - Y * ξi * X) := by
    rw [← Matrix.mul_assoc, ← Matrix.mul_assoc, hV, Matrix.one_mul]
  rw [e1]
  have e2 : (1 - Y * Ti * X * (V - 1)) * (1 - Y * ξi * X) = 1 - Y * Ti * X * (V - 1) - Y * (ξi - Ti * (X * (V - 1) * Y) * ξi) * X := by
    generalize V - 1 = D
    simp only [Matrix.add_mul, Matrix.sub_mul, Matrix.mul_sub, Matrix.mul_one, Matrix.one_mul, Matrix.mul_assoc]
  rw [e2, h]
  simp only [sub_sub_cancel, Matrix.sub_mul, Matrix.mul_sub, Matrix.one_mul, Matrix.mul_one, Matrix.mul_assoc, hV']
  abel

theorem wb_three (hξ : ξ * ξi = 1) (hT : Ti * T = 1) (hTd : T = ξ + X * (V - 1) * Y) (hV : Vi * V = 1) :
    Vi * (V * (1 - Y * Ti * X * (V - 1))) * (Y * ξi) = Y * Ti := by
  have h := wb_core' hξ hT hTd
  rw [← Matrix.mul_assoc Vi V, hV, Matrix.one_mul]
  have e : (1 - Y * Ti * X * (V - 1)) * (Y * ξi) = Y * (ξi - Ti * (X * (V - 1) * Y) * ξi) := by
    generalize V - 1 = D
    simp only [Matrix.sub_mul, Matrix.mul_sub, Matrix.one_mul, Matrix.mul_assoc]
  rw [e, h, sub_sub_cancel]

theorem wb_four (hξ : ξ * ξi = 1) (hξ' : ξi * ξ = 1) (hT : Ti * T = 1) (hTd : T = ξ + X * (V - 1) * Y) (hV : Vi * V = 1) :
    ξi * X * ((1 - Vi) * (V * (1 - Y * Ti * X * (V - 1)))) * (Y * ξi) = ξi - Ti := by
  have h := wb_core' hξ hT hTd
  have e1 : (1 - Vi) * (V * (1 - Y * Ti * X * (V - 1))) = (V - 1) * (1 - Y * Ti * X * (V - 1)) := by
    rw [← Matrix.mul_assoc, Matrix.sub_mul, hV, Matrix.one_mul]
  rw [e1]
  have e : ξi * X * ((V - 1) * (1 - Y * Ti * X * (V - 1))) * (Y * ξi) =
      ξi * (X * (V - 1) * Y) * (ξi - Ti * (X * (V - 1) * Y) * ξi) := by
    generalize V - 1 = D
    simp only [Matrix.sub_mul, Matrix.mul_sub, Matrix.mul_one, Matrix.mul_assoc]
  rw [e, h, sub_sub_cancel, wb_core hξ' (mul_eq_one_comm.mp hT) hTd]

theorem wb_det (hξ : ξi * ξ = 1) (hTd : T = ξ + X * (V - 1) * Y) :
    (1 + Y * ξi * X * (V - 1)).det * ξ.det = T.det := by
  have h1 : T = ξ * (1 + ξi * (X * (V - 1)) * Y) := by
    rw [Matrix.mul_add, Matrix.mul_one, ← Matrix.mul_assoc, ← Matrix.mul_assoc, mul_eq_one_comm.mp hξ, Matrix.one_mul, hTd]
  rw [h1, det_mul, det_one_add_mul_comm (ξi * (X * (V - 1))) Y, mul_comm]
  refine congrArg (fun M : Matrix b b ℂ => ξ.det * (1 + M).det) ?_
  simp only [Matrix.mul_assoc]

end Algebra

theorem toC_conjT {a b : Type*} (M : Matrix a b ℝ) : (toC M)ᴴ = toC Mᵀ := by
  ext i j
  simp only [conjTranspose_apply, toC, Matrix.map_apply, transpose_apply, Complex.star_def, Complex.conj_ofReal]

/-- The input part of the kernel does not expand. -/
theorem weak_shrink {ξ : Matrix (p ⊕ p) (p ⊕ p) ℝ} {X : Matrix (p ⊕ p) (q ⊕ q) ℝ} (hξ : ξ.PosDef) (hN : (ξ - (1 / 2 : ℝ) • (X * Xᵀ)).PosSemidef)
    (w : q ⊕ q → ℂ) : ∑ i, ‖(1 - toC (Xᵀ * ξ⁻¹ * X)).mulVec w i‖ ^ 2 ≤ ∑ i, ‖w i‖ ^ 2 := by
  obtain ⟨i1, j1⟩ := posDef_inv hξ
  have hs : ξ⁻¹ᵀ = ξ⁻¹ := by
    have := hξ.inv.isHermitian
    unfold IsHermitian at this
    rwa [conjTranspose_eq_transpose_of_trivial] at this
  set K := Xᵀ * ξ⁻¹ * X with hK
  have hKs : Kᵀ = K := by rw [hK, transpose_mul, transpose_mul, transpose_transpose, hs, Matrix.mul_assoc]
  have key : (K + K - K * K).PosSemidef := by
    have h1 : K + K - K * K = (Xᵀ * ξ⁻¹) * ((2 : ℝ) • (ξ - (1 / 2 : ℝ) • (X * Xᵀ))) * (Xᵀ * ξ⁻¹)ᴴ := by
      rw [conjTranspose_eq_transpose_of_trivial, transpose_mul, transpose_transpose, hs, smul_sub, smul_smul]
      norm_num
      rw [Matrix.mul_sub, Matrix.sub_mul, two_smul, Matrix.mul_add, Matrix.add_mul]
      have : Xᵀ * ξ⁻¹ * ξ * (ξ⁻¹ * X) = K := by rw [Matrix.mul_assoc Xᵀ, j1, Matrix.mul_one, hK, Matrix.mul_assoc]
      rw [this, hK]
      simp only [Matrix.mul_assoc]
    rw [h1]
    exact (hN.smul (by norm_num)).mul_mul_conjTranspose_same _
  have hc := (toC_posSemidef key).dotProduct_mulVec_nonneg w
  have hreal : (toC (1 - K))ᴴ = toC (1 - K) := by
    have : (1 - K)ᵀ = 1 - K := by rw [transpose_sub, transpose_one, hKs]
    rw [toC_conjT, this]
  have e : ((∑ i, ‖w i‖ ^ 2 - ∑ i, ‖(1 - toC K).mulVec w i‖ ^ 2 : ℝ) : ℂ) = star w ⬝ᵥ (toC (K + K - K * K)).mulVec w := by
    rw [Complex.ofReal_sub, norm_sum_eq, ← toC_one, ← toC_sub, norm_sum_eq, Matrix.star_mulVec, hreal, ← Matrix.dotProduct_mulVec, Matrix.mulVec_mulVec, ← toC_mul,
      ← dotProduct_sub]
    refine congrArg (fun v => star w ⬝ᵥ v) ?_
    have : (1 - K) * (1 - K) = 1 - (K + K - K * K) := by
      simp only [Matrix.sub_mul, Matrix.mul_sub, Matrix.one_mul, Matrix.mul_one]; abel
    rw [this, toC_sub, toC_one, Matrix.sub_mulVec, Matrix.one_mulVec, sub_sub_cancel]
  rw [← e] at hc
  have : (0 : ℝ) ≤ ∑ i, ‖w i‖ ^ 2 - ∑ i, ‖(1 - toC K).mulVec w i‖ ^ 2 := by exact_mod_cast hc
  linarith

theorem out_pos {ξ : Matrix (p ⊕ p) (p ⊕ p) ℝ} {X : Matrix (p ⊕ p) (q ⊕ q) ℝ} (hξ : ξ.PosDef) (hN : (ξ - (1 / 2 : ℝ) • (X * Xᵀ)).PosSemidef)
    {V : Matrix (q ⊕ q) (q ⊕ q) ℝ} (hV : (V - (1 / 2 : ℝ) • 1).PosDef) : (ξ + X * (V - 1) * Xᵀ).PosDef := by
  have e : ξ + X * (V - 1) * Xᵀ = (ξ - (1 / 2 : ℝ) • (X * Xᵀ)) + X * (V - (1 / 2 : ℝ) • 1) * Xᴴ := by
    rw [conjTranspose_eq_transpose_of_trivial]
    simp only [Matrix.mul_sub, Matrix.sub_mul, Matrix.mul_one, Matrix.mul_smul, Matrix.smul_mul]
    ext i j
    simp only [Matrix.add_apply, Matrix.sub_apply, Matrix.smul_apply, smul_eq_mul]
    ring
  have h2 : (X * (V - (1 / 2 : ℝ) • 1) * Xᴴ).PosSemidef := hV.posSemidef.mul_mul_conjTranspose_same X
  have hps : (ξ + X * (V - 1) * Xᵀ).PosSemidef := by rw [e]; exact hN.add h2
  refine PosDef.of_dotProduct_mulVec_pos hps.isHermitian fun x hx => ?_
  rw [e, Matrix.add_mulVec, dotProduct_add]
  have a1 := hN.dotProduct_mulVec_nonneg x
  have a2 := h2.dotProduct_mulVec_nonneg x
  rcases a2.lt_or_eq with h | h
  · exact add_pos_of_nonneg_of_pos a1 h
  · have hX : Xᵀ.mulVec x = 0 := by
      by_contra hne
      have := hV.dotProduct_mulVec_pos hne
      have e2 : star x ⬝ᵥ (X * (V - (1 / 2 : ℝ) • 1) * Xᴴ).mulVec x = star (Xᵀ.mulVec x) ⬝ᵥ (V - (1 / 2 : ℝ) • 1).mulVec (Xᵀ.mulVec x) := by
        rw [Matrix.star_mulVec, conjTranspose_eq_transpose_of_trivial, conjTranspose_eq_transpose_of_trivial, transpose_transpose, ← Matrix.dotProduct_mulVec,
          Matrix.mulVec_mulVec, Matrix.mulVec_mulVec]
      rw [← e2, ← h] at this
      exact lt_irrefl _ this
    rw [← h, add_zero]
    have e3 : (ξ - (1 / 2 : ℝ) • (X * Xᵀ)).mulVec x = ξ.mulVec x := by
      rw [Matrix.sub_mulVec, Matrix.smul_mulVec, ← Matrix.mulVec_mulVec, hX, Matrix.mulVec_zero, smul_zero, sub_zero]
    rw [e3]
    exact hξ.dotProduct_mulVec_pos hx

/-- The action of a Gaussian channel in units of `ħ`. -/
theorem applyCh_gauss {ħ : ℝ} (hħ : 0 < ħ) {ξ : Matrix (p ⊕ p) (p ⊕ p) ℝ} {X : Matrix (p ⊕ p) (q ⊕ q) ℝ} (hξ : ξ.PosDef)
    (hN : (ξ - (1 / 2 : ℝ) • (X * Xᵀ)).PosSemidef) (δ : p ⊕ p → ℝ) {cov : Matrix (q ⊕ q) (q ⊕ q) ℝ} (h : cov.PosDef) (μ : q ⊕ q → ℝ) (k : ℂ) (z w : p → ℂ) :
    applyCh (gaussCh ξ X δ) (dmFromPhaseSpace ħ cov μ k) z w =
      k * hus (ξ + X * (vac ħ cov - 1) * Xᵀ) (X.mulVec (mean ħ μ) + δ) ((rotmat p)ᴴ.mulVec (Sum.elim w z)) *
        Complex.exp (1 / 2 * ((rotmat p)ᴴ.mulVec (Sum.elim w z) ⬝ᵥ (rotmat p)ᴴ.mulVec (Sum.elim w z))) := by
  have g := cov_vac_posDef hħ h
  have Vp := vac_pos hħ g
  set V := vac ħ cov with hVd
  have hV2 : (V - (1 / 2 : ℝ) • 1).PosDef := by
    have : V - (1 / 2 : ℝ) • 1 = ħ⁻¹ • cov := by
      rw [hVd]
      unfold vac
      rw [smul_add, smul_smul, show ħ⁻¹ * (ħ / 2) = 1 / 2 by field_simp, add_sub_cancel_right]
    rw [this]
    exact h.smul (inv_pos.2 hħ)
  have Tp := out_pos hξ hN hV2
  set T := ξ + X * (V - 1) * Xᵀ with hTd
  obtain ⟨iξ, jξ⟩ := posDef_inv hξ
  obtain ⟨iV, jV⟩ := posDef_inv Vp
  obtain ⟨iT, jT⟩ := posDef_inv Tp
  have ciξ : toC ξ * toC ξ⁻¹ = 1 := by rw [← toC_mul, iξ, toC_one]
  have cjξ : toC ξ⁻¹ * toC ξ = 1 := by rw [← toC_mul, jξ, toC_one]
  have ciV : toC V * toC V⁻¹ = 1 := by rw [← toC_mul, iV, toC_one]
  have cjV : toC V⁻¹ * toC V = 1 := by rw [← toC_mul, jV, toC_one]
  have ciT : toC T * toC T⁻¹ = 1 := by rw [← toC_mul, iT, toC_one]
  have cjT : toC T⁻¹ * toC T = 1 := by rw [← toC_mul, jT, toC_one]
  have cTd : toC T = toC ξ + toC X * (toC V - 1) * (toC X)ᵀ := by
    rw [hTd, toC_add, toC_mul, toC_mul, toC_sub, toC_one]; rfl
  have syξ := (posDef_symm hξ).2
  have syV := (posDef_symm Vp).2
  have syT := (posDef_symm Tp).2
  set η := (rotmat p)ᴴ.mulVec (Sum.elim w z) with hη
  set δc : p ⊕ p → ℂ := fun r => (δ r : ℂ) with hδc
  set m : q ⊕ q → ℂ := fun r => (mean ħ μ r : ℂ) with hm
  -- the channel as an operator of its inputs
  set K := (toC X)ᵀ * toC ξ⁻¹ * toC X with hK
  have hKreal : K = toC (Xᵀ * ξ⁻¹ * X) := by rw [toC_mul, toC_mul]; rfl
  have hKs : Kᵀ = K := by rw [hK, transpose_mul, transpose_mul, transpose_transpose, syξ, Matrix.mul_assoc]
  set ℓ := ((toC X)ᵀ * toC ξ⁻¹).mulVec (η - δc) with hℓ
  set C := ((Real.sqrt ξ.det)⁻¹ : ℝ) * Complex.exp (-(1 / 2) * ((η - δc) ⬝ᵥ (toC ξ⁻¹).mulVec (η - δc))) * Complex.exp (1 / 2 * (η ⬝ᵥ η)) with hC
  set A2 := cj (rotmat q) * (1 - K) * (rotmat q)ᴴ with hA2
  set b2 := (cj (rotmat q)).mulVec ℓ with hb2
  have hΦ : ∀ z' w' : q → ℂ, gaussCh ξ X δ z z' w w' = dmFun A2 b2 C w' z' := by
    intro z' w'
    unfold gaussCh dmFun hus
    dsimp only
    rw [← hη, ← hδc]
    set η' := (rotmat q)ᴴ.mulVec (Sum.elim z' w') with hη'
    have q1 : Sum.elim z' w' ⬝ᵥ A2.mulVec (Sum.elim z' w') = η' ⬝ᵥ η' - η' ⬝ᵥ K.mulVec η' := by
      rw [hA2, ← Matrix.mulVec_mulVec, ← Matrix.mulVec_mulVec, ← hη', dotProduct_comm, dot_rot, ← hη', Matrix.sub_mulVec, Matrix.one_mulVec, sub_dotProduct,
        dotProduct_comm (K.mulVec η')]
    have q2 : b2 ⬝ᵥ Sum.elim z' w' = η' ⬝ᵥ ℓ := by rw [hb2, dot_rot, ← hη', dotProduct_comm]
    have q3 : η' ⬝ᵥ K.mulVec η' = (toC X).mulVec η' ⬝ᵥ (toC ξ⁻¹).mulVec ((toC X).mulVec η') := by
      rw [hK, Matrix.mul_assoc, ← Matrix.mulVec_mulVec, Matrix.dotProduct_mulVec, Matrix.vecMul_transpose, ← Matrix.mulVec_mulVec]
    have q4 : η' ⬝ᵥ ℓ = (toC X).mulVec η' ⬝ᵥ (toC ξ⁻¹).mulVec (η - δc) := by
      rw [hℓ, ← Matrix.mulVec_mulVec, Matrix.dotProduct_mulVec, Matrix.vecMul_transpose]
    have hx : ∀ s a b c : ℂ, s * Complex.exp a * Complex.exp b * Complex.exp c = s * Complex.exp (a + b + c) := by
      intro s a b c
      rw [Complex.exp_add, Complex.exp_add]; ring
    rw [q1, q2, q3, q4, hC, hx, hx]
    refine congrArg (HMul.hMul _) (congrArg Complex.exp ?_)
    have e : η - (toC X).mulVec η' - δc = (η - δc) - (toC X).mulVec η' := by abel
    rw [e]
    generalize η - δc = ζ
    generalize (toC X).mulVec η' = x
    simp only [Matrix.mulVec_sub, dotProduct_sub, sub_dotProduct]
    rw [symm_dot syξ ζ x]
    ring
  have hap : applyCh (gaussCh ξ X δ) (dmFromPhaseSpace ħ cov μ k) z w = opTr (opMul (dmFromPhaseSpace ħ cov μ k) (dmFun A2 b2 C)) := by
    unfold applyCh opTr opMul
    refine congrArg (HMul.hMul _) (integral_congr_ae (.of_forall fun u => ?_))
    dsimp only
    refine congrArg (· * _) (congrArg (HMul.hMul _) ?_)
    rw [← integral_star]
    refine integral_congr_ae (.of_forall fun v => ?_)
    dsimp only
    rw [hΦ, star_star]
    simp only [Pi.star_apply, norm_star]
    ring
  have hA2s : A2ᵀ = A2 := by
    rw [hA2, transpose_mul, transpose_mul, conjT_transpose, cj_transpose', transpose_sub, transpose_one, hKs, Matrix.mul_assoc]
  obtain ⟨sy1, hm1⟩ := rhoA_herm hħ g
  obtain ⟨sh1, -⟩ := shrinks_rhoA hħ h
  obtain ⟨r1, -⟩ := rhoA_rot hħ g
  obtain ⟨u1, u2, u3⟩ := cj_rot_unitary (n := q)
  have hRR : (rotmat q)ᴴ * rotmat q = 1 := rotmat_mul'
  have hXR : Xmat q * cj (rotmat q) = rotmat q := by rw [← Xmat_rot, ← Matrix.mul_assoc, Xmat_sq, Matrix.one_mul]
  have hRX : (rotmat q)ᴴ * Xmat q = (rotmat q)ᵀ := by
    rw [← cj_transpose', ← Xmat_rot, transpose_mul, Xmat_T, Matrix.mul_assoc, Xmat_sq, Matrix.mul_one]
  set Q := Xmat q * A2 * Xmat q with hQ
  have hQe : Q = rotmat q * (1 - K) * (rotmat q)ᵀ := by
    rw [hQ, hA2, ← hRX]
    calc _ = (Xmat q * cj (rotmat q)) * (1 - K) * ((rotmat q)ᴴ * Xmat q) := by simp only [Matrix.mul_assoc]
      _ = _ := by rw [hXR]
  have hQs : Qᵀ = Q := by rw [hQ, transpose_mul, transpose_mul, Xmat_T, hA2s, ← Matrix.mul_assoc (Xmat q)]
  have hweak : ∀ v : q ⊕ q → ℂ, ∑ i, ‖Q.mulVec v i‖ ^ 2 ≤ ∑ i, ‖v i‖ ^ 2 := by
    intro v
    rw [hQe, ← Matrix.mulVec_mulVec, ← Matrix.mulVec_mulVec, norm_iso hRR, ← norm_iso u3 v, hKreal]
    exact weak_shrink hξ hN _
  have hNeg := overlap_negRe' sh1 hweak
  set N := toC V * (1 - (toC X)ᵀ * toC T⁻¹ * toC X * (toC V - 1)) with hNd
  have hW : (1 - Q * rhoA ħ cov) * (rotmat q * N * (rotmat q)ᴴ) = 1 := by
    have e : Q * rhoA ħ cov = rotmat q * ((1 - K) * (1 - toC V⁻¹)) * (rotmat q)ᴴ := by
      rw [hQe, r1]
      calc _ = rotmat q * (1 - K) * ((rotmat q)ᵀ * cj (rotmat q)) * (1 - toC V⁻¹) * (rotmat q)ᴴ := by simp only [Matrix.mul_assoc, hVd]
        _ = _ := by rw [u2, Matrix.mul_one]; simp only [Matrix.mul_assoc]
    have e' : 1 - rotmat q * ((1 - K) * (1 - toC V⁻¹)) * (rotmat q)ᴴ = rotmat q * (1 - (1 - K) * (1 - toC V⁻¹)) * (rotmat q)ᴴ := by
      generalize (1 - K) * (1 - toC V⁻¹) = M
      rw [Matrix.mul_sub, Matrix.sub_mul, Matrix.mul_one, rotmat_mul]
    have key := wb_one cjξ ciT cTd cjV
    rw [← hK, ← hNd] at key
    rw [e, e']
    calc _ = rotmat q * ((1 - (1 - K) * (1 - toC V⁻¹)) * ((rotmat q)ᴴ * rotmat q) * N) * (rotmat q)ᴴ := by simp only [Matrix.mul_assoc]
      _ = 1 := by rw [hRR, Matrix.mul_one, key, Matrix.mul_one, rotmat_mul]
  rw [hap, show dmFromPhaseSpace ħ cov μ k = _ from funext fun z => funext fun w => dm_dmFun cov μ k z w, trace_mul_of sy1 hA2s hNeg,
    gauss_overlap_of sy1 hQs hNeg hW]
  have hdetN : (rotmat q * N * (rotmat q)ᴴ).det = ((V.det * ξ.det * T.det⁻¹ : ℝ) : ℂ) := by
    have d0 := wb_det cjξ cTd
    have key := wb_one cjξ ciT cTd cjV
    rw [← hK, ← hNd] at key
    have e1 : (1 - (1 - K) * (1 - toC V⁻¹)) * toC V = 1 + K * (toC V - 1) := by
      simp only [Matrix.sub_mul, Matrix.mul_sub, Matrix.mul_one, Matrix.one_mul, Matrix.mul_assoc, cjV]
      abel
    have d1 := congrArg det e1
    have d2 := congrArg det key
    rw [det_mul] at d1
    rw [det_mul, det_one] at d2
    rw [det_mul, det_mul, mul_right_comm, ← det_mul, rotmat_mul, det_one, one_mul]
    rw [← hK, ← d1, toC_det, toC_det, toC_det] at d0
    have hT0 : (T.det : ℂ) ≠ 0 := by exact_mod_cast Tp.det_pos.ne'
    push_cast
    field_simp
    rw [← d0]
    linear_combination (V.det * ξ.det : ℂ) * d2
  have hconst : gaussConst (fromBlocks (rhoA ħ cov) (-1) (-1) Q) = ((Real.sqrt (V.det * ξ.det * T.det⁻¹) : ℝ) : ℂ) := by
    have hX : ∀ M : Matrix (q ⊕ q) (q ⊕ q) ℂ, ∀ r s, (Xmat q * M * Xmat q) r s = M r.swap s.swap := by
      intro M r s
      rcases r with r | r <;> rcases s with s | s <;>
        simp [Xmat, Matrix.mul_apply, Fintype.sum_sum_type, Matrix.one_apply]
    have hm2 : A2 = Xmat q * cj A2 * Xmat q := by
      have hKc : cj (1 - K) = 1 - K := by rw [hKreal, ← toC_one, ← toC_sub, toC_inv_real]
      rw [hA2, cj_mul, cj_mul, hKc, cj_cj, cj_conjT, ← hRX]
      calc _ = cj (rotmat q) * (1 - K) * ((rotmat q)ᴴ * 1) := by rw [Matrix.mul_one]
        _ = cj (rotmat q) * (1 - K) * ((rotmat q)ᴴ * (Xmat q * Xmat q)) := by rw [Xmat_sq]
        _ = (Xmat q * rotmat q) * (1 - K) * ((rotmat q)ᴴ * (Xmat q * Xmat q)) := by rw [Xmat_rot]
        _ = _ := by simp only [Matrix.mul_assoc]
    rw [← gaussConst_herm (Equiv.sumComm q q) (overlap_symm sy1 hQs) hNeg, overlap_det hW, hdetN]
    · rw [show (1 / 2 : ℂ) = ((1 / 2 : ℝ) : ℂ) by norm_num, ← Complex.ofReal_cpow, ← Real.sqrt_eq_rpow]
      exact mul_nonneg (mul_nonneg Vp.det_pos.le hξ.det_pos.le) (inv_nonneg.2 Tp.det_pos.le)
    · intro r s
      have a1 : ∀ r s, rhoA ħ cov r.swap s.swap = (starRingEnd ℂ) (rhoA ħ cov r s) := fun r s => by
        have := congrFun (congrFun hm1 r.swap) s.swap
        rw [hX, Sum.swap_swap, Sum.swap_swap] at this
        exact this
      have a2 : ∀ r s, A2 r.swap s.swap = (starRingEnd ℂ) (A2 r s) := fun r s => by
        have := congrFun (congrFun hm2 r.swap) s.swap
        rw [hX, Sum.swap_swap, Sum.swap_swap] at this
        exact this
      have one : ∀ r s : q ⊕ q, (1 : Matrix (q ⊕ q) (q ⊕ q) ℂ) r.swap s.swap = (starRingEnd ℂ) ((1 : Matrix (q ⊕ q) (q ⊕ q) ℂ) r s) := by
        intro r s
        by_cases h : r = s
        · subst h; simp
        · rw [Matrix.one_apply_ne h, Matrix.one_apply_ne (fun e => h (Sum.swap_leftInverse.injective e)), map_zero]
      rcases r with r | r <;> rcases s with s | s <;>
        simp only [Sum.map_inl, Sum.map_inr, Equiv.sumComm_apply, fromBlocks_apply₁₁, fromBlocks_apply₁₂, fromBlocks_apply₂₁, fromBlocks_apply₂₂,
          Matrix.neg_apply, map_neg, hQ, hX, a1, a2, one]
  have b1 := rhoB_eq hħ g μ
  rw [toC_mulVec_real, ← hVd, ← hm] at b1
  have c1 : rhoC ħ cov μ = ((Real.sqrt V.det)⁻¹ : ℝ) * Complex.exp (-(1 / 2) * (m ⬝ᵥ (toC V⁻¹).mulVec m)) := by
    rw [rhoC_eq hħ g, ← hVd, ← toC_mulVec_real]
    push_cast
    refine congrArg (HMul.hMul _) (congrArg Complex.exp (congrArg (HMul.hMul _) ?_))
    simp [dotProduct, hm]
  have y1 : (Xmat q).mulVec b2 = (rotmat q).mulVec ℓ := by rw [hb2, Matrix.mulVec_mulVec, hXR]
  rw [hconst, y1, b1, c1]
  set a := (toC V⁻¹).mulVec m with ha
  have t1 : (cj (rotmat q)).mulVec a ⬝ᵥ (rotmat q * N * (rotmat q)ᴴ * Q).mulVec ((cj (rotmat q)).mulVec a) =
      m ⬝ᵥ (toC V⁻¹).mulVec m - (toC X).mulVec m ⬝ᵥ (toC T⁻¹).mulVec ((toC X).mulVec m) := by
    have e : (rotmat q)ᴴ * (rotmat q * N * (rotmat q)ᴴ * Q) * cj (rotmat q) = N * (1 - K) := by
      rw [hQe]
      calc _ = ((rotmat q)ᴴ * rotmat q) * N * ((rotmat q)ᴴ * rotmat q) * (1 - K) * ((rotmat q)ᵀ * cj (rotmat q)) := by simp only [Matrix.mul_assoc]
        _ = _ := by rw [hRR, u2, Matrix.one_mul, Matrix.mul_one, Matrix.mul_one]
    rw [dot_rot, Matrix.mulVec_mulVec, Matrix.mulVec_mulVec, e, ha, Matrix.mulVec_mulVec]
    have key := wb_two ciξ cjT cTd cjV ciV
    rw [← hK, ← hNd] at key
    have e2 : (toC V⁻¹).mulVec m ⬝ᵥ (N * (1 - K) * toC V⁻¹).mulVec m = m ⬝ᵥ (toC V⁻¹ * (N * (1 - K)) * toC V⁻¹).mulVec m := by
      rw [Matrix.mul_assoc (toC V⁻¹), ← Matrix.mulVec_mulVec m (toC V⁻¹), Matrix.dotProduct_mulVec m, ← Matrix.mulVec_transpose, syV]
    rw [e2, key, Matrix.sub_mulVec, dotProduct_sub, Matrix.mul_assoc, ← Matrix.mulVec_mulVec, Matrix.dotProduct_mulVec m (toC X)ᵀ, Matrix.vecMul_transpose,
      ← Matrix.mulVec_mulVec]
  have t2 : (cj (rotmat q)).mulVec a ⬝ᵥ (rotmat q * N * (rotmat q)ᴴ).mulVec ((rotmat q).mulVec ℓ) = (toC X).mulVec m ⬝ᵥ (toC T⁻¹).mulVec (η - δc) := by
    have e : (rotmat q)ᴴ * (rotmat q * N * (rotmat q)ᴴ) * rotmat q = N := by
      calc _ = ((rotmat q)ᴴ * rotmat q) * N * ((rotmat q)ᴴ * rotmat q) := by simp only [Matrix.mul_assoc]
        _ = _ := by rw [hRR, Matrix.one_mul, Matrix.mul_one]
    have key := wb_three ciξ cjT cTd cjV
    rw [← hNd] at key
    rw [dot_rot, Matrix.mulVec_mulVec, Matrix.mulVec_mulVec, e, ha, hℓ, Matrix.mulVec_mulVec]
    have e2 : (toC V⁻¹).mulVec m ⬝ᵥ (N * ((toC X)ᵀ * toC ξ⁻¹)).mulVec (η - δc) = m ⬝ᵥ (toC V⁻¹ * N * ((toC X)ᵀ * toC ξ⁻¹)).mulVec (η - δc) := by
      rw [Matrix.mul_assoc (toC V⁻¹), ← Matrix.mulVec_mulVec (η - δc) (toC V⁻¹), Matrix.dotProduct_mulVec m, ← Matrix.mulVec_transpose, syV]
    rw [e2, key, ← Matrix.mulVec_mulVec, Matrix.dotProduct_mulVec m (toC X)ᵀ, Matrix.vecMul_transpose]
  have t3 : (rotmat q).mulVec ℓ ⬝ᵥ (rhoA ħ cov * (rotmat q * N * (rotmat q)ᴴ)).mulVec ((rotmat q).mulVec ℓ) =
      (η - δc) ⬝ᵥ (toC ξ⁻¹).mulVec (η - δc) - (η - δc) ⬝ᵥ (toC T⁻¹).mulVec (η - δc) := by
    have e : rhoA ħ cov * (rotmat q * N * (rotmat q)ᴴ) * rotmat q = cj (rotmat q) * ((1 - toC V⁻¹) * N) := by
      rw [r1, ← hVd]
      calc _ = cj (rotmat q) * (1 - toC V⁻¹) * ((rotmat q)ᴴ * rotmat q) * N * ((rotmat q)ᴴ * rotmat q) := by simp only [Matrix.mul_assoc]
        _ = _ := by rw [hRR, Matrix.mul_one, Matrix.mul_one]; simp only [Matrix.mul_assoc]
    have key := wb_four ciξ cjξ cjT cTd cjV
    rw [← hNd] at key
    rw [Matrix.mulVec_mulVec ℓ (rhoA ħ cov * _) (rotmat q), e, ← Matrix.mulVec_mulVec ℓ (cj (rotmat q)), dotProduct_comm, dot_rot, Matrix.mulVec_mulVec ℓ (rotmat q)ᴴ, hRR,
      Matrix.one_mulVec, dotProduct_comm, hℓ, Matrix.mulVec_mulVec]
    have e2 : ((toC X)ᵀ * toC ξ⁻¹).mulVec (η - δc) ⬝ᵥ ((1 - toC V⁻¹) * N * ((toC X)ᵀ * toC ξ⁻¹)).mulVec (η - δc) =
        (η - δc) ⬝ᵥ (toC ξ⁻¹ * toC X * ((1 - toC V⁻¹) * N) * ((toC X)ᵀ * toC ξ⁻¹)).mulVec (η - δc) := by
      rw [Matrix.mul_assoc (toC ξ⁻¹ * toC X), ← Matrix.mulVec_mulVec (η - δc) (toC ξ⁻¹ * toC X), Matrix.dotProduct_mulVec (η - δc) (toC ξ⁻¹ * toC X),
        ← Matrix.mulVec_transpose, transpose_mul, syξ]
    rw [e2, key, Matrix.sub_mulVec, dotProduct_sub]
  rw [t1, t2, t3, hC]
  have hmu : (fun r => (((X.mulVec (mean ħ μ) + δ) r : ℝ) : ℂ)) = (toC X).mulVec m + δc := by
    rw [hm, ← toC_mulVec_real]
    funext r
    simp [hδc]
  unfold hus
  rw [hmu, show η - ((toC X).mulVec m + δc) = (η - δc) - (toC X).mulVec m by abel]
  generalize η - δc = ζ
  generalize (toC X).mulVec m = x
  simp only [Matrix.mulVec_sub, dotProduct_sub, sub_dotProduct]
  rw [symm_dot syT ζ x]
  generalize m ⬝ᵥ (toC V⁻¹).mulVec m = s1
  generalize ζ ⬝ᵥ (toC ξ⁻¹).mulVec ζ = s2
  generalize x ⬝ᵥ (toC T⁻¹).mulVec ζ = s3
  generalize x ⬝ᵥ (toC T⁻¹).mulVec x = s4
  generalize ζ ⬝ᵥ (toC T⁻¹).mulVec ζ = s5
  generalize η ⬝ᵥ η = s6
  have hsq : Real.sqrt (V.det * ξ.det * T.det⁻¹) = Real.sqrt V.det * Real.sqrt ξ.det * (Real.sqrt T.det)⁻¹ := by
    rw [Real.sqrt_mul (mul_nonneg Vp.det_pos.le hξ.det_pos.le), Real.sqrt_mul Vp.det_pos.le, Real.sqrt_inv]
  have hv : ((Real.sqrt V.det : ℝ) : ℂ) ≠ 0 := by rw [Complex.ofReal_ne_zero]; exact (Real.sqrt_pos.2 Vp.det_pos).ne'
  have hx : ((Real.sqrt ξ.det : ℝ) : ℂ) ≠ 0 := by rw [Complex.ofReal_ne_zero]; exact (Real.sqrt_pos.2 hξ.det_pos).ne'
  rw [hsq]
  have hexp : Complex.exp (-(1 / 2) * s1) * (Complex.exp (-(1 / 2) * s2) * Complex.exp (1 / 2 * s6)) *
      Complex.exp (1 / 2 * (s1 - s4) + s3 + 1 / 2 * (s2 - s5)) = Complex.exp (-(1 / 2) * (s5 - s3 - (s3 - s4))) * Complex.exp (1 / 2 * s6) := by
    rw [← Complex.exp_add, ← Complex.exp_add, ← Complex.exp_add, ← Complex.exp_add]
    refine congrArg Complex.exp ?_
    ring
  push_cast
  calc _ = k * ((Real.sqrt T.det : ℝ) : ℂ)⁻¹ * (((Real.sqrt V.det : ℝ) : ℂ)⁻¹ * ((Real.sqrt V.det : ℝ) : ℂ)) * (((Real.sqrt ξ.det : ℝ) : ℂ)⁻¹ * ((Real.sqrt ξ.det : ℝ) : ℂ)) *
      (Complex.exp (-(1 / 2) * s1) * (Complex.exp (-(1 / 2) * s2) * Complex.exp (1 / 2 * s6)) *
        Complex.exp (1 / 2 * (s1 - s4) + s3 + 1 / 2 * (s2 - s5))) := by ring
    _ = _ := by rw [hexp, inv_mul_cancel₀ hv, inv_mul_cancel₀ hx]; ring

theorem vac_out {ħ : ℝ} (hħ : 0 < ħ) (X : Matrix (p ⊕ p) (q ⊕ q) ℝ) (Y : Matrix (p ⊕ p) (p ⊕ p) ℝ) (cov : Matrix (q ⊕ q) (q ⊕ q) ℝ) :
    xyXi ħ X Y + X * (vac ħ cov - 1) * Xᵀ = vac ħ (X * cov * Xᵀ + Y) := by
  have e : X * (vac ħ cov - 1) * Xᵀ = ħ⁻¹ • (X * cov * Xᵀ) - (1 / 2 : ℝ) • (X * Xᵀ) := by
    unfold vac
    rw [smul_add, smul_smul, show ħ⁻¹ * (ħ / 2) = 1 / 2 by field_simp]
    rw [show ħ⁻¹ • cov + (1 / 2 : ℝ) • (1 : Matrix (q ⊕ q) (q ⊕ q) ℝ) - 1 = ħ⁻¹ • cov - (1 / 2 : ℝ) • 1 by
      ext i j; simp only [Matrix.add_apply, Matrix.sub_apply, Matrix.smul_apply, smul_eq_mul]; ring]
    simp only [Matrix.mul_sub, Matrix.sub_mul, Matrix.mul_smul, Matrix.smul_mul, Matrix.mul_one]
  rw [e]
  unfold xyXi vac
  ext i j
  simp only [Matrix.add_apply, Matrix.sub_apply, Matrix.smul_apply, smul_eq_mul, Matrix.map_apply]
  field_simp
  ring

theorem mean_smul {a : Type*} (ħ : ℝ) (v : a ⊕ a → ℝ) : mean ħ v = (Real.sqrt ħ)⁻¹ • v := by
  funext r
  simp [mean, div_eq_inv_mul]

theorem mean_lin (ħ : ℝ) (X : Matrix (p ⊕ p) (q ⊕ q) ℝ) (μ : q ⊕ q → ℝ) (d : p ⊕ p → ℝ) : X.mulVec (mean ħ μ) + mean ħ d = mean ħ (X.mulVec μ + d) := by
  rw [mean_smul, mean_smul, mean_smul, Matrix.mulVec_smul, smul_add]

theorem xyXi_noise {ħ : ℝ} (hħ : 0 < ħ) (X : Matrix (p ⊕ p) (q ⊕ q) ℝ) {Y : Matrix (p ⊕ p) (p ⊕ p) ℝ} (hY : Y.PosSemidef) :
    (xyXi ħ X Y - (1 / 2 : ℝ) • (X * Xᵀ)).PosSemidef := by
  have h3 : (Y.map (· / ħ)).PosSemidef := by
    have : Y.map (· / ħ) = ħ⁻¹ • Y := by ext i j; simp [div_eq_inv_mul]
    rw [this]
    exact hY.smul (inv_nonneg.2 hħ.le)
  have e : xyXi ħ X Y - (1 / 2 : ℝ) • (X * Xᵀ) = (1 / 2 : ℝ) • 1 + Y.map (· / ħ) := by unfold xyXi; abel
  rw [e]
  exact (PosSemidef.one.smul (by norm_num)).add h3

/-- `from_XY` without displacement is a Gaussian channel. -/
theorem fromXY_zero {ħ : ℝ} (hħ : 0 < ħ) {X : Matrix (p ⊕ p) (q ⊕ q) ℝ} {Y : Matrix (p ⊕ p) (p ⊕ p) ℝ} (hξ : (xyXi ħ X Y).PosDef) :
    fromXY ħ X Y 0 = gaussCh (xyXi ħ X Y) X 0 := by
  have h0 : mean ħ (0 : p ⊕ p → ℝ) = 0 := by funext r; simp [mean]
  funext z z' w w'
  rw [fromXY_eq hħ hξ, h0]
  have : (fun r => (((0 : p ⊕ p → ℝ) r : ℝ) : ℂ)) = 0 := by funext r; simp
  rw [this, Matrix.mulVec_zero, dotProduct_zero, mul_zero, Complex.exp_zero, mul_one]

/-- **C73 (action)** The channel built by `Channel.from_XY` without displacement maps the state with covariance matrix `cov` and means `μ` to the state with
covariance matrix `X cov Xᵀ + Y` and means `X μ`, whatever the (positive definite) covariance matrix, the means and the coefficient. -/
theorem C73_action {ħ : ℝ} (hħ : 0 < ħ) (X : Matrix (p ⊕ p) (q ⊕ q) ℝ) {Y : Matrix (p ⊕ p) (p ⊕ p) ℝ} (hY : Y.PosSemidef) {cov : Matrix (q ⊕ q) (q ⊕ q) ℝ}
    (h : cov.PosDef) (μ : q ⊕ q → ℝ) (k : ℂ) (z w : p → ℂ) :
    applyCh (fromXY ħ X Y 0) (dmFromPhaseSpace ħ cov μ k) z w = dmFromPhaseSpace ħ (X * cov * Xᵀ + Y) (X.mulVec μ) k z w := by
  have hξ := xyXi_pos hħ X hY
  have hout : (X * cov * Xᵀ + Y + (ħ / 2) • 1).PosDef := by
    have h1 : (X * cov * Xᵀ).PosSemidef := by
      have := h.posSemidef.mul_mul_conjTranspose_same X
      rwa [conjTranspose_eq_transpose_of_trivial] at this
    exact PosDef.posSemidef_add (h1.add hY) (PosDef.one.smul (by positivity))
  rw [fromXY_zero hħ hξ, applyCh_gauss hħ hξ (xyXi_noise hħ X hY) 0 h, dm_rot hħ hout, vac_out hħ]
  have := mean_lin ħ X μ 0
  rw [add_zero, show mean ħ (0 : p ⊕ p → ℝ) = 0 by funext r; simp [mean]] at this
  rw [this]

/-- Completing the square. -/
theorem hus_tilt {T : Matrix (p ⊕ p) (p ⊕ p) ℝ} (hT : T.PosDef) (a ℓ : p ⊕ p → ℝ) (η : p ⊕ p → ℂ) :
    hus T a η * Complex.exp (η ⬝ᵥ fun r => (ℓ r : ℂ)) = ((Real.exp (ℓ ⬝ᵥ a + 1 / 2 * (ℓ ⬝ᵥ T.mulVec ℓ)) : ℝ) : ℂ) * hus T (a + T.mulVec ℓ) η := by
  obtain ⟨iT, jT⟩ := posDef_inv hT
  have cjT : toC T⁻¹ * toC T = 1 := by rw [← toC_mul, jT, toC_one]
  have syT := (posDef_symm hT).2
  have syT' := (posDef_symm hT).1
  unfold hus
  set ac : p ⊕ p → ℂ := fun r => (a r : ℂ) with hac
  set lc : p ⊕ p → ℂ := fun r => (ℓ r : ℂ) with hlc
  have e1 : (fun r => (((a + T.mulVec ℓ) r : ℝ) : ℂ)) = ac + (toC T).mulVec lc := by
    rw [hlc, ← toC_mulVec_real]; funext r; simp [hac]
  have e2 : ((ℓ ⬝ᵥ a + 1 / 2 * (ℓ ⬝ᵥ T.mulVec ℓ) : ℝ) : ℂ) = lc ⬝ᵥ ac + 1 / 2 * (lc ⬝ᵥ (toC T).mulVec lc) := by
    rw [hlc, ← toC_mulVec_real]
    simp [dotProduct, hac]
  rw [e1, Complex.ofReal_exp, e2, mul_left_comm, mul_assoc, ← Complex.exp_add, ← Complex.exp_add]
  refine congrArg (HMul.hMul _) (congrArg Complex.exp ?_)
  have f1 : ∀ x : p ⊕ p → ℂ, x ⬝ᵥ (toC T⁻¹).mulVec ((toC T).mulVec lc) = x ⬝ᵥ lc := fun x => by
    rw [Matrix.mulVec_mulVec, cjT, Matrix.one_mulVec]
  have f2 : ∀ x : p ⊕ p → ℂ, (toC T).mulVec lc ⬝ᵥ (toC T⁻¹).mulVec x = x ⬝ᵥ lc := fun x => by
    rw [symm_dot syT, f1]
  simp only [Matrix.mulVec_add, Matrix.mulVec_sub, sub_dotProduct, dotProduct_sub, add_dotProduct, dotProduct_add, f1, f2]
  rw [symm_dot syT ac η, dotProduct_comm lc ac, dotProduct_comm lc ((toC T).mulVec lc)]
  ring

theorem applyCh_mul {Φ Ψ : (p → ℂ) → (q → ℂ) → (p → ℂ) → (q → ℂ) → ℂ} (ρ : (q → ℂ) → (q → ℂ) → ℂ) (e : ℂ) {z w : p → ℂ}
    (h : ∀ z' w', Φ z z' w w' = e * Ψ z z' w w') : applyCh Φ ρ z w = e * applyCh Ψ ρ z w := by
  unfold applyCh
  rw [mul_left_comm]
  refine congrArg (HMul.hMul _) ?_
  rw [← integral_const_mul]
  refine integral_congr_ae (.of_forall fun u => ?_)
  dsimp only
  rw [← mul_assoc e, mul_left_comm e]
  refine congrArg (· * _) (congrArg (HMul.hMul _) ?_)
  rw [← integral_const_mul]
  refine integral_congr_ae (.of_forall fun v => ?_)
  dsimp only
  rw [h]
  ring

/-- The kernel with a displacement, rewritten: the displacement enters with the opposite sign, and the output is multiplied by an exponential. -/
theorem fromXY_disp {ħ : ℝ} (hħ : 0 < ħ) {X : Matrix (p ⊕ p) (q ⊕ q) ℝ} {Y : Matrix (p ⊕ p) (p ⊕ p) ℝ} (hξ : (xyXi ħ X Y).PosDef) (d : p ⊕ p → ℝ)
    (z : p → ℂ) (z' : q → ℂ) (w : p → ℂ) (w' : q → ℂ) :
    fromXY ħ X Y d z z' w w' = Complex.exp ((rotmat p)ᴴ.mulVec (Sum.elim w z) ⬝ᵥ fun r => (((xyXi ħ X Y)⁻¹.mulVec ((2 : ℝ) • mean ħ d) r : ℝ) : ℂ)) *
      gaussCh (xyXi ħ X Y) X (-mean ħ d) z z' w w' := by
  rw [fromXY_eq hħ hξ]
  unfold gaussCh hus
  dsimp only
  set ξ := xyXi ħ X Y
  have hs := (posDef_symm hξ).2
  set η := (rotmat p)ᴴ.mulVec (Sum.elim w z)
  set η' := (rotmat q)ᴴ.mulVec (Sum.elim z' w')
  have e1 : (fun r => ((ξ⁻¹.mulVec ((2 : ℝ) • mean ħ d) r : ℝ) : ℂ)) = (2 : ℂ) • (toC ξ⁻¹).mulVec fun r => (mean ħ d r : ℂ) := by
    rw [toC_mulVec_real, ← Matrix.mulVec_smul]
    refine congrArg (toC ξ⁻¹).mulVec ?_
    funext r; simp
  have e2 : (fun r => (((-mean ħ d) r : ℝ) : ℂ)) = -fun r => (mean ħ d r : ℂ) := by funext r; simp
  rw [e1, e2, dotProduct_smul, smul_eq_mul]
  set δ : p ⊕ p → ℂ := fun r => (mean ħ d r : ℂ)
  have hx : η' ⬝ᵥ (toC (Xᵀ * ξ⁻¹)).mulVec δ = (toC X).mulVec η' ⬝ᵥ (toC ξ⁻¹).mulVec δ := by
    rw [toC_mul, ← Matrix.mulVec_mulVec, Matrix.dotProduct_mulVec, show toC Xᵀ = (toC X)ᵀ from rfl, Matrix.vecMul_transpose]
  rw [hx]
  set x := (toC X).mulVec η'
  have : ∀ s a b c e f : ℂ, a + e = f + b → s * Complex.exp a * Complex.exp c * Complex.exp (1 / 2 * (η' ⬝ᵥ η')) * Complex.exp e =
      Complex.exp f * (s * Complex.exp b * Complex.exp c * Complex.exp (1 / 2 * (η' ⬝ᵥ η'))) := by
    intro s a b c e f h
    have h' : Complex.exp a * Complex.exp e = Complex.exp f * Complex.exp b := by rw [← Complex.exp_add, ← Complex.exp_add, h]
    linear_combination (s * Complex.exp c * Complex.exp (1 / 2 * (η' ⬝ᵥ η'))) * h'
  refine this _ _ _ _ _ _ ?_
  clear_value x η η'
  simp only [Matrix.mulVec_sub, Matrix.mulVec_neg, sub_neg_eq_add, Matrix.mulVec_add, dotProduct_sub, sub_dotProduct, add_dotProduct, dotProduct_add]
  rw [symm_dot hs δ η, symm_dot hs δ x]
  ring

/-- **C73 (displacement)** What `Channel.from_XY` with a displacement `d` does (`Channel.from_XY` documents the means `X μ + d`): with `δ = d/√ħ`,
`u = Xᵀ ξ⁻¹ δ` and `V` the Husimi covariance matrix of the input in units of `ħ`, the output has the covariance matrix `X cov Xᵀ + Y`, but the means
`X μ - d + 2 (ξ + X (V - 1) Xᵀ) ξ⁻¹ d` and the trace is multiplied by `exp(2 u·(μ/√ħ + (V - 1) u))`. -/
theorem C73_displacement {ħ : ℝ} (hħ : 0 < ħ) (X : Matrix (p ⊕ p) (q ⊕ q) ℝ) {Y : Matrix (p ⊕ p) (p ⊕ p) ℝ} (hY : Y.PosSemidef) (d : p ⊕ p → ℝ)
    {cov : Matrix (q ⊕ q) (q ⊕ q) ℝ} (h : cov.PosDef) (μ : q ⊕ q → ℝ) (k : ℂ) (z w : p → ℂ) :
    applyCh (fromXY ħ X Y d) (dmFromPhaseSpace ħ cov μ k) z w =
      dmFromPhaseSpace ħ (X * cov * Xᵀ + Y) (X.mulVec μ - d + (2 : ℝ) • ((xyXi ħ X Y + X * (vac ħ cov - 1) * Xᵀ) * (xyXi ħ X Y)⁻¹).mulVec d)
        ((k * (Real.exp (2 * ((Xᵀ * (xyXi ħ X Y)⁻¹).mulVec (mean ħ d) ⬝ᵥ (mean ħ μ + (vac ħ cov - 1).mulVec ((Xᵀ * (xyXi ħ X Y)⁻¹).mulVec (mean ħ d))))) : ℝ)) : ℂ) z w := by
  have hξ := xyXi_pos hħ X hY
  have hout : (X * cov * Xᵀ + Y + (ħ / 2) • 1).PosDef := by
    have h1 : (X * cov * Xᵀ).PosSemidef := by
      have := h.posSemidef.mul_mul_conjTranspose_same X
      rwa [conjTranspose_eq_transpose_of_trivial] at this
    exact PosDef.posSemidef_add (h1.add hY) (PosDef.one.smul (by positivity))
  have hT : (xyXi ħ X Y + X * (vac ħ cov - 1) * Xᵀ).PosDef := by rw [vac_out hħ]; exact vac_pos hħ hout
  set ℓ := (xyXi ħ X Y)⁻¹.mulVec ((2 : ℝ) • mean ħ d) with hℓ
  have hlin : applyCh (fromXY ħ X Y d) (dmFromPhaseSpace ħ cov μ k) z w = Complex.exp ((rotmat p)ᴴ.mulVec (Sum.elim w z) ⬝ᵥ fun r => (ℓ r : ℂ)) *
      applyCh (gaussCh (xyXi ħ X Y) X (-mean ħ d)) (dmFromPhaseSpace ħ cov μ k) z w := by
    exact applyCh_mul _ _ fun z' w' => fromXY_disp hħ hξ d z z' w w'
  have hm : X.mulVec (mean ħ μ) + -mean ħ d + (xyXi ħ X Y + X * (vac ħ cov - 1) * Xᵀ).mulVec ℓ =
      mean ħ (X.mulVec μ - d + (2 : ℝ) • ((xyXi ħ X Y + X * (vac ħ cov - 1) * Xᵀ) * (xyXi ħ X Y)⁻¹).mulVec d) := by
    rw [← sub_eq_add_neg (X.mulVec (mean ħ μ)), hℓ, mean_smul, mean_smul, mean_smul, Matrix.mulVec_smul, Matrix.mulVec_mulVec, Matrix.mulVec_smul, Matrix.mulVec_smul, smul_add, smul_sub,
      smul_comm (Real.sqrt ħ)⁻¹ (2 : ℝ)]
  obtain ⟨iξ, jξ⟩ := posDef_inv hξ
  have hsξ : (xyXi ħ X Y)⁻¹ᵀ = (xyXi ħ X Y)⁻¹ := by
    have := hξ.inv.isHermitian
    unfold IsHermitian at this
    rwa [conjTranspose_eq_transpose_of_trivial] at this
  have hexp : ℓ ⬝ᵥ (X.mulVec (mean ħ μ) + -mean ħ d) + 1 / 2 * (ℓ ⬝ᵥ (xyXi ħ X Y + X * (vac ħ cov - 1) * Xᵀ).mulVec ℓ) =
      2 * ((Xᵀ * (xyXi ħ X Y)⁻¹).mulVec (mean ħ d) ⬝ᵥ (mean ħ μ + (vac ħ cov - 1).mulVec ((Xᵀ * (xyXi ħ X Y)⁻¹).mulVec (mean ħ d)))) := by
    rw [hℓ]
    generalize mean ħ d = δ
    generalize mean ħ μ = m
    generalize vac ħ cov - 1 = D
    set ξ := xyXi ħ X Y
    have f1 : ∀ y : q ⊕ q → ℝ, (Xᵀ * ξ⁻¹).mulVec δ ⬝ᵥ y = ξ⁻¹.mulVec δ ⬝ᵥ X.mulVec y := fun y => by
      rw [← Matrix.mulVec_mulVec, dotProduct_comm, Matrix.dotProduct_mulVec, Matrix.vecMul_transpose, dotProduct_comm]
    have f2 : ξ.mulVec (ξ⁻¹.mulVec δ) = δ := by rw [Matrix.mulVec_mulVec, iξ, Matrix.one_mulVec]
    rw [f1, Matrix.mulVec_smul, Matrix.mulVec_smul, Matrix.add_mulVec, f2, ← Matrix.mulVec_mulVec, ← Matrix.mulVec_mulVec, ← Matrix.mulVec_mulVec, Matrix.mulVec_add]
    simp only [smul_dotProduct, dotProduct_smul, dotProduct_add, dotProduct_neg, smul_eq_mul]
    ring
  rw [hlin, applyCh_gauss hħ hξ (xyXi_noise hħ X hY) _ h, dm_rot hħ hout, ← vac_out hħ, ← hm, ← hexp]
  have ht := hus_tilt hT (X.mulVec (mean ħ μ) + -mean ħ d) ℓ ((rotmat p)ᴴ.mulVec (Sum.elim w z))
  generalize Complex.exp (1 / 2 * _) = E
  linear_combination k * E * ht

end Verif.Manifold
