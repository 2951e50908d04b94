import Verif.GaussSymm
import Mathlib.LinearAlgebra.Matrix.SchurComplement
import Mathlib.LinearAlgebra.Matrix.NonsingularInverse

/-!
# Overlap of two Gaussians
-/

namespace Verif.Gauss
open Complex MeasureTheory Verif.Fock Matrix

variable {n : Type*} [Fintype n] [DecidableEq n]

/-- The matrix does not increase the norm, and strictly decreases it away from zero. -/
def Shrinks (P : Matrix n n ℂ) : Prop := ∀ w : n → ℂ, w ≠ 0 → ∑ i, ‖P.mulVec w i‖ ^ 2 < ∑ i, ‖w i‖ ^ 2

omit [DecidableEq n] in
theorem re_dot_le (w x : n → ℂ) : (w ⬝ᵥ x).re ≤ (∑ i, ‖w i‖ ^ 2 + ∑ i, ‖x i‖ ^ 2) / 2 := by
  rw [dotProduct, re_sum, ← Finset.sum_add_distrib, Finset.sum_div]
  refine Finset.sum_le_sum fun i _ => ?_
  have h1 := Complex.re_le_norm (w i * x i)
  rw [norm_mul] at h1
  nlinarith [sq_nonneg (‖w i‖ - ‖x i‖)]

theorem overlap_quad (P Q : Matrix n n ℂ) (w : n → ℂ) :
    ∑ p, ∑ q, (fromBlocks P (-1) (-1) Q) p q * pair w p * pair w q =
      w ⬝ᵥ P.mulVec w + star w ⬝ᵥ Q.mulVec (star w) - 2 * (w ⬝ᵥ star w) := by
  rw [quad_mulVec]
  have e : pair w = Sum.elim w (star w) := rfl
  rw [e, fromBlocks_mulVec, Sum.elim_comp_inl, Sum.elim_comp_inr, sumElim_dotProduct_sumElim, dotProduct_add, dotProduct_add,
    neg_mulVec, one_mulVec, neg_mulVec, one_mulVec, dotProduct_neg, dotProduct_neg, dotProduct_comm (star w) w]
  ring

theorem overlap_negRe {P Q : Matrix n n ℂ} (hP : Shrinks P) (hQ : Shrinks Q) : NegRe (fromBlocks P (-1) (-1) Q) := by
  intro w hw
  rw [overlap_quad]
  have h1 := re_dot_le w (P.mulVec w)
  have h2 := re_dot_le (star w) (Q.mulVec (star w))
  have h3 := hP w hw
  have h4 := hQ (star w) (by simpa using hw)
  have e : ∑ i, ‖(star w) i‖ ^ 2 = ∑ i, ‖w i‖ ^ 2 := by simp
  have e2 : (w ⬝ᵥ star w).re = ∑ i, ‖w i‖ ^ 2 := by
    rw [dotProduct, re_sum]
    refine Finset.sum_congr rfl fun i _ => ?_
    rw [Pi.star_apply, Complex.star_def, Complex.mul_conj, Complex.ofReal_re, Complex.normSq_eq_norm_sq]
  rw [e] at h2 h4
  simp only [add_re, sub_re, mul_re, re_ofNat, im_ofNat, zero_mul, sub_zero, e2]
  linarith

/-- The inverse of the matrix of the exponent. -/
theorem overlap_inv {P Q W : Matrix n n ℂ} (hP : Pᵀ = P) (hQ : Qᵀ = Q) (hW : (1 - Q * P) * W = 1) :
    (fromBlocks P (-1) (-1) Q)⁻¹ = fromBlocks (-(W * Q)) (-W) (-Wᵀ) (-(P * W)) := by
  have hW' : W * (1 - Q * P) = 1 := mul_eq_one_comm.mp hW
  have h1 : Wᵀ * (1 - P * Q) = 1 := by
    have := congrArg Matrix.transpose hW
    rwa [transpose_mul, transpose_sub, transpose_mul, hP, hQ, transpose_one] at this
  have h1' : (1 - P * Q) * Wᵀ = 1 := mul_eq_one_comm.mp h1
  have h2 : W * Q = Q * Wᵀ := by
    calc W * Q = W * (Q * ((1 - P * Q) * Wᵀ)) := by rw [h1', Matrix.mul_one]
      _ = W * (1 - Q * P) * Q * Wᵀ := by
        simp only [Matrix.mul_sub, Matrix.sub_mul, Matrix.mul_one, Matrix.one_mul, Matrix.mul_assoc]
      _ = _ := by rw [hW', Matrix.one_mul]
  apply Matrix.inv_eq_right_inv
  rw [fromBlocks_multiply, ← fromBlocks_one]
  congr 1
  · rw [h2, Matrix.mul_neg, Matrix.neg_mul, Matrix.one_mul, neg_neg, ← h1', Matrix.sub_mul, Matrix.one_mul, Matrix.mul_assoc]
    abel
  · rw [Matrix.mul_neg, Matrix.neg_mul, Matrix.one_mul, neg_neg, neg_add_cancel]
  · rw [Matrix.mul_neg, Matrix.neg_mul, Matrix.one_mul, neg_neg, Matrix.mul_neg, h2, add_neg_cancel]
  · rw [Matrix.mul_neg, Matrix.neg_mul, Matrix.one_mul, neg_neg, Matrix.mul_neg, ← hW, Matrix.sub_mul, Matrix.one_mul,
      Matrix.mul_assoc, sub_eq_add_neg]

theorem overlap_det {P Q W : Matrix n n ℂ} (hW : (1 - Q * P) * W = 1) :
    (-1) ^ Fintype.card n / (fromBlocks P (-1) (-1) Q).det = W.det := by
  have hd : (1 - Q * P).det * W.det = 1 := by rw [← det_mul, hW, det_one]
  have h : (fromBlocks 1 0 Q 1 * fromBlocks P (-1) (-1) Q : Matrix (n ⊕ n) (n ⊕ n) ℂ).det =
      (fromBlocks P (-1) (-1) Q).det := by rw [det_mul, det_fromBlocks_one₁₁]; simp
  have hx : ((fromBlocks P (-1) (-(1 - Q * P)) 0 : Matrix (n ⊕ n) (n ⊕ n) ℂ)).det = (-1) ^ Fintype.card n * (1 - Q * P).det := by
    have e : (fromBlocks P (-1) (-(1 - Q * P)) 0 : Matrix (n ⊕ n) (n ⊕ n) ℂ) * fromBlocks 0 1 1 0 =
        fromBlocks (-1) P 0 (-(1 - Q * P)) := by
      rw [fromBlocks_multiply]; simp
    have e1 := congrArg Matrix.det e
    have e2 : (fromBlocks 0 1 1 0 : Matrix (n ⊕ n) (n ⊕ n) ℂ).det = (-1) ^ Fintype.card n := by
      have : (fromBlocks 1 0 1 1 * fromBlocks 1 (-1) 0 1 * fromBlocks 1 0 1 1 : Matrix (n ⊕ n) (n ⊕ n) ℂ) * fromBlocks 0 1 1 0 =
          fromBlocks (-1) 0 0 1 := by
        rw [fromBlocks_multiply, fromBlocks_multiply, fromBlocks_multiply]; simp
      have h := congrArg Matrix.det this
      rw [det_mul, det_mul, det_mul, det_fromBlocks_one₁₁, det_fromBlocks_one₁₁, det_fromBlocks_zero₂₁] at h
      simpa [det_neg] using h
    rw [det_mul, e2, det_fromBlocks_zero₂₁, det_neg, det_neg, det_one, mul_one] at e1
    have h2 : ((-1 : ℂ) ^ Fintype.card n) * (-1) ^ Fintype.card n = 1 := by rw [← mul_pow]; norm_num
    linear_combination (-1 : ℂ) ^ Fintype.card n * e1 + ((1 - Q * P).det * (-1) ^ Fintype.card n -
      (fromBlocks P (-1) (-(1 - Q * P)) 0 : Matrix (n ⊕ n) (n ⊕ n) ℂ).det) * h2
  have hm : (fromBlocks 1 0 Q 1 * fromBlocks P (-1) (-1) Q : Matrix (n ⊕ n) (n ⊕ n) ℂ) = fromBlocks P (-1) (-(1 - Q * P)) 0 := by
    rw [fromBlocks_multiply]
    simp
    abel
  rw [← h, hm, hx]
  have h0 : (1 - Q * P).det ≠ 0 := fun e => by rw [e, zero_mul] at hd; exact zero_ne_one hd
  have h1 : ((-1 : ℂ) ^ Fintype.card n) ≠ 0 := pow_ne_zero _ (by norm_num)
  field_simp
  exact hd.symm

/-- **Overlap of two Gaussians** when the integral converges. -/
theorem gauss_overlap_of {P Q W : Matrix n n ℂ} (hP : Pᵀ = P) (hQ : Qᵀ = Q) (hN : NegRe (fromBlocks P (-1) (-1) Q))
    (hW : (1 - Q * P) * W = 1) (x y : n → ℂ) :
    ((Real.pi : ℂ) ^ Fintype.card n)⁻¹ * ∫ u : n → ℂ,
      cexp (1 / 2 * (u ⬝ᵥ P.mulVec u) + x ⬝ᵥ u) * cexp (1 / 2 * (star u ⬝ᵥ Q.mulVec (star u)) + y ⬝ᵥ star u) *
        cexp (-∑ i, (‖u i‖ : ℂ) ^ 2) =
      gaussConst (fromBlocks P (-1) (-1) Q) *
        cexp (1 / 2 * (x ⬝ᵥ (W * Q).mulVec x) + x ⬝ᵥ W.mulVec y + 1 / 2 * (y ⬝ᵥ (P * W).mulVec y)) := by
  have hs : ∀ p q, (fromBlocks P (-1) (-1) Q) p q = (fromBlocks P (-1) (-1) Q) q p := by
    have : (fromBlocks P (-1) (-1) Q)ᵀ = fromBlocks P (-1) (-1) Q := by
      rw [fromBlocks_transpose, hP, hQ, transpose_neg, transpose_one]
    intro p q
    conv_lhs => rw [← this]
    rfl
  have key := integral_complex hs hN (Sum.elim x y) (D := 0) (fun _ _ => 0) (fun _ => 0) (fun _ _ => 0) 0 (fun _ _ => rfl)
  simp only [amp_zero, one_mul, mul_one] at key
  rw [overlap_inv hP hQ hW] at key
  have ei : ∀ u : n → ℂ, cform (fromBlocks P (-1) (-1) Q) (Sum.elim x y) u =
      1 / 2 * (u ⬝ᵥ P.mulVec u) + x ⬝ᵥ u + (1 / 2 * (star u ⬝ᵥ Q.mulVec (star u)) + y ⬝ᵥ star u) + -∑ i, (‖u i‖ : ℂ) ^ 2 := fun u => by
    unfold cform
    rw [overlap_quad]
    have e1 : ∑ p, Sum.elim x y p * pair u p = x ⬝ᵥ u + y ⬝ᵥ star u := by
      rw [Fintype.sum_sum_type]; rfl
    have e2 : u ⬝ᵥ star u = ∑ i, (‖u i‖ : ℂ) ^ 2 := by
      refine Finset.sum_congr rfl fun i _ => ?_
      rw [Pi.star_apply, Complex.star_def, Complex.mul_conj, Complex.normSq_eq_norm_sq]
      push_cast
      rfl
    rw [e1, e2]
    ring
  have ei' : ∀ u : n → ℂ, cexp (1 / 2 * (u ⬝ᵥ P.mulVec u) + x ⬝ᵥ u) * cexp (1 / 2 * (star u ⬝ᵥ Q.mulVec (star u)) + y ⬝ᵥ star u) *
        cexp (-∑ i, (‖u i‖ : ℂ) ^ 2) = cexp (cform (fromBlocks P (-1) (-1) Q) (Sum.elim x y) u) := fun u => by
    rw [ei, ← Complex.exp_add, ← Complex.exp_add]
  simp only [ei']
  rw [key]
  refine congrArg (HMul.hMul _) (congrArg Complex.exp ?_)
  rw [fromBlocks_mulVec, Sum.elim_comp_inl, Sum.elim_comp_inr, sumElim_dotProduct_sumElim, dotProduct_add, dotProduct_add]
  simp only [neg_mulVec, dotProduct_neg]
  have : y ⬝ᵥ Wᵀ.mulVec x = x ⬝ᵥ W.mulVec y := by
    rw [Matrix.mulVec_transpose, dotProduct_comm, ← Matrix.dotProduct_mulVec]
  rw [this]
  ring

/-- **Overlap of two Gaussians.** -/
theorem gauss_overlap {P Q W : Matrix n n ℂ} (hP : Pᵀ = P) (hQ : Qᵀ = Q) (sP : Shrinks P) (sQ : Shrinks Q)
    (hW : (1 - Q * P) * W = 1) (x y : n → ℂ) :
    ((Real.pi : ℂ) ^ Fintype.card n)⁻¹ * ∫ u : n → ℂ,
      cexp (1 / 2 * (u ⬝ᵥ P.mulVec u) + x ⬝ᵥ u) * cexp (1 / 2 * (star u ⬝ᵥ Q.mulVec (star u)) + y ⬝ᵥ star u) *
        cexp (-∑ i, (‖u i‖ : ℂ) ^ 2) =
      gaussConst (fromBlocks P (-1) (-1) Q) *
        cexp (1 / 2 * (x ⬝ᵥ (W * Q).mulVec x) + x ⬝ᵥ W.mulVec y + 1 / 2 * (y ⬝ᵥ (P * W).mulVec y)) :=
  gauss_overlap_of hP hQ (overlap_negRe sP sQ) hW x y

/-- The integral also converges when only one of the matrices shrinks strictly. -/
theorem overlap_negRe' {P Q : Matrix n n ℂ} (hP : Shrinks P) (hQ : ∀ w : n → ℂ, ∑ i, ‖Q.mulVec w i‖ ^ 2 ≤ ∑ i, ‖w i‖ ^ 2) :
    NegRe (fromBlocks P (-1) (-1) Q) := by
  intro w hw
  rw [overlap_quad]
  have h1 := re_dot_le w (P.mulVec w)
  have h2 := re_dot_le (star w) (Q.mulVec (star w))
  have h3 := hP w hw
  have h4 := hQ (star w)
  have e : ∑ i, ‖(star w) i‖ ^ 2 = ∑ i, ‖w i‖ ^ 2 := by simp
  have e2 : (w ⬝ᵥ star w).re = ∑ i, ‖w i‖ ^ 2 := by
    rw [dotProduct, re_sum]
    refine Finset.sum_congr rfl fun i _ => ?_
    rw [Pi.star_apply, Complex.star_def, Complex.mul_conj, Complex.ofReal_re, Complex.normSq_eq_norm_sq]
  rw [e] at h2 h4
  simp only [add_re, sub_re, mul_re, re_ofNat, im_ofNat, zero_mul, sub_zero, e2]
  linarith

/-- The square of the constant of an overlap. -/
theorem overlap_sq {P Q W : Matrix n n ℂ} (hP : Pᵀ = P) (hQ : Qᵀ = Q) (sP : Shrinks P) (sQ : Shrinks Q)
    (hW : (1 - Q * P) * W = 1) : gaussConst (fromBlocks P (-1) (-1) Q) ^ 2 = W.det := by
  have hs : ∀ p q, (fromBlocks P (-1) (-1) Q) p q = (fromBlocks P (-1) (-1) Q) q p := by
    have : (fromBlocks P (-1) (-1) Q)ᵀ = fromBlocks P (-1) (-1) Q := by
      rw [fromBlocks_transpose, hP, hQ, transpose_neg, transpose_one]
    intro p q
    conv_lhs => rw [← this]
    rfl
  rw [gaussConst_sq hs (overlap_negRe sP sQ), overlap_det hW]

end Verif.Gauss
