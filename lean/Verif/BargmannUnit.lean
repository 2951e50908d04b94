import Verif.BargmannHeis
import Verif.GaussOverlap
import Mathlib.Analysis.Calculus.MeanValue

/-!
# `Unitary.from_symplectic` is unitary, unique, and composes (C64)
-/

namespace Verif.Manifold
open Matrix Verif.Gauss

variable {n : Type*} [Fintype n] [DecidableEq n]

/-! ## Specification -/

/-- Product of two operators given by Bargmann functions at (output, input): `(1/π^m) ∫ F(z, ū) G(u, v) e^{-|u|²} du`. -/
noncomputable def opMul (F G : (n → ℂ) → (n → ℂ) → ℂ) (z v : n → ℂ) : ℂ :=
  ((Real.pi : ℂ) ^ Fintype.card n)⁻¹ * ∫ u : n → ℂ, F z (star u) * G u v * Complex.exp (-∑ i, (‖u i‖ : ℂ) ^ 2)

/-- The adjoint. -/
noncomputable def opAdj (F : (n → ℂ) → (n → ℂ) → ℂ) (z v : n → ℂ) : ℂ := (starRingEnd ℂ) (F (star v) (star z))

/-- The Bargmann function of the identity. -/
noncomputable def opId (z v : n → ℂ) : ℂ := Complex.exp (∑ i, z i * v i)

/-! ## The constant -/

theorem A_blocks {S : Matrix (n ⊕ n) (n ⊕ n) ℝ} (h : Symplectic S) :
    ∃ A1 A2 A3 A4 : Matrix n n ℂ, symplectic2Au S = fromBlocks A1 A2 A3 A4 ∧ A1ᵀ = A1 ∧ A2ᵀ = A3 ∧ A3ᵀ = A2 ∧ A4ᵀ = A4 ∧
      A3 = cj (cS1 S)⁻¹ ∧ A3 * cj (cS1 S) = 1 ∧ cj (cS1 S) * A3 = 1 ∧
      A1ᴴ * A1 + A3ᴴ * A3 = 1 ∧ A1ᴴ * A2 + A3ᴴ * A4 = 0 ∧ A2ᴴ * A1 + A4ᴴ * A3 = 0 ∧ A2ᴴ * A2 + A4ᴴ * A4 = 1 := by
  have hs := C64_symm S h
  have hu := C64_unitary S h
  rw [mul_eq_one_comm] at hu
  obtain ⟨h1, h2⟩ := complex_symplectic h
  obtain ⟨i1, i2, -, -, -⟩ := block_relations h1 h2
  have e := symplectic2Au_eq h
  rw [e] at hs hu
  rw [fromBlocks_transpose, fromBlocks_inj] at hs
  rw [fromBlocks_conjTranspose, fromBlocks_multiply, ← fromBlocks_one, fromBlocks_inj] at hu
  exact ⟨_, _, _, _, e, hs.1, hs.2.2.1, hs.2.1, hs.2.2.2, rfl, by rw [← cj_mul, i1, cj_one], by rw [← cj_mul, i2, cj_one],
    hu.1, hu.2.1, hu.2.2.1, hu.2.2.2⟩

theorem det_cj (M : Matrix n n ℂ) : (cj M).det = (starRingEnd ℂ) M.det := (RingHom.map_det (starRingEnd ℂ) M).symm

theorem fromSymplecticC_eq {S : Matrix (n ⊕ n) (n ⊕ n) ℝ} (h : Symplectic S) :
    fromSymplecticC S = ((‖(cS1 S)⁻¹.det‖ ^ (1 / 2 : ℝ) : ℝ) : ℂ) := by
  obtain ⟨A1, A2, A3, A4, e, s1, s2, s3, s4, e3, -, -, -, -, -, u4⟩ := A_blocks h
  unfold fromSymplecticC
  simp only []
  rw [e, toBlocks_fromBlocks₂₂]
  have h4 : A4ᴴ = cj A4 := by rw [← cj_transpose, s4]
  have hd : (-1) ^ Fintype.card n * (A4 * cj A4 - 1).det = (A2ᴴ * A2).det := by
    rw [← det_neg, neg_sub]
    have : (1 - A4 * cj A4) = cj (A2ᴴ * A2) := by
      have h := congrArg cj u4
      rw [cj_add, cj_mul A4ᴴ, cj_conjT, s4, cj_one] at h
      rw [← h, add_sub_cancel_right]
    rw [this, det_cj, det_mul, det_conjTranspose, map_mul]
    simp [mul_comm]
  have hA2 : A2.det = (starRingEnd ℂ) (cS1 S)⁻¹.det := by rw [← s3, det_transpose, e3, det_cj]
  rw [hd, det_mul, det_conjTranspose, hA2, Complex.star_def, Complex.conj_conj, Complex.mul_conj, Complex.normSq_eq_norm_sq]
  rw [show (1 / 4 : ℂ) = ((1 / 4 : ℝ) : ℂ) by norm_num, ← Complex.ofReal_cpow (by positivity), ← Real.rpow_natCast,
    ← Real.rpow_mul (norm_nonneg _)]
  norm_num

/-- **C64 (phase)** The vacuum amplitude of the unitary is a positive real number. -/
theorem C64_positive (S : Matrix (n ⊕ n) (n ⊕ n) ℝ) (h : Symplectic S) :
    ∃ t : ℝ, 0 < t ∧ fromSymplectic S 0 0 = t := by
  obtain ⟨h1, h2⟩ := complex_symplectic h
  obtain ⟨i1, -⟩ := block_relations h1 h2
  refine ⟨‖(cS1 S)⁻¹.det‖ ^ (1 / 2 : ℝ), ?_, ?_⟩
  rotate_left
  · unfold fromSymplectic
    rw [show (Sum.elim 0 0 : n ⊕ n → ℂ) = 0 from Sum.elim_zero_zero, zero_dotProduct, mul_zero, Complex.exp_zero, mul_one,
      fromSymplecticC_eq h]
  · refine Real.rpow_pos_of_pos (norm_pos_iff.2 fun e => ?_) _
    have := congrArg det i1
    rw [det_mul, e, zero_mul, det_one] at this
    exact zero_ne_one this

/-! ## Unitarity -/

omit [DecidableEq n] in
theorem norm_mulVec (P : Matrix n n ℂ) (w : n → ℂ) : ((∑ i, ‖P.mulVec w i‖ ^ 2 : ℝ) : ℂ) = star w ⬝ᵥ (Pᴴ * P).mulVec w := by
  rw [← Matrix.mulVec_mulVec, Matrix.dotProduct_mulVec, ← Matrix.star_mulVec, dotProduct_comm]
  push_cast
  refine Finset.sum_congr rfl fun i _ => ?_
  rw [Pi.star_apply, Complex.star_def, Complex.mul_conj, Complex.normSq_eq_norm_sq]
  push_cast
  rfl

theorem shrinks_of {P B C : Matrix n n ℂ} (h : Pᴴ * P + Bᴴ * B = 1) (hB : C * B = 1) : Shrinks P := by
  intro w hw
  have e : ((∑ i, ‖P.mulVec w i‖ ^ 2 : ℝ) : ℂ) + ((∑ i, ‖B.mulVec w i‖ ^ 2 : ℝ) : ℂ) = ((∑ i, ‖w i‖ ^ 2 : ℝ) : ℂ) := by
    have := norm_mulVec 1 w
    rw [Matrix.one_mulVec, conjTranspose_one, Matrix.one_mul] at this
    rw [this, norm_mulVec, norm_mulVec, ← dotProduct_add, ← Matrix.add_mulVec, h]
  have hBw : B.mulVec w ≠ 0 := fun e0 => hw (by
    have := congrArg C.mulVec e0
    rwa [Matrix.mulVec_mulVec, hB, Matrix.one_mulVec, Matrix.mulVec_zero] at this)
  obtain ⟨i, hi⟩ := Function.ne_iff.1 hBw
  have hp : 0 < ∑ i, ‖B.mulVec w i‖ ^ 2 :=
    Finset.sum_pos' (fun _ _ => by positivity) ⟨i, Finset.mem_univ _, by have := norm_pos_iff.2 hi; positivity⟩
  have e' : ∑ i, ‖P.mulVec w i‖ ^ 2 + ∑ i, ‖B.mulVec w i‖ ^ 2 = ∑ i, ‖w i‖ ^ 2 := by exact_mod_cast e
  linarith

omit [DecidableEq n] in
theorem exponent_blocks (A1 A2 A3 A4 : Matrix n n ℂ) (h3 : A2ᵀ = A3) (z w : n → ℂ) :
    1 / 2 * (Sum.elim z w ⬝ᵥ (fromBlocks A1 A2 A3 A4).mulVec (Sum.elim z w)) =
      1 / 2 * (z ⬝ᵥ A1.mulVec z) + z ⬝ᵥ A2.mulVec w + 1 / 2 * (w ⬝ᵥ A4.mulVec w) := by
  rw [fromBlocks_mulVec, Sum.elim_comp_inl, Sum.elim_comp_inr, sumElim_dotProduct_sumElim, dotProduct_add, dotProduct_add]
  have : w ⬝ᵥ A3.mulVec z = z ⬝ᵥ A2.mulVec w := by
    rw [← h3, Matrix.mulVec_transpose, dotProduct_comm, ← Matrix.dotProduct_mulVec]
  rw [this]
  ring

theorem cS1_det_ne {S : Matrix (n ⊕ n) (n ⊕ n) ℝ} (h : Symplectic S) : (cS1 S).det ≠ 0 :=
  (cS1_unit (complex_symplectic h).1).ne_zero

theorem fromSymplecticC_ne {S : Matrix (n ⊕ n) (n ⊕ n) ℝ} (h : Symplectic S) : fromSymplecticC S ≠ 0 := by
  obtain ⟨t, ht, e⟩ := C64_positive S h
  unfold fromSymplectic at e
  rw [show (Sum.elim 0 0 : n ⊕ n → ℂ) = 0 from Sum.elim_zero_zero, zero_dotProduct, mul_zero, Complex.exp_zero, mul_one] at e
  rw [e]
  exact_mod_cast ht.ne'

theorem norm_fromSymplecticC {S : Matrix (n ⊕ n) (n ⊕ n) ℝ} (h : Symplectic S) :
    ‖fromSymplecticC S‖ ^ 2 = ‖(cS1 S).det‖⁻¹ := by
  rw [fromSymplecticC_eq h, Complex.norm_real, Real.norm_of_nonneg (by positivity), ← Real.rpow_natCast, ← Real.rpow_mul (norm_nonneg _),
    det_nonsing_inv, Ring.inverse_eq_inv', norm_inv]
  norm_num

/-- Products of Gaussian operators, with matrices `a` (left) and `b` (right). -/
theorem opMul_gauss {a1 a2 a3 a4 b1 b2 b3 b4 W : Matrix n n ℂ} (ha : a2ᵀ = a3) (hb : b2ᵀ = b3) (h4 : a4ᵀ = a4) (h1 : b1ᵀ = b1)
    (s4 : Shrinks a4) (s1 : Shrinks b1) (hW : (1 - a4 * b1) * W = 1) (c d : ℂ) (z v : n → ℂ) :
    opMul (fun z w => c * Complex.exp (1 / 2 * (Sum.elim z w ⬝ᵥ (fromBlocks a1 a2 a3 a4).mulVec (Sum.elim z w))))
      (fun z w => d * Complex.exp (1 / 2 * (Sum.elim z w ⬝ᵥ (fromBlocks b1 b2 b3 b4).mulVec (Sum.elim z w)))) z v =
      c * d * gaussConst (fromBlocks b1 (-1) (-1) a4) *
        Complex.exp (1 / 2 * (Sum.elim z v ⬝ᵥ (fromBlocks (a1 + a2 * b1 * W * a3) (a2 * Wᵀ * b2) (b3 * W * a3)
          (b4 + b3 * W * a4 * b2)).mulVec (Sum.elim z v))) := by
  unfold opMul
  have key := gauss_overlap h1 h4 s1 s4 hW (b2.mulVec v) (a3.mulVec z)
  have ei : ∀ u : n → ℂ, c * Complex.exp (1 / 2 * (Sum.elim z (star u) ⬝ᵥ (fromBlocks a1 a2 a3 a4).mulVec (Sum.elim z (star u)))) *
      (d * Complex.exp (1 / 2 * (Sum.elim u v ⬝ᵥ (fromBlocks b1 b2 b3 b4).mulVec (Sum.elim u v)))) *
        Complex.exp (-∑ i, (‖u i‖ : ℂ) ^ 2) =
      c * d * Complex.exp (1 / 2 * (z ⬝ᵥ a1.mulVec z) + 1 / 2 * (v ⬝ᵥ b4.mulVec v)) *
        (Complex.exp (1 / 2 * (u ⬝ᵥ b1.mulVec u) + b2.mulVec v ⬝ᵥ u) *
          Complex.exp (1 / 2 * (star u ⬝ᵥ a4.mulVec (star u)) + a3.mulVec z ⬝ᵥ star u) * Complex.exp (-∑ i, (‖u i‖ : ℂ) ^ 2)) := fun u => by
    rw [exponent_blocks _ _ _ _ ha, exponent_blocks _ _ _ _ hb]
    have e1 : a3.mulVec z ⬝ᵥ star u = z ⬝ᵥ a2.mulVec (star u) := by
      rw [← ha, Matrix.mulVec_transpose, ← Matrix.dotProduct_mulVec]
    have e2 : b2.mulVec v ⬝ᵥ u = u ⬝ᵥ b2.mulVec v := dotProduct_comm _ _
    rw [e1, e2]
    simp only [Complex.exp_add]
    ring
  simp only [ei]
  rw [MeasureTheory.integral_const_mul, mul_left_comm, key]
  have e3 : (a2 * Wᵀ * b2)ᵀ = b3 * W * a3 := by
    rw [transpose_mul, transpose_mul, hb, ha, transpose_transpose, Matrix.mul_assoc]
  rw [exponent_blocks _ _ _ _ e3]
  have f1 : ∀ (M : Matrix n n ℂ), b2.mulVec v ⬝ᵥ M.mulVec (b2.mulVec v) = v ⬝ᵥ (b3 * M * b2).mulVec v := fun M => by
    rw [← Matrix.mulVec_mulVec, ← Matrix.mulVec_mulVec, Matrix.dotProduct_mulVec v, ← Matrix.mulVec_transpose, ← hb, transpose_transpose]
  have f2 : ∀ (M : Matrix n n ℂ), a3.mulVec z ⬝ᵥ M.mulVec (a3.mulVec z) = z ⬝ᵥ (a2 * M * a3).mulVec z := fun M => by
    rw [← Matrix.mulVec_mulVec, ← Matrix.mulVec_mulVec, Matrix.dotProduct_mulVec z, ← Matrix.mulVec_transpose, ha]
  have f3 : b2.mulVec v ⬝ᵥ W.mulVec (a3.mulVec z) = z ⬝ᵥ (a2 * Wᵀ * b2).mulVec v := by
    rw [← Matrix.mulVec_mulVec, ← Matrix.mulVec_mulVec, Matrix.dotProduct_mulVec z, ← Matrix.mulVec_transpose, ha,
      dotProduct_comm (a3.mulVec z), Matrix.mulVec_transpose, ← Matrix.dotProduct_mulVec]
  rw [f1, f2, f3]
  rw [show c * d * Complex.exp (1 / 2 * (z ⬝ᵥ a1.mulVec z) + 1 / 2 * (v ⬝ᵥ b4.mulVec v)) *
    (gaussConst (fromBlocks b1 (-1) (-1) a4) * Complex.exp (1 / 2 * (v ⬝ᵥ (b3 * (W * a4) * b2).mulVec v) +
      z ⬝ᵥ (a2 * Wᵀ * b2).mulVec v + 1 / 2 * (z ⬝ᵥ (a2 * (b1 * W) * a3).mulVec z))) =
    c * d * gaussConst (fromBlocks b1 (-1) (-1) a4) * Complex.exp ((1 / 2 * (z ⬝ᵥ a1.mulVec z) + 1 / 2 * (v ⬝ᵥ b4.mulVec v)) +
      (1 / 2 * (v ⬝ᵥ (b3 * (W * a4) * b2).mulVec v) +
      z ⬝ᵥ (a2 * Wᵀ * b2).mulVec v + 1 / 2 * (z ⬝ᵥ (a2 * (b1 * W) * a3).mulVec z))) by simp only [Complex.exp_add]; ring]
  refine congrArg (HMul.hMul _) (congrArg Complex.exp ?_)
  rw [Matrix.add_mulVec, Matrix.add_mulVec, dotProduct_add, dotProduct_add]
  simp only [Matrix.mul_assoc]
  ring

/-- The inverse matrix. -/
theorem cS_inverse {S S' : Matrix (n ⊕ n) (n ⊕ n) ℝ} (h : Symplectic S) (hi : S * S' = 1) :
    cS1 S' = (cS1 S)ᴴ ∧ cS2 S' = -(cS2 S)ᵀ ∧ Symplectic S' := by
  obtain ⟨h1, h2⟩ := complex_symplectic h
  obtain ⟨h3, h4⟩ := complex_symplectic' h1 h2
  have hm : ∀ M N : Matrix (n ⊕ n) (n ⊕ n) ℝ, toC M * toC N = toC (M * N) := fun M N =>
    (Matrix.map_mul (f := Complex.ofRealHom)).symm
  have e : (rotmat n * toC S * (rotmat n)ᴴ) * (rotmat n * toC S' * (rotmat n)ᴴ) = 1 := by
    calc _ = rotmat n * toC S * ((rotmat n)ᴴ * rotmat n) * toC S' * (rotmat n)ᴴ := by simp only [Matrix.mul_assoc]
      _ = rotmat n * (toC S * toC S') * (rotmat n)ᴴ := by rw [rotmat_mul', Matrix.mul_one, Matrix.mul_assoc (rotmat n)]
      _ = 1 := by
        rw [hm, hi, show toC (1 : Matrix (n ⊕ n) (n ⊕ n) ℝ) = 1 by
          unfold toC; exact Matrix.map_one _ Complex.ofReal_zero Complex.ofReal_one, Matrix.mul_one, rotmat_mul]
  have e' : fromBlocks (cS1 S)ᴴ (-(cS2 S)ᵀ) (-(cS2 S)ᴴ) (cS1 S)ᵀ * (rotmat n * toC S * (rotmat n)ᴴ) = 1 := by
    rw [rot_blocks, fromBlocks_multiply, ← fromBlocks_one]
    have h3' := congrArg cj h3
    have h4' := congrArg cj h4
    rw [cj_one, sub_eq_add_neg, cj_add, cj_neg, cj_mul, cj_mul, cj_conjT, cj_cj, cj_transpose] at h3'
    rw [cj_mul, cj_mul, cj_conjT, cj_cj, cj_transpose] at h4'
    congr 1
    · rw [Matrix.neg_mul, ← sub_eq_add_neg, h3]
    · rw [Matrix.neg_mul, h4, add_neg_cancel]
    · rw [Matrix.neg_mul, h4', neg_add_cancel]
    · rw [Matrix.neg_mul, ← h3']; abel
  have key : rotmat n * toC S' * (rotmat n)ᴴ = fromBlocks (cS1 S)ᴴ (-(cS2 S)ᵀ) (-(cS2 S)ᴴ) (cS1 S)ᵀ := by
    rw [← Matrix.one_mul (rotmat n * toC S' * (rotmat n)ᴴ), ← e', Matrix.mul_assoc, e, Matrix.mul_one]
  have k1 : cS1 S' = (cS1 S)ᴴ := by unfold cS1; rw [key, toBlocks_fromBlocks₁₁]; rfl
  have k2 : cS2 S' = -(cS2 S)ᵀ := by unfold cS2; rw [key, toBlocks_fromBlocks₁₂]; rfl
  refine ⟨k1, k2, ?_⟩
  rw [← ofCplx_cS S']
  refine symplectic_ofCplx ?_ ?_
  · rw [k1, k2, conjTranspose_conjTranspose, conjTranspose_neg, neg_mul_neg', transpose_conjT, h3]
  · rw [k1, k2, transpose_neg, transpose_transpose, conjT_transpose, Matrix.mul_neg, Matrix.neg_mul, h4]

/-- **C64 (inverse)** The unitary of the inverse matrix is the adjoint. -/
theorem C64_inverse (S S' : Matrix (n ⊕ n) (n ⊕ n) ℝ) (h : Symplectic S) (hi : S * S' = 1) (z v : n → ℂ) :
    Symplectic S' ∧ fromSymplectic S' z v = opAdj (fromSymplectic S) z v := by
  obtain ⟨k1, k2, h'⟩ := cS_inverse h hi
  obtain ⟨h1, h2⟩ := complex_symplectic h
  obtain ⟨i1, i2, r1, r2, -⟩ := block_relations h1 h2
  refine ⟨h', ?_⟩
  have hc : fromSymplecticC S' = fromSymplecticC S := by
    rw [fromSymplecticC_eq h', fromSymplecticC_eq h, k1, ← conjTranspose_nonsing_inv, det_conjTranspose, norm_star]
  have hc' : (starRingEnd ℂ) (fromSymplecticC S) = fromSymplecticC S := by rw [fromSymplecticC_eq h, Complex.conj_ofReal]
  have hs2 := (A_blocks h)
  have hsy := C64_symm S h
  have hsy' := C64_symm S' h'
  rw [symplectic2Au_eq h, fromBlocks_transpose, fromBlocks_inj] at hsy
  rw [symplectic2Au_eq h', fromBlocks_transpose, fromBlocks_inj] at hsy'
  unfold opAdj fromSymplectic
  rw [map_mul, hc, hc']
  refine congrArg (HMul.hMul _) ?_
  rw [← Complex.exp_conj]
  refine congrArg Complex.exp ?_
  rw [symplectic2Au_eq h, symplectic2Au_eq h', exponent_blocks _ _ _ _ hsy.2.2.1, exponent_blocks _ _ _ _ hsy'.2.2.1]
  have hcv : ∀ (M : Matrix n n ℂ) (x y : n → ℂ), (starRingEnd ℂ) (star x ⬝ᵥ M.mulVec (star y)) = x ⬝ᵥ (cj M).mulVec y := fun M x y => by
    simp only [dotProduct, mulVec, map_sum, map_mul, cj, Matrix.map_apply, Pi.star_apply, Complex.star_def, Complex.conj_conj]
  simp only [map_add, map_mul, hcv]
  have hh : (starRingEnd ℂ) (1 / 2 : ℂ) = 1 / 2 := by simp [Complex.conj_ofNat]
  rw [hh, k1, k2, ← conjTranspose_nonsing_inv]
  have x1 : -(cS2 S)ᵀ * cj ((cS1 S)⁻¹)ᴴ = cj (-cj ((cS1 S)⁻¹ * cS2 S)) := by
    rw [cj_conjT, cj_neg, cj_cj, Matrix.neg_mul, r1]
  have x2 : -cj (((cS1 S)⁻¹)ᴴ * -(cS2 S)ᵀ) = cj (cS2 S * cj (cS1 S)⁻¹) := by
    rw [r2, Matrix.mul_neg, cj_neg, neg_neg]
  have x3 : ((cS1 S)⁻¹)ᴴᴴ = (cS1 S)⁻¹ := conjTranspose_conjTranspose _
  rw [x1, x2, x3, cj_conjT]
  have x4 : v ⬝ᵥ ((cS1 S)⁻¹)ᵀ.mulVec z = z ⬝ᵥ ((cS1 S)⁻¹).mulVec v := by
    rw [Matrix.mulVec_transpose, dotProduct_comm, ← Matrix.dotProduct_mulVec]
  rw [x4]
  ring

/-! ## Composition -/

theorem cS_mul (T S : Matrix (n ⊕ n) (n ⊕ n) ℝ) :
    cS1 (T * S) = cS1 T * cS1 S + cS2 T * cj (cS2 S) ∧ cS2 (T * S) = cS1 T * cS2 S + cS2 T * cj (cS1 S) := by
  have hm : ∀ M N : Matrix (n ⊕ n) (n ⊕ n) ℝ, toC M * toC N = toC (M * N) := fun M N =>
    (Matrix.map_mul (f := Complex.ofRealHom)).symm
  have e : rotmat n * toC (T * S) * (rotmat n)ᴴ = (rotmat n * toC T * (rotmat n)ᴴ) * (rotmat n * toC S * (rotmat n)ᴴ) := by
    calc _ = rotmat n * toC T * ((rotmat n)ᴴ * rotmat n) * toC S * (rotmat n)ᴴ := by
          rw [rotmat_mul', Matrix.mul_one, ← hm]; simp only [Matrix.mul_assoc]
      _ = _ := by simp only [Matrix.mul_assoc]
  rw [rot_blocks, rot_blocks T, rot_blocks S, fromBlocks_multiply, fromBlocks_inj] at e
  exact ⟨e.1, e.2.1⟩

theorem symplectic_mul {T S : Matrix (n ⊕ n) (n ⊕ n) ℝ} (hT : Symplectic T) (hS : Symplectic S) : Symplectic (T * S) := by
  unfold Symplectic at *
  rw [transpose_mul]
  calc _ = T * (S * fromBlocks 0 1 (-1) 0 * Sᵀ) * Tᵀ := by simp only [Matrix.mul_assoc]
    _ = _ := by rw [hS, hT]

theorem compose_aux {T S : Matrix (n ⊕ n) (n ⊕ n) ℝ} (hT : Symplectic T) (hS : Symplectic S) :
    ∃ ω : ℂ, ‖ω‖ = 1 ∧
      ω * fromSymplecticC (T * S) = fromSymplecticC T * fromSymplecticC S *
        gaussConst (fromBlocks (symplectic2Au S).toBlocks₁₁ (-1) (-1) (symplectic2Au T).toBlocks₂₂) ∧
      ∀ z v, opMul (fromSymplectic T) (fromSymplectic S) z v = ω * fromSymplectic (T * S) z v := by
  have hTS := symplectic_mul hT hS
  obtain ⟨a1, a2, a3, a4, ea, -, at2, at3, at4, ac, -, -, au1, -, -, au4⟩ := A_blocks hT
  obtain ⟨b1, b2, b3, b4, eb, bt1, bt2, bt3, -, bc, -, bc', bu1, -, -, -⟩ := A_blocks hS
  have hac : cj (cS1 T) * a3 = 1 := by rw [ac, ← cj_mul, mul_nonsing_inv _ (cS1_unit (complex_symplectic hT).1), cj_one]
  have sb : Shrinks b1 := shrinks_of bu1 bc'
  have sa : Shrinks a4 := shrinks_of (B := a2) (C := (cj (cS1 T))ᵀ) (by rw [add_comm]; exact au4) (by
    rw [← at3, ← transpose_mul, ac, ← cj_mul, nonsing_inv_mul _ (cS1_unit (complex_symplectic hT).1), cj_one, transpose_one])
  rw [ea, eb, toBlocks_fromBlocks₁₁, toBlocks_fromBlocks₂₂]
  have ea' := ea
  have eb' := eb
  rw [symplectic2Au_eq hT, fromBlocks_inj] at ea'
  rw [symplectic2Au_eq hS, fromBlocks_inj] at eb'
  obtain ⟨va1, va2, va3, va4⟩ := ea'
  obtain ⟨vb1, vb2, vb3, vb4⟩ := eb'
  obtain ⟨m1, m2⟩ := cS_mul T S
  obtain ⟨hT1, hT2⟩ := complex_symplectic hT
  obtain ⟨hS1, hS2⟩ := complex_symplectic hS
  obtain ⟨iT1, iT2, -, -, kT⟩ := block_relations hT1 hT2
  obtain ⟨iS1, iS2, -, -, kS⟩ := block_relations hS1 hS2
  obtain ⟨iQ1, iQ2, -, -, -⟩ := block_relations (complex_symplectic hTS).1 (complex_symplectic hTS).2
  have dT := cS1_det_ne hT
  have dS := cS1_det_ne hS
  have dQ := cS1_det_ne hTS
  have nT := norm_fromSymplecticC hT
  have nS := norm_fromSymplecticC hS
  have nQ := norm_fromSymplecticC hTS
  have neQ := fromSymplecticC_ne hTS
  have eQ := symplectic2Au_eq hTS
  unfold fromSymplectic
  rw [ea, eb]
  rw [eQ]
  set T1 := cS1 T
  set T2 := cS2 T
  set S1 := cS1 S
  set S2 := cS2 S
  set Q1 := cS1 (T * S)
  set Q2 := cS2 (T * S)
  have c1 : ∀ M N : Matrix n n ℂ, M * N = 1 → cj M * cj N = 1 := fun M N h => by rw [← cj_mul, h, cj_one]
  have jT1 := c1 _ _ iT1
  have jT2 := c1 _ _ iT2
  have jS1 := c1 _ _ iS1
  have jS2 := c1 _ _ iS2
  have jQ1 := c1 _ _ iQ1
  have jQ2 := c1 _ _ iQ2
  have hcQ : cj Q1 = cj T1 * cj S1 + cj T2 * S2 := by rw [m1, cj_add, cj_mul, cj_mul, cj_cj]
  have hcQ2 : cj Q2 = cj T1 * cj S2 + cj T2 * S1 := by rw [m2, cj_add, cj_mul, cj_mul, cj_cj]
  set W : Matrix n n ℂ := cj S1 * cj Q1⁻¹ * cj T1 with hWd
  have hW : (1 - a4 * b1) * W = 1 := by
    have : 1 - a4 * b1 = cj T1⁻¹ * cj Q1 * cj S1⁻¹ := by
      rw [← va4, ← vb1, hcQ, cj_mul, Matrix.neg_mul, sub_neg_eq_add, Matrix.mul_add, Matrix.add_mul,
        ← Matrix.mul_assoc (cj T1⁻¹) (cj T1), jT1, Matrix.one_mul, jS2]
      simp only [Matrix.mul_assoc]
    rw [this, hWd]
    calc _ = cj T1⁻¹ * (cj Q1 * ((cj S1⁻¹ * cj S1) * cj Q1⁻¹)) * cj T1 := by simp only [Matrix.mul_assoc]
      _ = 1 := by rw [jS1, Matrix.one_mul, jQ2, Matrix.mul_one, jT1]
  have g2 := overlap_sq bt1 at4 sb sa hW
  have key := fun z v => opMul_gauss (a1 := a1) (b4 := b4) at2 bt2 at4 bt1 sa sb hW (fromSymplecticC T) (fromSymplecticC S) z v
  set g := gaussConst (fromBlocks b1 (-1) (-1) a4)
  -- the blocks
  have x3 : b3 * W * a3 = cj Q1⁻¹ := by
    rw [← vb3, ← va3, hWd]
    calc _ = (cj S1⁻¹ * cj S1) * cj Q1⁻¹ * (cj T1 * cj T1⁻¹) := by simp only [Matrix.mul_assoc]
      _ = _ := by rw [jS1, jT2, Matrix.one_mul, Matrix.mul_one]
  have x2 : a2 * Wᵀ * b2 = (Q1⁻¹)ᴴ := by
    rw [← cj_transpose', ← x3, transpose_mul (b3 * W), transpose_mul b3, at3, bt3, Matrix.mul_assoc]
  have x4 : b4 + b3 * W * a4 * b2 = -cj (Q1⁻¹ * Q2) := by
    have e1 : b3 * W * a4 = -(cj Q1⁻¹ * cj T2) := by
      rw [← vb3, ← va4, hWd, cj_mul, Matrix.mul_neg]
      refine congrArg Neg.neg ?_
      calc _ = (cj S1⁻¹ * cj S1) * cj Q1⁻¹ * ((cj T1 * cj T1⁻¹) * cj T2) := by simp only [Matrix.mul_assoc]
        _ = _ := by rw [jS1, jT2, Matrix.one_mul, Matrix.one_mul]
    have e2 : cj Q2 = cj Q1 * cj (S1⁻¹ * S2) + cj T2 * (S1⁻¹)ᴴ := by
      rw [hcQ2, hcQ, ← kS, Matrix.add_mul, Matrix.mul_sub, cj_mul]
      have : cj T1 * cj S1 * (cj S1⁻¹ * cj S2) = cj T1 * cj S2 := by
        calc _ = cj T1 * ((cj S1 * cj S1⁻¹) * cj S2) := by simp only [Matrix.mul_assoc]
          _ = _ := by rw [jS2, Matrix.one_mul]
      rw [this]
      simp only [Matrix.mul_assoc]
      abel
    rw [e1, ← vb4, ← vb2, cj_mul Q1⁻¹, e2, Matrix.mul_add, ← Matrix.mul_assoc, jQ1, Matrix.one_mul, Matrix.neg_mul, neg_add,
      Matrix.mul_assoc]
  have x1 : a1 + a2 * b1 * W * a3 = Q2 * cj Q1⁻¹ := by
    have e1 : b1 * W * a3 = S2 * cj Q1⁻¹ := by
      rw [← vb1, ← va3, hWd]
      calc _ = S2 * (cj S1⁻¹ * cj S1) * cj Q1⁻¹ * (cj T1 * cj T1⁻¹) := by simp only [Matrix.mul_assoc]
        _ = _ := by rw [jS1, jT2, Matrix.mul_one, Matrix.mul_one]
    have e2 : Q2 = T2 * cj T1⁻¹ * cj Q1 + (T1⁻¹)ᴴ * S2 := by
      rw [m2, hcQ, ← kT, Matrix.sub_mul, cj_mul, Matrix.mul_add]
      have : T2 * cj T1⁻¹ * (cj T1 * cj S1) = T2 * cj S1 := by
        calc _ = T2 * ((cj T1⁻¹ * cj T1) * cj S1) := by simp only [Matrix.mul_assoc]
          _ = _ := by rw [jT1, Matrix.one_mul]
      rw [this]
      simp only [Matrix.mul_assoc]
      abel
    rw [e2, ← va1, ← va2, Matrix.add_mul, Matrix.mul_assoc (T2 * cj T1⁻¹), jQ2, Matrix.mul_one]
    refine congrArg (T2 * cj T1⁻¹ + ·) ?_
    calc _ = (T1⁻¹)ᴴ * (b1 * W * a3) := by simp only [Matrix.mul_assoc]
      _ = _ := by rw [e1, Matrix.mul_assoc]
  rw [x1, x2, x3, x4] at key
  refine ⟨fromSymplecticC T * fromSymplecticC S * g / fromSymplecticC (T * S), ?_, div_mul_cancel₀ _ neQ, fun z v => ?_⟩
  · have hg : ‖g‖ ^ 2 = ‖S1.det‖ * ‖Q1.det‖⁻¹ * ‖T1.det‖ := by
      rw [← norm_pow, g2, hWd, det_mul, det_mul, det_cj, det_cj, det_cj, norm_mul, norm_mul, RCLike.norm_conj, RCLike.norm_conj,
        RCLike.norm_conj, det_nonsing_inv, Ring.inverse_eq_inv', norm_inv]
    have h2 : ‖fromSymplecticC T * fromSymplecticC S * g / fromSymplecticC (T * S)‖ ^ 2 = 1 := by
      rw [norm_div, norm_mul, norm_mul, div_pow, mul_pow, mul_pow, nT, nS, nQ, hg]
      have := norm_ne_zero_iff.2 dT
      have := norm_ne_zero_iff.2 dS
      have := norm_ne_zero_iff.2 dQ
      field_simp
    exact (pow_eq_one_iff_of_nonneg (norm_nonneg _) two_ne_zero).1 h2
  · rw [key z v, ← mul_assoc, div_mul_cancel₀ _ neQ]

/-- **C64 (composition)** The product of the unitaries of two symplectic matrices is the unitary of the product of the
matrices, up to a constant phase. -/
theorem C64_compose (T S : Matrix (n ⊕ n) (n ⊕ n) ℝ) (hT : Symplectic T) (hS : Symplectic S) :
    ∃ ω : ℂ, ‖ω‖ = 1 ∧ ∀ z v, opMul (fromSymplectic T) (fromSymplectic S) z v = ω * fromSymplectic (T * S) z v := by
  obtain ⟨ω, h, -, e⟩ := compose_aux hT hS
  exact ⟨ω, h, e⟩

theorem cS_one : cS1 (1 : Matrix (n ⊕ n) (n ⊕ n) ℝ) = 1 ∧ cS2 (1 : Matrix (n ⊕ n) (n ⊕ n) ℝ) = 0 := by
  have : rotmat n * toC (1 : Matrix (n ⊕ n) (n ⊕ n) ℝ) * (rotmat n)ᴴ = 1 := by
    rw [show toC (1 : Matrix (n ⊕ n) (n ⊕ n) ℝ) = 1 by
      unfold toC; exact Matrix.map_one _ Complex.ofReal_zero Complex.ofReal_one, Matrix.mul_one, rotmat_mul]
  rw [rot_blocks] at this
  have t := this.trans fromBlocks_one.symm
  rw [fromBlocks_inj] at t
  exact ⟨t.1, t.2.1⟩

theorem symplectic_one : Symplectic (1 : Matrix (n ⊕ n) (n ⊕ n) ℝ) := by
  unfold Symplectic
  rw [Matrix.one_mul, transpose_one, Matrix.mul_one]

/-- **C64 (identity)** The unitary of the identity matrix is the identity. -/
theorem C64_one (z v : n → ℂ) : fromSymplectic (1 : Matrix (n ⊕ n) (n ⊕ n) ℝ) z v = opId z v := by
  obtain ⟨e1, e2⟩ := cS_one (n := n)
  unfold fromSymplectic
  rw [fromSymplecticC_eq symplectic_one, symplectic2Au_eq symplectic_one, e1, e2]
  unfold opId
  rw [inv_one, det_one, norm_one, Real.one_rpow, Complex.ofReal_one, one_mul, exponent_blocks _ _ _ _ (by rw [conjT_transpose])]
  refine congrArg Complex.exp ?_
  simp [cj, dotProduct]

/-- **C64 (unitarity)** `U† U = U U† = 1`. -/
theorem C64_isometry (S : Matrix (n ⊕ n) (n ⊕ n) ℝ) (h : Symplectic S) (z v : n → ℂ) :
    opMul (opAdj (fromSymplectic S)) (fromSymplectic S) z v = opId z v := by
  have hu : IsUnit S.det := by
    have := congrArg det h
    rw [det_mul, det_mul, det_transpose] at this
    have hJ : (fromBlocks 0 1 (-1) 0 : Matrix (n ⊕ n) (n ⊕ n) ℝ).det ≠ 0 := by
      intro e
      have hJJ : (fromBlocks 0 1 (-1) 0 : Matrix (n ⊕ n) (n ⊕ n) ℝ) * fromBlocks 0 (-1) 1 0 = 1 := by
        rw [fromBlocks_multiply, ← fromBlocks_one]; simp
      have := congrArg det hJJ
      rw [det_mul, e, zero_mul, det_one] at this
      exact zero_ne_one this
    refine isUnit_iff_ne_zero.2 fun e => ?_
    rw [e, mul_zero] at this
    exact hJ this.symm
  have hi : S * S⁻¹ = 1 := mul_nonsing_inv _ hu
  have hi' : S⁻¹ * S = 1 := nonsing_inv_mul _ hu
  obtain ⟨k1, k2, h'⟩ := cS_inverse h hi
  have e : opAdj (fromSymplectic S) = fromSymplectic S⁻¹ := by
    funext z v; exact (C64_inverse S S⁻¹ h hi z v).2.symm
  obtain ⟨ω, hω, hg, key⟩ := compose_aux h' h
  rw [e, key, hi', C64_one]
  rw [hi'] at hg
  have hpos : ∃ t : ℝ, 0 < t ∧ ω = t := by
    obtain ⟨A1, A2, A3, A4, ea, s1, -, -, -, ac, -, bc', u1, -, -, -⟩ := A_blocks h
    have hq : (symplectic2Au S⁻¹).toBlocks₂₂ = cj A1 := by
      have va1 := ea
      rw [symplectic2Au_eq h, fromBlocks_inj] at va1
      obtain ⟨i1, i2, r1, r2, -⟩ := block_relations (complex_symplectic h).1 (complex_symplectic h).2
      rw [symplectic2Au_eq h', toBlocks_fromBlocks₂₂, k1, k2, ← conjTranspose_nonsing_inv, ← va1.1, r2, Matrix.mul_neg, cj_neg, neg_neg]
    have sA : Shrinks A1 := shrinks_of u1 bc'
    have sA' : Shrinks (cj A1) := by
      refine shrinks_of (B := cj A3) (C := cS1 S) ?_ ?_
      · have := congrArg cj u1
        rw [cj_add, cj_mul, cj_mul, cj_one, cj_conjT, cj_conjT] at this
        rw [conjT_cj, conjT_cj]; exact this
      · have := congrArg cj bc'
        rwa [cj_mul, cj_cj, cj_one] at this
    rw [hq, ea, toBlocks_fromBlocks₁₁] at hg
    obtain ⟨t, ht, et⟩ := gaussConst_pos (M := fromBlocks A1 (-1) (-1) (cj A1)) (by
      have : (fromBlocks A1 (-1) (-1) (cj A1))ᵀ = fromBlocks A1 (-1) (-1) (cj A1) := by
        rw [fromBlocks_transpose, s1, transpose_neg, transpose_one, cj_transpose', ← cj_transpose, s1]
      intro p q
      conv_lhs => rw [← this]
      rfl) (overlap_negRe sA sA') (by
      intro p q
      rcases p with i | i <;> rcases q with j | j <;> simp [cj, Matrix.one_apply] <;> split_ifs <;> simp)
    obtain ⟨a, ha, ea⟩ := C64_positive S⁻¹ h'
    obtain ⟨b, hb, eb⟩ := C64_positive S h
    obtain ⟨c, hc, ec⟩ := C64_positive 1 (symplectic_one (n := n))
    have z0 : ∀ R : Matrix (n ⊕ n) (n ⊕ n) ℝ, fromSymplectic R 0 0 = fromSymplecticC R := fun R => by
      unfold fromSymplectic
      rw [show (Sum.elim 0 0 : n ⊕ n → ℂ) = 0 from Sum.elim_zero_zero, zero_dotProduct, mul_zero, Complex.exp_zero, mul_one]
    rw [z0] at ea eb ec
    rw [ea, eb, ec, et] at hg
    refine ⟨a * b * t / c, by positivity, ?_⟩
    have : (c : ℂ) ≠ 0 := by exact_mod_cast hc.ne'
    push_cast
    rw [← hg, mul_div_cancel_right₀ _ this]
  obtain ⟨t, ht, rfl⟩ := hpos
  rw [Complex.norm_real, Real.norm_of_nonneg ht.le] at hω
  rw [hω, Complex.ofReal_one, one_mul]

/-! ## Uniqueness -/

/-- The partial derivatives of a function acting on the quadratures by `S`. -/
theorem implements_deriv {S : Matrix (n ⊕ n) (n ⊕ n) ℝ} (h : Symplectic S) {F : (n → ℂ) → (n → ℂ) → ℂ} (hF : Implements F S)
    (z w : n → ℂ) :
    (∀ i, deriv (fun t => F (Function.update z i t) w) (z i) = (symplectic2Au S).mulVec (Sum.elim z w) (Sum.inl i) * F z w) ∧
    ∀ i, deriv (fun t => F z (Function.update w i t)) (w i) = (symplectic2Au S).mulVec (Sum.elim z w) (Sum.inr i) * F z w := by
  rw [implements_iff] at hF
  obtain ⟨e1, e2⟩ := hF z w
  obtain ⟨h1, h2⟩ := complex_symplectic h
  obtain ⟨i1, i2, k1, k2, k3⟩ := block_relations h1 h2
  rw [symplectic2Au_eq h, fromBlocks_mulVec, Sum.elim_comp_inl, Sum.elim_comp_inr]
  simp only [Sum.elim_inl, Sum.elim_inr]
  set S1 := cS1 S
  set S2 := cS2 S
  set f := F z w
  set dz := fun i => deriv (fun t => F (Function.update z i t) w) (z i)
  set dw := fun i => deriv (fun t => F z (Function.update w i t)) (w i)
  have sm : ∀ x : n → ℂ, (fun i => x i * f) = f • x := fun x => funext fun i => mul_comm _ _
  rw [sm] at e1 e2
  rw [sm, Matrix.mulVec_smul] at e2
  rw [Matrix.mulVec_smul] at e1
  have hi : cj S1⁻¹ * cj S1 = 1 := by rw [← cj_mul, i1, cj_one]
  have hdw : dw = f • ((cj S1⁻¹).mulVec z + (-cj (S1⁻¹ * S2)).mulVec w) := by
    have := congrArg (cj S1⁻¹).mulVec e2
    rw [Matrix.mulVec_smul, Matrix.mulVec_add, Matrix.mulVec_mulVec, hi, Matrix.one_mulVec, Matrix.mulVec_smul, Matrix.mulVec_mulVec,
      ← cj_mul] at this
    rw [smul_add, this, Matrix.neg_mulVec, smul_neg]
    abel
  have hdz : dz = f • ((S2 * cj S1⁻¹).mulVec z + ((S1⁻¹)ᴴ).mulVec w) := by
    rw [e1, hdw, Matrix.mulVec_smul, ← smul_add, Matrix.mulVec_add, Matrix.mulVec_mulVec, Matrix.mulVec_mulVec, ← k3,
      Matrix.sub_mulVec, Matrix.mul_neg, Matrix.neg_mulVec]
    refine congrArg _ ?_
    abel
  exact ⟨fun i => by have := congrFun hdz i; rw [mul_comm]; exact this, fun i => by have := congrFun hdw i; rw [mul_comm]; exact this⟩

theorem fderiv_zero_of_partial {G : (n → ℂ) × (n → ℂ) → ℂ} (hG : Differentiable ℂ G)
    (hz : ∀ z w i, HasDerivAt (fun t => G (Function.update z i t, w)) 0 (z i))
    (hw : ∀ z w i, HasDerivAt (fun t => G (z, Function.update w i t)) 0 (w i)) (p q : (n → ℂ) × (n → ℂ)) : G p = G q := by
  refine is_const_of_fderiv_eq_zero hG (fun p => ?_) p q
  obtain ⟨z, w⟩ := p
  have hL := (hG (z, w)).hasFDerivAt
  set L := fderiv ℂ G (z, w)
  have a1 : ∀ i, L (Pi.single i 1, 0) = 0 := fun i => by
    have hu : HasDerivAt (fun t : ℂ => (Function.update z i t, w)) (Pi.single i 1, 0) (z i) :=
      (hasDerivAt_update z i (z i)).prodMk (hasDerivAt_const _ _)
    have hL' : HasFDerivAt G L (Function.update z i (z i), w) := by rw [Function.update_eq_self]; exact hL
    exact (hL'.comp_hasDerivAt (z i) hu).unique (hz z w i)
  have a2 : ∀ i, L (0, Pi.single i 1) = 0 := fun i => by
    have hu : HasDerivAt (fun t : ℂ => (z, Function.update w i t)) (0, Pi.single i 1) (w i) :=
      (hasDerivAt_const _ _).prodMk (hasDerivAt_update w i (w i))
    have hL' : HasFDerivAt G L (z, Function.update w i (w i)) := by rw [Function.update_eq_self]; exact hL
    exact (hL'.comp_hasDerivAt (w i) hu).unique (hw z w i)
  ext x
  · have : x = ∑ i, x i • Pi.single i (1 : ℂ) := by
      funext j; simp [Finset.sum_apply, Pi.single_apply]
    show L (x, 0) = 0
    have e : ((x, 0) : (n → ℂ) × (n → ℂ)) = ∑ i, x i • (Pi.single i (1 : ℂ), (0 : n → ℂ)) := by
      refine Prod.ext ?_ ?_
      · rw [Prod.fst_sum]; exact this
      · rw [Prod.snd_sum]; simp
    rw [e, map_sum]
    exact Finset.sum_eq_zero fun i _ => by rw [map_smul, a1, smul_zero]
  · have : x = ∑ i, x i • Pi.single i (1 : ℂ) := by
      funext j; simp [Finset.sum_apply, Pi.single_apply]
    show L (0, x) = 0
    have e : ((0, x) : (n → ℂ) × (n → ℂ)) = ∑ i, x i • ((0 : n → ℂ), Pi.single i (1 : ℂ)) := by
      refine Prod.ext ?_ ?_
      · rw [Prod.fst_sum]; simp
      · rw [Prod.snd_sum]; exact this
    rw [e, map_sum]
    exact Finset.sum_eq_zero fun i _ => by rw [map_smul, a2, smul_zero]

/-- **C64 (uniqueness)** Any operator acting on the quadratures by `S` is a multiple of the one built by the code. -/
theorem C64_unique (S : Matrix (n ⊕ n) (n ⊕ n) ℝ) (h : Symplectic S) (F : (n → ℂ) → (n → ℂ) → ℂ)
    (hd : Differentiable ℂ fun p : (n → ℂ) × (n → ℂ) => F p.1 p.2) (hF : Implements F S) :
    ∃ c : ℂ, ∀ z w, F z w = c * fromSymplectic S z w := by
  have hs := C64_symm S h
  set A := symplectic2Au S with hA
  set q : (n → ℂ) × (n → ℂ) → ℂ := fun p => 1 / 2 * (Sum.elim p.1 p.2 ⬝ᵥ A.mulVec (Sum.elim p.1 p.2)) with hq
  have hqd : Differentiable ℂ q := by
    have e : ∀ r : n ⊕ n, Differentiable ℂ fun p : (n → ℂ) × (n → ℂ) => Sum.elim p.1 p.2 r := fun r => by
      rcases r with i | i
      · show Differentiable ℂ fun p : (n → ℂ) × (n → ℂ) => p.1 i
        fun_prop
      · show Differentiable ℂ fun p : (n → ℂ) × (n → ℂ) => p.2 i
        fun_prop
    rw [hq]
    simp only [dotProduct, mulVec]
    refine (differentiable_const _).mul (Differentiable.fun_sum fun r _ => (e r).mul (Differentiable.fun_sum fun s _ => (differentiable_const _).mul (e s)))
  have hGd : Differentiable ℂ fun p : (n → ℂ) × (n → ℂ) => F p.1 p.2 * Complex.exp (-q p) := hd.mul hqd.neg.cexp
  have key := fderiv_zero_of_partial hGd (fun z w i => ?_) (fun z w i => ?_)
  · refine ⟨F 0 0 / fromSymplecticC S, fun z w => ?_⟩
    have k := key (z, w) (0, 0)
    have q0 : q (0, 0) = 0 := by
      rw [hq]
      simp only []
      rw [show (Sum.elim 0 0 : n ⊕ n → ℂ) = 0 from Sum.elim_zero_zero, zero_dotProduct, mul_zero]
    simp only [q0, neg_zero, Complex.exp_zero, mul_one] at k
    unfold fromSymplectic
    rw [← k, ← mul_assoc, div_mul_cancel₀ _ (fromSymplecticC_ne h), mul_assoc, ← Complex.exp_add]
    rw [show -q (z, w) + 1 / 2 * (Sum.elim z w ⬝ᵥ A.mulVec (Sum.elim z w)) = 0 from neg_add_cancel _, Complex.exp_zero, mul_one]
  · obtain ⟨e, -⟩ := implements_deriv h hF z w
    have hf : HasDerivAt (fun t => F (Function.update z i t) w) (A.mulVec (Sum.elim z w) (Sum.inl i) * F z w) (z i) := by
      rw [← e i]
      refine DifferentiableAt.hasDerivAt ?_
      have : DifferentiableAt ℂ (fun t : ℂ => (Function.update z i t, w)) (z i) :=
        ((hasDerivAt_update z i (z i)).prodMk (hasDerivAt_const (z i) w)).differentiableAt
      exact DifferentiableAt.comp (g := fun p : (n → ℂ) × (n → ℂ) => F p.1 p.2) (z i) (hd _) this
    have hqu := quad_update hs (Sum.elim z w) (Sum.inl i)
    simp only [Sum.update_elim_inl, Sum.elim_inl] at hqu
    have := hf.mul hqu.neg.cexp
    refine this.congr_deriv ?_
    simp only [Function.update_eq_self, Pi.neg_apply]
    ring
  · obtain ⟨-, e⟩ := implements_deriv h hF z w
    have hf : HasDerivAt (fun t => F z (Function.update w i t)) (A.mulVec (Sum.elim z w) (Sum.inr i) * F z w) (w i) := by
      rw [← e i]
      refine DifferentiableAt.hasDerivAt ?_
      have : DifferentiableAt ℂ (fun t : ℂ => (z, Function.update w i t)) (w i) :=
        ((hasDerivAt_const (w i) z).prodMk (hasDerivAt_update w i (w i))).differentiableAt
      exact DifferentiableAt.comp (g := fun p : (n → ℂ) × (n → ℂ) => F p.1 p.2) (w i) (hd _) this
    have hqu := quad_update hs (Sum.elim z w) (Sum.inr i)
    simp only [Sum.update_elim_inr, Sum.elim_inr] at hqu
    have := hf.mul hqu.neg.cexp
    refine this.congr_deriv ?_
    simp only [Function.update_eq_self, Pi.neg_apply]
    ring

end Verif.Manifold
