import Verif.ChannelIdle

/-!
# `Channel.XY` and `Channel.is_TP` (C75)

`mrmustard/physics/bargmann_utils.py` 176-235, `mrmustard/lab/transformations/base.py` 411-475.
-/

namespace Verif.Manifold
open Matrix Verif.Gauss MeasureTheory
open scoped ComplexOrder MatrixOrder

variable {n : Type*} [Fintype n] [DecidableEq n]
variable {p q r : Type*} [Fintype p] [DecidableEq p] [Fintype q] [DecidableEq q] [Fintype r] [DecidableEq r]

/-! ## Model -/

/-- The positions of the output wires (bra, ket) of a channel: `[:m]` and `[2m:3m]` in `XY_of_channel` (`mrmustard/physics/bargmann_utils.py` 189-194). -/
def outIx : p ⊕ p → (p ⊕ q) ⊕ (p ⊕ q) := Sum.map Sum.inl Sum.inl

/-- The positions of the input wires (bra, ket) of a channel: `[m:2m]` and `[3m:]` in `XY_of_channel` (`mrmustard/physics/bargmann_utils.py` 195-200). -/
def inIx : q ⊕ q → (p ⊕ q) ⊕ (p ⊕ q) := Sum.map Sum.inr Sum.inr

/-- `sigma_H` in `XY_of_channel` (`mrmustard/physics/bargmann_utils.py` 219). -/
noncomputable def xySigmaH (A : Matrix ((p ⊕ q) ⊕ (p ⊕ q)) ((p ⊕ q) ⊕ (p ⊕ q)) ℂ) : Matrix (p ⊕ p) (p ⊕ p) ℂ :=
  (1 - Xmat p * A.submatrix outIx outIx)⁻¹

/-- `X_tilde` in `XY_of_channel` (`mrmustard/physics/bargmann_utils.py` 201-206). -/
noncomputable def xyTilde (A : Matrix ((p ⊕ q) ⊕ (p ⊕ q)) ((p ⊕ q) ⊕ (p ⊕ q)) ℂ) : Matrix (p ⊕ p) (q ⊕ q) ℂ :=
  -(1 - Xmat p * A.submatrix outIx outIx)⁻¹ * Xmat p * A.submatrix outIx inIx * Xmat q

/-- `transformation` in `XY_of_channel` (`mrmustard/physics/bargmann_utils.py` 207-215). -/
noncomputable def xyTrafo (p : Type*) [DecidableEq p] : Matrix (p ⊕ p) (p ⊕ p) ℂ := fromBlocks 1 1 (-(Complex.I • 1)) (Complex.I • 1)

/-- The complex `X` in `XY_of_channel` (`mrmustard/physics/bargmann_utils.py` 216). -/
noncomputable def xyOfX (A : Matrix ((p ⊕ q) ⊕ (p ⊕ q)) ((p ⊕ q) ⊕ (p ⊕ q)) ℂ) : Matrix (p ⊕ p) (q ⊕ q) ℂ :=
  (2 : ℂ)⁻¹ • (-xyTrafo p * xyTilde A * (xyTrafo q)ᴴ)

/-- `sigma` in `XY_of_channel` (`mrmustard/physics/bargmann_utils.py` 218-226). -/
noncomputable def xySigma (A : Matrix ((p ⊕ q) ⊕ (p ⊕ q)) ((p ⊕ q) ⊕ (p ⊕ q)) ℂ) : Matrix (p ⊕ p) (p ⊕ p) ℝ :=
  let N := (xySigmaH A).toBlocks₂₂
  let M := (xySigmaH A).toBlocks₁₂
  fromBlocks ((N + M).map Complex.re) ((N + M).map Complex.im) ((M - N).map Complex.im) ((N - M).map Complex.re) - (2 : ℝ)⁻¹ • 1

/-- The complex `Y` in `XY_of_channel` (`mrmustard/physics/bargmann_utils.py` 227-228). -/
noncomputable def xyOfY (A : Matrix ((p ⊕ q) ⊕ (p ⊕ q)) ((p ⊕ q) ⊕ (p ⊕ q)) ℂ) : Matrix (p ⊕ p) (p ⊕ p) ℂ :=
  toC (xySigma A) - (2 : ℂ)⁻¹ • (xyOfX A * (xyOfX A)ᵀ)

/-- `Channel.XY` (`mrmustard/physics/bargmann_utils.py` 176-235, `mrmustard/lab/transformations/base.py` 461-475): `none` if the inverse does not exist or
one of the two checks of the imaginary parts fails (Frobenius norms).  One batch element. -/
noncomputable def xyOf (atol ħ : ℝ) (A : Matrix ((p ⊕ q) ⊕ (p ⊕ q)) ((p ⊕ q) ⊕ (p ⊕ q)) ℂ) : Option (Matrix (p ⊕ p) (q ⊕ q) ℝ × Matrix (p ⊕ p) (p ⊕ p) ℝ) :=
  open Classical in
  if (1 - Xmat p * A.submatrix outIx outIx).det = 0 then none
  else if atol < Real.sqrt (∑ i, ∑ j, ‖(xyOfX A i j).im‖ ^ 2) then none
  else if atol < Real.sqrt (∑ i, ∑ j, ‖(xyOfY A i j).im‖ ^ 2) then none
  else some ((xyOfX A).map Complex.re, ħ • (xyOfY A).map Complex.re)

/-- `temp_A` in `Channel.is_TP` (`mrmustard/lab/transformations/base.py` 435-444). -/
noncomputable def tpMat (A : Matrix (n ⊕ n) (n ⊕ n) ℂ) : Matrix n n ℂ :=
  A.toBlocks₁₂ + A.toBlocks₂₂ᴴ * (1 - A.toBlocks₁₂ᵀ)⁻¹ * A.toBlocks₂₂

/-- `Channel.is_TP` (`mrmustard/lab/transformations/base.py` 411-445) for one batch element; `none` if the inverse does not exist. -/
noncomputable def isTP (atol : ℝ) (A : Matrix (n ⊕ n) (n ⊕ n) ℂ) : Option Prop :=
  open Classical in
  if (1 - A.toBlocks₁₂ᵀ).det = 0 then none
  else some (Real.sqrt (∑ i, ∑ j, ‖(tpMat A - 1) i j‖ ^ 2) < atol)

/-! ## Specification -/

/-- The trace of the output of a channel, as a function of its input variables. -/
noncomputable def trOut (Φ : (p → ℂ) → (q → ℂ) → (p → ℂ) → (q → ℂ) → ℂ) (z' w' : q → ℂ) : ℂ := opTr fun u v => Φ u z' v w'

/-- Trace preservation: tracing out the output of the channel is the trace of its input, whose Bargmann function is `exp (z'·w')`. -/
def TracePres (Φ : (p → ℂ) → (q → ℂ) → (p → ℂ) → (q → ℂ) → ℂ) : Prop := ∀ z' w', trOut Φ z' w' = Complex.exp (z' ⬝ᵥ w')

/-! ## Real form of the triple of a Hermitian map -/

theorem xyR_unit : (xyR p q)ᴴ * xyR p q = 1 := by
  have h2 : star ((1 / Real.sqrt 2 : ℝ) : ℂ) * ((1 / Real.sqrt 2 : ℝ) : ℂ) = 1 / 2 := by
    rw [Complex.star_def, Complex.conj_ofReal, ← Complex.ofReal_mul, div_mul_div_comm, Real.mul_self_sqrt (by norm_num)]
    norm_num
  unfold xyR
  rw [conjTranspose_smul, Matrix.smul_mul, Matrix.mul_smul, smul_smul, h2]
  simp only [fromBlocks_conjTranspose, fromBlocks_multiply, conjTranspose_one, conjTranspose_neg, conjTranspose_smul, conjTranspose_zero, Matrix.mul_zero, Matrix.zero_mul,
    add_zero, zero_add, Matrix.mul_one, Matrix.one_mul, fromBlocks_add, Matrix.smul_mul, Matrix.mul_smul, Matrix.neg_mul, Matrix.mul_neg]
  ext i j
  rcases i with (i | i) | (i | i) <;> rcases j with (j | j) | (j | j) <;> simp [Matrix.one_apply] <;> split_ifs <;> norm_num

theorem xyR_unit' : xyR p q * (xyR p q)ᴴ = 1 := by
  generalize hσ : Equiv.sumSumSumComm p p q q = σ
  have h1 : (xyR p q).submatrix σ id * ((xyR p q).submatrix σ id)ᴴ = 1 := by
    rw [mul_eq_one_comm, conjTranspose_submatrix, submatrix_mul_equiv, xyR_unit]
    simp
  rw [conjTranspose_submatrix, ← Matrix.submatrix_mul _ _ _ _ _ Function.bijective_id] at h1
  have h2 := congrArg (fun M : Matrix ((p ⊕ p) ⊕ (q ⊕ q)) ((p ⊕ p) ⊕ (q ⊕ q)) ℂ => M.submatrix σ.symm σ.symm) h1
  simpa using h2

/-- The matrix of a Hermitian map in phase space coordinates. -/
noncomputable def kOf (A : Matrix ((p ⊕ q) ⊕ (p ⊕ q)) ((p ⊕ q) ⊕ (p ⊕ q)) ℂ) : Matrix ((p ⊕ p) ⊕ (q ⊕ q)) ((p ⊕ p) ⊕ (q ⊕ q)) ℝ :=
  ((xyR p q)ᵀ * A * xyR p q).map Complex.re

theorem kOf_spec {A : Matrix ((p ⊕ q) ⊕ (p ⊕ q)) ((p ⊕ q) ⊕ (p ⊕ q)) ℂ} (hs : Aᵀ = A) (hA : A = Xmat (p ⊕ q) * cj A * Xmat (p ⊕ q)) :
    A = cj (xyR p q) * toC (kOf A) * (xyR p q)ᴴ ∧ (kOf A)ᵀ = kOf A := by
  have hRX : (xyR p q)ᵀ * Xmat (p ⊕ q) = (xyR p q)ᴴ := by
    have := congrArg Matrix.transpose (Xmat_xyR (p := p) (q := q))
    rwa [transpose_mul, Xmat_T] at this
  have hXR : Xmat (p ⊕ q) * cj (xyR p q) = xyR p q := by rw [← Xmat_xyR, ← Matrix.mul_assoc, Xmat_sq, Matrix.one_mul]
  have hR : (xyR p q)ᴴ * Xmat (p ⊕ q) = (xyR p q)ᵀ := by rw [← hRX, Matrix.mul_assoc, Xmat_sq, Matrix.mul_one]
  have hreal : toC (kOf A) = (xyR p q)ᵀ * A * xyR p q := by
    have h1 : cj ((xyR p q)ᵀ * A * xyR p q) = (xyR p q)ᵀ * A * xyR p q := by
      rw [cj_mul, cj_mul, cj_transpose]
      calc (xyR p q)ᴴ * cj A * cj (xyR p q) = ((xyR p q)ᵀ * Xmat (p ⊕ q)) * cj A * (Xmat (p ⊕ q) * xyR p q) := by rw [hRX, Xmat_xyR]
        _ = (xyR p q)ᵀ * (Xmat (p ⊕ q) * cj A * Xmat (p ⊕ q)) * xyR p q := by simp only [Matrix.mul_assoc]
        _ = _ := by rw [← hA]
    ext i j
    have h2 := congrFun (congrFun h1 i) j
    simp only [cj, Matrix.map_apply] at h2
    simp only [toC, kOf, Matrix.map_apply]
    exact Complex.conj_eq_iff_re.1 h2
  have hcu : cj (xyR p q) * (xyR p q)ᵀ = 1 := by
    have := congrArg (cj) (xyR_unit' (p := p) (q := q))
    rwa [cj_mul, cj_conjT, cj_one] at this
  refine ⟨?_, ?_⟩
  · rw [hreal]
    calc A = (cj (xyR p q) * (xyR p q)ᵀ) * A * (xyR p q * (xyR p q)ᴴ) := by rw [hcu, xyR_unit', Matrix.one_mul, Matrix.mul_one]
      _ = _ := by simp only [Matrix.mul_assoc]
  · have h1 : ((xyR p q)ᵀ * A * xyR p q)ᵀ = (xyR p q)ᵀ * A * xyR p q := by
      rw [transpose_mul, transpose_mul, hs, transpose_transpose, Matrix.mul_assoc]
    ext i j
    exact congrArg Complex.re (congrFun (congrFun h1 i) j)

theorem xyR_out : (xyR p q).submatrix outIx id = fromCols (rotmat p) 0 := by
  unfold rotmat
  rw [← sqrt_half']
  ext i j
  rcases i with i | i <;> rcases j with (j | j) | (j | j) <;> simp [xyR, outIx]

theorem xyR_in : (xyR p q).submatrix inIx id = fromCols 0 (cj (rotmat q)) := by
  unfold rotmat
  rw [← sqrt_half']
  ext i j
  rcases i with i | i <;> rcases j with (j | j) | (j | j) <;> simp [xyR, inIx, cj, Matrix.one_apply] <;> split_ifs <;> simp


theorem sub_oo (K : Matrix ((p ⊕ p) ⊕ (q ⊕ q)) ((p ⊕ p) ⊕ (q ⊕ q)) ℝ) :
    (cj (xyR p q) * toC K * (xyR p q)ᴴ).submatrix outIx outIx = cj (rotmat p) * toC K.toBlocks₁₁ * (rotmat p)ᴴ := by
  have h : (cj (xyR p q) * toC K * (xyR p q)ᴴ).submatrix (outIx (p := p) (q := q)) outIx =
      cj ((xyR p q).submatrix outIx id) * toC K * ((xyR p q).submatrix outIx id)ᴴ := rfl
  have h2 : cj (fromCols (rotmat p) (0 : Matrix (p ⊕ p) (q ⊕ q) ℂ)) = fromCols (cj (rotmat p)) 0 := by
    ext i j; rcases j with j | j <;> simp [cj]
  have h3 : toC K = fromBlocks (toC K.toBlocks₁₁) (toC K.toBlocks₁₂) (toC K.toBlocks₂₁) (toC K.toBlocks₂₂) := by
    conv_lhs => rw [← fromBlocks_toBlocks K]
    exact fromBlocks_map ..
  rw [h, xyR_out, h2, h3, fromCols_mul_fromBlocks, conjTranspose_fromCols_eq_fromRows_conjTranspose, fromCols_mul_fromRows]
  simp

theorem sub_oi (K : Matrix ((p ⊕ p) ⊕ (q ⊕ q)) ((p ⊕ p) ⊕ (q ⊕ q)) ℝ) :
    (cj (xyR p q) * toC K * (xyR p q)ᴴ).submatrix outIx inIx = cj (rotmat p) * toC K.toBlocks₁₂ * (cj (rotmat q))ᴴ := by
  have h : (cj (xyR p q) * toC K * (xyR p q)ᴴ).submatrix (outIx (p := p) (q := q)) inIx =
      cj ((xyR p q).submatrix outIx id) * toC K * ((xyR p q).submatrix inIx id)ᴴ := rfl
  have h2 : cj (fromCols (rotmat p) (0 : Matrix (p ⊕ p) (q ⊕ q) ℂ)) = fromCols (cj (rotmat p)) 0 := by
    ext i j; rcases j with j | j <;> simp [cj]
  have h3 : toC K = fromBlocks (toC K.toBlocks₁₁) (toC K.toBlocks₁₂) (toC K.toBlocks₂₁) (toC K.toBlocks₂₂) := by
    conv_lhs => rw [← fromBlocks_toBlocks K]
    exact fromBlocks_map ..
  rw [h, xyR_out, xyR_in, h2, h3, fromCols_mul_fromBlocks, conjTranspose_fromCols_eq_fromRows_conjTranspose, fromCols_mul_fromRows]
  simp

theorem xyTrafo_eq : xyTrafo n = ((Real.sqrt 2 : ℝ) : ℂ) • (rotmat n)ᴴ := by
  have h : (((Real.sqrt 2 : ℝ) : ℂ)) * ((Real.sqrt (1 / 2) : ℝ) : ℂ) = 1 := by
    rw [← Complex.ofReal_mul, ← Real.sqrt_mul (by norm_num)]; norm_num
  rw [rotmat_conjT, smul_smul, h, one_smul]
  rfl

/-- The matrices of `XY_of_channel` in phase space coordinates. -/
theorem xyOf_parts {K : Matrix ((p ⊕ p) ⊕ (q ⊕ q)) ((p ⊕ p) ⊕ (q ⊕ q)) ℝ} (hd : (1 - K.toBlocks₁₁).det ≠ 0) :
    (1 - Xmat p * (cj (xyR p q) * toC K * (xyR p q)ᴴ).submatrix outIx outIx).det ≠ 0 ∧
    xyOfX (cj (xyR p q) * toC K * (xyR p q)ᴴ) = toC ((1 - K.toBlocks₁₁)⁻¹ * K.toBlocks₁₂) ∧
    xySigma (cj (xyR p q) * toC K * (xyR p q)ᴴ) = (1 - K.toBlocks₁₁)⁻¹ - (2 : ℝ)⁻¹ • 1 := by
  set ζ := 1 - K.toBlocks₁₁ with hζ
  have hX : Xmat p * cj (rotmat p) = rotmat p := by
    rw [← Xmat_rot, ← Matrix.mul_assoc, Xmat_sq, Matrix.one_mul]
  have hu : IsUnit ζ.det := Ne.isUnit hd
  have e1 : 1 - Xmat p * (cj (xyR p q) * toC K * (xyR p q)ᴴ).submatrix outIx outIx = rotmat p * toC ζ * (rotmat p)ᴴ := by
    rw [sub_oo, ← Matrix.mul_assoc, ← Matrix.mul_assoc, hX, hζ, toC_sub, toC_one, Matrix.mul_sub, Matrix.sub_mul, Matrix.mul_one, rotmat_mul]
  have e2 : (1 - Xmat p * (cj (xyR p q) * toC K * (xyR p q)ᴴ).submatrix outIx outIx)⁻¹ = rotmat p * toC ζ⁻¹ * (rotmat p)ᴴ := by
    apply Matrix.inv_eq_left_inv
    rw [e1]
    calc _ = rotmat p * toC ζ⁻¹ * ((rotmat p)ᴴ * rotmat p) * toC ζ * (rotmat p)ᴴ := by simp only [Matrix.mul_assoc]
      _ = rotmat p * (toC ζ⁻¹ * toC ζ) * (rotmat p)ᴴ := by rw [rotmat_mul', Matrix.mul_one]; simp only [Matrix.mul_assoc]
      _ = 1 := by rw [← toC_mul, Matrix.nonsing_inv_mul _ hu, toC_one, Matrix.mul_one, rotmat_mul]
  refine ⟨?_, ?_, ?_⟩
  · rw [e1, det_mul, det_mul, mul_right_comm, ← det_mul, rotmat_mul, det_one, one_mul, toC_det]
    exact_mod_cast hd
  · have e3 : xyTilde (cj (xyR p q) * toC K * (xyR p q)ᴴ) = -(rotmat p * toC (ζ⁻¹ * K.toBlocks₁₂) * (rotmat q)ᴴ) := by
      unfold xyTilde
      rw [e2, sub_oi]
      have h1 : (cj (rotmat q))ᴴ * Xmat q = (rotmat q)ᴴ := by
        have h := congrArg Matrix.transpose (Xmat_rot (n := q))
        rw [transpose_mul, Xmat_T, cj_transpose'] at h
        rw [conjT_cj, h]
      calc _ = -(rotmat p * toC ζ⁻¹ * ((rotmat p)ᴴ * (Xmat p * cj (rotmat p))) * toC K.toBlocks₁₂ * ((cj (rotmat q))ᴴ * Xmat q)) := by
            simp only [Matrix.mul_assoc, Matrix.neg_mul]
        _ = _ := by rw [hX, rotmat_mul', Matrix.mul_one, h1, toC_mul]; simp only [Matrix.mul_assoc]
    unfold xyOfX
    rw [e3, xyTrafo_eq, xyTrafo_eq]
    have h2 : ((Real.sqrt 2 : ℝ) : ℂ) * ((Real.sqrt 2 : ℝ) : ℂ) = 2 := by
      rw [← Complex.ofReal_mul, Real.mul_self_sqrt (by norm_num)]; norm_num
    rw [conjTranspose_smul, conjTranspose_conjTranspose, Complex.star_def, Complex.conj_ofReal, Matrix.mul_smul]
    have h3 : -(((Real.sqrt 2 : ℝ) : ℂ) • (rotmat p)ᴴ) * -(rotmat p * toC (ζ⁻¹ * K.toBlocks₁₂) * (rotmat q)ᴴ) =
        ((Real.sqrt 2 : ℝ) : ℂ) • ((rotmat p)ᴴ * (rotmat p * toC (ζ⁻¹ * K.toBlocks₁₂) * (rotmat q)ᴴ)) := by
      rw [Matrix.neg_mul, Matrix.mul_neg, neg_neg, Matrix.smul_mul]
    rw [h3, Matrix.smul_mul, smul_smul, smul_smul, mul_assoc, h2, inv_mul_cancel₀ (by norm_num), one_smul]
    calc _ = ((rotmat p)ᴴ * rotmat p) * toC (ζ⁻¹ * K.toBlocks₁₂) * ((rotmat q)ᴴ * rotmat q) := by simp only [Matrix.mul_assoc]
      _ = _ := by rw [rotmat_mul', rotmat_mul', Matrix.one_mul, Matrix.mul_one]
  · unfold xySigma xySigmaH
    dsimp only
    rw [e2]
    generalize ζ⁻¹ = S
    have hS : toC S = fromBlocks (toC S.toBlocks₁₁) (toC S.toBlocks₁₂) (toC S.toBlocks₂₁) (toC S.toBlocks₂₂) := by
      conv_lhs => rw [← fromBlocks_toBlocks S]
      exact fromBlocks_map ..
    refine congrArg (· - _) ?_
    rw [hS, rotmat_conjT]
    unfold rotmat
    rw [Matrix.smul_mul, Matrix.smul_mul, Matrix.mul_smul, smul_smul, half_sq, fromBlocks_multiply, fromBlocks_multiply, fromBlocks_smul, toBlocks_fromBlocks₂₂,
      toBlocks_fromBlocks₁₂]
    conv_rhs => rw [← fromBlocks_toBlocks S]
    congr 1 <;> ext i j <;> simp [toC] <;> ring

/-- `Channel.XY` of a Hermitian map. -/
theorem xyOf_real {ħ : ℝ} {K : Matrix ((p ⊕ p) ⊕ (q ⊕ q)) ((p ⊕ p) ⊕ (q ⊕ q)) ℝ} (hd : (1 - K.toBlocks₁₁).det ≠ 0) {atol : ℝ} (h0 : 0 ≤ atol)
    {X : Matrix (p ⊕ p) (q ⊕ q) ℝ} (hX : X = (1 - K.toBlocks₁₁)⁻¹ * K.toBlocks₁₂) :
    xyOf atol ħ (cj (xyR p q) * toC K * (xyR p q)ᴴ) = some (X, ħ • ((1 - K.toBlocks₁₁)⁻¹ - (1 / 2 : ℝ) • 1 - (1 / 2 : ℝ) • (X * Xᵀ))) := by
  obtain ⟨e1, e2, e3⟩ := xyOf_parts hd
  rw [← hX] at e2
  have e4 : xyOfY (cj (xyR p q) * toC K * (xyR p q)ᴴ) = toC ((1 - K.toBlocks₁₁)⁻¹ - (1 / 2 : ℝ) • 1 - (1 / 2 : ℝ) • (X * Xᵀ)) := by
    unfold xyOfY
    rw [e2, e3]
    have hT : (toC X)ᵀ = toC Xᵀ := rfl
    rw [hT, ← toC_mul]
    ext i j
    simp [toC]
  unfold xyOf
  rw [if_neg e1, e2, e4, if_neg (by simpa [toC] using h0), if_neg (by simpa [toC] using h0)]
  rfl

/-- **C75 (inverse of from_XY)** `Channel.XY` returns the matrices with which `Channel.from_XY` has built the channel. -/
theorem C75_roundtrip {ħ : ℝ} (hħ : 0 < ħ) (X : Matrix (p ⊕ p) (q ⊕ q) ℝ) {Y : Matrix (p ⊕ p) (p ⊕ p) ℝ} (hξ : (xyXi ħ X Y).PosDef) {atol : ℝ} (h0 : 0 ≤ atol) :
    xyOf atol ħ (xyA ħ X Y) = some (X, Y) := by
  have e : 1 - (xyK (xyXi ħ X Y) X).toBlocks₁₁ = (xyXi ħ X Y)⁻¹ := by unfold xyK; rw [toBlocks_fromBlocks₁₁, sub_sub_cancel]
  have e' : (xyK (xyXi ħ X Y) X).toBlocks₁₂ = (xyXi ħ X Y)⁻¹ * X := by unfold xyK; rw [toBlocks_fromBlocks₁₂]
  have hi : (xyXi ħ X Y)⁻¹⁻¹ = xyXi ħ X Y := Matrix.nonsing_inv_nonsing_inv _ ((Matrix.isUnit_iff_isUnit_det _).1 hξ.isUnit)
  rw [xyA_eq, xyOf_real (X := X) (by rw [e]; exact hξ.inv.det_pos.ne') h0 (by rw [e, e', hi, ← Matrix.mul_assoc, (posDef_inv hξ).1, Matrix.one_mul]), e, hi]
  refine congrArg some (Prod.ext rfl ?_)
  unfold xyXi
  ext i j
  simp only [Matrix.smul_apply, Matrix.sub_apply, Matrix.add_apply, Matrix.map_apply, smul_eq_mul]
  field_simp
  ring

/-! ## Trace preservation -/

/-- A channel in phase space coordinates. -/
noncomputable def realCh (K : Matrix ((p ⊕ p) ⊕ (q ⊕ q)) ((p ⊕ p) ⊕ (q ⊕ q)) ℝ) (β : (p ⊕ p) ⊕ (q ⊕ q) → ℝ) (c : ℝ) (η : p ⊕ p → ℂ) (η' : q ⊕ q → ℂ) : ℂ :=
  c * Complex.exp (1 / 2 * (Sum.elim η η' ⬝ᵥ (toC K).mulVec (Sum.elim η η')) + (fun r => (β r : ℂ)) ⬝ᵥ Sum.elim η η')

theorem chan_real (K : Matrix ((p ⊕ p) ⊕ (q ⊕ q)) ((p ⊕ p) ⊕ (q ⊕ q)) ℝ) (β : (p ⊕ p) ⊕ (q ⊕ q) → ℝ) (c : ℝ) (z : p → ℂ) (z' : q → ℂ) (w : p → ℂ) (w' : q → ℂ) :
    chanFun (cj (xyR p q) * toC K * (xyR p q)ᴴ) ((cj (xyR p q)).mulVec fun r => (β r : ℂ)) c z z' w w' =
      realCh K β c ((rotmat p)ᴴ.mulVec (Sum.elim w z)) ((rotmat q)ᴴ.mulVec (Sum.elim z' w')) := by
  unfold chanFun dmFun realCh
  rw [← xyR_mul, ← xyR_dot, ← Matrix.mulVec_mulVec, ← Matrix.mulVec_mulVec]
  refine congrArg (HMul.hMul _) (congrArg Complex.exp (congrArg (· + _) (congrArg (HMul.hMul _) ?_)))
  rw [dotProduct_comm, xyR_dot, dotProduct_comm]

/-- The vector of a Hermitian map in phase space coordinates. -/
theorem bOf_spec {b : (p ⊕ q) ⊕ (p ⊕ q) → ℂ} (hb : b ∘ Sum.inr = star (b ∘ Sum.inl)) : ∃ β : (p ⊕ p) ⊕ (q ⊕ q) → ℝ, b = (cj (xyR p q)).mulVec fun r => (β r : ℂ) := by
  have hRX : (xyR p q)ᵀ * Xmat (p ⊕ q) = (xyR p q)ᴴ := by
    have := congrArg Matrix.transpose (Xmat_xyR (p := p) (q := q))
    rwa [transpose_mul, Xmat_T] at this
  have hXb : (Xmat (p ⊕ q)).mulVec b = star b := by
    have hb' : b = Sum.elim (b ∘ Sum.inl) (b ∘ Sum.inr) := (Sum.elim_comp_inl_inr b).symm
    rw [hb', hb]
    unfold Xmat
    rw [fromBlocks_mulVec, Sum.elim_comp_inl, Sum.elim_comp_inr]
    funext r
    rcases r with r | r <;> simp
  have hcu : cj (xyR p q) * (xyR p q)ᵀ = 1 := by
    have := congrArg (cj) (xyR_unit' (p := p) (q := q))
    rwa [cj_mul, cj_conjT, cj_one] at this
  refine ⟨fun r => ((xyR p q)ᵀ.mulVec b r).re, ?_⟩
  have hreal : (fun r => ((((xyR p q)ᵀ.mulVec b r).re : ℝ) : ℂ)) = (xyR p q)ᵀ.mulVec b := by
    funext r
    have h1 : star ((xyR p q)ᵀ.mulVec b) = (xyR p q)ᵀ.mulVec b := by
      calc star ((xyR p q)ᵀ.mulVec b) = (xyR p q)ᴴ.mulVec (star b) := by
            funext i; simp [Matrix.mulVec, dotProduct]
        _ = _ := by rw [← hXb, Matrix.mulVec_mulVec]; rw [← hRX, Matrix.mul_assoc, Xmat_sq, Matrix.mul_one]
    exact Complex.conj_eq_iff_re.1 (congrFun h1 r)
  rw [hreal, Matrix.mulVec_mulVec, hcu, Matrix.one_mulVec]

/-- The trace of the output of a channel in phase space coordinates. -/
theorem trOut_real {K : Matrix ((p ⊕ p) ⊕ (q ⊕ q)) ((p ⊕ p) ⊕ (q ⊕ q)) ℝ} (hK : Kᵀ = K) (hζ : (1 - K.toBlocks₁₁).PosDef) (β : (p ⊕ p) ⊕ (q ⊕ q) → ℝ) (c : ℝ) (z' w' : q → ℂ) :
    trOut (fun z z' w w' => realCh K β c ((rotmat p)ᴴ.mulVec (Sum.elim w z)) ((rotmat q)ᴴ.mulVec (Sum.elim z' w'))) z' w' =
      let η' := (rotmat q)ᴴ.mulVec (Sum.elim z' w')
      ((c / Real.sqrt (1 - K.toBlocks₁₁).det * Real.exp (1 / 2 * (β ∘ Sum.inl ⬝ᵥ (1 - K.toBlocks₁₁)⁻¹.mulVec (β ∘ Sum.inl))) : ℝ) : ℂ) *
        Complex.exp (1 / 2 * (η' ⬝ᵥ (toC (K.toBlocks₂₂ + K.toBlocks₁₂ᵀ * (1 - K.toBlocks₁₁)⁻¹ * K.toBlocks₁₂)).mulVec η') +
          (fun r => ((β (Sum.inr r) + ((K.toBlocks₁₂ᵀ * (1 - K.toBlocks₁₁)⁻¹).mulVec (β ∘ Sum.inl)) r : ℝ) : ℂ)) ⬝ᵥ η') := by
  dsimp only
  set ζ := 1 - K.toBlocks₁₁ with hζd
  set L := K.toBlocks₁₂ with hL
  set D := K.toBlocks₂₂ with hD
  set η' := (rotmat q)ᴴ.mulVec (Sum.elim z' w') with hη'
  set βo : p ⊕ p → ℂ := fun r => (β (Sum.inl r) : ℂ) with hβo
  set βi : q ⊕ q → ℂ := fun r => (β (Sum.inr r) : ℂ) with hβi
  have hKb : toC K = fromBlocks (1 - toC ζ) (toC L) (toC L)ᵀ (toC D) := by
    conv_lhs => rw [← fromBlocks_toBlocks K]
    rw [show toC (fromBlocks K.toBlocks₁₁ K.toBlocks₁₂ K.toBlocks₂₁ K.toBlocks₂₂) =
      fromBlocks (toC K.toBlocks₁₁) (toC K.toBlocks₁₂) (toC K.toBlocks₂₁) (toC K.toBlocks₂₂) from fromBlocks_map ..]
    have h11 : toC K.toBlocks₁₁ = 1 - toC ζ := by rw [hζd, toC_sub, toC_one, sub_sub_cancel]
    have h21 : toC K.toBlocks₂₁ = (toC L)ᵀ := by
      have := congrArg toBlocks₂₁ hK
      rw [← this]
      rfl
    rw [h11, h21]
  set ℓ : p ⊕ p → ℂ := (toC L).mulVec η' + βo with hℓ
  set E := Complex.exp (1 / 2 * (η' ⬝ᵥ (toC D).mulVec η') + βi ⬝ᵥ η') with hE
  have hG : ∀ z w : p → ℂ, realCh K β c ((rotmat p)ᴴ.mulVec (Sum.elim w z)) η' =
      (fun η : p ⊕ p → ℂ => c * E * (Complex.exp (-(1 / 2) * (η ⬝ᵥ (toC ζ).mulVec η)) * Complex.exp (ℓ ⬝ᵥ η))) ((rotmat p)ᴴ.mulVec (Sum.elim w z)) *
        Complex.exp (1 / 2 * ((rotmat p)ᴴ.mulVec (Sum.elim w z) ⬝ᵥ (rotmat p)ᴴ.mulVec (Sum.elim w z))) := by
    intro z w
    generalize (rotmat p)ᴴ.mulVec (Sum.elim w z) = η
    have hβ : (fun r => (β r : ℂ)) = Sum.elim βo βi := by funext r; rcases r with r | r <;> rfl
    unfold realCh
    rw [hβ, hKb, fromBlocks_mulVec, Sum.elim_comp_inl, Sum.elim_comp_inr, sumElim_dotProduct_sumElim, sumElim_dotProduct_sumElim, hE]
    have hx : ∀ a b d e : ℂ, (c : ℂ) * Complex.exp a * (Complex.exp b * Complex.exp d) * Complex.exp e = c * Complex.exp (a + b + d + e) := by
      intros; simp only [Complex.exp_add]; ring
    dsimp only
    rw [hx]
    refine congrArg (HMul.hMul _) (congrArg Complex.exp ?_)
    rw [dotProduct_add, dotProduct_add, Matrix.sub_mulVec, dotProduct_sub, Matrix.one_mulVec, hℓ, add_dotProduct]
    have h1 : η' ⬝ᵥ (toC L)ᵀ.mulVec η = (toC L).mulVec η' ⬝ᵥ η := by rw [Matrix.dotProduct_mulVec, Matrix.vecMul_transpose]
    have h2 : η ⬝ᵥ (toC L).mulVec η' = (toC L).mulVec η' ⬝ᵥ η := dotProduct_comm _ _
    rw [h1, h2]
    ring
  unfold trOut
  rw [opTr_rot (g := fun η : p ⊕ p → ℂ => c * E * (Complex.exp (-(1 / 2) * (η ⬝ᵥ (toC ζ).mulVec η)) * Complex.exp (ℓ ⬝ᵥ η))) hG]
  have hi : ζ⁻¹⁻¹ = ζ := Matrix.nonsing_inv_nonsing_inv _ ((Matrix.isUnit_iff_isUnit_det _).1 hζ.isUnit)
  have hbell : ∀ x : p ⊕ p → ℝ, Complex.exp (-(1 / 2) * ((fun r => (x r : ℂ)) ⬝ᵥ (toC ζ).mulVec fun r => (x r : ℂ))) = ((bell ζ⁻¹ 0 x : ℝ) : ℂ) := by
    intro x
    unfold bell
    rw [sub_zero, Complex.ofReal_exp, hi, toC_mulVec]
    refine congrArg Complex.exp ?_
    simp [dotProduct]
  simp only [hbell]
  rw [integral_const_mul, laplace hζ.inv, hE]
  have hsy : (toC ζ⁻¹)ᵀ = toC ζ⁻¹ := (posDef_symm hζ).2
  have hq : ℓ ⬝ᵥ (toC ζ⁻¹).mulVec ℓ = η' ⬝ᵥ (toC (Lᵀ * ζ⁻¹ * L)).mulVec η' + 2 * ((fun r => (((Lᵀ * ζ⁻¹).mulVec (β ∘ Sum.inl) r : ℝ) : ℂ)) ⬝ᵥ η') +
      ((β ∘ Sum.inl ⬝ᵥ ζ⁻¹.mulVec (β ∘ Sum.inl) : ℝ) : ℂ) := by
    have h1 : (fun r => (((Lᵀ * ζ⁻¹).mulVec (β ∘ Sum.inl) r : ℝ) : ℂ)) = (toC L)ᵀ.mulVec ((toC ζ⁻¹).mulVec βo) := by
      rw [toC_mulVec_real, toC_mul, ← Matrix.mulVec_mulVec]; rfl
    have h2 : ((β ∘ Sum.inl ⬝ᵥ ζ⁻¹.mulVec (β ∘ Sum.inl) : ℝ) : ℂ) = βo ⬝ᵥ (toC ζ⁻¹).mulVec βo := by
      have : (toC ζ⁻¹).mulVec βo = fun r => ((ζ⁻¹.mulVec (β ∘ Sum.inl) r : ℝ) : ℂ) := (toC_mulVec_real _ _).symm
      rw [this]
      simp [dotProduct, hβo]
    rw [h1, h2, hℓ, Matrix.mulVec_add, add_dotProduct, dotProduct_add, dotProduct_add, toC_mul, toC_mul, ← Matrix.mulVec_mulVec, ← Matrix.mulVec_mulVec]
    have h3 : η' ⬝ᵥ (toC Lᵀ).mulVec ((toC ζ⁻¹).mulVec ((toC L).mulVec η')) = (toC L).mulVec η' ⬝ᵥ (toC ζ⁻¹).mulVec ((toC L).mulVec η') := by
      show η' ⬝ᵥ (toC L)ᵀ.mulVec _ = _
      rw [Matrix.dotProduct_mulVec, Matrix.vecMul_transpose]
    have h4 : (toC L)ᵀ.mulVec ((toC ζ⁻¹).mulVec βo) ⬝ᵥ η' = (toC L).mulVec η' ⬝ᵥ (toC ζ⁻¹).mulVec βo := by
      rw [dotProduct_comm, Matrix.dotProduct_mulVec, Matrix.vecMul_transpose]
    rw [h3, h4, symm_dot hsy βo]
    ring
  rw [hq]
  have hβ' : (fun r => ((β (Sum.inr r) + (Lᵀ * ζ⁻¹).mulVec (β ∘ Sum.inl) r : ℝ) : ℂ)) = βi + fun r => (((Lᵀ * ζ⁻¹).mulVec (β ∘ Sum.inl) r : ℝ) : ℂ) := by
    funext r; simp [hβi]
  rw [hβ', add_dotProduct, toC_add, Matrix.add_mulVec, dotProduct_add]
  generalize (fun r => (((Lᵀ * ζ⁻¹).mulVec (β ∘ Sum.inl) r : ℝ) : ℂ)) ⬝ᵥ η' = s1
  generalize η' ⬝ᵥ (toC (Lᵀ * ζ⁻¹ * L)).mulVec η' = s2
  generalize η' ⬝ᵥ (toC D).mulVec η' = s3
  generalize βi ⬝ᵥ η' = s4
  generalize (β ∘ Sum.inl ⬝ᵥ ζ⁻¹.mulVec (β ∘ Sum.inl)) = s5
  have hd := hζ.det_pos
  rw [Fintype.card_sum, ← two_mul, mul_comm 2 (Fintype.card p), pow_mul, Real.sqrt_mul (by positivity), Real.sqrt_sq (by have := Real.pi_pos; positivity),
    Matrix.det_nonsing_inv, Ring.inverse_eq_inv', Real.sqrt_inv]
  have hpi : (((2 * Real.pi) ^ Fintype.card p : ℝ) : ℂ) ≠ 0 := by rw [Complex.ofReal_ne_zero]; have := Real.pi_pos; positivity
  have h1 : ((Real.sqrt ζ.det : ℝ) : ℂ) ≠ 0 := by rw [Complex.ofReal_ne_zero]; positivity
  rw [Complex.ofReal_mul, Complex.ofReal_mul, Complex.ofReal_div, Complex.ofReal_inv, Complex.ofReal_inv, Complex.ofReal_exp]
  have hE2 : Complex.exp (1 / 2 * (s2 + 2 * s1 + (s5 : ℂ))) = Complex.exp (1 / 2 * s2 + s1) * Complex.exp ((1 / 2 * s5 : ℝ) : ℂ) := by
    rw [← Complex.exp_add]; refine congrArg Complex.exp ?_; push_cast; ring
  have hE3 : Complex.exp (1 / 2 * (s3 + s2) + (s4 + s1)) = Complex.exp (1 / 2 * s3 + s4) * Complex.exp (1 / 2 * s2 + s1) := by
    rw [← Complex.exp_add]; refine congrArg Complex.exp ?_; ring
  rw [hE2, hE3]
  generalize Complex.exp (1 / 2 * s2 + s1) = E1
  generalize Complex.exp (1 / 2 * s3 + s4) = E2
  generalize Complex.exp ((1 / 2 * s5 : ℝ) : ℂ) = E3
  field_simp

/-- A quadratic form that is constant. -/
theorem quad_one {M : Matrix q q ℝ} (hM : Mᵀ = M) {m : q → ℝ} {κ : ℝ}
    (h : ∀ x : q → ℝ, κ * Real.exp (1 / 2 * (x ⬝ᵥ M.mulVec x) + m ⬝ᵥ x) = Real.exp (1 / 2 * (x ⬝ᵥ x))) : M = 1 ∧ m = 0 ∧ κ = 1 := by
  have hκ : κ = 1 := by simpa using h 0
  subst hκ
  have h1 : ∀ x : q → ℝ, 1 / 2 * (x ⬝ᵥ M.mulVec x) + m ⬝ᵥ x = 1 / 2 * (x ⬝ᵥ x) := fun x => Real.exp_injective (by rw [← h x, one_mul])
  have h2 : ∀ x : q → ℝ, m ⬝ᵥ x = 0 ∧ x ⬝ᵥ M.mulVec x = x ⬝ᵥ x := by
    intro x
    have a := h1 x
    have b := h1 (-x)
    rw [Matrix.mulVec_neg, neg_dotProduct_neg, neg_dotProduct_neg, dotProduct_neg] at b
    constructor <;> linarith
  refine ⟨?_, ?_, rfl⟩
  · have h3 : ∀ x y : q → ℝ, x ⬝ᵥ M.mulVec y = x ⬝ᵥ y := by
      intro x y
      have a := (h2 (x + y)).2
      have e : y ⬝ᵥ M.mulVec x = x ⬝ᵥ M.mulVec y := by rw [Matrix.dotProduct_mulVec, ← Matrix.mulVec_transpose, hM, dotProduct_comm]
      simp only [Matrix.mulVec_add, add_dotProduct, dotProduct_add] at a
      rw [(h2 x).2, (h2 y).2, e, dotProduct_comm y x] at a
      linarith
    ext i j
    have := h3 (Pi.single i 1) (Pi.single j 1)
    simpa [Matrix.one_apply, Pi.single_apply, eq_comm] using this
  · funext i
    have := (h2 (Pi.single i 1)).1
    simpa using this

/-- **C75 (trace preservation)** in phase space coordinates. -/
theorem tp_iff {K : Matrix ((p ⊕ p) ⊕ (q ⊕ q)) ((p ⊕ p) ⊕ (q ⊕ q)) ℝ} (hK : Kᵀ = K) (hζ : (1 - K.toBlocks₁₁).PosDef) (β : (p ⊕ p) ⊕ (q ⊕ q) → ℝ) (c : ℝ) :
    TracePres (chanFun (cj (xyR p q) * toC K * (xyR p q)ᴴ) ((cj (xyR p q)).mulVec fun r => (β r : ℂ)) c) ↔
      K.toBlocks₂₂ + K.toBlocks₁₂ᵀ * (1 - K.toBlocks₁₁)⁻¹ * K.toBlocks₁₂ = 1 ∧
      (β ∘ Sum.inr + (K.toBlocks₁₂ᵀ * (1 - K.toBlocks₁₁)⁻¹).mulVec (β ∘ Sum.inl)) = 0 ∧
      c / Real.sqrt (1 - K.toBlocks₁₁).det * Real.exp (1 / 2 * (β ∘ Sum.inl ⬝ᵥ (1 - K.toBlocks₁₁)⁻¹.mulVec (β ∘ Sum.inl))) = 1 := by
  have hch : chanFun (cj (xyR p q) * toC K * (xyR p q)ᴴ) ((cj (xyR p q)).mulVec fun r => (β r : ℂ)) c =
      fun z z' w w' => realCh K β c ((rotmat p)ᴴ.mulVec (Sum.elim w z)) ((rotmat q)ᴴ.mulVec (Sum.elim z' w')) := by
    funext z z' w w'
    exact chan_real K β c z z' w w'
  have hη : ∀ z' w' : q → ℂ, Complex.exp (z' ⬝ᵥ w') =
      Complex.exp (1 / 2 * ((rotmat q)ᴴ.mulVec (Sum.elim z' w') ⬝ᵥ (rotmat q)ᴴ.mulVec (Sum.elim z' w'))) := by
    intro z' w'
    refine congrArg Complex.exp ?_
    have h2 : ((Real.sqrt 2 : ℝ) : ℂ) * ((Real.sqrt 2 : ℝ) : ℂ) = 2 := by
      rw [← Complex.ofReal_mul, Real.mul_self_sqrt (by norm_num)]; norm_num
    rw [rot_row, sumElim_dotProduct_sumElim]
    simp only [dotProduct]
    rw [← Finset.sum_add_distrib, Finset.mul_sum]
    refine Finset.sum_congr rfl fun i _ => ?_
    rw [div_mul_div_comm, div_mul_div_comm, mul_mul_mul_comm Complex.I, h2, Complex.I_mul_I]
    ring
  have hsy : (1 - K.toBlocks₁₁)⁻¹ᵀ = (1 - K.toBlocks₁₁)⁻¹ := by
    have := hζ.inv.isHermitian
    unfold IsHermitian at this
    rwa [conjTranspose_eq_transpose_of_trivial] at this
  have hDs : K.toBlocks₂₂ᵀ = K.toBlocks₂₂ := by
    have := congrArg toBlocks₂₂ hK
    exact this
  rw [hch]
  unfold TracePres
  simp only [trOut_real hK hζ β c, hη]
  constructor
  · intro h
    have h1 : ∀ x : q ⊕ q → ℝ, c / Real.sqrt (1 - K.toBlocks₁₁).det * Real.exp (1 / 2 * (β ∘ Sum.inl ⬝ᵥ (1 - K.toBlocks₁₁)⁻¹.mulVec (β ∘ Sum.inl))) *
        Real.exp (1 / 2 * (x ⬝ᵥ (K.toBlocks₂₂ + K.toBlocks₁₂ᵀ * (1 - K.toBlocks₁₁)⁻¹ * K.toBlocks₁₂).mulVec x) +
          (β ∘ Sum.inr + (K.toBlocks₁₂ᵀ * (1 - K.toBlocks₁₁)⁻¹).mulVec (β ∘ Sum.inl)) ⬝ᵥ x) = Real.exp (1 / 2 * (x ⬝ᵥ x)) := by
      intro x
      set y := (rotmat q).mulVec fun r => (x r : ℂ) with hy
      have h2 := h (y ∘ Sum.inl) (y ∘ Sum.inr)
      have h3 : (rotmat q)ᴴ.mulVec y = fun r => (x r : ℂ) := by rw [hy, Matrix.mulVec_mulVec, rotmat_mul', Matrix.one_mulVec]
      rw [Sum.elim_comp_inl_inr, h3, ← toC_mulVec_real] at h2
      have hdot : ∀ u v : q ⊕ q → ℝ, (fun r => (u r : ℂ)) ⬝ᵥ (fun r => (v r : ℂ)) = ((u ⬝ᵥ v : ℝ) : ℂ) := by intro u v; simp [dotProduct]
      have hv : (fun r => ((β (Sum.inr r) + (K.toBlocks₁₂ᵀ * (1 - K.toBlocks₁₁)⁻¹).mulVec (β ∘ Sum.inl) r : ℝ) : ℂ)) =
        fun r => (((β ∘ Sum.inr + (K.toBlocks₁₂ᵀ * (1 - K.toBlocks₁₁)⁻¹).mulVec (β ∘ Sum.inl)) r : ℝ) : ℂ) := rfl
      rw [hv, hdot, hdot, hdot] at h2
      apply Complex.ofReal_injective
      rw [Complex.ofReal_mul, Complex.ofReal_exp, Complex.ofReal_exp (1 / 2 * (x ⬝ᵥ x))]
      rw [Complex.ofReal_add, Complex.ofReal_mul (1 / 2) (x ⬝ᵥ _), Complex.ofReal_mul (1 / 2) (x ⬝ᵥ x)]
      have h12 : (((1 / 2 : ℝ)) : ℂ) = 1 / 2 := by push_cast; rfl
      rw [h12]
      exact h2
    obtain ⟨a, b, d⟩ := quad_one (by rw [transpose_add, hDs, transpose_mul, transpose_mul, hsy, transpose_transpose, Matrix.mul_assoc]) h1
    exact ⟨a, b, d⟩
  · rintro ⟨a, b, d⟩ z' w'
    have b' : (fun r => ((β (Sum.inr r) + (K.toBlocks₁₂ᵀ * (1 - K.toBlocks₁₁)⁻¹).mulVec (β ∘ Sum.inl) r : ℝ) : ℂ)) = 0 := by
      funext r
      have := congrFun b r
      simp only [Pi.add_apply, Function.comp, Pi.zero_apply] at this
      rw [this]
      simp
    rw [a, b', d, toC_one, Matrix.one_mulVec, zero_dotProduct, add_zero, Complex.ofReal_one, one_mul]

theorem posDef_real {V : Matrix n n ℝ} (h : (toC V).PosDef) : V.PosDef := by
  have hV : V.IsHermitian := by
    have := h.isHermitian
    ext i j
    have h1 := congrFun (congrFun this i) j
    simp [toC] at h1
    simpa using h1
  refine PosDef.of_dotProduct_mulVec_pos hV fun x hx => ?_
  have h1 := h.dotProduct_mulVec_pos (x := fun r => (x r : ℂ)) (fun e => hx (by funext r; have := congrFun e r; simpa using this))
  rw [toC_mulVec] at h1
  have h2 : (star fun r => (x r : ℂ)) ⬝ᵥ (fun r => ((V.mulVec x r : ℝ) : ℂ)) = ((star x ⬝ᵥ V.mulVec x : ℝ) : ℂ) := by simp [dotProduct]
  rw [h2] at h1
  exact_mod_cast h1

theorem psd_real {V Z : Matrix n n ℝ} {t : ℝ} (hV : Vᵀ = V) (h : (toC V + (Complex.I * t) • toC Z).PosSemidef) : V.PosSemidef := by
  refine PosSemidef.of_dotProduct_mulVec_nonneg (by unfold IsHermitian; rw [conjTranspose_eq_transpose_of_trivial, hV]) fun x => ?_
  have h1 := h.dotProduct_mulVec_nonneg (fun r => (x r : ℂ))
  rw [Matrix.add_mulVec, Matrix.smul_mulVec, toC_mulVec, toC_mulVec, dotProduct_add, dotProduct_smul] at h1
  have h2 : ∀ y : n → ℝ, (star fun r => (x r : ℂ)) ⬝ᵥ (fun r => ((y r : ℝ) : ℂ)) = ((star x ⬝ᵥ y : ℝ) : ℂ) := by intro y; simp [dotProduct]
  rw [h2, h2, Complex.nonneg_iff] at h1
  have := h1.1
  simpa using this

/-- A trace preserving Gaussian map is a Gaussian channel in phase space. -/
theorem tp_gaussCh {K : Matrix ((p ⊕ p) ⊕ (q ⊕ q)) ((p ⊕ p) ⊕ (q ⊕ q)) ℝ} (hK : Kᵀ = K) (hζ : (1 - K.toBlocks₁₁).PosDef) (β : (p ⊕ p) ⊕ (q ⊕ q) → ℝ) (c : ℝ)
    (hTP : TracePres (chanFun (cj (xyR p q) * toC K * (xyR p q)ᴴ) ((cj (xyR p q)).mulVec fun r => (β r : ℂ)) c)) :
    chanFun (cj (xyR p q) * toC K * (xyR p q)ᴴ) ((cj (xyR p q)).mulVec fun r => (β r : ℂ)) c =
        gaussCh (1 - K.toBlocks₁₁)⁻¹ ((1 - K.toBlocks₁₁)⁻¹ * K.toBlocks₁₂) ((1 - K.toBlocks₁₁)⁻¹.mulVec (β ∘ Sum.inl)) ∧
      K = xyK (1 - K.toBlocks₁₁)⁻¹ ((1 - K.toBlocks₁₁)⁻¹ * K.toBlocks₁₂) := by
  obtain ⟨h22, hβ, hcc⟩ := (tp_iff hK hζ β c).1 hTP
  have hKb : K = fromBlocks K.toBlocks₁₁ K.toBlocks₁₂ K.toBlocks₁₂ᵀ K.toBlocks₂₂ := by
    conv_lhs => rw [← fromBlocks_toBlocks K]
    have h21 : K.toBlocks₂₁ = K.toBlocks₁₂ᵀ := by
      have := congrArg toBlocks₂₁ hK
      rw [← this]
      rfl
    rw [h21]
  set ζ := 1 - K.toBlocks₁₁ with hζd
  set L := K.toBlocks₁₂ with hL
  have hu : IsUnit ζ.det := (Matrix.isUnit_iff_isUnit_det _).1 hζ.isUnit
  have hi : ζ⁻¹⁻¹ = ζ := Matrix.nonsing_inv_nonsing_inv _ hu
  obtain ⟨i1, j1⟩ := posDef_inv hζ
  have hsy : ζ⁻¹ᵀ = ζ⁻¹ := by
    have := hζ.inv.isHermitian
    unfold IsHermitian at this
    rwa [conjTranspose_eq_transpose_of_trivial] at this
  have k11 : K.toBlocks₁₁ = 1 - ζ := by rw [hζd, sub_sub_cancel]
  have k12 : ζ * (ζ⁻¹ * L) = L := by rw [← Matrix.mul_assoc, Matrix.mul_nonsing_inv _ hu, Matrix.one_mul]
  have k21 : (ζ⁻¹ * L)ᵀ * ζ = Lᵀ := by rw [transpose_mul, hsy, Matrix.mul_assoc, Matrix.nonsing_inv_mul _ hu, Matrix.mul_one]
  have hKx : K = xyK ζ⁻¹ (ζ⁻¹ * L) := by
    unfold xyK
    rw [hi, k12, k21, ← Matrix.mul_assoc, ← k11, ← h22, add_sub_cancel_right]
    exact hKb
  refine ⟨?_, hKx⟩
  funext z z' w w'
  rw [chan_real]
  unfold gaussCh realCh hus
  dsimp only
  generalize (rotmat p)ᴴ.mulVec (Sum.elim w z) = η
  generalize (rotmat q)ᴴ.mulVec (Sum.elim z' w') = η'
  have hdot := xyK_dot hζ.inv (ζ⁻¹ * L) η η'
  rw [← hKx, hi] at hdot
  rw [hdot, hi]
  set βo : p ⊕ p → ℂ := fun r => (β (Sum.inl r) : ℂ) with hβo
  have eδ : (fun r => ((ζ⁻¹.mulVec (β ∘ Sum.inl) r : ℝ) : ℂ)) = (toC ζ⁻¹).mulVec βo := toC_mulVec_real _ _
  have eβ : (fun r => (β r : ℂ)) = Sum.elim βo (-((toC L)ᵀ.mulVec ((toC ζ⁻¹).mulVec βo))) := by
    have h1 : (toC L)ᵀ.mulVec ((toC ζ⁻¹).mulVec βo) = fun r => (((Lᵀ * ζ⁻¹).mulVec (β ∘ Sum.inl) r : ℝ) : ℂ) := by
      rw [toC_mulVec_real, toC_mul, ← Matrix.mulVec_mulVec]; rfl
    funext r
    rcases r with r | r
    · rfl
    · rw [h1]
      have := congrFun hβ r
      simp only [Pi.add_apply, Function.comp, Pi.zero_apply] at this
      show ((β (Sum.inr r) : ℝ) : ℂ) = -(((Lᵀ * ζ⁻¹).mulVec (β ∘ Sum.inl) r : ℝ) : ℂ)
      rw [← Complex.ofReal_neg]
      exact congrArg _ (eq_neg_of_add_eq_zero_left this)
  rw [eβ, eδ, sumElim_dotProduct_sumElim]
  have hszc : (toC ζ)ᵀ = toC ζ := (posDef_symm hζ).1
  have hζδ : (toC ζ).mulVec ((toC ζ⁻¹).mulVec βo) = βo := by
    rw [Matrix.mulVec_mulVec, ← toC_mul, Matrix.mul_nonsing_inv _ hu, toC_one, Matrix.one_mulVec]
  obtain ⟨x, hx⟩ : ∃ x, x = η - (toC (ζ⁻¹ * L)).mulVec η' := ⟨_, rfl⟩
  rw [← hx]
  have e1 : βo ⬝ᵥ η + -((toC L)ᵀ.mulVec ((toC ζ⁻¹).mulVec βo)) ⬝ᵥ η' = x ⬝ᵥ βo := by
    rw [hx, sub_dotProduct, neg_dotProduct, toC_mul, ← Matrix.mulVec_mulVec, dotProduct_comm βo η, ← sub_eq_add_neg]
    refine congrArg (HSub.hSub _) ?_
    rw [dotProduct_comm _ η', Matrix.dotProduct_mulVec, Matrix.vecMul_transpose, symm_dot (posDef_symm hζ).2, dotProduct_comm, dotProduct_comm ((toC ζ⁻¹).mulVec _)]
  have e2 : (x - (toC ζ⁻¹).mulVec βo) ⬝ᵥ (toC ζ).mulVec (x - (toC ζ⁻¹).mulVec βo) =
      x ⬝ᵥ (toC ζ).mulVec x - 2 * (x ⬝ᵥ βo) + ((β ∘ Sum.inl ⬝ᵥ ζ⁻¹.mulVec (β ∘ Sum.inl) : ℝ) : ℂ) := by
    have h2 : ((β ∘ Sum.inl ⬝ᵥ ζ⁻¹.mulVec (β ∘ Sum.inl) : ℝ) : ℂ) = βo ⬝ᵥ (toC ζ⁻¹).mulVec βo := by
      rw [← eδ]
      simp [dotProduct, hβo]
    rw [h2, Matrix.mulVec_sub, dotProduct_sub, sub_dotProduct, sub_dotProduct, hζδ, symm_dot hszc ((toC ζ⁻¹).mulVec βo) x, hζδ, dotProduct_comm ((toC ζ⁻¹).mulVec βo) βo]
    ring
  rw [e1, e2]
  have hd := hζ.det_pos
  have hcv : c = Real.sqrt ζ.det * Real.exp (-(1 / 2) * (β ∘ Sum.inl ⬝ᵥ ζ⁻¹.mulVec (β ∘ Sum.inl))) := by
    have hsq : Real.sqrt ζ.det ≠ 0 := by positivity
    have h3 : Real.exp (-(1 / 2) * (β ∘ Sum.inl ⬝ᵥ ζ⁻¹.mulVec (β ∘ Sum.inl))) = (Real.exp (1 / 2 * (β ∘ Sum.inl ⬝ᵥ ζ⁻¹.mulVec (β ∘ Sum.inl))))⁻¹ := by
      rw [← Real.exp_neg]; congr 1; ring
    rw [h3]
    have h4 := Real.exp_ne_zero (1 / 2 * (β ∘ Sum.inl ⬝ᵥ ζ⁻¹.mulVec (β ∘ Sum.inl)))
    field_simp at hcc ⊢
    linarith
  rw [hcv, Matrix.det_nonsing_inv, Ring.inverse_eq_inv', Real.sqrt_inv, inv_inv, Complex.ofReal_mul, Complex.ofReal_exp]
  generalize (β ∘ Sum.inl ⬝ᵥ ζ⁻¹.mulVec (β ∘ Sum.inl)) = s
  rw [mul_assoc, mul_assoc, mul_assoc, ← Complex.exp_add, ← Complex.exp_add, ← Complex.exp_add]
  refine congrArg (HMul.hMul _) (congrArg Complex.exp ?_)
  push_cast
  ring

/-- **C75 (action of every physical Gaussian channel)** Let `(A, b, c)` be the triple of a Hermitian, completely positive and trace preserving Gaussian map
with a finite output trace.  Then `Channel.XY` returns matrices `X` and `Y` such that the map takes every Gaussian state with covariance matrix `cov` and
mean `μ` to the Gaussian state with covariance matrix `X cov Xᵀ + Y` and mean `X μ + d` for a fixed `d`. -/
theorem C75_action {ħ : ℝ} (hħ : 0 < ħ) {A : Matrix ((p ⊕ q) ⊕ (p ⊕ q)) ((p ⊕ q) ⊕ (p ⊕ q)) ℂ} (hs : Aᵀ = A) (hA : A = Xmat (p ⊕ q) * cj A * Xmat (p ⊕ q))
    {b : (p ⊕ q) ⊕ (p ⊕ q) → ℂ} (hb : b ∘ Sum.inr = star (b ∘ Sum.inl)) {c : ℝ} (hc : 0 < c) (hpos : (1 - Xmat p * A.submatrix outIx outIx).PosDef)
    (hTP : TracePres (chanFun A b c)) (hCP : OpPos (dmFun A b c)) {atol : ℝ} (h0 : 0 ≤ atol) :
    ∃ X Y, xyOf atol ħ A = some (X, Y) ∧ Y.PosSemidef ∧ ∃ d, ∀ cov : Matrix (q ⊕ q) (q ⊕ q) ℝ, cov.PosDef → ∀ μ k z w,
      applyCh (chanFun A b c) (dmFromPhaseSpace ħ cov μ k) z w = dmFromPhaseSpace ħ (X * cov * Xᵀ + Y) (X.mulVec μ + d) k z w := by
  obtain ⟨hAK, hK⟩ := kOf_spec hs hA
  obtain ⟨β, rfl⟩ := bOf_spec hb
  set K := kOf A with hKd
  clear_value K
  subst hAK
  have hX : Xmat p * cj (rotmat p) = rotmat p := by rw [← Xmat_rot, ← Matrix.mul_assoc, Xmat_sq, Matrix.one_mul]
  have e1 : 1 - Xmat p * (cj (xyR p q) * toC K * (xyR p q)ᴴ).submatrix outIx outIx = rotmat p * toC (1 - K.toBlocks₁₁) * (rotmat p)ᴴ := by
    rw [sub_oo, ← Matrix.mul_assoc, ← Matrix.mul_assoc, hX, toC_sub, toC_one, Matrix.mul_sub, Matrix.sub_mul, Matrix.mul_one, rotmat_mul]
  have hζ : (1 - K.toBlocks₁₁).PosDef := by
    apply posDef_real
    rw [e1] at hpos
    have hru : IsUnit (rotmat p) := ⟨⟨rotmat p, (rotmat p)ᴴ, rotmat_mul, rotmat_mul'⟩, rfl⟩
    exact (hru.posDef_star_right_conjugate_iff).1 hpos
  obtain ⟨hch, hKx⟩ := tp_gaussCh hK hζ β c hTP
  set ζ := 1 - K.toBlocks₁₁ with hζd
  set X := ζ⁻¹ * K.toBlocks₁₂ with hXd
  set Y := ħ • (ζ⁻¹ - (1 / 2 : ℝ) • 1 - (1 / 2 : ℝ) • (X * Xᵀ)) with hYd
  have hxi : xyXi ħ X Y = ζ⁻¹ := by
    unfold xyXi
    rw [hYd]
    ext i j
    simp only [Matrix.add_apply, Matrix.smul_apply, Matrix.sub_apply, Matrix.map_apply, smul_eq_mul]
    field_simp
    ring
  have hξ : (xyXi ħ X Y).PosDef := by rw [hxi]; exact hζ.inv
  have hAx : cj (xyR p q) * toC K * (xyR p q)ᴴ = xyA ħ X Y := by rw [xyA_eq, hxi, ← hKx]
  have hYs : Yᵀ = Y := by
    have hsy : ζ⁻¹ᵀ = ζ⁻¹ := by
      have := hζ.inv.isHermitian
      unfold IsHermitian at this
      rwa [conjTranspose_eq_transpose_of_trivial] at this
    rw [hYd, transpose_smul, transpose_sub, transpose_sub, transpose_smul, transpose_smul, transpose_one, transpose_mul, transpose_transpose, hsy]
  have hYp : Y.PosSemidef := by
    have h1 := (C74_choi hs hA hb hc).2 hCP
    rw [hAx] at h1
    have h2 := (C74_is_CP hħ X hξ).1 h1
    refine psd_real (t := ħ / 2) (Z := symForm p - X * symForm q * Xᵀ) hYs ?_
    have h3 : toC (symForm p - X * symForm q * Xᵀ) = toC (symForm p) - toC X * toC (symForm q) * (toC X)ᵀ := by
      rw [toC_sub, toC_mul, toC_mul]; rfl
    rw [h3]
    push_cast
    exact h2
  refine ⟨X, Y, xyOf_real hζ.det_pos.ne' h0 rfl, hYp, Real.sqrt ħ • ζ⁻¹.mulVec (β ∘ Sum.inl), fun cov h μ k z w => ?_⟩
  have hout : (X * cov * Xᵀ + Y + (ħ / 2) • 1).PosDef := by
    have h1 : (X * cov * Xᵀ).PosSemidef := by
      have := h.posSemidef.mul_mul_conjTranspose_same X
      rwa [conjTranspose_eq_transpose_of_trivial] at this
    exact PosDef.posSemidef_add (h1.add hYp) (PosDef.one.smul (by positivity))
  have hm : mean ħ (Real.sqrt ħ • ζ⁻¹.mulVec (β ∘ Sum.inl)) = ζ⁻¹.mulVec (β ∘ Sum.inl) := by
    rw [mean_smul, smul_smul, inv_mul_cancel₀ (by positivity), one_smul]
  rw [hch, ← hxi, applyCh_gauss hħ hξ (xyXi_noise hħ X hYp) _ h, dm_rot hħ hout, vac_out hħ, ← mean_lin, hxi, hm]

end Verif.Manifold
