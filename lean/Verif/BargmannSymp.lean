import Verif.Symplectics
import Mathlib.LinearAlgebra.Matrix.PosDef
import Mathlib.LinearAlgebra.Matrix.NonsingularInverse
import Mathlib.Analysis.SpecialFunctions.Pow.Real
import Mathlib.Analysis.Calculus.Deriv.Basic
import Mathlib.Analysis.Calculus.Deriv.Pi
import Mathlib.Analysis.SpecialFunctions.ExpDeriv
import Mathlib.Tactic.NoncommRing
import Mathlib.Tactic.LinearCombination

/-!
# Unitaries and symplectic matrices (C64)

`symplectic2Au`, `au2Symplectic` of `physics/bargmann_utils.py` and `Unitary.from_symplectic`, without batch dimensions
(every batch element is treated independently by the code).  The modes are indexed by a finite type `n`; a matrix of
size `2m` is a block matrix over `n ⊕ n`.
-/

namespace Verif.Manifold
open Matrix

variable {n : Type*} [Fintype n] [DecidableEq n]

/-! ## Model -/

/-- `math.conj` of a matrix. -/
def cj {p q : Type*} (M : Matrix p q ℂ) : Matrix p q ℂ := M.map (starRingEnd ℂ)

/-- `math.cast(S, complex128)`. -/
def toC {p q : Type*} (S : Matrix p q ℝ) : Matrix p q ℂ := S.map Complex.ofReal

/-- math/backend_manager.py:1621-1624 `rotmat`. -/
noncomputable def rotmat (n : Type*) [DecidableEq n] : Matrix (n ⊕ n) (n ⊕ n) ℂ :=
  ((Real.sqrt (1 / 2) : ℝ) : ℂ) • fromBlocks 1 (Complex.I • 1) 1 (-(Complex.I • 1))

/-- physics/bargmann_utils.py:165-188 `symplectic2Au`; `math.solve(a, b)` is `a⁻¹ * b`. -/
noncomputable def symplectic2Au (S : Matrix (n ⊕ n) (n ⊕ n) ℝ) : Matrix (n ⊕ n) (n ⊕ n) ℂ :=
  let S' := rotmat n * toC S * (rotmat n)ᴴ
  let S1 := S'.toBlocks₁₁
  let S2 := S'.toBlocks₁₂
  let A1 := S2 * cj S1⁻¹
  let A2 := cj (S1ᵀ)⁻¹
  let A3 := A2ᵀ
  let A4 := -cj (S1⁻¹ * S2)
  fromBlocks A1 A2 A3 A4

/-- physics/bargmann_utils.py:121-162 `au2Symplectic`. -/
noncomputable def au2Symplectic (A : Matrix (n ⊕ n) (n ⊕ n) ℂ) : Matrix (n ⊕ n) (n ⊕ n) ℝ :=
  let u2 := A.toBlocks₁₂
  let u3 := A.toBlocks₂₂
  let S1 := cj (u2ᵀ)⁻¹
  let S2 := -cj ((u2ᵀ)⁻¹ * u3)
  let S3 := cj S2
  let S4 := cj S1
  let T : Matrix (n ⊕ n) (n ⊕ n) ℂ :=
    ((1 / Real.sqrt 2 : ℝ) : ℂ) • fromBlocks 1 1 (-(Complex.I • 1)) (Complex.I • 1)
  (T * fromBlocks S1 S2 S3 S4 * Tᴴ).map Complex.re

/-- lab/transformations/base.py:272-273: the constant `c` of `Unitary.from_symplectic`. -/
noncomputable def fromSymplecticC (S : Matrix (n ⊕ n) (n ⊕ n) ℝ) : ℂ :=
  let A4 := (symplectic2Au S).toBlocks₂₂
  ((-1) ^ Fintype.card n * (A4 * cj A4 - 1).det) ^ (1 / 4 : ℂ)

/-- lab/transformations/base.py:251-274 `Unitary.from_symplectic`: the Bargmann function of the unitary at
(output variables, input variables). -/
noncomputable def fromSymplectic (S : Matrix (n ⊕ n) (n ⊕ n) ℝ) (z w : n → ℂ) : ℂ :=
  fromSymplecticC S * Complex.exp (1 / 2 * (Sum.elim z w ⬝ᵥ (symplectic2Au S).mulVec (Sum.elim z w)))

/-! ## Specification: what it means that a unitary acts on the quadratures by `S`

A unitary `U` with Bargmann function `F(z, w)` (output, input variables): left multiplication by `a_i`, `a_i†` acts on
`F` by `∂/∂z_i` and `z_i`, right multiplication by `a_j`, `a_j†` by `w_j` and `∂/∂w_j`. -/

/-- The Bargmann functions of `q_i U` and `p_i U` with `q = (a + a†)/√2`, `p = (a - a†)/(i√2)`. -/
noncomputable def quadLeft (F : (n → ℂ) → (n → ℂ) → ℂ) (r : n ⊕ n) (z w : n → ℂ) : ℂ :=
  match r with
  | .inl i => (deriv (fun t => F (Function.update z i t) w) (z i) + z i * F z w) / (Real.sqrt 2 : ℝ)
  | .inr i => (deriv (fun t => F (Function.update z i t) w) (z i) - z i * F z w) / (Complex.I * (Real.sqrt 2 : ℝ))

/-- The Bargmann functions of `U q_i` and `U p_i`. -/
noncomputable def quadRight (F : (n → ℂ) → (n → ℂ) → ℂ) (r : n ⊕ n) (z w : n → ℂ) : ℂ :=
  match r with
  | .inl i => (w i * F z w + deriv (fun t => F z (Function.update w i t)) (w i)) / (Real.sqrt 2 : ℝ)
  | .inr i => (w i * F z w - deriv (fun t => F z (Function.update w i t)) (w i)) / (Complex.I * (Real.sqrt 2 : ℝ))

/-- `r U = U (S r)` for the vector `r` of quadratures, that is `U† r U = S r`. -/
def Implements (F : (n → ℂ) → (n → ℂ) → ℂ) (S : Matrix (n ⊕ n) (n ⊕ n) ℝ) : Prop :=
  ∀ r z w, quadLeft F r z w = ∑ s, (S r s : ℂ) * quadRight F s z w

/-! ## Proofs -/

theorem cj_mul {p q r : Type*} [Fintype q] (M : Matrix p q ℂ) (N : Matrix q r ℂ) : cj (M * N) = cj M * cj N := Matrix.map_mul
theorem cj_cj {p q : Type*} (M : Matrix p q ℂ) : cj (cj M) = M := by ext; simp [cj]
theorem cj_one : cj (1 : Matrix n n ℂ) = 1 := by simp [cj]
theorem cj_transpose {p q : Type*} (M : Matrix p q ℂ) : cj Mᵀ = Mᴴ := rfl
theorem cj_transpose' {p q : Type*} (M : Matrix p q ℂ) : (cj M)ᵀ = Mᴴ := rfl
theorem cj_conjT {p q : Type*} (M : Matrix p q ℂ) : cj Mᴴ = Mᵀ := by ext; simp [cj]
theorem conjT_cj {p q : Type*} (M : Matrix p q ℂ) : (cj M)ᴴ = Mᵀ := by ext; simp [cj]
theorem conjT_transpose {p q : Type*} (M : Matrix p q ℂ) : Mᴴᵀ = cj M := rfl
theorem transpose_conjT {p q : Type*} (M : Matrix p q ℂ) : Mᵀᴴ = cj M := rfl
theorem cj_neg {p q : Type*} (M : Matrix p q ℂ) : cj (-M) = -cj M := by ext; simp [cj]
theorem cj_add {p q : Type*} (M N : Matrix p q ℂ) : cj (M + N) = cj M + cj N := by ext; simp [cj]
theorem neg_mul_neg' (M N : Matrix n n ℂ) : -M * -N = M * N := by rw [Matrix.neg_mul, Matrix.mul_neg, neg_neg]
theorem cj_inv (M : Matrix n n ℂ) : cj M⁻¹ = (cj M)⁻¹ := by
  rw [← conjT_transpose, conjTranspose_nonsing_inv, transpose_nonsing_inv]; rfl

/-- The blocks of `R S R†`. -/
noncomputable def cS1 (S : Matrix (n ⊕ n) (n ⊕ n) ℝ) : Matrix n n ℂ := (rotmat n * toC S * (rotmat n)ᴴ).toBlocks₁₁
noncomputable def cS2 (S : Matrix (n ⊕ n) (n ⊕ n) ℝ) : Matrix n n ℂ := (rotmat n * toC S * (rotmat n)ᴴ).toBlocks₁₂

theorem half_sq : ((Real.sqrt (1 / 2) : ℝ) : ℂ) * ((Real.sqrt (1 / 2) : ℝ) : ℂ) = 1 / 2 := by
  rw [← Complex.ofReal_mul, Real.mul_self_sqrt (by norm_num)]; norm_num

theorem rotmat_conjT : (rotmat n)ᴴ = ((Real.sqrt (1 / 2) : ℝ) : ℂ) • fromBlocks 1 1 (-(Complex.I • 1)) (Complex.I • (1 : Matrix n n ℂ)) := by
  unfold rotmat
  rw [conjTranspose_smul, fromBlocks_conjTranspose]
  simp

theorem rotmat_mul : rotmat n * (rotmat n)ᴴ = 1 := by
  rw [rotmat_conjT]; unfold rotmat
  rw [Matrix.smul_mul, Matrix.mul_smul, smul_smul, half_sq, fromBlocks_multiply, fromBlocks_smul, ← fromBlocks_one]
  congr 1 <;> (ext i j; simp [Matrix.smul_apply, Matrix.one_apply]; try (split_ifs <;> simp; try norm_num))

theorem rotmat_mul' : (rotmat n)ᴴ * rotmat n = 1 := mul_eq_one_comm.mp rotmat_mul

/-- `R S R†` has the block form `[[S1, S2], [conj S2, conj S1]]`. -/
theorem rot_blocks (S : Matrix (n ⊕ n) (n ⊕ n) ℝ) :
    rotmat n * toC S * (rotmat n)ᴴ = fromBlocks (cS1 S) (cS2 S) (cj (cS2 S)) (cj (cS1 S)) := by
  have hS : toC S = fromBlocks (toC S.toBlocks₁₁) (toC S.toBlocks₁₂) (toC S.toBlocks₂₁) (toC S.toBlocks₂₂) := by
    conv_lhs => rw [← fromBlocks_toBlocks S]
    unfold toC
    rw [fromBlocks_map]
  have hr : ∀ M : Matrix n n ℝ, cj (toC M) = toC M := fun M => by ext; simp [cj, toC]
  have e : rotmat n * toC S * (rotmat n)ᴴ = fromBlocks
      ((1 / 2 : ℂ) • (toC S.toBlocks₁₁ + toC S.toBlocks₂₂ + Complex.I • (toC S.toBlocks₂₁ - toC S.toBlocks₁₂)))
      ((1 / 2 : ℂ) • (toC S.toBlocks₁₁ - toC S.toBlocks₂₂ + Complex.I • (toC S.toBlocks₂₁ + toC S.toBlocks₁₂)))
      ((1 / 2 : ℂ) • (toC S.toBlocks₁₁ - toC S.toBlocks₂₂ - Complex.I • (toC S.toBlocks₂₁ + toC S.toBlocks₁₂)))
      ((1 / 2 : ℂ) • (toC S.toBlocks₁₁ + toC S.toBlocks₂₂ - Complex.I • (toC S.toBlocks₂₁ - toC S.toBlocks₁₂))) := by
    conv_lhs => rw [hS, rotmat_conjT]
    unfold rotmat
    rw [Matrix.smul_mul, Matrix.smul_mul, Matrix.mul_smul, smul_smul, half_sq, fromBlocks_multiply, fromBlocks_multiply,
      fromBlocks_smul]
    congr 1 <;> refine congrArg _ ?_ <;> ext i j <;> simp [toC] <;> ring_nf <;> simp <;> ring
  have h1 : cS1 S = (1 / 2 : ℂ) • (toC S.toBlocks₁₁ + toC S.toBlocks₂₂ + Complex.I • (toC S.toBlocks₂₁ - toC S.toBlocks₁₂)) := by
    unfold cS1; rw [e, toBlocks_fromBlocks₁₁]
  have h2 : cS2 S = (1 / 2 : ℂ) • (toC S.toBlocks₁₁ - toC S.toBlocks₂₂ + Complex.I • (toC S.toBlocks₂₁ + toC S.toBlocks₁₂)) := by
    unfold cS2; rw [e, toBlocks_fromBlocks₁₂]
  rw [e, h1, h2]
  congr 1 <;> ext i j <;> simp [cj, toC, Complex.conj_ofNat] <;> ring

/-- The complex form of the symplectic condition. -/
theorem complex_symplectic {S : Matrix (n ⊕ n) (n ⊕ n) ℝ} (h : Symplectic S) :
    cS1 S * (cS1 S)ᴴ - cS2 S * (cS2 S)ᴴ = 1 ∧ cS1 S * (cS2 S)ᵀ = cS2 S * (cS1 S)ᵀ := by
  have hJ : toC S * toC (fromBlocks 0 1 (-1) 0 : Matrix (n ⊕ n) (n ⊕ n) ℝ) * (toC S)ᴴ = toC (fromBlocks 0 1 (-1) 0) := by
    have : (toC S)ᴴ = toC Sᵀ := by ext; simp [toC]
    have hm : ∀ M N : Matrix (n ⊕ n) (n ⊕ n) ℝ, toC M * toC N = toC (M * N) := fun M N =>
      (Matrix.map_mul (f := Complex.ofRealHom)).symm
    rw [this, hm, hm]
    exact congrArg toC h
  have hR : rotmat n * toC (fromBlocks 0 1 (-1) 0) * (rotmat n)ᴴ = fromBlocks (-(Complex.I • 1)) 0 0 (Complex.I • 1) := by
    rw [rotmat_conjT]; unfold rotmat
    have : toC (fromBlocks 0 1 (-1) 0 : Matrix (n ⊕ n) (n ⊕ n) ℝ) = fromBlocks 0 1 (-1) 0 := by
      unfold toC; rw [fromBlocks_map]; congr 1 <;> ext i j <;> simp [Matrix.one_apply] <;> split_ifs <;> simp
    rw [this, Matrix.smul_mul, Matrix.smul_mul, Matrix.mul_smul, smul_smul, half_sq, fromBlocks_multiply,
      fromBlocks_multiply, fromBlocks_smul]
    congr 1 <;> ext i j <;> simp [Matrix.one_apply] <;> split_ifs <;> (try simp) <;> ring
  set R := rotmat n
  have key : (R * toC S * Rᴴ) * (R * toC (fromBlocks 0 1 (-1) 0) * Rᴴ) * (R * toC S * Rᴴ)ᴴ =
      R * toC (fromBlocks 0 1 (-1) 0) * Rᴴ := by
    rw [conjTranspose_mul, conjTranspose_mul, conjTranspose_conjTranspose]
    calc _ = R * toC S * (Rᴴ * R) * toC (fromBlocks 0 1 (-1) 0) * (Rᴴ * R) * (toC S)ᴴ * Rᴴ := by simp only [Matrix.mul_assoc]
      _ = R * (toC S * toC (fromBlocks 0 1 (-1) 0) * (toC S)ᴴ) * Rᴴ := by
        rw [rotmat_mul']; simp only [Matrix.mul_assoc, Matrix.mul_one]
      _ = _ := by rw [hJ]
  rw [hR, rot_blocks, fromBlocks_conjTranspose, fromBlocks_multiply, fromBlocks_multiply, fromBlocks_inj] at key
  obtain ⟨k1, k2, -, -⟩ := key
  simp only [Matrix.mul_zero, zero_add, add_zero, Matrix.mul_neg, Matrix.neg_mul, Matrix.mul_smul, Matrix.smul_mul, Matrix.mul_one] at k1 k2
  have hI : ∀ M N : Matrix n n ℂ, Complex.I • M = Complex.I • N → M = N := fun M N h => by
    have := congrArg (fun X => (-Complex.I) • X) h
    simpa [smul_smul] using this
  constructor
  · refine hI _ _ ?_
    rw [smul_sub]
    rw [← neg_inj, ← k1]
    abel
  · refine hI _ _ ?_
    rw [conjT_cj, conjT_cj] at k2
    rw [← neg_inj, ← sub_eq_zero, ← k2]
    abel

theorem complex_symplectic' {S1 S2 : Matrix n n ℂ} (h1 : S1 * S1ᴴ - S2 * S2ᴴ = 1) (h2 : S1 * S2ᵀ = S2 * S1ᵀ) :
    S1ᴴ * S1 - S2ᵀ * cj S2 = 1 ∧ S1ᴴ * S2 = S2ᵀ * cj S1 := by
  have h1' := congrArg cj h1
  have h2' := congrArg cj h2
  rw [cj_one, sub_eq_add_neg, cj_add, cj_neg, cj_mul, cj_mul, cj_conjT, cj_conjT] at h1'
  rw [cj_mul, cj_mul, cj_transpose, cj_transpose] at h2'
  have : fromBlocks S1 S2 (cj S2) (cj S1) * fromBlocks S1ᴴ (-S2ᵀ) (-S2ᴴ) S1ᵀ = 1 := by
    rw [fromBlocks_multiply, ← fromBlocks_one]
    congr 1
    · rw [← h1, Matrix.mul_neg, sub_eq_add_neg]
    · rw [Matrix.mul_neg, h2]; abel
    · rw [Matrix.mul_neg, h2']; abel
    · rw [← h1', Matrix.mul_neg]; abel
  rw [mul_eq_one_comm, fromBlocks_multiply, ← fromBlocks_one, fromBlocks_inj] at this
  obtain ⟨k1, k2, -, -⟩ := this
  constructor
  · rw [← k1, Matrix.neg_mul, sub_eq_add_neg]
  · rw [← sub_eq_zero, ← k2, Matrix.neg_mul, sub_eq_add_neg]

open scoped ComplexOrder in
theorem cS1_unit {S1 S2 : Matrix n n ℂ} (h1 : S1 * S1ᴴ - S2 * S2ᴴ = 1) : IsUnit S1.det := by
  have e : S1 * S1ᴴ = 1 + S2 * S2ᴴ := by rw [← h1]; abel
  have hp : (S1 * S1ᴴ).PosDef := by
    rw [e]
    exact Matrix.PosDef.one.add_posSemidef (posSemidef_self_mul_conjTranspose S2)
  have := hp.isUnit
  rw [Matrix.isUnit_iff_isUnit_det, det_mul] at this
  exact isUnit_of_mul_isUnit_left this

/-- The blocks of `symplectic2Au S`. -/
theorem symplectic2Au_eq {S : Matrix (n ⊕ n) (n ⊕ n) ℝ} (h : Symplectic S) :
    symplectic2Au S = fromBlocks (cS2 S * cj (cS1 S)⁻¹) ((cS1 S)⁻¹)ᴴ (cj (cS1 S)⁻¹) (-cj ((cS1 S)⁻¹ * cS2 S)) := by
  unfold symplectic2Au
  show fromBlocks (cS2 S * cj (cS1 S)⁻¹) (cj ((cS1 S)ᵀ)⁻¹) (cj ((cS1 S)ᵀ)⁻¹)ᵀ (-cj ((cS1 S)⁻¹ * cS2 S)) = _
  rw [← transpose_nonsing_inv, cj_transpose, conjT_transpose]

/-- **C64 (symmetry)** The matrix built from a symplectic matrix is symmetric. -/
theorem C64_symm (S : Matrix (n ⊕ n) (n ⊕ n) ℝ) (h : Symplectic S) : (symplectic2Au S)ᵀ = symplectic2Au S := by
  obtain ⟨h1, h2⟩ := complex_symplectic h
  obtain ⟨h3, h4⟩ := complex_symplectic' h1 h2
  have hu := cS1_unit h1
  rw [symplectic2Au_eq h]
  set S1 := cS1 S
  set S2 := cS2 S
  have i1 : S1⁻¹ * S1 = 1 := nonsing_inv_mul _ hu
  have i2 : S1 * S1⁻¹ = 1 := mul_nonsing_inv _ hu
  have i3 : cj S1 * cj S1⁻¹ = 1 := by rw [← cj_mul, i2, cj_one]
  have i4 : (S1⁻¹)ᴴ * S1ᴴ = 1 := by rw [← conjTranspose_mul, i2, conjTranspose_one]
  have i5 : cj S1⁻¹ * cj S1 = 1 := by rw [← cj_mul, i1, cj_one]
  have i6 : S1ᴴ * (S1⁻¹)ᴴ = 1 := by rw [← conjTranspose_mul, i1, conjTranspose_one]
  have h2' := congrArg cj h2
  rw [cj_mul, cj_mul, cj_transpose, cj_transpose] at h2'
  rw [fromBlocks_transpose]
  congr 1
  · rw [transpose_mul, cj_transpose']
    calc (S1⁻¹)ᴴ * S2ᵀ = (S1⁻¹)ᴴ * (S2ᵀ * cj S1) * cj S1⁻¹ := by simp only [Matrix.mul_assoc, i3, Matrix.mul_one]
      _ = ((S1⁻¹)ᴴ * S1ᴴ) * S2 * cj S1⁻¹ := by rw [← h4]; simp only [Matrix.mul_assoc]
      _ = _ := by rw [i4, Matrix.one_mul]
  · rw [transpose_neg, cj_transpose', conjTranspose_mul, cj_mul]
    refine congrArg _ ?_
    calc S2ᴴ * (S1⁻¹)ᴴ = cj S1⁻¹ * (cj S1 * S2ᴴ) * (S1⁻¹)ᴴ := by
          rw [← Matrix.mul_assoc, i5, Matrix.one_mul]
      _ = cj S1⁻¹ * cj S2 * (S1ᴴ * (S1⁻¹)ᴴ) := by rw [h2']; simp only [Matrix.mul_assoc]
      _ = _ := by rw [i6, Matrix.mul_one]

/-- The relations between the blocks used below: `T` is the inverse of `S1`. -/
theorem block_relations {S1 S2 : Matrix n n ℂ} (h1 : S1 * S1ᴴ - S2 * S2ᴴ = 1) (h2 : S1 * S2ᵀ = S2 * S1ᵀ) :
    S1⁻¹ * S1 = 1 ∧ S1 * S1⁻¹ = 1 ∧ S1⁻¹ * S2 = S2ᵀ * (S1⁻¹)ᵀ ∧ S2 * cj S1⁻¹ = (S1⁻¹)ᴴ * S2ᵀ ∧
      S1 - S2 * cj (S1⁻¹ * S2) = (S1⁻¹)ᴴ := by
  obtain ⟨h3, h4⟩ := complex_symplectic' h1 h2
  have hu := cS1_unit h1
  have i1 : S1⁻¹ * S1 = 1 := nonsing_inv_mul _ hu
  have i2 : S1 * S1⁻¹ = 1 := mul_nonsing_inv _ hu
  have i3 : cj S1 * cj S1⁻¹ = 1 := by rw [← cj_mul, i2, cj_one]
  have i4 : (S1⁻¹)ᴴ * S1ᴴ = 1 := by rw [← conjTranspose_mul, i2, conjTranspose_one]
  have i6 : S1ᴴ * (S1⁻¹)ᴴ = 1 := by rw [← conjTranspose_mul, i1, conjTranspose_one]
  have i7 : S1ᵀ * (S1⁻¹)ᵀ = 1 := by rw [← transpose_mul, i1, transpose_one]
  have k1 : S1⁻¹ * S2 = S2ᵀ * (S1⁻¹)ᵀ := by
    calc S1⁻¹ * S2 = S1⁻¹ * (S2 * S1ᵀ) * (S1⁻¹)ᵀ := by simp only [Matrix.mul_assoc, i7, Matrix.mul_one]
      _ = (S1⁻¹ * S1) * S2ᵀ * (S1⁻¹)ᵀ := by rw [← h2]; simp only [Matrix.mul_assoc]
      _ = _ := by rw [i1, Matrix.one_mul]
  refine ⟨i1, i2, k1, ?_, ?_⟩
  · calc S2 * cj S1⁻¹ = ((S1⁻¹)ᴴ * S1ᴴ) * S2 * cj S1⁻¹ := by rw [i4, Matrix.one_mul]
      _ = (S1⁻¹)ᴴ * (S2ᵀ * cj S1) * cj S1⁻¹ := by rw [← h4]; simp only [Matrix.mul_assoc]
      _ = _ := by simp only [Matrix.mul_assoc, i3, Matrix.mul_one]
  · rw [k1, cj_mul, cj_transpose, cj_transpose]
    calc S1 - S2 * (S2ᴴ * (S1⁻¹)ᴴ) = (S1 * S1ᴴ - S2 * S2ᴴ) * (S1⁻¹)ᴴ := by
          rw [Matrix.sub_mul, Matrix.mul_assoc, i6, Matrix.mul_one, Matrix.mul_assoc]
      _ = _ := by rw [h1, Matrix.one_mul]

/-- **C64 (unitarity of the matrix)** -/
theorem C64_unitary (S : Matrix (n ⊕ n) (n ⊕ n) ℝ) (h : Symplectic S) :
    symplectic2Au S * (symplectic2Au S)ᴴ = 1 := by
  obtain ⟨h1, h2⟩ := complex_symplectic h
  obtain ⟨i1, i2, k1, k2, k3⟩ := block_relations h1 h2
  have hs := C64_symm S h
  have e : (symplectic2Au S)ᴴ = cj (symplectic2Au S) := by rw [← cj_transpose, hs]
  rw [e, symplectic2Au_eq h]
  set S1 := cS1 S
  set S2 := cS2 S
  have ec : cj (fromBlocks (S2 * cj S1⁻¹) (S1⁻¹)ᴴ (cj S1⁻¹) (-cj (S1⁻¹ * S2))) =
      fromBlocks (cj S2 * S1⁻¹) (S1⁻¹)ᵀ S1⁻¹ (-(S1⁻¹ * S2)) := by
    unfold cj; rw [fromBlocks_map]
    show fromBlocks (cj (S2 * cj S1⁻¹)) (cj (S1⁻¹)ᴴ) (cj (cj S1⁻¹)) (cj (-cj (S1⁻¹ * S2))) = _
    rw [cj_mul, cj_cj, cj_conjT, cj_neg, cj_cj]
    rfl
  rw [ec, fromBlocks_multiply, ← fromBlocks_one]
  congr 1
  · calc S2 * cj S1⁻¹ * (cj S2 * S1⁻¹) + (S1⁻¹)ᴴ * S1⁻¹ = (S2 * cj (S1⁻¹ * S2) + (S1⁻¹)ᴴ) * S1⁻¹ := by
          rw [cj_mul, Matrix.add_mul]; simp only [Matrix.mul_assoc]
      _ = S1 * S1⁻¹ := by rw [← k3]; refine congrArg (· * _) ?_; abel
      _ = 1 := i2
  · rw [k2, k1, Matrix.mul_assoc, Matrix.mul_neg, add_neg_cancel]
  · rw [cj_mul, Matrix.neg_mul, Matrix.mul_assoc, add_neg_cancel]
  · have k3' := congrArg cj k3
    rw [sub_eq_add_neg, cj_add, cj_neg, cj_mul, cj_cj, cj_conjT] at k3'
    rw [cj_mul]
    calc cj S1⁻¹ * (S1⁻¹)ᵀ + -(cj S1⁻¹ * cj S2) * -(S1⁻¹ * S2) = cj S1⁻¹ * ((S1⁻¹)ᵀ + cj S2 * (S1⁻¹ * S2)) := by
          rw [Matrix.mul_add, neg_mul_neg']; simp only [Matrix.mul_assoc]
      _ = cj S1⁻¹ * cj S1 := by rw [← k3']; refine congrArg (cj S1⁻¹ * ·) ?_; abel
      _ = 1 := by rw [← cj_mul, i1, cj_one]

/-! ### From the complex form back to real matrices -/

theorem sqrt_half' : ((1 / Real.sqrt 2 : ℝ) : ℂ) = ((Real.sqrt (1 / 2) : ℝ) : ℂ) := by
  rw [Real.sqrt_div zero_le_one, Real.sqrt_one]

/-- The real matrix with complex blocks `S1`, `S2`. -/
noncomputable def ofCplx (S1 S2 : Matrix n n ℂ) : Matrix (n ⊕ n) (n ⊕ n) ℝ :=
  ((rotmat n)ᴴ * fromBlocks S1 S2 (cj S2) (cj S1) * rotmat n).map Complex.re

theorem toC_ofCplx (S1 S2 : Matrix n n ℂ) : toC (ofCplx S1 S2) = (rotmat n)ᴴ * fromBlocks S1 S2 (cj S2) (cj S1) * rotmat n := by
  have hr : cj ((rotmat n)ᴴ * fromBlocks S1 S2 (cj S2) (cj S1) * rotmat n) =
      (rotmat n)ᴴ * fromBlocks S1 S2 (cj S2) (cj S1) * rotmat n := by
    rw [rotmat_conjT]; unfold rotmat
    rw [Matrix.smul_mul, Matrix.smul_mul, Matrix.mul_smul, smul_smul, half_sq, fromBlocks_multiply,
      fromBlocks_multiply, fromBlocks_smul]
    unfold cj
    rw [fromBlocks_map]
    congr 1 <;> ext i j <;> simp [Complex.conj_ofNat] <;> ring
  ext i j
  have := congrFun (congrFun hr i) j
  exact Complex.conj_eq_iff_re.1 this

theorem cS_ofCplx (S1 S2 : Matrix n n ℂ) : cS1 (ofCplx S1 S2) = S1 ∧ cS2 (ofCplx S1 S2) = S2 := by
  have : rotmat n * toC (ofCplx S1 S2) * (rotmat n)ᴴ = fromBlocks S1 S2 (cj S2) (cj S1) := by
    rw [toC_ofCplx]
    calc _ = (rotmat n * (rotmat n)ᴴ) * fromBlocks S1 S2 (cj S2) (cj S1) * (rotmat n * (rotmat n)ᴴ) := by
          simp only [Matrix.mul_assoc]
      _ = _ := by rw [rotmat_mul, Matrix.one_mul, Matrix.mul_one]
  unfold cS1 cS2
  rw [this, toBlocks_fromBlocks₁₁, toBlocks_fromBlocks₁₂]
  exact ⟨rfl, rfl⟩

theorem ofCplx_cS (S : Matrix (n ⊕ n) (n ⊕ n) ℝ) : ofCplx (cS1 S) (cS2 S) = S := by
  have : toC (ofCplx (cS1 S) (cS2 S)) = toC S := by
    rw [toC_ofCplx, ← rot_blocks]
    calc _ = ((rotmat n)ᴴ * rotmat n) * toC S * ((rotmat n)ᴴ * rotmat n) := by simp only [Matrix.mul_assoc]
      _ = _ := by rw [rotmat_mul', Matrix.one_mul, Matrix.mul_one]
  ext i j
  have := congrFun (congrFun this i) j
  exact Complex.ofReal_injective this

theorem au2Symplectic_eq (A : Matrix (n ⊕ n) (n ⊕ n) ℂ) :
    au2Symplectic A = ofCplx (cj (A.toBlocks₁₂ᵀ)⁻¹) (-cj ((A.toBlocks₁₂ᵀ)⁻¹ * A.toBlocks₂₂)) := by
  unfold au2Symplectic ofCplx
  simp only []
  rw [sqrt_half', ← rotmat_conjT, conjTranspose_conjTranspose]

/-- **C64 (round trip)** `Unitary.from_symplectic(S).symplectic` is `S`. -/
theorem C64_roundtrip (S : Matrix (n ⊕ n) (n ⊕ n) ℝ) (h : Symplectic S) : au2Symplectic (symplectic2Au S) = S := by
  obtain ⟨h1, h2⟩ := complex_symplectic h
  obtain ⟨i1, i2, -, -, -⟩ := block_relations h1 h2
  have hu := cS1_unit h1
  have e : (cj (cS1 S)⁻¹)⁻¹ = cj (cS1 S) := by
    rw [cj_inv, nonsing_inv_nonsing_inv _ (by
      have : (cj (cS1 S)).det = (starRingEnd ℂ) (cS1 S).det := (RingHom.map_det (starRingEnd ℂ) (cS1 S)).symm
      rw [this]; exact hu.map _)]
  rw [au2Symplectic_eq, symplectic2Au_eq h, toBlocks_fromBlocks₁₂, toBlocks_fromBlocks₂₂, conjT_transpose, e, cj_cj,
    Matrix.mul_neg, cj_neg, neg_neg, cj_mul, cj_cj, cj_cj, ← Matrix.mul_assoc, i2, Matrix.one_mul, ofCplx_cS]

/-- The converse of `complex_symplectic`. -/
theorem symplectic_ofCplx {S1 S2 : Matrix n n ℂ} (h1 : S1 * S1ᴴ - S2 * S2ᴴ = 1) (h2 : S1 * S2ᵀ = S2 * S1ᵀ) :
    Symplectic (ofCplx S1 S2) := by
  have hR : (rotmat n)ᴴ * fromBlocks (-(Complex.I • 1)) 0 0 (Complex.I • 1) * rotmat n = toC (fromBlocks 0 1 (-1) 0) := by
    rw [rotmat_conjT]; unfold rotmat
    have : toC (fromBlocks 0 1 (-1) 0 : Matrix (n ⊕ n) (n ⊕ n) ℝ) = fromBlocks 0 1 (-1) 0 := by
      unfold toC; rw [fromBlocks_map]; congr 1 <;> ext i j <;> simp [Matrix.one_apply] <;> split_ifs <;> simp
    rw [this, Matrix.smul_mul, Matrix.smul_mul, Matrix.mul_smul, smul_smul, half_sq, fromBlocks_multiply,
      fromBlocks_multiply, fromBlocks_smul]
    congr 1 <;> ext i j <;> simp [Matrix.one_apply] <;> split_ifs <;> (try simp) <;> ring
  have h1' := congrArg cj h1
  have h2' := congrArg cj h2
  rw [cj_one, sub_eq_add_neg, cj_add, cj_neg, cj_mul, cj_mul, cj_conjT, cj_conjT] at h1'
  rw [cj_mul, cj_mul, cj_transpose, cj_transpose] at h2'
  have key : fromBlocks S1 S2 (cj S2) (cj S1) * fromBlocks (-(Complex.I • 1)) 0 0 (Complex.I • 1) *
      (fromBlocks S1 S2 (cj S2) (cj S1))ᴴ = fromBlocks (-(Complex.I • 1)) 0 0 (Complex.I • 1) := by
    rw [fromBlocks_conjTranspose, fromBlocks_multiply, fromBlocks_multiply]
    simp only [Matrix.mul_zero, zero_add, add_zero, Matrix.mul_neg, Matrix.neg_mul, Matrix.mul_smul, Matrix.smul_mul,
      Matrix.mul_one, conjT_cj]
    congr 1
    · rw [← smul_neg, ← smul_neg, ← smul_add, ← h1]; refine congrArg _ ?_; abel
    · rw [h2]; abel
    · rw [h2']; abel
    · rw [← smul_neg, ← smul_add, ← h1']; refine congrArg _ ?_; abel
  have hm : ∀ M N : Matrix (n ⊕ n) (n ⊕ n) ℝ, toC M * toC N = toC (M * N) := fun M N =>
    (Matrix.map_mul (f := Complex.ofRealHom)).symm
  have hinj : ∀ M N : Matrix (n ⊕ n) (n ⊕ n) ℝ, toC M = toC N → M = N := fun M N hMN => by
    ext i j; exact Complex.ofReal_injective (congrFun (congrFun hMN i) j)
  have ht : toC (ofCplx S1 S2)ᵀ = (toC (ofCplx S1 S2))ᴴ := by ext; simp [toC]
  refine hinj _ _ ?_
  rw [← hm, ← hm, ht, toC_ofCplx, ← hR]
  set R := rotmat n
  set F := fromBlocks S1 S2 (cj S2) (cj S1)
  rw [conjTranspose_mul, conjTranspose_mul, conjTranspose_conjTranspose]
  calc _ = Rᴴ * F * (R * Rᴴ) * fromBlocks (-(Complex.I • 1)) 0 0 (Complex.I • 1) * (R * Rᴴ) * Fᴴ * R := by
        simp only [Matrix.mul_assoc]
    _ = Rᴴ * (F * fromBlocks (-(Complex.I • 1)) 0 0 (Complex.I • 1) * Fᴴ) * R := by
        rw [rotmat_mul]; simp only [Matrix.mul_assoc, Matrix.mul_one]
    _ = _ := by rw [key]

/-- **C64 (converse)** Every symmetric unitary matrix with an invertible block between outputs and inputs — the `A` of a
Gaussian unitary — is the one built from its `symplectic`, which is a symplectic matrix. -/
theorem C64_converse (A : Matrix (n ⊕ n) (n ⊕ n) ℂ) (hs : Aᵀ = A) (hu : A * Aᴴ = 1) (hd : IsUnit A.toBlocks₁₂.det) :
    Symplectic (au2Symplectic A) ∧ symplectic2Au (au2Symplectic A) = A := by
  obtain ⟨A1, A2, A3, A4, rfl⟩ : ∃ A1 A2 A3 A4, A = fromBlocks A1 A2 A3 A4 := ⟨_, _, _, _, (fromBlocks_toBlocks A).symm⟩
  rw [fromBlocks_transpose, fromBlocks_inj] at hs
  obtain ⟨s1, s2, s3, s4⟩ := hs
  rw [fromBlocks_conjTranspose, fromBlocks_multiply, ← fromBlocks_one, fromBlocks_inj] at hu
  obtain ⟨-, -, u3, u4⟩ := hu
  rw [toBlocks_fromBlocks₁₂] at hd
  rw [au2Symplectic_eq, toBlocks_fromBlocks₁₂, toBlocks_fromBlocks₂₂, s3]
  have hd3 : IsUnit A3.det := by rw [← s3, det_transpose]; exact hd
  have i1 : A3⁻¹ * A3 = 1 := nonsing_inv_mul _ hd3
  have i2 : A3 * A3⁻¹ = 1 := mul_nonsing_inv _ hd3
  have i3 : A3ᴴ * (A3⁻¹)ᴴ = 1 := by rw [← conjTranspose_mul, i1, conjTranspose_one]
  have c1 : cj A3⁻¹ * (cj A3⁻¹)ᴴ - -cj (A3⁻¹ * A4) * (-cj (A3⁻¹ * A4))ᴴ = 1 := by
    have : A3⁻¹ * (A3⁻¹)ᴴ - A3⁻¹ * A4 * (A3⁻¹ * A4)ᴴ = 1 := by
      rw [conjTranspose_mul]
      calc A3⁻¹ * (A3⁻¹)ᴴ - A3⁻¹ * A4 * (A4ᴴ * (A3⁻¹)ᴴ) = A3⁻¹ * (1 - A4 * A4ᴴ) * (A3⁻¹)ᴴ := by
            rw [Matrix.mul_sub, Matrix.sub_mul, Matrix.mul_one]; simp only [Matrix.mul_assoc]
        _ = (A3⁻¹ * A3) * (A3ᴴ * (A3⁻¹)ᴴ) := by
            rw [← u4, add_sub_cancel_right]; simp only [Matrix.mul_assoc]
        _ = 1 := by rw [i1, i3, Matrix.one_mul]
    have h := congrArg cj this
    rw [cj_one, sub_eq_add_neg, cj_add, cj_neg, cj_mul, cj_mul (A3⁻¹ * A4), cj_conjT, cj_conjT] at h
    rw [conjTranspose_neg, neg_mul_neg', conjT_cj, conjT_cj, sub_eq_add_neg]
    exact h
  have c2 : cj A3⁻¹ * (-cj (A3⁻¹ * A4))ᵀ = -cj (A3⁻¹ * A4) * (cj A3⁻¹)ᵀ := by
    rw [transpose_neg, Matrix.mul_neg, Matrix.neg_mul, cj_transpose', cj_transpose', conjTranspose_mul, cj_mul,
      ← cj_transpose A4, s4, Matrix.mul_assoc]
  refine ⟨symplectic_ofCplx c1 c2, ?_⟩
  rw [symplectic2Au_eq (symplectic_ofCplx c1 c2), (cS_ofCplx _ _).1, (cS_ofCplx _ _).2]
  have e1 : cj (cj A3⁻¹)⁻¹ = A3 := by rw [cj_inv, cj_cj, nonsing_inv_nonsing_inv _ hd3]
  have e2 : (cj A3⁻¹)⁻¹ = cj A3 := by rw [← e1, cj_cj, e1]
  rw [e1, e2]
  congr 1
  · have : A1ᴴ = -(A3⁻¹ * A4) * A2ᴴ := by
      have h : A3⁻¹ * (A3 * A1ᴴ + A4 * A2ᴴ) = 0 := by rw [u3, Matrix.mul_zero]
      rw [Matrix.mul_add, ← Matrix.mul_assoc, i1, Matrix.one_mul] at h
      rw [Matrix.neg_mul, Matrix.mul_assoc]
      exact eq_neg_of_add_eq_zero_left h
    have h := congrArg cj this
    rw [cj_conjT, s1, cj_mul, cj_neg, cj_conjT, s3] at h
    exact h.symm
  · rw [conjT_cj, s2]
  · rw [Matrix.mul_neg, cj_neg, neg_neg, cj_mul, cj_cj, cj_cj, ← Matrix.mul_assoc, i2, Matrix.one_mul]

end Verif.Manifold
