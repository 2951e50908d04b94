import Verif.Manifold
import Mathlib.Analysis.SpecialFunctions.Trigonometric.Basic
import Mathlib.Analysis.SpecialFunctions.Complex.Circle
import Mathlib.LinearAlgebra.Matrix.Notation
import Mathlib.Analysis.Real.Sqrt

/-!
# Symplectic matrices of the gates (C40)

`mrmustard/physics/symplectics.py` without batch dimensions.  Rows and columns are ordered x₁ … x_N p₁ … p_N.
-/

namespace Verif.Manifold
open Matrix

/-! ## Model -/

/-- A 4×4 matrix as a 2×2 block matrix of 2×2 matrices. -/
def blocks {R : Type*} (M : Matrix (Fin 4) (Fin 4) R) : Matrix (Fin 2 ⊕ Fin 2) (Fin 2 ⊕ Fin 2) R := M.submatrix finSumFinEquiv finSumFinEquiv

/-- physics/symplectics.py:28-54 `cxgate_symplectic`. -/
def cx {R : Type*} [Ring R] (s : R) : Matrix (Fin 4) (Fin 4) R :=
  !![1, 0, 0, 0; s, 1, 0, 0; 0, 0, 1, -s; 0, 0, 0, 1]

/-- physics/symplectics.py:56-81 `czgate_symplectic`. -/
def cz {R : Type*} [Ring R] (s : R) : Matrix (Fin 4) (Fin 4) R :=
  !![1, 0, 0, 0; 0, 1, 0, 0; 0, s, 1, 0; s, 0, 0, 1]

/-- physics/symplectics.py:84-96 `interferometer_symplectic`. -/
def interferometer {n : Type*} (U : Matrix n n ℂ) : Matrix (n ⊕ n) (n ⊕ n) ℝ :=
  fromBlocks (U.map Complex.re) (-(U.map Complex.im)) (U.map Complex.im) (U.map Complex.re)

/-- physics/symplectics.py:99-152 `mzgate_symplectic`. -/
noncomputable def mz (a b : ℝ) (internal : Bool) : Matrix (Fin 4) (Fin 4) ℝ :=
  let ca := Real.cos a; let sa := Real.sin a; let cb := Real.cos b; let sb := Real.sin b
  let cp := Real.cos (a + b); let sp := Real.sin (a + b)
  (1 / 2 : ℝ) • if internal then
    !![ca - cb, -sa - sb, sb - sa, -ca - cb;
       -sa - sb, cb - ca, -ca - cb, sa - sb;
       sa - sb, ca + cb, ca - cb, -sa - sb;
       ca + cb, sb - sa, -sa - sb, cb - ca]
  else
    !![cp - ca, -sb, sa - sp, -1 - cb;
       -sa - sp, 1 - cb, -ca - cp, sb;
       sp - sa, 1 + cb, cp - ca, -sb;
       cp + ca, -sb, -sa - sp, 1 - cb]

/-- physics/symplectics.py:155-175 `pgate_symplectic`. -/
def pgate {R n : Type*} [Ring R] [DecidableEq n] (s : R) : Matrix (n ⊕ n) (n ⊕ n) R := fromBlocks 1 0 (s • 1) 1

/-- physics/symplectics.py:178-190 `realinterferometer_symplectic`. -/
def realInterferometer {n : Type*} (O : Matrix n n ℝ) : Matrix (n ⊕ n) (n ⊕ n) ℝ := fromBlocks O (-0) 0 O

/-! ## Specification: the unitary of a Mach–Zehnder interferometer -/

/-- The balanced beamsplitter. -/
noncomputable def bs50 : Matrix (Fin 2) (Fin 2) ℂ := ((1 / Real.sqrt 2 : ℝ) : ℂ) • !![1, Complex.I; Complex.I, 1]

/-- Phase shifts on the two arms. -/
noncomputable def phases (a b : ℝ) : Matrix (Fin 2) (Fin 2) ℂ := !![Complex.exp (a * Complex.I), 0; 0, Complex.exp (b * Complex.I)]

/-! ## Proofs -/

variable {n : Type*} [Fintype n] [DecidableEq n]

theorem symplectic_blocks {R : Type*} [CommRing R] {M : Matrix (Fin 4) (Fin 4) R}
    (h : M * !![0, 0, 1, 0; 0, 0, 0, 1; -1, 0, 0, 0; 0, -1, 0, 0] * Mᵀ = !![0, 0, 1, 0; 0, 0, 0, 1; -1, 0, 0, 0; 0, -1, 0, 0]) :
    Symplectic (blocks M) := by
  have hJ : (fromBlocks 0 1 (-1) 0 : Matrix (Fin 2 ⊕ Fin 2) (Fin 2 ⊕ Fin 2) R) =
      (!![0, 0, 1, 0; 0, 0, 0, 1; -1, 0, 0, 0; 0, -1, 0, 0] : Matrix (Fin 4) (Fin 4) R).submatrix finSumFinEquiv finSumFinEquiv := by
    ext i j
    rcases i with i | i <;> rcases j with j | j <;> fin_cases i <;> fin_cases j <;>
      simp [finSumFinEquiv, Fin.castAdd, Fin.natAdd, Matrix.one_apply]
  unfold Symplectic blocks
  rw [hJ, transpose_submatrix, submatrix_mul_equiv, submatrix_mul_equiv, h]

/-- **C40 (CX, CZ)** for any commutative ring of parameters. -/
theorem C40_cx_cz {R : Type*} [CommRing R] (s : R) : Symplectic (blocks (cx s)) ∧ Symplectic (blocks (cz s)) := by
  constructor <;> refine symplectic_blocks ?_
  · ext i j
    fin_cases i <;> fin_cases j <;> simp [cx, Matrix.mul_apply, Fin.sum_univ_four]
  · ext i j
    fin_cases i <;> fin_cases j <;> simp [cz, Matrix.mul_apply, Fin.sum_univ_four]

/-- **C40 (P)** -/
theorem C40_pgate {R : Type*} [CommRing R] (s : R) : Symplectic (pgate s : Matrix (n ⊕ n) (n ⊕ n) R) := by
  unfold Symplectic pgate
  rw [fromBlocks_transpose, fromBlocks_multiply, fromBlocks_multiply]
  simp

theorem map_re_mul (U V : Matrix n n ℂ) : (U * V).map Complex.re = U.map Complex.re * V.map Complex.re - U.map Complex.im * V.map Complex.im := by
  ext i j
  simp [Matrix.mul_apply, Complex.mul_re, Finset.sum_sub_distrib]

theorem map_im_mul (U V : Matrix n n ℂ) : (U * V).map Complex.im = U.map Complex.re * V.map Complex.im + U.map Complex.im * V.map Complex.re := by
  ext i j
  simp [Matrix.mul_apply, Complex.mul_im, Finset.sum_add_distrib]

/-- **C40 (composition)** The matrix of a product of interferometers is the product of the matrices; shears and controlled gates add their parameters. -/
theorem C40_composition (U V : Matrix n n ℂ) (s t : ℝ) :
    interferometer (U * V) = interferometer U * interferometer V ∧ cx (s + t) = cx s * cx t ∧ cz (s + t) = cz s * cz t ∧
      (pgate (s + t) : Matrix (n ⊕ n) (n ⊕ n) ℝ) = pgate s * pgate t := by
  refine ⟨?_, ?_, ?_, ?_⟩
  · unfold interferometer
    rw [fromBlocks_multiply, map_re_mul, map_im_mul]
    congr 1
    · rw [Matrix.neg_mul, sub_eq_add_neg]
    · rw [Matrix.neg_mul, Matrix.mul_neg, neg_add]
    · rw [add_comm]
    · rw [Matrix.mul_neg, sub_eq_add_neg, add_comm]
  · ext i j
    fin_cases i <;> fin_cases j <;> simp [cx, Matrix.mul_apply, Fin.sum_univ_four]
  · ext i j
    fin_cases i <;> fin_cases j <;> simp [cz, Matrix.mul_apply, Fin.sum_univ_four]
  · unfold pgate
    rw [fromBlocks_multiply]
    simp [add_smul]

theorem interferometer_one : interferometer (1 : Matrix n n ℂ) = 1 := by
  unfold interferometer
  rw [← fromBlocks_one]
  congr 1 <;> ext i j <;> by_cases h : i = j <;> simp [Matrix.one_apply, h]

theorem interferometer_conjTranspose (U : Matrix n n ℂ) : interferometer Uᴴ = (interferometer U)ᵀ := by
  unfold interferometer
  rw [fromBlocks_transpose]
  congr 1 <;> ext i j <;> simp

/-- **C40 (interferometers)** The matrix is symplectic, and orthogonal, exactly for unitaries. -/
theorem C40_interferometer (U : Matrix n n ℂ) :
    (U ∈ Matrix.unitaryGroup n ℂ → Symplectic (interferometer U) ∧ interferometer U ∈ Matrix.orthogonalGroup (n ⊕ n) ℝ) ∧
    (Symplectic (interferometer U) → U ∈ Matrix.unitaryGroup n ℂ) := by
  have hJ : ∀ V : Matrix n n ℂ, interferometer V * fromBlocks 0 1 (-1) 0 = fromBlocks 0 1 (-1) 0 * interferometer V := by
    intro V
    unfold interferometer
    rw [fromBlocks_multiply, fromBlocks_multiply]
    simp
  have key : Symplectic (interferometer U) ↔ interferometer (U * Uᴴ) * fromBlocks 0 1 (-1) 0 = fromBlocks 0 1 (-1) 0 := by
    unfold Symplectic
    rw [(C40_composition U Uᴴ 0 0).1, interferometer_conjTranspose, Matrix.mul_assoc, Matrix.mul_assoc]
    rw [← interferometer_conjTranspose, hJ]
  constructor
  · intro h
    rw [Matrix.mem_unitaryGroup_iff, star_eq_conjTranspose] at h
    refine ⟨key.2 (by rw [h, interferometer_one, Matrix.one_mul]), ?_⟩
    rw [Matrix.mem_orthogonalGroup_iff, ← interferometer_conjTranspose,
      ← (C40_composition U Uᴴ 0 0).1, h, interferometer_one]
  · intro h
    have h1 := key.1 h
    rw [Matrix.mem_unitaryGroup_iff, star_eq_conjTranspose]
    unfold interferometer at h1
    rw [fromBlocks_multiply, fromBlocks_inj] at h1
    obtain ⟨h1, h2, -, -⟩ := h1
    simp only [Matrix.mul_zero, Matrix.mul_neg, Matrix.neg_mul, Matrix.mul_one, zero_add, neg_neg, add_zero] at h1 h2
    ext i j
    refine Complex.ext ?_ ?_
    · have := congrFun (congrFun h2 i) j
      rw [Matrix.map_apply] at this
      rw [this]
      by_cases hij : i = j <;> simp [Matrix.one_apply, hij]
    · have := congrFun (congrFun h1 i) j
      rw [Matrix.map_apply] at this
      rw [this]
      by_cases hij : i = j <;> simp [Matrix.one_apply, hij]

/-- **C40 (real interferometers)** -/
theorem C40_realInterferometer (O : Matrix n n ℝ) (h : O ∈ Matrix.orthogonalGroup n ℝ) : Symplectic (realInterferometer O) := by
  rw [Matrix.mem_orthogonalGroup_iff] at h
  unfold Symplectic realInterferometer
  rw [fromBlocks_transpose, fromBlocks_multiply, fromBlocks_multiply]
  have h' : O * Oᵀ = 1 := h
  simp [h']

theorem bs50_unitary : bs50 ∈ Matrix.unitaryGroup (Fin 2) ℂ := by
  rw [Matrix.mem_unitaryGroup_iff, star_eq_conjTranspose]
  have h2 : ((Real.sqrt 2 : ℝ) : ℂ) * ((Real.sqrt 2 : ℝ) : ℂ) = 2 := by
    rw [← Complex.ofReal_mul, Real.mul_self_sqrt (by norm_num)]; norm_num
  have h3 : ((Real.sqrt 2 : ℝ) : ℂ)⁻¹ * ((Real.sqrt 2 : ℝ) : ℂ)⁻¹ = 1 / 2 := by
    rw [← mul_inv, h2]; norm_num
  ext i j
  fin_cases i <;> fin_cases j <;>
    simp [bs50, Matrix.mul_apply, Fin.sum_univ_two, Matrix.smul_apply, Matrix.conjTranspose_apply] <;> ring_nf <;>
    simp [pow_two, h3, Complex.I_mul_I] <;> norm_num

theorem phases_unitary (a b : ℝ) : phases a b ∈ Matrix.unitaryGroup (Fin 2) ℂ := by
  rw [Matrix.mem_unitaryGroup_iff, star_eq_conjTranspose]
  have h : ∀ t : ℝ, Complex.exp (t * Complex.I) * (starRingEnd ℂ) (Complex.exp (t * Complex.I)) = 1 := by
    intro t
    rw [Complex.mul_conj, Complex.normSq_eq_norm_sq, Complex.norm_exp_ofReal_mul_I]
    simp
  ext i j
  fin_cases i <;> fin_cases j <;> simp [phases, Matrix.mul_apply, Fin.sum_univ_two, Matrix.conjTranspose_apply, h]

/-- **C40 (MZ)** The Mach–Zehnder matrices are those of the documented interferometers (hence symplectic): with `internal` both phases act between two balanced
beamsplitters; otherwise `phi_a` acts on the upper arm before the first beamsplitter and `phi_b` on the upper arm between them. -/
theorem C40_mz (a b : ℝ) :
    blocks (mz a b true) = interferometer (bs50 * phases a b * bs50) ∧
    blocks (mz a b false) = interferometer (bs50 * phases b 0 * bs50 * phases a 0) ∧
    Symplectic (blocks (mz a b true)) ∧ Symplectic (blocks (mz a b false)) := by
  have h2 : ((Real.sqrt 2 : ℝ) : ℂ) * ((Real.sqrt 2 : ℝ) : ℂ) = 2 := by
    rw [← Complex.ofReal_mul, Real.mul_self_sqrt (by norm_num)]; norm_num
  have h3 : ((1 / Real.sqrt 2 : ℝ) : ℂ) * ((1 / Real.sqrt 2 : ℝ) : ℂ) = 1 / 2 := by
    rw [← Complex.ofReal_mul, div_mul_div_comm, Real.mul_self_sqrt (by norm_num)]; norm_num
  have hB : ∀ x y : ℝ, bs50 * phases x y * bs50 = (1 / 2 : ℂ) • !![Complex.exp (x * Complex.I) - Complex.exp (y * Complex.I),
      Complex.I * (Complex.exp (x * Complex.I) + Complex.exp (y * Complex.I)); Complex.I * (Complex.exp (x * Complex.I) + Complex.exp (y * Complex.I)),
      Complex.exp (y * Complex.I) - Complex.exp (x * Complex.I)] := by
    intro x y
    unfold bs50
    rw [Matrix.smul_mul, Matrix.smul_mul, Matrix.mul_smul, smul_smul, h3]
    congr 1
    ext i j
    fin_cases i <;> fin_cases j <;> simp [phases, Matrix.mul_apply, Fin.sum_univ_two] <;> ring_nf <;> simp <;> ring
  have e1 : blocks (mz a b true) = interferometer (bs50 * phases a b * bs50) := by
    rw [hB]
    ext i j
    rcases i with i | i <;> rcases j with j | j <;> fin_cases i <;> fin_cases j <;>
      simp [blocks, mz, interferometer, finSumFinEquiv, Fin.castAdd, Fin.natAdd, Complex.exp_ofReal_mul_I_re, Complex.exp_ofReal_mul_I_im] <;> ring
  have e2 : blocks (mz a b false) = interferometer (bs50 * phases b 0 * bs50 * phases a 0) := by
    rw [hB]
    ext i j
    rcases i with i | i <;> rcases j with j | j <;> fin_cases i <;> fin_cases j <;>
      simp [blocks, mz, interferometer, phases, Matrix.mul_apply, Fin.sum_univ_two, finSumFinEquiv, Fin.castAdd, Fin.natAdd,
        Complex.exp_ofReal_mul_I_re, Complex.exp_ofReal_mul_I_im, Real.cos_add, Real.sin_add] <;> ring
  refine ⟨e1, e2, ?_, ?_⟩
  · rw [e1]
    exact ((C40_interferometer _).1 (mul_mem (mul_mem bs50_unitary (phases_unitary _ _)) bs50_unitary)).1
  · rw [e2]
    exact ((C40_interferometer _).1 (mul_mem (mul_mem (mul_mem bs50_unitary (phases_unitary _ _)) bs50_unitary) (phases_unitary _ _))).1

end Verif.Manifold
