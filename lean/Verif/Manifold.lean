import Mathlib.Analysis.Normed.Algebra.MatrixExponential
import Mathlib.Analysis.SpecialFunctions.Exponential
import Mathlib.Analysis.Calculus.FDeriv.Mul
import Mathlib.Analysis.Calculus.Deriv.Comp
import Mathlib.Analysis.Calculus.Deriv.Mul
import Mathlib.Analysis.Complex.Basic
import Mathlib.LinearAlgebra.Matrix.Trace
import Mathlib.LinearAlgebra.UnitaryGroup
import Mathlib.Tactic.NoncommRing

/-!
# Non-Euclidean parameter updates (C39, C45)

`mrmustard/training/parameter_update.py`, `mrmustard/math/backend_manager.py:1628-1679`, in exact arithmetic and without batch dimensions
(which are independent of each other).
-/

namespace Verif.Manifold
open Matrix NormedSpace

variable {n : Type*} [Fintype n] [DecidableEq n]

/-! ## Model -/

/-- math/backend_manager.py:1664-1679 `euclidean_to_unitary`. -/
noncomputable def euclideanToUnitary (U dU : Matrix n n ℂ) : Matrix n n ℂ :=
  let Z := Uᴴ * dU
  (1 / 2 : ℝ) • (Z - Zᴴ)

/-- The same function on real matrices, as `update_orthogonal` uses it. -/
noncomputable def euclideanToOrthogonal (O dO : Matrix n n ℝ) : Matrix n n ℝ :=
  let Z := Oᵀ * dO
  (1 / 2 : ℝ) • (Z - Zᵀ)

/-- math/backend_manager.py:1628-1632 `J`. -/
def Jm : Matrix (n ⊕ n) (n ⊕ n) ℝ := fromBlocks 0 1 (-1) 0

/-- math/backend_manager.py:1644-1662 `euclidean_to_symplectic`. -/
noncomputable def euclideanToSymplectic (S dS : Matrix (n ⊕ n) (n ⊕ n) ℝ) : Matrix (n ⊕ n) (n ⊕ n) ℝ :=
  let Z := Sᵀ * dS
  (1 / 2 : ℝ) • (Z + Jm * Zᵀ * Jm)

/-- training/parameter_update.py:88-114 `update_unitary`: the value added to the parameter. -/
noncomputable def updateUnitary (lr : ℝ) (U dU : Matrix n n ℂ) : Matrix n n ℂ :=
  U * exp ((-lr) • euclideanToUnitary U dU) - U

/-- training/parameter_update.py:25-51 `update_orthogonal` (`math.real` of the gradient is the gradient itself). -/
noncomputable def updateOrthogonal (lr : ℝ) (O dO : Matrix n n ℝ) : Matrix n n ℝ :=
  O * exp ((-lr) • euclideanToOrthogonal O dO) - O

/-- training/parameter_update.py:54-85 `update_symplectic`. -/
noncomputable def updateSymplectic (lr : ℝ) (S dS : Matrix (n ⊕ n) (n ⊕ n) ℝ) : Matrix (n ⊕ n) (n ⊕ n) ℝ :=
  let Y := euclideanToSymplectic S dS
  S * (exp ((-lr) • Yᵀ) * exp ((-lr) • (Y - Yᵀ))) - S

/-- `optax.apply_updates` (training/optimizer.py:106): the update is added to the parameter. -/
def applyUpdate {α : Type*} [Add α] (p u : α) : α := p + u

/-! ## Specification -/

/-- `S Ω Sᵀ = Ω`. -/
def Symplectic {R : Type*} [Ring R] (S : Matrix (n ⊕ n) (n ⊕ n) R) : Prop := S * fromBlocks 0 1 (-1) 0 * Sᵀ = fromBlocks 0 1 (-1) 0

/-! ## Proofs -/

theorem J_sq : (Jm : Matrix (n ⊕ n) (n ⊕ n) ℝ) * Jm = -1 := by
  rw [Jm, fromBlocks_multiply, ← fromBlocks_one, fromBlocks_neg]
  simp

theorem J_transpose : (Jm : Matrix (n ⊕ n) (n ⊕ n) ℝ)ᵀ = -Jm := by
  rw [Jm, fromBlocks_transpose, fromBlocks_neg]
  simp

theorem exp_skew_unitary {X : Matrix n n ℂ} (h : Xᴴ = -X) : (exp X)ᴴ * exp X = 1 := by
  rw [← Matrix.exp_conjTranspose, h, ← Matrix.exp_add_of_commute _ _ (Commute.neg_left (Commute.refl X))]
  simp

theorem exp_skew_orthogonal {X : Matrix n n ℝ} (h : Xᵀ = -X) : (exp X)ᵀ * exp X = 1 := by
  rw [← Matrix.exp_transpose, h, ← Matrix.exp_add_of_commute _ _ (Commute.neg_left (Commute.refl X))]
  simp

theorem euclideanToUnitary_skew (U dU : Matrix n n ℂ) : (euclideanToUnitary U dU)ᴴ = -euclideanToUnitary U dU := by
  unfold euclideanToUnitary
  simp only [conjTranspose_smul, conjTranspose_sub, conjTranspose_conjTranspose, star_trivial]
  rw [← smul_neg, neg_sub]

theorem euclideanToOrthogonal_skew (O dO : Matrix n n ℝ) : (euclideanToOrthogonal O dO)ᵀ = -euclideanToOrthogonal O dO := by
  unfold euclideanToOrthogonal
  simp only [transpose_smul, transpose_sub, transpose_transpose]
  rw [← smul_neg, neg_sub]

/-- Matrices that generate symplectic matrices. -/
def Hamiltonian (X : Matrix (n ⊕ n) (n ⊕ n) ℝ) : Prop := X * Jm + Jm * Xᵀ = 0

theorem Hamiltonian.smul {X : Matrix (n ⊕ n) (n ⊕ n) ℝ} (h : Hamiltonian X) (r : ℝ) : Hamiltonian (r • X) := by
  unfold Hamiltonian at *
  rw [transpose_smul, Matrix.smul_mul, Matrix.mul_smul, ← smul_add, h, smul_zero]

theorem Hamiltonian.sub {X Y : Matrix (n ⊕ n) (n ⊕ n) ℝ} (hx : Hamiltonian X) (hy : Hamiltonian Y) : Hamiltonian (X - Y) := by
  unfold Hamiltonian at *
  rw [transpose_sub, sub_mul, mul_sub, show X * Jm - Y * Jm + (Jm * Xᵀ - Jm * Yᵀ) = (X * Jm + Jm * Xᵀ) - (Y * Jm + Jm * Yᵀ) by abel, hx, hy, sub_zero]

theorem Hamiltonian.transpose {X : Matrix (n ⊕ n) (n ⊕ n) ℝ} (h : Hamiltonian X) : Hamiltonian Xᵀ := by
  unfold Hamiltonian at *
  rw [transpose_transpose]
  have h1 : Jm * (X * Jm + Jm * Xᵀ) * Jm = 0 := by rw [h, Matrix.mul_zero, Matrix.zero_mul]
  rw [Matrix.mul_add, Matrix.add_mul, ← Matrix.mul_assoc Jm Jm, J_sq, ← Matrix.mul_assoc, Matrix.mul_assoc (Jm * X), J_sq] at h1
  simp only [Matrix.mul_neg, Matrix.mul_one, Matrix.neg_mul, Matrix.one_mul] at h1
  rw [← neg_add, neg_eq_zero, add_comm] at h1
  exact h1

theorem Hamiltonian.exp {X : Matrix (n ⊕ n) (n ⊕ n) ℝ} (h : Hamiltonian X) : Symplectic (NormedSpace.exp X) := by
  show NormedSpace.exp X * Jm * (NormedSpace.exp X)ᵀ = Jm
  have hinv : (Jm : Matrix (n ⊕ n) (n ⊕ n) ℝ)⁻¹ = -Jm := by
    apply Matrix.inv_eq_right_inv
    rw [Matrix.mul_neg, J_sq, neg_neg]
  have hu : IsUnit (Jm : Matrix (n ⊕ n) (n ⊕ n) ℝ) := by
    refine ⟨⟨Jm, -Jm, ?_, ?_⟩, rfl⟩
    · rw [Matrix.mul_neg, J_sq, neg_neg]
    · rw [Matrix.neg_mul, J_sq, neg_neg]
  have hc : Jm * Xᵀ * Jm⁻¹ = -X := by
    have h0 : Jm * Xᵀ = -(X * Jm) := by
      have : X * Jm + Jm * Xᵀ = 0 := h
      rw [add_comm] at this
      exact eq_neg_of_add_eq_zero_left this
    rw [h0, hinv, Matrix.neg_mul, Matrix.mul_neg, neg_neg, Matrix.mul_assoc, J_sq, Matrix.mul_neg, Matrix.mul_one]
  have h1 := Matrix.exp_conj Jm Xᵀ hu
  rw [hc] at h1
  have h2 : Jm * NormedSpace.exp Xᵀ = NormedSpace.exp (-X) * Jm := by
    rw [h1, Matrix.mul_assoc (Jm * _), hinv, Matrix.neg_mul, J_sq, neg_neg, Matrix.mul_one]
  rw [← Matrix.exp_transpose, Matrix.mul_assoc, h2, ← Matrix.mul_assoc,
    ← Matrix.exp_add_of_commute _ _ (Commute.neg_right (Commute.refl X))]
  simp

theorem Symplectic.mul {R : Type*} [CommRing R] {S T : Matrix (n ⊕ n) (n ⊕ n) R} (hS : Symplectic S) (hT : Symplectic T) : Symplectic (S * T) := by
  unfold Symplectic at *
  rw [transpose_mul, Matrix.mul_assoc S T, Matrix.mul_assoc S, ← Matrix.mul_assoc (T * _), hT, ← Matrix.mul_assoc, hS]

theorem euclideanToSymplectic_hamiltonian (S dS : Matrix (n ⊕ n) (n ⊕ n) ℝ) : Hamiltonian (euclideanToSymplectic S dS) := by
  unfold euclideanToSymplectic
  simp only
  generalize Sᵀ * dS = Z
  refine Hamiltonian.smul ?_ _
  unfold Hamiltonian
  simp only [transpose_add, transpose_mul, transpose_transpose, J_transpose, Matrix.add_mul, Matrix.mul_add, Matrix.neg_mul, Matrix.mul_neg, neg_neg]
  rw [Matrix.mul_assoc (Jm * Zᵀ), J_sq, ← Matrix.mul_assoc Jm Jm, J_sq]
  simp only [Matrix.mul_neg, Matrix.mul_one, Matrix.neg_mul, Matrix.one_mul]
  abel

/-! ## C39 -/

/-- **C39 (unitary)** The updated parameter is unitary whatever the gradient and the learning rate. -/
theorem C39_unitary (lr : ℝ) (U dU : Matrix n n ℂ) (hU : U ∈ Matrix.unitaryGroup n ℂ) :
    applyUpdate U (updateUnitary lr U dU) ∈ Matrix.unitaryGroup n ℂ := by
  unfold applyUpdate updateUnitary
  rw [add_sub_cancel]
  refine mul_mem hU ?_
  rw [Matrix.mem_unitaryGroup_iff']
  rw [star_eq_conjTranspose]
  apply exp_skew_unitary
  rw [conjTranspose_smul, euclideanToUnitary_skew, star_trivial, smul_neg]

/-- **C39 (orthogonal)** -/
theorem C39_orthogonal (lr : ℝ) (O dO : Matrix n n ℝ) (hO : O ∈ Matrix.orthogonalGroup n ℝ) :
    applyUpdate O (updateOrthogonal lr O dO) ∈ Matrix.orthogonalGroup n ℝ := by
  unfold applyUpdate updateOrthogonal
  rw [add_sub_cancel]
  refine mul_mem hO ?_
  rw [Matrix.mem_orthogonalGroup_iff']
  apply exp_skew_orthogonal
  rw [transpose_smul, euclideanToOrthogonal_skew, smul_neg]

/-- **C39 (symplectic)** -/
theorem C39_symplectic (lr : ℝ) (S dS : Matrix (n ⊕ n) (n ⊕ n) ℝ) (hS : Symplectic S) :
    Symplectic (applyUpdate S (updateSymplectic lr S dS)) := by
  unfold applyUpdate updateSymplectic
  rw [add_sub_cancel]
  have hY := euclideanToSymplectic_hamiltonian S dS
  exact hS.mul ((hY.transpose.smul _).exp.mul ((hY.sub hY.transpose).smul _).exp)

/-! ## C45: descent -/

theorem sum_norm_sq (Y : Matrix n n ℂ) : (trace (Yᴴ * Y)).re = ∑ i, ∑ j, ‖Y i j‖ ^ 2 := by
  simp only [trace, diag_apply, mul_apply, conjTranspose_apply, Complex.re_sum]
  rw [Finset.sum_comm]
  refine Finset.sum_congr rfl fun i _ => Finset.sum_congr rfl fun j _ => ?_
  rw [RCLike.star_def, ← Complex.normSq_eq_conj_mul_self, Complex.ofReal_re, Complex.normSq_eq_norm_sq]

theorem sum_sq {m : Type*} [Fintype m] (Y : Matrix m m ℝ) : trace (Yᵀ * Y) = ∑ i, ∑ j, Y i j ^ 2 := by
  simp only [trace, diag_apply, mul_apply, transpose_apply]
  rw [Finset.sum_comm]
  refine Finset.sum_congr rfl fun i _ => Finset.sum_congr rfl fun j _ => ?_
  ring

theorem unitary_inner (U dU : Matrix n n ℂ) :
    (trace (dUᴴ * (U * euclideanToUnitary U dU))).re = ∑ i, ∑ j, ‖euclideanToUnitary U dU i j‖ ^ 2 := by
  have hs := euclideanToUnitary_skew U dU
  rw [← sum_norm_sq]
  have hZ : dUᴴ * U = (Uᴴ * dU)ᴴ := by rw [conjTranspose_mul, conjTranspose_conjTranspose]
  rw [← Matrix.mul_assoc, hZ]
  set Z := Uᴴ * dU with hZd
  set Y := euclideanToUnitary U dU with hY
  have hYd : Y = (1 / 2 : ℝ) • (Z - Zᴴ) := rfl
  set H := (1 / 2 : ℝ) • (Z + Zᴴ) with hH
  have hHs : Hᴴ = H := by
    rw [hH, conjTranspose_smul, conjTranspose_add, conjTranspose_conjTranspose, star_trivial, add_comm]
  have hZH : Zᴴ = H + Yᴴ := by
    rw [hs, hYd, hH, ← smul_neg, ← smul_add]
    rw [show Z + Zᴴ + -(Z - Zᴴ) = (2 : ℝ) • Zᴴ by rw [two_smul]; abel, smul_smul]
    norm_num
  rw [hZH, Matrix.add_mul, trace_add, Complex.add_re]
  have h0 : (trace (H * Y)).re = 0 := by
    have h1 : star (trace (H * Y)) = - trace (H * Y) := by
      rw [← trace_conjTranspose, conjTranspose_mul, hs, hHs, Matrix.neg_mul, trace_neg, trace_mul_comm]
    have h2 := congrArg Complex.re h1
    simp only [RCLike.star_def, Complex.conj_re, Complex.neg_re] at h2
    linarith
  rw [h0, zero_add]

theorem orthogonal_inner (O dO : Matrix n n ℝ) :
    trace (dOᵀ * (O * euclideanToOrthogonal O dO)) = ∑ i, ∑ j, euclideanToOrthogonal O dO i j ^ 2 := by
  have hs := euclideanToOrthogonal_skew O dO
  rw [← sum_sq]
  have hZ : dOᵀ * O = (Oᵀ * dO)ᵀ := by rw [transpose_mul, transpose_transpose]
  rw [← Matrix.mul_assoc, hZ]
  set Z := Oᵀ * dO with hZd
  set Y := euclideanToOrthogonal O dO with hY
  have hYd : Y = (1 / 2 : ℝ) • (Z - Zᵀ) := rfl
  set H := (1 / 2 : ℝ) • (Z + Zᵀ) with hH
  have hHs : Hᵀ = H := by
    rw [hH, transpose_smul, transpose_add, transpose_transpose, add_comm]
  have hZH : Zᵀ = H + Yᵀ := by
    rw [hs, hYd, hH, ← smul_neg, ← smul_add]
    rw [show Z + Zᵀ + -(Z - Zᵀ) = (2 : ℝ) • Zᵀ by rw [two_smul]; abel, smul_smul]
    norm_num
  rw [hZH, Matrix.add_mul, trace_add]
  have h0 : trace (H * Y) = 0 := by
    have h1 : trace (H * Y) = - trace (H * Y) := by
      conv_lhs => rw [← trace_transpose, transpose_mul, hs, hHs, Matrix.neg_mul, trace_neg, trace_mul_comm]
    linarith
  rw [h0, zero_add]

theorem symplectic_inner (S dS : Matrix (n ⊕ n) (n ⊕ n) ℝ) :
    trace (dSᵀ * (S * euclideanToSymplectic S dS)) = ∑ i, ∑ j, euclideanToSymplectic S dS i j ^ 2 := by
  rw [← sum_sq]
  have hZ : dSᵀ * S = (Sᵀ * dS)ᵀ := by rw [transpose_mul, transpose_transpose]
  rw [← Matrix.mul_assoc, hZ]
  unfold euclideanToSymplectic
  simp only
  generalize Sᵀ * dS = Z
  simp only [transpose_smul, transpose_add, transpose_mul, transpose_transpose, J_transpose, Matrix.neg_mul, Matrix.mul_neg, neg_neg,
    Matrix.smul_mul, Matrix.mul_smul, trace_smul, Matrix.mul_add, Matrix.add_mul, trace_add, smul_eq_mul]
  have e1 : trace (Zᵀ * (Jm * Zᵀ * Jm)) = trace (Jm * (Z * Jm) * Z) := by
    rw [← trace_transpose]
    simp only [transpose_mul, transpose_transpose, J_transpose, Matrix.neg_mul, Matrix.mul_neg, neg_neg]
  have e2 : trace (Jm * (Z * Jm) * (Jm * Zᵀ * Jm)) = trace (Zᵀ * Z) := by
    rw [show Jm * (Z * Jm) * (Jm * Zᵀ * Jm) = Jm * (Z * (Jm * Jm) * Zᵀ * Jm) by noncomm_ring, J_sq]
    simp only [Matrix.mul_neg, Matrix.mul_one, Matrix.neg_mul]
    rw [trace_neg, trace_mul_comm, Matrix.mul_assoc, J_sq]
    simp only [Matrix.mul_neg, Matrix.mul_one, trace_neg, neg_neg]
    rw [trace_mul_comm]
  rw [e1, e2]
  ring

open scoped Matrix.Norms.Operator in
/-- **C45 (unitary)** If `dU` is the gradient of the loss at `U` (the conjugated jax gradient, training/optimizer.py:104), then along the update the
loss changes, to first order in the learning rate, by minus the squared norm of the Riemannian gradient. -/
theorem C45_unitary_descends (f : Matrix n n ℂ → ℝ) (U dU : Matrix n n ℂ) (f' : Matrix n n ℂ →L[ℝ] ℝ) (hf : HasFDerivAt f f' U)
    (hgrad : ∀ δ, f' δ = (trace (dUᴴ * δ)).re) :
    HasDerivAt (fun lr : ℝ => f (applyUpdate U (updateUnitary lr U dU))) (-∑ i, ∑ j, ‖euclideanToUnitary U dU i j‖ ^ 2) 0 := by
  set Y := euclideanToUnitary U dU with hY
  have h1 : HasDerivAt (fun t : ℝ => U * exp (t • (-Y))) (U * (exp ((0 : ℝ) • (-Y)) * (-Y))) 0 :=
    (hasDerivAt_exp_smul_const (𝕂 := ℝ) (-Y) (0 : ℝ)).const_mul U
  have h2 : (fun lr : ℝ => f (applyUpdate U (updateUnitary lr U dU))) = fun t => f (U * exp (t • (-Y))) := by
    funext t
    unfold applyUpdate updateUnitary
    rw [add_sub_cancel, neg_smul, smul_neg]
  rw [h2]
  have hf0 : HasFDerivAt f f' (U * exp ((0 : ℝ) • (-Y))) := by simpa using hf
  have h3 := hf0.comp_hasDerivAt (0 : ℝ) h1
  have h4 : f' (U * (exp ((0 : ℝ) • (-Y)) * (-Y))) = -∑ i, ∑ j, ‖Y i j‖ ^ 2 := by
    rw [hgrad, zero_smul, exp_zero, Matrix.one_mul, Matrix.mul_neg, Matrix.mul_neg, trace_neg, Complex.neg_re, hY, unitary_inner]
  exact h3.congr_deriv h4

open scoped Matrix.Norms.Operator in
/-- **C45 (orthogonal)** -/
theorem C45_orthogonal_descends (f : Matrix n n ℝ → ℝ) (O dO : Matrix n n ℝ) (f' : Matrix n n ℝ →L[ℝ] ℝ) (hf : HasFDerivAt f f' O)
    (hgrad : ∀ δ, f' δ = trace (dOᵀ * δ)) :
    HasDerivAt (fun lr : ℝ => f (applyUpdate O (updateOrthogonal lr O dO))) (-∑ i, ∑ j, euclideanToOrthogonal O dO i j ^ 2) 0 := by
  set Y := euclideanToOrthogonal O dO with hY
  have h1 : HasDerivAt (fun t : ℝ => O * exp (t • (-Y))) (O * (exp ((0 : ℝ) • (-Y)) * (-Y))) 0 :=
    (hasDerivAt_exp_smul_const (𝕂 := ℝ) (-Y) (0 : ℝ)).const_mul O
  have h2 : (fun lr : ℝ => f (applyUpdate O (updateOrthogonal lr O dO))) = fun t => f (O * exp (t • (-Y))) := by
    funext t
    unfold applyUpdate updateOrthogonal
    rw [add_sub_cancel, neg_smul, smul_neg]
  rw [h2]
  have hf0 : HasFDerivAt f f' (O * exp ((0 : ℝ) • (-Y))) := by simpa using hf
  have h3 := hf0.comp_hasDerivAt (0 : ℝ) h1
  have h4 : f' (O * (exp ((0 : ℝ) • (-Y)) * (-Y))) = -∑ i, ∑ j, Y i j ^ 2 := by
    rw [hgrad, zero_smul, exp_zero, Matrix.one_mul, Matrix.mul_neg, Matrix.mul_neg, trace_neg, hY, orthogonal_inner]
  exact h3.congr_deriv h4

open scoped Matrix.Norms.Operator in
/-- **C45 (symplectic)** -/
theorem C45_symplectic_descends (f : Matrix (n ⊕ n) (n ⊕ n) ℝ → ℝ) (S dS : Matrix (n ⊕ n) (n ⊕ n) ℝ) (f' : Matrix (n ⊕ n) (n ⊕ n) ℝ →L[ℝ] ℝ)
    (hf : HasFDerivAt f f' S) (hgrad : ∀ δ, f' δ = trace (dSᵀ * δ)) :
    HasDerivAt (fun lr : ℝ => f (applyUpdate S (updateSymplectic lr S dS))) (-∑ i, ∑ j, euclideanToSymplectic S dS i j ^ 2) 0 := by
  set Y := euclideanToSymplectic S dS with hY
  have ha := hasDerivAt_exp_smul_const (𝕂 := ℝ) (-Yᵀ) (0 : ℝ)
  have hb := hasDerivAt_exp_smul_const (𝕂 := ℝ) (-(Y - Yᵀ)) (0 : ℝ)
  have h1 := (ha.mul hb).const_mul S
  have h2 : (fun lr : ℝ => f (applyUpdate S (updateSymplectic lr S dS))) =
      fun t => f (S * ((fun u : ℝ => exp (u • (-Yᵀ))) * fun u : ℝ => exp (u • (-(Y - Yᵀ)))) t) := by
    funext t
    unfold applyUpdate updateSymplectic
    rw [add_sub_cancel]
    simp only [Pi.mul_apply, neg_smul, smul_neg, ← hY]
  rw [h2]
  have hf0 : HasFDerivAt f f' (S * ((fun u : ℝ => exp (u • (-Yᵀ))) * fun u : ℝ => exp (u • (-(Y - Yᵀ)))) 0) := by simpa using hf
  have h3 := hf0.comp_hasDerivAt (0 : ℝ) h1
  refine h3.congr_deriv ((hgrad _).trans ?_)
  simp only [zero_smul, exp_zero, Matrix.one_mul, Matrix.mul_one]
  rw [show -Yᵀ + -(Y - Yᵀ) = -Y by abel, Matrix.mul_neg, Matrix.mul_neg, trace_neg, hY, symplectic_inner]

end Verif.Manifold
