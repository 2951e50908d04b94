import Mathlib.Analysis.Matrix.Order
import Mathlib.Analysis.InnerProductSpace.PiL2
import Mathlib.Algebra.Order.Chebyshev

/-!
# Purity of positive semidefinite matrices
-/

namespace Verif.CompV

open scoped ComplexOrder MatrixOrder

variable {n : Type*} [Fintype n] [DecidableEq n]

/-- A positive semidefinite matrix is a Gram matrix. -/
theorem psd_gram {A : Matrix n n ℂ} (hA : A.PosSemidef) : ∃ w : n → EuclideanSpace ℂ n, ∀ i j, A i j = inner ℂ (w i) (w j) := by
  obtain ⟨B, rfl⟩ := CStarAlgebra.nonneg_iff_eq_star_mul_self.mp hA.nonneg
  refine ⟨fun i => WithLp.toLp 2 fun l => B l i, fun i j => ?_⟩
  rw [PiLp.inner_apply, Matrix.mul_apply]
  refine Finset.sum_congr rfl fun l _ => ?_
  show star (B l i) * B l j = _
  rw [RCLike.inner_apply']
  rfl

theorem gram_diag {w : n → EuclideanSpace ℂ n} {A : Matrix n n ℂ} (h : ∀ i j, A i j = inner ℂ (w i) (w j)) (i : n) : (A i i).re = ‖w i‖ ^ 2 := by
  rw [h]
  exact inner_self_eq_norm_sq (𝕜 := ℂ) (w i)

/-- `Tr A² ≤ (Tr A)²`. -/
theorem psd_purity_le {A : Matrix n n ℂ} (hA : A.PosSemidef) : ∑ i, ∑ j, ‖A i j‖ ^ 2 ≤ (∑ i, (A i i).re) ^ 2 := by
  obtain ⟨w, h⟩ := psd_gram hA
  rw [sq, Finset.sum_mul_sum]
  refine Finset.sum_le_sum fun i _ => Finset.sum_le_sum fun j _ => ?_
  rw [gram_diag h, gram_diag h, ← mul_pow, h]
  exact pow_le_pow_left₀ (norm_nonneg _) (norm_inner_le_norm _ _) 2

/-- `Tr A² = (Tr A)²` for pure states only. -/
theorem psd_purity_eq {A : Matrix n n ℂ} (hA : A.PosSemidef) (h1 : ∑ i, ∑ j, ‖A i j‖ ^ 2 = (∑ i, (A i i).re) ^ 2) : ∃ v : n → ℂ, ∀ i j, A i j = v i * (starRingEnd ℂ) (v j) := by
  obtain ⟨w, h⟩ := psd_gram hA
  by_cases h0 : ∀ i, w i = 0
  · refine ⟨fun _ => 0, fun i j => ?_⟩
    rw [h, h0]
    simp
  push Not at h0
  obtain ⟨i0, hi0⟩ := h0
  have hz : ∑ i, ∑ j, ((‖w i‖ * ‖w j‖) ^ 2 - ‖A i j‖ ^ 2) = 0 := by
    simp only [Finset.sum_sub_distrib]
    rw [h1, sub_eq_zero, sq (∑ i, (A i i).re), Finset.sum_mul_sum]
    refine Finset.sum_congr rfl fun i _ => Finset.sum_congr rfl fun j _ => ?_
    rw [gram_diag h, gram_diag h, mul_pow]
  have hnn : ∀ i j, 0 ≤ (‖w i‖ * ‖w j‖) ^ 2 - ‖A i j‖ ^ 2 := by
    intro i j
    rw [h, sub_nonneg]
    exact pow_le_pow_left₀ (norm_nonneg _) (norm_inner_le_norm _ _) 2
  have hall : ∀ i j, ‖A i j‖ = ‖w i‖ * ‖w j‖ := by
    intro i j
    have e1 := (Finset.sum_eq_zero_iff_of_nonneg fun i _ => Finset.sum_nonneg fun j _ => hnn i j).mp hz i (Finset.mem_univ i)
    have e2 := (Finset.sum_eq_zero_iff_of_nonneg fun j _ => hnn i j).mp e1 j (Finset.mem_univ j)
    rw [sub_eq_zero] at e2
    exact ((sq_eq_sq₀ (by positivity) (by positivity)).mp e2).symm
  have hc : ∀ i, ∃ c : ℂ, w i = c • w i0 := by
    intro i
    by_cases hi : w i = 0
    · exact ⟨0, by rw [hi, zero_smul]⟩
    · have := hall i0 i
      rw [h] at this
      obtain ⟨r, _, hr⟩ := (norm_inner_eq_norm_iff hi0 hi).mp this
      exact ⟨r, hr⟩
  choose c hc using hc
  refine ⟨fun i => (starRingEnd ℂ) (c i) * (‖w i0‖ : ℂ), fun i j => ?_⟩
  rw [h, hc i, hc j, inner_smul_left, inner_smul_right, inner_self_eq_norm_sq_to_K, map_mul, Complex.conj_conj, Complex.conj_ofReal]
  show (starRingEnd ℂ) (c i) * (c j * (‖w i0‖ : ℂ) ^ 2) = _
  ring

end Verif.CompV
