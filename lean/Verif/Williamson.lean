import Verif.PhaseSpace
import Mathlib.Analysis.Matrix.Order
import Mathlib.Analysis.Matrix.PosDef
import Mathlib.Analysis.Matrix.Spectrum
import Mathlib.Algebra.Order.Star.Real

/-!
# Williamson's normal form

Every real positive definite `C` of even size is `Z (D ⊕ D) Zᵀ` with `Z` symplectic and `D` diagonal positive.
-/

namespace Verif.Manifold
open Matrix
open scoped ComplexOrder MatrixOrder

variable {n : Type*} [Fintype n] [DecidableEq n]

theorem symForm_T : (symForm n)ᵀ = -symForm n := by
  unfold symForm; rw [fromBlocks_transpose, fromBlocks_neg]; simp

theorem symForm_sq : symForm n * symForm n = -1 := by
  unfold symForm; rw [fromBlocks_multiply, ← fromBlocks_one, fromBlocks_neg]; simp

/-- The positive square root of a real positive definite matrix. -/
theorem posDef_sqrt {p : Type*} [Fintype p] [DecidableEq p] {C : Matrix p p ℝ} (h : C.PosDef) :
    ∃ S : Matrix p p ℝ, S.PosDef ∧ Sᵀ = S ∧ S * S = C := by
  have h0 : 0 ≤ C := nonneg_iff_posSemidef.2 h.posSemidef
  have hS : (CFC.sqrt C).PosSemidef := nonneg_iff_posSemidef.1 (CFC.sqrt_nonneg C)
  have hm : CFC.sqrt C * CFC.sqrt C = C := CFC.sqrt_mul_sqrt_self C h0
  refine ⟨CFC.sqrt C, ?_, ?_, hm⟩
  · refine hS.posDef_iff_det_ne_zero.2 fun e => ?_
    have := h.det_pos
    rw [← hm, det_mul, e] at this
    simp at this
  · have := hS.isHermitian
    unfold IsHermitian at this
    rwa [conjTranspose_eq_transpose_of_trivial] at this

/-- The eigenvalues of a Hermitian antisymmetric matrix are symmetric about zero. -/
theorem eig_symm {p : Type*} [Fintype p] [DecidableEq p] {K : Matrix p p ℂ} (hK : K.IsHermitian) (hT : Kᵀ = -K) :
    Multiset.map (fun i => -hK.eigenvalues i) Finset.univ.val = Multiset.map hK.eigenvalues Finset.univ.val := by
  have h1 : (-K).charpoly = ∏ i, (Polynomial.X - Polynomial.C (-(hK.eigenvalues i : ℂ))) := by
    have : -K = Unitary.conjStarAlgAut ℂ _ hK.eigenvectorUnitary (diagonal fun i => -((hK.eigenvalues i : ℝ) : ℂ)) := by
      conv_lhs => rw [hK.spectral_theorem]
      rw [← map_neg]
      refine congrArg _ ?_
      rw [diagonal_neg]
      rfl
    rw [this, Unitary.conjStarAlgAut_apply, charpoly_mul_comm, ← mul_assoc]
    simp [charpoly_diagonal]
  have h2 : (-K).charpoly.roots = Multiset.map (fun i => -(hK.eigenvalues i : ℂ)) Finset.univ.val := by
    rw [h1, Polynomial.roots_prod]
    · simp only [Polynomial.roots_X_sub_C, Multiset.bind_singleton]
    · simp only [Finset.prod_ne_zero_iff]
      intro i _
      exact Polynomial.X_sub_C_ne_zero _
  rw [← hT, charpoly_transpose, hK.roots_charpoly_eq_eigenvalues] at h2
  have h3 := congrArg (Multiset.map Complex.re) h2
  rw [Multiset.map_map, Multiset.map_map] at h3
  refine Eq.trans ?_ (h3.symm.trans ?_)
  · refine Multiset.map_congr rfl fun i _ => ?_
    simp
  · refine Multiset.map_congr rfl fun i _ => ?_
    simp

/-- Half of the eigenvalues of an invertible Hermitian antisymmetric matrix of even size are positive. -/
theorem eig_pos_card {K : Matrix (n ⊕ n) (n ⊕ n) ℂ} (hK : K.IsHermitian) (hT : Kᵀ = -K) (hd : K.det ≠ 0) :
    Fintype.card {i // 0 < hK.eigenvalues i} = Fintype.card n := by
  have hne : ∀ i, hK.eigenvalues i ≠ 0 := by
    intro i e
    apply hd
    rw [hK.det_eq_prod_eigenvalues]
    exact Finset.prod_eq_zero (Finset.mem_univ i) (by simp [e])
  have h1 := congrArg (fun s : Multiset ℝ => (s.filter (0 < ·)).card) (eig_symm hK hT)
  simp only [Multiset.filter_map, Multiset.card_map] at h1
  have h2 : (Finset.univ.filter fun i => hK.eigenvalues i < 0).card = (Finset.univ.filter fun i => 0 < hK.eigenvalues i).card := by
    refine Eq.trans ?_ h1
    show (Multiset.filter _ _).card = _
    refine congrArg _ (Multiset.filter_congr fun i _ => ?_)
    simp
  have h3 := Finset.card_filter_add_card_filter_not (s := (Finset.univ : Finset (n ⊕ n))) (fun i => 0 < hK.eigenvalues i)
  have h4 : (Finset.univ.filter fun i => ¬ 0 < hK.eigenvalues i) = Finset.univ.filter fun i => hK.eigenvalues i < 0 := by
    refine Finset.filter_congr fun i _ => ?_
    exact ⟨fun h => lt_of_le_of_ne (not_lt.1 h) (hne i), fun h => not_lt.2 h.le⟩
  rw [h4, h2, Finset.card_univ, Fintype.card_sum] at h3
  rw [Fintype.card_subtype]
  omega

/-- Normal form of a real invertible antisymmetric matrix. -/
theorem antisymm_normal {A : Matrix (n ⊕ n) (n ⊕ n) ℝ} (hA : Aᵀ = -A) (hd : A.det ≠ 0) :
    ∃ (O : Matrix (n ⊕ n) (n ⊕ n) ℝ) (ν : n → ℝ), (∀ j, 0 < ν j) ∧ Oᵀ * O = 1 ∧
      A * O = O * (symForm n * diagonal (Sum.elim ν ν)) := by
  set K : Matrix (n ⊕ n) (n ⊕ n) ℂ := Complex.I • toC A with hKd
  have hK : K.IsHermitian := by
    ext i j
    have := congrFun (congrFun hA i) j
    simp only [transpose_apply, neg_apply] at this
    simp [hKd, toC, this]
  have hT : Kᵀ = -K := by
    ext i j
    have := congrFun (congrFun hA i) j
    simp only [transpose_apply, neg_apply] at this
    simp [hKd, toC, this]
  have hKdet : K.det ≠ 0 := by
    rw [hKd, det_smul, toC_det]
    exact mul_ne_zero (pow_ne_zero _ Complex.I_ne_zero) (by exact_mod_cast hd)
  obtain ⟨f⟩ : Nonempty (n ≃ {i // 0 < hK.eigenvalues i}) := ⟨(Fintype.equivOfCardEq (eig_pos_card hK hT hKdet)).symm⟩
  let v : n → (n ⊕ n) → ℂ := fun j => ⇑(hK.eigenvectorBasis (f j).1)
  let ν : n → ℝ := fun j => hK.eigenvalues (f j).1
  have hν : ∀ j, 0 < ν j := fun j => (f j).2
  have hv : ∀ j, K.mulVec (v j) = fun r => (ν j : ℂ) * v j r := by
    intro j
    have := hK.mulVec_eigenvectorBasis (f j).1
    rw [this]
    ext r
    simp [v, ν]
  have h1 : ∀ j k, star (v j) ⬝ᵥ v k = if j = k then 1 else 0 := by
    intro j k
    have := orthonormal_iff_ite.1 hK.eigenvectorBasis.orthonormal (f j).1 (f k).1
    rw [EuclideanSpace.inner_eq_star_dotProduct, dotProduct_comm] at this
    rw [this]
    simp [Subtype.ext_iff.symm]
  have h2 : ∀ j k, v j ⬝ᵥ v k = 0 := by
    intro j k
    have e1 : v j ⬝ᵥ K.mulVec (v k) = ν k * (v j ⬝ᵥ v k) := by
      rw [hv]; simp only [dotProduct, Finset.mul_sum]; refine Finset.sum_congr rfl fun r _ => by ring
    have e2 : v j ⬝ᵥ K.mulVec (v k) = -(ν j * (v j ⬝ᵥ v k)) := by
      rw [Matrix.dotProduct_mulVec, ← Matrix.mulVec_transpose, hT, Matrix.neg_mulVec, hv, neg_dotProduct]
      simp only [dotProduct, Finset.mul_sum]; refine congrArg Neg.neg (Finset.sum_congr rfl fun r _ => by ring)
    have e3 : ((ν k + ν j : ℝ) : ℂ) * (v j ⬝ᵥ v k) = 0 := by
      push_cast; linear_combination e2 - e1
    rcases mul_eq_zero.1 e3 with h | h
    · have : ν k + ν j = 0 := by exact_mod_cast h
      have := hν j
      have := hν k
      linarith
    · exact h
  -- real and imaginary parts
  have g1 : ∀ j k, (∑ r, (v j r).re * (v k r).re) + (∑ r, (v j r).im * (v k r).im) = if j = k then 1 else 0 := by
    intro j k
    have := congrArg Complex.re (h1 j k)
    simp only [dotProduct, Complex.re_sum, Pi.star_apply, Complex.star_def, Complex.mul_re, Complex.conj_re, Complex.conj_im, neg_mul, sub_neg_eq_add,
      Finset.sum_add_distrib] at this
    rw [this]; split_ifs <;> simp
  have g2 : ∀ j k, (∑ r, (v j r).re * (v k r).im) - (∑ r, (v j r).im * (v k r).re) = 0 := by
    intro j k
    have := congrArg Complex.im (h1 j k)
    simp only [dotProduct, Complex.im_sum, Pi.star_apply, Complex.star_def, Complex.mul_im, Complex.conj_re, Complex.conj_im, neg_mul,
      Finset.sum_add_distrib, Finset.sum_neg_distrib] at this
    rw [← sub_eq_add_neg] at this
    rw [this]; split_ifs <;> simp
  have g3 : ∀ j k, (∑ r, (v j r).re * (v k r).re) - (∑ r, (v j r).im * (v k r).im) = 0 := by
    intro j k
    have := congrArg Complex.re (h2 j k)
    simpa only [dotProduct, Complex.re_sum, Complex.mul_re, Finset.sum_sub_distrib, Complex.zero_re] using this
  have g4 : ∀ j k, (∑ r, (v j r).re * (v k r).im) + (∑ r, (v j r).im * (v k r).re) = 0 := by
    intro j k
    have := congrArg Complex.im (h2 j k)
    simpa only [dotProduct, Complex.im_sum, Complex.mul_im, Finset.sum_add_distrib, Complex.zero_im] using this
  have k1 : ∀ j r, A.mulVec (fun s => (v j s).re) r = ν j * (v j r).im := by
    intro j r
    have := congrArg Complex.im (congrFun (hv j) r)
    simp [hKd, Matrix.smul_mulVec, Matrix.mulVec, dotProduct, toC, Complex.mul_im, Complex.mul_re] at this
    simpa [Matrix.mulVec, dotProduct] using this
  have k2 : ∀ j r, A.mulVec (fun s => (v j s).im) r = -(ν j * (v j r).re) := by
    intro j r
    have := congrArg Complex.re (congrFun (hv j) r)
    simp [hKd, Matrix.smul_mulVec, Matrix.mulVec, dotProduct, toC, Complex.mul_im, Complex.mul_re] at this
    simp only [Matrix.mulVec, dotProduct]
    rw [Fintype.sum_sum_type]
    linarith
  let q := Real.sqrt 2
  have hq : q * q = 2 := Real.mul_self_sqrt (by norm_num)
  refine ⟨Matrix.of fun r => Sum.elim (fun j => q * (v j r).im) (fun j => q * (v j r).re), ν, hν, ?_, ?_⟩
  · ext a c
    rcases a with j | j <;> rcases c with k | k <;> rw [Matrix.mul_apply] <;>
      simp only [transpose_apply, of_apply, Sum.elim_inl, Sum.elim_inr, one_apply, Sum.inl.injEq, Sum.inr.injEq, reduceCtorEq, if_false]
    · rw [show (∑ r, q * (v j r).im * (q * (v k r).im)) = q * q * ∑ r, (v j r).im * (v k r).im by
        rw [Finset.mul_sum]; exact Finset.sum_congr rfl fun r _ => by ring, hq]
      have := g1 j k; have := g3 j k; linarith
    · rw [show (∑ r, q * (v j r).im * (q * (v k r).re)) = q * q * ∑ r, (v j r).im * (v k r).re by
        rw [Finset.mul_sum]; exact Finset.sum_congr rfl fun r _ => by ring, hq]
      have := g2 j k; have := g4 j k; linarith
    · rw [show (∑ r, q * (v j r).re * (q * (v k r).im)) = q * q * ∑ r, (v j r).re * (v k r).im by
        rw [Finset.mul_sum]; exact Finset.sum_congr rfl fun r _ => by ring, hq]
      have := g2 j k; have := g4 j k; linarith
    · rw [show (∑ r, q * (v j r).re * (q * (v k r).re)) = q * q * ∑ r, (v j r).re * (v k r).re by
        rw [Finset.mul_sum]; exact Finset.sum_congr rfl fun r _ => by ring, hq]
      have := g1 j k; have := g3 j k; linarith
  · have hM : symForm n * diagonal (Sum.elim ν ν) = fromBlocks 0 (diagonal ν) (-diagonal ν) 0 := by
      have : diagonal (Sum.elim ν ν) = fromBlocks (diagonal ν) 0 0 (diagonal ν) := (fromBlocks_diagonal ν ν).symm
      unfold symForm
      rw [this, fromBlocks_multiply]; simp
    rw [hM]
    ext r c
    rw [Matrix.mul_apply, Matrix.mul_apply, Fintype.sum_sum_type (α₁ := n) (f := fun x => _ * fromBlocks 0 (diagonal ν) (-diagonal ν) 0 x c)]
    rcases c with k | k
    · simp only [of_apply, Sum.elim_inl, Sum.elim_inr, fromBlocks_apply₁₁, fromBlocks_apply₂₁, Matrix.zero_apply, mul_zero, Finset.sum_const_zero, zero_add,
        Matrix.neg_apply, diagonal_apply, mul_neg, mul_ite]
      rw [Finset.sum_neg_distrib, Finset.sum_ite_eq' Finset.univ k, if_pos (Finset.mem_univ _)]
      have := k2 k r
      simp only [Matrix.mulVec, dotProduct] at this
      rw [show (∑ s, A r s * (q * (v k s).im)) = q * ∑ s, A r s * (v k s).im by
        rw [Finset.mul_sum]; exact Finset.sum_congr rfl fun r _ => by ring, this]
      ring
    · simp only [of_apply, Sum.elim_inl, Sum.elim_inr, fromBlocks_apply₁₂, fromBlocks_apply₂₂, Matrix.zero_apply, mul_zero, Finset.sum_const_zero, add_zero,
        diagonal_apply, mul_ite]
      rw [Finset.sum_ite_eq' Finset.univ k, if_pos (Finset.mem_univ _)]
      have := k1 k r
      simp only [Matrix.mulVec, dotProduct] at this
      rw [show (∑ s, A r s * (q * (v k s).re)) = q * ∑ s, A r s * (v k s).re by
        rw [Finset.mul_sum]; exact Finset.sum_congr rfl fun r _ => by ring, this]
      ring

/-- **Williamson's theorem**. -/
theorem williamson {C : Matrix (n ⊕ n) (n ⊕ n) ℝ} (h : C.PosDef) :
    ∃ (Z : Matrix (n ⊕ n) (n ⊕ n) ℝ) (ν : n → ℝ), Symplectic Z ∧ (∀ j, 0 < ν j) ∧ C = Z * diagonal (Sum.elim ν ν) * Zᵀ := by
  obtain ⟨S, hSp, hST, hSS⟩ := posDef_sqrt h
  have hSd : IsUnit S.det := hSp.det_pos.ne'.isUnit
  have hΩd : (symForm n).det ≠ 0 := by
    intro e
    have := congrArg Matrix.det (symForm_sq (n := n))
    rw [det_mul, e, mul_zero, det_neg, det_one, mul_one] at this
    exact pow_ne_zero _ (by norm_num) this.symm
  obtain ⟨O, ν, hν, hO, hAO⟩ := antisymm_normal (A := S * symForm n * S)
    (by rw [transpose_mul, transpose_mul, hST, symForm_T, Matrix.mul_assoc]; simp)
    (by rw [det_mul, det_mul]; exact mul_ne_zero (mul_ne_zero hSp.det_pos.ne' hΩd) hSp.det_pos.ne')
  have hO' : O * Oᵀ = 1 := mul_eq_one_comm.1 hO
  let d : n ⊕ n → ℝ := Sum.elim (fun j => (Real.sqrt (ν j))⁻¹) (fun j => (Real.sqrt (ν j))⁻¹)
  have hdν : diagonal d * diagonal (Sum.elim ν ν) * diagonal d = 1 := by
    rw [diagonal_mul_diagonal, diagonal_mul_diagonal, ← diagonal_one]
    refine congrArg _ (funext fun r => ?_)
    rcases r with j | j <;>
    · have h1 := Real.sqrt_pos.2 (hν j)
      have h2 := Real.mul_self_sqrt (hν j).le
      simp only [d, Sum.elim_inl, Sum.elim_inr]
      field_simp
      nlinarith
  have hdΩ : diagonal d * symForm n = symForm n * diagonal d := by
    have : diagonal d = fromBlocks (diagonal fun j => (Real.sqrt (ν j))⁻¹) 0 0 (diagonal fun j => (Real.sqrt (ν j))⁻¹) :=
      (fromBlocks_diagonal _ _).symm
    unfold symForm
    rw [this, fromBlocks_multiply, fromBlocks_multiply]; simp
  refine ⟨S * O * diagonal d, ν, ?_, hν, ?_⟩
  · set E := diagonal d * symForm n * diagonal d with hE
    have hEM : E * (symForm n * diagonal (Sum.elim ν ν)) = -1 := by
      rw [hE, hdΩ]
      calc symForm n * diagonal d * diagonal d * (symForm n * diagonal (Sum.elim ν ν))
          = symForm n * diagonal d * (diagonal d * symForm n) * diagonal (Sum.elim ν ν) := by simp only [Matrix.mul_assoc]
        _ = symForm n * (diagonal d * symForm n) * diagonal d * diagonal (Sum.elim ν ν) := by
            conv_lhs => rw [hdΩ]
            simp only [Matrix.mul_assoc]
        _ = symForm n * (symForm n * diagonal d) * diagonal d * diagonal (Sum.elim ν ν) := by rw [hdΩ]
        _ = symForm n * symForm n * (diagonal d * diagonal d * diagonal (Sum.elim ν ν)) := by simp only [Matrix.mul_assoc]
        _ = -1 := by
          rw [symForm_sq, diagonal_mul_diagonal, diagonal_mul_diagonal]
          rw [diagonal_mul_diagonal, diagonal_mul_diagonal] at hdν
          rw [show (fun i => d i * d i * Sum.elim ν ν i) = fun i => d i * Sum.elim ν ν i * d i from funext fun i => by ring, hdν]
          simp
    have hX : S * O * diagonal d * symForm n * (S * O * diagonal d)ᵀ = S * O * E * Oᵀ * S := by
      rw [transpose_mul, transpose_mul, diagonal_transpose, hST, hE]
      simp only [Matrix.mul_assoc]
    have hA : S * symForm n * S = O * (symForm n * diagonal (Sum.elim ν ν)) * Oᵀ := by
      rw [← hAO, Matrix.mul_assoc _ O, hO', Matrix.mul_one]
    have h1 : (S * O * E * Oᵀ * S) * symForm n * S = -S := by
      calc (S * O * E * Oᵀ * S) * symForm n * S = S * O * E * Oᵀ * (S * symForm n * S) := by simp only [Matrix.mul_assoc]
        _ = S * O * E * (Oᵀ * O) * (symForm n * diagonal (Sum.elim ν ν)) * Oᵀ := by rw [hA]; simp only [Matrix.mul_assoc]
        _ = S * O * (E * (symForm n * diagonal (Sum.elim ν ν))) * Oᵀ := by rw [hO, Matrix.mul_one]; simp only [Matrix.mul_assoc]
        _ = -(S * (O * Oᵀ)) := by rw [hEM]; simp [Matrix.mul_assoc]
        _ = -S := by rw [hO', Matrix.mul_one]
    have h2 : (S * O * E * Oᵀ * S) * symForm n = -1 := by
      have := congrArg (· * S⁻¹) h1
      generalize S * O * E * Oᵀ * S * symForm n = X at this ⊢
      rwa [Matrix.mul_assoc, Matrix.neg_mul, Matrix.mul_nonsing_inv S hSd, Matrix.mul_one] at this
    show S * O * diagonal d * symForm n * (S * O * diagonal d)ᵀ = symForm n
    rw [hX]
    have := congrArg (· * symForm n) h2
    simp only [Matrix.mul_assoc _ (symForm n) (symForm n), symForm_sq, Matrix.mul_neg, Matrix.neg_mul, Matrix.mul_one, Matrix.one_mul] at this
    exact neg_injective this
  · rw [transpose_mul, transpose_mul, diagonal_transpose, hST]
    calc C = S * (O * Oᵀ) * S := by rw [hO', Matrix.mul_one, hSS]
      _ = S * O * (diagonal d * diagonal (Sum.elim ν ν) * diagonal d) * Oᵀ * S := by rw [hdν, Matrix.mul_one]; simp only [Matrix.mul_assoc]
      _ = _ := by simp only [Matrix.mul_assoc]

end Verif.Manifold
