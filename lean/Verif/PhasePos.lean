import Verif.PhasePure
import Mathlib.LinearAlgebra.Matrix.PosDef
import Mathlib.Analysis.Matrix.PosDef
import Mathlib.Analysis.Matrix.Order
import Mathlib.Algebra.BigOperators.Ring.Finset
import Mathlib.Tactic.Linarith

/-!
# Positivity of Gaussian density matrices and the uncertainty relation (C66)
-/

namespace Verif.Manifold
open Matrix Verif.Gauss MeasureTheory
open scoped ComplexOrder MatrixOrder

variable {n : Type*} [Fintype n] [DecidableEq n]

/-! ## Specification -/

/-- The operator with Bargmann function `F` is positive: its expectation value in every finite superposition `∑ c_i |p_i⟩` of (unnormalised)
coherent states is a non-negative real, where `⟨p|F|q⟩ = F(p̄, q)`. -/
def OpPos (F : (n → ℂ) → (n → ℂ) → ℂ) : Prop :=
  ∀ (k : ℕ) (c : Fin k → ℂ) (p : Fin k → n → ℂ), 0 ≤ ∑ i, ∑ j, (starRingEnd ℂ) (c i) * c j * F (star (p i)) (p j)

/-! ## Model -/

/-- A density matrix with the triple `(A, b, c)` in the wire order (bra, ket), as a function of the ket variables `z` and bra variables `w`
(`mrmustard/lab/states/dm.py` 110-125, `mrmustard/physics/ansatz/polyexp_ansatz.py` `eval`; no batch, no derived variables). -/
noncomputable def dmFun (A : Matrix (n ⊕ n) (n ⊕ n) ℂ) (b : n ⊕ n → ℂ) (c : ℂ) (z w : n → ℂ) : ℂ :=
  c * Complex.exp (1 / 2 * (Sum.elim w z ⬝ᵥ A.mulVec (Sum.elim w z)) + b ⬝ᵥ Sum.elim w z)

/-- `DM.is_positive` (`mrmustard/lab/states/dm.py` 53-87) for one batch element: `gamma_A = A[:m, m:]` must be Hermitian up to `ATOL` in
Frobenius norm and the real parts of its eigenvalues must be at least `-ATOL`.  The eigenvalues of `math.eigvals` are the exact roots of
the characteristic polynomial. -/
def isPositive (atol : ℝ) (A : Matrix (n ⊕ n) (n ⊕ n) ℂ) : Prop :=
  Real.sqrt (∑ i, ∑ j, ‖(A.toBlocks₁₂ - A.toBlocks₁₂ᴴ) i j‖ ^ 2) ≤ atol ∧
    ∀ x : ℂ, (x • (1 : Matrix n n ℂ) - A.toBlocks₁₂).det = 0 → -atol ≤ x.re

/-! ## The exponential kernel -/

theorem pow_kernel {k : ℕ} {l : Type*} [Fintype l] (d : Fin k → ℂ) (u : Fin k → l → ℂ) (N : ℕ) :
    0 ≤ ∑ i, ∑ j, (starRingEnd ℂ) (d i) * d j * (∑ s, (starRingEnd ℂ) (u i s) * u j s) ^ N := by
  classical
  have : ∑ i, ∑ j, (starRingEnd ℂ) (d i) * d j * (∑ s, (starRingEnd ℂ) (u i s) * u j s) ^ N =
      ∑ α : Fin N → l, (starRingEnd ℂ) (∑ i, d i * ∏ r, u i (α r)) * ∑ j, d j * ∏ r, u j (α r) := by
    simp only [map_sum, map_mul, map_prod, Finset.sum_mul_sum]
    rw [Finset.sum_comm]
    conv_rhs => rw [Finset.sum_comm]; enter [2, i]; rw [Finset.sum_comm]
    rw [Finset.sum_comm]
    refine Finset.sum_congr rfl fun i _ => Finset.sum_congr rfl fun j _ => ?_
    rw [show (∑ s, (starRingEnd ℂ) (u i s) * u j s) ^ N = ∏ _r : Fin N, ∑ s, (starRingEnd ℂ) (u i s) * u j s by simp,
      Finset.prod_univ_sum, Finset.mul_sum]
    refine Finset.sum_congr (by ext; simp) fun α _ => ?_
    rw [Finset.prod_mul_distrib]
    ring
  rw [this]
  refine Finset.sum_nonneg fun α _ => ?_
  rw [mul_comm, Complex.mul_conj]
  exact_mod_cast Complex.normSq_nonneg _

theorem exp_kernel {k : ℕ} {l : Type*} [Fintype l] (d : Fin k → ℂ) (u : Fin k → l → ℂ) :
    0 ≤ ∑ i, ∑ j, (starRingEnd ℂ) (d i) * d j * Complex.exp (∑ s, (starRingEnd ℂ) (u i s) * u j s) := by
  have h : ∀ x : ℂ, HasSum (fun N : ℕ => ((N.factorial : ℂ)⁻¹) * x ^ N) (Complex.exp x) := fun x => by
    rw [Complex.exp_eq_exp_ℂ]
    simpa [smul_eq_mul] using NormedSpace.exp_series_hasSum_exp' (𝕂 := ℂ) x
  have hs : HasSum (fun N : ℕ => ∑ i, ∑ j, (starRingEnd ℂ) (d i) * d j * (((N.factorial : ℂ)⁻¹) * (∑ s, (starRingEnd ℂ) (u i s) * u j s) ^ N))
      (∑ i, ∑ j, (starRingEnd ℂ) (d i) * d j * Complex.exp (∑ s, (starRingEnd ℂ) (u i s) * u j s)) :=
    hasSum_sum fun i _ => hasSum_sum fun j _ => (h _).mul_left _
  refine hs.nonneg fun N => ?_
  have e : ∑ i, ∑ j, (starRingEnd ℂ) (d i) * d j * (((N.factorial : ℂ)⁻¹) * (∑ s, (starRingEnd ℂ) (u i s) * u j s) ^ N) =
      ((N.factorial : ℂ)⁻¹) * ∑ i, ∑ j, (starRingEnd ℂ) (d i) * d j * (∑ s, (starRingEnd ℂ) (u i s) * u j s) ^ N := by
    simp only [Finset.mul_sum]
    exact Finset.sum_congr rfl fun i _ => Finset.sum_congr rfl fun j _ => by ring
  rw [e]
  refine mul_nonneg ?_ (pow_kernel d u N)
  rw [← Complex.ofReal_natCast, ← Complex.ofReal_inv]
  exact_mod_cast inv_nonneg.2 (Nat.cast_nonneg _)

/-- A Gaussian kernel with Hermitian coupling `G` is positive iff `G` is. -/
theorem opPos_iff {G : Matrix n n ℂ} (hG : G.IsHermitian) {c : ℝ} (hc : 0 < c) {f : (n → ℂ) → ℂ} (hf : ∀ p, f p ≠ 0)
    {F : (n → ℂ) → (n → ℂ) → ℂ} (hF : ∀ z w, F z w = c * ((starRingEnd ℂ) (f (star z)) * f w) * Complex.exp (z ⬝ᵥ G.mulVec w)) :
    OpPos F ↔ G.PosSemidef := by
  constructor
  · intro h
    refine PosSemidef.of_dotProduct_mulVec_nonneg hG fun v => ?_
    have hr : ((starRingEnd ℂ) (star v ⬝ᵥ G.mulVec v)) = star v ⬝ᵥ G.mulVec v := by
      exact Complex.conj_eq_iff_im.2 (hG.im_star_dotProduct_mulVec_self v)
    obtain ⟨x, hx⟩ := Complex.conj_eq_iff_real.1 hr
    have := h 2 ![-(f 0)⁻¹, (f v)⁻¹] ![0, v]
    simp only [Fin.sum_univ_two, Matrix.cons_val_zero, Matrix.cons_val_one, hF, star_zero, star_star, Matrix.mulVec_zero, dotProduct_zero,
      zero_dotProduct, Complex.exp_zero, mul_one, hx, map_neg, map_inv₀] at this
    have h0 := hf 0
    have hv := hf v
    have h0' : (starRingEnd ℂ) (f 0) ≠ 0 := (map_ne_zero _).2 h0
    have hv' : (starRingEnd ℂ) (f v) ≠ 0 := (map_ne_zero _).2 hv
    have e : -((starRingEnd ℂ) (f 0))⁻¹ * -(f 0)⁻¹ * (c * ((starRingEnd ℂ) (f 0) * f 0)) +
        -((starRingEnd ℂ) (f 0))⁻¹ * (f v)⁻¹ * (c * ((starRingEnd ℂ) (f 0) * f v)) +
        (((starRingEnd ℂ) (f v))⁻¹ * -(f 0)⁻¹ * (c * ((starRingEnd ℂ) (f v) * f 0)) +
        ((starRingEnd ℂ) (f v))⁻¹ * (f v)⁻¹ * (c * ((starRingEnd ℂ) (f v) * f v) * Complex.exp x)) = ((c * (Real.exp x - 1) : ℝ) : ℂ) := by
      push_cast
      field_simp
      ring
    rw [e] at this
    have h1 : 0 ≤ c * (Real.exp x - 1) := by exact_mod_cast this
    have h2 : 1 ≤ Real.exp x := by
      have := nonneg_of_mul_nonneg_right h1 hc
      linarith
    rw [hx]
    exact_mod_cast Real.one_le_exp_iff.1 h2
  · intro h k a p
    obtain ⟨B, hB, -, hBB⟩ := CFC.exists_sqrt_of_isSelfAdjoint_of_quasispectrumRestricts h.isHermitian
      (QuasispectrumRestricts.nnreal_of_nonneg h.nonneg)
    obtain rfl : star B * B = G := by rw [← hBB, hB.star_eq]
    have := exp_kernel (fun i => a i * f (p i)) (fun i => B.mulVec (p i))
    have e : ∑ i, ∑ j, (starRingEnd ℂ) (a i) * a j * F (star (p i)) (p j) =
        c * ∑ i, ∑ j, (starRingEnd ℂ) (a i * f (p i)) * (a j * f (p j)) *
          Complex.exp (∑ s, (starRingEnd ℂ) (B.mulVec (p i) s) * B.mulVec (p j) s) := by
      simp only [Finset.mul_sum]
      refine Finset.sum_congr rfl fun i _ => Finset.sum_congr rfl fun j _ => ?_
      rw [hF, star_star]
      have : star (p i) ⬝ᵥ (star B * B).mulVec (p j) = ∑ s, (starRingEnd ℂ) (B.mulVec (p i) s) * B.mulVec (p j) s := by
        rw [← Matrix.mulVec_mulVec, Matrix.dotProduct_mulVec, star_eq_conjTranspose, ← Matrix.star_mulVec]
        rfl
      rw [this]
      simp only [map_mul]
      ring
    rw [e]
    exact mul_nonneg (by exact_mod_cast hc.le) this

/-- The eigenvalue test of a Hermitian matrix. -/
theorem eig_iff {Γ : Matrix n n ℂ} (hΓ : Γ.IsHermitian) (atol : ℝ) :
    (∀ x : ℂ, (x • (1 : Matrix n n ℂ) - Γ).det = 0 → -atol ≤ x.re) ↔ (Γ + (atol : ℂ) • 1).PosSemidef := by
  have hM : (Γ + (atol : ℂ) • 1).IsHermitian := by
    unfold IsHermitian
    rw [conjTranspose_add, hΓ.eq, conjTranspose_smul, conjTranspose_one]
    simp
  constructor
  · intro h
    rw [hM.posSemidef_iff_eigenvalues_nonneg]
    intro i
    have hv := hM.mulVec_eigenvectorBasis i
    have h0 : ⇑(hM.eigenvectorBasis i) ≠ 0 := by
      have := hM.eigenvectorBasis.orthonormal.ne_zero i
      intro e
      exact this (by ext j; exact congrFun e j)
    have hd : (((hM.eigenvalues i - atol : ℝ) : ℂ) • (1 : Matrix n n ℂ) - Γ).det = 0 := by
      refine Matrix.exists_mulVec_eq_zero_iff.1 ⟨_, h0, ?_⟩
      rw [Matrix.sub_mulVec, Matrix.smul_mulVec, Matrix.one_mulVec]
      rw [Matrix.add_mulVec, Matrix.smul_mulVec, Matrix.one_mulVec] at hv
      rw [← eq_sub_iff_add_eq] at hv
      rw [hv]
      funext j
      simp
      ring
    have := h _ hd
    simp only [Complex.ofReal_re] at this
    simp only [Pi.zero_apply]
    linarith
  · intro h x hx
    obtain ⟨v, hv, he⟩ := Matrix.exists_mulVec_eq_zero_iff.2 hx
    rw [Matrix.sub_mulVec, Matrix.smul_mulVec, Matrix.one_mulVec, sub_eq_zero] at he
    have h1 := h.dotProduct_mulVec_nonneg v
    rw [Matrix.add_mulVec, Matrix.smul_mulVec, Matrix.one_mulVec, ← he, ← add_smul, dotProduct_smul, smul_eq_mul] at h1
    have h2 : 0 < star v ⬝ᵥ v := dotProduct_star_self_pos_iff.2 hv
    obtain ⟨t, ht⟩ : ∃ t : ℝ, star v ⬝ᵥ v = t := ⟨(star v ⬝ᵥ v).re, by
      apply Complex.ext
      · simp
      · simpa using (Complex.le_def.1 h2.le).2.symm⟩
    rw [ht] at h1 h2
    have h3 : (0 : ℝ) < t := by exact_mod_cast h2
    have h4 := (Complex.le_def.1 h1).1
    simp only [Complex.zero_re, Complex.mul_re, Complex.add_re, Complex.ofReal_re, Complex.ofReal_im, mul_zero, sub_zero] at h4
    have := nonneg_of_mul_nonneg_left h4 h3
    linarith

/-- The exponent of a Hermitian triple splits into a ket part, the conjugate bra part and the coupling. -/
theorem dmFun_split {A : Matrix (n ⊕ n) (n ⊕ n) ℂ} (hs : Aᵀ = A) (hA : A = Xmat n * cj A * Xmat n) {b : n ⊕ n → ℂ}
    (hb : b ∘ Sum.inr = star (b ∘ Sum.inl)) (c : ℂ) (z w : n → ℂ) :
    dmFun A b c z w = c * ((starRingEnd ℂ) (Complex.exp (1 / 2 * (star z ⬝ᵥ A.toBlocks₁₁.mulVec (star z)) + (b ∘ Sum.inl) ⬝ᵥ star z)) *
      Complex.exp (1 / 2 * (w ⬝ᵥ A.toBlocks₁₁.mulVec w) + (b ∘ Sum.inl) ⬝ᵥ w)) * Complex.exp (z ⬝ᵥ A.toBlocks₁₂ᵀ.mulVec w) := by
  have hAb := (fromBlocks_toBlocks A).symm
  have h22 : A.toBlocks₂₂ = cj A.toBlocks₁₁ := by
    have := congrArg toBlocks₂₂ hA
    conv_rhs at this => rw [hAb]
    rw [show cj (fromBlocks A.toBlocks₁₁ A.toBlocks₁₂ A.toBlocks₂₁ A.toBlocks₂₂) =
      fromBlocks (cj A.toBlocks₁₁) (cj A.toBlocks₁₂) (cj A.toBlocks₂₁) (cj A.toBlocks₂₂) from fromBlocks_map ..] at this
    rw [Xmat, fromBlocks_multiply, fromBlocks_multiply, toBlocks_fromBlocks₂₂] at this
    simpa using this
  have h21 : A.toBlocks₂₁ = A.toBlocks₁₂ᵀ := by
    ext i j
    exact (congrFun (congrFun hs (Sum.inr i)) (Sum.inl j)).symm
  have e1 : Sum.elim w z ⬝ᵥ A.mulVec (Sum.elim w z) =
      w ⬝ᵥ A.toBlocks₁₁.mulVec w + z ⬝ᵥ (cj A.toBlocks₁₁).mulVec z + 2 * (z ⬝ᵥ A.toBlocks₁₂ᵀ.mulVec w) := by
    conv_lhs => rw [hAb]
    rw [fromBlocks_mulVec, Sum.elim_comp_inl, Sum.elim_comp_inr, sumElim_dotProduct_sumElim, h21, h22, dotProduct_add, dotProduct_add]
    have : w ⬝ᵥ A.toBlocks₁₂.mulVec z = z ⬝ᵥ A.toBlocks₁₂ᵀ.mulVec w := by
      rw [Matrix.dotProduct_mulVec, dotProduct_comm, Matrix.mulVec_transpose]
    rw [this]; ring
  have e2 : b ⬝ᵥ Sum.elim w z = (b ∘ Sum.inl) ⬝ᵥ w + star (b ∘ Sum.inl) ⬝ᵥ z := by
    conv_lhs => rw [← Sum.elim_comp_inl_inr b]
    rw [sumElim_dotProduct_sumElim, hb]
  have e3 : (starRingEnd ℂ) (star z ⬝ᵥ A.toBlocks₁₁.mulVec (star z)) = z ⬝ᵥ (cj A.toBlocks₁₁).mulVec z := by
    simp only [dotProduct, mulVec, map_sum, map_mul, cj, Matrix.map_apply, Pi.star_apply, Complex.star_def, Complex.conj_conj]
  have e4 : (starRingEnd ℂ) ((b ∘ Sum.inl) ⬝ᵥ star z) = star (b ∘ Sum.inl) ⬝ᵥ z := by
    simp only [dotProduct, map_sum, map_mul, Pi.star_apply, Complex.star_def, Complex.conj_conj]
  have hh : (starRingEnd ℂ) (1 / 2 : ℂ) = 1 / 2 := by simp [Complex.conj_ofNat]
  unfold dmFun
  rw [← Complex.exp_conj, map_add, map_mul, e3, e4, hh, mul_assoc, ← Complex.exp_add, ← Complex.exp_add, e1, e2]
  refine congrArg (HMul.hMul c) (congrArg Complex.exp ?_)
  ring

/-- **C66 (is_positive)** For a Hermitian Gaussian density matrix with positive constant, `is_positive` at tolerance `ATOL` is exactly
positivity of the operator after multiplying its Bargmann function by `exp(ATOL z·w)`; at tolerance `0` it is positivity. -/
theorem C66_is_positive {A : Matrix (n ⊕ n) (n ⊕ n) ℂ} (hs : Aᵀ = A) (hA : A = Xmat n * cj A * Xmat n) {b : n ⊕ n → ℂ}
    (hb : b ∘ Sum.inr = star (b ∘ Sum.inl)) {c : ℝ} (hc : 0 < c) {atol : ℝ} (h0 : 0 ≤ atol) :
    isPositive atol A ↔ OpPos (fun z w => dmFun A b c z w * Complex.exp (atol * (z ⬝ᵥ w))) := by
  have hΓ : A.toBlocks₁₂.IsHermitian := by
    have hAb := (fromBlocks_toBlocks A).symm
    have h12 : A.toBlocks₁₂ = cj A.toBlocks₂₁ := by
      have := congrArg toBlocks₁₂ hA
      conv_rhs at this => rw [hAb]
      rw [show cj (fromBlocks A.toBlocks₁₁ A.toBlocks₁₂ A.toBlocks₂₁ A.toBlocks₂₂) =
        fromBlocks (cj A.toBlocks₁₁) (cj A.toBlocks₁₂) (cj A.toBlocks₂₁) (cj A.toBlocks₂₂) from fromBlocks_map ..] at this
      rw [Xmat, fromBlocks_multiply, fromBlocks_multiply, toBlocks_fromBlocks₁₂] at this
      simpa using this
    ext i j
    conv_rhs => rw [h12]
    simp only [cj, conjTranspose_apply, Matrix.map_apply, toBlocks₂₁, toBlocks₁₂, of_apply, Complex.star_def]
    exact congrArg _ (congrFun (congrFun hs (Sum.inr i)) (Sum.inl j))
  have hT : (A.toBlocks₁₂ᵀ + (atol : ℂ) • 1).IsHermitian := by
    unfold IsHermitian
    rw [conjTranspose_add, hΓ.transpose.eq, conjTranspose_smul, conjTranspose_one]
    simp
  rw [opPos_iff hT hc (f := fun w => Complex.exp (1 / 2 * (w ⬝ᵥ A.toBlocks₁₁.mulVec w) + (b ∘ Sum.inl) ⬝ᵥ w)) (fun p => Complex.exp_ne_zero _)]
  · have e : A.toBlocks₁₂ᵀ + (atol : ℂ) • 1 = (A.toBlocks₁₂ + (atol : ℂ) • 1)ᵀ := by simp
    rw [e, posSemidef_transpose_iff, ← eig_iff hΓ atol]
    unfold isPositive
    refine and_iff_right ?_
    rw [hΓ.eq, sub_self]
    simpa using h0
  · intro z w
    rw [dmFun_split hs hA hb, mul_assoc _ (Complex.exp _) (Complex.exp (atol * _)), ← Complex.exp_add]
    refine congrArg (HMul.hMul _) (congrArg Complex.exp ?_)
    rw [Matrix.add_mulVec, Matrix.smul_mulVec, Matrix.one_mulVec, dotProduct_add, dotProduct_smul, smul_eq_mul]

theorem C66_is_positive_exact {A : Matrix (n ⊕ n) (n ⊕ n) ℂ} (hs : Aᵀ = A) (hA : A = Xmat n * cj A * Xmat n) {b : n ⊕ n → ℂ}
    (hb : b ∘ Sum.inr = star (b ∘ Sum.inl)) {c : ℝ} (hc : 0 < c) : isPositive 0 A ↔ OpPos (dmFun A b c) := by
  rw [C66_is_positive hs hA hb hc le_rfl]
  simp

end Verif.Manifold
