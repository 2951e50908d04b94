import Verif.ChannelAct
import Mathlib.Data.Matrix.ColumnRowPartitioned

/-!
# Complete positivity: `Channel.is_CP` (C74)

`mrmustard/lab/transformations/base.py` 373-410.
-/

namespace Verif.Manifold
open Matrix Verif.Gauss MeasureTheory
open scoped ComplexOrder MatrixOrder

variable {n : Type*} [Fintype n] [DecidableEq n]
variable {p q r : Type*} [Fintype p] [DecidableEq p] [Fintype q] [DecidableEq q] [Fintype r] [DecidableEq r]

/-! ## The test -/

/-- The strict eigenvalue test. -/
theorem eig_strict_iff {Γ : Matrix n n ℂ} (hΓ : Γ.IsHermitian) (atol : ℝ) :
    (∀ x : ℂ, (x • (1 : Matrix n n ℂ) - Γ).det = 0 → -atol < x.re) ↔ (Γ + (atol : ℂ) • 1).PosDef := by
  have key : ∀ x : ℂ, (x • (1 : Matrix n n ℂ) - Γ).det = 0 ↔ (Γ - x • 1).det = 0 := fun x => by
    rw [← neg_sub Γ, Matrix.det_neg]; simp
  constructor
  · intro h
    have hp := (eig_iff hΓ atol).1 fun x hx => (h x hx).le
    rw [hp.posDef_iff_det_ne_zero]
    intro h0
    have := h (-atol : ℝ) (by rw [key]; simpa using h0)
    simp at this
  · intro h x hx
    refine lt_of_le_of_ne ((eig_iff hΓ atol).2 h.posSemidef x hx) fun e => ?_
    have him : x.im = 0 := by
      obtain ⟨v, hv, hv'⟩ := Matrix.exists_mulVec_eq_zero_iff.2 hx
      rw [Matrix.sub_mulVec, Matrix.smul_mulVec, Matrix.one_mulVec, sub_eq_zero] at hv'
      have h1 := hΓ.im_star_dotProduct_mulVec_self v
      rw [← hv', dotProduct_smul, smul_eq_mul] at h1
      have h2 : 0 < star v ⬝ᵥ v := dotProduct_star_self_pos_iff.2 hv
      have h3 := Complex.pos_iff.1 h2
      have h4 : x.im * (star v ⬝ᵥ v).re = 0 := by
        have h5 := h1
        simp only [RCLike.im_to_complex, Complex.mul_im] at h5
        rw [← h3.2] at h5
        linarith
      rcases mul_eq_zero.1 h4 with h5 | h5
      · exact h5
      · exact absurd h5 h3.1.ne'
    have hx' : x = ((-atol : ℝ) : ℂ) := Complex.ext (by simpa using e.symm) (by simpa using him)
    rw [key, hx'] at hx
    have := h.det_pos.ne'
    apply this
    simpa using hx

/-- What `Channel.is_CP` tests on the matrix of a Hermitian map. -/
theorem isCP_iff {A : Matrix (n ⊕ n) (n ⊕ n) ℂ} (hΓ : A.toBlocks₁₂.IsHermitian) {atol : ℝ} (h0 : 0 ≤ atol) :
    isCP atol A ↔ (A.toBlocks₁₂ + (atol : ℂ) • 1).PosDef := by
  rw [← eig_strict_iff hΓ atol]
  unfold isCP
  refine and_iff_right ?_
  rw [hΓ.eq, sub_self]
  simpa using h0

/-- **C74 (soundness of the report)** For the triple of a Hermiticity-preserving map, `Channel.is_CP` is true at every positive tolerance exactly if the
map's Choi operator is positive. -/
theorem C74_choi {A : Matrix (n ⊕ n) (n ⊕ n) ℂ} (hs : Aᵀ = A) (hA : A = Xmat n * cj A * Xmat n) {b : n ⊕ n → ℂ}
    (hb : b ∘ Sum.inr = star (b ∘ Sum.inl)) {c : ℝ} (hc : 0 < c) : (∀ atol : ℝ, 0 < atol → isCP atol A) ↔ OpPos (dmFun A b c) := by
  have hΓ := gamma_herm hs hA
  rw [← C66_is_positive_exact hs hA hb hc, isPositive_iff hΓ le_rfl]
  have e0 : A.toBlocks₁₂ + ((0 : ℝ) : ℂ) • 1 = A.toBlocks₁₂ := by simp
  rw [e0]
  constructor
  · intro h
    refine PosSemidef.of_dotProduct_mulVec_nonneg hΓ fun x => ?_
    have hre : (star x ⬝ᵥ A.toBlocks₁₂.mulVec x).im = 0 := hΓ.im_star_dotProduct_mulVec_self x
    rw [Complex.nonneg_iff]
    refine ⟨?_, hre.symm⟩
    have hn : 0 ≤ (star x ⬝ᵥ x).re := (Complex.nonneg_iff.1 (dotProduct_star_self_nonneg x)).1
    by_contra hlt
    push Not at hlt
    set a := (star x ⬝ᵥ A.toBlocks₁₂.mulVec x).re
    set s := (star x ⬝ᵥ x).re
    have hε : 0 < -a / (2 * (s + 1)) := by apply div_pos <;> linarith
    have h1 := ((isCP_iff hΓ hε.le).1 (h _ hε)).posSemidef.dotProduct_mulVec_nonneg x
    rw [Matrix.add_mulVec, Matrix.smul_mulVec, Matrix.one_mulVec, dotProduct_add, dotProduct_smul, smul_eq_mul, Complex.nonneg_iff] at h1
    have h2 := h1.1
    rw [Complex.add_re, Complex.re_ofReal_mul] at h2
    change 0 ≤ a + -a / (2 * (s + 1)) * s at h2
    have h3 : -a / (2 * (s + 1)) * s ≤ -a / 2 := by
      rw [div_mul_eq_mul_div, div_le_div_iff₀ (by linarith) (by norm_num)]
      nlinarith
    linarith
  · intro h atol h0
    rw [isCP_iff hΓ h0.le]
    exact PosDef.posSemidef_add h (PosDef.one.smul (by exact_mod_cast h0))

/-! ## The matrix of `from_XY` -/

theorem xyA_eq (ħ : ℝ) (X : Matrix (p ⊕ p) (q ⊕ q) ℝ) (Y : Matrix (p ⊕ p) (p ⊕ p) ℝ) :
    xyA ħ X Y = cj (xyR p q) * toC (xyK (xyXi ħ X Y) X) * (xyR p q)ᴴ := by
  unfold xyA
  rw [Xmat_xyR]

theorem xyA_herm {ħ : ℝ} (X : Matrix (p ⊕ p) (q ⊕ q) ℝ) {Y : Matrix (p ⊕ p) (p ⊕ p) ℝ} (hξ : (xyXi ħ X Y).PosDef) :
    (xyA ħ X Y)ᵀ = xyA ħ X Y ∧ xyA ħ X Y = Xmat (p ⊕ q) * cj (xyA ħ X Y) * Xmat (p ⊕ q) := by
  have hs : (xyXi ħ X Y)⁻¹ᵀ = (xyXi ħ X Y)⁻¹ := by
    have := hξ.inv.isHermitian
    unfold IsHermitian at this
    rwa [conjTranspose_eq_transpose_of_trivial] at this
  have hK : (xyK (xyXi ħ X Y) X)ᵀ = xyK (xyXi ħ X Y) X := by
    unfold xyK
    rw [fromBlocks_transpose]
    simp only [transpose_sub, transpose_one, transpose_mul, transpose_transpose, hs, Matrix.mul_assoc]
  have hKc : (toC (xyK (xyXi ħ X Y) X))ᵀ = toC (xyK (xyXi ħ X Y) X) := by
    conv_rhs => rw [← hK]
    rfl
  refine ⟨?_, ?_⟩
  · rw [xyA_eq, transpose_mul, transpose_mul, hKc, Matrix.mul_assoc]
    rfl
  · have h1 : cj (xyA ħ X Y) = xyR p q * toC (xyK (xyXi ħ X Y) X) * (xyR p q)ᵀ := by
      rw [xyA_eq, cj_mul, cj_mul]
      have e1 : cj (cj (xyR p q)) = xyR p q := by ext; simp [cj]
      have e2 : cj (toC (xyK (xyXi ħ X Y) X)) = toC (xyK (xyXi ħ X Y) X) := by ext; simp [cj, toC]
      have e3 : cj ((xyR p q)ᴴ) = (xyR p q)ᵀ := by ext; simp [cj]
      rw [e1, e2, e3]
    rw [h1, ← Matrix.mul_assoc, ← Matrix.mul_assoc, Xmat_xyR, Matrix.mul_assoc _ _ (Xmat _)]
    have e4 : (xyR p q)ᵀ * Xmat (p ⊕ q) = (xyR p q)ᴴ := by
      have := congrArg Matrix.transpose (Xmat_xyR (p := p) (q := q))
      rw [transpose_mul, Xmat_T] at this
      rw [this]
      rfl
    rw [e4, xyA_eq]

theorem xyB_herm (ħ : ℝ) (X : Matrix (p ⊕ p) (q ⊕ q) ℝ) (Y : Matrix (p ⊕ p) (p ⊕ p) ℝ) (d : p ⊕ p → ℝ) :
    xyB ħ X Y d ∘ Sum.inr = star (xyB ħ X Y d ∘ Sum.inl) := by
  have h : ∀ x : (p ⊕ p) ⊕ (q ⊕ q) → ℝ, (Xmat (p ⊕ q)).mulVec ((cj (xyR p q)).mulVec fun r => (x r : ℂ)) = star ((cj (xyR p q)).mulVec fun r => (x r : ℂ)) := by
    intro x
    rw [Matrix.mulVec_mulVec]
    have : Xmat (p ⊕ q) * cj (xyR p q) = xyR p q := by
      rw [← Xmat_xyR, ← Matrix.mul_assoc, Xmat_sq, Matrix.one_mul]
    rw [this]
    funext i
    simp [Matrix.mulVec, dotProduct, cj]
  have h2 := h (Sum.elim ((xyXi ħ X Y)⁻¹.mulVec d) ((Xᵀ * (xyXi ħ X Y)⁻¹).mulVec d))
  funext i
  have h3 := congrFun h2 (Sum.inl i)
  simp only [Function.comp, Pi.star_apply]
  unfold xyB
  simp only [Pi.smul_apply, smul_eq_mul, star_mul']
  simp only [Pi.star_apply] at h3
  rw [← h3]
  simp [Xmat, fromBlocks_mulVec, Matrix.mulVec, dotProduct, Fintype.sum_sum_type, Matrix.one_apply, Finset.sum_ite_eq]

/-- The lower half of `R`. -/
noncomputable def xyL (p q : Type*) [DecidableEq p] [DecidableEq q] : Matrix (p ⊕ q) ((p ⊕ p) ⊕ (q ⊕ q)) ℂ := (xyR p q).submatrix Sum.inr id

theorem xyL_apply : xyL p q = ((1 / Real.sqrt 2 : ℝ) : ℂ) • fromBlocks (fromCols 1 (-(Complex.I • 1))) 0 0 (fromCols 1 (Complex.I • 1)) := by
  ext i j
  rcases i with i | i <;> rcases j with (j | j) | (j | j) <;> simp [xyL, xyR]

theorem xyL_unit : xyL p q * (xyL p q)ᴴ = 1 := by
  rw [xyL_apply, conjTranspose_smul, Matrix.smul_mul, Matrix.mul_smul, smul_smul, fromBlocks_conjTranspose, fromBlocks_multiply]
  simp only [conjTranspose_fromCols_eq_fromRows_conjTranspose, fromCols_mul_fromRows, conjTranspose_zero, Matrix.zero_mul, Matrix.mul_zero, add_zero, zero_add,
    conjTranspose_one, conjTranspose_neg, conjTranspose_smul, Matrix.mul_one]
  have h2 : ((1 / Real.sqrt 2 : ℝ) : ℂ) * star ((1 / Real.sqrt 2 : ℝ) : ℂ) = 1 / 2 := by
    rw [Complex.star_def, Complex.conj_ofReal, ← Complex.ofReal_mul, div_mul_div_comm, Real.mul_self_sqrt (by norm_num)]
    norm_num
  rw [h2, fromBlocks_smul, ← fromBlocks_one]
  congr 1
  · ext i j; by_cases h : i = j <;> simp [h, Matrix.one_apply]; norm_num
  · simp
  · simp
  · ext i j; by_cases h : i = j <;> simp [h, Matrix.one_apply]; norm_num

theorem xyL_proj : (xyL p q)ᴴ * xyL p q =
    fromBlocks ((1 / 2 : ℂ) • (1 - Complex.I • toC (symForm p))) 0 0 ((1 / 2 : ℂ) • (1 + Complex.I • toC (symForm q))) := by
  rw [xyL_apply, conjTranspose_smul, Matrix.smul_mul, Matrix.mul_smul, smul_smul, fromBlocks_conjTranspose, fromBlocks_multiply]
  simp only [conjTranspose_fromCols_eq_fromRows_conjTranspose, fromRows_mul_fromCols, conjTranspose_zero, Matrix.zero_mul, Matrix.mul_zero, add_zero, zero_add,
    conjTranspose_one, conjTranspose_neg, conjTranspose_smul, Matrix.mul_one, Matrix.one_mul]
  have h2 : star ((1 / Real.sqrt 2 : ℝ) : ℂ) * ((1 / Real.sqrt 2 : ℝ) : ℂ) = 1 / 2 := by
    rw [Complex.star_def, Complex.conj_ofReal, ← Complex.ofReal_mul, div_mul_div_comm, Real.mul_self_sqrt (by norm_num)]
    norm_num
  rw [h2, fromBlocks_smul]
  congr 1
  · ext i j; rcases i with i | i <;> rcases j with j | j <;> by_cases h : i = j <;> simp [h, Matrix.one_apply, toC, symForm]
  · simp
  · simp
  · ext i j; rcases i with i | i <;> rcases j with j | j <;> by_cases h : i = j <;> simp [h, Matrix.one_apply, toC, symForm]

theorem xyA_gamma (ħ : ℝ) (X : Matrix (p ⊕ p) (q ⊕ q) ℝ) (Y : Matrix (p ⊕ p) (p ⊕ p) ℝ) :
    (xyA ħ X Y).toBlocks₁₂ = xyL p q * toC (xyK (xyXi ħ X Y) X) * (xyL p q)ᴴ := by
  rw [xyA_eq]
  have h : (cj (xyR p q)).submatrix Sum.inl id = xyL p q := by
    rw [← Xmat_xyR]
    ext i j
    simp [xyL, Xmat, Matrix.mul_apply, Fintype.sum_sum_type, Matrix.one_apply]
  have h' : (cj (xyR p q) * toC (xyK (xyXi ħ X Y) X) * (xyR p q)ᴴ).toBlocks₁₂ =
      (cj (xyR p q)).submatrix Sum.inl id * toC (xyK (xyXi ħ X Y) X) * (xyL p q)ᴴ := by
    ext i j
    rfl
  rw [h', h]

/-- The block of `A` that `is_CP` tests is positive exactly if the noise of the channel suffices. -/
theorem xyGamma_iff {ħ : ℝ} (hħ : 0 < ħ) (X : Matrix (p ⊕ p) (q ⊕ q) ℝ) {Y : Matrix (p ⊕ p) (p ⊕ p) ℝ} (hξ : (xyXi ħ X Y).PosDef) :
    (xyA ħ X Y).toBlocks₁₂.PosSemidef ↔
      (toC Y + (Complex.I * (ħ / 2)) • (toC (symForm p) - toC X * toC (symForm q) * (toC X)ᵀ)).PosSemidef := by
  have hV := toC_posDef hξ
  have i1 : Invertible (1 : Matrix (p ⊕ q) (p ⊕ q) ℂ) := invertibleOne
  have : Invertible (toC (xyXi ħ X Y)) := hV.isUnit.invertible
  have hinv : toC (xyXi ħ X Y)⁻¹ = (toC (xyXi ħ X Y))⁻¹ := by
    symm
    apply Matrix.inv_eq_left_inv
    rw [← toC_mul, (posDef_inv hξ).2, toC_one]
  set C : Matrix (p ⊕ p) ((p ⊕ p) ⊕ (q ⊕ q)) ℂ := fromCols 1 (-toC X) with hC
  have hK : toC (xyK (xyXi ħ X Y) X) = 1 - Cᴴ * (toC (xyXi ħ X Y))⁻¹ * C := by
    have hXc : (toC X)ᴴ = (toC X)ᵀ := by ext; simp [toC]
    rw [← hinv, hC, conjTranspose_fromCols_eq_fromRows_conjTranspose, fromRows_mul, fromRows_mul_fromCols, conjTranspose_one, conjTranspose_neg, hXc]
    unfold xyK
    rw [show toC (fromBlocks (1 - (xyXi ħ X Y)⁻¹) ((xyXi ħ X Y)⁻¹ * X) (Xᵀ * (xyXi ħ X Y)⁻¹) (1 - Xᵀ * (xyXi ħ X Y)⁻¹ * X)) =
      fromBlocks (toC (1 - (xyXi ħ X Y)⁻¹)) (toC ((xyXi ħ X Y)⁻¹ * X)) (toC (Xᵀ * (xyXi ħ X Y)⁻¹)) (toC (1 - Xᵀ * (xyXi ħ X Y)⁻¹ * X)) from fromBlocks_map ..]
    rw [toC_sub, toC_sub, toC_one, toC_one, toC_mul, toC_mul, toC_mul, toC_mul,
      ← fromBlocks_one (l := p ⊕ p) (m := q ⊕ q), sub_eq_add_neg _ (fromBlocks _ _ _ _), fromBlocks_neg, fromBlocks_add]
    have hT : toC Xᵀ = (toC X)ᵀ := rfl
    rw [hT]
    congr 1 <;> simp [Matrix.mul_assoc, sub_eq_add_neg]
  set G : Matrix (p ⊕ p) (p ⊕ q) ℂ := C * (xyL p q)ᴴ with hG
  have e1 : (xyA ħ X Y).toBlocks₁₂ = 1 - Gᴴ * (toC (xyXi ħ X Y))⁻¹ * G := by
    rw [xyA_gamma, hK, hG, Matrix.mul_sub, Matrix.sub_mul, Matrix.mul_one, xyL_unit, conjTranspose_mul, conjTranspose_conjTranspose]
    simp only [Matrix.mul_assoc]
  rw [e1, ← PosDef.fromBlocks₁₁ G 1 hV, PosDef.fromBlocks₂₂ _ _ PosDef.one, inv_one, Matrix.mul_one]
  have e2 : toC (xyXi ħ X Y) - G * Gᴴ = (ħ⁻¹ : ℂ) • (toC Y + (Complex.I * (ħ / 2)) • (toC (symForm p) - toC X * toC (symForm q) * (toC X)ᵀ)) := by
    have hh : (ħ : ℂ) ≠ 0 := by exact_mod_cast hħ.ne'
    have hXc : (toC X)ᴴ = (toC X)ᵀ := by ext; simp [toC]
    have e3 : G * Gᴴ = (1 / 2 : ℂ) • (1 - Complex.I • toC (symForm p)) + toC X * ((1 / 2 : ℂ) • (1 + Complex.I • toC (symForm q))) * (toC X)ᵀ := by
      rw [hG, conjTranspose_mul, conjTranspose_conjTranspose, ← Matrix.mul_assoc, Matrix.mul_assoc C, xyL_proj, hC,
        conjTranspose_fromCols_eq_fromRows_conjTranspose, fromCols_mul_fromBlocks, fromCols_mul_fromRows, conjTranspose_one, conjTranspose_neg, hXc]
      simp [Matrix.mul_assoc]
    rw [e3]
    simp only [Matrix.mul_smul, Matrix.smul_mul, Matrix.mul_add, Matrix.add_mul, Matrix.mul_one]
    have e4 : toC (xyXi ħ X Y) = (1 / 2 : ℂ) • 1 + (1 / 2 : ℂ) • (toC X * (toC X)ᵀ) + (ħ⁻¹ : ℂ) • toC Y := by
      have hT : toC Xᵀ = (toC X)ᵀ := rfl
      rw [← hT, ← toC_mul, ← toC_one]
      ext i j
      simp only [xyXi, toC, Matrix.map_apply, Matrix.add_apply, Matrix.smul_apply, smul_eq_mul, div_eq_inv_mul]
      push_cast
      ring
    rw [e4]
    generalize toC X * (toC X)ᵀ = W
    generalize toC X * toC (symForm q) * (toC X)ᵀ = W'
    ext i j
    simp only [Matrix.add_apply, Matrix.sub_apply, Matrix.smul_apply, smul_eq_mul]
    field_simp
    ring
  rw [e2]
  constructor
  · intro hp
    have := hp.smul (show (0 : ℂ) ≤ (ħ : ℂ) by exact_mod_cast hħ.le)
    rwa [smul_smul, mul_inv_cancel₀ (by exact_mod_cast hħ.ne'), one_smul] at this
  · intro hp
    refine hp.smul ?_
    rw [← Complex.ofReal_inv]
    exact_mod_cast (inv_pos.2 hħ).le

end Verif.Manifold
