import Verif.GaussStein
import Mathlib.MeasureTheory.Measure.Lebesgue.Complex

/-!
# Gaussian integrals over `ℂ^m`

`π^{-m} ∫ exp(½ vᵀ M v + bᵀ v) d²w`, `v = (w, w̄)`.  Specification side only: no model of the code.
-/

namespace Verif.Gauss
open MeasureTheory Complex Verif.Fock

variable {ι : Type*} [Fintype ι] [DecidableEq ι]

/-- The pairs `(w, w̄)`. -/
noncomputable def pair (w : ι → ℂ) : ι ⊕ ι → ℂ := Sum.elim w (fun i => (starRingEnd ℂ) (w i))

/-- The exponent `½ vᵀ M v + bᵀ v` at `v = (w, w̄)`. -/
noncomputable def cform (M : Matrix (ι ⊕ ι) (ι ⊕ ι) ℂ) (b : ι ⊕ ι → ℂ) (w : ι → ℂ) : ℂ :=
  1 / 2 * (∑ p, ∑ q, M p q * pair w p * pair w q) + ∑ p, b p * pair w p

/-- The real part of the quadratic exponent is negative definite: the integral converges absolutely. -/
def NegRe (M : Matrix (ι ⊕ ι) (ι ⊕ ι) ℂ) : Prop := ∀ w : ι → ℂ, w ≠ 0 → (∑ p, ∑ q, M p q * pair w p * pair w q).re < 0

/-- Change of variables `(x, y) ↦ (x + i y, x - i y)`. -/
noncomputable def Umat (ι : Type*) [DecidableEq ι] : Matrix (ι ⊕ ι) (ι ⊕ ι) ℂ :=
  Matrix.fromBlocks 1 (I • (1 : Matrix ι ι ℂ)) 1 (-(I • (1 : Matrix ι ι ℂ)))

/-- `w = x + i y`. -/
noncomputable def cplx (ξ : ι ⊕ ι → ℝ) : ι → ℂ := fun i => ξ (Sum.inl i) + ξ (Sum.inr i) * I

theorem pair_cplx (ξ : ι ⊕ ι → ℝ) : pair (cplx ξ) = (Umat ι).mulVec (fun p => (ξ p : ℂ)) := by
  funext p
  rcases p with i | i
  · simp [pair, cplx, Umat, Matrix.mulVec, dotProduct, Fintype.sum_sum_type, Matrix.fromBlocks, Matrix.one_apply, mul_comm]
  · simp [pair, cplx, Umat, Matrix.mulVec, dotProduct, Fintype.sum_sum_type, Matrix.fromBlocks, Matrix.one_apply, mul_comm]

theorem det_Umat : (Umat ι).det = (-2 * I) ^ Fintype.card ι := by
  unfold Umat
  rw [Matrix.det_fromBlocks_one₁₁, one_mul]
  have : -(I • (1 : Matrix ι ι ℂ)) - I • (1 : Matrix ι ι ℂ) = (-2 * I) • (1 : Matrix ι ι ℂ) := by
    rw [← neg_smul, ← sub_smul]; congr 1; ring
  rw [this, Matrix.det_smul, Matrix.det_one, mul_one]

/-- The measure on `ℂ^m` is the measure on `ℝ^{2m}`. -/
noncomputable def cequiv (ι : Type*) : (ι → ℂ) ≃ᵐ (ι ⊕ ι → ℝ) :=
  (MeasurableEquiv.piCongrRight fun _ : ι => measurableEquivRealProd).trans
    ((MeasurableEquiv.arrowProdEquivProdArrow ℝ ℝ ι).trans (MeasurableEquiv.sumPiEquivProdPi (fun _ : ι ⊕ ι => ℝ)).symm)

omit [DecidableEq ι] in
theorem cequiv_mp : MeasurePreserving (cequiv ι) := by
  unfold cequiv
  refine MeasurePreserving.trans (μb := volume) ?_ (MeasurePreserving.trans (μb := volume) (volume_measurePreserving_arrowProdEquivProdArrow ℝ ℝ ι)
    (volume_measurePreserving_sumPiEquivProdPi_symm _))
  exact volume_preserving_pi (fun _ : ι => volume_preserving_equiv_real_prod)

omit [Fintype ι] [DecidableEq ι] in
theorem cequiv_symm (ξ : ι ⊕ ι → ℝ) : (cequiv ι).symm ξ = cplx ξ := by
  rw [MeasurableEquiv.symm_apply_eq]
  funext p
  rcases p with i | i
  · change ξ _ = (cplx ξ i).re
    simp [cplx]
  · change ξ _ = (cplx ξ i).im
    simp [cplx]

omit [DecidableEq ι] in
theorem integral_cplx (F : (ι → ℂ) → ℂ) : ∫ w, F w = ∫ ξ : ι ⊕ ι → ℝ, F (cplx ξ) := by
  rw [← (cequiv_mp (ι := ι)).symm.integral_comp (MeasurableEquiv.measurableEmbedding _)]
  simp only [cequiv_symm]

/-- The real matrix of the exponent. -/
noncomputable def Qof (M : Matrix (ι ⊕ ι) (ι ⊕ ι) ℂ) : Matrix (ι ⊕ ι) (ι ⊕ ι) ℂ := -((Umat ι).transpose * M * Umat ι)

theorem quad_mulVec {κ : Type*} [Fintype κ] (M : Matrix κ κ ℂ) (v : κ → ℂ) : ∑ p, ∑ q, M p q * v p * v q = v ⬝ᵥ M.mulVec v := by
  simp only [dotProduct, Matrix.mulVec, Finset.mul_sum]
  refine Finset.sum_congr rfl fun p _ => Finset.sum_congr rfl fun q _ => ?_
  ring

theorem quad_Qof (M : Matrix (ι ⊕ ι) (ι ⊕ ι) ℂ) (ξ : ι ⊕ ι → ℝ) :
    ∑ p, ∑ q, Qof M p q * (ξ p : ℂ) * ξ q = -∑ p, ∑ q, M p q * pair (cplx ξ) p * pair (cplx ξ) q := by
  rw [quad_mulVec (Qof M) (fun p => (ξ p : ℂ)), quad_mulVec M, pair_cplx, Qof, Matrix.neg_mulVec, dotProduct_neg,
    ← Matrix.mulVec_mulVec, ← Matrix.mulVec_mulVec, Matrix.dotProduct_mulVec _ (Umat ι).transpose, Matrix.vecMul_transpose]

theorem form_Qof (M : Matrix (ι ⊕ ι) (ι ⊕ ι) ℂ) (b : ι ⊕ ι → ℂ) (ξ : ι ⊕ ι → ℝ) :
    form (Qof M) ((Umat ι).transpose.mulVec b) ξ = cform M b (cplx ξ) := by
  unfold form cform
  rw [quad_Qof]
  have : ∑ p, (Umat ι).transpose.mulVec b p * (ξ p : ℂ) = ∑ p, b p * pair (cplx ξ) p := by
    change (Umat ι).transpose.mulVec b ⬝ᵥ (fun p => (ξ p : ℂ)) = b ⬝ᵥ pair (cplx ξ)
    rw [pair_cplx, Matrix.mulVec_transpose, Matrix.dotProduct_mulVec]
  rw [this]
  ring

theorem NegRe.pos {M : Matrix (ι ⊕ ι) (ι ⊕ ι) ℂ} (h : NegRe M) : PosRe (Qof M) := by
  intro ξ hξ
  rw [quad_Qof, neg_re]
  have : cplx ξ ≠ 0 := by
    intro e
    apply hξ
    funext p
    rcases p with i | i
    · have := congrArg Complex.re (congrFun e i); simpa [cplx] using this
    · have := congrArg Complex.im (congrFun e i); simpa [cplx] using this
  have := h _ this
  linarith

theorem Qof_symm {M : Matrix (ι ⊕ ι) (ι ⊕ ι) ℂ} (hs : ∀ p q, M p q = M q p) : ∀ p q, Qof M p q = Qof M q p := by
  have hT : M.transpose = M := by ext p q; exact hs q p
  have : (Qof M).transpose = Qof M := by
    unfold Qof
    rw [Matrix.transpose_neg, Matrix.transpose_mul, Matrix.transpose_mul, Matrix.transpose_transpose, hT, Matrix.mul_assoc]
  intro p q
  conv_lhs => rw [← this]
  rfl

theorem det_Qof (M : Matrix (ι ⊕ ι) (ι ⊕ ι) ℂ) : (Qof M).det = (-4) ^ Fintype.card ι * M.det := by
  unfold Qof
  rw [Matrix.det_neg, Matrix.det_mul, Matrix.det_mul, Matrix.det_transpose, det_Umat, Fintype.card_sum, ← two_mul, pow_mul]
  have : ((-2 * I) ^ Fintype.card ι) * ((-2 * I) ^ Fintype.card ι) = (-4) ^ Fintype.card ι := by
    rw [← mul_pow]; congr 1; ring_nf; rw [I_sq]; ring
  rw [show ((-1 : ℂ) ^ 2) = 1 by norm_num, one_pow]
  linear_combination M.det * this

theorem Umat_unit : IsUnit (Umat ι).det := by
  rw [det_Umat, isUnit_iff_ne_zero]
  exact pow_ne_zero _ (by simp [I_ne_zero])

/-- The value at `b = 0`. -/
noncomputable def gaussConst (M : Matrix (ι ⊕ ι) (ι ⊕ ι) ℂ) : ℂ := ((Real.pi : ℂ) ^ Fintype.card ι)⁻¹ * ∫ w : ι → ℂ, cexp (cform M 0 w)

theorem sqrt_prod_sq {k : ℕ} (q : Fin k → ℂ) :
    (∏ i, (2 * Real.pi / q i) ^ (1 / 2 : ℂ)) ^ 2 = (2 * Real.pi) ^ k / ∏ i, q i := by
  rw [← Finset.prod_pow, Finset.prod_congr rfl fun i _ => by
    rw [← Complex.cpow_nat_mul, show ((2 : ℕ) : ℂ) * (1 / 2) = 1 by norm_num, Complex.cpow_one]]
  rw [Finset.prod_div_distrib, Finset.prod_const, Finset.card_univ, Fintype.card_fin]

theorem det_ne_zero_of_negRe {M : Matrix (ι ⊕ ι) (ι ⊕ ι) ℂ} (hs : ∀ p q, M p q = M q p) (h : NegRe M) : M.det ≠ 0 := by
  obtain ⟨q, hq, hd, _⟩ := integral_form (Qof_symm hs) h.pos
  intro e
  rw [det_Qof, e, mul_zero, Finset.prod_eq_zero_iff] at hd
  obtain ⟨i, _, hi⟩ := hd
  have := hq i
  rw [hi] at this
  simp at this

/-- The square of the constant is `(-1)^m / det M`. -/
theorem gaussConst_sq {M : Matrix (ι ⊕ ι) (ι ⊕ ι) ℂ} (hs : ∀ p q, M p q = M q p) (h : NegRe M) :
    gaussConst M ^ 2 = (-1) ^ Fintype.card ι / M.det := by
  obtain ⟨q, hq, hd, hi⟩ := integral_form (Qof_symm hs) h.pos
  have hb := hi 0 0 (by simp)
  have hM := det_ne_zero_of_negRe hs h
  unfold gaussConst
  rw [integral_cplx]
  have e : ∀ ξ : ι ⊕ ι → ℝ, cform M 0 (cplx ξ) = form (Qof M) 0 ξ := fun ξ => by
    rw [← form_Qof, Matrix.mulVec_zero]
  simp only [e]
  rw [hb]
  simp only [Pi.zero_apply, zero_mul, Finset.sum_const_zero, mul_zero, Complex.exp_zero, mul_one]
  rw [mul_pow, sqrt_prod_sq, hd, det_Qof, Fintype.card_sum, ← two_mul, pow_mul, mul_pow (2 : ℂ), mul_pow, ← pow_mul, ← pow_mul, inv_pow, ← pow_mul]
  have hpi : (Real.pi : ℂ) ^ (Fintype.card ι * 2) ≠ 0 := pow_ne_zero _ (by simp [Real.pi_ne_zero])
  rw [mul_comm 2 (Fintype.card ι)]
  have h4 : (2 : ℂ) ^ (Fintype.card ι * 2) = (-4) ^ Fintype.card ι * (-1) ^ Fintype.card ι := by
    rw [← mul_pow, mul_comm, pow_mul]; norm_num
  have h4' : ((-4 : ℂ)) ^ Fintype.card ι ≠ 0 := pow_ne_zero _ (by norm_num)
  rw [h4]
  field_simp

theorem inv_Qof {M : Matrix (ι ⊕ ι) (ι ⊕ ι) ℂ} (hM : M.det ≠ 0) :
    (-((Umat ι)⁻¹ * M⁻¹ * ((Umat ι).transpose)⁻¹)) * Qof M = 1 := by
  have hU := Umat_unit (ι := ι)
  have hUT : IsUnit ((Umat ι).transpose).det := by rwa [Matrix.det_transpose]
  have hMu : IsUnit M.det := isUnit_iff_ne_zero.2 hM
  unfold Qof
  rw [neg_mul_neg]
  calc (Umat ι)⁻¹ * M⁻¹ * ((Umat ι).transpose)⁻¹ * ((Umat ι).transpose * M * Umat ι)
      = (Umat ι)⁻¹ * (M⁻¹ * ((((Umat ι).transpose)⁻¹ * (Umat ι).transpose) * M)) * Umat ι := by simp only [Matrix.mul_assoc]
    _ = 1 := by rw [Matrix.nonsing_inv_mul _ hUT, Matrix.one_mul, Matrix.nonsing_inv_mul _ hMu, Matrix.mul_one, Matrix.nonsing_inv_mul _ hU]

/-- **Complex Gaussian integral of a Hermite polynomial.** -/
theorem integral_complex {M : Matrix (ι ⊕ ι) (ι ⊕ ι) ℂ} (hs : ∀ p q, M p q = M q p) (h : NegRe M) (b : ι ⊕ ι → ℂ)
    {D : ℕ} (A : ℕ → ℕ → ℂ) (a : ℕ → ℂ) (E : ℕ → ι ⊕ ι → ℂ) (k : ℕ →₀ ℕ) (hk : Below D k) :
    ((Real.pi : ℂ) ^ Fintype.card ι)⁻¹ * ∫ w : ι → ℂ, amp D A (fun j => a j + ∑ p, E j p * pair w p) 1 k * cexp (cform M b w) =
      gaussConst M * cexp (-(1 / 2) * (b ⬝ᵥ M⁻¹.mulVec b)) *
        amp D (fun i j => A i j - E i ⬝ᵥ M⁻¹.mulVec (E j)) (fun j => a j - E j ⬝ᵥ M⁻¹.mulVec b) 1 k := by
  have hM := det_ne_zero_of_negRe hs h
  have hMu : IsUnit M.det := isUnit_iff_ne_zero.2 hM
  have hU := Umat_unit (ι := ι)
  have hUT : IsUnit ((Umat ι).transpose).det := by rwa [Matrix.det_transpose]
  set b' := (Umat ι).transpose.mulVec b with hb'
  set E' : ℕ → ι ⊕ ι → ℂ := fun j => Matrix.vecMul (E j) (Umat ι) with hE'
  set W : ℕ → ι ⊕ ι → ℂ := fun j => Matrix.vecMul (E' j) (-((Umat ι)⁻¹ * M⁻¹ * ((Umat ι).transpose)⁻¹)) with hW
  have hWE : ∀ j, W j = -Matrix.vecMul (E j) (M⁻¹ * ((Umat ι).transpose)⁻¹) := by
    intro j
    rw [hW, hE']
    simp only
    rw [Matrix.vecMul_neg, Matrix.vecMul_vecMul, ← Matrix.mul_assoc, ← Matrix.mul_assoc, Matrix.mul_nonsing_inv _ hU, Matrix.one_mul]
  have hWQ : ∀ i l, ∑ m, W i m * Qof M m l = E' i l := by
    intro i l
    change Matrix.vecMul (W i) (Qof M) l = _
    rw [hW]
    simp only
    rw [Matrix.vecMul_vecMul, inv_Qof hM, Matrix.vecMul_one]
  have main := integral_ampLin (D := D) (A := A) (Qof_symm hs) h.pos b' a E' W hWQ k hk
  have hlin : ∀ (ξ : ι ⊕ ι → ℝ) j, ∑ p, E j p * pair (cplx ξ) p = ∑ l, E' j l * (ξ l : ℂ) := by
    intro ξ j
    change E j ⬝ᵥ pair (cplx ξ) = E' j ⬝ᵥ (fun l => (ξ l : ℂ))
    rw [pair_cplx, Matrix.dotProduct_mulVec]
  rw [integral_cplx]
  simp only [hlin, ← form_Qof]
  unfold ampLin at main
  rw [main]
  obtain ⟨q, hq, hd, hi⟩ := integral_form (Qof_symm hs) h.pos
  have i0 := hi 0 0 (by simp)
  set u := -((Umat ι)⁻¹.mulVec (M⁻¹.mulVec b)) with hu
  have hsol : (Qof M).mulVec u = b' := by
    rw [hu, Qof, Matrix.neg_mulVec, Matrix.mulVec_neg, neg_neg, ← Matrix.mulVec_mulVec, ← Matrix.mulVec_mulVec,
      Matrix.mulVec_mulVec _ (Umat ι), Matrix.mul_nonsing_inv _ hU, Matrix.one_mulVec, Matrix.mulVec_mulVec _ M, Matrix.mul_nonsing_inv _ hMu,
      Matrix.one_mulVec]
  have ib := hi b' u hsol
  have hexp : ∑ i, b' i * u i = -(b ⬝ᵥ M⁻¹.mulVec b) := by
    change b' ⬝ᵥ u = _
    rw [hu, hb', dotProduct_neg, Matrix.mulVec_transpose, ← Matrix.dotProduct_mulVec, Matrix.mulVec_mulVec (M⁻¹.mulVec b), Matrix.mul_nonsing_inv _ hU, Matrix.one_mulVec]
  have hg : gaussConst M = ((Real.pi : ℂ) ^ Fintype.card ι)⁻¹ * ∏ i, (2 * Real.pi / q i) ^ (1 / 2 : ℂ) := by
    unfold gaussConst
    rw [integral_cplx]
    have e : ∀ ξ : ι ⊕ ι → ℝ, cform M 0 (cplx ξ) = form (Qof M) 0 ξ := fun ξ => by
      rw [← form_Qof, Matrix.mulVec_zero]
    simp only [e]
    rw [i0]
    simp
  have hWE' : ∀ i j, ∑ l, W i l * E' j l = -(E i ⬝ᵥ M⁻¹.mulVec (E j)) := by
    intro i j
    change W i ⬝ᵥ E' j = _
    have e : E' j = (Umat ι).transpose.mulVec (E j) := (Matrix.mulVec_transpose _ _).symm
    rw [hWE, e, neg_dotProduct, Matrix.dotProduct_mulVec, Matrix.vecMul_vecMul, Matrix.mul_assoc, Matrix.nonsing_inv_mul _ hUT, Matrix.mul_one,
      ← Matrix.dotProduct_mulVec]
  have hWb : ∀ j, ∑ l, W j l * b' l = -(E j ⬝ᵥ M⁻¹.mulVec b) := by
    intro j
    change W j ⬝ᵥ b' = _
    rw [hWE, hb', neg_dotProduct, Matrix.dotProduct_mulVec, Matrix.vecMul_vecMul, Matrix.mul_assoc, Matrix.nonsing_inv_mul _ hUT, Matrix.mul_one,
      ← Matrix.dotProduct_mulVec]
  rw [ib, hexp, hg]
  simp only [hWE', hWb, ← sub_eq_add_neg]
  rw [show (1 / 2 : ℂ) * -(b ⬝ᵥ M⁻¹.mulVec b) = -(1 / 2) * (b ⬝ᵥ M⁻¹.mulVec b) by ring]
  ring

/-- The integrand is integrable. -/
theorem integrable_complex {M : Matrix (ι ⊕ ι) (ι ⊕ ι) ℂ} (hs : ∀ p q, M p q = M q p) (h : NegRe M) (b : ι ⊕ ι → ℂ)
    {D : ℕ} (A : ℕ → ℕ → ℂ) (a : ℕ → ℂ) (E : ℕ → ι ⊕ ι → ℂ) (k : ℕ →₀ ℕ) (hk : Below D k) :
    Integrable fun w : ι → ℂ => amp D A (fun j => a j + ∑ p, E j p * pair w p) 1 k * cexp (cform M b w) := by
  rw [← (cequiv_mp (ι := ι)).symm.integrable_comp_emb (MeasurableEquiv.measurableEmbedding _)]
  have := (ampLin_tame (D := D) (A := A) a (fun j => Matrix.vecMul (E j) (Umat ι)) k hk).integrable (Qof_symm hs) h.pos ((Umat ι).transpose.mulVec b)
  refine this.congr (Filter.Eventually.of_forall fun ξ => ?_)
  simp only [Function.comp]
  rw [cequiv_symm, form_Qof]
  unfold ampLin
  have hlin : ∀ j, ∑ p, E j p * pair (cplx ξ) p = ∑ l, Matrix.vecMul (E j) (Umat ι) l * (ξ l : ℂ) := by
    intro j
    change E j ⬝ᵥ pair (cplx ξ) = Matrix.vecMul (E j) (Umat ι) ⬝ᵥ (fun l => (ξ l : ℂ))
    rw [pair_cplx, Matrix.dotProduct_mulVec]
  simp only [hlin]

/-! ### The branch of the square root -/

/-- The principal square root is the root with positive real part. -/
theorem sqrt_of_re_pos {ρ x : ℂ} (h : ρ ^ 2 = x) (hr : 0 < ρ.re) : x ^ (1 / 2 : ℂ) = ρ := by
  rw [← h, show (1 / 2 : ℂ) = ((2 : ℕ) : ℂ)⁻¹ by norm_num]
  apply Complex.pow_cpow_nat_inv (by norm_num)
  · have := (abs_lt.1 (Complex.abs_arg_lt_pi_div_two_iff.2 (Or.inl hr))).1
    push_cast
    linarith
  · have := (abs_lt.1 (Complex.abs_arg_lt_pi_div_two_iff.2 (Or.inl hr))).2
    push_cast
    linarith

theorem sqrt_sq (x : ℂ) : (x ^ (1 / 2 : ℂ)) ^ 2 = x := by
  rw [← Complex.cpow_nat_mul, show ((2 : ℕ) : ℂ) * (1 / 2) = 1 by norm_num, Complex.cpow_one]

/-- In general the constant is a square root of `(-1)^m / det M`, up to sign the principal one. -/
theorem gaussConst_sign {M : Matrix (ι ⊕ ι) (ι ⊕ ι) ℂ} (hs : ∀ p q, M p q = M q p) (h : NegRe M) :
    ∃ ε : ℂ, (ε = 1 ∨ ε = -1) ∧ ((-1) ^ Fintype.card ι / M.det) ^ (1 / 2 : ℂ) = ε * gaussConst M := by
  have h1 := gaussConst_sq hs h
  have h2 := sqrt_sq ((-1) ^ Fintype.card ι / M.det)
  rw [← h1] at h2 ⊢
  rcases sq_eq_sq_iff_eq_or_eq_neg.1 h2 with e | e
  · exact ⟨1, Or.inl rfl, by rw [one_mul]; exact e⟩
  · exact ⟨-1, Or.inr rfl, by rw [neg_one_mul]; exact e⟩

theorem sqrt_cone {z : ℂ} (h : 0 < z.re) : |(z ^ (1 / 2 : ℂ)).im| < (z ^ (1 / 2 : ℂ)).re := by
  set s := z ^ (1 / 2 : ℂ) with hsdef
  have h2 : s ^ 2 = z := sqrt_sq z
  have hre : 0 ≤ s.re := by
    rw [hsdef, show (1 / 2 : ℂ) = ((2 : ℕ) : ℂ)⁻¹ by norm_num]
    have hz : z ≠ 0 := by intro e; rw [e] at h; simp at h
    rw [← Complex.abs_arg_le_pi_div_two_iff]
    rw [show ((2 : ℕ) : ℂ)⁻¹ = ((1 / 2 : ℝ) : ℂ) by norm_num]
    have hl : (Complex.log z * ((1 / 2 : ℝ) : ℂ)).im = z.arg / 2 := by
      rw [mul_comm, im_ofReal_mul, log_im]; ring
    rw [Complex.cpow_def_of_ne_zero hz, Complex.arg_exp]
    rw [hl]
    have := Complex.neg_pi_lt_arg z
    have := Complex.arg_le_pi z
    have hp := Real.pi_pos
    rw [(toIocMod_eq_self Real.two_pi_pos).2 ⟨by linarith, by linarith⟩, abs_le]
    constructor <;> linarith
  have h3 : z.re = s.re ^ 2 - s.im ^ 2 := by rw [← h2, pow_two, mul_re]; ring
  rw [h3] at h
  exact abs_lt_of_sq_lt_sq (by linarith) hre

/-- For a single pair the principal square root is the right one. -/
theorem gaussConst_one {M : Matrix (ι ⊕ ι) (ι ⊕ ι) ℂ} (hs : ∀ p q, M p q = M q p) (h : NegRe M) (h1 : Fintype.card ι = 1) :
    ((-1) ^ Fintype.card ι / M.det) ^ (1 / 2 : ℂ) = gaussConst M := by
  apply sqrt_of_re_pos (gaussConst_sq hs h)
  obtain ⟨q, hq, hd, hi⟩ := integral_form (Qof_symm hs) h.pos
  have i0 := hi 0 0 (by simp)
  unfold gaussConst
  rw [integral_cplx]
  have e : ∀ ξ : ι ⊕ ι → ℝ, cform M 0 (cplx ξ) = form (Qof M) 0 ξ := fun ξ => by
    rw [← form_Qof, Matrix.mulVec_zero]
  simp only [e]
  rw [i0]
  simp only [Pi.zero_apply, zero_mul, Finset.sum_const_zero, mul_zero, Complex.exp_zero, mul_one]
  have hc : Fintype.card (ι ⊕ ι) = 2 := by rw [Fintype.card_sum, h1]
  have hpair : ∀ {k : ℕ} (q : Fin k → ℂ), k = 2 → (∀ i, 0 < (q i).re) → 0 < (∏ i, (2 * Real.pi / q i) ^ (1 / 2 : ℂ)).re := by
    intro k q hk hq
    subst hk
    rw [Fin.prod_univ_two, mul_re]
    have hpos : ∀ i, 0 < (2 * (Real.pi : ℂ) / q i).re := by
      intro i
      have hqi : 0 < normSq (q i) := normSq_pos.2 (by intro e; have := hq i; rw [e] at this; simp at this)
      rw [div_eq_mul_inv, show (2 * (Real.pi : ℂ)) = ((2 * Real.pi : ℝ) : ℂ) by push_cast; rfl, re_ofReal_mul, inv_re]
      have := hq i
      have := Real.pi_pos
      positivity
    have a := sqrt_cone (hpos 0)
    have b := sqrt_cone (hpos 1)
    set u := (2 * (Real.pi : ℂ) / q 0) ^ (1 / 2 : ℂ)
    set v := (2 * (Real.pi : ℂ) / q 1) ^ (1 / 2 : ℂ)
    have h1 : u.im * v.im ≤ |u.im| * |v.im| := by rw [← abs_mul]; exact le_abs_self _
    have h2 : |u.im| * |v.im| < u.re * v.re := mul_lt_mul'' a b (abs_nonneg _) (abs_nonneg _)
    linarith
  rw [h1, pow_one, ← ofReal_inv, re_ofReal_mul]
  exact mul_pos (inv_pos.2 Real.pi_pos) (hpair q hc hq)

/-- If the exponent is real (tracing out a Hermitian kernel) the constant is positive. -/
theorem gaussConst_pos {M : Matrix (ι ⊕ ι) (ι ⊕ ι) ℂ} (hs : ∀ p q, M p q = M q p) (h : NegRe M)
    (hreal : ∀ p q : ι ⊕ ι, M p.swap q.swap = (starRingEnd ℂ) (M p q)) : ∃ t : ℝ, 0 < t ∧ gaussConst M = t := by
  have hpair : ∀ (w : ι → ℂ) p, pair w p.swap = (starRingEnd ℂ) (pair w p) := by
    intro w p; rcases p with i | i <;> simp [pair]
  have him : ∀ w : ι → ℂ, (starRingEnd ℂ) (cform M 0 w) = cform M 0 w := by
    intro w
    unfold cform
    simp only [Pi.zero_apply, zero_mul, Finset.sum_const_zero, add_zero, map_mul, map_sum]
    have : ∑ p, ∑ q, (starRingEnd ℂ) (M p q) * (starRingEnd ℂ) (pair w p) * (starRingEnd ℂ) (pair w q) = ∑ p, ∑ q, M p q * pair w p * pair w q := by
      rw [← Equiv.sum_comp (Equiv.sumComm ι ι) (fun p => ∑ q, M p q * pair w p * pair w q)]
      refine Finset.sum_congr rfl fun p _ => ?_
      rw [← Equiv.sum_comp (Equiv.sumComm ι ι) (fun q => M (Equiv.sumComm ι ι p) q * pair w (Equiv.sumComm ι ι p) * pair w q)]
      refine Finset.sum_congr rfl fun q _ => ?_
      simp only [Equiv.sumComm_apply]
      rw [hreal, hpair, hpair]
    rw [this, show (1 / 2 : ℂ) = ((1 / 2 : ℝ) : ℂ) by norm_num, conj_ofReal]
  have hval : ∀ w : ι → ℂ, cexp (cform M 0 w) = ((Real.exp (cform M 0 w).re : ℝ) : ℂ) := by
    intro w
    rw [ofReal_exp, Complex.conj_eq_iff_re.1 (him w)]
  have hg : gaussConst M = (((Real.pi ^ Fintype.card ι)⁻¹ * ∫ w : ι → ℂ, Real.exp (cform M 0 w).re : ℝ) : ℂ) := by
    unfold gaussConst
    simp only [hval]
    have : ∫ w : ι → ℂ, ((Real.exp (cform M 0 w).re : ℝ) : ℂ) = ((∫ w : ι → ℂ, Real.exp (cform M 0 w).re : ℝ) : ℂ) := integral_ofReal (𝕜 := ℂ)
    rw [this]
    push_cast
    rfl
  have hne : gaussConst M ≠ 0 := by
    intro e
    have := gaussConst_sq hs h
    rw [e, zero_pow (by norm_num)] at this
    exact div_ne_zero (pow_ne_zero _ (by norm_num)) (det_ne_zero_of_negRe hs h) this.symm
  have hnn : 0 ≤ (Real.pi ^ Fintype.card ι)⁻¹ * ∫ w : ι → ℂ, Real.exp (cform M 0 w).re :=
    mul_nonneg (inv_nonneg.2 (pow_nonneg Real.pi_pos.le _)) (integral_nonneg fun w => (Real.exp_pos _).le)
  refine ⟨_, lt_of_le_of_ne hnn fun e => hne ?_, hg⟩
  rw [hg, ← e, ofReal_zero]

/-- If the exponent is real the principal square root is the right one. -/
theorem gaussConst_real {M : Matrix (ι ⊕ ι) (ι ⊕ ι) ℂ} (hs : ∀ p q, M p q = M q p) (h : NegRe M)
    (hreal : ∀ p q : ι ⊕ ι, M p.swap q.swap = (starRingEnd ℂ) (M p q)) :
    ((-1) ^ Fintype.card ι / M.det) ^ (1 / 2 : ℂ) = gaussConst M := by
  obtain ⟨t, ht, e⟩ := gaussConst_pos hs h hreal
  apply sqrt_of_re_pos (gaussConst_sq hs h)
  rw [e, ofReal_re]
  exact ht

end Verif.Gauss
