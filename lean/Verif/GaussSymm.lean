import Verif.GaussComplex
import Mathlib.MeasureTheory.Measure.Haar.InnerProductSpace
import Mathlib.Topology.Order.IntermediateValue

/-!
# The principal square root for Hermitian symmetric exponents

Density matrices and channels: the exponent is invariant under exchanging bra and ket variables together with complex conjugation.  Then the
Gaussian constant is positive (proved by following the constant along a path on which the modulus of the integrand does not change), and
the principal square root is the right one for any number of pairs.  Specification side only: no model of the code.
-/

namespace Verif.Gauss
open MeasureTheory Complex Verif.Fock

variable {ι : Type*} [Fintype ι] [DecidableEq ι]

/-- Conjugation combined with a permutation of the coordinates preserves the volume. -/
noncomputable def conjPerm (σ : ι ≃ ι) : (ι → ℂ) ≃ᵐ (ι → ℂ) :=
  (MeasurableEquiv.piCongrRight fun _ : ι => conjLIE.toHomeomorph.toMeasurableEquiv).trans (MeasurableEquiv.piCongrLeft (fun _ : ι => ℂ) σ.symm)

omit [DecidableEq ι] in
theorem conjPerm_apply (σ : ι ≃ ι) (w : ι → ℂ) (i : ι) : conjPerm σ w i = (starRingEnd ℂ) (w (σ i)) := by
  have := Equiv.piCongrLeft_apply_apply (P := fun _ : ι => ℂ) σ.symm (fun i => (starRingEnd ℂ) (w i)) (σ i)
  rw [Equiv.symm_apply_apply] at this
  exact this

omit [DecidableEq ι] in
theorem conjPerm_mp (σ : ι ≃ ι) : MeasurePreserving (conjPerm σ) (volume : Measure (ι → ℂ)) volume := by
  unfold conjPerm
  refine MeasurePreserving.trans (μb := volume) ?_ (volume_measurePreserving_piCongrLeft (fun _ : ι => ℂ) σ.symm)
  exact volume_preserving_pi (fun _ : ι => conjLIE.measurePreserving)

omit [DecidableEq ι] in
/-- The quadratic exponent under conjugation and permutation. -/
theorem cform_conjPerm (σ : ι ≃ ι) {M : Matrix (ι ⊕ ι) (ι ⊕ ι) ℂ}
    (hM : ∀ p q, M (Sum.map σ σ p) (Sum.map σ σ q) = (starRingEnd ℂ) (M p q)) (w : ι → ℂ) :
    cform M 0 (conjPerm σ w) = (starRingEnd ℂ) (cform M 0 w) := by
  have hp : ∀ p, pair (conjPerm σ w) p = (starRingEnd ℂ) (pair w (Sum.map σ σ p)) := by
    intro p
    rcases p with i | i <;> simp [pair, conjPerm_apply]
  unfold cform
  simp only [Pi.zero_apply, zero_mul, Finset.sum_const_zero, add_zero, map_mul, map_sum]
  have : ∑ p, ∑ q, (starRingEnd ℂ) (M p q) * (starRingEnd ℂ) (pair w p) * (starRingEnd ℂ) (pair w q) =
      ∑ p, ∑ q, M p q * pair (conjPerm σ w) p * pair (conjPerm σ w) q := by
    rw [← Equiv.sum_comp (Equiv.sumCongr σ σ) (fun p => ∑ q, (starRingEnd ℂ) (M p q) * (starRingEnd ℂ) (pair w p) * (starRingEnd ℂ) (pair w q))]
    refine Finset.sum_congr rfl fun p _ => ?_
    rw [← Equiv.sum_comp (Equiv.sumCongr σ σ)]
    refine Finset.sum_congr rfl fun q _ => ?_
    simp only [Equiv.sumCongr_apply]
    rw [hM, hp, hp, conj_conj]
  rw [this, show (1 / 2 : ℂ) = ((1 / 2 : ℝ) : ℂ) by norm_num, conj_ofReal]

omit [DecidableEq ι] in
/-- The constant of a Hermitian symmetric exponent is real. -/
theorem gaussConst_conj (σ : ι ≃ ι) {M : Matrix (ι ⊕ ι) (ι ⊕ ι) ℂ}
    (hM : ∀ p q, M (Sum.map σ σ p) (Sum.map σ σ q) = (starRingEnd ℂ) (M p q)) :
    (starRingEnd ℂ) (gaussConst M) = gaussConst M := by
  unfold gaussConst
  rw [map_mul, map_inv₀, map_pow, conj_ofReal]
  refine congrArg (HMul.hMul _) ?_
  rw [← integral_conj, ← (conjPerm_mp σ).integral_comp (MeasurableEquiv.measurableEmbedding _) (fun w => cexp (cform M 0 w))]
  congr 1
  funext w
  rw [cform_conjPerm σ hM, ← Complex.exp_conj]

/-- The matrix of the conjugate exponent. -/
noncomputable def cswap (M : Matrix (ι ⊕ ι) (ι ⊕ ι) ℂ) : Matrix (ι ⊕ ι) (ι ⊕ ι) ℂ :=
  Matrix.of fun p q => (starRingEnd ℂ) (M p.swap q.swap)

omit [DecidableEq ι] in
theorem quad_cswap (M : Matrix (ι ⊕ ι) (ι ⊕ ι) ℂ) (w : ι → ℂ) :
    ∑ p, ∑ q, cswap M p q * pair w p * pair w q = (starRingEnd ℂ) (∑ p, ∑ q, M p q * pair w p * pair w q) := by
  have hpair : ∀ (w : ι → ℂ) p, pair w p.swap = (starRingEnd ℂ) (pair w p) := by
    intro w p; rcases p with i | i <;> simp [pair]
  simp only [map_sum, map_mul]
  rw [← Equiv.sum_comp (Equiv.sumComm ι ι)]
  refine Finset.sum_congr rfl fun p _ => ?_
  rw [← Equiv.sum_comp (Equiv.sumComm ι ι)]
  refine Finset.sum_congr rfl fun q _ => ?_
  simp only [Equiv.sumComm_apply, cswap, Matrix.of_apply, Sum.swap_swap]
  rw [hpair, hpair]

/-- The path: the imaginary part of the exponent is multiplied by `t`. -/
noncomputable def path (M : Matrix (ι ⊕ ι) (ι ⊕ ι) ℂ) (t : ℝ) : Matrix (ι ⊕ ι) (ι ⊕ ι) ℂ :=
  Matrix.of fun p q => ((1 + t) / 2 : ℂ) * M p q + ((1 - t) / 2 : ℂ) * cswap M p q

omit [DecidableEq ι] in
theorem quad_path (M : Matrix (ι ⊕ ι) (ι ⊕ ι) ℂ) (t : ℝ) (w : ι → ℂ) :
    ∑ p, ∑ q, path M t p q * pair w p * pair w q =
      ((∑ p, ∑ q, M p q * pair w p * pair w q).re : ℂ) + t * (∑ p, ∑ q, M p q * pair w p * pair w q).im * I := by
  have e : ∀ p q, path M t p q * pair w p * pair w q = ((1 + t) / 2 : ℂ) * (M p q * pair w p * pair w q) +
      ((1 - t) / 2 : ℂ) * (cswap M p q * pair w p * pair w q) := by
    intro p q; simp only [path, Matrix.of_apply]; ring
  simp only [e, Finset.sum_add_distrib, ← Finset.mul_sum]
  rw [quad_cswap]
  generalize ∑ p, ∑ q, M p q * pair w p * pair w q = z
  apply Complex.ext <;> simp <;> ring

omit [DecidableEq ι] in
theorem path_neg {M : Matrix (ι ⊕ ι) (ι ⊕ ι) ℂ} (h : NegRe M) (t : ℝ) : NegRe (path M t) := by
  intro w hw
  rw [quad_path]
  have := h w hw
  simpa using this

omit [DecidableEq ι] [Fintype ι] in
theorem path_symm {M : Matrix (ι ⊕ ι) (ι ⊕ ι) ℂ} (hs : ∀ p q, M p q = M q p) (t : ℝ) (p q) : path M t p q = path M t q p := by
  simp only [path, cswap, Matrix.of_apply]
  rw [hs p q, hs p.swap q.swap]

omit [DecidableEq ι] [Fintype ι] in
theorem path_one (M : Matrix (ι ⊕ ι) (ι ⊕ ι) ℂ) : path M 1 = M := by
  ext p q
  simp [path]

omit [DecidableEq ι] [Fintype ι] in
theorem path_herm (σ : ι ≃ ι) {M : Matrix (ι ⊕ ι) (ι ⊕ ι) ℂ}
    (hM : ∀ p q, M (Sum.map σ σ p) (Sum.map σ σ q) = (starRingEnd ℂ) (M p q)) (t : ℝ) (p q) :
    path M t (Sum.map σ σ p) (Sum.map σ σ q) = (starRingEnd ℂ) (path M t p q) := by
  have hsw : ∀ p : ι ⊕ ι, (Sum.map σ σ p).swap = Sum.map σ σ p.swap := by intro p; rcases p with i | i <;> rfl
  simp only [path, cswap, Matrix.of_apply, hsw, hM, map_add, map_mul, map_div₀, map_sub, map_one, conj_ofReal, conj_conj, map_ofNat]

theorem gaussConst_ne {M : Matrix (ι ⊕ ι) (ι ⊕ ι) ℂ} (hs : ∀ p q, M p q = M q p) (h : NegRe M) : gaussConst M ≠ 0 := by
  intro e
  have := gaussConst_sq hs h
  rw [e, zero_pow (by norm_num)] at this
  exact div_ne_zero (pow_ne_zero _ (by norm_num)) (det_ne_zero_of_negRe hs h) this.symm

theorem integrable_cform {M : Matrix (ι ⊕ ι) (ι ⊕ ι) ℂ} (hs : ∀ p q, M p q = M q p) (h : NegRe M) :
    Integrable fun w : ι → ℂ => cexp (cform M 0 w) := by
  have := integrable_complex hs h 0 (D := 0) (fun _ _ => 0) (fun _ => 0) (fun _ _ => 0) 0 (fun _ _ => rfl)
  simpa [amp_zero] using this

/-- The constant varies continuously along the path. -/
theorem gaussConst_continuous {M : Matrix (ι ⊕ ι) (ι ⊕ ι) ℂ} (hs : ∀ p q, M p q = M q p) (h : NegRe M) :
    Continuous fun t : ℝ => gaussConst (path M t) := by
  unfold gaussConst
  refine continuous_const.mul ?_
  have hform : ∀ (t : ℝ) (w : ι → ℂ), cform (path M t) 0 w =
      1 / 2 * (((∑ p, ∑ q, M p q * pair w p * pair w q).re : ℂ) + t * (∑ p, ∑ q, M p q * pair w p * pair w q).im * I) := by
    intro t w
    unfold cform
    rw [quad_path]
    simp
  have hnorm : ∀ (t : ℝ) (w : ι → ℂ), ‖cexp (cform (path M t) 0 w)‖ = ‖cexp (cform M 0 w)‖ := by
    intro t w
    rw [Complex.norm_exp, Complex.norm_exp, ← path_one M, hform, path_one, hform]
    simp
  refine continuous_of_dominated (bound := fun w => ‖cexp (cform M 0 w)‖) ?_ ?_ (integrable_cform hs h).norm ?_
  · intro t
    exact (integrable_cform (path_symm hs t) (path_neg h t)).aestronglyMeasurable
  · intro t
    exact Filter.Eventually.of_forall fun w => (hnorm t w).le
  · refine Filter.Eventually.of_forall fun w => ?_
    simp only [hform]
    fun_prop

/-- **The constant of a Hermitian symmetric exponent is positive.** -/
theorem gaussConst_pos_of_herm (σ : ι ≃ ι) {M : Matrix (ι ⊕ ι) (ι ⊕ ι) ℂ} (hs : ∀ p q, M p q = M q p) (h : NegRe M)
    (hM : ∀ p q, M (Sum.map σ σ p) (Sum.map σ σ q) = (starRingEnd ℂ) (M p q)) : 0 < (gaussConst M).re := by
  have hc : Continuous fun t : ℝ => (gaussConst (path M t)).re := continuous_re.comp (gaussConst_continuous hs h)
  have h0 : 0 < (gaussConst (path M 0)).re := by
    obtain ⟨s, hs0, e⟩ := gaussConst_pos (path_symm hs 0) (path_neg h 0) (by
      intro p q
      simp only [path, cswap, Matrix.of_apply, Sum.swap_swap, map_add, map_mul, map_div₀, map_sub, map_one, conj_ofReal, conj_conj, map_ofNat]
      simp
      ring)
    rw [e, ofReal_re]
    exact hs0
  have hne : ∀ t : ℝ, (gaussConst (path M t)).re ≠ 0 := by
    intro t e
    have h1 := gaussConst_ne (path_symm hs t) (path_neg h t)
    have h2 := gaussConst_conj σ (path_herm σ hM t)
    rw [Complex.conj_eq_iff_re, e] at h2
    exact h1 (by rw [← h2]; simp)
  by_contra hneg
  have hle : (gaussConst (path M 1)).re ≤ 0 := by rw [path_one]; exact not_lt.1 hneg
  obtain ⟨t, _, ht⟩ := intermediate_value_Icc' (zero_le_one' ℝ) hc.continuousOn ⟨hle, h0.le⟩
  exact hne t ht

/-- For Hermitian symmetric exponents the principal square root is the right one. -/
theorem gaussConst_herm (σ : ι ≃ ι) {M : Matrix (ι ⊕ ι) (ι ⊕ ι) ℂ} (hs : ∀ p q, M p q = M q p) (h : NegRe M)
    (hM : ∀ p q, M (Sum.map σ σ p) (Sum.map σ σ q) = (starRingEnd ℂ) (M p q)) :
    ((-1) ^ Fintype.card ι / M.det) ^ (1 / 2 : ℂ) = gaussConst M :=
  sqrt_of_re_pos (gaussConst_sq hs h) (gaussConst_pos_of_herm σ hs h hM)

end Verif.Gauss
