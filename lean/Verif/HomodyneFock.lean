import Verif.Homodyne
import Mathlib.MeasureTheory.Integral.Pi

/-!
# Homodyne statistics: consequences, pure states and Fock arrays (C85)
-/

namespace Verif.Manifold
open Matrix Verif.Gauss MeasureTheory
open scoped ComplexOrder MatrixOrder

variable {n : Type*} [Fintype n] [DecidableEq n]

theorem normalPdf_bell {κ : Type*} [Fintype κ] [DecidableEq κ] (V : Matrix κ κ ℝ) (m x : κ → ℝ) :
    normalPdf V m x = (Real.sqrt ((2 * Real.pi) ^ Fintype.card κ * V.det))⁻¹ * bell V m x := by
  unfold normalPdf bell
  rfl

/-- **C85 (homodyne)** `quadrature_distribution` of a normalised Gaussian state, for any number of modes and any angle, is the normal density with
mean `cos φ x̄ + sin φ p̄` and the covariance matrix of the rotated quadratures. -/
theorem C85_homodyne {ħ : ℝ} (hħ : 0 < ħ) (φ : ℝ) {cov : Matrix (n ⊕ n) (n ⊕ n) ℝ} (h : cov.PosDef) (μ : n ⊕ n → ℝ) (q : n → ℝ) :
    quadDist ħ φ (dmFromPhaseSpace ħ cov μ 1) q =
      normalPdf (quadU n φ * cov * (quadU n φ)ᵀ) (fun i => Real.cos φ * μ (.inl i) + Real.sin φ * μ (.inr i)) q := by
  unfold quadDist
  rw [quadRep_gauss hħ φ h, one_mul, show (quadU n φ).mulVec μ = _ from funext fun i => quadU_mulVec φ μ i, Complex.norm_real, Real.norm_of_nonneg]
  unfold normalPdf
  positivity

/-- The entries of the covariance matrix of the rotated quadratures. -/
theorem C85_cov (φ : ℝ) (cov : Matrix (n ⊕ n) (n ⊕ n) ℝ) (i j : n) : (quadU n φ * cov * (quadU n φ)ᵀ) i j =
    Real.cos φ ^ 2 * cov (.inl i) (.inl j) + Real.cos φ * Real.sin φ * (cov (.inl i) (.inr j) + cov (.inr i) (.inl j)) +
      Real.sin φ ^ 2 * cov (.inr i) (.inr j) := by
  have e : (quadU n φ * cov * (quadU n φ)ᵀ) i j = ((quadU n φ).mulVec (fun r => (quadU n φ).mulVec (fun s => cov r s) j)) i := by
    rw [Matrix.mul_assoc, Matrix.mul_apply]
    simp only [Matrix.mulVec, dotProduct]
    refine Finset.sum_congr rfl fun r _ => congrArg _ ?_
    rw [Matrix.mul_apply]
    refine Finset.sum_congr rfl fun s _ => mul_comm _ _
  rw [e, quadU_mulVec, quadU_mulVec, quadU_mulVec]
  ring

/-- **C85 (normalised)** The quadrature distribution of a normalised Gaussian state integrates to one. -/
theorem C85_normalised {ħ : ℝ} (hħ : 0 < ħ) (φ : ℝ) {cov : Matrix (n ⊕ n) (n ⊕ n) ℝ} (h : cov.PosDef) (μ : n ⊕ n → ℝ) :
    ∫ q : n → ℝ, quadDist ħ φ (dmFromPhaseSpace ħ cov μ 1) q = 1 := by
  have hG := quadU_posDef h φ
  simp only [C85_homodyne hħ φ h, normalPdf_bell]
  rw [integral_const_mul, bell_integral hG]
  exact inv_mul_cancel₀ (Real.sqrt_pos.2 (mul_pos (by positivity) hG.det_pos)).ne'

/-- **C85 (ket and density matrix)** The quadrature representation of `|ψ⟩⟨ψ|` is the product of the wave functions, for every `ψ`. -/
theorem C85_pure (ħ φ : ℝ) (ψ : (n → ℂ) → ℂ) (q' q : n → ℝ) :
    quadRep ħ φ (fun z w => ψ z * (starRingEnd ℂ) (ψ (star w))) q' q = quadKet ħ φ ψ q * (starRingEnd ℂ) (quadKet ħ φ ψ q') := by
  unfold quadRep quadKet
  simp only [star_star]
  have e : ∀ t : n → ℂ, ((Real.pi : ℂ) ^ Fintype.card n)⁻¹ * (∫ u : n → ℂ, btoq ħ φ q u * (ψ (star u) * (starRingEnd ℂ) (ψ t)) *
      Complex.exp (-∑ i, (‖u i‖ : ℂ) ^ 2)) * btoqAdj ħ φ q' t * Complex.exp (-∑ i, (‖t i‖ : ℂ) ^ 2) =
      (((Real.pi : ℂ) ^ Fintype.card n)⁻¹ * ∫ u : n → ℂ, btoq ħ φ q u * ψ (star u) * Complex.exp (-∑ i, (‖u i‖ : ℂ) ^ 2)) *
        ((starRingEnd ℂ) (ψ t) * btoqAdj ħ φ q' t * Complex.exp (-∑ i, (‖t i‖ : ℂ) ^ 2)) := by
    intro t
    rw [show (fun u : n → ℂ => btoq ħ φ q u * (ψ (star u) * (starRingEnd ℂ) (ψ t)) * Complex.exp (-∑ i, (‖u i‖ : ℂ) ^ 2)) =
      fun u => (btoq ħ φ q u * ψ (star u) * Complex.exp (-∑ i, (‖u i‖ : ℂ) ^ 2)) * (starRingEnd ℂ) (ψ t) from funext fun u => by ring, integral_mul_const]
    ring
  simp only [e]
  rw [integral_const_mul, mul_left_comm]
  refine congrArg (HMul.hMul _) ?_
  rw [map_mul, map_inv₀, map_pow, Complex.conj_ofReal, ← integral_conj, ← integral_star]
  refine congrArg (HMul.hMul _) (integral_congr_ae (.of_forall fun u => ?_))
  simp only [btoqAdj_eq, star_star, map_mul, ← Complex.exp_conj, map_neg, map_sum, map_pow, Complex.conj_ofReal, Pi.star_apply, norm_star]
  ring

/-- **C85 (ket and density matrix)** `quadrature_distribution` of a ket is that of its density matrix. -/
theorem C85_ket_dm (ħ φ : ℝ) (ψ : (n → ℂ) → ℂ) (q : n → ℝ) :
    quadDist ħ φ (fun z w => ψ z * (starRingEnd ℂ) (ψ (star w))) q = quadDistKet ħ φ ψ q := by
  unfold quadDist quadDistKet
  rw [C85_pure, norm_mul, Complex.norm_conj, sq]

/-! ## Fock states -/

/-- The kernel of one mode. -/
noncomputable def kernel1 (ħ φ q : ℝ) (z : ℂ) : ℂ :=
  bqC ħ 1 * Complex.exp (-((q : ℂ) ^ 2) / (2 * ħ) + (Real.sqrt (2 / ħ) : ℝ) * Complex.exp (-(Complex.I * φ)) * (q * z) -
    1 / 2 * Complex.exp (-(Complex.I * φ)) ^ 2 * z ^ 2)

/-- The kernel of several modes is the product of the kernels of the modes. -/
theorem btoq_prod {ħ : ℝ} (hħ : 0 < ħ) (φ : ℝ) (q : n → ℝ) (z : n → ℂ) : btoq ħ φ q z = ∏ i, kernel1 ħ φ (q i) (z i) := by
  rw [btoq_eq]
  unfold kernel1
  rw [Finset.prod_mul_distrib, ← Complex.exp_sum, Finset.prod_const]
  have h1 : bqC ħ (Fintype.card n) = bqC ħ 1 ^ (Finset.univ : Finset n).card := by
    unfold bqC
    rw [div_pow, one_pow, ← Complex.ofReal_pow, ← Real.rpow_natCast, ← Real.rpow_mul (by positivity), Finset.card_univ]
    norm_num
  rw [h1]
  refine congrArg (HMul.hMul _) (congrArg Complex.exp ?_)
  simp only [Finset.sum_add_distrib, Finset.sum_sub_distrib, Finset.sum_neg_distrib, Finset.mul_sum, neg_div, Finset.sum_div]

theorem exp_norm_one (φ : ℝ) : ‖Complex.exp (-(Complex.I * φ))‖ = 1 := by
  rw [show -(Complex.I * (φ : ℂ)) = ((-φ : ℝ) : ℂ) * Complex.I by push_cast; ring, Complex.norm_exp_ofReal_mul_I]

/-- The amplitudes of the kernel. -/
theorem kernel_amp {ħ : ℝ} (hħ : 0 < ħ) (φ q : ℝ) (N : ℕ) :
    bqC ħ 1 * Complex.exp (-((q : ℂ) ^ 2) / (2 * ħ)) * Fock.amp 1 (fun _ _ => -Complex.exp (-(Complex.I * φ)) ^ 2)
      (fun _ => (Real.sqrt (2 / ħ) : ℝ) * Complex.exp (-(Complex.I * φ)) * q) 1 (Fock.toF [N]) =
      Complex.exp (-(Complex.I * φ)) ^ N * (Osc.psi ħ N q : ℂ) := by
  have h := Triples.C56_quadrature (B := []) (β := []) (n := N) (N := N + 1) ħ hħ (fun _ => q) (fun _ => -φ) (Nat.lt_succ_self N)
  unfold Triples.quadratureEigen at h
  rw [Triples.fock1 [] (Nat.lt_succ_self N), Option.some_inj, Fock.amp_smul] at h
  have hA : Fock.amp 1 (Triples.mat [[-Complex.exp (Complex.I * 2 * ((-φ : ℝ) : ℂ))]])
      (Triples.vec [(q : ℂ) * Triples.ph (-φ) * ((Real.sqrt (2 / ħ) : ℝ) : ℂ)]) 1 (Fock.toF [N]) =
      Fock.amp 1 (fun _ _ => -Complex.exp (-(Complex.I * φ)) ^ 2) (fun _ => (Real.sqrt (2 / ħ) : ℝ) * Complex.exp (-(Complex.I * φ)) * q) 1 (Fock.toF [N]) := by
    refine Fock.amp_congr _ (fun i hi j hj => ?_) (fun i hi => ?_) _
    · interval_cases i; interval_cases j
      show -Complex.exp (Complex.I * 2 * ((-φ : ℝ) : ℂ)) = -Complex.exp (-(Complex.I * φ)) ^ 2
      rw [← Complex.exp_nat_mul]
      push_cast
      ring_nf
    · interval_cases i
      show (q : ℂ) * Triples.ph (-φ) * ((Real.sqrt (2 / ħ) : ℝ) : ℂ) = (Real.sqrt (2 / ħ) : ℝ) * Complex.exp (-(Complex.I * φ)) * q
      unfold Triples.ph
      push_cast
      rw [show Complex.I * -(φ : ℂ) = -(Complex.I * φ) by ring]
      ring
  rw [hA] at h
  have hp : Complex.exp (Complex.I * (N * ((-φ : ℝ) : ℂ))) = Complex.exp (-(Complex.I * φ)) ^ N := by
    rw [← Complex.exp_nat_mul]
    push_cast
    ring_nf
  rw [hp] at h
  have h4 : (ħ : ℝ) ^ (1 / 4 : ℝ) ≠ 0 := (Real.rpow_pos_of_pos hħ _).ne'
  have hb : bqC ħ 1 = ((1 / Real.pi ^ (1 / 4 : ℝ) * (1 / ħ ^ (1 / 4 : ℝ)) : ℝ) : ℂ) := by
    unfold bqC
    rw [show (0.25 * ((1 : ℕ) : ℝ)) = 1 / 4 by norm_num, Real.mul_rpow Real.pi_pos.le hħ.le]
    push_cast
    rw [one_div_mul_one_div]
  have he : Complex.exp (-((q : ℂ) ^ 2) / (2 * ħ)) = ((Real.exp (-q ^ 2 / (2 * ħ)) : ℝ) : ℂ) := by push_cast; rfl
  rw [hb, he]
  have h4c : ((ħ ^ (1 / 4 : ℝ) : ℝ) : ℂ) ≠ 0 := by exact_mod_cast h4
  push_cast at h ⊢
  generalize Fock.amp 1 (fun _ _ => -Complex.exp (-(Complex.I * φ)) ^ 2) _ 1 (Fock.toF [N]) = a at h ⊢
  have : 1 / ((Real.pi ^ (1 / 4 : ℝ) : ℝ) : ℂ) * Complex.exp (-(q : ℂ) ^ 2 / (2 * ħ)) * a =
      Complex.exp (-(Complex.I * φ)) ^ N * (((ħ ^ (1 / 4 : ℝ) : ℝ) : ℂ) * (Osc.psi ħ N q : ℂ)) := h
  field_simp
  field_simp at this
  linear_combination this

/-- The matrix of the integral against the kernel. -/
theorem kernel_negRe {E : ℂ} (hE : ‖E‖ = 1) : NegRe (fromBlocks ((-E ^ 2) • (1 : Matrix Unit Unit ℂ)) (-1) (-1) 0) := by
  intro w hw
  rw [overlap_quad]
  have h0 : w () ≠ 0 := fun e => hw (funext fun i => by cases i; exact e)
  have e1 : w ⬝ᵥ ((-E ^ 2) • (1 : Matrix Unit Unit ℂ)).mulVec w = -E ^ 2 * w () ^ 2 := by
    rw [Matrix.smul_mulVec, Matrix.one_mulVec]
    simp [dotProduct]
    ring
  have e2 : w ⬝ᵥ star w = ((‖w ()‖ ^ 2 : ℝ) : ℂ) := by
    simp [dotProduct, Complex.mul_conj, Complex.normSq_eq_norm_sq]
  rw [e1, e2, Matrix.zero_mulVec, dotProduct_zero, add_zero]
  have h1 : (-E ^ 2 * w () ^ 2).re ≤ ‖w ()‖ ^ 2 := by
    refine (Complex.re_le_norm _).trans ?_
    rw [norm_mul, norm_neg, norm_pow, norm_pow, hE, one_pow, one_mul]
  have h2 : 0 < ‖w ()‖ ^ 2 := by positivity
  have h3 : (2 * ((‖w ()‖ ^ 2 : ℝ) : ℂ)).re = 2 * ‖w ()‖ ^ 2 := by
    rw [show (2 : ℂ) * ((‖w ()‖ ^ 2 : ℝ) : ℂ) = ((2 * ‖w ()‖ ^ 2 : ℝ) : ℂ) by push_cast; ring, Complex.ofReal_re]
  rw [Complex.sub_re, h3]
  linarith

/-- The integrand of one mode, as in `integral_complex`. -/
theorem kernel_integrand (ħ φ q : ℝ) (N : ℕ) (u : Unit → ℂ) :
    kernel1 ħ φ q (u ()) * ((starRingEnd ℂ) (u ()) ^ N / (Real.sqrt N.factorial : ℝ)) * Complex.exp (-(‖u ()‖ : ℂ) ^ 2) =
      bqC ħ 1 * Complex.exp (-((q : ℂ) ^ 2) / (2 * ħ)) *
        (Fock.amp 1 (fun _ _ => 0) (fun j => 0 + ∑ p, (fun _ : ℕ => Sum.elim (0 : Unit → ℂ) 1) j p * pair u p) 1 (Fock.toF [N]) *
          Complex.exp (cform (fromBlocks ((-Complex.exp (-(Complex.I * φ)) ^ 2) • (1 : Matrix Unit Unit ℂ)) (-1) (-1) 0)
            (Sum.elim (fun _ => (Real.sqrt (2 / ħ) : ℝ) * Complex.exp (-(Complex.I * φ)) * q) 0) u)) := by
  rw [Fock.amp1_linear rfl]
  unfold cform
  rw [overlap_quad]
  have e1 : u ⬝ᵥ ((-Complex.exp (-(Complex.I * φ)) ^ 2) • (1 : Matrix Unit Unit ℂ)).mulVec u = -Complex.exp (-(Complex.I * φ)) ^ 2 * u () ^ 2 := by
    rw [Matrix.smul_mulVec, Matrix.one_mulVec]
    simp [dotProduct]
    ring
  have e2 : u ⬝ᵥ star u = (‖u ()‖ : ℂ) ^ 2 := by
    simp [dotProduct, Complex.mul_conj, Complex.normSq_eq_norm_sq]
  rw [e1, e2, Matrix.zero_mulVec, dotProduct_zero, add_zero]
  simp only [Fintype.sum_sum_type, Sum.elim_inl, Sum.elim_inr, pair, Finset.univ_unique, Finset.sum_singleton, Pi.zero_apply, Pi.one_apply, zero_mul, zero_add,
    one_mul, add_zero]
  have hsf : ((Real.sqrt N.factorial : ℝ) : ℂ) = Fock.sf N := rfl
  rw [hsf]
  unfold kernel1
  set E := Complex.exp (-(Complex.I * φ))
  have hx : Complex.exp (-((q : ℂ) ^ 2) / (2 * ħ) + (Real.sqrt (2 / ħ) : ℝ) * E * (q * u ()) - 1 / 2 * E ^ 2 * u () ^ 2) * Complex.exp (-(‖u ()‖ : ℂ) ^ 2) =
      Complex.exp (-((q : ℂ) ^ 2) / (2 * ħ)) * Complex.exp (1 / 2 * (-E ^ 2 * u () ^ 2 - 2 * (‖u ()‖ : ℂ) ^ 2) + (Real.sqrt (2 / ħ) : ℝ) * E * q * u ()) := by
    rw [← Complex.exp_add, ← Complex.exp_add]
    refine congrArg Complex.exp ?_
    ring
  have hd : (default : Unit) = () := rfl
  simp only [hd]
  linear_combination (bqC ħ 1 * ((starRingEnd ℂ) (u ()) ^ N / Fock.sf N)) * hx

/-- One mode: the kernel picks out the coefficient of the Fock state. -/
theorem kernel_fock {ħ : ℝ} (hħ : 0 < ħ) (φ q : ℝ) (N : ℕ) :
    (Integrable fun u : ℂ => kernel1 ħ φ q u * ((starRingEnd ℂ) u ^ N / (Real.sqrt N.factorial : ℝ)) * Complex.exp (-(‖u‖ : ℂ) ^ 2)) ∧
    (Real.pi : ℂ)⁻¹ * ∫ u : ℂ, kernel1 ħ φ q u * ((starRingEnd ℂ) u ^ N / (Real.sqrt N.factorial : ℝ)) * Complex.exp (-(‖u‖ : ℂ) ^ 2) =
      Complex.exp (-(Complex.I * φ)) ^ N * (Osc.psi ħ N q : ℂ) := by
  have hE := exp_norm_one φ
  have hN := kernel_negRe hE
  have hPT : ((-Complex.exp (-(Complex.I * φ)) ^ 2) • (1 : Matrix Unit Unit ℂ))ᵀ = (-Complex.exp (-(Complex.I * φ)) ^ 2) • 1 := by
    rw [transpose_smul, transpose_one]
  have hs := overlap_symm hPT (transpose_zero (m := Unit) (n := Unit) (α := ℂ))
  have hW : (1 - (0 : Matrix Unit Unit ℂ) * ((-Complex.exp (-(Complex.I * φ)) ^ 2) • (1 : Matrix Unit Unit ℂ))) * 1 = 1 := by
    rw [Matrix.zero_mul, sub_zero, Matrix.one_mul]
  have hinv := overlap_inv hPT transpose_zero hW
  have hB : Fock.Below 1 (Fock.toF [N]) := fun i hi => by
    rw [Fock.toF_apply]
    exact List.getD_eq_default _ _ (by simpa using hi)
  have mp := volume_preserving_funUnique Unit ℂ
  have key := integral_complex hs hN (Sum.elim (fun _ => (Real.sqrt (2 / ħ) : ℝ) * Complex.exp (-(Complex.I * φ)) * q) 0) (D := 1) (fun _ _ => 0) (fun _ => 0)
    (fun _ => Sum.elim 0 1) (Fock.toF [N]) hB
  have keyI := integrable_complex hs hN (Sum.elim (fun _ => (Real.sqrt (2 / ħ) : ℝ) * Complex.exp (-(Complex.I * φ)) * q) 0) (D := 1) (fun _ _ => 0) (fun _ => 0)
    (fun _ => Sum.elim 0 1) (Fock.toF [N]) hB
  have hf : ∀ u : Unit → ℂ, (MeasurableEquiv.funUnique Unit ℂ) u = u () := fun u => rfl
  constructor
  · rw [← mp.integrable_comp_emb (MeasurableEquiv.measurableEmbedding _)]
    refine (keyI.const_mul (bqC ħ 1 * Complex.exp (-((q : ℂ) ^ 2) / (2 * ħ)))).congr (.of_forall fun u => ?_)
    exact (kernel_integrand ħ φ q N u).symm
  · rw [← mp.integral_comp' (fun u : ℂ => kernel1 ħ φ q u * ((starRingEnd ℂ) u ^ N / (Real.sqrt N.factorial : ℝ)) * Complex.exp (-(‖u‖ : ℂ) ^ 2))]
    simp only [hf, kernel_integrand ħ φ q N]
    rw [integral_const_mul, mul_left_comm]
    have hc : (Real.pi : ℂ)⁻¹ = ((Real.pi : ℂ) ^ Fintype.card Unit)⁻¹ := by simp
    rw [hc, key]
    have hconst : gaussConst (fromBlocks ((-Complex.exp (-(Complex.I * φ)) ^ 2) • (1 : Matrix Unit Unit ℂ)) (-1) (-1) 0) = 1 := by
      rw [← gaussConst_one hs hN (by simp), overlap_det hW, det_one, Complex.one_cpow]
    rw [hconst, hinv, one_mul]
    have z1 : (Sum.elim (fun _ => (Real.sqrt (2 / ħ) : ℝ) * Complex.exp (-(Complex.I * φ)) * q) 0 : Unit ⊕ Unit → ℂ) ⬝ᵥ
        (fromBlocks (-(1 * (0 : Matrix Unit Unit ℂ))) (-1) (-1ᵀ) (-(((-Complex.exp (-(Complex.I * φ)) ^ 2) • (1 : Matrix Unit Unit ℂ)) * 1))).mulVec
          (Sum.elim (fun _ => (Real.sqrt (2 / ħ) : ℝ) * Complex.exp (-(Complex.I * φ)) * q) 0) = 0 := by
      rw [fromBlocks_mulVec, sumElim_dotProduct_sumElim]
      simp
    rw [z1, mul_zero, Complex.exp_zero, one_mul, ← kernel_amp hħ φ q N]
    refine congrArg (HMul.hMul _) (Fock.amp_congr _ (fun i hi j hj => ?_) (fun i hi => ?_) _)
    · rw [fromBlocks_mulVec, sumElim_dotProduct_sumElim]
      simp [dotProduct, Matrix.smul_mulVec]
    · rw [fromBlocks_mulVec, sumElim_dotProduct_sumElim]
      simp [dotProduct, Matrix.neg_mulVec]

/-- **C85 (Fock states)** The wave function of the Fock state `|k₁, …, k_m⟩` (whose Bargmann function is `∏ z_i^{k_i} / √(k_i!)`) at angle `φ` is the
product of the oscillator eigenfunctions with the phases `exp(-i k φ)`. -/
theorem C85_fock {ħ : ℝ} (hħ : 0 < ħ) (φ : ℝ) (k : n → ℕ) (q : n → ℝ) :
    (Integrable fun u : n → ℂ => btoq ħ φ q u * (∏ i, (star u) i ^ k i / (Real.sqrt (k i).factorial : ℝ)) * Complex.exp (-∑ i, (‖u i‖ : ℂ) ^ 2)) ∧
    quadKet ħ φ (fun z => ∏ i, z i ^ k i / (Real.sqrt (k i).factorial : ℝ)) q =
      ∏ i, Complex.exp (-(Complex.I * φ)) ^ k i * (Osc.psi ħ (k i) (q i) : ℂ) := by
  have e : ∀ u : n → ℂ, btoq ħ φ q u * (∏ i, (star u) i ^ k i / (Real.sqrt (k i).factorial : ℝ)) * Complex.exp (-∑ i, (‖u i‖ : ℂ) ^ 2) =
      ∏ i, kernel1 ħ φ (q i) (u i) * ((starRingEnd ℂ) (u i) ^ k i / (Real.sqrt (k i).factorial : ℝ)) * Complex.exp (-(‖u i‖ : ℂ) ^ 2) := by
    intro u
    rw [btoq_prod hħ, ← Finset.sum_neg_distrib, Complex.exp_sum, Finset.prod_mul_distrib, Finset.prod_mul_distrib]
    rfl
  constructor
  · simp only [e]
    exact Integrable.fintype_prod (f := fun i u => kernel1 ħ φ (q i) u * ((starRingEnd ℂ) u ^ k i / (Real.sqrt (k i).factorial : ℝ)) * Complex.exp (-(‖u‖ : ℂ) ^ 2))
      fun i => (kernel_fock hħ φ (q i) (k i)).1
  · unfold quadKet
    simp only [e]
    rw [integral_fintype_prod_volume_eq_prod (f := fun i u => kernel1 ħ φ (q i) u * ((starRingEnd ℂ) u ^ k i / (Real.sqrt (k i).factorial : ℝ)) *
      Complex.exp (-(‖u‖ : ℂ) ^ 2)), ← inv_pow, ← Finset.card_univ, ← Finset.prod_const, ← Finset.prod_mul_distrib]
    exact Finset.prod_congr rfl fun i _ => (kernel_fock hħ φ (q i) (k i)).2

/-- lab/circuit_components.py:602-610 of `quadrature`, the array branch: the basis vector of one dimension, rotated by the angle unless
`math.allclose(phi, 0.0)`, that is unless `|φ| ≤ 1e-9` (math/backend_manager.py:240). -/
noncomputable def arrBasis (ħ φ q : ℝ) (cutoff k : ℕ) : ℂ :=
  if |φ| ≤ 1 / 10 ^ 9 then Osc.oscEntry ħ q cutoff k
  else (((Real.cos (-(k : ℝ) * φ) : ℝ) : ℂ) + Complex.I * ((Real.sin (-(k : ℝ) * φ) : ℝ) : ℂ)) * Osc.oscEntry ħ q cutoff k

/-- lab/circuit_components.py:591-627 of `quadrature` for a ket given by an array: the einsum of the array with the basis vectors, at the points `q` (one per
mode). -/
noncomputable def quadArr (ħ φ : ℝ) (cut : n → ℕ) (f : (n → ℕ) → ℂ) (q : n → ℝ) : ℂ :=
  ∑ k ∈ Fintype.piFinset fun i => Finset.range (cut i), f k * ∏ i, arrBasis ħ φ (q i) (cut i) (k i)

theorem arrBasis_eq {ħ : ℝ} (hħ : 0 < ħ) {φ : ℝ} (hφ : φ = 0 ∨ 1 / 10 ^ 9 < |φ|) (q : ℝ) {c k : ℕ} (hk : k < c) :
    arrBasis ħ φ q c k = Complex.exp (-(Complex.I * φ)) ^ k * (Osc.psi ħ k q : ℂ) := by
  have hp : Complex.exp (-(Complex.I * φ)) ^ k = ((Real.cos (-(k : ℝ) * φ) : ℝ) : ℂ) + Complex.I * ((Real.sin (-(k : ℝ) * φ) : ℝ) : ℂ) := by
    rw [← Complex.exp_nat_mul, show (k : ℂ) * -(Complex.I * φ) = ((-(k : ℝ) * φ : ℝ) : ℂ) * Complex.I by push_cast; ring, Complex.exp_mul_I]
    push_cast
    ring
  unfold arrBasis
  rw [Osc.C51_formula ħ q hħ c k hk]
  rcases hφ with h | h
  · subst h
    rw [if_pos (by simp)]
    simp
  · rw [if_neg (not_le.2 h), hp]

/-- **C85 (arrays)** The two branches of `quadrature` agree: the array branch on a truncated Fock array gives what the integral with the kernel gives on the
Bargmann function of the array. -/
theorem C85_array {ħ : ℝ} (hħ : 0 < ħ) {φ : ℝ} (hφ : φ = 0 ∨ 1 / 10 ^ 9 < |φ|) (cut : n → ℕ) (f : (n → ℕ) → ℂ) (q : n → ℝ) :
    quadKet ħ φ (fun z => ∑ k ∈ Fintype.piFinset fun i => Finset.range (cut i), f k * ∏ i, z i ^ k i / (Real.sqrt (k i).factorial : ℝ)) q =
      quadArr ħ φ cut f q := by
  unfold quadKet quadArr
  have e : ∀ u : n → ℂ, btoq ħ φ q u * (∑ k ∈ Fintype.piFinset fun i => Finset.range (cut i), f k * ∏ i, (star u) i ^ k i / (Real.sqrt (k i).factorial : ℝ)) *
      Complex.exp (-∑ i, (‖u i‖ : ℂ) ^ 2) = ∑ k ∈ Fintype.piFinset fun i => Finset.range (cut i),
        f k * (btoq ħ φ q u * (∏ i, (star u) i ^ k i / (Real.sqrt (k i).factorial : ℝ)) * Complex.exp (-∑ i, (‖u i‖ : ℂ) ^ 2)) := by
    intro u
    rw [Finset.mul_sum, Finset.sum_mul]
    refine Finset.sum_congr rfl fun k _ => ?_
    ring
  simp only [e]
  rw [integral_finset_sum _ fun k _ => (C85_fock hħ φ k q).1.const_mul _, Finset.mul_sum]
  refine Finset.sum_congr rfl fun k hk => ?_
  rw [integral_const_mul, mul_left_comm]
  refine congrArg (HMul.hMul _) ?_
  have := (C85_fock hħ φ k q).2
  unfold quadKet at this
  rw [this]
  refine Finset.prod_congr rfl fun i _ => (arrBasis_eq hħ hφ _ ?_).symm
  exact Finset.mem_range.1 (Fintype.mem_piFinset.1 hk i)

/-- Below the tolerance the array branch ignores the angle: there the two branches differ (by the phases `exp(-ikφ)`). -/
theorem C85_array_tolerance {ħ : ℝ} {φ : ℝ} (h : |φ| ≤ 1 / 10 ^ 9) (cut : n → ℕ) (f : (n → ℕ) → ℂ) (q : n → ℝ) :
    quadArr ħ φ cut f q = quadArr ħ 0 cut f q := by
  unfold quadArr
  refine Finset.sum_congr rfl fun k _ => congrArg _ (Finset.prod_congr rfl fun i _ => ?_)
  unfold arrBasis
  rw [if_pos h, if_pos (by simp)]

/-- **C85 (normalised, arrays)** The quadrature distribution of a truncated Fock array, for any number of modes and any angle, integrates to the squared norm of the
array. -/
theorem C85_array_normalised {ħ : ℝ} (hħ : 0 < ħ) (φ : ℝ) (cut : n → ℕ) (f : (n → ℕ) → ℂ) :
    ∫ q : n → ℝ, ‖quadArr ħ φ cut f q‖ ^ 2 = ∑ k ∈ Fintype.piFinset fun i => Finset.range (cut i), ‖f k‖ ^ 2 := by
  set K := Fintype.piFinset fun i => Finset.range (cut i) with hK
  -- phases
  obtain ⟨E, hE, hb⟩ : ∃ E : ℂ, ‖E‖ = 1 ∧ ∀ (q : ℝ) (c k : ℕ), k < c → arrBasis ħ φ q c k = E ^ k * (Osc.psi ħ k q : ℂ) := by
    by_cases h : |φ| ≤ 1 / 10 ^ 9
    · refine ⟨1, norm_one, fun q c k hk => ?_⟩
      have e : arrBasis ħ φ q c k = arrBasis ħ 0 q c k := by
        unfold arrBasis; rw [if_pos h, if_pos (by simp)]
      rw [e, arrBasis_eq hħ (.inl rfl) q hk]
      simp
    · exact ⟨_, exp_norm_one φ, fun q c k hk => arrBasis_eq hħ (.inr (not_le.1 h)) q hk⟩
  set g : (n → ℕ) → ℂ := fun k => f k * ∏ i, E ^ k i with hg
  have hgn : ∀ k, ‖g k‖ = ‖f k‖ := fun k => by
    rw [hg]
    simp only [norm_mul, norm_prod, norm_pow, hE, one_pow, Finset.prod_const_one, mul_one]
  have hq : ∀ q, quadArr ħ φ cut f q = ∑ k ∈ K, g k * ((∏ i, Osc.psi ħ (k i) (q i) : ℝ) : ℂ) := by
    intro q
    unfold quadArr
    refine Finset.sum_congr rfl fun k hk => ?_
    rw [hg]
    dsimp only
    rw [mul_assoc]
    refine congrArg (HMul.hMul _) ?_
    rw [Complex.ofReal_prod, ← Finset.prod_mul_distrib]
    exact Finset.prod_congr rfl fun i _ => hb _ _ _ (Finset.mem_range.1 (Fintype.mem_piFinset.1 hk i))
  have hsq : ∀ q, ‖quadArr ħ φ cut f q‖ ^ 2 = ∑ k ∈ K, ∑ l ∈ K, ((starRingEnd ℂ) (g k) * g l).re * ∏ i, Osc.psi ħ (k i) (q i) * Osc.psi ħ (l i) (q i) := by
    intro q
    rw [hq, ← Complex.normSq_eq_norm_sq, show ∀ z : ℂ, Complex.normSq z = ((starRingEnd ℂ) z * z).re from fun z => by
      rw [mul_comm, Complex.mul_conj, Complex.ofReal_re], map_sum, Finset.sum_mul_sum, Complex.re_sum]
    refine Finset.sum_congr rfl fun k _ => ?_
    rw [Complex.re_sum]
    refine Finset.sum_congr rfl fun l _ => ?_
    rw [map_mul, Complex.conj_ofReal, mul_mul_mul_comm, ← Complex.ofReal_mul, Complex.re_mul_ofReal, Finset.prod_mul_distrib]
  have hI : ∀ k l : n → ℕ, Integrable (fun q : n → ℝ => ∏ i, Osc.psi ħ (k i) (q i) * Osc.psi ħ (l i) (q i)) ∧
      ∫ q : n → ℝ, ∏ i, Osc.psi ħ (k i) (q i) * Osc.psi ħ (l i) (q i) = if k = l then 1 else 0 := by
    intro k l
    constructor
    · exact Integrable.fintype_prod (f := fun i q => Osc.psi ħ (k i) q * Osc.psi ħ (l i) q) fun i => (Osc.psi_integrable ħ hħ (k i) (l i)).1
    · rw [integral_fintype_prod_volume_eq_prod (f := fun i q => Osc.psi ħ (k i) q * Osc.psi ħ (l i) q)]
      simp only [(Osc.psi_integrable ħ hħ _ _).2]
      by_cases h : k = l
      · subst h; simp
      · obtain ⟨i, hi⟩ := Function.ne_iff.1 h
        rw [if_neg h]
        exact Finset.prod_eq_zero (Finset.mem_univ i) (if_neg hi)
  simp only [hsq]
  rw [integral_finset_sum _ fun k _ => integrable_finset_sum _ fun l _ => (hI k l).1.const_mul _]
  refine Finset.sum_congr rfl fun k hk => ?_
  rw [integral_finset_sum _ fun l _ => (hI k l).1.const_mul _, Finset.sum_eq_single k]
  · rw [integral_const_mul, (hI k k).2, if_pos rfl, mul_one, mul_comm, Complex.mul_conj, Complex.ofReal_re, Complex.normSq_eq_norm_sq, hgn]
  · intro l _ hne
    rw [integral_const_mul, (hI k l).2, if_neg (Ne.symm hne), mul_zero]
  · intro h
    exact absurd hk h

/-! ## Relation with `QuadratureEigenstate` -/

/-- **C85 (eigenstate)** The kernel is `ħ^{-1/4}` times the conjugate of the amplitudes of `QuadratureEigenstate(x, φ)`: the `n`-th amplitude of the eigenstate
(C56) is `ħ^{1/4}` times the conjugate of the wave function of `|n⟩` at `(x, φ)`.  So `psi >> QuadratureEigenstate(x).dual` differs from
`(psi >> BtoQ)(x)` by the factor `ħ^{1/4}` unless `ħ = 1`, contrary to the docstring of `BtoQ`. -/
theorem C85_eigenstate {ħ : ℝ} (hħ : 0 < ħ) (x φ : ℝ) {k N : ℕ} (hk : k < N) :
    (Triples.quadratureEigen ħ [] (fun _ => x) (fun _ => φ)).fockArray [N] [] [k] =
      some (((ħ ^ (1 / 4 : ℝ) : ℝ) : ℂ) * (starRingEnd ℂ) (quadKet ħ φ (fun z : Unit → ℂ => z () ^ k / (Real.sqrt k.factorial : ℝ)) fun _ => x)) := by
  have h := (C85_fock hħ φ (fun _ : Unit => k) (fun _ => x)).2
  have e : (fun z : Unit → ℂ => ∏ i, z i ^ (fun _ : Unit => k) i / (Real.sqrt ((fun _ : Unit => k) i).factorial : ℝ)) =
      fun z : Unit → ℂ => z () ^ k / (Real.sqrt k.factorial : ℝ) := by funext z; simp
  rw [e] at h
  rw [h, Triples.C56_quadrature (B := []) (β := []) ħ hħ (fun _ => x) (fun _ => φ) hk]
  refine congrArg some ?_
  simp only [Finset.univ_unique, Finset.prod_singleton, map_mul, Complex.conj_ofReal, map_pow, ← Complex.exp_conj, map_neg, Complex.conj_I, ← Complex.exp_nat_mul]
  push_cast
  rw [Complex.conj_natCast, show (k : ℂ) * -(-Complex.I * φ) = Complex.I * (k * φ) by ring]
  ring

/-- The two differ already for the vacuum when `ħ = 2`. -/
theorem C85_eigenstate_disagrees : (Triples.quadratureEigen 2 [] (fun _ => 0) (fun _ => 0)).fockArray [1] [] [0] ≠
    some ((starRingEnd ℂ) (quadKet 2 0 (fun z : Unit → ℂ => z () ^ 0 / (Real.sqrt (Nat.factorial 0) : ℝ)) fun _ => 0)) := by
  rw [C85_eigenstate (by norm_num) 0 0 (by norm_num), Ne, Option.some_inj]
  have h := (C85_fock (ħ := 2) (by norm_num) 0 (fun _ : Unit => 0) (fun _ => 0)).2
  have e : (fun z : Unit → ℂ => ∏ i, z i ^ (fun _ : Unit => 0) i / (Real.sqrt ((fun _ : Unit => 0) i).factorial : ℝ)) =
      fun z : Unit → ℂ => z () ^ 0 / (Real.sqrt (Nat.factorial 0) : ℝ) := by funext z; simp
  rw [e] at h
  rw [h]
  simp only [Finset.univ_unique, Finset.prod_singleton, pow_zero, one_mul, Complex.conj_ofReal]
  intro hc
  have hp : Osc.psi 2 0 0 ≠ 0 := by
    unfold Osc.psi
    simp [Osc.H]
    positivity
  have h2 : (2 : ℝ) ^ (1 / 4 : ℝ) * Osc.psi 2 0 0 = Osc.psi 2 0 0 := by exact_mod_cast hc
  have h3 : (2 : ℝ) ^ (1 / 4 : ℝ) = 1 := by
    field_simp at h2
    exact h2
  exact (Real.one_lt_rpow (by norm_num) (by norm_num : (0 : ℝ) < 1 / 4)).ne' h3

/-- A displaced squeezed mode at angle zero: the position is normally distributed around `√2` with variance `1/4`. -/
example (q : Unit → ℝ) : quadDist 1 0 (dmFromPhaseSpace 1 (Matrix.diagonal fun r : Unit ⊕ Unit => Sum.elim (fun _ => (1 / 4 : ℝ)) (fun _ => 1) r)
    (Sum.elim (fun _ => Real.sqrt 2) 0) 1) q = normalPdf (Matrix.of fun _ _ => 1 / 4) (fun _ => Real.sqrt 2) q := by
  rw [C85_homodyne one_pos 0 (by rw [Matrix.posDef_diagonal_iff]; rintro (i | i) <;> simp)]
  refine congrArg₂ (fun V m => normalPdf V m q) ?_ ?_
  · ext i j
    rw [C85_cov]
    simp
  · funext i
    simp

end Verif.Manifold
