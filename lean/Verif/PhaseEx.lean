import Verif.PhaseUncert

/-!
# Examples for the phase-space conversion (C65, C66)
-/

namespace Verif.Manifold
open Matrix Verif.Gauss MeasureTheory
open scoped ComplexOrder MatrixOrder

variable {n : Type*} [Fintype n] [DecidableEq n]

/-! ## Vacuum and coherent states -/

theorem scalar_posDef {ħ t : ℝ} (hħ : 0 < ħ) (ht : -(ħ / 2) < t) : (t • (1 : Matrix (n ⊕ n) (n ⊕ n) ℝ) + (ħ / 2) • 1).PosDef := by
  rw [← add_smul]
  exact PosDef.one.smul (by linarith)

theorem vac_vacuum {ħ : ℝ} (hħ : 0 < ħ) : vac ħ ((ħ / 2) • (1 : Matrix (n ⊕ n) (n ⊕ n) ℝ)) = 1 := by
  unfold vac
  rw [← add_smul, smul_smul, show ħ⁻¹ * (ħ / 2 + ħ / 2) = 1 by field_simp; norm_num, one_smul]

theorem pure_one : (ħ : ℝ) → (ħ / 2) • (1 : Matrix (n ⊕ n) (n ⊕ n) ℝ) = (ħ / 2) • (1 * 1ᵀ) := fun ħ => by simp

/-- With the vacuum covariance `ħ/2` the state is the coherent state with amplitude `(x + ip)/√(2ħ)`: the documented vacuum and its
displacements. -/
theorem C65_coherent {ħ : ℝ} (hħ : 0 < ħ) (α : n → ℂ) (coeff : ℂ) (z w : n → ℂ) :
    dmFromPhaseSpace ħ ((ħ / 2) • 1) (point ħ α) coeff z w =
      coeff * Complex.exp (-∑ i, (‖α i‖ : ℂ) ^ 2) * Complex.exp (∑ i, α i * z i + ∑ i, (starRingEnd ℂ) (α i) * w i) := by
  have hp : ((ħ / 2) • (1 : Matrix (n ⊕ n) (n ⊕ n) ℝ) + (ħ / 2) • 1).PosDef := scalar_posDef hħ (by linarith)
  have h2 : Real.sqrt 2 * Real.sqrt 2 = 2 := Real.mul_self_sqrt (by norm_num)
  have hm : ∀ r, mean ħ (point ħ α) r = Real.sqrt 2 * Sum.elim (fun i => (α i).re) (fun i => (α i).im) r := by
    intro r
    have : 0 < Real.sqrt ħ := Real.sqrt_pos.2 hħ
    unfold mean point
    rw [Real.sqrt_mul (by norm_num : (0 : ℝ) ≤ 2)]
    field_simp
  have hQ : (husimiQ ħ ((ħ / 2) • (1 : Matrix (n ⊕ n) (n ⊕ n) ℝ)))⁻¹ = 1 := by
    rw [(husimiQ_inv hħ hp).1, vac_vacuum hħ, inv_one, toC_one, Matrix.mul_one, rotmat_mul]
  have hA : rhoA ħ ((ħ / 2) • (1 : Matrix (n ⊕ n) (n ⊕ n) ℝ)) = 0 := by
    rw [rhoA_eq hħ hp, hQ, sub_self, Matrix.mul_zero]
  have hB : rhoB ħ ((ħ / 2) • (1 : Matrix (n ⊕ n) (n ⊕ n) ℝ)) (point ħ α) = Sum.elim (star α) α := by
    rw [rhoB_eq hħ hp, vac_vacuum hħ, inv_one, cj_rot_mulVec]
    have hs : ((Real.sqrt 2 : ℝ) : ℂ) ≠ 0 := by exact_mod_cast (Real.sqrt_pos.2 (by norm_num : (0 : ℝ) < 2)).ne'
    funext r
    rcases r with i | i
    · simp only [Sum.elim_inl, Matrix.one_mulVec, hm, Sum.elim_inr, Pi.star_apply, Complex.ofReal_mul]
      rw [show ((Real.sqrt 2 : ℝ) : ℂ) * (α i).re - Complex.I * (((Real.sqrt 2 : ℝ) : ℂ) * (α i).im) =
        ((Real.sqrt 2 : ℝ) : ℂ) * ((α i).re - Complex.I * (α i).im) by ring, mul_div_cancel_left₀ _ hs]
      apply Complex.ext <;> simp
    · simp only [Sum.elim_inl, Matrix.one_mulVec, hm, Sum.elim_inr, Complex.ofReal_mul]
      rw [show ((Real.sqrt 2 : ℝ) : ℂ) * (α i).re + Complex.I * (((Real.sqrt 2 : ℝ) : ℂ) * (α i).im) =
        ((Real.sqrt 2 : ℝ) : ℂ) * ((α i).re + Complex.I * (α i).im) by ring, mul_div_cancel_left₀ _ hs]
      apply Complex.ext <;> simp
  have hC : rhoC ħ ((ħ / 2) • (1 : Matrix (n ⊕ n) (n ⊕ n) ℝ)) (point ħ α) = Complex.exp (-∑ i, (‖α i‖ : ℂ) ^ 2) := by
    rw [rhoC_eq hħ hp, vac_vacuum hħ, inv_one, Matrix.one_mulVec, det_one, Real.sqrt_one, inv_one, one_mul, Complex.ofReal_exp]
    refine congrArg Complex.exp ?_
    have : mean ħ (point ħ α) ⬝ᵥ mean ħ (point ħ α) = 2 * ∑ i, ‖α i‖ ^ 2 := by
      simp only [dotProduct, Fintype.sum_sum_type, hm, Sum.elim_inl, Sum.elim_inr]
      rw [← Finset.sum_add_distrib, Finset.mul_sum]
      refine Finset.sum_congr rfl fun i _ => ?_
      rw [← Complex.normSq_eq_norm_sq, Complex.normSq_apply]
      linear_combination ((α i).re * (α i).re + (α i).im * (α i).im) * h2
    rw [this]
    push_cast
    ring
  unfold dmFromPhaseSpace
  rw [hA, hB, hC, Matrix.zero_mulVec, dotProduct_zero, mul_zero, zero_add, sumElim_dotProduct_sumElim, mul_assoc, add_comm]
  rfl

/-- The vacuum: `DM.from_phase_space(modes, (I ħ/2, 0, 1))` has the Bargmann function `1`. -/
theorem C65_vacuum {ħ : ℝ} (hħ : 0 < ħ) (z w : n → ℂ) : dmFromPhaseSpace ħ ((ħ / 2) • 1) 0 1 z w = 1 := by
  have := C65_coherent hħ (0 : n → ℂ) 1 z w
  rw [show point ħ (0 : n → ℂ) = 0 by funext r; rcases r with i | i <;> simp [point]] at this
  simpa using this

/-! ## Thermal states -/

theorem rot_proj : (1 : Matrix (n ⊕ n) (n ⊕ n) ℂ) + Complex.I • toC (symForm n) = (rotmat n)ᴴ * fromBlocks 2 0 0 0 * rotmat n := by
  rw [← rot_diag]
  conv_lhs => rw [← rotmat_mul' (n := n)]
  have : (fromBlocks 2 0 0 0 : Matrix (n ⊕ n) (n ⊕ n) ℂ) = 1 + fromBlocks 1 0 0 (-1) := by
    rw [← fromBlocks_one, fromBlocks_add]; norm_num
  rw [this, Matrix.mul_add, Matrix.add_mul, Matrix.mul_one]

theorem vacuum_uncertainty : ((1 : Matrix (n ⊕ n) (n ⊕ n) ℂ) + Complex.I • toC (symForm n)).PosSemidef := by
  rw [rot_proj]
  refine PosSemidef.conjTranspose_mul_mul_same ?_ _
  have : (fromBlocks 2 0 0 0 : Matrix (n ⊕ n) (n ⊕ n) ℂ) = diagonal (Sum.elim (fun _ => 2) (fun _ => 0)) := by
    ext i j
    rcases i with i | i <;> rcases j with j | j <;> by_cases h : i = j <;> simp [h, Matrix.ofNat_apply]
  rw [this]
  refine PosSemidef.diagonal fun r => ?_
  rcases r with i | i <;> simp

/-- The covariance matrix `t·1` is a physical state iff `t ≥ ħ/2`; the vacuum has the smallest variance. -/
theorem C66_thermal [Nonempty n] {ħ t : ℝ} (hħ : 0 < ħ) (ht : -(ħ / 2) < t) (μ : n ⊕ n → ℝ) :
    OpPos (dmFromPhaseSpace ħ (t • 1) μ 1) ↔ ħ / 2 ≤ t := by
  have := C66_uncertainty hħ (scalar_posDef hħ ht) μ one_pos
  rw [Complex.ofReal_one] at this
  rw [this, toC_smul, toC_one]
  constructor
  · intro h
    obtain ⟨i⟩ := ‹Nonempty n›
    have h1 := h.dotProduct_mulVec_nonneg (Sum.elim (Pi.single i 1) (Pi.single i Complex.I))
    have e : star (Sum.elim (Pi.single i 1) (Pi.single i Complex.I) : n ⊕ n → ℂ) ⬝ᵥ
        ((t : ℂ) • (1 : Matrix (n ⊕ n) (n ⊕ n) ℂ) + (Complex.I * (ħ / 2)) • toC (symForm n)).mulVec
          (Sum.elim (Pi.single i 1) (Pi.single i Complex.I)) = ((2 * t - ħ : ℝ) : ℂ) := by
      rw [Matrix.add_mulVec, Matrix.smul_mulVec, Matrix.one_mulVec, Matrix.smul_mulVec,
        show toC (symForm n) = fromBlocks 0 1 (-1) 0 by
          unfold symForm; ext a b
          rcases a with a | a <;> rcases b with b | b <;> by_cases h : a = b <;> simp [toC, h],
        fromBlocks_mulVec, Sum.elim_comp_inl, Sum.elim_comp_inr]
      have hst : star (Sum.elim (Pi.single i 1) (Pi.single i Complex.I) : n ⊕ n → ℂ) = Sum.elim (Pi.single i 1) (Pi.single i (-Complex.I)) := by
        funext r
        rcases r with j | j <;> by_cases hj : j = i
        · subst hj; simp
        · simp [hj]
        · subst hj; simp
        · simp [hj]
      rw [hst, dotProduct_add, dotProduct_smul, dotProduct_smul, sumElim_dotProduct_sumElim, sumElim_dotProduct_sumElim]
      simp [Matrix.neg_mulVec]
      ring_nf
      simp
      ring
    rw [e] at h1
    have h2 : (0 : ℝ) ≤ 2 * t - ħ := by exact_mod_cast h1
    linarith
  · intro h
    have e : (t : ℂ) • (1 : Matrix (n ⊕ n) (n ⊕ n) ℂ) + (Complex.I * (ħ / 2)) • toC (symForm n) =
        ((t - ħ / 2 : ℝ) : ℂ) • 1 + ((ħ / 2 : ℝ) : ℂ) • (1 + Complex.I • toC (symForm n)) := by
      rw [smul_add, smul_smul, ← add_assoc, ← add_smul, mul_comm Complex.I]
      push_cast
      ring_nf
    rw [e]
    refine (PosSemidef.one.smul ?_).add (vacuum_uncertainty.smul ?_)
    · exact_mod_cast sub_nonneg.2 h
    · exact_mod_cast (half_pos hħ).le

/-- Pure states are positive, and so obey the uncertainty relation. -/
theorem C66_pure_uncertainty {S : Matrix (n ⊕ n) (n ⊕ n) ℝ} (hS : Symplectic S) {ħ : ℝ} (hħ : 0 < ħ) :
    (toC ((ħ / 2) • (S * Sᵀ)) + (Complex.I * (ħ / 2)) • toC (symForm n)).PosSemidef := by
  have := C66_uncertainty hħ (pure_posDef S hħ) 0 one_pos
  rw [← this]
  intro k c p
  have e : ∑ i, ∑ j, (starRingEnd ℂ) (c i) * c j * dmFromPhaseSpace ħ ((ħ / 2) • (S * Sᵀ)) 0 (1 : ℝ) (star (p i)) (p j) =
      (∑ i, (starRingEnd ℂ) (c i) * ketFromPhaseSpace ħ ((ħ / 2) • (S * Sᵀ)) 0 1 (star (p i))) *
        (starRingEnd ℂ) (∑ i, (starRingEnd ℂ) (c i) * ketFromPhaseSpace ħ ((ħ / 2) • (S * Sᵀ)) 0 1 (star (p i))) := by
    rw [map_sum, Finset.sum_mul_sum]
    refine Finset.sum_congr rfl fun i _ => Finset.sum_congr rfl fun j _ => ?_
    have := C66_projector hS hħ 0 1 (star (p i)) (p j)
    rw [map_one, mul_one] at this
    rw [Complex.ofReal_one, this]
    simp only [map_mul, Complex.conj_conj]
    ring
  rw [e, Complex.mul_conj]
  exact_mod_cast Complex.normSq_nonneg _

/-! ## `is_positive` does not look at the linear part -/

theorem opTr_one : opTr (fun _ _ : n → ℂ => 1) = 1 := by
  have := C65_trace (n := n) one_pos (cov := (1 / 2 : ℝ) • 1) (scalar_posDef one_pos (by norm_num)) 0 1
  rwa [show dmFromPhaseSpace (n := n) 1 ((1 / 2 : ℝ) • 1) 0 1 = fun _ _ => 1 from funext fun z => funext fun w => C65_vacuum one_pos z w] at this

theorem shrinks_zero : Shrinks (0 : Matrix n n ℂ) := by
  intro w hw
  simp only [Matrix.zero_mulVec, Pi.zero_apply, norm_zero]
  obtain ⟨i, hi⟩ : ∃ i, w i ≠ 0 := by by_contra h; push Not at h; exact hw (funext h)
  have : 0 < ‖w i‖ ^ 2 := by positivity
  have h2 : ‖w i‖ ^ 2 ≤ ∑ i, ‖w i‖ ^ 2 := Finset.single_le_sum (f := fun i => ‖w i‖ ^ 2) (fun _ _ => by positivity) (Finset.mem_univ i)
  simp
  linarith

/-- The trace of an exponential of a linear form. -/
theorem opTr_linear (x y : n → ℂ) (c : ℂ) : opTr (fun z w : n → ℂ => c * Complex.exp (x ⬝ᵥ z + y ⬝ᵥ w)) = c * Complex.exp (x ⬝ᵥ y) := by
  have hg := fun x y : n → ℂ => gauss_overlap (P := 0) (Q := 0) (W := 1) (by simp) (by simp) shrinks_zero shrinks_zero (by simp) x y
  have h1 := opTr_one (n := n)
  have h0 := hg 0 0
  simp only [Matrix.zero_mulVec, dotProduct_zero, mul_zero, zero_dotProduct, add_zero, Complex.exp_zero, one_mul, mul_one] at h0
  unfold opTr at h1 ⊢
  simp only [one_mul] at h1
  rw [h1] at h0
  have hc := hg x y
  rw [← h0] at hc
  simp only [Matrix.zero_mulVec, dotProduct_zero, mul_zero, zero_add, Matrix.one_mulVec, Matrix.mul_zero, Matrix.zero_mul, add_zero, one_mul] at hc
  rw [← hc, mul_left_comm]
  refine congrArg (HMul.hMul _) ?_
  rw [← MeasureTheory.integral_const_mul]
  refine integral_congr_ae (Filter.Eventually.of_forall fun u => ?_)
  dsimp only
  rw [Complex.exp_add]
  ring

/-- **C66 (blind spot)** `DM.is_positive` and the trace condition of `DM.is_physical` do not look at the linear part: the triple `A = 0`,
`b = (1, -1)`, `c = e` on one mode has trace one and passes the positivity test at every tolerance, but the operator is not even Hermitian
and hence not positive. -/
theorem C66_blind :
    (∀ atol : ℝ, 0 ≤ atol → isPositive atol (0 : Matrix (Unit ⊕ Unit) (Unit ⊕ Unit) ℂ)) ∧
    opTr (dmFun (0 : Matrix (Unit ⊕ Unit) (Unit ⊕ Unit) ℂ) (Sum.elim 1 (-1)) (Complex.exp 1)) = 1 ∧
    ¬ OpPos (dmFun (0 : Matrix (Unit ⊕ Unit) (Unit ⊕ Unit) ℂ) (Sum.elim 1 (-1)) (Complex.exp 1)) := by
  refine ⟨fun atol h0 => ?_, ?_, ?_⟩
  · have e : (0 : Matrix (Unit ⊕ Unit) (Unit ⊕ Unit) ℂ).toBlocks₁₂ = 0 := rfl
    rw [isPositive_iff (by rw [e]; exact conjTranspose_zero) h0, e, zero_add]
    exact PosSemidef.one.smul (by exact_mod_cast h0)
  · have e : dmFun (0 : Matrix (Unit ⊕ Unit) (Unit ⊕ Unit) ℂ) (Sum.elim 1 (-1)) (Complex.exp 1) =
        fun z w => Complex.exp 1 * Complex.exp ((-1 : Unit → ℂ) ⬝ᵥ z + (1 : Unit → ℂ) ⬝ᵥ w) := by
      funext z w
      unfold dmFun
      rw [Matrix.zero_mulVec, dotProduct_zero, mul_zero, zero_add, sumElim_dotProduct_sumElim, add_comm]
    rw [e, opTr_linear, ← Complex.exp_add]
    simp
  · intro h
    have := h 2 ![1, Complex.I] ![0, 1]
    simp only [Fin.sum_univ_two, Matrix.cons_val_zero, Matrix.cons_val_one, dmFun, Matrix.zero_mulVec, dotProduct_zero, mul_zero, zero_add,
      sumElim_dotProduct_sumElim, star_zero, star_one] at this
    simp only [map_one, one_mul, mul_one, dotProduct_zero, add_zero, Complex.exp_zero, Complex.conj_I, neg_dotProduct, one_dotProduct_one,
      Fintype.card_unit, Nat.cast_one, zero_add, add_neg_cancel, neg_mul, Complex.I_mul_I, neg_neg, ← Complex.exp_add] at this
    have him := (Complex.le_def.1 this).2
    rw [show (1 : ℂ) + 1 = ((2 : ℝ) : ℂ) by norm_num, ← Complex.ofReal_one, ← Complex.ofReal_exp, ← Complex.ofReal_exp] at him
    simp only [Complex.zero_im, Complex.add_im, Complex.mul_im, Complex.ofReal_im, Complex.ofReal_re, Complex.I_re, Complex.I_im,
      Complex.neg_im, zero_mul, one_mul] at him
    have h1 : Real.exp 1 < Real.exp 2 := Real.exp_lt_exp.2 (by norm_num)
    have h2 := Real.add_one_lt_exp (x := 2) (by norm_num)
    have h3 := Real.exp_pos 2
    linarith

end Verif.Manifold
