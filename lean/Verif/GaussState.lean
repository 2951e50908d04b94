import Verif.PhaseEvolve
import Verif.Entropy
import Verif.Stellar
import Verif.PhaseEx2
import Verif.BargmannGates
import Mathlib.Tactic.FieldSimp
import Mathlib.Tactic.Linarith
import Mathlib.Tactic.LinearCombination

/-!
# Gaussian states from a symplectic matrix (`GKet`, `GDM`) and random symplectic matrices

Bargmann functions are written with the ket variables first (`z`) and the bra variables second (`w`); `dmFun` puts the bra variables first in the
matrix, as the code does.  Batches of symplectic matrices are not modelled.
-/

namespace Verif.Manifold

open Matrix MeasureTheory Verif.Gauss
open scoped ComplexOrder MatrixOrder

variable {n : Type*} [Fintype n] [DecidableEq n]

/-! ## The model -/

/-- physics/triples.py:238 `A = Au[..., :m, :m]`. -/
noncomputable def gketA (S : Matrix (n ⊕ n) (n ⊕ n) ℝ) : Matrix n n ℂ := (symplectic2Au S).toBlocks₁₁

/-- physics/triples.py:240-243. -/
noncomputable def gketC (S : Matrix (n ⊕ n) (n ⊕ n) ℝ) : ℂ :=
  let A4 := (symplectic2Au S).toBlocks₂₂
  ((-1) ^ Fintype.card n * (A4 * cj A4 - 1).det) ^ (1 / 4 : ℂ)

/-- The Bargmann function of `GKet(modes, symplectic)` (physics/triples.py:224-245, lab/states/gaussian_state.py:87-90). -/
noncomputable def gket (S : Matrix (n ⊕ n) (n ⊕ n) ℝ) : (n → ℂ) → ℂ := bargFun (gketA S) 0 (gketC S)

/-- physics/triples.py:271-277 `A_fd`. -/
noncomputable def gdmFd (β : n → ℝ) : Matrix (n ⊕ n) (n ⊕ n) ℂ :=
  fromBlocks 0 (diagonal fun i => ((Real.exp (-β i) : ℝ) : ℂ)) (diagonal fun i => ((Real.exp (-β i) : ℝ) : ℂ)) 0

/-- The matrix `M` inverted by `complex_gaussian_integral_2` (physics/gaussian_integrals.py:470-527) when the thermal state is contracted with the input
wires of the unitary and of its conjugate (physics/triples.py:284-290): `A_fd` and the input block of `A_udagger_u` (263-268), coupled by `-1`. -/
noncomputable def gdmM (β : n → ℝ) (S : Matrix (n ⊕ n) (n ⊕ n) ℝ) : Matrix ((n ⊕ n) ⊕ (n ⊕ n)) ((n ⊕ n) ⊕ (n ⊕ n)) ℂ :=
  let A4 := (symplectic2Au S).toBlocks₂₂
  fromBlocks (gdmFd β) (-1) (-1) (fromBlocks (cj A4) 0 0 A4)

/-- The `A` of physics/triples.py:249-290 (`R - D M⁻¹ Dᵀ`; the thermal state has no uncontracted wire, so only the unitary's half of `D` is not zero). -/
noncomputable def gdmA (β : n → ℝ) (S : Matrix (n ⊕ n) (n ⊕ n) ℝ) : Matrix (n ⊕ n) (n ⊕ n) ℂ :=
  let A1 := (symplectic2Au S).toBlocks₁₁
  let A2 := (symplectic2Au S).toBlocks₁₂
  fromBlocks (cj A1) 0 0 A1 - fromBlocks (cj A2) 0 0 A2 * (gdmM β S)⁻¹.toBlocks₂₂ * (fromBlocks (cj A2) 0 0 A2)ᵀ

/-- The `c` of physics/triples.py:249-290: `c_fd` (278), `c_u` (280-283) and the factor of the Gaussian integral. -/
noncomputable def gdmC (β : n → ℝ) (S : Matrix (n ⊕ n) (n ⊕ n) ℝ) : ℂ :=
  let A4 := (symplectic2Au S).toBlocks₂₂
  ((∏ i, (1 - Real.exp (-β i)) : ℝ) : ℂ) * ((-1) ^ Fintype.card n * (A4 * cj A4 - 1).det) ^ (1 / 2 : ℂ) *
    ((-1) ^ Fintype.card (n ⊕ n) / (gdmM β S).det) ^ (1 / 2 : ℂ)

/-- The Bargmann function of `GDM(modes, beta, symplectic)` (physics/triples.py:249-290, lab/states/gaussian_state.py:181-185); `none` when the Gaussian
integral reports infinity, which it does when `|det M| ≤ 1e-12`. -/
noncomputable def gdm (β : n → ℝ) (S : Matrix (n ⊕ n) (n ⊕ n) ℝ) : Option ((n → ℂ) → (n → ℂ) → ℂ) :=
  open Classical in
  if ‖(gdmM β S).det‖ > 1e-12 then some (dmFun (gdmA β S) 0 (gdmC β S)) else none

/-- `random_symplectic` as a function of the sampled unitaries and squeezing parameters (math/backend_manager.py:1566-1570; `unitary_to_orthogonal`, 1531-1543, is `interferometer`). -/
noncomputable def randomSymplectic (W V : Matrix n n ℂ) (r : n → ℝ) : Matrix (n ⊕ n) (n ⊕ n) ℝ :=
  interferometer W * diagonal (Sum.elim (fun i => Real.exp (-r i)) fun i => Real.exp (r i)) * interferometer V

/-! ## The specification -/

/-- The product of thermal states `(1 - e^{-β}) Σ_k e^{-βk} |k⟩⟨k|` at inverse temperatures `β`. -/
noncomputable def thermal (β : n → ℝ) (z w : n → ℂ) : ℂ :=
  ∏ i, ∑' k : ℕ, (((1 - Real.exp (-β i)) * Real.exp (-β i) ^ k : ℝ) : ℂ) * (z i ^ k * w i ^ k / (k.factorial : ℂ))

/-- `coth(β/2)`, twice the mean photon number plus one. -/
noncomputable def cothHalf (b : ℝ) : ℝ := Real.cosh (b / 2) / Real.sinh (b / 2)

/-! ## Proofs: pure states -/

theorem gketC_eq (S : Matrix (n ⊕ n) (n ⊕ n) ℝ) : gketC S = fromSymplecticC S := rfl

/-- **C83 (pure states)** `GKet` is `U|0⟩` for the unitary `U` of the symplectic matrix. -/
theorem C83_gket (S : Matrix (n ⊕ n) (n ⊕ n) ℝ) (z : n → ℂ) : gket S z = fromSymplectic S z 0 := by
  unfold gket bargFun fromSymplectic gketA
  rw [gketC_eq]
  refine congrArg (HMul.hMul _) (congrArg Complex.exp ?_)
  conv_rhs => rw [← fromBlocks_toBlocks (symplectic2Au S)]
  rw [fromBlocks_mulVec, Sum.elim_comp_inl, Sum.elim_comp_inr, sumElim_dotProduct_sumElim]
  simp

/-- **C83 (pure states)** `|ψ⟩⟨ψ|` is the Gaussian state with covariance `(ħ/2) S Sᵀ` and mean zero; it has trace one. -/
theorem C83_gket_state {S : Matrix (n ⊕ n) (n ⊕ n) ℝ} (hS : Symplectic S) {ħ : ℝ} (hħ : 0 < ħ) :
    (∀ z w, gket S z * (starRingEnd ℂ) (gket S (star w)) = dmFromPhaseSpace ħ ((ħ / 2) • (S * Sᵀ)) 0 1 z w) ∧
      opTr (fun z w => gket S z * (starRingEnd ℂ) (gket S (star w))) = 1 := by
  have h : ∀ z w, gket S z * (starRingEnd ℂ) (gket S (star w)) = dmFromPhaseSpace ħ ((ħ / 2) • (S * Sᵀ)) 0 1 z w := fun z w => by
    rw [C83_gket, C83_gket]
    have := C66_projector hS hħ 0 1 z w
    rw [map_one, mul_one, C66_vacuum hS hħ, C66_vacuum hS hħ, one_mul, one_mul] at this
    exact this.symm
  refine ⟨h, ?_⟩
  rw [show (fun z w => gket S z * (starRingEnd ℂ) (gket S (star w))) = dmFromPhaseSpace ħ ((ħ / 2) • (S * Sᵀ)) 0 1 from
    funext fun z => funext fun w => h z w, C65_trace hħ (pure_posDef S hħ)]

/-! ## Proofs: mixed states -/

theorem q_lt {b : ℝ} (h : 0 < b) : 0 < Real.exp (-b) ∧ Real.exp (-b) < 1 := ⟨Real.exp_pos _, by rw [Real.exp_lt_one_iff]; linarith⟩

theorem cothHalf_eq {b : ℝ} (h : 0 < b) : cothHalf b = (1 + Real.exp (-b)) / (1 - Real.exp (-b)) := by
  have h1 := (q_lt h).2
  have hs : 0 < Real.sinh (b / 2) := Real.sinh_pos_iff.2 (by linarith)
  unfold cothHalf
  rw [div_eq_div_iff hs.ne' (by linarith), Real.cosh_eq, Real.sinh_eq]
  have e : Real.exp (-b) = Real.exp (-(b / 2)) * Real.exp (-(b / 2)) := by rw [← Real.exp_add]; ring_nf
  have e1 : Real.exp (b / 2) * Real.exp (-(b / 2)) = 1 := by rw [← Real.exp_add]; simp
  rw [e]
  linear_combination (-Real.exp (-(b / 2))) * e1

theorem cothHalf_one {b : ℝ} (h : 0 < b) : 1 ≤ cothHalf b := by
  obtain ⟨h0, h1⟩ := q_lt h
  rw [cothHalf_eq h, le_div_iff₀ (by linarith)]
  linarith

theorem thermal_factor (b : ℝ) (x y : ℂ) :
    ∑' k : ℕ, (((1 - Real.exp (-b)) * Real.exp (-b) ^ k : ℝ) : ℂ) * (x ^ k * y ^ k / (k.factorial : ℂ)) =
      ((1 - Real.exp (-b) : ℝ) : ℂ) * Complex.exp ((Real.exp (-b) : ℝ) * (x * y)) := by
  have h := NormedSpace.expSeries_div_hasSum_exp (((Real.exp (-b) : ℝ) : ℂ) * (x * y))
  rw [← Complex.exp_eq_exp_ℂ] at h
  have h2 := h.mul_left ((1 - Real.exp (-b) : ℝ) : ℂ)
  refine HasSum.tsum_eq (h2.congr_fun fun k => ?_)
  push_cast
  rw [mul_pow, mul_pow]
  ring

theorem thermal_eq {β : n → ℝ} (z w : n → ℂ) :
    thermal β z w = ∏ i, ((1 - Real.exp (-β i) : ℝ) : ℂ) * Complex.exp ((Real.exp (-β i) : ℝ) * (z i * w i)) :=
  Finset.prod_congr rfl fun i _ => thermal_factor (β i) (z i) (w i)

/-- The thermal state is the Gaussian state with covariance `(ħ/2) coth(β/2)` and mean zero. -/
theorem thermal_phase {ħ : ℝ} (hħ : 0 < ħ) {β : n → ℝ} (hβ : ∀ i, 0 < β i) (z w : n → ℂ) :
    thermal β z w = dmFromPhaseSpace ħ ((ħ / 2) • diagonal (Sum.elim (fun i => cothHalf (β i)) fun i => cothHalf (β i))) 0 1 z w := by
  rw [thermal_eq, thermal_dm hħ fun j => cothHalf_one (hβ j)]
  refine Finset.prod_congr rfl fun i _ => ?_
  obtain ⟨h0, h1⟩ := q_lt (hβ i)
  have hd : 1 - Real.exp (-β i) ≠ 0 := by linarith
  have e1 : 2 / (cothHalf (β i) + 1) = 1 - Real.exp (-β i) := by
    rw [cothHalf_eq (hβ i), div_add_one hd, div_div_eq_mul_div, show 1 + Real.exp (-β i) + (1 - Real.exp (-β i)) = 2 by ring]
    field_simp
  have e2 : (cothHalf (β i) - 1) / (cothHalf (β i) + 1) = Real.exp (-β i) := by
    rw [cothHalf_eq (hβ i), div_add_one hd, div_sub_one hd, show 1 + Real.exp (-β i) + (1 - Real.exp (-β i)) = 2 by ring,
      show 1 + Real.exp (-β i) - (1 - Real.exp (-β i)) = 2 * Real.exp (-β i) by ring, div_div_div_cancel_right₀ hd]
    ring
  rw [e1, e2]

theorem gdmFd_T (β : n → ℝ) : (gdmFd β)ᵀ = gdmFd β := by
  unfold gdmFd
  rw [fromBlocks_transpose, diagonal_transpose, transpose_zero]

theorem gdmFd_X (β : n → ℝ) : Xmat n * gdmFd β * Xmat n = gdmFd β := by
  unfold gdmFd Xmat
  rw [fromBlocks_multiply, fromBlocks_multiply]
  simp

theorem gdmFd_shrinks {β : n → ℝ} (hβ : ∀ i, 0 < β i) : Shrinks (gdmFd β) := by
  intro x hx
  have e : ∀ i, (gdmFd β).mulVec x i = Sum.elim (fun i => ((Real.exp (-β i) : ℝ) : ℂ) * x (.inr i)) (fun i => ((Real.exp (-β i) : ℝ) : ℂ) * x (.inl i)) i := by
    intro i
    unfold gdmFd
    rw [fromBlocks_mulVec]
    rcases i with i | i <;> simp [Matrix.mulVec_diagonal]
  have e2 : ∀ i, ‖((Real.exp (-β i) : ℝ) : ℂ)‖ = Real.exp (-β i) := fun i => by
    rw [Complex.norm_real, Real.norm_of_nonneg (Real.exp_pos _).le]
  have le : ∀ i (y : ℂ), ‖((Real.exp (-β i) : ℝ) : ℂ) * y‖ ^ 2 ≤ ‖y‖ ^ 2 := fun i y => by
    obtain ⟨h0, h1⟩ := q_lt (hβ i)
    rw [norm_mul, e2, mul_pow]
    exact mul_le_of_le_one_left (by positivity) (pow_le_one₀ h0.le h1.le)
  have lt : ∀ i (y : ℂ), y ≠ 0 → ‖((Real.exp (-β i) : ℝ) : ℂ) * y‖ ^ 2 < ‖y‖ ^ 2 := fun i y hy => by
    obtain ⟨h0, h1⟩ := q_lt (hβ i)
    rw [norm_mul, e2, mul_pow]
    have : 0 < ‖y‖ := norm_pos_iff.2 hy
    exact mul_lt_of_lt_one_left (by positivity) (pow_lt_one₀ h0.le h1 two_ne_zero)
  simp only [e, Fintype.sum_sum_type, Sum.elim_inl, Sum.elim_inr]
  rw [add_comm (∑ i, ‖x (.inl i)‖ ^ 2)]
  obtain ⟨i, hi⟩ := Function.ne_iff.1 hx
  rcases i with i | i
  · exact add_lt_add_of_le_of_lt (Finset.sum_le_sum fun i _ => le i _) (Finset.sum_lt_sum (fun i _ => le i _) ⟨i, Finset.mem_univ i, lt i _ hi⟩)
  · exact add_lt_add_of_lt_of_le (Finset.sum_lt_sum (fun i _ => le i _) ⟨i, Finset.mem_univ i, lt i _ hi⟩) (Finset.sum_le_sum fun i _ => le i _)

theorem thermal_dmFun (β : n → ℝ) (z w : n → ℂ) : thermal β z w = dmFun (gdmFd β) 0 ((∏ i, (1 - Real.exp (-β i)) : ℝ) : ℂ) z w := by
  rw [thermal_eq, Finset.prod_mul_distrib, ← Complex.exp_sum]
  unfold dmFun gdmFd
  rw [fromBlocks_mulVec, Sum.elim_comp_inl, Sum.elim_comp_inr, sumElim_dotProduct_sumElim, zero_dotProduct, add_zero, Complex.ofReal_prod]
  refine congrArg (HMul.hMul _) (congrArg Complex.exp ?_)
  rw [zero_mulVec, zero_mulVec, zero_add, add_zero, dotProduct, dotProduct, ← Finset.sum_add_distrib, Finset.mul_sum]
  refine Finset.sum_congr rfl fun i _ => ?_
  rw [Matrix.mulVec_diagonal, Matrix.mulVec_diagonal]
  ring

theorem half_conj : (starRingEnd ℂ) (1 / 2 : ℂ) = 1 / 2 := by simp [Complex.conj_ofNat]

/-- The unitary of the inverse matrix, written with the blocks of the unitary. -/
theorem inverse_blocks {S S' : Matrix (n ⊕ n) (n ⊕ n) ℝ} (hS : Symplectic S) (hi : S * S' = 1) :
    cS2 S' * cj (cS1 S')⁻¹ = cj (symplectic2Au S).toBlocks₂₂ ∧ (symplectic2Au S').toBlocks₂₂ = cj (symplectic2Au S).toBlocks₁₁ ∧
      ((cS1 S')⁻¹)ᴴ = cj ((symplectic2Au S).toBlocks₁₂)ᵀ ∧ fromSymplecticC S' = fromSymplecticC S := by
  obtain ⟨k1, k2, hS'⟩ := cS_inverse hS hi
  obtain ⟨h1, h2⟩ := complex_symplectic hS
  obtain ⟨i1, i2, r1, r2, -⟩ := block_relations h1 h2
  have e : cj (cS1 S')⁻¹ = ((cS1 S)⁻¹)ᵀ := by
    rw [k1, ← conjTranspose_nonsing_inv, cj_conjT]
  refine ⟨?_, ?_, ?_, ?_⟩
  · rw [e, k2, symplectic2Au_eq hS, toBlocks_fromBlocks₂₂, Matrix.neg_mul, ← r1, cj_neg, cj_cj]
  · rw [symplectic2Au_eq hS', symplectic2Au_eq hS, toBlocks_fromBlocks₂₂, toBlocks_fromBlocks₁₁, k1, k2, Matrix.mul_neg, cj_neg, neg_neg,
      ← conjTranspose_nonsing_inv, r2]
  · rw [symplectic2Au_eq hS, toBlocks_fromBlocks₁₂, k1, ← conjTranspose_nonsing_inv, conjTranspose_conjTranspose, conjT_transpose, cj_cj]
  · rw [fromSymplecticC_eq hS', fromSymplecticC_eq hS, k1, ← conjTranspose_nonsing_inv, det_conjTranspose, norm_star]

theorem from_zero {S S' : Matrix (n ⊕ n) (n ⊕ n) ℝ} (hS : Symplectic S) (hi : S * S' = 1) (v : n → ℂ) :
    fromSymplectic S' 0 v = fromSymplecticC S * Complex.exp (1 / 2 * (v ⬝ᵥ (cj (symplectic2Au S).toBlocks₁₁).mulVec v)) := by
  obtain ⟨-, e2, -, e4⟩ := inverse_blocks hS hi
  unfold fromSymplectic
  rw [e4, ← e2]
  refine congrArg (HMul.hMul _) (congrArg Complex.exp ?_)
  conv_lhs => rw [← fromBlocks_toBlocks (symplectic2Au S')]
  rw [fromBlocks_mulVec, Sum.elim_comp_inl, Sum.elim_comp_inr, sumElim_dotProduct_sumElim]
  simp

theorem unitaryC_real {S : Matrix (n ⊕ n) (n ⊕ n) ℝ} (hS : Symplectic S) : ∃ t : ℝ, 0 < t ∧ fromSymplecticC S = t ∧
    ((-1) ^ Fintype.card n * ((symplectic2Au S).toBlocks₂₂ * cj (symplectic2Au S).toBlocks₂₂ - 1).det) ^ (1 / 2 : ℂ) = (t : ℂ) * t := by
  obtain ⟨t, h0, ht⟩ := C64_positive S hS
  have e : fromSymplecticC S = t := by
    rw [← ht]; unfold fromSymplectic
    rw [show (Sum.elim 0 0 : n ⊕ n → ℂ) = 0 from Sum.elim_zero_zero, zero_dotProduct, mul_zero, Complex.exp_zero, mul_one]
  refine ⟨t, h0, e, ?_⟩
  have e' : ((-1) ^ Fintype.card n * ((symplectic2Au S).toBlocks₂₂ * cj (symplectic2Au S).toBlocks₂₂ - 1).det) ^ (1 / 4 : ℂ) = t := e
  rw [show (1 / 2 : ℂ) = 1 / 4 + 1 / 4 by norm_num]
  rw [← e']
  rcases eq_or_ne ((-1) ^ Fintype.card n * ((symplectic2Au S).toBlocks₂₂ * cj (symplectic2Au S).toBlocks₂₂ - 1).det) 0 with h | h
  · rw [h, Complex.zero_cpow (by norm_num), Complex.zero_cpow (by norm_num), mul_zero]
  · rw [Complex.cpow_add _ _ h]

/-- The contraction computed by the code is `U ρ U†`. -/
theorem gdm_aux {S : Matrix (n ⊕ n) (n ⊕ n) ℝ} (hS : Symplectic S) {β : n → ℝ} (hβ : ∀ i, 0 < β i) :
    (∀ z w, evolve (fromSymplectic S) (thermal β) z w = dmFun (gdmA β S) 0 (gdmC β S) z w) ∧
      ∃ t : ℝ, 0 < t ∧ (gdmM β S).det = t ∧ gdmC β S * (Real.sqrt t : ℝ) = ((∏ i, (1 - Real.exp (-β i)) : ℝ) : ℂ) * fromSymplecticC S * fromSymplecticC S := by
  have hu : IsUnit S.det := by
    refine isUnit_iff_ne_zero.2 fun e => ?_
    have := symp_det hS
    rw [e, mul_zero] at this
    exact zero_ne_one this
  have hi : S * S⁻¹ = 1 := mul_nonsing_inv _ hu
  have hS' := (C64_inverse S S⁻¹ hS hi 0 0).1
  have one_pos' : (0 : ℝ) < 1 := one_pos
  obtain ⟨b1, b2, b3, b4⟩ := inverse_blocks hS hi
  obtain ⟨t, ht, et, et2⟩ := unitaryC_real hS
  set A1 := (symplectic2Au S).toBlocks₁₁ with hA1
  set A2 := (symplectic2Au S).toBlocks₁₂ with hA2
  set A4 := (symplectic2Au S).toBlocks₂₂ with hA4
  have hA4T : A4ᵀ = A4 := by
    have := C64_symm S hS
    rw [← fromBlocks_toBlocks (symplectic2Au S), fromBlocks_transpose, fromBlocks_inj] at this
    exact this.2.2.2
  set P := rhoA (1 : ℝ) ((1 / 2 : ℝ) • (S⁻¹ * (S⁻¹)ᵀ)) with hPd
  have hpc := pure_cov_posDef hS' one_pos'
  have sP : Shrinks P := (shrinks_rhoA one_pos' hpc).1
  have hP : Pᵀ = P := (rhoA_herm one_pos' (cov_vac_posDef one_pos' hpc)).1
  have eP : P = fromBlocks A4 0 0 (cj A4) := by rw [hPd, pure_A hS' one_pos', b1, cj_cj]
  have sQ := gdmFd_shrinks hβ
  have hQ := gdmFd_T β
  obtain ⟨W, hW⟩ := overlap_W sP sQ
  have hQc : (fromBlocks (cj A4) 0 0 A4 : Matrix (n ⊕ n) (n ⊕ n) ℂ)ᵀ = fromBlocks (cj A4) 0 0 A4 := by
    have : (cj A4)ᵀ = cj A4 := by
      conv_rhs => rw [← hA4T]
      rfl
    rw [fromBlocks_transpose, hA4T, this, transpose_zero]
  have eX : Xmat n * P * Xmat n = fromBlocks (cj A4) 0 0 A4 := by
    rw [eP]; unfold Xmat; rw [fromBlocks_multiply, fromBlocks_multiply]; simp
  have hW1 : (1 - P * gdmFd β) * Wᵀ = 1 := by
    have := congrArg Matrix.transpose hW
    rw [transpose_mul, transpose_sub, transpose_mul, hP, hQ, transpose_one] at this
    exact mul_eq_one_comm.mp this
  have hW2 : (1 - fromBlocks (cj A4) 0 0 A4 * gdmFd β) * (Xmat n * Wᵀ * Xmat n) = 1 := by
    rw [← eX]
    calc (1 - Xmat n * P * Xmat n * gdmFd β) * (Xmat n * Wᵀ * Xmat n)
        = (Xmat n * Xmat n - Xmat n * P * Xmat n * (Xmat n * gdmFd β * Xmat n)) * (Xmat n * Wᵀ * Xmat n) := by rw [Xmat_sq, gdmFd_X]
      _ = (Xmat n * (1 - P * (Xmat n * Xmat n) * gdmFd β) * Xmat n) * (Xmat n * Wᵀ * Xmat n) := by
          simp only [Matrix.mul_sub, Matrix.sub_mul, Matrix.mul_assoc, Matrix.mul_one, Matrix.one_mul]
      _ = Xmat n * ((1 - P * gdmFd β) * (Xmat n * Xmat n) * Wᵀ) * Xmat n := by rw [Xmat_sq, Matrix.mul_one]; simp only [Matrix.mul_assoc]; rw [← Matrix.mul_assoc (Xmat n) (Xmat n), Xmat_sq, Matrix.one_mul]
      _ = 1 := by rw [Xmat_sq, Matrix.mul_one, hW1, Matrix.mul_one, Xmat_sq]
  set g := gaussConst (fromBlocks P (-1) (-1) (gdmFd β)) with hg
  set k : ℝ := ∏ i, (1 - Real.exp (-β i)) with hk
  have hk0 : 0 < k := Finset.prod_pos fun i _ => by linarith [(q_lt (hβ i)).2]
  have key : ∀ z v, evolve (fromSymplectic S) (thermal β) z v = (k : ℂ) * t * t * g * Complex.exp (1 / 2 * (v ⬝ᵥ (cj A1).mulVec v) + 1 / 2 * (z ⬝ᵥ A1.mulVec z) +
      1 / 2 * ((Sum.elim (A2ᵀ.mulVec z) ((cj A2ᵀ).mulVec v)) ⬝ᵥ (W * gdmFd β).mulVec (Sum.elim (A2ᵀ.mulVec z) ((cj A2ᵀ).mulVec v)))) := fun z v => by
    rw [evolve_trace hS hi one_pos',
      show (fun u w => fromSymplectic S⁻¹ u v * (starRingEnd ℂ) (fromSymplectic S⁻¹ (star w) (star z))) =
        dmFun P (Sum.elim ((cj ((cS1 S⁻¹)⁻¹)ᴴ).mulVec z) (((cS1 S⁻¹)⁻¹)ᴴ.mulVec v))
          (fromSymplectic S⁻¹ 0 v * (starRingEnd ℂ) (fromSymplectic S⁻¹ 0 (star z))) from
        funext fun u => funext fun w => rank_one_dmFun hS' one_pos' z v u w,
      show thermal β = dmFun (gdmFd β) 0 (k : ℂ) from funext fun u => funext fun w => thermal_dmFun β u w,
      trace_mul hP hQ sP (by rw [gdmFd_X]; exact sQ), gdmFd_X, gauss_overlap hP hQ sP sQ hW, b3, cj_cj, Matrix.mulVec_zero, Matrix.mulVec_zero,
      Matrix.mulVec_zero, dotProduct_zero, dotProduct_zero, mul_zero, add_zero, add_zero, from_zero hS hi, from_zero hS hi, et]
    have hc : (starRingEnd ℂ) (star z ⬝ᵥ (cj A1).mulVec (star z)) = z ⬝ᵥ A1.mulVec z := by
      simp only [dotProduct, mulVec, map_sum, map_mul, cj, Matrix.map_apply, Pi.star_apply, Complex.star_def, Complex.conj_conj]
    rw [map_mul, Complex.conj_ofReal, ← Complex.exp_conj, map_mul, half_conj, ← hA1, hc, ← hg]
    simp only [Complex.exp_add]
    ring
  -- the constant is positive
  have hg0 : ∃ s : ℝ, 0 < s ∧ g = s := by
    have h0 := key 0 0
    have hcov : ((1 / 2 : ℝ) • diagonal (Sum.elim (fun i => cothHalf (β i)) fun i => cothHalf (β i))).PosDef := by
      refine Matrix.PosDef.smul ?_ (by norm_num)
      refine Matrix.PosDef.diagonal fun i => ?_
      rcases i with i | i <;> exact lt_of_lt_of_le one_pos (cothHalf_one (hβ i))
    have e1 : thermal β = dmFromPhaseSpace 1 ((1 / 2 : ℝ) • diagonal (Sum.elim (fun i => cothHalf (β i)) fun i => cothHalf (β i))) 0 1 :=
      funext fun z => funext fun w => thermal_phase one_pos' hβ z w
    rw [e1, C69_evolve hS one_pos' hcov] at h0
    have hcov' : (S * ((1 / 2 : ℝ) • diagonal (Sum.elim (fun i => cothHalf (β i)) fun i => cothHalf (β i))) * Sᵀ).PosDef := by
      have := (IsUnit.posDef_star_right_conjugate_iff ((Matrix.isUnit_iff_isUnit_det _).2 hu)
        (x := (1 / 2 : ℝ) • diagonal (Sum.elim (fun i => cothHalf (β i)) fun i => cothHalf (β i)))).2 hcov
      rwa [star_eq_conjTranspose, conjTranspose_eq_transpose_of_trivial] at this
    have hv := cov_vac_posDef one_pos' hcov'
    unfold dmFromPhaseSpace at h0
    rw [rhoC_eq one_pos' hv, show (Sum.elim 0 0 : n ⊕ n → ℂ) = 0 from Sum.elim_zero_zero] at h0
    simp only [Matrix.mulVec_zero, zero_dotProduct, dotProduct_zero, mul_zero, add_zero, Complex.exp_zero, mul_one, one_mul,
      show (Sum.elim 0 0 : n ⊕ n → ℂ) = 0 from Sum.elim_zero_zero] at h0
    obtain ⟨d, hd⟩ : ∃ d : ℝ, d = (Real.sqrt (vac 1 (S * ((1 / 2 : ℝ) • diagonal (Sum.elim (fun i => cothHalf (β i)) fun i => cothHalf (β i))) * Sᵀ)).det)⁻¹ *
      Real.exp (-(1 / 2) * (mean 1 (S.mulVec 0) ⬝ᵥ (vac 1 (S * ((1 / 2 : ℝ) • diagonal (Sum.elim (fun i => cothHalf (β i)) fun i => cothHalf (β i))) * Sᵀ))⁻¹.mulVec
        (mean 1 (S.mulVec 0)))) := ⟨_, rfl⟩
    have hd0 : 0 < d := by
      rw [hd]
      exact mul_pos (inv_pos.2 (Real.sqrt_pos.2 (vac_pos one_pos' hv).det_pos)) (Real.exp_pos _)
    have h1 : (d : ℂ) = k * t * t * g := by
      rw [hd, ← h0]
      simp
    have hne : ((k * t * t : ℝ) : ℂ) ≠ 0 := by exact_mod_cast (by positivity : k * t * t ≠ 0)
    refine ⟨d / (k * t * t), by positivity, ?_⟩
    push_cast
    rw [h1]
    push_cast at hne
    field_simp
  obtain ⟨s, hs0, hs⟩ := hg0
  have hWd : W.det = ((s ^ 2 : ℝ) : ℂ) := by
    rw [← overlap_sq hP hQ sP sQ hW, ← hg, hs]; push_cast; rfl
  have hXd : (Xmat n).det * (Xmat n).det = 1 := by rw [← det_mul, Xmat_sq, det_one]
  have hWd' : (Xmat n * Wᵀ * Xmat n).det = ((s ^ 2 : ℝ) : ℂ) := by
    rw [det_mul, det_mul, det_transpose, mul_right_comm, hXd, one_mul, hWd]
  have hdet : (-1 : ℂ) ^ Fintype.card (n ⊕ n) / (gdmM β S).det = ((s ^ 2 : ℝ) : ℂ) := by
    rw [← hWd']
    exact overlap_det hW2
  have hM : (gdmM β S).det = (((s ^ 2)⁻¹ : ℝ) : ℂ) := by
    have e1 : (-1 : ℂ) ^ Fintype.card (n ⊕ n) = 1 := by
      rw [Fintype.card_sum, ← two_mul, pow_mul]; simp
    rw [e1, one_div] at hdet
    rw [← inv_inv (gdmM β S).det, hdet]; push_cast; rfl
  have hC : gdmC β S = k * t * t * g := by
    have e1 : gdmC β S = (k : ℂ) * ((-1) ^ Fintype.card n * (A4 * cj A4 - 1).det) ^ (1 / 2 : ℂ) *
      ((-1) ^ Fintype.card (n ⊕ n) / (gdmM β S).det) ^ (1 / 2 : ℂ) := rfl
    have e2 : (((s ^ 2 : ℝ) : ℂ)) ^ (1 / 2 : ℂ) = s := by
      have : ((1 / 2 : ℝ) : ℂ) = 1 / 2 := by push_cast; rfl
      rw [← this, ← Complex.ofReal_cpow (by positivity), ← Real.sqrt_eq_rpow, Real.sqrt_sq hs0.le]
    rw [e1, et2, hdet, e2, hs]
    ring
  have hA : gdmA β S = fromBlocks (cj A1) 0 0 A1 + fromBlocks (cj A2) 0 0 A2 * (gdmFd β * (Xmat n * Wᵀ * Xmat n)) * (fromBlocks (cj A2) 0 0 A2)ᵀ := by
    have e1 : gdmA β S = fromBlocks (cj A1) 0 0 A1 - fromBlocks (cj A2) 0 0 A2 *
      (fromBlocks (gdmFd β) (-1) (-1) (fromBlocks (cj A4) 0 0 A4))⁻¹.toBlocks₂₂ * (fromBlocks (cj A2) 0 0 A2)ᵀ := rfl
    rw [e1, overlap_inv hQ hQc hW2, toBlocks_fromBlocks₂₂, Matrix.mul_neg, Matrix.neg_mul, sub_neg_eq_add]
  refine ⟨fun z w => ?_, (s ^ 2)⁻¹, by positivity, hM, ?_⟩
  · rw [key, hC]
    unfold dmFun
    refine congrArg (HMul.hMul _) (congrArg Complex.exp ?_)
    rw [zero_dotProduct, add_zero, hA, Matrix.add_mulVec, dotProduct_add, mul_add]
    have e1 : Sum.elim w z ⬝ᵥ (fromBlocks (cj A1) 0 0 A1).mulVec (Sum.elim w z) = w ⬝ᵥ (cj A1).mulVec w + z ⬝ᵥ A1.mulVec z := by
      rw [fromBlocks_mulVec, Sum.elim_comp_inl, Sum.elim_comp_inr, sumElim_dotProduct_sumElim]
      simp
    have e2 : (Sum.elim (A2ᵀ.mulVec z) ((cj A2ᵀ).mulVec w) : n ⊕ n → ℂ) = (Xmat n).mulVec ((fromBlocks (cj A2) 0 0 A2)ᵀ.mulVec (Sum.elim w z)) := by
      rw [fromBlocks_transpose, fromBlocks_mulVec, Sum.elim_comp_inl, Sum.elim_comp_inr, transpose_zero]
      simp only [Matrix.zero_mulVec, add_zero, zero_add]
      rw [Xmat_elim]
      rfl
    rw [e1, e2, mul_add]
    refine congrArg (HAdd.hAdd _) (congrArg (HMul.hMul _) ?_)
    have e3 : gdmFd β * (Xmat n * Wᵀ * Xmat n) = Xmat n * (W * gdmFd β)ᵀ * Xmat n := by
      rw [transpose_mul, hQ]
      conv_lhs => rw [← gdmFd_X β]
      simp only [Matrix.mul_assoc]
      rw [← Matrix.mul_assoc (Xmat n) (Xmat n), Xmat_sq, Matrix.one_mul]
    rw [e3]
    generalize W * gdmFd β = N
    generalize (fromBlocks (cj A2) 0 0 A2 : Matrix (n ⊕ n) (n ⊕ n) ℂ) = D
    generalize (Sum.elim w z : n ⊕ n → ℂ) = y
    have q : ∀ (B : Matrix (n ⊕ n) (n ⊕ n) ℂ) (u v : n ⊕ n → ℂ), u ⬝ᵥ B.mulVec v = Bᵀ.mulVec u ⬝ᵥ v := fun B u v => by
      rw [Matrix.dotProduct_mulVec, ← Matrix.mulVec_transpose]
    rw [show D * (Xmat n * Nᵀ * Xmat n) * Dᵀ = D * (Xmat n * (Nᵀ * (Xmat n * Dᵀ))) by simp only [Matrix.mul_assoc], ← Matrix.mulVec_mulVec,
      q D, ← Matrix.mulVec_mulVec, q (Xmat n), Xmat_T, ← Matrix.mulVec_mulVec, q Nᵀ, transpose_transpose, ← Matrix.mulVec_mulVec, dotProduct_comm]
  · rw [hC, hs, et, Real.sqrt_inv, Real.sqrt_sq hs0.le]
    have : (s : ℂ) ≠ 0 := by exact_mod_cast hs0.ne'
    push_cast
    field_simp

/-- **C83 (mixed states)** `GDM` is `U ρ U†` for the unitary `U` of the symplectic matrix and the product `ρ` of thermal states. -/
theorem C83_gdm {S : Matrix (n ⊕ n) (n ⊕ n) ℝ} (hS : Symplectic S) {β : n → ℝ} (hβ : ∀ i, 0 < β i) {F : (n → ℂ) → (n → ℂ) → ℂ} (hF : gdm β S = some F)
    (z w : n → ℂ) : F z w = evolve (fromSymplectic S) (thermal β) z w := by
  unfold gdm at hF
  split_ifs at hF
  rw [← Option.some.inj hF, (gdm_aux hS hβ).1]

theorem coth_posDef {ħ : ℝ} (hħ : 0 < ħ) {β : n → ℝ} (hβ : ∀ i, 0 < β i) :
    ((ħ / 2) • diagonal (Sum.elim (fun i => cothHalf (β i)) fun i => cothHalf (β i))).PosDef := by
  refine Matrix.PosDef.smul ?_ (by positivity)
  refine Matrix.PosDef.diagonal fun i => ?_
  rcases i with i | i <;> exact lt_of_lt_of_le one_pos (cothHalf_one (hβ i))

theorem symp_isUnit {S : Matrix (n ⊕ n) (n ⊕ n) ℝ} (hS : Symplectic S) : IsUnit S := by
  rw [Matrix.isUnit_iff_isUnit_det]
  refine isUnit_iff_ne_zero.2 fun e => ?_
  have := symp_det hS
  rw [e, mul_zero] at this
  exact zero_ne_one this

/-- The contraction in phase space. -/
theorem gdm_phase {S : Matrix (n ⊕ n) (n ⊕ n) ℝ} (hS : Symplectic S) {β : n → ℝ} (hβ : ∀ i, 0 < β i) {ħ : ℝ} (hħ : 0 < ħ) (z w : n → ℂ) :
    evolve (fromSymplectic S) (thermal β) z w = dmFromPhaseSpace ħ (williamsonCov ħ S fun i => cothHalf (β i)) 0 1 z w := by
  rw [show thermal β = dmFromPhaseSpace ħ ((ħ / 2) • diagonal (Sum.elim (fun i => cothHalf (β i)) fun i => cothHalf (β i))) 0 1 from
    funext fun z => funext fun w => thermal_phase hħ hβ z w, C69_evolve hS hħ (coth_posDef hħ hβ), Matrix.mulVec_zero]
  unfold williamsonCov
  rw [Matrix.mul_smul, Matrix.smul_mul]

theorem gdm_cov_posDef {S : Matrix (n ⊕ n) (n ⊕ n) ℝ} (hS : Symplectic S) {β : n → ℝ} (hβ : ∀ i, 0 < β i) {ħ : ℝ} (hħ : 0 < ħ) :
    (williamsonCov ħ S fun i => cothHalf (β i)).PosDef := by
  have := (IsUnit.posDef_star_right_conjugate_iff (symp_isUnit hS) (x := (ħ / 2) • diagonal (Sum.elim (fun i => cothHalf (β i)) fun i => cothHalf (β i)))).2 (coth_posDef hħ hβ)
  rw [star_eq_conjTranspose, conjTranspose_eq_transpose_of_trivial] at this
  unfold williamsonCov
  rwa [Matrix.mul_smul, Matrix.smul_mul] at this

/-- **C83 (mixed states)** `GDM` is the Gaussian state with covariance `(ħ/2) S diag(coth(β/2)) Sᵀ` and mean zero; it is positive and has trace one. -/
theorem C83_gdm_state {S : Matrix (n ⊕ n) (n ⊕ n) ℝ} (hS : Symplectic S) {β : n → ℝ} (hβ : ∀ i, 0 < β i) {F : (n → ℂ) → (n → ℂ) → ℂ} (hF : gdm β S = some F)
    {ħ : ℝ} (hħ : 0 < ħ) :
    (∀ z w, F z w = dmFromPhaseSpace ħ ((ħ / 2) • (S * diagonal (Sum.elim (fun i => cothHalf (β i)) fun i => cothHalf (β i)) * Sᵀ)) 0 1 z w) ∧
      OpPos F ∧ opTr F = 1 := by
  have h : F = dmFromPhaseSpace ħ (williamsonCov ħ S fun i => cothHalf (β i)) 0 1 := funext fun z => funext fun w => by
    rw [C83_gdm hS hβ hF, gdm_phase hS hβ hħ]
  have hv := cov_vac_posDef hħ (gdm_cov_posDef hS hβ hħ)
  refine ⟨fun z w => by rw [h]; rfl, ?_, by rw [h, C65_trace hħ hv]⟩
  rw [h]
  have := (C66_uncertainty hħ hv 0 one_pos).2 ((normal_uncertainty hħ hS _).2 fun j => cothHalf_one (hβ j))
  rwa [Complex.ofReal_one] at this

/-! ## When the Gaussian integral reports infinity -/

theorem gdm_det {S : Matrix (n ⊕ n) (n ⊕ n) ℝ} (hS : Symplectic S) {β : n → ℝ} (hβ : ∀ i, 0 < β i) :
    (gdmM β S).det = (((∏ i, (1 - Real.exp (-β i))) ^ 2 * ‖(cS1 S)⁻¹.det‖ ^ 2 *
      ((1 / 2 : ℝ) • (S * diagonal (Sum.elim (fun i => cothHalf (β i)) fun i => cothHalf (β i)) * Sᵀ + 1)).det : ℝ) : ℂ) := by
  obtain ⟨h1, t, ht, hM, hc⟩ := gdm_aux hS hβ
  have one_pos' : (0 : ℝ) < 1 := one_pos
  have hv := cov_vac_posDef one_pos' (gdm_cov_posDef hS hβ one_pos')
  have h0 := h1 0 0
  rw [gdm_phase hS hβ one_pos'] at h0
  unfold dmFromPhaseSpace dmFun at h0
  rw [rhoC_eq one_pos' hv, show (Sum.elim 0 0 : n ⊕ n → ℂ) = 0 from Sum.elim_zero_zero] at h0
  have hm : mean 1 (0 : n ⊕ n → ℝ) = 0 := by funext r; simp [mean]
  simp only [Matrix.mulVec_zero, zero_dotProduct, dotProduct_zero, mul_zero, add_zero, Complex.exp_zero, mul_one, one_mul, hm, Real.exp_zero] at h0
  have hV : vac 1 (williamsonCov 1 S fun i => cothHalf (β i)) =
      (1 / 2 : ℝ) • (S * diagonal (Sum.elim (fun i => cothHalf (β i)) fun i => cothHalf (β i)) * Sᵀ + 1) := by
    unfold vac williamsonCov
    rw [inv_one, one_smul, smul_add]
  rw [hV] at h0
  have hVd : 0 < ((1 / 2 : ℝ) • (S * diagonal (Sum.elim (fun i => cothHalf (β i)) fun i => cothHalf (β i)) * Sᵀ + 1)).det := by
    rw [← hV]; exact (vac_pos one_pos' hv).det_pos
  rw [fromSymplecticC_eq hS, ← h0] at hc
  set d := ((1 / 2 : ℝ) • (S * diagonal (Sum.elim (fun i => cothHalf (β i)) fun i => cothHalf (β i)) * Sᵀ + 1)).det
  set k := ∏ i, (1 - Real.exp (-β i))
  have hr : (Real.sqrt d)⁻¹ * Real.sqrt t = k * ‖(cS1 S)⁻¹.det‖ ^ (1 / 2 : ℝ) * ‖(cS1 S)⁻¹.det‖ ^ (1 / 2 : ℝ) := by exact_mod_cast hc
  rw [hM]
  refine congrArg _ ?_
  have hs : ‖(cS1 S)⁻¹.det‖ ^ (1 / 2 : ℝ) * ‖(cS1 S)⁻¹.det‖ ^ (1 / 2 : ℝ) = ‖(cS1 S)⁻¹.det‖ := by
    rw [← Real.sqrt_eq_rpow, Real.mul_self_sqrt (norm_nonneg _)]
  rw [mul_assoc, hs] at hr
  have hq := Real.sq_sqrt hVd.le
  have hq' := Real.sq_sqrt ht.le
  have hne : Real.sqrt d ≠ 0 := (Real.sqrt_pos.2 hVd).ne'
  have hr' : Real.sqrt t = Real.sqrt d * (k * ‖(cS1 S)⁻¹.det‖) := by
    rw [← hr]; field_simp
  rw [← hq', hr', mul_pow, hq]
  ring

theorem det_mono {p : Type*} [Fintype p] [DecidableEq p] {A B : Matrix p p ℝ} (hA : A.PosDef) (hB : B.PosSemidef) : A.det ≤ (A + B).det := by
  obtain ⟨T, hT, hTT, e⟩ := posDef_sqrt hA
  have hu : IsUnit T.det := hT.det_pos.ne'.isUnit
  have i1 : T * T⁻¹ = 1 := mul_nonsing_inv _ hu
  have i2 : T⁻¹ * T = 1 := nonsing_inv_mul _ hu
  have hiT : (T⁻¹)ᴴ = T⁻¹ := by rw [conjTranspose_eq_transpose_of_trivial, transpose_nonsing_inv, hTT]
  have hC : (T⁻¹ * B * T⁻¹).PosSemidef := by
    have := hB.mul_mul_conjTranspose_same T⁻¹
    rwa [hiT] at this
  have hH : (1 + T⁻¹ * B * T⁻¹).IsHermitian := (Matrix.isHermitian_one).add hC.1
  have h1 : 1 ≤ (1 + T⁻¹ * B * T⁻¹).det := by
    rw [hH.det_eq_prod_eigenvalues]
    show (1 : ℝ) ≤ ∏ i, hH.eigenvalues i
    have h : ∏ i : p, (1 : ℝ) ≤ ∏ i, hH.eigenvalues i := by
      refine Finset.prod_le_prod (fun _ _ => zero_le_one) fun i _ => ?_
      have hv : (star (hH.eigenvectorBasis i : p → ℝ)) ⬝ᵥ (hH.eigenvectorBasis i : p → ℝ) = 1 := by
        have := (hH.eigenvectorBasis).orthonormal.1 i
        have h2 : ‖hH.eigenvectorBasis i‖ ^ 2 = 1 := by rw [this]; norm_num
        rw [EuclideanSpace.norm_sq_eq] at h2
        rw [← h2, dotProduct]
        refine Finset.sum_congr rfl fun j _ => ?_
        rw [Pi.star_apply, star_trivial, Real.norm_eq_abs, sq_abs, sq]
      have h3 := hC.dotProduct_mulVec_nonneg (hH.eigenvectorBasis i : p → ℝ)
      rw [hH.eigenvalues_eq i, Matrix.add_mulVec, Matrix.one_mulVec, dotProduct_add, hv]
      show (1 : ℝ) ≤ 1 + _
      linarith
    rwa [Finset.prod_const_one] at h
  have e2 : A + B = T * (1 + T⁻¹ * B * T⁻¹) * T := by
    rw [Matrix.mul_add, Matrix.add_mul, Matrix.mul_one, e]
    refine congrArg _ ?_
    calc B = (T * T⁻¹) * B * (T⁻¹ * T) := by rw [i1, i2, Matrix.one_mul, Matrix.mul_one]
      _ = _ := by simp only [Matrix.mul_assoc]
  have h0 : 0 ≤ A.det := hA.det_pos.le
  rw [e2, det_mul, det_mul, mul_right_comm, ← det_mul, e]
  nlinarith

theorem gdm_det_lower {S : Matrix (n ⊕ n) (n ⊕ n) ℝ} (hS : Symplectic S) {β : n → ℝ} (hβ : ∀ i, 0 < β i) :
    ∃ t : ℝ, (gdmM β S).det = t ∧ (∏ i, (1 - Real.exp (-β i))) ^ 2 ≤ t := by
  refine ⟨_, gdm_det hS hβ, ?_⟩
  have one_pos' : (0 : ℝ) < 1 := one_pos
  obtain ⟨h1, h2⟩ := complex_symplectic hS
  obtain ⟨i1, i2, -⟩ := block_relations h1 h2
  -- the pure state
  have hp := pure_posDef S one_pos'
  have hc := pure_C hS one_pos'
  have hm : mean 1 (0 : n ⊕ n → ℝ) = 0 := by funext r; simp [mean]
  rw [rhoC_eq one_pos' hp, hm, zero_dotProduct, mul_zero, Real.exp_zero, mul_one] at hc
  have hV : vac 1 ((1 / 2 : ℝ) • (S * Sᵀ)) = (1 / 2 : ℝ) • (S * Sᵀ + 1) := by
    unfold vac
    rw [inv_one, one_smul, smul_add]
  rw [hV] at hc
  have hVp : ((1 / 2 : ℝ) • (S * Sᵀ + 1)).PosDef := by rw [← hV]; exact vac_pos one_pos' hp
  have hr : (Real.sqrt ((1 / 2 : ℝ) • (S * Sᵀ + 1)).det)⁻¹ = ‖(cS1 S)⁻¹.det‖ := by exact_mod_cast hc
  have hs : ‖(cS1 S)⁻¹.det‖ ^ 2 * ((1 / 2 : ℝ) • (S * Sᵀ + 1)).det = 1 := by
    rw [← hr, inv_pow, Real.sq_sqrt hVp.det_pos.le]
    exact inv_mul_cancel₀ hVp.det_pos.ne'
  -- the thermal part adds a positive semidefinite matrix
  have hB : ((1 / 2 : ℝ) • (S * diagonal (Sum.elim (fun i => cothHalf (β i) - 1) fun i => cothHalf (β i) - 1) * Sᵀ)).PosSemidef := by
    have hd : (diagonal (Sum.elim (fun i => cothHalf (β i) - 1) fun i => cothHalf (β i) - 1) : Matrix (n ⊕ n) (n ⊕ n) ℝ).PosSemidef := by
      refine Matrix.PosSemidef.diagonal fun i => ?_
      rcases i with i | i <;> exact sub_nonneg.2 (cothHalf_one (hβ i))
    have := hd.mul_mul_conjTranspose_same S
    rw [conjTranspose_eq_transpose_of_trivial] at this
    exact this.smul (by norm_num)
  have e : (1 / 2 : ℝ) • (S * diagonal (Sum.elim (fun i => cothHalf (β i)) fun i => cothHalf (β i)) * Sᵀ + 1) =
      (1 / 2 : ℝ) • (S * Sᵀ + 1) + (1 / 2 : ℝ) • (S * diagonal (Sum.elim (fun i => cothHalf (β i) - 1) fun i => cothHalf (β i) - 1) * Sᵀ) := by
    have ed : (diagonal (Sum.elim (fun i => cothHalf (β i)) fun i => cothHalf (β i)) : Matrix (n ⊕ n) (n ⊕ n) ℝ) =
        1 + diagonal (Sum.elim (fun i => cothHalf (β i) - 1) fun i => cothHalf (β i) - 1) := by
      rw [← diagonal_one, diagonal_add]
      congr 1
      funext i
      rcases i with i | i <;> simp
    rw [ed, Matrix.mul_add, Matrix.add_mul, Matrix.mul_one, ← smul_add]
    congr 1
    abel
  have hm := det_mono hVp hB
  rw [← e] at hm
  have h0 : (0 : ℝ) ≤ (∏ i, (1 - Real.exp (-β i))) ^ 2 := sq_nonneg _
  have h3 : 1 ≤ ‖(cS1 S)⁻¹.det‖ ^ 2 * ((1 / 2 : ℝ) • (S * diagonal (Sum.elim (fun i => cothHalf (β i)) fun i => cothHalf (β i)) * Sᵀ + 1)).det := by
    refine le_trans hs.symm.le ?_
    exact mul_le_mul_of_nonneg_left hm (sq_nonneg _)
  rw [mul_assoc]
  exact le_mul_of_one_le_right h0 h3

/-- **C83 (mixed states)** The construction succeeds whenever `∏(1 - e^{-β}) > 10⁻⁶`, however strong the squeezing. -/
theorem C83_gdm_finite {S : Matrix (n ⊕ n) (n ⊕ n) ℝ} (hS : Symplectic S) {β : n → ℝ} (hβ : ∀ i, 0 < β i) (h : 1e-6 < ∏ i, (1 - Real.exp (-β i))) :
    (gdm β S).isSome := by
  obtain ⟨t, ht, hle⟩ := gdm_det_lower hS hβ
  unfold gdm
  rw [if_pos, Option.isSome_some]
  rw [ht, Complex.norm_real, Real.norm_eq_abs]
  have h1 : (1e-6 : ℝ) ^ 2 < (∏ i, (1 - Real.exp (-β i))) ^ 2 := pow_lt_pow_left₀ h (by norm_num) two_ne_zero
  have h2 := le_abs_self t
  norm_num at h1 ⊢
  linarith

/-! ## Random symplectic matrices -/

/-- **C83 (`unitary_to_orthogonal`)** The map is multiplicative and sends unitaries to orthogonal symplectic matrices. -/
theorem C83_orthogonal (U V : Matrix n n ℂ) : interferometer (U * V) = interferometer U * interferometer V ∧ interferometer (1 : Matrix n n ℂ) = 1 ∧
    (U ∈ Matrix.unitaryGroup n ℂ → Symplectic (interferometer U) ∧ interferometer U ∈ Matrix.orthogonalGroup (n ⊕ n) ℝ) := by
  refine ⟨?_, ?_, fun h => (C40_interferometer U).1 h⟩
  · unfold interferometer
    rw [fromBlocks_multiply]
    congr 1 <;> ext i j <;>
      simp only [Matrix.map_apply, Matrix.mul_apply, Matrix.add_apply, Matrix.neg_apply, Complex.re_sum, Complex.im_sum, Complex.mul_re, Complex.mul_im,
        ← Finset.sum_add_distrib, ← Finset.sum_neg_distrib] <;> refine Finset.sum_congr rfl fun k _ => ?_ <;> ring
  · unfold interferometer
    rw [← fromBlocks_one]
    congr 1 <;> ext i j <;> simp [Matrix.one_apply] <;> split_ifs <;> simp

theorem squeezer_symplectic (r : n → ℝ) : Symplectic (diagonal (Sum.elim (fun i => Real.exp (-r i)) fun i => Real.exp (r i)) : Matrix (n ⊕ n) (n ⊕ n) ℝ) := by
  have e : (diagonal (Sum.elim (fun i => Real.exp (-r i)) fun i => Real.exp (r i)) : Matrix (n ⊕ n) (n ⊕ n) ℝ) =
      fromBlocks (diagonal fun i => Real.exp (-r i)) 0 0 (diagonal fun i => Real.exp (r i)) := by
    rw [Matrix.fromBlocks_diagonal]
  unfold Symplectic
  rw [e, fromBlocks_transpose, fromBlocks_multiply, fromBlocks_multiply]
  have h1 : ∀ i, Real.exp (-r i) * Real.exp (r i) = 1 := fun i => by rw [← Real.exp_add]; simp
  have h2 : ∀ i, Real.exp (r i) * Real.exp (-r i) = 1 := fun i => by rw [← Real.exp_add]; simp
  simp only [diagonal_transpose, transpose_zero, Matrix.mul_zero, Matrix.zero_mul, Matrix.mul_one, Matrix.mul_neg, Matrix.neg_mul, add_zero, zero_add,
    diagonal_mul_diagonal, h1, h2, diagonal_one, neg_zero]

/-- **C83 (`random_symplectic`)** Every matrix `random_symplectic` can return is symplectic, whatever the sampled unitaries and squeezing. -/
theorem C83_random {W V : Matrix n n ℂ} (hW : W ∈ Matrix.unitaryGroup n ℂ) (hV : V ∈ Matrix.unitaryGroup n ℂ) (r : n → ℝ) : Symplectic (randomSymplectic W V r) :=
  symplectic_mul (symplectic_mul ((C40_interferometer W).1 hW).1 (squeezer_symplectic r)) ((C40_interferometer V).1 hV).1

/-- Interferometers mix no creation with annihilation operators. -/
theorem cS_interferometer (V : Matrix n n ℂ) : cS1 (interferometer V) = V ∧ cS2 (interferometer V) = 0 := by
  have e : interferometer V = ofCplx V 0 := by
    rw [ofCplx_eq]
    unfold interferometer
    congr 1 <;> ext i j <;> simp
  rw [e]
  exact cS_ofCplx V 0

/-- **C83 (`random_symplectic`)** The second sampled unitary has no effect on the state: `U|0⟩` is the same for `S` and `S O`. -/
theorem C83_gauge {S : Matrix (n ⊕ n) (n ⊕ n) ℝ} (hS : Symplectic S) {V : Matrix n n ℂ} (hV : V ∈ Matrix.unitaryGroup n ℂ) (z : n → ℂ) :
    gket (S * interferometer V) z = gket S z := by
  have hSV := symplectic_mul hS ((C40_interferometer V).1 hV).1
  obtain ⟨v1, v2⟩ := cS_interferometer V
  obtain ⟨m1, m2⟩ := cS_mul S (interferometer V)
  rw [v1, v2, show cj (0 : Matrix n n ℂ) = 0 by ext; simp [cj], Matrix.mul_zero, add_zero] at m1
  rw [v1, v2, Matrix.mul_zero, zero_add] at m2
  have hV1 : V * Vᴴ = 1 := by rw [← star_eq_conjTranspose]; exact Matrix.mem_unitaryGroup_iff.1 hV
  have hV2 : Vᴴ * V = 1 := mul_eq_one_comm.mp hV1
  have hi : (cS1 (S * interferometer V))⁻¹ = Vᴴ * (cS1 S)⁻¹ := by
    rw [m1, Matrix.mul_inv_rev, inv_eq_left_inv hV2]
  have hA : gketA (S * interferometer V) = gketA S := by
    unfold gketA
    rw [symplectic2Au_eq hSV, symplectic2Au_eq hS, toBlocks_fromBlocks₁₁, toBlocks_fromBlocks₁₁, hi, m2, cj_mul, ← Matrix.mul_assoc, Matrix.mul_assoc (cS2 S),
      ← cj_mul, hV1, show cj (1 : Matrix n n ℂ) = 1 by simp [cj], Matrix.mul_one]
  have hC : gketC (S * interferometer V) = gketC S := by
    have hd : ‖(Vᴴ).det‖ = 1 := by
      have := congrArg det hV1
      rw [det_mul, det_conjTranspose, det_one, Complex.star_def, Complex.mul_conj, Complex.normSq_eq_norm_sq] at this
      have h2 : ‖V.det‖ ^ 2 = 1 := by exact_mod_cast this
      rw [det_conjTranspose, norm_star]
      exact (pow_eq_one_iff_of_nonneg (norm_nonneg _) two_ne_zero).1 h2
    rw [gketC_eq, gketC_eq, fromSymplecticC_eq hSV, fromSymplecticC_eq hS, hi, det_mul, norm_mul, hd, one_mul]
  unfold gket
  rw [hA, hC]

/-- **C83 (`random_symplectic`)** The state made from a random symplectic matrix has `Σ sinh² r` photons on average. -/
theorem C83_photons {W V : Matrix n n ℂ} (hW : W ∈ Matrix.unitaryGroup n ℂ) (hV : V ∈ Matrix.unitaryGroup n ℂ) (r : n → ℝ) :
    ∑ i, opTr (numLeft (fun z w => gket (randomSymplectic W V r) z * (starRingEnd ℂ) (gket (randomSymplectic W V r) (star w))) i) =
      ((∑ i, Real.sinh (r i) ^ 2 : ℝ) : ℂ) := by
  have hS := C83_random hW hV r
  have one_pos' : (0 : ℝ) < 1 := one_pos
  rw [show (fun z w => gket (randomSymplectic W V r) z * (starRingEnd ℂ) (gket (randomSymplectic W V r) (star w))) =
    dmFromPhaseSpace 1 ((1 / 2 : ℝ) • (randomSymplectic W V r * (randomSymplectic W V r)ᵀ)) 0 1 from
      funext fun z => funext fun w => (C83_gket_state hS one_pos').1 z w]
  simp only [C65_number one_pos' (pure_posDef _ one_pos'), one_mul]
  rw [← Complex.ofReal_sum]
  refine congrArg _ ?_
  have oW := ((C40_interferometer W).1 hW).2
  have oV := ((C40_interferometer V).1 hV).2
  rw [Matrix.mem_orthogonalGroup_iff] at oV
  rw [Matrix.mem_orthogonalGroup_iff'] at oW
  have e : randomSymplectic W V r * (randomSymplectic W V r)ᵀ =
      interferometer W * diagonal (Sum.elim (fun i => Real.exp (-r i) ^ 2) fun i => Real.exp (r i) ^ 2) * (interferometer W)ᵀ := by
    unfold randomSymplectic
    rw [transpose_mul, transpose_mul, diagonal_transpose]
    have ed : (diagonal (Sum.elim (fun i => Real.exp (-r i) ^ 2) fun i => Real.exp (r i) ^ 2) : Matrix (n ⊕ n) (n ⊕ n) ℝ) =
        diagonal (Sum.elim (fun i => Real.exp (-r i)) fun i => Real.exp (r i)) * diagonal (Sum.elim (fun i => Real.exp (-r i)) fun i => Real.exp (r i)) := by
      rw [diagonal_mul_diagonal]
      congr 1
      funext i
      rcases i with i | i <;> simp [sq]
    rw [ed]
    set D : Matrix (n ⊕ n) (n ⊕ n) ℝ := diagonal (Sum.elim (fun i => Real.exp (-r i)) fun i => Real.exp (r i))
    calc interferometer W * D * interferometer V * ((interferometer V)ᵀ * (D * (interferometer W)ᵀ))
        = interferometer W * D * (interferometer V * (interferometer V)ᵀ) * (D * (interferometer W)ᵀ) := by simp only [Matrix.mul_assoc]
      _ = _ := by rw [oV, Matrix.mul_one]; simp only [Matrix.mul_assoc]
  have ht : (randomSymplectic W V r * (randomSymplectic W V r)ᵀ).trace = ∑ i, (Real.exp (-r i) ^ 2 + Real.exp (r i) ^ 2) := by
    rw [e, Matrix.mul_assoc, Matrix.trace_mul_comm, Matrix.mul_assoc]
    rw [oW, Matrix.mul_one, Matrix.trace_diagonal, Fintype.sum_sum_type, ← Finset.sum_add_distrib]
    rfl
  have ht2 : (randomSymplectic W V r * (randomSymplectic W V r)ᵀ).trace = ∑ i, ((randomSymplectic W V r * (randomSymplectic W V r)ᵀ) (.inl i) (.inl i) +
      (randomSymplectic W V r * (randomSymplectic W V r)ᵀ) (.inr i) (.inr i)) := by
    rw [Matrix.trace, Fintype.sum_sum_type, ← Finset.sum_add_distrib]; rfl
  have e3 : ∑ i, numberMeans 1 ((1 / 2 : ℝ) • (randomSymplectic W V r * (randomSymplectic W V r)ᵀ)) 0 i =
      1 / 4 * (randomSymplectic W V r * (randomSymplectic W V r)ᵀ).trace - ∑ i : n, (1 / 2 : ℝ) := by
    rw [ht2, Finset.mul_sum, ← Finset.sum_sub_distrib]
    refine Finset.sum_congr rfl fun i _ => ?_
    unfold numberMeans
    simp only [Matrix.smul_apply, smul_eq_mul, Pi.zero_apply]
    ring
  rw [e3, ht, Finset.mul_sum, ← Finset.sum_sub_distrib]
  refine Finset.sum_congr rfl fun i _ => ?_
  have e1 : Real.exp (r i) * Real.exp (-r i) = 1 := by rw [← Real.exp_add]; simp
  rw [Real.sinh_eq]
  linear_combination (1 / 2 : ℝ) * e1

/-! ## Examples -/

/-- A squeezed thermal state with mean photon number one before squeezing: the construction succeeds for every squeezing. -/
theorem C83_example (r φ : ℝ) :
    ∃ F, gdm (fun _ : Fin 1 => Real.log 2) (sqS r φ) = some F ∧ opTr F = 1 ∧ cothHalf (Real.log 2) = 3 ∧
      ∀ z w, F z w = dmFromPhaseSpace 2 (sqThermal r φ) 0 1 z w := by
  have hβ : ∀ i : Fin 1, 0 < (fun _ : Fin 1 => Real.log 2) i := fun _ => Real.log_pos (by norm_num)
  have e : Real.exp (-Real.log 2) = 1 / 2 := by rw [Real.exp_neg, Real.exp_log (by norm_num)]; norm_num
  have hS : Symplectic (sqS r φ) := (C64_squeezing [] (fun _ => r) (fun _ => φ) []).1
  have h := C83_gdm_finite hS hβ (by rw [Finset.prod_const]; simp only [e]; norm_num)
  obtain ⟨F, hF⟩ := Option.isSome_iff_exists.1 h
  have hc : cothHalf (Real.log 2) = 3 := by rw [cothHalf_eq (Real.log_pos (by norm_num)), e]; norm_num
  obtain ⟨h1, -, h3⟩ := C83_gdm_state hS hβ hF (ħ := 2) (by norm_num)
  refine ⟨F, hF, h3, hc, fun z w => ?_⟩
  rw [h1 z w]
  simp only [hc]
  rfl

/-- A random two-mode symplectic matrix built from two beam splitters. -/
theorem C83_random_example (θ φ r s : ℝ) : Symplectic (randomSymplectic (bsU θ φ) (bsU φ θ) ![r, s]) :=
  C83_random (bsU_unitary θ φ) (bsU_unitary φ θ) _

end Verif.Manifold
