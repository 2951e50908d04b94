import Verif.PhaseFidelity

/-!
# Gaussian unitaries act on phase space by their symplectic matrix (C69)
-/

namespace Verif.Manifold
open Matrix Verif.Gauss MeasureTheory
open scoped ComplexOrder MatrixOrder

variable {n : Type*} [Fintype n] [DecidableEq n]

/-- The operator `U ρ U†`. -/
noncomputable def evolve (U ρ : (n → ℂ) → (n → ℂ) → ℂ) : (n → ℂ) → (n → ℂ) → ℂ := opMul (opMul U ρ) (opAdj U)

theorem pqVec_point {ħ : ℝ} (hħ : 0 < ħ) (α : n → ℂ) : pqVec ħ (point ħ α) = Sum.elim α (star α) := by
  have h2 : Real.sqrt 2 * Real.sqrt 2 = 2 := Real.mul_self_sqrt (by norm_num)
  have hs2 : (0 : ℝ) < Real.sqrt 2 := Real.sqrt_pos.2 (by norm_num)
  have hm : ∀ r, point ħ α r / Real.sqrt ħ = Real.sqrt 2 * Sum.elim (fun i => (α i).re) (fun i => (α i).im) r := by
    intro r
    have : 0 < Real.sqrt ħ := Real.sqrt_pos.2 hħ
    unfold point
    rw [Real.sqrt_mul (by norm_num : (0 : ℝ) ≤ 2)]
    field_simp
  unfold pqVec
  simp only [hm]
  have hs : ((Real.sqrt (1 / 2) : ℝ) : ℂ) * ((Real.sqrt 2 : ℝ) : ℂ) = 1 := by
    rw [← Complex.ofReal_mul, ← Real.sqrt_mul (by norm_num)]; norm_num
  unfold rotmat
  rw [Matrix.smul_mulVec]
  funext r
  have e : (fun r : n ⊕ n => ((Real.sqrt 2 * Sum.elim (fun i => (α i).re) (fun i => (α i).im) r : ℝ) : ℂ)) =
      Sum.elim (fun i => ((Real.sqrt 2 : ℝ) : ℂ) * (α i).re) (fun i => ((Real.sqrt 2 : ℝ) : ℂ) * (α i).im) := by
    funext r; rcases r with i | i <;> simp
  rw [e, fromBlocks_mulVec, Sum.elim_comp_inl, Sum.elim_comp_inr]
  rcases r with i | i
  · simp only [Pi.smul_apply, Sum.elim_inl, Pi.add_apply, Matrix.one_mulVec, Matrix.smul_mulVec, smul_eq_mul]
    have : (α i) = (α i).re + Complex.I * (α i).im := by apply Complex.ext <;> simp
    conv_rhs => rw [this]
    linear_combination ((α i).re + Complex.I * (α i).im) * hs
  · simp only [Pi.smul_apply, Sum.elim_inr, Pi.add_apply, Matrix.one_mulVec, Matrix.neg_mulVec, Matrix.smul_mulVec, smul_eq_mul, Pi.neg_apply, Pi.star_apply]
    have : star (α i) = (α i).re - Complex.I * (α i).im := by apply Complex.ext <;> simp
    rw [this]
    linear_combination ((α i).re - Complex.I * (α i).im) * hs

theorem pqVec_mul (ħ : ℝ) (S : Matrix (n ⊕ n) (n ⊕ n) ℝ) (m : n ⊕ n → ℝ) :
    pqVec ħ (S.mulVec m) = (rotmat n * toC S * (rotmat n)ᴴ).mulVec (pqVec ħ m) := by
  unfold pqVec
  rw [Matrix.mulVec_mulVec, Matrix.mul_assoc, rotmat_mul', Matrix.mul_one, ← Matrix.mulVec_mulVec]
  refine congrArg _ ?_
  funext r
  have : (fun r => ((m r / Real.sqrt ħ : ℝ) : ℂ)) = fun r => (((fun r => m r / Real.sqrt ħ) r : ℝ) : ℂ) := rfl
  rw [this, toC_mulVec]
  refine congrArg _ ?_
  simp only [Matrix.mulVec, dotProduct, Finset.sum_div, mul_div_assoc]

/-- The linear part of the pure state with the mean of a transformed coherent state. -/
theorem pure_B {S : Matrix (n ⊕ n) (n ⊕ n) ℝ} (hS : Symplectic S) {ħ : ℝ} (hħ : 0 < ħ) (α : n → ℂ) :
    rhoB ħ ((ħ / 2) • (S * Sᵀ)) (S.mulVec (point ħ α)) = Sum.elim ((cj ((cS1 S)⁻¹)ᴴ).mulVec (star α)) (((cS1 S)⁻¹)ᴴ.mulVec α) := by
  obtain ⟨h1, h2⟩ := pure_inv hS hħ
  unfold rhoB
  rw [pqVec_mul, Matrix.mulVec_mulVec, Matrix.inv_eq_left_inv h1, h2, pqVec_point hħ, fromBlocks_mulVec, Sum.elim_comp_inl, Sum.elim_comp_inr]
  have hst : ∀ (M : Matrix n n ℂ) (x : n → ℂ), star (M.mulVec x) = (cj M).mulVec (star x) := fun M x => by
    funext i; simp [Matrix.mulVec, dotProduct, cj]
  funext r
  rcases r with i | i
  · simp only [Pi.star_apply, Sum.elim_inl, Matrix.zero_mulVec, Pi.add_apply, Pi.zero_apply, add_zero]
    exact congrFun (hst _ α) i
  · simp only [Pi.star_apply, Sum.elim_inr, Matrix.zero_mulVec, Pi.add_apply, Pi.zero_apply, zero_add]
    have := congrFun (hst ((cS1 S)⁻¹)ᵀ (star α)) i
    rw [star_star, show cj ((cS1 S)⁻¹)ᵀ = ((cS1 S)⁻¹)ᴴ from rfl] at this
    exact this

/-- The operator `u, w ↦ U(u, v) conj(U(w̄, z̄))`. -/
theorem rank_one_dmFun {S : Matrix (n ⊕ n) (n ⊕ n) ℝ} (hS : Symplectic S) {ħ : ℝ} (hħ : 0 < ħ) (z v u w : n → ℂ) :
    fromSymplectic S u v * (starRingEnd ℂ) (fromSymplectic S (star w) (star z)) =
      dmFun (rhoA ħ ((ħ / 2) • (S * Sᵀ))) (Sum.elim ((cj ((cS1 S)⁻¹)ᴴ).mulVec z) (((cS1 S)⁻¹)ᴴ.mulVec v))
        (fromSymplectic S 0 v * (starRingEnd ℂ) (fromSymplectic S 0 (star z))) u w := by
  have hc : ∀ (M : Matrix n n ℂ) (x y : n → ℂ), (starRingEnd ℂ) (star x ⬝ᵥ M.mulVec (star y)) = x ⬝ᵥ (cj M).mulVec y := fun M x y => by
    simp only [dotProduct, mulVec, map_sum, map_mul, cj, Matrix.map_apply, Pi.star_apply, Complex.star_def, Complex.conj_conj]
  unfold fromSymplectic dmFun
  rw [pure_A hS hħ, symplectic2Au_eq hS]
  simp only [exponent_blocks _ _ _ _ (show (((cS1 S)⁻¹)ᴴ)ᵀ = cj (cS1 S)⁻¹ by rw [conjT_transpose])]
  have h0 : ∀ (M : Matrix n n ℂ), (0 : n → ℂ) ⬝ᵥ M.mulVec v = 0 := fun M => zero_dotProduct _
  simp only [zero_dotProduct, Matrix.mulVec_zero, mul_zero, zero_add, map_mul, ← Complex.exp_conj, map_add, hc]
  have hh : (starRingEnd ℂ) (1 / 2 : ℂ) = 1 / 2 := by simp [Complex.conj_ofNat]
  rw [hh]
  have e1 : Sum.elim w u ⬝ᵥ (fromBlocks (cj (cS2 S * cj (cS1 S)⁻¹)) 0 0 (cS2 S * cj (cS1 S)⁻¹)).mulVec (Sum.elim w u) =
      w ⬝ᵥ (cj (cS2 S * cj (cS1 S)⁻¹)).mulVec w + u ⬝ᵥ (cS2 S * cj (cS1 S)⁻¹).mulVec u := by
    rw [fromBlocks_mulVec, Sum.elim_comp_inl, Sum.elim_comp_inr, sumElim_dotProduct_sumElim]
    simp
  have e2 : Sum.elim ((cj ((cS1 S)⁻¹)ᴴ).mulVec z) (((cS1 S)⁻¹)ᴴ.mulVec v) ⬝ᵥ Sum.elim w u =
      w ⬝ᵥ (cj ((cS1 S)⁻¹)ᴴ).mulVec z + u ⬝ᵥ ((cS1 S)⁻¹)ᴴ.mulVec v := by
    rw [sumElim_dotProduct_sumElim, dotProduct_comm w, dotProduct_comm u]
  rw [e1, e2]
  set A := cS2 S * cj (cS1 S)⁻¹
  set B := ((cS1 S)⁻¹)ᴴ
  set D := -cj ((cS1 S)⁻¹ * cS2 S)
  simp only [mul_add, Complex.exp_add]
  ring

/-- **C69 (coherent states)** `U|α⟩` is the pure state with covariance `(ħ/2) S Sᵀ` and mean `S` times the mean of `|α⟩`. -/
theorem C69_coherent {S : Matrix (n ⊕ n) (n ⊕ n) ℝ} (hS : Symplectic S) {ħ : ℝ} (hħ : 0 < ħ) (α z w : n → ℂ) :
    fromSymplectic S z α * (starRingEnd ℂ) (fromSymplectic S (star w) α) =
      Complex.exp (∑ i, (‖α i‖ : ℂ) ^ 2) * dmFromPhaseSpace ħ ((ħ / 2) • (S * Sᵀ)) (S.mulVec (point ħ α)) 1 z w := by
  set k := fromSymplectic S 0 α * (starRingEnd ℂ) (fromSymplectic S 0 α)
  set c := rhoC ħ ((ħ / 2) • (S * Sᵀ)) (S.mulVec (point ħ α))
  have hp := pure_posDef S hħ
  have e1 : ∀ z w, fromSymplectic S z α * (starRingEnd ℂ) (fromSymplectic S (star w) α) =
      dmFun (rhoA ħ ((ħ / 2) • (S * Sᵀ))) (rhoB ħ ((ħ / 2) • (S * Sᵀ)) (S.mulVec (point ħ α))) k z w := fun z w => by
    have := rank_one_dmFun hS hħ (star α) α z w
    rw [star_star] at this
    rw [this, pure_B hS hħ]
  have hc0 : c ≠ 0 := by
    rw [show c = _ from rhoC_eq hħ hp _]
    have := Real.sqrt_pos.2 (vac_pos hħ hp).det_pos
    exact_mod_cast (mul_pos (inv_pos.2 this) (Real.exp_pos _)).ne'
  have e2 : ∀ z w, fromSymplectic S z α * (starRingEnd ℂ) (fromSymplectic S (star w) α) =
      dmFromPhaseSpace ħ ((ħ / 2) • (S * Sᵀ)) (S.mulVec (point ħ α)) (k / c) z w := fun z w => by
    rw [e1]
    unfold dmFun dmFromPhaseSpace
    show k * _ = k / c * (c * _)
    rw [← mul_assoc, div_mul_cancel₀ _ hc0]
  have t1 : opTr (fun z w => fromSymplectic S z α * (starRingEnd ℂ) (fromSymplectic S (star w) α)) = Complex.exp (∑ i, (‖α i‖ : ℂ) ^ 2) := by
    have := C64_isometry S hS (star α) α
    unfold opMul opAdj opId at this
    unfold opTr
    rw [show (∑ i, (‖α i‖ : ℂ) ^ 2) = ∑ i, star α i * α i by
      refine Finset.sum_congr rfl fun i _ => ?_
      rw [Pi.star_apply, Complex.star_def, mul_comm, Complex.mul_conj, Complex.normSq_eq_norm_sq]; push_cast; rfl, ← this]
    refine congrArg _ (integral_congr_ae (.of_forall fun u => ?_))
    simp only [star_star]
    ring
  have t2 : opTr (fun z w => fromSymplectic S z α * (starRingEnd ℂ) (fromSymplectic S (star w) α)) = k / c := by
    rw [show (fun z w => fromSymplectic S z α * (starRingEnd ℂ) (fromSymplectic S (star w) α)) =
      dmFromPhaseSpace ħ ((ħ / 2) • (S * Sᵀ)) (S.mulVec (point ħ α)) (k / c) from funext fun z => funext fun w => e2 z w, C65_trace hħ hp]
  rw [e2, ← t2, t1]
  unfold dmFromPhaseSpace
  ring

/-- `U ρ U†` as a trace. -/
theorem evolve_trace {S S' : Matrix (n ⊕ n) (n ⊕ n) ℝ} (hS : Symplectic S) (hi : S * S' = 1) {ħ : ℝ} (hħ : 0 < ħ) (ρ : (n → ℂ) → (n → ℂ) → ℂ) (z v : n → ℂ) :
    evolve (fromSymplectic S) ρ z v =
      opTr (opMul (fun u w => fromSymplectic S' u v * (starRingEnd ℂ) (fromSymplectic S' (star w) (star z))) ρ) := by
  have hS' := (C64_inverse S S' hS hi 0 0).1
  have hadj : ∀ z v, opAdj (fromSymplectic S) z v = fromSymplectic S' z v := fun z v => (C64_inverse S S' hS hi z v).2.symm
  have hadj' : ∀ w, fromSymplectic S z w = (starRingEnd ℂ) (fromSymplectic S' (star w) (star z)) := fun w => by
    rw [← hadj]; unfold opAdj; simp
  unfold evolve opTr
  conv_lhs => unfold opMul
  refine congrArg _ (integral_congr_ae (.of_forall fun u => ?_))
  simp only [hadj]
  refine congrArg (· * _) ?_
  unfold opMul
  rw [mul_assoc, ← integral_mul_const]
  refine congrArg _ (integral_congr_ae (.of_forall fun t => ?_))
  simp only [hadj']
  ring

theorem overlap_W {p : Type*} [Fintype p] [DecidableEq p] {P Q : Matrix p p ℂ} (sP : Shrinks P) (sQ : Shrinks Q) : ∃ W, (1 - Q * P) * W = 1 := by
  have hd : (1 - Q * P).det ≠ 0 := by
    intro e
    obtain ⟨x, hx, h⟩ := Matrix.exists_mulVec_eq_zero_iff.2 e
    rw [Matrix.sub_mulVec, Matrix.one_mulVec, sub_eq_zero, ← Matrix.mulVec_mulVec] at h
    have h1 := sP x hx
    by_cases h0 : P.mulVec x = 0
    · rw [h0, Matrix.mulVec_zero] at h
      exact hx h
    · have h2 := sQ _ h0
      rw [← h] at h2
      exact absurd (h1.trans h2) (lt_irrefl _)
  exact ⟨(1 - Q * P)⁻¹, Matrix.mul_nonsing_inv _ hd.isUnit⟩

/-- `U ρ U†` has an entire Bargmann function. -/
theorem evolve_entire {S S' : Matrix (n ⊕ n) (n ⊕ n) ℝ} (hS : Symplectic S) (hi : S * S' = 1) {ħ : ℝ} (hħ : 0 < ħ)
    {cov : Matrix (n ⊕ n) (n ⊕ n) ℝ} (h : cov.PosDef) (μ : n ⊕ n → ℝ) (k : ℂ) :
    Differentiable ℂ fun x : n ⊕ n → ℂ => evolve (fromSymplectic S) (dmFromPhaseSpace ħ cov μ k) (x ∘ Sum.inr) (x ∘ Sum.inl) := by
  have hS' := (C64_inverse S S' hS hi 0 0).1
  have hpc := pure_cov_posDef hS' hħ
  have sP := (shrinks_rhoA hħ hpc).1
  have sQ := (shrinks_rhoA hħ h).2
  have hP : (rhoA ħ ((ħ / 2) • (S' * S'ᵀ)))ᵀ = rhoA ħ ((ħ / 2) • (S' * S'ᵀ)) := (rhoA_herm hħ (cov_vac_posDef hħ hpc)).1
  have hQ0 : (rhoA ħ cov)ᵀ = rhoA ħ cov := (rhoA_herm hħ (cov_vac_posDef hħ h)).1
  have hQ : (Xmat n * rhoA ħ cov * Xmat n)ᵀ = Xmat n * rhoA ħ cov * Xmat n := by
    rw [transpose_mul, transpose_mul, Xmat_T, hQ0, Matrix.mul_assoc]
  obtain ⟨W, hW⟩ := overlap_W sP sQ
  have key : ∀ z v, evolve (fromSymplectic S) (dmFromPhaseSpace ħ cov μ k) z v = _ := fun z v => by
    rw [evolve_trace hS hi hħ,
      show (fun u w => fromSymplectic S' u v * (starRingEnd ℂ) (fromSymplectic S' (star w) (star z))) =
        dmFun (rhoA ħ ((ħ / 2) • (S' * S'ᵀ))) (Sum.elim ((cj ((cS1 S')⁻¹)ᴴ).mulVec z) (((cS1 S')⁻¹)ᴴ.mulVec v))
          (fromSymplectic S' 0 v * (starRingEnd ℂ) (fromSymplectic S' 0 (star z))) from
        funext fun u => funext fun w => rank_one_dmFun hS' hħ z v u w,
      show dmFromPhaseSpace ħ cov μ k = dmFun (rhoA ħ cov) (rhoB ħ cov μ) (k * rhoC ħ cov μ) from
        funext fun u => funext fun w => dm_dmFun cov μ k u w,
      trace_mul hP hQ0 sP sQ, gauss_overlap hP hQ sP sQ hW]
  simp only [key]
  have hconj : ∀ z : n → ℂ, (starRingEnd ℂ) (fromSymplectic S' 0 (star z)) = (starRingEnd ℂ) (fromSymplecticC S') *
      Complex.exp (1 / 2 * (z ⬝ᵥ (cj ((symplectic2Au S').toBlocks₂₂)).mulVec z)) := fun z => by
    unfold fromSymplectic
    rw [map_mul, ← Complex.exp_conj]
    refine congrArg (HMul.hMul _) (congrArg Complex.exp ?_)
    conv_lhs => rw [← fromBlocks_toBlocks (symplectic2Au S')]
    rw [fromBlocks_mulVec, Sum.elim_comp_inl, Sum.elim_comp_inr, sumElim_dotProduct_sumElim, zero_dotProduct, zero_add, Matrix.mulVec_zero, zero_add,
      map_mul]
    have hh : (starRingEnd ℂ) (1 / 2 : ℂ) = 1 / 2 := by simp [Complex.conj_ofNat]
    rw [hh]
    refine congrArg _ ?_
    simp only [dotProduct, mulVec, map_sum, map_mul, cj, Matrix.map_apply, Pi.star_apply, Complex.star_def, Complex.conj_conj]
  simp only [hconj]
  unfold fromSymplectic
  have dv : ∀ (M : Matrix (n ⊕ n) (n ⊕ n) ℂ) (f g : (n ⊕ n → ℂ) → (n ⊕ n) → ℂ), (∀ i, Differentiable ℂ fun x => f x i) →
      (∀ i, Differentiable ℂ fun x => g x i) → Differentiable ℂ fun x => f x ⬝ᵥ M.mulVec (g x) := by
    intro M f g hf hg
    simp only [dotProduct, mulVec]
    refine Differentiable.fun_sum fun i _ => (hf i).mul (Differentiable.fun_sum fun j _ => (hg j).const_mul _)
  have d1 : ∀ i : n ⊕ n, Differentiable ℂ fun x : n ⊕ n → ℂ =>
      (Sum.elim ((cj ((cS1 S')⁻¹)ᴴ).mulVec (x ∘ Sum.inr)) (((cS1 S')⁻¹)ᴴ.mulVec (x ∘ Sum.inl)) : n ⊕ n → ℂ) i := by
    intro i
    rcases i with i | i
    · simp only [Sum.elim_inl, mulVec, dotProduct, Function.comp]; fun_prop
    · simp only [Sum.elim_inr, mulVec, dotProduct, Function.comp]; fun_prop
  have d2 : ∀ i : n ⊕ n, Differentiable ℂ fun x : n ⊕ n → ℂ => (Sum.elim 0 (x ∘ Sum.inl) : n ⊕ n → ℂ) i := by
    intro i
    rcases i with i | i
    · simp only [Sum.elim_inl]; fun_prop
    · simp only [Sum.elim_inr, Function.comp]; fun_prop
  have d3 : Differentiable ℂ fun x : n ⊕ n → ℂ => (x ∘ Sum.inr) ⬝ᵥ (cj ((symplectic2Au S').toBlocks₂₂)).mulVec (x ∘ Sum.inr) := by
    simp only [dotProduct, mulVec, Function.comp]; fun_prop
  have d4 : ∀ i : n ⊕ n, Differentiable ℂ fun _ : n ⊕ n → ℂ => (Xmat n).mulVec (rhoB ħ cov μ) i := fun i => differentiable_const _
  have q1 := dv (symplectic2Au S') _ _ d2 d2
  have q2 := dv (W * (Xmat n * rhoA ħ cov * Xmat n)) _ _ d1 d1
  have q3 := dv W _ _ d1 d4
  refine Differentiable.mul (Differentiable.mul (Differentiable.mul ((q1.const_mul _).cexp.const_mul _) ((d3.const_mul _).cexp.const_mul _))
    (differentiable_const _)) (Differentiable.mul (differentiable_const _) ?_)
  exact (((q2.const_mul _).add q3).add (differentiable_const _)).cexp

/-- **C69 (Gaussian unitaries)** `U ρ U†`, for `U` the unitary of the symplectic matrix `S` and `ρ` the Gaussian state with covariance `cov` and mean `μ`,
is the Gaussian state with covariance `S cov Sᵀ` and mean `S μ`. -/
theorem C69_evolve {S : Matrix (n ⊕ n) (n ⊕ n) ℝ} (hS : Symplectic S) {ħ : ℝ} (hħ : 0 < ħ)
    {cov : Matrix (n ⊕ n) (n ⊕ n) ℝ} (h : cov.PosDef) (μ : n ⊕ n → ℝ) (k : ℂ) (z w : n → ℂ) :
    evolve (fromSymplectic S) (dmFromPhaseSpace ħ cov μ k) z w = dmFromPhaseSpace ħ (S * cov * Sᵀ) (S.mulVec μ) k z w := by
  have hu : IsUnit S.det := by
    refine isUnit_iff_ne_zero.2 fun e => ?_
    have := symp_det hS
    rw [e, mul_zero] at this
    exact zero_ne_one this
  have hi : S * S⁻¹ = 1 := mul_nonsing_inv _ hu
  have hi' : S⁻¹ * S = 1 := nonsing_inv_mul _ hu
  have hS' := (C64_inverse S S⁻¹ hS hi 0 0).1
  have hST : IsUnit S := (Matrix.isUnit_iff_isUnit_det _).2 hu
  have hcov' : (S * cov * Sᵀ).PosDef := by
    have := (IsUnit.posDef_star_right_conjugate_iff hST (x := cov)).2 h
    rwa [star_eq_conjTranspose, conjTranspose_eq_transpose_of_trivial] at this
  have hpc := pure_cov_posDef hS' hħ
  have e12 : S * ((ħ / 2) • (S⁻¹ * (S⁻¹)ᵀ) + cov) * Sᵀ = S * cov * Sᵀ + (ħ / 2) • 1 := by
    rw [Matrix.mul_add, Matrix.add_mul, Matrix.mul_smul, Matrix.smul_mul, ← Matrix.mul_assoc S, hi, Matrix.one_mul, ← transpose_mul, hi, transpose_one, add_comm]
  have key : ∀ α : n → ℂ, evolve (fromSymplectic S) (dmFromPhaseSpace ħ cov μ k) (star α) α = dmFromPhaseSpace ħ (S * cov * Sᵀ) (S.mulVec μ) k (star α) α := by
    intro α
    have hh := C65_husimi hħ (cov_vac_posDef hħ hcov') (S.mulVec μ) k α
    have hne : Complex.exp (-∑ i, (‖α i‖ : ℂ) ^ 2) ≠ 0 := Complex.exp_ne_zero _
    refine mul_left_cancel₀ hne ?_
    rw [hh, evolve_trace hS hi hħ, star_star]
    have e : (fun u w => fromSymplectic S⁻¹ u α * (starRingEnd ℂ) (fromSymplectic S⁻¹ (star w) α)) =
        dmFromPhaseSpace ħ ((ħ / 2) • (S⁻¹ * (S⁻¹)ᵀ)) (S⁻¹.mulVec (point ħ α)) (Complex.exp (∑ i, (‖α i‖ : ℂ) ^ 2)) := by
      funext u w
      rw [C69_coherent hS' hħ]
      unfold dmFromPhaseSpace
      ring
    rw [e, C67_overlap hħ hpc h, ← mul_assoc, ← mul_assoc, ← Complex.exp_add, neg_add_cancel, Complex.exp_zero, one_mul]
    refine congrArg _ (congrArg _ (congrArg₂ (· * ·) ?_ (congrArg Real.exp ?_)))
    · refine congrArg (fun x => _ / Real.sqrt x) ?_
      rw [← e12, det_mul, det_mul, det_transpose]
      have := symp_det hS
      linear_combination (-((ħ / 2) • (S⁻¹ * (S⁻¹)ᵀ) + cov).det) * this
    · refine congrArg _ ?_
      have hd : IsUnit ((ħ / 2) • (S⁻¹ * (S⁻¹)ᵀ) + cov).det := (hpc.add h).det_pos.ne'.isUnit
      have e3 : S⁻¹.mulVec (point ħ α) - μ = S⁻¹.mulVec (point ħ α - S.mulVec μ) := by
        rw [Matrix.mulVec_sub, Matrix.mulVec_mulVec, hi', Matrix.one_mulVec]
      have e4 : (S * cov * Sᵀ + (ħ / 2) • 1)⁻¹ = (S⁻¹)ᵀ * ((ħ / 2) • (S⁻¹ * (S⁻¹)ᵀ) + cov)⁻¹ * S⁻¹ := by
        refine Matrix.inv_eq_right_inv ?_
        rw [← e12]
        generalize (ħ / 2) • (S⁻¹ * (S⁻¹)ᵀ) + cov = X at hd
        calc S * X * Sᵀ * ((S⁻¹)ᵀ * X⁻¹ * S⁻¹) = S * X * (Sᵀ * (S⁻¹)ᵀ) * X⁻¹ * S⁻¹ := by simp only [Matrix.mul_assoc]
          _ = S * (X * X⁻¹) * S⁻¹ := by rw [← transpose_mul, hi', transpose_one, Matrix.mul_one, Matrix.mul_assoc S]
          _ = 1 := by rw [Matrix.mul_nonsing_inv _ hd, Matrix.mul_one, hi]
      rw [e3, e4, ← Matrix.mulVec_mulVec, ← Matrix.mulVec_mulVec, Matrix.dotProduct_mulVec _ (S⁻¹)ᵀ, ← Matrix.mulVec_transpose, transpose_transpose]
  have hU := C65_unique (evolve_entire hS hi hħ h μ k) (C65_entire ħ (S * cov * Sᵀ) (S.mulVec μ) k) (fun α => by
    simp only [Sum.elim_comp_inl, Sum.elim_comp_inr]
    exact key α)
  have := congrFun hU (Sum.elim w z)
  simpa only [Sum.elim_comp_inl, Sum.elim_comp_inr] using this

end Verif.Manifold
