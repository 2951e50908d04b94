import Verif.PhaseEvolve
import Verif.BargmannGates

/-!
# The gates of the library act on phase space (C69)
-/

namespace Verif.Manifold
open Matrix Verif.Gauss MeasureTheory
open scoped ComplexOrder MatrixOrder

variable {n : Type*} [Fintype n] [DecidableEq n]

/-- The Bargmann function of the displacement operator `D(β)`: `exp(-|β|²/2 + z·w + β·z - β̄·w)`. -/
noncomputable def dispOp (β z w : n → ℂ) : ℂ :=
  Complex.exp (-(∑ i, (‖β i‖ : ℂ) ^ 2) / 2 + ∑ i, z i * w i + ∑ i, β i * z i - ∑ i, (starRingEnd ℂ) (β i) * w i)

omit [DecidableEq n] in
theorem disp_left (β z w : n → ℂ) : dispOp β z w =
    Complex.exp (-(∑ i, (‖β i‖ : ℂ) ^ 2) / 2 + ∑ i, β i * z i) * opId (z - star β) w := by
  unfold dispOp opId
  rw [← Complex.exp_add]
  refine congrArg Complex.exp ?_
  simp only [Pi.sub_apply, sub_mul, Finset.sum_sub_distrib, Pi.star_apply, Complex.star_def]
  ring

omit [DecidableEq n] in
theorem disp_right (β u w : n → ℂ) : opAdj (dispOp β) u w =
    Complex.exp (-(∑ i, (‖β i‖ : ℂ) ^ 2) / 2 + ∑ i, (starRingEnd ℂ) (β i) * w i) * opAdj opId u (w - β) := by
  unfold dispOp opAdj opId
  rw [← Complex.exp_conj, ← Complex.exp_conj, ← Complex.exp_add]
  refine congrArg Complex.exp ?_
  simp only [map_sub, map_add, map_div₀, map_neg, map_sum, map_mul, map_pow, Complex.conj_ofReal, Complex.conj_ofNat, Pi.star_apply, Pi.sub_apply,
    Complex.star_def, Complex.conj_conj, sub_mul, Finset.sum_sub_distrib]
  ring

omit [DecidableEq n] in
theorem evolve_disp (β : n → ℂ) (ρ : (n → ℂ) → (n → ℂ) → ℂ) (z w : n → ℂ) :
    evolve (dispOp β) ρ z w = Complex.exp (-(∑ i, (‖β i‖ : ℂ) ^ 2) + ∑ i, β i * z i + ∑ i, (starRingEnd ℂ) (β i) * w i) *
      evolve opId ρ (z - star β) (w - β) := by
  have e : Complex.exp (-(∑ i, (‖β i‖ : ℂ) ^ 2) + ∑ i, β i * z i + ∑ i, (starRingEnd ℂ) (β i) * w i) =
      Complex.exp (-(∑ i, (‖β i‖ : ℂ) ^ 2) / 2 + ∑ i, β i * z i) *
        Complex.exp (-(∑ i, (‖β i‖ : ℂ) ^ 2) / 2 + ∑ i, (starRingEnd ℂ) (β i) * w i) := by
    rw [← Complex.exp_add]; refine congrArg Complex.exp ?_; ring
  rw [e]
  unfold evolve
  have h1 : ∀ x, opMul (dispOp β) ρ z x = Complex.exp (-(∑ i, (‖β i‖ : ℂ) ^ 2) / 2 + ∑ i, β i * z i) * opMul opId ρ (z - star β) x := by
    intro x
    unfold opMul
    rw [mul_left_comm, ← integral_const_mul (Complex.exp _)]
    refine congrArg _ (integral_congr_ae (.of_forall fun u => ?_))
    simp only [disp_left β z (star u)]
    ring
  rw [opMul]
  conv_rhs => rw [opMul]
  rw [mul_left_comm, ← integral_const_mul (Complex.exp _ * _)]
  refine congrArg _ (integral_congr_ae (.of_forall fun u => ?_))
  simp only [disp_right β u w, h1]
  ring

/-- The identity operator acts as the identity on Gaussian states. -/
theorem evolve_id {ħ : ℝ} (hħ : 0 < ħ) {cov : Matrix (n ⊕ n) (n ⊕ n) ℝ} (h : cov.PosDef) (μ : n ⊕ n → ℝ) (k : ℂ) (z w : n → ℂ) :
    evolve opId (dmFromPhaseSpace ħ cov μ k) z w = dmFromPhaseSpace ħ cov μ k z w := by
  have e : (opId : (n → ℂ) → (n → ℂ) → ℂ) = fromSymplectic 1 := funext fun z => funext fun v => (C64_one z v).symm
  rw [e, C69_evolve symplectic_one hħ h, Matrix.one_mul, transpose_one, Matrix.mul_one, Matrix.one_mulVec]

theorem point_add (ħ : ℝ) (α β : n → ℂ) : point ħ (α + β) = point ħ α + point ħ β := by
  unfold point
  funext r
  rcases r with i | i <;> simp [mul_add]

/-- Shifting the Bargmann function shifts the mean. -/
theorem dm_shift {ħ : ℝ} (hħ : 0 < ħ) {cov : Matrix (n ⊕ n) (n ⊕ n) ℝ} (h : (cov + (ħ / 2) • 1).PosDef) (μ : n ⊕ n → ℝ) (k : ℂ) (β z w : n → ℂ) :
    Complex.exp (-(∑ i, (‖β i‖ : ℂ) ^ 2) + ∑ i, β i * z i + ∑ i, (starRingEnd ℂ) (β i) * w i) *
      dmFromPhaseSpace ħ cov μ k (z - star β) (w - β) = dmFromPhaseSpace ħ cov (μ + point ħ β) k z w := by
  have d : Differentiable ℂ fun x : n ⊕ n → ℂ =>
      Complex.exp (-(∑ i, (‖β i‖ : ℂ) ^ 2) + ∑ i, β i * (x ∘ Sum.inr) i + ∑ i, (starRingEnd ℂ) (β i) * (x ∘ Sum.inl) i) *
        dmFromPhaseSpace ħ cov μ k (x ∘ Sum.inr - star β) (x ∘ Sum.inl - β) := by
    have h0 := C65_entire ħ cov μ k
    have h1 : Differentiable ℂ fun x : n ⊕ n → ℂ => x - Sum.elim β (star β) := differentiable_id.sub_const _
    have h2 := h0.comp h1
    refine Differentiable.mul ?_ ?_
    · simp only [Function.comp]; fun_prop
    · exact h2
  have hU := C65_unique d (C65_entire ħ cov (μ + point ħ β) k) (fun α => by
    simp only [Sum.elim_comp_inl, Sum.elim_comp_inr]
    have hne : Complex.exp (-∑ i, (‖α i‖ : ℂ) ^ 2) ≠ 0 := Complex.exp_ne_zero _
    refine mul_left_cancel₀ hne ?_
    have e1 := C65_husimi hħ h (μ + point ħ β) k α
    have e2 := C65_husimi hħ h μ k (α - β)
    rw [e1]
    have e3 : point ħ α - (μ + point ħ β) = point ħ (α - β) - μ := by
      have := point_add ħ (α - β) β
      rw [sub_add_cancel] at this
      rw [this]; abel
    rw [e3, ← e2, ← mul_assoc, ← Complex.exp_add, star_sub]
    refine congrArg (· * _) (congrArg Complex.exp ?_)
    rw [← Finset.sum_neg_distrib, ← Finset.sum_neg_distrib, ← Finset.sum_neg_distrib, ← Finset.sum_add_distrib, ← Finset.sum_add_distrib, ← Finset.sum_add_distrib]
    refine Finset.sum_congr rfl fun i _ => ?_
    simp only [Pi.star_apply, Complex.star_def, Pi.sub_apply, ← Complex.conj_mul', map_sub]
    ring)
  have := congrFun hU (Sum.elim w z)
  simpa only [Sum.elim_comp_inl, Sum.elim_comp_inr] using this

/-- **C69 (displacements)** `D(β) ρ D(β)†` has the same covariance matrix and the mean moved by `√(2ħ) (Re β, Im β)`. -/
theorem C69_displacement {ħ : ℝ} (hħ : 0 < ħ) {cov : Matrix (n ⊕ n) (n ⊕ n) ℝ} (h : cov.PosDef) (μ : n ⊕ n → ℝ) (k : ℂ) (β z w : n → ℂ) :
    evolve (dispOp β) (dmFromPhaseSpace ħ cov μ k) z w = dmFromPhaseSpace ħ cov (μ + point ħ β) k z w := by
  rw [evolve_disp, evolve_id hħ h, dm_shift hħ (cov_vac_posDef hħ h)]

/-- **C69 (gates)** A library gate that is the Gaussian unitary of `S` (C64) maps the state with moments `(cov, μ)` to the state with moments
`(S cov Sᵀ, S μ)`. -/
theorem C69_gate {m : ℕ} {f : Verif.PolyExp.PolyExp} {β : List ℕ} {S : Matrix (Fin m ⊕ Fin m) (Fin m ⊕ Fin m) ℝ} (hf : SameGate m f β S) {ħ : ℝ}
    (hħ : 0 < ħ) {cov : Matrix (Fin m ⊕ Fin m) (Fin m ⊕ Fin m) ℝ} (h : cov.PosDef) (μ : Fin m ⊕ Fin m → ℝ) (k : ℂ) (z w : Fin m → ℂ) :
    evolve (fun z w => f.call β (args z w)) (dmFromPhaseSpace ħ cov μ k) z w = dmFromPhaseSpace ħ (S * cov * Sᵀ) (S.mulVec μ) k z w := by
  have e : (fun z w => f.call β (args z w)) = fromSymplectic S := funext fun z => funext fun w => hf.2.2 z w
  rw [e, C69_evolve hf.1 hħ h]

/-- **C69 (rotations)** -/
theorem C69_rotation (B : List ℕ) (θ : List ℕ → ℝ) (β : List ℕ) {ħ : ℝ} (hħ : 0 < ħ) {cov : Matrix (Fin 1 ⊕ Fin 1) (Fin 1 ⊕ Fin 1) ℝ} (h : cov.PosDef)
    (μ : Fin 1 ⊕ Fin 1 → ℝ) (k : ℂ) (z w : Fin 1 → ℂ) :
    evolve (fun z w => (Verif.Triples.rotation B θ).call β (args z w)) (dmFromPhaseSpace ħ cov μ k) z w =
      dmFromPhaseSpace ħ (rotS (θ β) * cov * (rotS (θ β))ᵀ) ((rotS (θ β)).mulVec μ) k z w :=
  C69_gate (C64_rotation B θ β) hħ h μ k z w

/-- **C69 (squeezing)** -/
theorem C69_squeezing (B : List ℕ) (r φ : List ℕ → ℝ) (β : List ℕ) {ħ : ℝ} (hħ : 0 < ħ) {cov : Matrix (Fin 1 ⊕ Fin 1) (Fin 1 ⊕ Fin 1) ℝ} (h : cov.PosDef)
    (μ : Fin 1 ⊕ Fin 1 → ℝ) (k : ℂ) (z w : Fin 1 → ℂ) :
    evolve (fun z w => (Verif.Triples.squeezing B r φ).call β (args z w)) (dmFromPhaseSpace ħ cov μ k) z w =
      dmFromPhaseSpace ħ (sqS (r β) (φ β) * cov * (sqS (r β) (φ β))ᵀ) ((sqS (r β) (φ β)).mulVec μ) k z w :=
  C69_gate (C64_squeezing B r φ β) hħ h μ k z w

/-- **C69 (beam splitters)** -/
theorem C69_beamsplitter (B : List ℕ) (θ φ : List ℕ → ℝ) (β : List ℕ) {ħ : ℝ} (hħ : 0 < ħ) {cov : Matrix (Fin 2 ⊕ Fin 2) (Fin 2 ⊕ Fin 2) ℝ}
    (h : cov.PosDef) (μ : Fin 2 ⊕ Fin 2 → ℝ) (k : ℂ) (z w : Fin 2 → ℂ) :
    evolve (fun z w => (Verif.Triples.beamsplitter B θ φ).call β (args z w)) (dmFromPhaseSpace ħ cov μ k) z w =
      dmFromPhaseSpace ħ (interferometer (bsU (θ β) (φ β)) * cov * (interferometer (bsU (θ β) (φ β)))ᵀ)
        ((interferometer (bsU (θ β) (φ β))).mulVec μ) k z w :=
  C69_gate (C64_beamsplitter B θ φ β) hħ h μ k z w

/-- **C69 (two-mode squeezing)** -/
theorem C69_twoModeSqueezing (B : List ℕ) (r φ : List ℕ → ℝ) (β : List ℕ) {ħ : ℝ} (hħ : 0 < ħ) {cov : Matrix (Fin 2 ⊕ Fin 2) (Fin 2 ⊕ Fin 2) ℝ}
    (h : cov.PosDef) (μ : Fin 2 ⊕ Fin 2 → ℝ) (k : ℂ) (z w : Fin 2 → ℂ) :
    evolve (fun z w => (Verif.Triples.twoModeSqueezing B r φ).call β (args z w)) (dmFromPhaseSpace ħ cov μ k) z w =
      dmFromPhaseSpace ħ (tmsS (r β) (φ β) * cov * (tmsS (r β) (φ β))ᵀ) ((tmsS (r β) (φ β)).mulVec μ) k z w :=
  C69_gate (C64_twoModeSqueezing B r φ β) hħ h μ k z w

/-- **C69 (displacement gate)** The triple of `Dgate` is the displacement operator. -/
theorem C69_dgate (B : List ℕ) (α : List ℕ → ℂ) (β : List ℕ) {ħ : ℝ} (hħ : 0 < ħ) {cov : Matrix (Fin 1 ⊕ Fin 1) (Fin 1 ⊕ Fin 1) ℝ} (h : cov.PosDef)
    (μ : Fin 1 ⊕ Fin 1 → ℝ) (k : ℂ) (z w : Fin 1 → ℂ) :
    evolve (fun z w => (Verif.Triples.displacement B α).call β (args z w)) (dmFromPhaseSpace ħ cov μ k) z w =
      dmFromPhaseSpace ħ cov (μ + point ħ fun _ => α β) k z w := by
  have e : (fun z w : Fin 1 → ℂ => (Verif.Triples.displacement B α).call β (args z w)) = dispOp fun _ => α β := by
    funext z w
    unfold Verif.Triples.displacement dispOp
    rw [Verif.Triples.mk_call, ← Complex.exp_add]
    refine congrArg Complex.exp ?_
    simp [Finset.sum_range_succ, args, Verif.Triples.mat, Verif.Triples.vec]
    ring
  rw [e, C69_displacement hħ h]

end Verif.Manifold
