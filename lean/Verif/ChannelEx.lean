import Verif.ChannelNamed

/-!
# Concrete channels for C73 - C76
-/

namespace Verif.Manifold
open Matrix Verif.Gauss MeasureTheory
open scoped ComplexOrder MatrixOrder

variable {p q r : Type*} [Fintype p] [DecidableEq p] [Fintype q] [DecidableEq q] [Fintype r] [DecidableEq r]

/-- **C76 (composition)** One channel after the other: `X = X₂ X₁` and `Y = X₂ Y₁ X₂ᵀ + Y₂`, on the states whose intermediate covariance matrix is positive definite. -/
theorem C76_compose {ħ : ℝ} {Φ₁ : (p → ℂ) → (q → ℂ) → (p → ℂ) → (q → ℂ) → ℂ} {Φ₂ : (r → ℂ) → (p → ℂ) → (r → ℂ) → (p → ℂ) → ℂ} {X₁ : Matrix (p ⊕ p) (q ⊕ q) ℝ}
    {Y₁ : Matrix (p ⊕ p) (p ⊕ p) ℝ} {X₂ : Matrix (r ⊕ r) (p ⊕ p) ℝ} {Y₂ : Matrix (r ⊕ r) (r ⊕ r) ℝ} (h₁ : ActsAs ħ Φ₁ X₁ Y₁) (h₂ : ActsAs ħ Φ₂ X₂ Y₂)
    {cov : Matrix (q ⊕ q) (q ⊕ q) ℝ} (h : cov.PosDef) (h' : (X₁ * cov * X₁ᵀ + Y₁).PosDef) (μ : q ⊕ q → ℝ) (k : ℂ) (z w : r → ℂ) :
    applyCh Φ₂ (applyCh Φ₁ (dmFromPhaseSpace ħ cov μ k)) z w =
      dmFromPhaseSpace ħ ((X₂ * X₁) * cov * (X₂ * X₁)ᵀ + (X₂ * Y₁ * X₂ᵀ + Y₂)) ((X₂ * X₁).mulVec μ) k z w := by
  have e : applyCh Φ₁ (dmFromPhaseSpace ħ cov μ k) = dmFromPhaseSpace ħ (X₁ * cov * X₁ᵀ + Y₁) (X₁.mulVec μ) k := by
    funext z w
    exact h₁ cov h μ k z w
  rw [e, h₂ _ h', Matrix.mulVec_mulVec]
  have e' : X₂ * (X₁ * cov * X₁ᵀ + Y₁) * X₂ᵀ + Y₂ = (X₂ * X₁) * cov * (X₂ * X₁)ᵀ + (X₂ * Y₁ * X₂ᵀ + Y₂) := by
    rw [Matrix.mul_add, Matrix.add_mul, transpose_mul, add_assoc]
    simp only [Matrix.mul_assoc]
  rw [e']

/-! ## Examples -/

/-- The pure-loss channel with transmissivity `1/2` on any modes, in units with `ħ = 2`. -/
theorem ex_loss_psd : ((1 / 2 : ℝ) • (1 : Matrix (p ⊕ p) (p ⊕ p) ℝ)).PosSemidef := PosSemidef.one.smul (by norm_num)

/-- C73: the displaced state with covariance `3` goes to the one with covariance `3/2 + 1/2`. -/
example (μ : p ⊕ p → ℝ) (k : ℂ) (z w : p → ℂ) :
    applyCh (fromXY 2 (Real.sqrt (1 / 2) • (1 : Matrix (p ⊕ p) (p ⊕ p) ℝ)) ((1 / 2 : ℝ) • 1) 0) (dmFromPhaseSpace 2 ((3 : ℝ) • (1 : Matrix (p ⊕ p) (p ⊕ p) ℝ)) μ k) z w =
      dmFromPhaseSpace 2 ((2 : ℝ) • (1 : Matrix (p ⊕ p) (p ⊕ p) ℝ)) (Real.sqrt (1 / 2) • μ) k z w := by
  rw [C73_action (by norm_num) _ ex_loss_psd (PosDef.one.smul (by norm_num))]
  have e : (Real.sqrt (1 / 2) • (1 : Matrix (p ⊕ p) (p ⊕ p) ℝ)) * ((3 : ℝ) • (1 : Matrix (p ⊕ p) (p ⊕ p) ℝ)) * (Real.sqrt (1 / 2) • (1 : Matrix (p ⊕ p) (p ⊕ p) ℝ))ᵀ + (1 / 2 : ℝ) • 1 =
      (2 : ℝ) • (1 : Matrix (p ⊕ p) (p ⊕ p) ℝ) := by
    rw [transpose_smul, transpose_one, Matrix.smul_mul, Matrix.smul_mul, Matrix.one_mul, Matrix.mul_smul, Matrix.mul_one, smul_smul, smul_smul, ← add_smul,
      Real.mul_self_sqrt (by norm_num)]
    norm_num
  rw [e, Matrix.smul_mulVec, Matrix.one_mulVec]

/-- C74: the pure-loss channel is accepted by `is_CP`, the noiseless amplifier with gain `4` is not. -/
theorem ex_cp : (∀ atol : ℝ, 0 < atol → isCP atol (xyA 2 (Real.sqrt (1 / 2) • (1 : Matrix (Fin 1 ⊕ Fin 1) (Fin 1 ⊕ Fin 1) ℝ)) ((1 / 2 : ℝ) • 1))) ∧
    ¬ ∀ atol : ℝ, 0 < atol → isCP atol (xyA 2 ((2 : ℝ) • (1 : Matrix (Fin 1 ⊕ Fin 1) (Fin 1 ⊕ Fin 1) ℝ)) ((0 : ℝ) • 1)) := by
  rw [C76_quantum_limit (by norm_num) (by norm_num), C76_quantum_limit (by norm_num) le_rfl, Real.sq_sqrt (by norm_num)]
  refine ⟨?_, ?_⟩ <;> norm_num [abs_of_pos, abs_of_neg]

/-- C75: the hypotheses of `C75_action` hold for the channels of `from_XY` that `is_CP` accepts. -/
theorem C75_action_from_XY {ħ : ℝ} (hħ : 0 < ħ) (X : Matrix (p ⊕ p) (q ⊕ q) ℝ) {Y : Matrix (p ⊕ p) (p ⊕ p) ℝ} (hξ : (xyXi ħ X Y).PosDef)
    (hcp : ∀ atol : ℝ, 0 < atol → isCP atol (xyA ħ X Y)) {atol : ℝ} (h0 : 0 ≤ atol) :
    ∃ X' Y', xyOf atol ħ (xyA ħ X Y) = some (X', Y') ∧ Y'.PosSemidef ∧ ∃ d, ∀ cov : Matrix (q ⊕ q) (q ⊕ q) ℝ, cov.PosDef → ∀ μ k z w,
      applyCh (fromXY ħ X Y 0) (dmFromPhaseSpace ħ cov μ k) z w = dmFromPhaseSpace ħ (X' * cov * X'ᵀ + Y') (X'.mulVec μ + d) k z w := by
  obtain ⟨hs, hA⟩ := xyA_herm X hξ
  have hc : 0 < xyC ħ X Y 0 := by
    unfold xyC
    have := hξ.det_pos
    positivity
  exact C75_action hħ hs hA (xyB_herm ħ X Y 0) hc (xyA_out X hξ) ((C75_from_XY hħ X hξ 0).2 (Matrix.mulVec_zero _)) ((C74_choi hs hA (xyB_herm ħ X Y 0) hc).1 hcp) h0

/-- C75: the identity channel of `Channel.from_XY`, with a displacement, in units with `ħ = 2`: `is_TP` is true, but for `d ≠ 0` the channel is not trace preserving. -/
theorem ex_tp (d : Fin 1 ⊕ Fin 1 → ℝ) (hd : d ≠ 0) {atol : ℝ} (h0 : 0 < atol) :
    isTP atol (xyA 2 ((1 : ℝ) • (1 : Matrix (Fin 1 ⊕ Fin 1) (Fin 1 ⊕ Fin 1) ℝ)) ((0 : ℝ) • 1)) = some True ∧
      ¬ TracePres (fromXY 2 ((1 : ℝ) • (1 : Matrix (Fin 1 ⊕ Fin 1) (Fin 1 ⊕ Fin 1) ℝ)) ((0 : ℝ) • 1) d) := by
  have hξ := xyXi_pos (by norm_num : (0 : ℝ) < 2) ((1 : ℝ) • (1 : Matrix (Fin 1 ⊕ Fin 1) (Fin 1 ⊕ Fin 1) ℝ)) (smul_one_psd (n := Fin 1 ⊕ Fin 1) le_rfl)
  obtain ⟨e1, e2⟩ := xyA_scalar (n := Fin 1) (ħ := 2) (s := 1) (y := 0) (t := 1) (by norm_num) one_pos
  constructor
  · refine C75_is_TP_from_XY (by norm_num) _ hξ rfl (fun a => ?_) h0
    unfold isTP
    rw [if_neg]
    · simp
    · rw [e2, toBlocks_fromBlocks₁₂]
      simp
  · rw [C75_from_XY (by norm_num) _ hξ, e1]
    simpa using hd

/-- C75: preparing the vacuum (no input modes) is a trace preserving map with another number of output than input modes, in units with `ħ = 2`. -/
theorem ex_prepare : TPMatrix (xyA 2 (0 : Matrix (Fin 1 ⊕ Fin 1) (Fin 0 ⊕ Fin 0) ℝ) 1) ∧
    ¬ ∀ atol : ℝ, 0 < atol → isTP atol (xyA 2 (0 : Matrix (Fin 1 ⊕ Fin 1) (Fin 0 ⊕ Fin 0) ℝ) 1) = some True := by
  have hξ := xyXi_pos (by norm_num : (0 : ℝ) < 2) (0 : Matrix (Fin 1 ⊕ Fin 1) (Fin 0 ⊕ Fin 0) ℝ) (PosSemidef.one (n := Fin 1 ⊕ Fin 1))
  obtain ⟨hs, hA⟩ := xyA_herm (0 : Matrix (Fin 1 ⊕ Fin 1) (Fin 0 ⊕ Fin 0) ℝ) hξ
  have h : TPMatrix (xyA 2 (0 : Matrix (Fin 1 ⊕ Fin 1) (Fin 0 ⊕ Fin 0) ℝ) 1) :=
    ⟨xyB 2 _ _ 0, xyC 2 _ _ 0, xyB_herm 2 _ _ 0, (C75_from_XY (by norm_num) _ hξ 0).2 (Matrix.mulVec_zero _)⟩
  exact ⟨h, C75_is_TP_shape hs hA (xyA_out _ hξ) (by simp) h⟩

/-- C76: `Attenuator(0, 1/2)` and `Amplifier(0, 4)` are accepted. -/
example : (∃ f, Verif.Triples.attenuator [] (fun _ => 1 / 2) = some f) ∧ ∃ f, Verif.Triples.amplifier [] (fun _ => 4) = some f :=
  ⟨⟨_, Verif.Triples.attenuator_def fun _ _ => by norm_num⟩, ⟨_, Verif.Triples.amplifier_def fun _ _ => by norm_num⟩⟩

end Verif.Manifold
