import Verif.ChannelTP
import Verif.BargmannGates
import Verif.TriplesLaws

/-!
# Named Gaussian channels (C76)

`Attenuator`, `Amplifier` and `GaussRandNoise`: `mrmustard/physics/triples.py` 597-676, 708-759, `mrmustard/lab/transformations/gaussrandnoise.py` 68-92.
-/

namespace Verif.Manifold
open Matrix Verif.Gauss MeasureTheory
open scoped ComplexOrder MatrixOrder

variable {n : Type*} [Fintype n] [DecidableEq n]

/-! ## Model -/

/-- `xi` in `gaussian_random_noise_Abc` (`mrmustard/physics/triples.py` 721). -/
noncomputable def grnXi (ħ : ℝ) (Y : Matrix (n ⊕ n) (n ⊕ n) ℝ) : Matrix (n ⊕ n) (n ⊕ n) ℝ := 1 + Y.map (· / ħ)

/-- The `A` matrix of `gaussian_random_noise_Abc` (`mrmustard/physics/triples.py` 722-754); its matrix `R` is the one of `XY_to_channel_Abc`. -/
noncomputable def grnA (ħ : ℝ) (Y : Matrix (n ⊕ n) (n ⊕ n) ℝ) : Matrix ((n ⊕ n) ⊕ (n ⊕ n)) ((n ⊕ n) ⊕ (n ⊕ n)) ℂ :=
  Xmat (n ⊕ n) * xyR n n * toC (fromBlocks (1 - (grnXi ħ Y)⁻¹) (grnXi ħ Y)⁻¹ (grnXi ħ Y)⁻¹ (1 - (grnXi ħ Y)⁻¹)) * (xyR n n)ᴴ

/-- `GaussRandNoise(modes, Y)` (`mrmustard/lab/transformations/gaussrandnoise.py` 68-92, `mrmustard/physics/triples.py` 755-759): `none` is the ValueError for
eigenvalues with real part below `-ATOL`. -/
noncomputable def gaussRandNoise (atol ħ : ℝ) (Y : Matrix (n ⊕ n) (n ⊕ n) ℝ) : Option ((n → ℂ) → (n → ℂ) → (n → ℂ) → (n → ℂ) → ℂ) :=
  open Classical in
  if ∃ x : ℂ, (x • (1 : Matrix (n ⊕ n) (n ⊕ n) ℂ) - toC Y).det = 0 ∧ x.re < -atol then none
  else some (chanFun (grnA ħ Y) 0 ((1 / Real.sqrt (grnXi ħ Y).det : ℝ) : ℂ))

/-- The arguments of a single-mode channel with its wires in standard order: output bra, input bra, output ket, input ket. -/
def chArgs (z z' w w' : Fin 1 → ℂ) : ℕ → ℂ := Verif.Triples.vec [w 0, w' 0, z 0, z' 0]

/-- The matrix `A` of a single-mode channel, at the batch index `β`. -/
def chA (f : Verif.PolyExp.PolyExp) (β : List ℕ) : Matrix ((Fin 1 ⊕ Fin 1) ⊕ (Fin 1 ⊕ Fin 1)) ((Fin 1 ⊕ Fin 1) ⊕ (Fin 1 ⊕ Fin 1)) ℂ :=
  fun i j => f.A β (i.elim (Sum.elim (fun _ => 0) fun _ => 1) (Sum.elim (fun _ => 2) fun _ => 3)) (j.elim (Sum.elim (fun _ => 0) fun _ => 1) (Sum.elim (fun _ => 2) fun _ => 3))

/-! ## Specification -/

/-- Phase-space description of a channel: `cov ↦ X cov Xᵀ + Y`, `μ ↦ X μ`, with the coefficient unchanged, on all Gaussian states. -/
def ActsAs {p q : Type*} [Fintype p] [DecidableEq p] [Fintype q] [DecidableEq q] (ħ : ℝ) (Φ : (p → ℂ) → (q → ℂ) → (p → ℂ) → (q → ℂ) → ℂ)
    (X : Matrix (p ⊕ p) (q ⊕ q) ℝ) (Y : Matrix (p ⊕ p) (p ⊕ p) ℝ) : Prop :=
  ∀ cov : Matrix (q ⊕ q) (q ⊕ q) ℝ, cov.PosDef → ∀ μ k z w,
    applyCh Φ (dmFromPhaseSpace ħ cov μ k) z w = dmFromPhaseSpace ħ (X * cov * Xᵀ + Y) (X.mulVec μ) k z w

/-! ## Proofs -/

/-- The triple of `from_XY` for multiples of the identity. -/
theorem xyA_scalar {ħ s y t : ℝ} (ht : t = 1 / 2 + s ^ 2 / 2 + y / ħ) (h0 : 0 < t) :
    xyXi ħ (s • (1 : Matrix (n ⊕ n) (n ⊕ n) ℝ)) (y • 1) = t • (1 : Matrix (n ⊕ n) (n ⊕ n) ℝ) ∧
    xyA ħ (s • (1 : Matrix (n ⊕ n) (n ⊕ n) ℝ)) (y • 1) =
      fromBlocks (fromBlocks 0 (((s / t : ℝ) : ℂ) • 1) (((s / t : ℝ) : ℂ) • 1) 0) (fromBlocks (((1 - 1 / t : ℝ) : ℂ) • 1) 0 0 (((1 - s ^ 2 / t : ℝ) : ℂ) • 1))
        (fromBlocks (((1 - 1 / t : ℝ) : ℂ) • 1) 0 0 (((1 - s ^ 2 / t : ℝ) : ℂ) • 1)) (fromBlocks 0 (((s / t : ℝ) : ℂ) • 1) (((s / t : ℝ) : ℂ) • 1) 0) := by
  have hxi : xyXi ħ (s • (1 : Matrix (n ⊕ n) (n ⊕ n) ℝ)) (y • 1) = t • (1 : Matrix (n ⊕ n) (n ⊕ n) ℝ) := by
    unfold xyXi
    ext i j
    simp [Matrix.one_apply]
    split_ifs
    · rw [ht]; ring
    · simp
  refine ⟨hxi, ?_⟩
  have hinv : (t • (1 : Matrix (n ⊕ n) (n ⊕ n) ℝ))⁻¹ = t⁻¹ • 1 := by
    apply Matrix.inv_eq_left_inv
    rw [Matrix.smul_mul, Matrix.one_mul, smul_smul, inv_mul_cancel₀ h0.ne', one_smul]
  have hK : toC (xyK (t • (1 : Matrix (n ⊕ n) (n ⊕ n) ℝ)) (s • (1 : Matrix (n ⊕ n) (n ⊕ n) ℝ))) =
      fromBlocks (((1 - 1 / t : ℝ) : ℂ) • 1) (((s / t : ℝ) : ℂ) • 1) (((s / t : ℝ) : ℂ) • 1) (((1 - s ^ 2 / t : ℝ) : ℂ) • (1 : Matrix (n ⊕ n) (n ⊕ n) ℂ)) := by
    unfold xyK
    rw [hinv]
    ext i j
    rcases i with i | i <;> rcases j with j | j <;> simp [toC, Matrix.one_apply] <;> split_ifs <;> simp <;> field_simp
  rw [xyA_eq, hxi, hK]
  have h2 : ((1 / Real.sqrt 2 : ℝ) : ℂ) * ((1 / Real.sqrt 2 : ℝ) : ℂ) = 1 / 2 := by
    rw [← Complex.ofReal_mul, div_mul_div_comm, Real.mul_self_sqrt (by norm_num)]
    norm_num
  have e1 : cj (xyR n n) = ((1 / Real.sqrt 2 : ℝ) : ℂ) • fromBlocks (fromBlocks 1 (-(Complex.I • 1)) 0 0) (fromBlocks 0 0 1 (Complex.I • 1))
    (fromBlocks 1 (Complex.I • 1) 0 0) (fromBlocks 0 0 1 (-(Complex.I • (1 : Matrix n n ℂ)))) := by
    unfold xyR
    ext i j
    rcases i with (i | i) | (i | i) <;> rcases j with (j | j) | (j | j) <;> simp [cj, Matrix.one_apply] <;> split_ifs <;> simp
  have e2 : (xyR n n)ᴴ = ((1 / Real.sqrt 2 : ℝ) : ℂ) • fromBlocks (fromBlocks 1 0 (-(Complex.I • 1)) 0) (fromBlocks 1 0 (Complex.I • 1) 0)
    (fromBlocks 0 1 0 (Complex.I • 1)) (fromBlocks 0 1 0 (-(Complex.I • (1 : Matrix n n ℂ)))) := by
    rw [← cj_transpose', e1, transpose_smul, fromBlocks_transpose]
    simp [fromBlocks_transpose]
  have e3 : ∀ c : ℂ, c • (1 : Matrix (n ⊕ n) (n ⊕ n) ℂ) = fromBlocks (c • 1) 0 0 (c • 1) := by
    intro c
    rw [← fromBlocks_one, fromBlocks_smul, smul_zero]
  rw [e1, e2, e3, e3, e3, Matrix.smul_mul, Matrix.smul_mul, Matrix.mul_smul, smul_smul, h2]
  simp only [fromBlocks_multiply, fromBlocks_add, fromBlocks_smul, Matrix.mul_zero, Matrix.zero_mul, add_zero, zero_add, Matrix.mul_one, Matrix.one_mul,
    Matrix.smul_mul, Matrix.mul_smul, Matrix.neg_mul, Matrix.mul_neg, smul_neg, smul_smul]
  ext i j
  rcases i with (i | i) | (i | i) <;> rcases j with (j | j) | (j | j) <;> simp [Matrix.one_apply] <;> split_ifs <;> ring_nf <;> simp <;> ring

theorem xyC_scalar {ħ s y t : ℝ} (ht : t = 1 / 2 + s ^ 2 / 2 + y / ħ) (h0 : 0 < t) : xyC ħ (s • (1 : Matrix (n ⊕ n) (n ⊕ n) ℝ)) (y • 1) 0 = 1 / t ^ Fintype.card n := by
  unfold xyC
  rw [(xyA_scalar ht h0).1, Matrix.mulVec_zero, dotProduct_zero, mul_zero, Real.exp_zero, det_smul, det_one, mul_one, Fintype.card_sum, ← two_mul, mul_comm 2, pow_mul,
    Real.sqrt_sq (by positivity)]

/-- **C76 (from_XY)** The Gaussian channel of `from_XY` acts as it says. -/
theorem C76_from_XY {p q : Type*} [Fintype p] [DecidableEq p] [Fintype q] [DecidableEq q] {ħ : ℝ} (hħ : 0 < ħ) (X : Matrix (p ⊕ p) (q ⊕ q) ℝ) {Y : Matrix (p ⊕ p) (p ⊕ p) ℝ}
    (hY : Y.PosSemidef) : ActsAs ħ (fromXY ħ X Y 0) X Y := fun _ h μ k z w => C73_action hħ X hY h μ k z w

/-- A single-mode triple is the channel of `from_XY`. -/
theorem single_fromXY {ħ s y t : ℝ} (ht : t = 1 / 2 + s ^ 2 / 2 + y / ħ) (h0 : 0 < t) {f : Verif.PolyExp.PolyExp} {β : List ℕ} {B : List ℕ} {A : List ℕ → ℕ → ℕ → ℂ} {c : List ℕ → ℂ}
    (hf : f = Verif.Triples.mk B 4 A (fun _ _ => 0) c) (hc : c β = ((1 / t : ℝ) : ℂ))
    (hA : A β = Verif.Triples.mat [[0, ((s / t : ℝ) : ℂ), ((1 - 1 / t : ℝ) : ℂ), 0], [((s / t : ℝ) : ℂ), 0, 0, ((1 - s ^ 2 / t : ℝ) : ℂ)],
      [((1 - 1 / t : ℝ) : ℂ), 0, 0, ((s / t : ℝ) : ℂ)], [0, ((1 - s ^ 2 / t : ℝ) : ℂ), ((s / t : ℝ) : ℂ), 0]]) :
    chA f β = xyA ħ (s • (1 : Matrix (Fin 1 ⊕ Fin 1) (Fin 1 ⊕ Fin 1) ℝ)) (y • 1) ∧
    ∀ z z' w w', f.call β (chArgs z z' w w') = fromXY ħ (s • (1 : Matrix (Fin 1 ⊕ Fin 1) (Fin 1 ⊕ Fin 1) ℝ)) (y • 1) 0 z z' w w' := by
  subst hf
  have hch : chA (Verif.Triples.mk B 4 A (fun _ _ => 0) c) β = xyA ħ (s • (1 : Matrix (Fin 1 ⊕ Fin 1) (Fin 1 ⊕ Fin 1) ℝ)) (y • 1) := by
    rw [(xyA_scalar ht h0).2]
    ext i j
    have hm : (Verif.Triples.mk B 4 A (fun _ _ => 0) c).A β = A β := rfl
    unfold chA
    rw [hm, hA]
    rcases i with (i | i) | (i | i) <;> rcases j with (j | j) | (j | j) <;> (obtain rfl : i = 0 := Subsingleton.elim _ _) <;> (obtain rfl : j = 0 := Subsingleton.elim _ _) <;>
      simp [Verif.Triples.mat]
  refine ⟨hch, fun z z' w w' => ?_⟩
  have hB : xyB ħ (s • (1 : Matrix (Fin 1 ⊕ Fin 1) (Fin 1 ⊕ Fin 1) ℝ)) (y • (1 : Matrix (Fin 1 ⊕ Fin 1) (Fin 1 ⊕ Fin 1) ℝ)) 0 = 0 := by
    unfold xyB
    rw [Matrix.mulVec_zero, Matrix.mulVec_zero]
    have : (fun r : (Fin 1 ⊕ Fin 1) ⊕ (Fin 1 ⊕ Fin 1) => ((Sum.elim (0 : Fin 1 ⊕ Fin 1 → ℝ) (0 : Fin 1 ⊕ Fin 1 → ℝ) r : ℝ) : ℂ)) = 0 := by
      funext r; rcases r with r | r <;> simp
    rw [this, Matrix.mulVec_zero, smul_zero]
  rw [Verif.Triples.mk_call, hc]
  unfold fromXY chanFun dmFun
  rw [hB, zero_dotProduct, add_zero, xyC_scalar ht h0, (xyA_scalar ht h0).2, mul_comm, Fintype.card_fin, pow_one]
  refine congrArg (HMul.hMul _) (congrArg Complex.exp ?_)
  simp only [mul_zero, Finset.sum_const_zero, add_zero]
  refine congrArg (HMul.hMul _) ?_
  rw [hA]
  simp only [Finset.sum_range_succ, Finset.sum_range_zero, zero_add, chArgs, Verif.Triples.vec, Verif.Triples.mat, List.getD_cons_zero, List.getD_cons_succ]
  simp [fromBlocks_mulVec, dotProduct, Fintype.sum_sum_type, Matrix.mulVec, Matrix.one_apply]
  ring

theorem smul_one_psd {y : ℝ} (hy : 0 ≤ y) : (y • (1 : Matrix n n ℝ)).PosSemidef := PosSemidef.one.smul hy

theorem scalar_noise {y a : ℝ} (h : |a| ≤ y) : ((y : ℂ) • (1 : Matrix (n ⊕ n) (n ⊕ n) ℂ) + (Complex.I * a) • toC (symForm n)).PosSemidef := by
  have hv := vac_uncertain (n := n)
  have hv' : (1 - Complex.I • toC (symForm n)).PosSemidef := by
    have := hv.transpose
    have e : (1 + Complex.I • toC (symForm n))ᵀ = 1 - Complex.I • toC (symForm n) := by
      ext i j
      rcases i with i | i <;> rcases j with j | j <;> simp [symForm, toC, Matrix.one_apply] <;> split_ifs <;> simp_all
    rwa [e] at this
  have h1 : ∀ t : ℝ, 0 ≤ t → ((t : ℂ) • (1 : Matrix (n ⊕ n) (n ⊕ n) ℂ)).PosSemidef := fun t ht => PosSemidef.one.smul (by exact_mod_cast ht)
  rcases le_total 0 a with ha | ha
  · rw [abs_of_nonneg ha] at h
    have e : (y : ℂ) • (1 : Matrix (n ⊕ n) (n ⊕ n) ℂ) + (Complex.I * a) • toC (symForm n) = ((y - a : ℝ) : ℂ) • 1 + (a : ℂ) • (1 + Complex.I • toC (symForm n)) := by
      rw [smul_add, smul_smul, ← add_assoc, ← add_smul, ← Complex.ofReal_add, sub_add_cancel, mul_comm]
    rw [e]
    exact (h1 _ (by linarith)).add (hv.smul (by exact_mod_cast ha))
  · rw [abs_of_nonpos ha] at h
    have e : (y : ℂ) • (1 : Matrix (n ⊕ n) (n ⊕ n) ℂ) + (Complex.I * a) • toC (symForm n) = ((y + a : ℝ) : ℂ) • 1 + ((-a : ℝ) : ℂ) • (1 - Complex.I • toC (symForm n)) := by
      rw [smul_sub, smul_smul, add_sub_assoc', ← add_smul, ← Complex.ofReal_add, add_neg_cancel_right, sub_eq_add_neg, ← neg_smul]
      congr 2
      push_cast
      ring
    rw [e]
    exact (h1 _ (by linarith)).add (hv'.smul (by exact_mod_cast (by linarith : (0 : ℝ) ≤ -a)))

theorem scalar_noise' [Nonempty n] {y a : ℝ} (h : ((y : ℂ) • (1 : Matrix (n ⊕ n) (n ⊕ n) ℂ) + (Complex.I * a) • toC (symForm n)).PosSemidef) : |a| ≤ y := by
  obtain ⟨i⟩ := ‹Nonempty n›
  have key : ∀ σ : ℝ, σ ^ 2 = 1 → 0 ≤ y - a * σ := by
    intro σ hσ
    have h1 := h.dotProduct_mulVec_nonneg (Sum.elim (Pi.single i 1) (Pi.single i (σ * Complex.I)))
    have e : star (Sum.elim (Pi.single i 1) (Pi.single i (σ * Complex.I)) : n ⊕ n → ℂ) ⬝ᵥ
        ((y : ℂ) • (1 : Matrix (n ⊕ n) (n ⊕ n) ℂ) + (Complex.I * a) • toC (symForm n)).mulVec (Sum.elim (Pi.single i 1) (Pi.single i (σ * Complex.I))) = ((2 * (y - a * σ) : ℝ) : ℂ) := by
      have hs : star (Sum.elim (Pi.single i 1) (Pi.single i (σ * Complex.I)) : n ⊕ n → ℂ) = Sum.elim (Pi.single i 1) (Pi.single i (-(σ * Complex.I))) := by
        funext r
        rcases r with r | r <;> simp [Pi.single_apply] <;> split_ifs <;> simp
      have ht : toC (symForm n) = fromBlocks 0 1 (-1) 0 := by
        unfold symForm toC
        rw [fromBlocks_map]
        congr 1 <;> ext i j <;> simp [Matrix.one_apply] <;> split_ifs <;> simp
      rw [hs, Matrix.add_mulVec, Matrix.smul_mulVec, Matrix.smul_mulVec, Matrix.one_mulVec, ht, fromBlocks_mulVec, Sum.elim_comp_inl, Sum.elim_comp_inr, dotProduct_add,
        dotProduct_smul, dotProduct_smul, sumElim_dotProduct_sumElim, sumElim_dotProduct_sumElim]
      simp only [Matrix.zero_mulVec, Matrix.one_mulVec, Matrix.neg_mulVec, zero_add, add_zero, dotProduct_single, single_dotProduct, Pi.single_eq_same, Pi.neg_apply, smul_eq_mul]
      have hσ' : (σ : ℂ) ^ 2 = 1 := by exact_mod_cast hσ
      push_cast
      linear_combination (y : ℂ) * hσ' - ((y : ℂ) * σ ^ 2 + 0 * a * σ - 2 * a * σ) * (Complex.I_sq)
    rw [e] at h1
    have h2 : (0 : ℝ) ≤ 2 * (y - a * σ) := by exact_mod_cast h1
    linarith
  have h1 := key 1 (by norm_num)
  have h2 := key (-1) (by norm_num)
  rw [abs_le]
  constructor <;> linarith

/-- **C76 (quantum limit)** Scaling the quadratures of all modes by `s` with the noise `y 1` is accepted by `Channel.is_CP` exactly if `y ≥ (ħ/2) |1 - s²|`. -/
theorem C76_quantum_limit [Nonempty n] {ħ s y : ℝ} (hħ : 0 < ħ) (hy : 0 ≤ y) :
    (∀ atol : ℝ, 0 < atol → isCP atol (xyA ħ (s • (1 : Matrix (n ⊕ n) (n ⊕ n) ℝ)) (y • 1))) ↔ ħ / 2 * |1 - s ^ 2| ≤ y := by
  have hξ := xyXi_pos hħ (s • (1 : Matrix (n ⊕ n) (n ⊕ n) ℝ)) (smul_one_psd (n := n ⊕ n) hy)
  have e : toC (y • (1 : Matrix (n ⊕ n) (n ⊕ n) ℝ)) + (Complex.I * (ħ / 2)) • (toC (symForm n) - toC (s • (1 : Matrix (n ⊕ n) (n ⊕ n) ℝ)) * toC (symForm n) * (toC (s • (1 : Matrix (n ⊕ n) (n ⊕ n) ℝ)))ᵀ) =
      (y : ℂ) • (1 : Matrix (n ⊕ n) (n ⊕ n) ℂ) + (Complex.I * ((ħ / 2 * (1 - s ^ 2) : ℝ) : ℂ)) • toC (symForm n) := by
    have h1 : ∀ t : ℝ, toC (t • (1 : Matrix (n ⊕ n) (n ⊕ n) ℝ)) = (t : ℂ) • 1 := by
      intro t; ext i j; simp [toC, Matrix.one_apply]; split_ifs <;> simp
    rw [h1, h1, transpose_smul, transpose_one, Matrix.smul_mul, Matrix.one_mul, Matrix.mul_smul, Matrix.mul_one, smul_smul]
    ext i j
    simp
    ring
  rw [C74_is_CP hħ _ hξ, e]
  have h2 : |ħ / 2 * (1 - s ^ 2)| = ħ / 2 * |1 - s ^ 2| := by rw [abs_mul, abs_of_pos (by positivity)]
  rw [← h2]
  exact ⟨scalar_noise', scalar_noise⟩

theorem single_all {ħ s y t : ℝ} (hħ : 0 < ħ) (hy : 0 ≤ y) (hlim : ħ / 2 * |1 - s ^ 2| ≤ y) (ht : t = 1 / 2 + s ^ 2 / 2 + y / ħ) {f : Verif.PolyExp.PolyExp} {β : List ℕ} {B : List ℕ}
    {A : List ℕ → ℕ → ℕ → ℂ} {c : List ℕ → ℂ}
    (hf : f = Verif.Triples.mk B 4 A (fun _ _ => 0) c) (hc : c β = ((1 / t : ℝ) : ℂ))
    (hA : A β = Verif.Triples.mat [[0, ((s / t : ℝ) : ℂ), ((1 - 1 / t : ℝ) : ℂ), 0], [((s / t : ℝ) : ℂ), 0, 0, ((1 - s ^ 2 / t : ℝ) : ℂ)],
      [((1 - 1 / t : ℝ) : ℂ), 0, 0, ((s / t : ℝ) : ℂ)], [0, ((1 - s ^ 2 / t : ℝ) : ℂ), ((s / t : ℝ) : ℂ), 0]]) :
    let X := s • (1 : Matrix (Fin 1 ⊕ Fin 1) (Fin 1 ⊕ Fin 1) ℝ)
    let Y := y • (1 : Matrix (Fin 1 ⊕ Fin 1) (Fin 1 ⊕ Fin 1) ℝ)
    ActsAs ħ (fun z z' w w' => f.call β (chArgs z z' w w')) X Y ∧ (∀ atol, 0 < atol → isCP atol (chA f β)) ∧ TracePres (fun z z' w w' => f.call β (chArgs z z' w w')) ∧
      ∀ atol, 0 ≤ atol → xyOf atol ħ (chA f β) = some (X, Y) := by
  intro X Y
  have h0 : 0 < t := by rw [ht]; positivity
  obtain ⟨h1, h2⟩ := single_fromXY ht h0 hf hc hA
  have h3 : (fun z z' w w' => f.call β (chArgs z z' w w')) = fromXY ħ X Y 0 := by funext z z' w w'; exact h2 z z' w w'
  have hY := smul_one_psd (n := Fin 1 ⊕ Fin 1) hy
  have hξ := xyXi_pos hħ X hY
  rw [h3, h1]
  exact ⟨C76_from_XY hħ X hY, (C76_quantum_limit hħ hy).2 hlim, (C75_from_XY hħ X hξ 0).2 (Matrix.mulVec_zero _), fun atol ha => C75_roundtrip hħ X hξ ha⟩

/-- **C76 (attenuator)** `Attenuator(mode, η)`, where it is accepted, is the channel `Channel.from_XY(√η, (1-η)ħ/2)`: it takes `cov` to `η cov + (1-η)(ħ/2) 1` and `μ` to
`√η μ`, it is completely positive and trace preserving, and `Channel.XY` returns these matrices. -/
theorem C76_attenuator {ħ : ℝ} (hħ : 0 < ħ) {B : List ℕ} {η : List ℕ → ℝ} {f : Verif.PolyExp.PolyExp} (hf : Verif.Triples.attenuator B η = some f) {β : List ℕ}
    (hβ : Verif.Fock.InB B β) :
    let X := Real.sqrt (η β) • (1 : Matrix (Fin 1 ⊕ Fin 1) (Fin 1 ⊕ Fin 1) ℝ)
    let Y := ((1 - η β) * (ħ / 2)) • (1 : Matrix (Fin 1 ⊕ Fin 1) (Fin 1 ⊕ Fin 1) ℝ)
    ActsAs ħ (fun z z' w w' => f.call β (chArgs z z' w w')) X Y ∧ (∀ atol, 0 < atol → isCP atol (chA f β)) ∧ TracePres (fun z z' w w' => f.call β (chArgs z z' w w')) ∧
      ∀ atol, 0 ≤ atol → xyOf atol ħ (chA f β) = some (X, Y) := by
  have hη := Verif.Triples.attenuator_some hf
  rw [Verif.Triples.attenuator_def hη] at hf
  obtain ⟨h0, h1⟩ := hη β hβ
  have hs := Real.sq_sqrt h0
  refine single_all (t := 1) hħ (mul_nonneg (by linarith) (by positivity)) ?_ ?_ (Option.some.inj hf).symm (by simp) ?_
  · rw [hs, abs_of_nonneg (by linarith), mul_comm]
  · rw [hs]; field_simp; ring
  · dsimp only
    rw [hs]
    simp

/-- **C76 (amplifier)** `Amplifier(mode, g)`, where it is accepted, is the channel `Channel.from_XY(√g, (g-1)ħ/2)`: it takes `cov` to `g cov + (g-1)(ħ/2) 1` and `μ` to
`√g μ`, it is completely positive and trace preserving, and `Channel.XY` returns these matrices. -/
theorem C76_amplifier {ħ : ℝ} (hħ : 0 < ħ) {B : List ℕ} {G : List ℕ → ℝ} {f : Verif.PolyExp.PolyExp} (hf : Verif.Triples.amplifier B G = some f) {β : List ℕ}
    (hβ : Verif.Fock.InB B β) :
    let X := Real.sqrt (G β) • (1 : Matrix (Fin 1 ⊕ Fin 1) (Fin 1 ⊕ Fin 1) ℝ)
    let Y := ((G β - 1) * (ħ / 2)) • (1 : Matrix (Fin 1 ⊕ Fin 1) (Fin 1 ⊕ Fin 1) ℝ)
    ActsAs ħ (fun z z' w w' => f.call β (chArgs z z' w w')) X Y ∧ (∀ atol, 0 < atol → isCP atol (chA f β)) ∧ TracePres (fun z z' w w' => f.call β (chArgs z z' w w')) ∧
      ∀ atol, 0 ≤ atol → xyOf atol ħ (chA f β) = some (X, Y) := by
  have hη := Verif.Triples.amplifier_some hf
  rw [Verif.Triples.amplifier_def hη] at hf
  have h1 := hη β hβ
  have hg : 0 < G β := by linarith
  have hs := Real.sq_sqrt hg.le
  have hd : Real.sqrt (G β) / G β = 1 / Real.sqrt (G β) := Real.sqrt_div_self'
  refine single_all (t := G β) hħ (mul_nonneg (by linarith) (by positivity)) ?_ ?_ (Option.some.inj hf).symm (by push_cast; rfl) ?_
  · rw [hs, abs_of_nonpos (by linarith), mul_comm, neg_sub]
  · rw [hs]; field_simp; ring
  · dsimp only
    rw [hs, hd, div_self hg.ne']
    simp

/-- **C76 (Gaussian random noise)** `GaussRandNoise(modes, Y)` with a symmetric `Y`: it is accepted for every tolerance exactly if `Y ≥ 0`, and it then takes `cov` to
`cov + Y` and leaves the means alone, is completely positive and trace preserving, and `Channel.XY` returns `(1, Y)`. -/
theorem C76_noise {ħ : ℝ} (hħ : 0 < ħ) {Y : Matrix (n ⊕ n) (n ⊕ n) ℝ} (hs : Yᵀ = Y) :
    ((∀ atol, 0 ≤ atol → gaussRandNoise atol ħ Y ≠ none) ↔ Y.PosSemidef) ∧
    (Y.PosSemidef → ∀ atol, 0 ≤ atol → ∃ Φ, gaussRandNoise atol ħ Y = some Φ ∧ ActsAs ħ Φ 1 Y ∧ (∀ tol, 0 < tol → isCP tol (grnA ħ Y)) ∧ TracePres Φ ∧
      ∀ tol, 0 ≤ tol → xyOf tol ħ (grnA ħ Y) = some (1, Y)) := by
  have hH : (toC Y).IsHermitian := by unfold IsHermitian; rw [toC_conjT, hs]
  have hps : (toC Y).PosSemidef ↔ Y.PosSemidef := by
    constructor
    · intro h
      exact psd_real (Z := 0) (t := 0) hs (by simpa using h)
    · intro h
      have := toC_posSemidef h
      exact this
  have hacc : ∀ atol, gaussRandNoise atol ħ Y ≠ none ↔ (toC Y + (atol : ℂ) • 1).PosSemidef := by
    intro atol
    rw [← eig_iff hH]
    unfold gaussRandNoise
    split_ifs with h
    · simp only [ne_eq, not_true_eq_false, false_iff]
      push Not
      exact h
    · simp only [ne_eq, reduceCtorEq, not_false_eq_true, true_iff]
      push Not at h
      exact h
  have hxi : xyXi ħ (1 : Matrix (n ⊕ n) (n ⊕ n) ℝ) Y = grnXi ħ Y := by
    unfold xyXi grnXi
    rw [transpose_one, Matrix.mul_one, ← add_smul]
    norm_num
  have hA : xyA ħ (1 : Matrix (n ⊕ n) (n ⊕ n) ℝ) Y = grnA ħ Y := by
    unfold xyA grnA xyK
    rw [hxi, transpose_one, Matrix.mul_one, Matrix.one_mul, Matrix.mul_one]
  constructor
  · constructor
    · intro h
      have h1 := (hacc 0).1 (h 0 le_rfl)
      rw [← hps]
      simpa using h1
    · intro h atol h0
      rw [hacc]
      exact (hps.2 h).add (PosSemidef.one.smul (by exact_mod_cast h0))
  · intro h atol h0
    have hξ := xyXi_pos hħ (1 : Matrix (n ⊕ n) (n ⊕ n) ℝ) h
    have h1 : gaussRandNoise atol ħ Y ≠ none := (hacc atol).2 ((hps.2 h).add (PosSemidef.one.smul (by exact_mod_cast h0)))
    have h2 : chanFun (grnA ħ Y) 0 ((1 / Real.sqrt (grnXi ħ Y).det : ℝ) : ℂ) = fromXY ħ 1 Y 0 := by
      have hB : xyB ħ (1 : Matrix (n ⊕ n) (n ⊕ n) ℝ) Y 0 = 0 := by
        unfold xyB
        rw [Matrix.mulVec_zero, Matrix.mulVec_zero]
        have : (fun r : (n ⊕ n) ⊕ (n ⊕ n) => ((Sum.elim (0 : n ⊕ n → ℝ) (0 : n ⊕ n → ℝ) r : ℝ) : ℂ)) = 0 := by
          funext r; rcases r with r | r <;> simp
        rw [this, Matrix.mulVec_zero, smul_zero]
      have hC : xyC ħ (1 : Matrix (n ⊕ n) (n ⊕ n) ℝ) Y 0 = 1 / Real.sqrt (grnXi ħ Y).det := by
        unfold xyC
        rw [hxi, Matrix.mulVec_zero, dotProduct_zero, mul_zero, Real.exp_zero]
      unfold fromXY
      rw [hA, hB, hC]
    refine ⟨fromXY ħ 1 Y 0, ?_, C76_from_XY hħ 1 h, ?_, (C75_from_XY hħ 1 hξ 0).2 (Matrix.mulVec_zero _), fun tol ht => ?_⟩
    · unfold gaussRandNoise at h1 ⊢
      split_ifs at h1 ⊢ with h3
      · exact absurd rfl h1
      · rw [h2]
    · rw [← hA, C74_is_CP hħ 1 hξ]
      have e : toC (1 : Matrix (n ⊕ n) (n ⊕ n) ℝ) = 1 := toC_one
      rw [e, transpose_one, Matrix.one_mul, Matrix.mul_one, sub_self, smul_zero, add_zero]
      exact hps.2 h
    · rw [← hA]
      exact C75_roundtrip hħ 1 hξ ht

end Verif.Manifold
