import Verif.PhaseShift
import Mathlib.Analysis.SpecialFunctions.Log.NegMulLog
import Mathlib.Analysis.SpecificLimits.Normed
import Mathlib.Analysis.Normed.Ring.InfiniteSum
import Mathlib.Analysis.SpecialFunctions.Exponential
import Mathlib.Algebra.BigOperators.Fin
import Mathlib.Tactic.FinCases

/-!
# The von Neumann entropy of a Gaussian state (C68)
-/

namespace Verif.Manifold
open Matrix Verif.Gauss MeasureTheory
open scoped ComplexOrder MatrixOrder

/-- The entropy of a mode with symplectic eigenvalue `x`: `(N+1) log (N+1) - N log N` with `N = (x-1)/2` thermal photons. -/
noncomputable def trueG (x : ℝ) : ℝ := (x + 1) / 2 * Real.log ((x + 1) / 2) - (x - 1) / 2 * Real.log ((x - 1) / 2)

/-- The regularised function of the code differs from the exact one by at most `10⁻⁹`. -/
theorem entropyG_near {x : ℝ} (h : 1 ≤ x) : trueG x - 1e-9 ≤ entropyG x ∧ entropyG x ≤ trueG x := by
  unfold trueG entropyG xlogy
  rcases eq_or_lt_of_le h with rfl | h
  · norm_num
  · have h0 : 0 < (x - 1) / 2 := by linarith
    set y := (x - 1) / 2
    have h1 : Real.log y ≤ Real.log (y + 1e-9) := Real.log_le_log h0 (by norm_num)
    have h2 : y * (Real.log (y + 1e-9) - Real.log y) ≤ 1e-9 := by
      rw [← Real.log_div (by positivity) h0.ne']
      have := Real.log_le_sub_one_of_pos (x := (y + 1e-9) / y) (by positivity)
      have h3 : (y + 1e-9) / y - 1 = 1e-9 / y := by field_simp; ring
      rw [h3] at this
      calc y * Real.log ((y + 1e-9) / y) ≤ y * (1e-9 / y) := mul_le_mul_of_nonneg_left this h0.le
        _ = 1e-9 := by field_simp
    constructor
    · linarith
    · have := mul_le_mul_of_nonneg_left h1 h0.le
      linarith

/-- The photon number distribution of a thermal mode. -/
noncomputable def thermalProb (ν : ℝ) (k : ℕ) : ℝ := 2 / (ν + 1) * ((ν - 1) / (ν + 1)) ^ k

theorem thermal_q {ν : ℝ} (h : 1 ≤ ν) : 0 ≤ (ν - 1) / (ν + 1) ∧ (ν - 1) / (ν + 1) < 1 := by
  constructor
  · exact div_nonneg (by linarith) (by linarith)
  · rw [div_lt_one (by linarith)]; linarith

theorem thermalProb_nonneg {ν : ℝ} (h : 1 ≤ ν) (k : ℕ) : 0 ≤ thermalProb ν k :=
  mul_nonneg (div_nonneg (by norm_num) (by linarith)) (pow_nonneg (thermal_q h).1 _)

theorem thermalProb_sum {ν : ℝ} (h : 1 ≤ ν) : HasSum (thermalProb ν) 1 := by
  obtain ⟨h0, h1⟩ := thermal_q h
  have := (hasSum_geometric_of_lt_one h0 h1).mul_left (2 / (ν + 1))
  have e : 2 / (ν + 1) * (1 - (ν - 1) / (ν + 1))⁻¹ = 1 := by
    have : ν + 1 ≠ 0 := by linarith
    rw [show 1 - (ν - 1) / (ν + 1) = 2 / (ν + 1) by field_simp; ring]
    exact mul_inv_cancel₀ (by positivity)
  rwa [e] at this

theorem thermal_entropy {ν : ℝ} (h : 1 ≤ ν) : HasSum (fun k => Real.negMulLog (thermalProb ν k)) (trueG ν) := by
  obtain ⟨h0, h1⟩ := thermal_q h
  have hn : ν + 1 ≠ 0 := by linarith
  have g1 := (hasSum_geometric_of_lt_one h0 h1).mul_right (Real.negMulLog (2 / (ν + 1)))
  have g2 := (hasSum_coe_mul_geometric_of_norm_lt_one (r := (ν - 1) / (ν + 1)) (by rw [Real.norm_eq_abs, abs_of_nonneg h0]; exact h1)).mul_left
    (-(2 / (ν + 1)) * Real.log ((ν - 1) / (ν + 1)))
  have g := g1.add g2
  have hn' : (2 : ℝ) / (ν + 1) ≠ 0 := by positivity
  have e : (fun k => Real.negMulLog (thermalProb ν k)) = fun b : ℕ =>
      ((ν - 1) / (ν + 1)) ^ b * (2 / (ν + 1)).negMulLog + -(2 / (ν + 1)) * Real.log ((ν - 1) / (ν + 1)) * (↑b * ((ν - 1) / (ν + 1)) ^ b) := by
    funext k
    unfold thermalProb
    rw [Real.negMulLog_mul]
    refine congrArg _ ?_
    rw [Real.negMulLog, Real.log_pow]
    ring
  rw [e]
  have e2 : (1 - (ν - 1) / (ν + 1))⁻¹ * (2 / (ν + 1)).negMulLog +
      -(2 / (ν + 1)) * Real.log ((ν - 1) / (ν + 1)) * ((ν - 1) / (ν + 1) / (1 - (ν - 1) / (ν + 1)) ^ 2) = trueG ν := by
    unfold trueG Real.negMulLog
    rw [show 1 - (ν - 1) / (ν + 1) = 2 / (ν + 1) by field_simp; ring]
    rcases eq_or_lt_of_le h with rfl | h
    · norm_num
    · have hm : ν - 1 ≠ 0 := by linarith
      rw [Real.log_div hm hn, Real.log_div two_ne_zero hn, Real.log_div hn two_ne_zero, Real.log_div hm two_ne_zero]
      field_simp
      ring
  rwa [e2] at g

/-! ## Products -/

theorem hasSum_fin {R : Type*} [NormedCommRing R] [CompleteSpace R] (m : ℕ) : ∀ (f : Fin m → ℕ → R) (s : Fin m → R), (∀ j, HasSum (f j) (s j)) → (∀ j, Summable fun k => ‖f j k‖) →
    HasSum (fun k : Fin m → ℕ => ∏ j, f j (k j)) (∏ j, s j) ∧ Summable fun k : Fin m → ℕ => ‖∏ j, f j (k j)‖ := by
  induction m with
  | zero =>
    intro f s _ _
    simp only [Finset.univ_eq_empty, Finset.prod_empty]
    exact ⟨by simpa using hasSum_fintype (fun _ : Fin 0 → ℕ => (1 : R)), Summable.of_finite⟩
  | succ m ih =>
    intro f s hf hs
    obtain ⟨h1, h2⟩ := ih (fun j => f j.succ) (fun j => s j.succ) (fun j => hf _) (fun j => hs _)
    have hp := (summable_mul_of_summable_norm (f := f 0) (g := fun k : Fin m → ℕ => ∏ j, f (Fin.succ j) (k j)) (hs 0) h2)
    have hpn : Summable fun x : ℕ × (Fin m → ℕ) => ‖f 0 x.1 * ∏ j, f (Fin.succ j) (x.2 j)‖ :=
      Summable.mul_norm (f := f 0) (g := fun k : Fin m → ℕ => ∏ j, f (Fin.succ j) (k j)) (hs 0) h2
    have hh := (hf 0).mul h1 hp
    rw [Fin.prod_univ_succ]
    let E : ℕ × (Fin m → ℕ) ≃ (Fin (m + 1) → ℕ) := Fin.consEquiv fun _ => ℕ
    have e : ∀ x, ∏ j, f j (E x j) = f 0 x.1 * ∏ j, f (Fin.succ j) (x.2 j) := by
      intro x
      rw [Fin.prod_univ_succ]
      rfl
    rw [← E.hasSum_iff, ← E.summable_iff]
    constructor
    · have : (fun k : Fin (m + 1) → ℕ => ∏ j, f j (k j)) ∘ E = fun x => f 0 x.1 * ∏ j, f (Fin.succ j) (x.2 j) := funext e
      rw [this]; exact hh
    · have : (fun k : Fin (m + 1) → ℕ => ‖∏ j, f j (k j)‖) ∘ E = fun x => ‖f 0 x.1 * ∏ j, f (Fin.succ j) (x.2 j)‖ := funext fun x => congrArg _ (e x)
      rw [this]; exact hpn

variable {n : Type*} [Fintype n]

theorem hasSum_pi {R : Type*} [NormedCommRing R] [CompleteSpace R] (f : n → ℕ → R) (s : n → R) (hf : ∀ j, HasSum (f j) (s j)) (hs : ∀ j, Summable fun k => ‖f j k‖) :
    HasSum (fun k : n → ℕ => ∏ j, f j (k j)) (∏ j, s j) := by
  let e := Fintype.equivFin n
  have h := (hasSum_fin _ (fun j => f (e.symm j)) (fun j => s (e.symm j)) (fun j => hf _) (fun j => hs _)).1
  rw [← (Equiv.arrowCongr e (Equiv.refl ℕ)).hasSum_iff] at h
  rw [Equiv.prod_comp e.symm s] at h
  have e2 : (fun k : Fin (Fintype.card n) → ℕ => ∏ j, f (e.symm j) (k j)) ∘ (Equiv.arrowCongr e (Equiv.refl ℕ)) = fun k : n → ℕ => ∏ j, f j (k j) := by
    funext k
    simp only [Function.comp, Equiv.arrowCongr_apply, Equiv.refl_apply]
    exact Equiv.prod_comp e.symm fun j => f j (k j)
  rwa [e2] at h

/-- The entropy of independent variables is the sum of the entropies. -/
theorem entropy_fin (m : ℕ) : ∀ (p : Fin m → ℕ → ℝ) (H : Fin m → ℝ), (∀ j k, 0 ≤ p j k) → (∀ j, HasSum (p j) 1) →
    (∀ j, HasSum (fun k => Real.negMulLog (p j k)) (H j)) → HasSum (fun k : Fin m → ℕ => Real.negMulLog (∏ j, p j (k j))) (∑ j, H j) := by
  induction m with
  | zero =>
    intro p H _ _ _
    simpa using hasSum_fintype (fun _ : Fin 0 → ℕ => (0 : ℝ))
  | succ m ih =>
    intro p H p0 p1 pH
    have a1 := ih (fun j => p j.succ) (fun j => H j.succ) (fun j => p0 _) (fun j => p1 _) (fun j => pH _)
    obtain ⟨b1, b2⟩ := hasSum_fin m (fun j => p j.succ) (fun _ => 1) (fun j => p1 _) (fun j => by
      simpa [Real.norm_eq_abs, abs_of_nonneg (p0 _ _)] using (p1 (Fin.succ j)).summable)
    simp only [Finset.prod_const_one] at b1
    have c1 := (pH 0).mul b1 (summable_mul_of_summable_norm
      (f := fun k => Real.negMulLog (p 0 k)) (g := fun k : Fin m → ℕ => ∏ j, p (Fin.succ j) (k j)) (pH 0).summable.norm b2)
    have c2 := (p1 0).mul a1 (summable_mul_of_summable_norm (f := p 0)
      (g := fun k : Fin m → ℕ => Real.negMulLog (∏ j, p (Fin.succ j) (k j))) (p1 0).summable.norm a1.summable.norm)
    have hh := c1.add c2
    rw [mul_one, one_mul] at hh
    rw [Fin.sum_univ_succ]
    let E : ℕ × (Fin m → ℕ) ≃ (Fin (m + 1) → ℕ) := Fin.consEquiv fun _ => ℕ
    have e : ∀ x, Real.negMulLog (∏ j, p j (E x j)) = Real.negMulLog (p 0 x.1) * ∏ j, p (Fin.succ j) (x.2 j) +
        p 0 x.1 * Real.negMulLog (∏ j, p (Fin.succ j) (x.2 j)) := by
      intro x
      rw [Fin.prod_univ_succ, Real.negMulLog_mul, mul_comm (∏ i, p (Fin.succ i) _)]
      rfl
    rw [← E.hasSum_iff]
    have : (fun k : Fin (m + 1) → ℕ => Real.negMulLog (∏ j, p j (k j))) ∘ E = _ := funext e
    rw [this]; exact hh

theorem entropy_pi (p : n → ℕ → ℝ) (H : n → ℝ) (p0 : ∀ j k, 0 ≤ p j k) (p1 : ∀ j, HasSum (p j) 1)
    (pH : ∀ j, HasSum (fun k => Real.negMulLog (p j k)) (H j)) : HasSum (fun k : n → ℕ => Real.negMulLog (∏ j, p j (k j))) (∑ j, H j) := by
  let e := Fintype.equivFin n
  have h := entropy_fin _ (fun j => p (e.symm j)) (fun j => H (e.symm j)) (fun j => p0 _) (fun j => p1 _) (fun j => pH _)
  rw [← (Equiv.arrowCongr e (Equiv.refl ℕ)).hasSum_iff] at h
  rw [Equiv.sum_comp e.symm H] at h
  have e2 : (fun k : Fin (Fintype.card n) → ℕ => Real.negMulLog (∏ j, p (e.symm j) (k j))) ∘ (Equiv.arrowCongr e (Equiv.refl ℕ)) =
      fun k : n → ℕ => Real.negMulLog (∏ j, p j (k j)) := by
    funext k
    simp only [Function.comp, Equiv.arrowCongr_apply, Equiv.refl_apply]
    exact congrArg _ (Equiv.prod_comp e.symm fun j => p j (k j))
  rwa [e2] at h

/-! ## The thermal state -/

variable [DecidableEq n]

/-- The thermal state with covariance matrix `(ħ/2) diag(ν, ν)`. -/
theorem thermal_dm {ħ : ℝ} (hħ : 0 < ħ) {ν : n → ℝ} (hν : ∀ j, 1 ≤ ν j) (z w : n → ℂ) :
    dmFromPhaseSpace ħ ((ħ / 2) • diagonal (Sum.elim ν ν)) 0 1 z w =
      ∏ j, ((2 / (ν j + 1) : ℝ) : ℂ) * Complex.exp (((ν j - 1) / (ν j + 1) : ℝ) * (z j * w j)) := by
  have hn : ∀ j, 0 < ν j + 1 := fun j => by linarith [hν j]
  have ec : (ħ / 2) • diagonal (Sum.elim ν ν) + (ħ / 2) • (1 : Matrix (n ⊕ n) (n ⊕ n) ℝ) =
      diagonal (Sum.elim (fun j => ħ / 2 * (ν j + 1)) (fun j => ħ / 2 * (ν j + 1))) := by
    rw [← smul_add, ← diagonal_one, diagonal_add, ← diagonal_smul]
    refine congrArg _ (funext fun r => ?_)
    rcases r with j | j <;> simp
  have hp : ((ħ / 2) • diagonal (Sum.elim ν ν) + (ħ / 2) • (1 : Matrix (n ⊕ n) (n ⊕ n) ℝ)).PosDef := by
    rw [ec, Matrix.posDef_diagonal_iff]
    intro r
    rcases r with j | j
    · exact mul_pos (by positivity) (hn j)
    · exact mul_pos (by positivity) (hn j)
  have d : Differentiable ℂ fun x : n ⊕ n → ℂ => ∏ j, ((2 / (ν j + 1) : ℝ) : ℂ) * Complex.exp (((ν j - 1) / (ν j + 1) : ℝ) * ((x ∘ Sum.inr) j * (x ∘ Sum.inl) j)) := by
    simp only [Function.comp, Finset.prod_mul_distrib, ← Complex.exp_sum]
    fun_prop
  have hU := C65_unique (C65_entire ħ ((ħ / 2) • diagonal (Sum.elim ν ν)) 0 1) d (fun α => by
    simp only [Sum.elim_comp_inl, Sum.elim_comp_inr]
    have hne : Complex.exp (-∑ i, (‖α i‖ : ℂ) ^ 2) ≠ 0 := Complex.exp_ne_zero _
    refine mul_left_cancel₀ hne ?_
    rw [C65_husimi hħ hp, ec, det_diagonal, Fintype.prod_sum_type, one_mul]
    simp only [Sum.elim_inl, Sum.elim_inr, sub_zero]
    have hpp : 0 < ∏ j, (ħ / 2 * (ν j + 1)) := Finset.prod_pos fun j _ => mul_pos (by positivity) (hn j)
    rw [Real.sqrt_mul_self hpp.le]
    have e1 : ħ ^ Fintype.card n / ∏ j, (ħ / 2 * (ν j + 1)) = ∏ j, (2 / (ν j + 1)) := by
      rw [← Finset.card_univ, ← Finset.prod_const, ← Finset.prod_div_distrib]
      refine Finset.prod_congr rfl fun j _ => ?_
      have := hn j
      field_simp
    rw [e1, Finset.prod_mul_distrib, Complex.ofReal_mul, Complex.ofReal_prod, mul_left_comm, ← Complex.exp_sum, ← Complex.exp_add, Complex.ofReal_exp]
    refine congrArg (HMul.hMul _) (congrArg Complex.exp ?_)
    have e2 : (diagonal (Sum.elim (fun j => ħ / 2 * (ν j + 1)) (fun j => ħ / 2 * (ν j + 1))))⁻¹ =
        (diagonal (Sum.elim (fun j => (ħ / 2 * (ν j + 1))⁻¹) (fun j => (ħ / 2 * (ν j + 1))⁻¹)) : Matrix (n ⊕ n) (n ⊕ n) ℝ) := by
      refine Matrix.inv_eq_right_inv ?_
      rw [diagonal_mul_diagonal, ← diagonal_one]
      refine congrArg _ (funext fun r => ?_)
      rcases r with j | j
      · exact mul_inv_cancel₀ (mul_pos (by positivity) (hn j)).ne'
      · exact mul_inv_cancel₀ (mul_pos (by positivity) (hn j)).ne'
    rw [e2]
    have e3 : point ħ α ⬝ᵥ (diagonal (Sum.elim (fun j => (ħ / 2 * (ν j + 1))⁻¹) (fun j => (ħ / 2 * (ν j + 1))⁻¹))).mulVec (point ħ α) =
        ∑ j, 4 / (ν j + 1) * ‖α j‖ ^ 2 := by
      simp only [dotProduct, mulVec_diagonal, Fintype.sum_sum_type, Sum.elim_inl, Sum.elim_inr]
      rw [← Finset.sum_add_distrib]
      refine Finset.sum_congr rfl fun j _ => ?_
      have h2 : Real.sqrt (2 * ħ) * Real.sqrt (2 * ħ) = 2 * ħ := Real.mul_self_sqrt (by positivity)
      have := hn j
      rw [← Complex.normSq_eq_norm_sq, Complex.normSq_apply]
      unfold point
      simp only [Sum.elim_inl, Sum.elim_inr]
      have e4 : ∀ x : ℝ, Real.sqrt (2 * ħ) * x * ((ħ / 2 * (ν j + 1))⁻¹ * (Real.sqrt (2 * ħ) * x)) = 4 / (ν j + 1) * (x * x) := by
        intro x
        rw [show Real.sqrt (2 * ħ) * x * ((ħ / 2 * (ν j + 1))⁻¹ * (Real.sqrt (2 * ħ) * x)) =
          (Real.sqrt (2 * ħ) * Real.sqrt (2 * ħ)) * ((ħ / 2 * (ν j + 1))⁻¹ * (x * x)) by ring, h2]
        field_simp
        ring
      rw [e4, e4]
      ring
    rw [e3, Finset.mul_sum, Complex.ofReal_sum, ← Finset.sum_neg_distrib, ← Finset.sum_add_distrib]
    refine Finset.sum_congr rfl fun j _ => ?_
    have h0 : ((ν j : ℂ) + 1) ≠ 0 := by exact_mod_cast (hn j).ne'
    rw [Pi.star_apply, Complex.star_def, Complex.conj_mul']
    push_cast
    field_simp
    ring)
  have := congrFun hU (Sum.elim w z)
  simpa only [Sum.elim_comp_inl, Sum.elim_comp_inr] using this

/-- **C68 (entropy)** Every Gaussian state `ρ` with moments `(cov, μ)` is `D(β) U(S) τ U(S)† D(β)†`, where `τ` is diagonal in the Fock basis:
`τ = ∑ₖ P(k) |k⟩⟨k|` for a probability distribution `P` on the photon numbers; the Shannon entropy of `P`, which is the von Neumann entropy of `ρ`, is
what `von_neumann_entropy` returns, up to `10⁻⁹` for every mode. -/
theorem C68_entropy {ħ : ℝ} (hħ : 0 < ħ) {cov : Matrix (n ⊕ n) (n ⊕ n) ℝ}
    (hu : (toC cov + (Complex.I * (ħ / 2)) • toC (symForm n)).PosSemidef) (μ : n ⊕ n → ℝ) :
    ∃ (S : Matrix (n ⊕ n) (n ⊕ n) ℝ) (β : n → ℂ) (τ : (n → ℂ) → (n → ℂ) → ℂ) (P : (n → ℕ) → ℝ) (H : ℝ), Symplectic S ∧
      (∀ z w, dmFromPhaseSpace ħ cov μ 1 z w = evolve (dispOp β) (evolve (fromSymplectic S) τ) z w) ∧
      (∀ z w, HasSum (fun k : n → ℕ => (P k : ℂ) * ∏ j, z j ^ k j * w j ^ k j / ((k j).factorial : ℂ)) (τ z w)) ∧
      (∀ k, 0 ≤ P k) ∧ HasSum P 1 ∧ HasSum (fun k => Real.negMulLog (P k)) H ∧
      H - Fintype.card n * 1e-9 ≤ vnEntropy ħ cov ∧ vnEntropy ħ cov ≤ H := by
  have hc := uncertainty_posDef hħ hu
  obtain ⟨Z, ν, hZ, hν, rfl⟩ := C68_normal_form hħ hc
  have h1 := (normal_uncertainty hħ hZ ν).1 hu
  have hd : ((ħ / 2) • diagonal (Sum.elim ν ν) : Matrix (n ⊕ n) (n ⊕ n) ℝ).PosDef := by
    refine Matrix.PosDef.smul (Matrix.posDef_diagonal_iff.2 fun r => ?_) (by positivity)
    rcases r with j | j
    · exact hν j
    · exact hν j
  refine ⟨Z, fun i => ⟨μ (Sum.inl i) / Real.sqrt (2 * ħ), μ (Sum.inr i) / Real.sqrt (2 * ħ)⟩,
    dmFromPhaseSpace ħ ((ħ / 2) • diagonal (Sum.elim ν ν)) 0 1, fun k => ∏ j, thermalProb (ν j) (k j), ∑ j, trueG (ν j), hZ, ?_, ?_,
    fun k => Finset.prod_nonneg fun j _ => thermalProb_nonneg (h1 j) _, ?_, entropy_pi _ _ (fun j k => thermalProb_nonneg (h1 j) k)
      (fun j => thermalProb_sum (h1 j)) fun j => thermal_entropy (h1 j), ?_, ?_⟩
  · intro z w
    have e : evolve (fromSymplectic Z) (dmFromPhaseSpace ħ ((ħ / 2) • diagonal (Sum.elim ν ν)) 0 1) = dmFromPhaseSpace ħ (williamsonCov ħ Z ν) 0 1 := by
      funext z w
      rw [C69_evolve hZ hħ hd, Matrix.mulVec_zero]
      unfold williamsonCov
      rw [Matrix.mul_smul, Matrix.smul_mul]
    rw [e, C69_displacement hħ hc, zero_add]
    refine congrArg (fun m => dmFromPhaseSpace ħ (williamsonCov ħ Z ν) m 1 z w) ?_
    have hs : Real.sqrt (2 * ħ) ≠ 0 := (Real.sqrt_pos.2 (by positivity)).ne'
    funext r
    unfold point
    rcases r with j | j
    · exact (mul_div_cancel₀ _ hs).symm
    · exact (mul_div_cancel₀ _ hs).symm
  · intro z w
    rw [thermal_dm hħ h1]
    have := hasSum_pi (fun j k => ((2 / (ν j + 1) : ℝ) : ℂ) * ((((ν j - 1) / (ν j + 1) : ℝ) * (z j * w j)) ^ k / (k.factorial : ℂ)))
      (fun j => ((2 / (ν j + 1) : ℝ) : ℂ) * Complex.exp (((ν j - 1) / (ν j + 1) : ℝ) * (z j * w j))) (fun j => by
        refine HasSum.mul_left _ ?_
        rw [Complex.exp_eq_exp_ℂ]
        exact NormedSpace.expSeries_div_hasSum_exp _) (fun j => by
        simp only [norm_mul]
        exact (NormedSpace.norm_expSeries_div_summable (𝔸 := ℂ) _).mul_left _)
    refine (funext fun k => ?_ : (fun k : n → ℕ => _) = _) ▸ this
    rw [Complex.ofReal_prod, ← Finset.prod_mul_distrib]
    refine Finset.prod_congr rfl fun j _ => ?_
    unfold thermalProb
    push_cast
    rw [mul_pow, mul_pow]
    ring
  · have := hasSum_pi (R := ℝ) (fun j => thermalProb (ν j)) (fun _ => 1) (fun j => thermalProb_sum (h1 j)) (fun j => by
      simpa [Real.norm_eq_abs, abs_of_nonneg (thermalProb_nonneg (h1 j) _)] using (thermalProb_sum (h1 j)).summable)
    simpa using this
  · rw [normal_entropy hħ hZ fun j => (hν j).le, ← Finset.card_univ, ← nsmul_eq_mul, ← Finset.sum_const, ← Finset.sum_sub_distrib]
    exact Finset.sum_le_sum fun j _ => (entropyG_near (h1 j)).1
  · rw [normal_entropy hħ hZ fun j => (hν j).le]
    exact Finset.sum_le_sum fun j _ => (entropyG_near (h1 j)).2

end Verif.Manifold
