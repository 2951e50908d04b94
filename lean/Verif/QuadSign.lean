import Verif.QuadProps
import Mathlib.Analysis.SpecialFunctions.Gaussian.GaussianIntegral
import Mathlib.MeasureTheory.Integral.Pi

/-!
# When the sign of `Ket.from_quadrature` is the right one (C97)
-/

namespace Verif.Manifold
open Matrix Verif.Gauss MeasureTheory

variable {W : Type*} [Fintype W] [DecidableEq W]

theorem numK_pos {ħ : ℝ} (hħ : 0 < ħ) (N : ℕ) : ∃ κ : ℝ, 0 < κ ∧ numK true ħ N = κ := by
  have h1 : (((2 : ℂ) ^ N) ^ (1 / 2 : ℂ)) = (((2 : ℝ) ^ N) ^ (1 / 2 : ℝ) : ℝ) := by
    rw [Complex.ofReal_cpow (by positivity)]
    push_cast
    rfl
  have h2 : 0 < (Real.pi * ħ) := by positivity
  unfold numK bqC
  rw [if_pos rfl, h1]
  refine ⟨1 / (1 / (Real.pi * ħ) ^ (0.25 * N : ℝ)) * ((2 : ℝ) ^ N) ^ (1 / 2 : ℝ), by positivity, ?_⟩
  push_cast
  norm_num

theorem bqC_real {ħ : ℝ} (hħ : 0 < ħ) (N : ℕ) : ∃ κ : ℝ, 0 < κ ∧ bqC ħ N = κ := by
  have h2 : 0 < (Real.pi * ħ) := by positivity
  unfold bqC
  exact ⟨1 / (Real.pi * ħ) ^ (0.25 * N : ℝ), by positivity, by push_cast; norm_num⟩

/-- The norm integral of `|ψ⟩` against the vacuum kernel decides the sign. -/
noncomputable def normInt (ħ : ℝ) (A : Matrix W W ℂ) : ℂ := ∫ x : W → ℝ, Complex.exp (-(∑ w, (x w : ℂ) ^ 2) / (2 * ħ) + 1 / 2 * ((fun w => (x w : ℂ)) ⬝ᵥ A.mulVec fun w => (x w : ℂ)))

theorem normInt_form {ħ : ℝ} (A : Matrix W W ℂ) : normInt ħ A = ∫ x : W → ℝ, Complex.exp (form ((1 / ħ : ℂ) • 1 - A) 0 x) := by
  unfold normInt form
  refine integral_congr_ae (Filter.Eventually.of_forall fun x => congrArg Complex.exp ?_)
  rw [quad_mulVec ((1 / ħ : ℂ) • (1 : Matrix W W ℂ) - A) (fun w => (x w : ℂ)), Matrix.sub_mulVec, dotProduct_sub, Matrix.smul_mulVec, Matrix.one_mulVec, dotProduct_smul, smul_eq_mul]
  have e1 : (fun w => (x w : ℂ)) ⬝ᵥ (fun w => (x w : ℂ)) = ∑ w, (x w : ℂ) ^ 2 := Finset.sum_congr rfl fun w _ => (pow_two _).symm
  rw [e1]
  simp only [Pi.zero_apply, zero_mul, Finset.sum_const_zero, add_zero]
  have : -(∑ w, (x w : ℂ) ^ 2) / (2 * ħ) = -(1 / 2) * (1 / ħ * ∑ w, (x w : ℂ) ^ 2) := by
    rw [div_eq_mul_inv, _root_.mul_inv_rev]; ring
  rw [this]
  ring

/-- **C97 (kets: sign)** For kets the sign of `C97_integral` is that of the real part of `∫ exp(-x²/2ħ) exp(xAx/2) dx`. -/
theorem C97_ket_sign {ħ : ℝ} (hħ : 0 < ħ) (φ : ℝ) {l : List Sd} (hl : l.Nodup) (hall : ∀ d, d ∈ l) (T : Matrix W W ℂ × (W → ℂ) × ℂ) (hT : T.1ᵀ = T.1)
    (hA : ∀ x : W → ℝ, x ≠ 0 → (∑ i, ∑ j, T.1 i j * x i * x j).re < 0) :
    ∃ T', quadSteps true ħ φ (fun _ => .ok) l T = some T' ∧
      (0 < (normInt ħ T.1).re → ∀ z, bargTransform ħ φ (fun _ => .ok) (fun x => bargFun T.1 T.2.1 T.2.2 (fun w => (x w : ℂ))) z = bargFun T'.1 T'.2.1 T'.2.2 z) ∧
      ((normInt ħ T.1).re < 0 → ∀ z, bargTransform ħ φ (fun _ => .ok) (fun x => bargFun T.1 T.2.1 T.2.2 (fun w => (x w : ℂ))) z = -bargFun T'.1 T'.2.1 T'.2.2 z) := by
  obtain ⟨T', hT'⟩ := C97_defined hħ φ (fun _ => Sd.ok) hl T hT hA
  refine ⟨T', hT', ?_⟩
  have h1 := hT'
  rw [quadSteps_one true hħ φ .ok l hl (hall _) T hT] at h1
  have r1 := quadStep_rel true hħ φ _ _ hT h1
  obtain ⟨r, hR⟩ := quadSteps_rel true hħ φ (fun _ => Sd.ok) l hl hT hT'
  obtain ⟨κ, hκ, eκ⟩ := numK_pos hħ (Fintype.card W)
  obtain ⟨β, hβ, eβ⟩ := bqC_real hħ (Fintype.card W)
  rw [det_all] at r1
  have eN : Fintype.card {w : W // (fun _ => Sd.ok) w = Sd.ok} = Fintype.card W := Fintype.card_congr (Equiv.subtypeUnivEquiv fun _ => rfl)
  rw [eN, eκ] at r1
  have eF : quadF true ħ φ (fun _ : W => Sd.ok) [.ok] = quadF true ħ φ (fun _ : W => Sd.ok) l := by
    unfold quadF wireF
    simp only [hall, List.mem_singleton, if_true]
  have eG : quadG true ħ φ (fun _ : W => Sd.ok) [.ok] = quadG true ħ φ (fun _ : W => Sd.ok) l := by
    unfold quadG wireG
    simp only [hall, List.mem_singleton, if_true]
  have eC : quadChi true ħ φ (fun _ : W => Sd.ok) [.ok] = quadChi true ħ φ (fun _ : W => Sd.ok) l := by
    unfold quadChi
    simp only [hall, List.mem_singleton, if_true]
  rw [eF, eG, eC] at r1
  obtain ⟨hr, q, -, hq, hn, hd, hI⟩ := quad_core hħ φ (fun _ => Sd.ok) hall hT hA r1
  rw [← normInt_form] at hn
  rw [← hn, eβ] at hI hq
  have hsq : ((normInt ħ T.1 * (β / κ : ℝ)) ^ 2) = 1 / (1 - numT true ħ φ .ok • T.1).det := by
    have : (κ : ℂ) ≠ 0 := by exact_mod_cast hκ.ne'
    rw [mul_pow (κ : ℂ), sqrt_sq] at hq
    push_cast
    field_simp at hq ⊢
    linear_combination hq
  constructor
  · intro hp z
    have h2 := sqrt_of_re_pos hsq (by rw [mul_comm, Complex.re_ofReal_mul]; positivity)
    have h3 : (β : ℂ) * normInt ħ T.1 = κ * (1 / (1 - numT true ħ φ .ok • T.1).det) ^ (1 / 2 : ℂ) := by
      rw [h2]
      have : (κ : ℂ) ≠ 0 := by exact_mod_cast hκ.ne'
      push_cast
      field_simp
    have := hI z
    rw [h3] at this
    exact mul_left_cancel₀ hr this
  · intro hp z
    have h2 := sqrt_of_re_pos (ρ := -(normInt ħ T.1 * (β / κ : ℝ))) ((neg_sq _).trans hsq)
      (by rw [Complex.neg_re, mul_comm, Complex.re_ofReal_mul]; have : 0 < β / κ := by positivity
          nlinarith)
    have h3 : (β : ℂ) * normInt ħ T.1 = -(κ * (1 / (1 - numT true ħ φ .ok • T.1).det) ^ (1 / 2 : ℂ)) := by
      rw [h2]
      have : (κ : ℂ) ≠ 0 := by exact_mod_cast hκ.ne'
      push_cast
      field_simp
    have := hI z
    rw [h3, neg_mul, ← mul_neg] at this
    exact mul_left_cancel₀ hr this

theorem prod_re_pos {k : ℕ} (q : Fin k → ℂ) (hk : k ≤ 2) (hq : ∀ i, 0 < (q i).re) : 0 < (∏ i, (2 * Real.pi / q i) ^ (1 / 2 : ℂ)).re := by
  have hpos : ∀ i, 0 < (2 * (Real.pi : ℂ) / q i).re := by
    intro i
    have hqi : 0 < Complex.normSq (q i) := Complex.normSq_pos.2 (by intro e; have := hq i; rw [e] at this; simp at this)
    rw [div_eq_mul_inv, show (2 * (Real.pi : ℂ)) = ((2 * Real.pi : ℝ) : ℂ) by push_cast; rfl, Complex.re_ofReal_mul, Complex.inv_re]
    have := hq i
    have := Real.pi_pos
    positivity
  have hc := fun i => sqrt_cone (hpos i)
  obtain ⟨f, hf⟩ : ∃ f : Fin k → ℂ, f = fun i => (2 * (Real.pi : ℂ) / q i) ^ (1 / 2 : ℂ) := ⟨_, rfl⟩
  have hc' : ∀ i, |(f i).im| < (f i).re := fun i => by rw [hf]; exact hc i
  rw [show (∏ i, (2 * (Real.pi : ℂ) / q i) ^ (1 / 2 : ℂ)) = ∏ i, f i by rw [hf]]
  clear hf hc hpos hq q
  interval_cases k
  · simp
  · rw [Fin.prod_univ_one]
    exact (abs_nonneg _).trans_lt (hc' 0)
  · rw [Fin.prod_univ_two, Complex.mul_re]
    have a := hc' 0
    have b := hc' 1
    have h1 : (f 0).im * (f 1).im ≤ |(f 0).im| * |(f 1).im| := by rw [← abs_mul]; exact le_abs_self _
    have := mul_lt_mul'' a b (abs_nonneg _) (abs_nonneg _)
    linarith

/-- **C97 (kets: exact)** `Ket.from_quadrature` returns exactly the Bargmann transform, including the sign, for one and two modes and for
wave functions with a real matrix `A`. -/
theorem C97_ket_exact {ħ : ℝ} (hħ : 0 < ħ) (φ : ℝ) {l : List Sd} (hl : l.Nodup) (hall : ∀ d, d ∈ l) (T : Matrix W W ℂ × (W → ℂ) × ℂ) (hT : T.1ᵀ = T.1)
    (hA : ∀ x : W → ℝ, x ≠ 0 → (∑ i, ∑ j, T.1 i j * x i * x j).re < 0) (hc : Fintype.card W ≤ 2 ∨ ∀ i j, (T.1 i j).im = 0) :
    ∃ T', quadSteps true ħ φ (fun _ => .ok) l T = some T' ∧
      ∀ z, bargTransform ħ φ (fun _ => .ok) (fun x => bargFun T.1 T.2.1 T.2.2 (fun w => (x w : ℂ))) z = bargFun T'.1 T'.2.1 T'.2.2 z := by
  obtain ⟨T', hT', h1, -⟩ := C97_ket_sign hħ φ hl hall T hT hA
  refine ⟨T', hT', h1 ?_⟩
  obtain ⟨r, hR⟩ := quadSteps_rel true hħ φ (fun _ => Sd.ok) l hl hT hT'
  obtain ⟨hr, q, hq, hq2, hn, -, -⟩ := quad_core hħ φ (fun _ => Sd.ok) hall hT hA hR
  rw [← normInt_form] at hn
  rcases hc with hc | hc
  · rw [hn]
    exact prod_re_pos q hc hq
  · have hreal : ∃ f : (W → ℝ) → ℝ, normInt ħ T.1 = ∫ x : W → ℝ, ((Real.exp (f x) : ℝ) : ℂ) := by
      refine ⟨fun x => -(∑ w, x w ^ 2) / (2 * ħ) + 1 / 2 * (x ⬝ᵥ (T.1.map Complex.re).mulVec x), ?_⟩
      unfold normInt
      refine integral_congr_ae (Filter.Eventually.of_forall fun x => ?_)
      dsimp only
      rw [Complex.ofReal_exp]
      refine congrArg Complex.exp ?_
      simp only [dotProduct, Matrix.mulVec, Matrix.map_apply]
      push_cast
      have : ∀ i j, ((T.1 i j).re : ℂ) = T.1 i j := fun i j => Complex.ext (by simp) (by simp [hc i j])
      simp only [this]
    obtain ⟨f, hf⟩ := hreal
    have hf' : normInt ħ T.1 = ((∫ x : W → ℝ, Real.exp (f x) : ℝ) : ℂ) := hf.trans (integral_ofReal (𝕜 := ℂ))
    have hne : normInt ħ T.1 ≠ 0 := fun e => by
      rw [← hn, e, mul_zero, zero_pow two_ne_zero] at hq2
      exact hr (pow_eq_zero_iff two_ne_zero |>.1 hq2.symm)
    rw [hf'] at hne ⊢
    rw [Complex.ofReal_re]
    exact lt_of_le_of_ne (integral_nonneg fun x => (Real.exp_pos _).le) fun e => hne (by rw [← e]; simp)

/-! ## Three modes: the wrong sign -/

/-- A wave function of three modes with `A = -(1 + 6i)`. -/
noncomputable def exQ3 : Matrix (Fin 3) (Fin 3) ℂ × (Fin 3 → ℂ) × ℂ := ((-(1 + 6 * Complex.I)) • 1, 0, 1)

theorem exQ3_int : normInt 1 exQ3.1 = (((Real.pi : ℂ) / (1 + 3 * Complex.I)) ^ (1 / 2 : ℂ)) ^ 3 := by
  unfold normInt
  have e : ∀ x : Fin 3 → ℝ, Complex.exp (-(∑ w, (x w : ℂ) ^ 2) / (2 * (1 : ℝ)) + 1 / 2 * ((fun w => (x w : ℂ)) ⬝ᵥ exQ3.1.mulVec fun w => (x w : ℂ))) =
      ∏ w, (fun y : ℝ => Complex.exp (-(1 + 3 * Complex.I) * (y : ℂ) ^ 2)) (x w) := fun x => by
    dsimp only
    rw [← Complex.exp_sum]
    refine congrArg Complex.exp ?_
    unfold exQ3
    dsimp only
    rw [Matrix.smul_mulVec, Matrix.one_mulVec]
    simp only [dotProduct, Pi.smul_apply, smul_eq_mul, Fin.sum_univ_three]
    push_cast
    ring
  simp only [e]
  rw [integral_fintype_prod_volume_eq_pow (fun y : ℝ => Complex.exp (-(1 + 3 * Complex.I) * (y : ℂ) ^ 2)), integral_gaussian_complex (by simp), Fintype.card_fin]

theorem exQ3_neg : (normInt 1 exQ3.1).re < 0 := by
  rw [exQ3_int]
  obtain ⟨w, hw⟩ : ∃ w, w = ((Real.pi : ℂ) / (1 + 3 * Complex.I)) ^ (1 / 2 : ℂ) := ⟨_, rfl⟩
  rw [← hw]
  have hv : (Real.pi : ℂ) / (1 + 3 * Complex.I) = ((Real.pi / 10 : ℝ) : ℂ) * (1 - 3 * Complex.I) := by
    have h0 : (1 + 3 * Complex.I) ≠ 0 := fun h => by simpa using congrArg Complex.re h
    rw [div_eq_iff h0]
    push_cast
    linear_combination (9 * (Real.pi : ℂ) / 10) * Complex.I_sq
  have h2 : w ^ 2 = ((Real.pi / 10 : ℝ) : ℂ) * (1 - 3 * Complex.I) := by rw [hw, sqrt_sq, hv]
  have hp := Real.pi_pos
  have hre : 0 < w.re := by
    have := sqrt_cone (z := (Real.pi : ℂ) / (1 + 3 * Complex.I)) (by rw [hv, Complex.re_ofReal_mul]; simp; positivity)
    rw [← hw] at this
    exact (abs_nonneg _).trans_lt this
  have e1 := congrArg Complex.re h2
  have e2 := congrArg Complex.im h2
  rw [Complex.re_ofReal_mul, pow_two, Complex.mul_re] at e1
  rw [Complex.im_ofReal_mul, pow_two, Complex.mul_im] at e2
  simp at e1 e2
  obtain ⟨a, ha⟩ : ∃ a, a = Real.pi / 10 := ⟨_, rfl⟩
  have ha0 : 0 < a := by rw [ha]; positivity
  rw [← ha] at e1 e2
  have e3 : (w ^ 3).re = w.re * (w.re ^ 2 - 3 * w.im ^ 2) := by
    rw [show w ^ 3 = w * w * w by ring, Complex.mul_re, Complex.mul_re, Complex.mul_im]
    ring
  rw [e3]
  have hP : w.re ^ 2 * w.im ^ 2 = 9 / 4 * a ^ 2 := by
    have : w.re * w.im = -(3 / 2) * a := by linarith
    rw [← mul_pow, this]; ring
  have hP2 : w.im ^ 2 = w.re ^ 2 - a := by linarith
  rw [hP2] at hP ⊢
  have : 3 / 2 * a < w.re ^ 2 := by
    by_contra h
    push Not at h
    nlinarith [sq_nonneg w.re]
  exact mul_neg_of_pos_of_neg hre (by linarith)

/-- **C97 (disagreement)** For three modes `Ket.from_quadrature` returns the Bargmann transform with the wrong sign for the wave function
`exp(-(1 + 6i) |x|² / 2)`, which satisfies all hypotheses of `C97_integral`. -/
theorem C97_wrong_sign {l : List Sd} (hl : l.Nodup) (hall : ∀ d, d ∈ l) (φ : ℝ) :
    exQ3.1ᵀ = exQ3.1 ∧ (∀ x : Fin 3 → ℝ, x ≠ 0 → (∑ i, ∑ j, exQ3.1 i j * x i * x j).re < 0) ∧
    ∃ T', quadSteps true 1 φ (fun _ => .ok) l exQ3 = some T' ∧
      bargTransform 1 φ (fun _ => .ok) (fun x => bargFun exQ3.1 exQ3.2.1 exQ3.2.2 (fun w => (x w : ℂ))) 0 = -bargFun T'.1 T'.2.1 T'.2.2 0 ∧
      bargFun T'.1 T'.2.1 T'.2.2 0 ≠ 0 := by
  have hT : exQ3.1ᵀ = exQ3.1 := by unfold exQ3; simp
  have hA : ∀ x : Fin 3 → ℝ, x ≠ 0 → (∑ i, ∑ j, exQ3.1 i j * x i * x j).re < 0 := fun x hx => by
    have e : ∑ i, ∑ j, exQ3.1 i j * x i * x j = -(1 + 6 * Complex.I) * ((∑ i, x i ^ 2 : ℝ) : ℂ) := by
      unfold exQ3
      push_cast
      rw [Finset.mul_sum]
      refine Finset.sum_congr rfl fun i _ => ?_
      rw [Finset.sum_eq_single i]
      · simp only [Matrix.smul_apply, Matrix.one_apply_eq, smul_eq_mul]; ring
      · intro k _ hk
        simp only [Matrix.smul_apply, Matrix.one_apply_ne hk.symm, smul_eq_mul]; ring
      · exact fun h => absurd (Finset.mem_univ _) h
    rw [e, mul_comm, Complex.re_ofReal_mul]
    have h1 : 0 < ∑ i, x i ^ 2 := by
      obtain ⟨i, hi⟩ := Function.ne_iff.1 hx
      exact Finset.sum_pos' (fun i _ => sq_nonneg _) ⟨i, Finset.mem_univ _, by have : x i ≠ 0 := hi; positivity⟩
    simp
    linarith
  refine ⟨hT, hA, ?_⟩
  obtain ⟨T', hT', -, h2⟩ := C97_ket_sign one_pos φ hl hall exQ3 hT hA
  refine ⟨T', hT', h2 exQ3_neg 0, fun h0 => ?_⟩
  have h3 := h2 exQ3_neg 0
  rw [h0, neg_zero] at h3
  have h4 : bargTransform 1 φ (fun _ : Fin 3 => .ok) (fun x => bargFun exQ3.1 exQ3.2.1 exQ3.2.2 (fun w => (x w : ℂ))) 0 =
      ((((Real.pi * 1) ^ (1 / 4 : ℝ) : ℝ) : ℂ)⁻¹) ^ 3 * normInt 1 exQ3.1 := by
    unfold bargTransform normInt
    rw [← integral_const_mul]
    refine integral_congr_ae (Filter.Eventually.of_forall fun x => ?_)
    unfold bargKer bargFun
    dsimp only
    rw [Finset.prod_mul_distrib, Finset.prod_const, Finset.card_univ, Fintype.card_fin, ← Complex.exp_sum]
    have e5 : exQ3.2.1 = 0 := rfl
    have e6 : exQ3.2.2 = 1 := rfl
    rw [e5, e6, zero_dotProduct, one_mul, mul_assoc, ← Complex.exp_add]
    refine congrArg (fun e => _ * Complex.exp e) ?_
    simp only [Pi.zero_apply, mul_zero, zero_pow two_ne_zero, add_zero, sub_zero]
    rw [← Finset.sum_div, Finset.sum_neg_distrib]
  rw [h4] at h3
  have h5 : ((((Real.pi * 1) ^ (1 / 4 : ℝ) : ℝ) : ℂ)⁻¹) ^ 3 ≠ 0 := pow_ne_zero _ (inv_ne_zero (by
    have : 0 < (Real.pi * 1) ^ (1 / 4 : ℝ) := by positivity
    exact_mod_cast this.ne'))
  have := exQ3_neg
  rw [(mul_eq_zero.1 h3).resolve_left h5] at this
  exact absurd this (by simp)

/-! ## A case that meets the hypotheses -/

/-- The wave function `exp(-x²/2 + x)` of one mode, at `ħ = 1`: its Bargmann function is a coherent state, computed with the four sides in the code's order. -/
example (φ : ℝ) : ∃ T' : Matrix Unit Unit ℂ × (Unit → ℂ) × ℂ, quadSteps true 1 φ (fun _ => .ok) [.ik, .ok, .ib, .ob] (-1, 1, 1) = some T' ∧
    ∀ z, bargTransform 1 φ (fun _ => .ok) (fun x => bargFun (-1) 1 1 (fun w => (x w : ℂ))) z = bargFun T'.1 T'.2.1 T'.2.2 z :=
  C97_ket_exact one_pos φ (by decide) (by intro d; cases d <;> decide) (-1, 1, 1) (by simp) (fun x hx => by
    have : x () ≠ 0 := fun h => hx (funext fun u => by cases u; exact h)
    simp [Complex.mul_re]
    positivity) (Or.inl (by simp))

/-- Density matrices: a mixed state with one bra and one ket wire. -/
example (φ : ℝ) : ∃ T', quadSteps true 1 φ (fun b : Bool => if b then Sd.ob else .ok) [.ik, .ok, .ib, .ob]
    (Matrix.of fun i j => if i = j then -2 else 1, 0, 1) = some T' := by
  refine C97_defined one_pos φ _ (by decide) _ ?_ fun x hx => ?_
  · ext i j; simp only [Matrix.transpose_apply, Matrix.of_apply, eq_comm]
  · simp only [Fintype.sum_bool, Matrix.of_apply]
    have h : x true ≠ 0 ∨ x false ≠ 0 := by
      by_contra h
      push Not at h
      exact hx (funext fun b => by cases b; exacts [h.2, h.1])
    simp [Complex.mul_re]
    rcases h with h | h
    · have : 0 < x true ^ 2 := by positivity
      nlinarith [sq_nonneg (x true - x false), sq_nonneg (x false)]
    · have : 0 < x false ^ 2 := by positivity
      nlinarith [sq_nonneg (x true - x false), sq_nonneg (x true)]

end Verif.Manifold
