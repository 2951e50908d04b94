import Mathlib.Analysis.SpecialFunctions.Gaussian.FourierTransform
import Mathlib.LinearAlgebra.Matrix.SchurComplement
import Mathlib.MeasureTheory.Constructions.Pi

/-!
# Gaussian integrals over `ℝ^k` with a complex symmetric matrix

`∫ exp(-½ xᵀ Q x + bᵀ x) dx` for `Q` complex symmetric with positive definite real part, by integrating out one variable
at a time.  This file contains no model of the code; it is the specification side of C17, C18 and C48.
-/

namespace Verif.Gauss
open MeasureTheory Complex

variable {k : ℕ} {κ : Type*} [Fintype κ]

/-- The exponent `-½ xᵀ Q x + bᵀ x`. -/
noncomputable def form (Q : Matrix κ κ ℂ) (b : κ → ℂ) (x : κ → ℝ) : ℂ :=
  -(1 / 2) * (∑ i, ∑ j, Q i j * x i * x j) + ∑ i, b i * x i

/-- The real part of the quadratic form is positive definite. -/
def PosRe (Q : Matrix κ κ ℂ) : Prop := ∀ x : κ → ℝ, x ≠ 0 → 0 < (∑ i, ∑ j, Q i j * x i * x j).re

/-- Matrix after integrating out the first variable. -/
noncomputable def red (Q : Matrix (Fin (k + 1)) (Fin (k + 1)) ℂ) : Matrix (Fin k) (Fin k) ℂ :=
  fun i j => Q i.succ j.succ - Q i.succ 0 * Q 0 j.succ / Q 0 0

/-- Vector after integrating out the first variable. -/
noncomputable def redb (Q : Matrix (Fin (k + 1)) (Fin (k + 1)) ℂ) (b : Fin (k + 1) → ℂ) : Fin k → ℂ :=
  fun i => b i.succ - Q i.succ 0 * b 0 / Q 0 0

theorem quad_cons (Q : Matrix (Fin (k + 1)) (Fin (k + 1)) ℂ) (hs : ∀ i j, Q i j = Q j i) (t : ℝ) (y : Fin k → ℝ) :
    ∑ i, ∑ j, Q i j * (Fin.cons t y : Fin (k + 1) → ℝ) i * (Fin.cons t y : Fin (k + 1) → ℝ) j =
      Q 0 0 * t ^ 2 + 2 * t * (∑ j, Q 0 j.succ * y j) + ∑ i, ∑ j, Q i.succ j.succ * y i * y j := by
  rw [Fin.sum_univ_succ]
  simp only [Fin.sum_univ_succ (n := k), Fin.cons_zero, Fin.cons_succ]
  rw [Finset.sum_add_distrib]
  have e : ∀ x : Fin k, Q x.succ 0 * (y x : ℂ) * (t : ℂ) = t * (Q 0 x.succ * y x) := fun x => by rw [hs]; ring
  have e' : ∀ x : Fin k, Q 0 x.succ * (t : ℂ) * (y x : ℂ) = t * (Q 0 x.succ * y x) := fun x => by ring
  simp only [e, e', ← Finset.mul_sum]
  ring

theorem form_cons (Q : Matrix (Fin (k + 1)) (Fin (k + 1)) ℂ) (hs : ∀ i j, Q i j = Q j i) (b : Fin (k + 1) → ℂ) (t : ℝ) (y : Fin k → ℝ) :
    form Q b (Fin.cons t y) = -(Q 0 0) / 2 * (t : ℂ) ^ 2 + (b 0 - ∑ j, Q 0 j.succ * y j) * t +
      (-(1 / 2) * (∑ i, ∑ j, Q i.succ j.succ * (y i : ℂ) * y j) + ∑ i, b i.succ * y i) := by
  unfold form
  rw [quad_cons Q hs, Fin.sum_univ_succ]
  simp only [Fin.cons_zero, Fin.cons_succ]
  ring

theorem form_red (Q : Matrix (Fin (k + 1)) (Fin (k + 1)) ℂ) (hs : ∀ i j, Q i j = Q j i) (hq : Q 0 0 ≠ 0) (b : Fin (k + 1) → ℂ)
    (y : Fin k → ℝ) :
    (-(1 / 2) * (∑ i, ∑ j, Q i.succ j.succ * (y i : ℂ) * y j) + ∑ i, b i.succ * y i) -
      (b 0 - ∑ j, Q 0 j.succ * y j) ^ 2 / (4 * (-(Q 0 0) / 2)) = b 0 ^ 2 / (2 * Q 0 0) + form (red Q) (redb Q b) y := by
  unfold form red redb
  set g := ∑ j : Fin k, Q 0 j.succ * (y j : ℂ) with hg
  have e1 : ∑ i : Fin k, ∑ j : Fin k, (Q i.succ j.succ - Q i.succ 0 * Q 0 j.succ / Q 0 0) * (y i : ℂ) * y j =
      (∑ i : Fin k, ∑ j : Fin k, Q i.succ j.succ * (y i : ℂ) * y j) - g * g / Q 0 0 := by
    have : g * g / Q 0 0 = ∑ i : Fin k, ∑ j : Fin k, Q i.succ 0 * Q 0 j.succ / Q 0 0 * (y i : ℂ) * y j := by
      rw [hg, Finset.sum_mul_sum, Finset.sum_div]
      refine Finset.sum_congr rfl fun i _ => ?_
      rw [Finset.sum_div]
      refine Finset.sum_congr rfl fun j _ => ?_
      rw [hs i.succ 0]; ring
    rw [this, ← Finset.sum_sub_distrib]
    refine Finset.sum_congr rfl fun i _ => ?_
    rw [← Finset.sum_sub_distrib]
    refine Finset.sum_congr rfl fun j _ => ?_
    ring
  have e2 : ∑ i : Fin k, (b i.succ - Q i.succ 0 * b 0 / Q 0 0) * (y i : ℂ) = (∑ i : Fin k, b i.succ * (y i : ℂ)) - g * b 0 / Q 0 0 := by
    have : g * b 0 / Q 0 0 = ∑ i : Fin k, Q i.succ 0 * b 0 / Q 0 0 * (y i : ℂ) := by
      rw [hg, Finset.sum_mul, Finset.sum_div]
      refine Finset.sum_congr rfl fun i _ => ?_
      rw [hs i.succ 0]; ring
    rw [this, ← Finset.sum_sub_distrib]
    refine Finset.sum_congr rfl fun i _ => ?_
    ring
  rw [e1, e2]
  field_simp
  ring

theorem PosRe.pivot {Q : Matrix (Fin (k + 1)) (Fin (k + 1)) ℂ} (h : PosRe Q) : 0 < (Q 0 0).re := by
  have := h (Pi.single 0 1) (by intro e; have := congrFun e 0; simp at this)
  simpa [Fin.sum_univ_succ, Pi.single_apply, Fin.succ_ne_zero] using this

theorem red_symm {Q : Matrix (Fin (k + 1)) (Fin (k + 1)) ℂ} (hs : ∀ i j, Q i j = Q j i) (i j) : red Q i j = red Q j i := by
  unfold red; rw [hs i.succ j.succ, hs i.succ 0, hs 0 j.succ]; ring

theorem PosRe.red {Q : Matrix (Fin (k + 1)) (Fin (k + 1)) ℂ} (hs : ∀ i j, Q i j = Q j i) (h : PosRe Q) : PosRe (red Q) := by
  intro y hy
  have hq0 := h.pivot
  have hq : Q 0 0 ≠ 0 := by intro e; rw [e] at hq0; simp at hq0
  set g := ∑ j : Fin k, Q 0 j.succ * (y j : ℂ) with hg
  set t : ℂ := -g / Q 0 0 with ht
  have e1 : ∑ i : Fin k, ∑ j : Fin k, Gauss.red Q i j * (y i : ℂ) * y j =
      (∑ i : Fin k, ∑ j : Fin k, Q i.succ j.succ * (y i : ℂ) * y j) + t * g := by
    have : t * g = -∑ i : Fin k, ∑ j : Fin k, Q i.succ 0 * Q 0 j.succ / Q 0 0 * (y i : ℂ) * y j := by
      have : t * g = -(g * g / Q 0 0) := by rw [ht]; ring
      rw [this, hg, Finset.sum_mul_sum, Finset.sum_div, neg_inj]
      refine Finset.sum_congr rfl fun i _ => ?_
      rw [Finset.sum_div]
      refine Finset.sum_congr rfl fun j _ => ?_
      rw [hs i.succ 0]; ring
    rw [this, ← sub_eq_add_neg, ← Finset.sum_sub_distrib]
    refine Finset.sum_congr rfl fun i _ => ?_
    rw [← Finset.sum_sub_distrib]
    refine Finset.sum_congr rfl fun j _ => ?_
    unfold Gauss.red
    ring
  have hg' : g = -(Q 0 0 * t) := by rw [ht]; field_simp
  have h1 := h (Fin.cons t.re y) (by
    intro e
    apply hy
    funext i
    have := congrFun e i.succ
    simpa using this)
  rw [quad_cons Q hs, ← hg] at h1
  have h2 : 0 ≤ (Q 0 0).re * t.im ^ 2 := by positivity
  have h3 : (∑ i : Fin k, ∑ j : Fin k, Gauss.red Q i j * (y i : ℂ) * y j).re =
      (Q 0 0 * (t.re : ℂ) ^ 2 + 2 * (t.re : ℂ) * g + ∑ i : Fin k, ∑ j : Fin k, Q i.succ j.succ * (y i : ℂ) * y j).re +
        (Q 0 0).re * t.im ^ 2 := by
    rw [e1, hg']
    simp only [add_re, mul_re, neg_re, neg_im, mul_im, pow_two, ofReal_re, ofReal_im, re_ofNat, im_ofNat]
    ring
  rw [h3]; linarith

theorem piFin_symm (p : ℝ × (Fin k → ℝ)) :
    (MeasurableEquiv.piFinSuccAbove (fun _ : Fin (k + 1) => ℝ) 0).symm p = (Fin.cons p.1 p.2 : Fin (k + 1) → ℝ) := by
  rw [MeasurableEquiv.piFinSuccAbove_symm_apply]
  simp [Fin.insertNthEquiv, Fin.insertNth_zero']

/-- The volume on `ℝ^(k+1)` splits off the first coordinate. -/
theorem integrable_cons {f : (Fin (k + 1) → ℝ) → ℂ} :
    Integrable f ↔ Integrable (fun p : ℝ × (Fin k → ℝ) => f (Fin.cons p.1 p.2)) (volume.prod volume) := by
  have hem := (volume_preserving_piFinSuccAbove (fun _ : Fin (k + 1) => ℝ) 0).symm _
  have := hem.integrable_comp_emb (MeasurableEquiv.measurableEmbedding _) (g := f)
  rw [← this]
  rw [Measure.volume_eq_prod]
  apply iff_of_eq
  refine congrArg (fun g => Integrable g (volume.prod volume)) ?_
  funext p
  rw [Function.comp, piFin_symm]

theorem integral_cons (f : (Fin (k + 1) → ℝ) → ℂ) :
    ∫ x, f x = ∫ p : ℝ × (Fin k → ℝ), f (Fin.cons p.1 p.2) ∂(volume.prod volume) := by
  have hem := (volume_preserving_piFinSuccAbove (fun _ : Fin (k + 1) => ℝ) 0).symm _
  have := hem.integral_comp (MeasurableEquiv.measurableEmbedding _) f
  rw [← this, Measure.volume_eq_prod]
  simp only [piFin_symm]

theorem inner_integral {Q : Matrix (Fin (k + 1)) (Fin (k + 1)) ℂ} (hs : ∀ i j, Q i j = Q j i) (h : PosRe Q) (b : Fin (k + 1) → ℂ) (y : Fin k → ℝ) :
    Integrable (fun t : ℝ => cexp (form Q b (Fin.cons t y))) ∧
    ∫ t : ℝ, cexp (form Q b (Fin.cons t y)) =
      (2 * Real.pi / Q 0 0) ^ (1 / 2 : ℂ) * cexp (b 0 ^ 2 / (2 * Q 0 0)) * cexp (form (red Q) (redb Q b) y) := by
  have hq0 := h.pivot
  have hq : Q 0 0 ≠ 0 := by intro e; rw [e] at hq0; simp at hq0
  have hneg : (-(Q 0 0) / 2).re < 0 := by
    have : (-(Q 0 0) / 2).re = -(Q 0 0).re / 2 := by
      rw [show -(Q 0 0) / 2 = -(Q 0 0) / ((2 : ℝ) : ℂ) by norm_num, div_ofReal_re, neg_re]
    rw [this]; linarith
  have e : (fun t : ℝ => cexp (form Q b (Fin.cons t y))) = fun t : ℝ => cexp (-(Q 0 0) / 2 * (t : ℂ) ^ 2 + (b 0 - ∑ j, Q 0 j.succ * y j) * t +
      (-(1 / 2) * (∑ i, ∑ j, Q i.succ j.succ * (y i : ℂ) * y j) + ∑ i, b i.succ * y i)) := by
    funext t; rw [form_cons Q hs]
  rw [e]
  refine ⟨integrable_cexp_quadratic' hneg _ _, ?_⟩
  rw [integral_cexp_quadratic hneg, form_red Q hs hq, Complex.exp_add, ← mul_assoc]
  congr 3
  field_simp

theorem form_re (Q : Matrix κ κ ℂ) (b : κ → ℂ) (x : κ → ℝ) :
    ((form Q b x).re : ℂ) = form (fun i j => ((Q i j).re : ℂ)) (fun i => ((b i).re : ℂ)) x := by
  unfold form
  have e1 : (∑ i, ∑ j, Q i j * (x i : ℂ) * x j).re = ∑ i, ∑ j, (Q i j).re * x i * x j := by
    rw [re_sum]
    refine Finset.sum_congr rfl fun i _ => ?_
    rw [re_sum]
    refine Finset.sum_congr rfl fun j _ => ?_
    simp [mul_re]
  have e2 : (∑ i, b i * (x i : ℂ)).re = ∑ i, (b i).re * x i := by
    rw [re_sum]
    refine Finset.sum_congr rfl fun i _ => ?_
    simp [mul_re]
  have e3 : ∀ w : ℂ, (-(1 / 2 : ℂ) * w).re = -(1 / 2) * w.re := by
    intro w
    rw [show (-(1 / 2 : ℂ)) = ((-(1 / 2) : ℝ) : ℂ) by push_cast; ring, re_ofReal_mul]
  rw [add_re, e3, e1, e2]
  push_cast
  rfl

theorem PosRe.reM {Q : Matrix κ κ ℂ} (h : PosRe Q) : PosRe (fun i j => ((Q i j).re : ℂ)) := by
  intro x hx
  have := h x hx
  simpa [re_sum, mul_re] using this

theorem continuous_form (Q : Matrix κ κ ℂ) (b : κ → ℂ) : Continuous (form Q b) := by
  unfold form
  fun_prop

theorem integrable_gauss : ∀ {k : ℕ} {Q : Matrix (Fin k) (Fin k) ℂ}, (∀ i j, Q i j = Q j i) → PosRe Q → ∀ b : Fin k → ℂ,
    Integrable fun x => cexp (form Q b x) := by
  intro k
  induction k with
  | zero =>
    intro Q _ _ b
    have : IsFiniteMeasure (volume : Measure (Fin 0 → ℝ)) := by
      constructor; simp [volume_pi]
    exact (integrable_const (cexp 0)).congr (Filter.Eventually.of_forall fun x => by simp [form])
  | succ k ih =>
    intro Q hs h b
    rw [integrable_cons, integrable_prod_iff']
    · refine ⟨Filter.Eventually.of_forall fun y => (inner_integral hs h b y).1, ?_⟩
      set P : Matrix (Fin (k + 1)) (Fin (k + 1)) ℂ := fun i j => ((Q i j).re : ℂ) with hP
      set b' : Fin (k + 1) → ℂ := fun i => ((b i).re : ℂ) with hb'
      have hPs : ∀ i j, P i j = P j i := fun i j => by simp only [hP]; rw [hs]
      have hPp : PosRe P := h.reM
      have e : ∀ y : Fin k → ℝ, ∫ t : ℝ, ‖cexp (form Q b (Fin.cons t y))‖ =
          ((2 * Real.pi / P 0 0) ^ (1 / 2 : ℂ) * cexp (b' 0 ^ 2 / (2 * P 0 0)) * cexp (form (Gauss.red P) (redb P b') y)).re := by
        intro y
        rw [← (inner_integral hPs hPp b' y).2]
        have : ∫ t : ℝ, cexp (form P b' (Fin.cons t y)) = ((∫ t : ℝ, ‖cexp (form Q b (Fin.cons t y))‖ : ℝ) : ℂ) := by
          refine Eq.trans ?_ (integral_ofReal (𝕜 := ℂ))
          refine integral_congr_ae (Filter.Eventually.of_forall fun t => ?_)
          simp only
          rw [norm_exp]
          exact (congrArg cexp (form_re Q b _).symm).trans (ofReal_exp _).symm
        rw [this, ofReal_re]
      simp only [e]
      exact ((ih (red_symm hPs) (hPp.red hPs) (redb P b')).const_mul _).re
    · apply Continuous.aestronglyMeasurable
      have : Continuous fun p : ℝ × (Fin k → ℝ) => (Fin.cons p.1 p.2 : Fin (k + 1) → ℝ) := by
        apply continuous_pi
        intro i
        refine Fin.cases ?_ (fun j => ?_) i
        · simpa using continuous_fst
        · simp only [Fin.cons_succ]
          exact (continuous_apply j).comp continuous_snd
      exact Complex.continuous_exp.comp ((continuous_form Q b).comp this)

theorem det_red {Q : Matrix (Fin (k + 1)) (Fin (k + 1)) ℂ} (hq : Q 0 0 ≠ 0) : Q.det = Q 0 0 * (red Q).det := by
  have h1 : Q.det = (Matrix.of fun i j => Q i j - (if i = 0 then 0 else Q i 0 / Q 0 0) * Q 0 j).det := by
    symm
    refine Matrix.det_eq_of_forall_row_eq_smul_add_const (fun i => -(if i = 0 then 0 else Q i 0 / Q 0 0)) 0 (by simp) ?_
    intro i j
    simp only [Matrix.of_apply]
    ring
  rw [h1, Matrix.det_succ_column_zero, Fin.sum_univ_succ]
  have : ∀ i : Fin k, (Matrix.of fun i j => Q i j - (if i = 0 then 0 else Q i 0 / Q 0 0) * Q 0 j) i.succ 0 = 0 := by
    intro i
    simp only [Matrix.of_apply, Fin.succ_ne_zero, if_false]
    field_simp
    ring
  simp only [this]
  simp only [Fin.val_zero, pow_zero, Matrix.of_apply, if_true, zero_mul, sub_zero, one_mul, mul_zero, Finset.sum_const_zero, add_zero]
  congr 2
  ext i j
  simp only [Matrix.submatrix_apply, Matrix.of_apply, Fin.succAbove_zero, Fin.succ_ne_zero, if_false, red]
  ring

/-- **The Gaussian integral.**  The value is a product of principal square roots of `2π/qᵢ` over pivots with positive real
part whose product is the determinant. -/
theorem integral_gauss : ∀ {k : ℕ} {Q : Matrix (Fin k) (Fin k) ℂ}, (∀ i j, Q i j = Q j i) → PosRe Q →
    ∃ q : Fin k → ℂ, (∀ i, 0 < (q i).re) ∧ ∏ i, q i = Q.det ∧ ∀ b u : Fin k → ℂ, Q.mulVec u = b →
      ∫ x, cexp (form Q b x) = (∏ i, (2 * Real.pi / q i) ^ (1 / 2 : ℂ)) * cexp (1 / 2 * ∑ i, b i * u i) := by
  intro k
  induction k with
  | zero =>
    intro Q _ _
    refine ⟨Fin.elim0, fun i => i.elim0, by simp, fun b u _ => ?_⟩
    simp [form, volume_pi, Measure.real]
  | succ k ih =>
    intro Q hs h
    have hq0 := h.pivot
    have hq : Q 0 0 ≠ 0 := by intro e; rw [e] at hq0; simp at hq0
    obtain ⟨q, hpos, hprod, hint⟩ := ih (red_symm hs) (h.red hs)
    refine ⟨Fin.cons (Q 0 0) q, ?_, ?_, ?_⟩
    · intro i
      refine Fin.cases ?_ (fun j => ?_) i
      · simpa using hq0
      · simpa using hpos j
    · rw [Fin.prod_univ_succ]
      simp only [Fin.cons_zero, Fin.cons_succ]
      rw [hprod, det_red hq]
    · intro b u hu
      have hrow : ∀ i, ∑ j, Q i j * u j = b i := fun i => congrFun hu i
      have h0 := hrow 0
      rw [Fin.sum_univ_succ] at h0
      have hu' : (red Q).mulVec (fun j => u j.succ) = redb Q b := by
        funext i
        have hi := hrow i.succ
        rw [Fin.sum_univ_succ] at hi
        simp only [Matrix.mulVec, dotProduct, red, redb]
        have : ∑ j : Fin k, (Q i.succ j.succ - Q i.succ 0 * Q 0 j.succ / Q 0 0) * u j.succ =
            (∑ j : Fin k, Q i.succ j.succ * u j.succ) - Q i.succ 0 / Q 0 0 * ∑ j : Fin k, Q 0 j.succ * u j.succ := by
          rw [Finset.mul_sum, ← Finset.sum_sub_distrib]
          refine Finset.sum_congr rfl fun j _ => ?_
          ring
        rw [this, ← hi, ← h0]
        field_simp
        ring
      have hb := hint _ _ hu'
      have hI := integrable_cons.1 (integrable_gauss hs h b)
      rw [integral_cons, integral_prod_symm _ hI]
      have e : ∀ y : Fin k → ℝ, ∫ t : ℝ, cexp (form Q b (Fin.cons t y)) =
        (2 * Real.pi / Q 0 0) ^ (1 / 2 : ℂ) * cexp (b 0 ^ 2 / (2 * Q 0 0)) * cexp (form (Gauss.red Q) (redb Q b) y) := fun y => (inner_integral hs h b y).2
      simp only [e]
      rw [integral_const_mul, hb, Fin.prod_univ_succ]
      simp only [Fin.cons_zero, Fin.cons_succ]
      have hexp : b 0 ^ 2 / (2 * Q 0 0) + 1 / 2 * ∑ i, redb Q b i * u i.succ = 1 / 2 * ∑ i, b i * u i := by
        rw [Fin.sum_univ_succ (f := fun i => b i * u i)]
        have : ∑ i : Fin k, redb Q b i * u i.succ = (∑ i : Fin k, b i.succ * u i.succ) - b 0 / Q 0 0 * ∑ j : Fin k, Q 0 j.succ * u j.succ := by
          rw [Finset.mul_sum, ← Finset.sum_sub_distrib]
          refine Finset.sum_congr rfl fun j _ => ?_
          unfold redb; rw [hs j.succ 0]; ring
        have h1 : ∑ j : Fin k, Q 0 j.succ * u j.succ = b 0 - Q 0 0 * u 0 := by rw [← h0]; ring
        rw [this, h1]
        field_simp
        ring
      rw [← hexp, Complex.exp_add]
      ring

section Reindex
variable [DecidableEq κ]

theorem form_reindex (e : κ ≃ Fin k) (Q : Matrix κ κ ℂ) (b : κ → ℂ) (y : Fin k → ℝ) :
    form Q b (fun i => y (e i)) = form (Q.submatrix e.symm e.symm) (fun i => b (e.symm i)) y := by
  unfold form
  have h1 : ∑ i, ∑ j, Q i j * (y (e i) : ℂ) * y (e j) = ∑ i, ∑ j, Q.submatrix e.symm e.symm i j * (y i : ℂ) * y j := by
    rw [← Equiv.sum_comp e.symm]
    refine Finset.sum_congr rfl fun i _ => ?_
    rw [← Equiv.sum_comp e.symm]
    simp
  have h2 : ∑ i, b i * (y (e i) : ℂ) = ∑ i, b (e.symm i) * (y i : ℂ) := by
    rw [← Equiv.sum_comp e.symm]
    simp
  rw [h1, h2]

theorem PosRe.reindex {Q : Matrix κ κ ℂ} (e : κ ≃ Fin k) (h : PosRe Q) : PosRe (Q.submatrix e.symm e.symm) := by
  intro y hy
  have h1 : ∑ i, ∑ j, Q i j * (y (e i) : ℂ) * y (e j) = ∑ i, ∑ j, Q.submatrix e.symm e.symm i j * (y i : ℂ) * y j := by
    rw [← Equiv.sum_comp e.symm]
    refine Finset.sum_congr rfl fun i _ => ?_
    rw [← Equiv.sum_comp e.symm]
    simp
  rw [← h1]
  apply h (fun i => y (e i))
  intro h0
  apply hy
  funext i
  have := congrFun h0 (e.symm i)
  simpa using this

theorem piCongr_apply (e : κ ≃ Fin k) (y : Fin k → ℝ) (i : κ) :
    (MeasurableEquiv.piCongrLeft (fun _ : κ => ℝ) e.symm) y i = y (e i) := by
  have := Equiv.piCongrLeft_apply_apply (P := fun _ : κ => ℝ) e.symm y (e i)
  rw [Equiv.symm_apply_apply] at this
  rw [MeasurableEquiv.coe_piCongrLeft]
  exact this

theorem integrable_form {Q : Matrix κ κ ℂ} (hs : ∀ i j, Q i j = Q j i) (h : PosRe Q) (b : κ → ℂ) :
    Integrable fun x : κ → ℝ => cexp (form Q b x) := by
  have e := Fintype.equivFin κ
  have hem := volume_measurePreserving_piCongrLeft (fun _ : κ => ℝ) e.symm
  rw [← hem.integrable_comp_emb (MeasurableEquiv.measurableEmbedding _)]
  have : ((fun x : κ → ℝ => cexp (form Q b x)) ∘ (MeasurableEquiv.piCongrLeft (fun _ : κ => ℝ) e.symm)) =
      fun y => cexp (form (Q.submatrix e.symm e.symm) (fun i => b (e.symm i)) y) := by
    funext y
    have h1 : (MeasurableEquiv.piCongrLeft (fun _ : κ => ℝ) e.symm) y = fun i => y (e i) := funext fun i => piCongr_apply e y i
    rw [Function.comp, h1, form_reindex]
  rw [this]
  exact integrable_gauss (fun i j => hs _ _) (h.reindex e) _

/-- **The Gaussian integral**, any finite set of variables. -/
theorem integral_form {Q : Matrix κ κ ℂ} (hs : ∀ i j, Q i j = Q j i) (h : PosRe Q) :
    ∃ q : Fin (Fintype.card κ) → ℂ, (∀ i, 0 < (q i).re) ∧ ∏ i, q i = Q.det ∧ ∀ b u : κ → ℂ, Q.mulVec u = b →
      ∫ x : κ → ℝ, cexp (form Q b x) = (∏ i, (2 * Real.pi / q i) ^ (1 / 2 : ℂ)) * cexp (1 / 2 * ∑ i, b i * u i) := by
  have e := Fintype.equivFin κ
  obtain ⟨q, hq, hd, hi⟩ := integral_gauss (Q := Q.submatrix e.symm e.symm) (fun i j => hs _ _) (h.reindex e)
  refine ⟨q, hq, by rw [hd, Matrix.det_submatrix_equiv_self], fun b u hu => ?_⟩
  have hem := volume_measurePreserving_piCongrLeft (fun _ : κ => ℝ) e.symm
  rw [← hem.integral_comp (MeasurableEquiv.measurableEmbedding _)]
  have h1 : ∀ y, (MeasurableEquiv.piCongrLeft (fun _ : κ => ℝ) e.symm) y = fun i => y (e i) := fun y => funext fun i => piCongr_apply e y i
  simp only [h1, form_reindex]
  rw [hi (fun i => b (e.symm i)) (fun i => u (e.symm i))]
  · rw [← Equiv.sum_comp e.symm (fun i => b i * u i)]
  · funext i
    rw [← hu]
    simp only [Matrix.mulVec, dotProduct, Matrix.submatrix_apply]
    exact Equiv.sum_comp e.symm (fun j => Q (e.symm i) j * u j)

end Reindex

end Verif.Gauss
