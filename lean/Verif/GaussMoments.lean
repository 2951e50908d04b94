import Verif.GaussStein
import Mathlib.LinearAlgebra.Matrix.PosDef
import Mathlib.MeasureTheory.Group.Integral
import Mathlib.MeasureTheory.Measure.Haar.OfBasis
import Mathlib.MeasureTheory.Measure.Lebesgue.EqHaar

/-!
# Moments of real Gaussians with covariance matrix `V`

Specification side of C65: this file contains no model of the code.
-/

namespace Verif.Gauss
open MeasureTheory Complex Matrix

variable {κ : Type*} [Fintype κ] [DecidableEq κ]

/-- `exp(-½ (x - m)ᵀ V⁻¹ (x - m))`. -/
noncomputable def bell (V : Matrix κ κ ℝ) (m x : κ → ℝ) : ℝ := Real.exp (-(1 / 2) * ((x - m) ⬝ᵥ V⁻¹.mulVec (x - m)))

/-- The inverse covariance matrix, as a complex matrix. -/
noncomputable def prec (V : Matrix κ κ ℝ) : Matrix κ κ ℂ := V⁻¹.map Complex.ofReal

theorem bell_form (V : Matrix κ κ ℝ) (x : κ → ℝ) : ((bell V 0 x : ℝ) : ℂ) = cexp (form (prec V) 0 x) := by
  unfold bell form prec
  rw [sub_zero, Complex.ofReal_exp]
  refine congrArg cexp ?_
  simp only [dotProduct, mulVec, Matrix.map_apply, Pi.zero_apply, zero_mul, Finset.sum_const_zero, add_zero]
  push_cast
  refine congrArg _ (Finset.sum_congr rfl fun i _ => ?_)
  rw [Finset.mul_sum]
  exact Finset.sum_congr rfl fun j _ => by ring

theorem prec_symm {V : Matrix κ κ ℝ} (hV : V.PosDef) (i j : κ) : prec V i j = prec V j i := by
  have h : V⁻¹ᵀ = V⁻¹ := by
    have := hV.isHermitian.inv
    unfold IsHermitian at this
    rwa [conjTranspose_eq_transpose_of_trivial] at this
  unfold prec
  rw [Matrix.map_apply, Matrix.map_apply]
  exact congrArg _ (congrFun (congrFun h.symm i) j)

theorem prec_posRe {V : Matrix κ κ ℝ} (hV : V.PosDef) : PosRe (prec V) := by
  intro x hx
  have := hV.inv.dotProduct_mulVec_pos hx
  have e : ∑ i, ∑ j, prec V i j * (x i : ℂ) * x j = ((star x ⬝ᵥ V⁻¹.mulVec x : ℝ) : ℂ) := by
    simp only [dotProduct, mulVec, prec, Matrix.map_apply]
    push_cast
    refine Finset.sum_congr rfl fun i _ => ?_
    rw [Finset.mul_sum]
    exact Finset.sum_congr rfl fun j _ => by simp; ring
  rw [e, Complex.ofReal_re]
  exact this

theorem lineDeriv_lin (a : ℂ) (e : κ → ℂ) (l : κ) (x : κ → ℝ) :
    HasLineDerivAt ℝ (fun x : κ → ℝ => a + ∑ l, e l * (x l : ℂ)) (e l) x (Pi.single l 1) := by
  unfold HasLineDerivAt
  have h : (fun t : ℝ => a + ∑ i, e i * (((x + t • (Pi.single l 1 : κ → ℝ)) i : ℝ) : ℂ)) =
      fun t : ℝ => (a + ∑ i, e i * (x i : ℂ)) + e l * (t : ℂ) := by
    funext t
    have : ∀ i, e i * (((x + t • (Pi.single l 1 : κ → ℝ)) i : ℝ) : ℂ) = e i * (x i : ℂ) + (if i = l then e l * (t : ℂ) else 0) := fun i => by
      by_cases hi : i = l
      · subst hi; simp [mul_add]
      · simp [hi]
    simp only [this, Finset.sum_add_distrib, Finset.sum_ite_eq', Finset.mem_univ, if_true]
    ring
  rw [h]
  have h1 : HasDerivAt (fun t : ℝ => (t : ℂ)) 1 0 := Complex.ofRealCLM.hasDerivAt
  simpa using (h1.const_mul (e l)).const_add (a + ∑ i, e i * (x i : ℂ))

/-- Centred moments. -/
theorem centred_moment {V : Matrix κ κ ℝ} (hV : V.PosDef) (a a' : ℂ) (l l' : κ → ℂ) :
    ∫ x : κ → ℝ, (a + ∑ i, l i * (x i : ℂ)) * (a' + ∑ i, l' i * (x i : ℂ)) * (bell V 0 x : ℝ) =
      (a * a' + l ⬝ᵥ (V.map Complex.ofReal).mulVec l') * ∫ x : κ → ℝ, ((bell V 0 x : ℝ) : ℂ) := by
  simp only [bell_form]
  have hs := prec_symm hV
  have hp := prec_posRe hV
  have hinv : (V.map Complex.ofReal) * prec V = 1 := by
    unfold prec
    have : V.map Complex.ofReal * V⁻¹.map Complex.ofReal = (V * V⁻¹).map Complex.ofRealHom := (Matrix.map_mul (f := Complex.ofRealHom)).symm
    rw [this, mul_nonsing_inv _ ((Matrix.isUnit_iff_isUnit_det _).1 hV.isUnit)]
    exact Matrix.map_one _ Complex.ofReal_zero Complex.ofReal_one
  have hVs : (V.map Complex.ofReal)ᵀ = V.map Complex.ofReal := by
    have := hV.isHermitian
    unfold IsHermitian at this
    rw [conjTranspose_eq_transpose_of_trivial] at this
    rw [← Matrix.transpose_map, this]
  have key : ∀ (a : ℂ) (l : κ → ℂ) (j : κ), ∫ x : κ → ℝ, (a + ∑ i, l i * (x i : ℂ)) * (∑ i, prec V j i * x i) * cexp (form (prec V) 0 x) =
      l j * ∫ x : κ → ℝ, cexp (form (prec V) 0 x) := fun a l j => by
    have := stein hs hp 0 j (Tame.lin a l) (Tame.const (l j)) (lineDeriv_lin a l j)
    rw [this, Pi.zero_apply, zero_mul, zero_add, integral_const_mul]
  have hlin : ∀ x : κ → ℝ, ∑ i, l' i * (x i : ℂ) = ∑ j, ((V.map Complex.ofReal).mulVec l') j * ∑ i, prec V j i * x i := fun x => by
    have : ∑ j, ((V.map Complex.ofReal).mulVec l') j * ∑ i, prec V j i * x i =
        ((V.map Complex.ofReal).mulVec l') ⬝ᵥ (prec V).mulVec (fun i => (x i : ℂ)) := rfl
    rw [this, Matrix.dotProduct_mulVec, ← Matrix.vecMul_transpose, hVs, Matrix.vecMul_vecMul, hinv, Matrix.vecMul_one]
    rfl
  have hint : ∀ (a : ℂ) (l : κ → ℂ) (a' : ℂ) (l' : κ → ℂ), Integrable fun x : κ → ℝ => (a + ∑ i, l i * (x i : ℂ)) * (a' + ∑ i, l' i * (x i : ℂ)) * cexp (form (prec V) 0 x) :=
    fun a l a' l' => ((Tame.lin a l).mul (Tame.lin a' l')).integrable hs hp 0
  have hint1 : ∀ (a : ℂ) (l : κ → ℂ), Integrable fun x : κ → ℝ => (a + ∑ i, l i * (x i : ℂ)) * cexp (form (prec V) 0 x) :=
    fun a l => (Tame.lin a l).integrable hs hp 0
  have hcross : ∀ (a : ℂ) (l : κ → ℂ), ∫ x : κ → ℝ, (a + ∑ i, l i * (x i : ℂ)) * (∑ i, l' i * (x i : ℂ)) * cexp (form (prec V) 0 x) =
      (l ⬝ᵥ (V.map Complex.ofReal).mulVec l') * ∫ x : κ → ℝ, cexp (form (prec V) 0 x) := fun a l => by
    simp only [hlin, Finset.mul_sum, Finset.sum_mul]
    rw [integral_finsetSum]
    · rw [dotProduct, Finset.sum_mul]
      refine Finset.sum_congr rfl fun j _ => ?_
      have := key a l j
      rw [show l j * ((V.map Complex.ofReal).mulVec l') j * ∫ x : κ → ℝ, cexp (form (prec V) 0 x) =
        ((V.map Complex.ofReal).mulVec l') j * (l j * ∫ x : κ → ℝ, cexp (form (prec V) 0 x)) by ring, ← this, ← integral_const_mul]
      refine integral_congr_ae (.of_forall fun x => ?_)
      simp only [Finset.mul_sum, Finset.sum_mul]
      exact Finset.sum_congr rfl fun i _ => by ring
    · intro j _
      have := (hint a l 0 (prec V j)).const_mul (((V.map Complex.ofReal).mulVec l') j)
      refine this.congr (.of_forall fun x => ?_)
      simp only [zero_add, Finset.mul_sum, Finset.sum_mul]
      exact Finset.sum_congr rfl fun i _ => by ring
  have h0 : ∫ x : κ → ℝ, (a + ∑ i, l i * (x i : ℂ)) * cexp (form (prec V) 0 x) = a * ∫ x : κ → ℝ, cexp (form (prec V) 0 x) := by
    have hl : ∫ x : κ → ℝ, (∑ i, l i * (x i : ℂ)) * cexp (form (prec V) 0 x) = 0 := by
      have h2 : ∀ x : κ → ℝ, ∑ i, l i * (x i : ℂ) = ∑ j, ((V.map Complex.ofReal).mulVec l) j * ∑ i, prec V j i * x i := fun x => by
        have : ∑ j, ((V.map Complex.ofReal).mulVec l) j * ∑ i, prec V j i * x i =
            ((V.map Complex.ofReal).mulVec l) ⬝ᵥ (prec V).mulVec (fun i => (x i : ℂ)) := rfl
        rw [this, Matrix.dotProduct_mulVec, ← Matrix.vecMul_transpose, hVs, Matrix.vecMul_vecMul, hinv, Matrix.vecMul_one]
        rfl
      simp only [h2, Finset.sum_mul]
      rw [integral_finsetSum]
      · refine Finset.sum_eq_zero fun j _ => ?_
        have := key 1 0 j
        simp only [Pi.zero_apply, zero_mul, Finset.sum_const_zero, add_zero, one_mul] at this
        rw [← mul_zero (((V.map Complex.ofReal).mulVec l) j), ← this, ← integral_const_mul]
        refine integral_congr_ae (.of_forall fun x => ?_)
        simp only [Finset.mul_sum, Finset.sum_mul]
        exact Finset.sum_congr rfl fun i _ => by ring
      · intro j _
        have := (hint1 0 (prec V j)).const_mul (((V.map Complex.ofReal).mulVec l) j)
        refine this.congr (.of_forall fun x => ?_)
        simp only [zero_add, Finset.mul_sum, Finset.sum_mul]
        exact Finset.sum_congr rfl fun i _ => by ring
    have e : ∀ x : κ → ℝ, (a + ∑ i, l i * (x i : ℂ)) * cexp (form (prec V) 0 x) =
        a * cexp (form (prec V) 0 x) + (∑ i, l i * (x i : ℂ)) * cexp (form (prec V) 0 x) := fun x => add_mul _ _ _
    simp only [e]
    rw [integral_add, hl, add_zero, integral_const_mul]
    · exact ((hint1 a 0)).congr (.of_forall fun x => by simp)
    · exact ((hint1 0 l)).congr (.of_forall fun x => by simp)
  have e : ∀ x : κ → ℝ, (a + ∑ i, l i * (x i : ℂ)) * (a' + ∑ i, l' i * (x i : ℂ)) * cexp (form (prec V) 0 x) =
      a' * ((a + ∑ i, l i * (x i : ℂ)) * cexp (form (prec V) 0 x)) +
        (a + ∑ i, l i * (x i : ℂ)) * (∑ i, l' i * (x i : ℂ)) * cexp (form (prec V) 0 x) := fun x => by ring
  simp only [e]
  rw [integral_add, integral_const_mul, h0, hcross]
  · ring
  · exact (hint1 a l).const_mul a'
  · exact (hint a l 0 l').congr (.of_forall fun x => by simp)

/-- Normalisation. -/
theorem bell_integral {V : Matrix κ κ ℝ} (hV : V.PosDef) (m : κ → ℝ) :
    ∫ x : κ → ℝ, bell V m x = Real.sqrt ((2 * Real.pi) ^ Fintype.card κ * V.det) := by
  have hs := prec_symm hV
  have hp := prec_posRe hV
  have hsh : ∫ x : κ → ℝ, bell V m x = ∫ x : κ → ℝ, bell V 0 x := by
    have := integral_sub_right_eq_self (μ := (volume : Measure (κ → ℝ))) (fun x : κ → ℝ => bell V 0 x) m
    rw [← this]
    refine integral_congr_ae (.of_forall fun x => ?_)
    simp [bell]
  rw [hsh]
  obtain ⟨q, -, hq, h⟩ := integral_form hs hp
  have h0 := h 0 0 (by simp)
  have hsq : (∫ x : κ → ℝ, ((bell V 0 x : ℝ) : ℂ)) ^ 2 = (2 * Real.pi) ^ Fintype.card κ / (prec V).det := by
    simp only [bell_form]
    rw [h0]
    simp only [Pi.zero_apply, mul_zero, Finset.sum_const_zero, Complex.exp_zero, mul_one]
    rw [← Finset.prod_pow, ← hq]
    have : ∀ i, ((2 * (Real.pi : ℂ) / q i) ^ (1 / 2 : ℂ)) ^ 2 = 2 * Real.pi / q i := fun i => by
      rw [← Complex.cpow_nat_mul]; norm_num
    simp only [this]
    rw [Finset.prod_div_distrib, Finset.prod_const, Finset.card_univ, Fintype.card_fin]
  have hdet : (prec V).det = ((V.det⁻¹ : ℝ) : ℂ) := by
    unfold prec
    have := (RingHom.map_det Complex.ofRealHom V⁻¹)
    rw [det_nonsing_inv, Ring.inverse_eq_inv'] at this
    exact this.symm
  have hofR : ∫ x : κ → ℝ, ((bell V 0 x : ℝ) : ℂ) = ((∫ x : κ → ℝ, bell V 0 x : ℝ) : ℂ) := integral_ofReal (𝕜 := ℂ)
  rw [hdet, hofR] at hsq
  have hsq' : (∫ x : κ → ℝ, bell V 0 x) ^ 2 = (2 * Real.pi) ^ Fintype.card κ * V.det := by
    have : (((∫ x : κ → ℝ, bell V 0 x) ^ 2 : ℝ) : ℂ) = (((2 * Real.pi) ^ Fintype.card κ * V.det : ℝ) : ℂ) := by
      rw [Complex.ofReal_pow, hsq]
      push_cast
      rw [div_inv_eq_mul]
    exact_mod_cast this
  have hnn : 0 ≤ ∫ x : κ → ℝ, bell V 0 x := integral_nonneg fun x => (Real.exp_pos _).le
  rw [← hsq', Real.sqrt_sq hnn]

/-- **Moments.** Every product of two affine functions. -/
theorem bell_moment {V : Matrix κ κ ℝ} (hV : V.PosDef) (m : κ → ℝ) (a a' : ℂ) (l l' : κ → ℂ) :
    ∫ x : κ → ℝ, (a + ∑ i, l i * ((x i - m i : ℝ) : ℂ)) * (a' + ∑ i, l' i * ((x i - m i : ℝ) : ℂ)) * (bell V m x : ℝ) =
      (a * a' + l ⬝ᵥ (V.map Complex.ofReal).mulVec l') * (Real.sqrt ((2 * Real.pi) ^ Fintype.card κ * V.det) : ℝ) := by
  have hofR : ∫ x : κ → ℝ, ((bell V 0 x : ℝ) : ℂ) = ((∫ x : κ → ℝ, bell V 0 x : ℝ) : ℂ) := integral_ofReal (𝕜 := ℂ)
  rw [← bell_integral hV 0, ← hofR, ← centred_moment hV]
  rw [← integral_sub_right_eq_self (μ := (volume : Measure (κ → ℝ))) (fun x : κ → ℝ => (a + ∑ i, l i * (x i : ℂ)) * (a' + ∑ i, l' i * (x i : ℂ)) * ((bell V 0 x : ℝ) : ℂ)) m]
  refine integral_congr_ae (.of_forall fun x => ?_)
  simp [bell]

end Verif.Gauss
