import Verif.Vanilla
import Mathlib.MeasureTheory.Integral.IntegralEqImproper
import Mathlib.Analysis.SpecialFunctions.Gaussian.GaussianIntegral
import Mathlib.Algebra.Polynomial.Derivative
import Mathlib.Analysis.Calculus.Deriv.Polynomial
import Mathlib.MeasureTheory.Measure.Haar.NormedSpace

/-!
# Oscillator eigenstates and quadrature distributions (property C51)
-/

namespace Verif.Osc
open MeasureTheory Verif.Fock

/-! ## Model -/

/-- physics/fock_utils.py 80-122 `oscillator_eigenstate`, without its cache: the entry `[n, j]` for
the point `q` and the value `hbar` of `settings.HBAR`.  `math.hermite_renormalized(R, 2x, 1, (cutoff,))`
with `R = -2` is the recursion of `vanilla` on the one-dimensional shape `(cutoff,)`.  Exact arithmetic. -/
noncomputable def oscEntry (hbar q : ℝ) (cutoff n : ℕ) : ℂ :=
  Complex.exp (-(((q / Real.sqrt hbar : ℝ) : ℂ) ^ 2 / 2)) *
    ((((Real.pi * hbar) ^ (-(1 / 4) : ℝ) * (1 / 2 : ℝ) ^ ((n : ℝ) / 2) : ℝ) : ℂ) *
      (vanilla [cutoff] (fun _ _ => -2) (fun _ => 2 * ((q / Real.sqrt hbar : ℝ) : ℂ)) 1
        (List.replicate cutoff 0)).getD n 0)

/-- physics/fock_utils.py 226-240, the basis vector for one dimension: rotated by `phi` unless
`np.isclose(phi, 0.0)` (that is `|phi| ≤ 1e-8`), and conjugated for a bra. -/
noncomputable def basisEntry (hbar phi q : ℝ) (conj : Bool) (cutoff n : ℕ) : ℂ :=
  let v := if |phi| ≤ 1 / 10 ^ 8 then oscEntry hbar q cutoff n
    else Complex.exp (Complex.I * ((-(n : ℝ) * phi : ℝ) : ℂ)) * oscEntry hbar q cutoff n
  if conj then starRingEnd ℂ v else v

/-- physics/fock_utils.py 243-274 `quadrature_distribution` of a one-mode ket with amplitudes `psi` (its
length is the cutoff) at the point `q`; `quadrature_basis` (196-239) contracts the array with the
basis vector. -/
noncomputable def ketDensity (hbar phi : ℝ) (psi : List ℂ) (q : ℝ) : ℝ :=
  ‖∑ n ∈ Finset.range psi.length, psi.getD n 0 * basisEntry hbar phi q false psi.length n‖ ^ 2

/-- physics/fock_utils.py 243-274 for a one-mode density matrix `rho` with cutoff `d`: the first index is
conjugated, and the real part is returned. -/
noncomputable def dmDensity (hbar phi : ℝ) (d : ℕ) (rho : ℕ → ℕ → ℂ) (q : ℝ) : ℝ :=
  (∑ m ∈ Finset.range d, ∑ n ∈ Finset.range d,
    rho m n * basisEntry hbar phi q true d m * basisEntry hbar phi q false d n).re

/-! ## Specification -/

/-- The physicists' Hermite polynomials, by their three-term recurrence. -/
def H : ℕ → ℝ → ℝ
  | 0, _ => 1
  | 1, x => 2 * x
  | n + 2, x => 2 * x * H (n + 1) x - 2 * (n + 1) * H n x

/-- The Hermite function
`ψ_n(q) = (2^n n!)^{-1/2} (π ħ)^{-1/4} exp(-q²/(2ħ)) H_n(q/√ħ)`. -/
noncomputable def psi (hbar : ℝ) (n : ℕ) (q : ℝ) : ℝ :=
  1 / Real.sqrt (2 ^ n * n.factorial) * (Real.pi * hbar) ^ (-(1 / 4) : ℝ) *
    Real.exp (-(q ^ 2 / (2 * hbar))) * H n (q / Real.sqrt hbar)

/-! ## The recursion computes Hermite polynomials -/

theorem toF1 (n : ℕ) : ([n] : List ℕ).toFinsupp = Finsupp.single 0 n := by
  ext i
  rw [List.toFinsupp_apply]
  cases i with
  | zero => simp
  | succ i => simp

theorem amp_hermite (x : ℝ) (n : ℕ) :
    amp 1 (fun _ _ => -2) (fun _ => 2 * (x : ℂ)) 1 (Finsupp.single 0 n)
      = ((H n x / Real.sqrt n.factorial : ℝ) : ℂ) := by
  have hA : Symm 1 (fun _ _ => (-2 : ℂ)) := fun _ _ _ _ => rfl
  have hup : ∀ n, up (Finsupp.single 0 n) 0 = Finsupp.single 0 (n + 1) := by
    intro n
    rw [up, ← Finsupp.single_add]
  have hdn : ∀ n, dn (Finsupp.single 0 (n + 1)) 0 = Finsupp.single 0 n := by
    intro n
    rw [dn, ← hup, up, add_tsub_cancel_right]
  have hsf : ∀ n : ℕ, Real.sqrt ((n + 1).factorial : ℝ) = Real.sqrt ((n : ℝ) + 1) * Real.sqrt n.factorial := by
    intro n
    rw [Nat.factorial_succ]
    push_cast
    rw [Real.sqrt_mul (by positivity)]
  have hsq : ∀ n : ℕ, Fock.sq (n + 1) = ((Real.sqrt ((n : ℝ) + 1) : ℝ) : ℂ) := by
    intro n
    rw [Fock.sq]
    push_cast
    rfl
  induction n using Nat.strong_induction_on with
  | _ n ih =>
    match n with
    | 0 =>
      rw [Finsupp.single_zero, amp_zero]
      simp [H]
    | 1 =>
      have h := amp_up (D := 1) (A := fun _ _ => (-2 : ℂ)) (b := fun _ => 2 * (x : ℂ)) 1 hA (i := 0)
        (by omega) (Finsupp.single 0 0)
      rw [hup] at h
      simp only [Finsupp.single_eq_same, Finset.sum_range_one] at h
      rw [ih 0 (by omega)] at h
      have s0 : Fock.sq 0 = 0 := by simp [Fock.sq]
      have s1 : Fock.sq (0 + 1) = 1 := by simp [Fock.sq]
      rw [s0, s1] at h
      simp only [one_mul, mul_zero, zero_mul, add_zero, zero_add] at h
      rw [h]
      simp [H]
    | n + 2 =>
      have h := amp_up (D := 1) (A := fun _ _ => (-2 : ℂ)) (b := fun _ => 2 * (x : ℂ)) 1 hA (i := 0)
        (by omega) (Finsupp.single 0 (n + 1))
      simp only [Finsupp.single_eq_same, Finset.sum_range_one] at h
      rw [hup, hdn] at h
      rw [ih (n + 1) (by omega), ih n (by omega), hsq, hsq] at h
      have hp : (0 : ℝ) < Real.sqrt (((n + 1 : ℕ) : ℝ) + 1) := Real.sqrt_pos.mpr (by positivity)
      have hp1 : (0 : ℝ) < Real.sqrt ((n : ℝ) + 1) := Real.sqrt_pos.mpr (by positivity)
      have hf : (0 : ℝ) < Real.sqrt (n.factorial : ℝ) := Real.sqrt_pos.mpr (by positivity)
      have hne : ((Real.sqrt (((n + 1 : ℕ) : ℝ) + 1) : ℝ) : ℂ) ≠ 0 := by
        exact_mod_cast hp.ne'
      refine mul_left_cancel₀ hne ?_
      rw [h]
      have key : Real.sqrt (((n + 1 : ℕ) : ℝ) + 1) * (H (n + 2) x / Real.sqrt ((n + 2).factorial))
          = 2 * x * (H (n + 1) x / Real.sqrt ((n + 1).factorial))
            + -2 * Real.sqrt ((n : ℝ) + 1) * (H n x / Real.sqrt n.factorial) := by
        rw [hsf (n + 1), hsf n, H]
        have hs2 : Real.sqrt ((n : ℝ) + 1) * Real.sqrt ((n : ℝ) + 1) = (n : ℝ) + 1 :=
          Real.mul_self_sqrt (by positivity)
        field_simp
        rw [pow_two, hs2]
        ring
      rw [← Complex.ofReal_mul, key]
      push_cast
      ring

/-- **C51**: `oscillator_eigenstate` returns the Hermite functions: for every cutoff, photon number
below it, point and value of `settings.HBAR`. -/
theorem C51_formula (hbar q : ℝ) (hb : 0 < hbar) (cutoff n : ℕ) (hn : n < cutoff) :
    oscEntry hbar q cutoff n = (psi hbar n q : ℂ) := by
  have hA : Symm ([cutoff] : List ℕ).length (fun _ _ => (-2 : ℂ)) := fun _ _ _ _ => rfl
  have hv := (C19_vanilla_correct [cutoff] (fun _ _ => -2)
    (fun _ => 2 * ((q / Real.sqrt hbar : ℝ) : ℂ)) 1 (List.replicate cutoff 0) (by simp) hA [n]
    (List.Forall₂.cons hn List.Forall₂.nil)).2
  have hr : ravel [cutoff] [n] = n := by simp [ravel]
  rw [hr, toF1] at hv
  rw [oscEntry, List.getD_eq_getElem?_getD, hv, Option.getD_some]
  have := amp_hermite (q / Real.sqrt hbar) n
  simp only [List.length_singleton]
  rw [this, psi]
  have e1 : Complex.exp (-(((q / Real.sqrt hbar : ℝ) : ℂ) ^ 2 / 2))
      = ((Real.exp (-(q ^ 2 / (2 * hbar))) : ℝ) : ℂ) := by
    rw [Complex.ofReal_exp]
    refine congrArg Complex.exp ?_
    have : (q / Real.sqrt hbar) ^ 2 / 2 = q ^ 2 / (2 * hbar) := by
      rw [div_pow, Real.sq_sqrt hb.le]
      field_simp
    rw [← this]
    push_cast
    rfl
  rw [e1, ← Complex.ofReal_mul, ← Complex.ofReal_mul]
  refine congrArg _ ?_
  have e2 : (1 / 2 : ℝ) ^ ((n : ℝ) / 2) = 1 / Real.sqrt (2 ^ n) := by
    rw [Real.sqrt_eq_rpow, ← Real.rpow_natCast, ← Real.rpow_mul (by norm_num), one_div,
      Real.inv_rpow (by norm_num), one_div]
    refine congrArg (fun t : ℝ => ((2 : ℝ) ^ t)⁻¹) ?_
    ring
  rw [e2, Real.sqrt_mul (by positivity)]
  have h1 : (0 : ℝ) < Real.sqrt (2 ^ n) := Real.sqrt_pos.mpr (by positivity)
  have h2 : (0 : ℝ) < Real.sqrt (n.factorial : ℝ) := Real.sqrt_pos.mpr (by positivity)
  field_simp

/-! ## Orthonormality -/

open Polynomial in
/-- The Hermite polynomials as polynomials. -/
noncomputable def Hp : ℕ → ℝ[X]
  | 0 => 1
  | n + 1 => C 2 * X * Hp n - derivative (Hp n)

open Polynomial in
theorem Hp_deriv (n : ℕ) : derivative (Hp (n + 1)) = C (2 * ((n : ℝ) + 1)) * Hp n := by
  induction n with
  | zero => simp [Hp]
  | succ n ih =>
    have e : Hp (n + 2) = C 2 * X * Hp (n + 1) - derivative (Hp (n + 1)) := rfl
    have e1 : Hp (n + 1) = C 2 * X * Hp n - derivative (Hp n) := rfl
    rw [e, derivative_sub, derivative_mul, derivative_mul, ih, derivative_mul]
    simp only [derivative_C, derivative_X, zero_mul, zero_add, mul_one]
    have e2 : (C 2 * Hp (n + 1) + C 2 * X * (C (2 * ((n : ℝ) + 1)) * Hp n)
        - C (2 * ((n : ℝ) + 1)) * derivative (Hp n) : ℝ[X])
        = C 2 * Hp (n + 1) + C (2 * ((n : ℝ) + 1)) * (C 2 * X * Hp n - derivative (Hp n)) := by ring
    rw [e2, ← e1, ← add_mul, ← C_add]
    push_cast
    ring_nf

theorem Hp_eval (n : ℕ) (x : ℝ) : (Hp n).eval x = H n x := by
  induction n using Nat.strong_induction_on with
  | _ n ih =>
    match n with
    | 0 => simp [Hp, H]
    | 1 => simp [Hp, H]
    | n + 2 =>
      have e : Hp (n + 2) = Polynomial.C 2 * Polynomial.X * Hp (n + 1)
        - Polynomial.derivative (Hp (n + 1)) := rfl
      rw [e, Hp_deriv, H]
      simp [ih (n + 1) (by omega), ih n (by omega)]

theorem integrable_poly (p : Polynomial ℝ) :
    Integrable (fun x : ℝ => p.eval x * Real.exp (-x ^ 2)) := by
  induction p using Polynomial.induction_on' with
  | add p q hp hq =>
    have := hp.add hq
    refine this.congr (Filter.Eventually.of_forall fun x => ?_)
    simp only [Pi.add_apply, Polynomial.eval_add]
    ring
  | monomial n a =>
    have h := (integrable_rpow_mul_exp_neg_mul_sq (b := 1) one_pos (s := (n : ℝ))
      (by have : (0 : ℝ) ≤ n := Nat.cast_nonneg n
          linarith)).const_mul a
    refine h.congr (Filter.Eventually.of_forall fun x => ?_)
    simp only [Polynomial.eval_monomial, Real.rpow_natCast, neg_mul, one_mul]
    ring

/-- The Gaussian moment functional. -/
noncomputable def E (p : Polynomial ℝ) : ℝ := ∫ x : ℝ, p.eval x * Real.exp (-x ^ 2)

theorem E_add (p q : Polynomial ℝ) : E (p + q) = E p + E q := by
  unfold E
  rw [← integral_add (integrable_poly p) (integrable_poly q)]
  refine integral_congr_ae (Filter.Eventually.of_forall fun x => ?_)
  simp only [Polynomial.eval_add]
  ring

theorem E_C_mul (a : ℝ) (p : Polynomial ℝ) : E (Polynomial.C a * p) = a * E p := by
  unfold E
  rw [← integral_const_mul]
  refine integral_congr_ae (Filter.Eventually.of_forall fun x => ?_)
  simp only [Polynomial.eval_mul, Polynomial.eval_C]
  ring

theorem E_stein (p : Polynomial ℝ) :
    E (Polynomial.derivative p) = E (Polynomial.C 2 * Polynomial.X * p) := by
  have h : ∫ x : ℝ, ((Polynomial.derivative p).eval x * Real.exp (-x ^ 2)
      + -((Polynomial.C 2 * Polynomial.X * p).eval x * Real.exp (-x ^ 2))) = 0 := by
    refine integral_eq_zero_of_hasDerivAt_of_integrable
      (f := fun x : ℝ => p.eval x * Real.exp (-x ^ 2)) (fun x => ?_)
      ((integrable_poly _).add (integrable_poly _).neg) (integrable_poly p)
    have h1 := p.hasDerivAt x
    have h2 : HasDerivAt (fun x : ℝ => Real.exp (-x ^ 2)) (Real.exp (-x ^ 2) * (-(2 * x))) x := by
      have := ((hasDerivAt_pow 2 x).neg).exp
      simpa using this
    have h3 := h1.mul h2
    refine h3.congr_deriv ?_
    simp only [Polynomial.eval_mul, Polynomial.eval_C, Polynomial.eval_X]
    ring
  have h' := integral_sub (integrable_poly (Polynomial.derivative p))
    (integrable_poly (Polynomial.C 2 * Polynomial.X * p))
  simp only [sub_eq_add_neg] at h'
  rw [h] at h'
  unfold E
  linarith

theorem E_Hp_succ (n : ℕ) (q : Polynomial ℝ) :
    E (Hp (n + 1) * q) = E (Hp n * Polynomial.derivative q) := by
  have e1 : Hp (n + 1) = Polynomial.C 2 * Polynomial.X * Hp n - Polynomial.derivative (Hp n) := rfl
  have h := E_stein (Hp n * q)
  rw [Polynomial.derivative_mul, E_add] at h
  have e2 : Hp (n + 1) * q = Polynomial.C 2 * Polynomial.X * (Hp n * q)
      + Polynomial.C (-1) * (Polynomial.derivative (Hp n) * q) := by
    rw [e1, Polynomial.C_neg, Polynomial.C_1]
    ring
  rw [e2, E_add, E_C_mul, ← h]
  ring

theorem E_one : E 1 = Real.sqrt Real.pi := by
  unfold E
  have := integral_gaussian 1
  simpa using this

theorem E_orth (m n : ℕ) :
    E (Hp m * Hp n) = if m = n then 2 ^ n * n.factorial * Real.sqrt Real.pi else 0 := by
  induction m generalizing n with
  | zero =>
    cases n with
    | zero =>
      simp only [Hp, mul_one, if_true]
      rw [E_one]
      simp
    | succ n =>
      have : Hp 0 * Hp (n + 1) = Hp (n + 1) * Hp 0 := mul_comm _ _
      rw [this, E_Hp_succ, if_neg (by omega)]
      simp [Hp, E]
  | succ m ih =>
    cases n with
    | zero =>
      rw [E_Hp_succ, if_neg (by omega)]
      simp [Hp, E]
    | succ n =>
      rw [E_Hp_succ, Hp_deriv]
      have : Hp m * (Polynomial.C (2 * ((n : ℝ) + 1)) * Hp n)
          = Polynomial.C (2 * ((n : ℝ) + 1)) * (Hp m * Hp n) := by ring
      rw [this, E_C_mul, ih]
      by_cases h : m = n
      · rw [if_pos h, if_pos (by omega), Nat.factorial_succ, pow_succ]
        push_cast
        ring
      · rw [if_neg h, if_neg (by omega), mul_zero]

/-- Products of Hermite functions are integrable. -/
theorem psi_integrable (hbar : ℝ) (hb : 0 < hbar) (m n : ℕ) :
    Integrable (fun q => psi hbar m q * psi hbar n q) ∧
    ∫ q, psi hbar m q * psi hbar n q = if m = n then 1 else 0 := by
  have hs : 0 < Real.sqrt hbar := Real.sqrt_pos.mpr hb
  have hpt : ∀ q, psi hbar m q * psi hbar n q
      = (1 / Real.sqrt (2 ^ m * m.factorial) * (1 / Real.sqrt (2 ^ n * n.factorial))
          * (Real.pi * hbar) ^ (-(1 / 2) : ℝ))
        * ((Hp m * Hp n).eval (q / Real.sqrt hbar) * Real.exp (-(q / Real.sqrt hbar) ^ 2)) := by
    intro q
    have h1 : Real.exp (-(q / Real.sqrt hbar) ^ 2)
        = Real.exp (-(q ^ 2 / (2 * hbar))) * Real.exp (-(q ^ 2 / (2 * hbar))) := by
      rw [← Real.exp_add]
      refine congrArg Real.exp ?_
      rw [div_pow, Real.sq_sqrt hb.le]
      field_simp
      ring
    have h2 : (Real.pi * hbar) ^ (-(1 / 2) : ℝ)
        = (Real.pi * hbar) ^ (-(1 / 4) : ℝ) * (Real.pi * hbar) ^ (-(1 / 4) : ℝ) := by
      rw [← Real.rpow_add (by positivity)]
      norm_num
    rw [h1, h2, Polynomial.eval_mul, Hp_eval, Hp_eval, psi, psi]
    ring
  have hint := (integrable_poly (Hp m * Hp n)).comp_div hs.ne'
  constructor
  · exact (hint.const_mul _).congr (Filter.Eventually.of_forall fun q => (hpt q).symm)
  · rw [integral_congr_ae (Filter.Eventually.of_forall hpt), integral_const_mul,
      Measure.integral_comp_div (fun x => (Hp m * Hp n).eval x * Real.exp (-x ^ 2)) (Real.sqrt hbar)]
    have hE := E_orth m n
    unfold E at hE
    rw [hE, abs_of_pos hs, smul_eq_mul]
    by_cases h : m = n
    · subst h
      rw [if_pos rfl, if_pos rfl]
      have hp : 0 < Real.pi := Real.pi_pos
      have h2 : (Real.pi * hbar) ^ (-(1 / 2) : ℝ) = 1 / (Real.sqrt Real.pi * Real.sqrt hbar) := by
        rw [Real.rpow_neg (by positivity), ← Real.sqrt_eq_rpow, Real.sqrt_mul hp.le, one_div]
      rw [h2]
      have h3 : 0 < Real.sqrt Real.pi := Real.sqrt_pos.mpr hp
      have h4 : (0 : ℝ) < 2 ^ m * m.factorial := by positivity
      have h5 : Real.sqrt (2 ^ m * m.factorial) * Real.sqrt (2 ^ m * m.factorial) = 2 ^ m * m.factorial :=
        Real.mul_self_sqrt h4.le
      have h6 : 0 < Real.sqrt (2 ^ m * m.factorial : ℝ) := Real.sqrt_pos.mpr h4
      generalize Real.sqrt (2 ^ m * m.factorial : ℝ) = t at h5 h6 ⊢
      rw [← h5]
      field_simp
    · rw [if_neg h, if_neg h]
      simp

/-- **C51**: the eigenstates returned by the code are orthonormal on the real line, for every value
of `settings.HBAR`. -/
theorem C51_orthonormal (hbar : ℝ) (hb : 0 < hbar) (cutoff m n : ℕ) (hm : m < cutoff)
    (hn : n < cutoff) :
    ∫ q, starRingEnd ℂ (oscEntry hbar q cutoff m) * oscEntry hbar q cutoff n
      = if m = n then 1 else 0 := by
  have h := (psi_integrable hbar hb m n).2
  have e : ∀ q, starRingEnd ℂ (oscEntry hbar q cutoff m) * oscEntry hbar q cutoff n
      = ((psi hbar m q * psi hbar n q : ℝ) : ℂ) := by
    intro q
    rw [C51_formula hbar q hb cutoff m hm, C51_formula hbar q hb cutoff n hn, Complex.conj_ofReal,
      ← Complex.ofReal_mul]
  simp only [e]
  refine (integral_complex_ofReal (f := fun q => psi hbar m q * psi hbar n q)).trans ?_
  rw [h]
  split_ifs <;> simp

/-- The rotation factor. -/
noncomputable def ph (phi : ℝ) (n : ℕ) : ℂ :=
  if |phi| ≤ 1 / 10 ^ 8 then 1 else Complex.exp (Complex.I * ((-(n : ℝ) * phi : ℝ) : ℂ))

theorem ph_norm (phi : ℝ) (n : ℕ) : starRingEnd ℂ (ph phi n) * ph phi n = 1 := by
  unfold ph
  split_ifs
  · simp
  · rw [← Complex.exp_conj, ← Complex.exp_add]
    simp

theorem basisEntry_eq (hbar phi q : ℝ) (hb : 0 < hbar) (cutoff n : ℕ) (hn : n < cutoff) :
    basisEntry hbar phi q false cutoff n = ph phi n * (psi hbar n q : ℂ) ∧
    basisEntry hbar phi q true cutoff n = starRingEnd ℂ (ph phi n) * (psi hbar n q : ℂ) := by
  unfold basisEntry ph
  rw [C51_formula hbar q hb cutoff n hn]
  by_cases h : |phi| ≤ 1 / 10 ^ 8
  · simp only [if_pos h]
    simp
  · simp only [if_neg h]
    simp

/-- **C51**: the quadrature distribution of a one-mode density matrix, at any angle, integrates to
its trace. -/
theorem C51_dm_normalised (hbar phi : ℝ) (hb : 0 < hbar) (d : ℕ) (rho : ℕ → ℕ → ℂ) :
    Integrable (dmDensity hbar phi d rho) ∧
    ∫ q, dmDensity hbar phi d rho q = (∑ n ∈ Finset.range d, rho n n).re := by
  have e : ∀ q, dmDensity hbar phi d rho q
      = ∑ m ∈ Finset.range d, ∑ n ∈ Finset.range d,
        (rho m n * (starRingEnd ℂ (ph phi m) * ph phi n)).re * (psi hbar m q * psi hbar n q) := by
    intro q
    unfold dmDensity
    rw [Complex.re_sum]
    refine Finset.sum_congr rfl fun m hm => ?_
    rw [Complex.re_sum]
    refine Finset.sum_congr rfl fun n hn => ?_
    rw [(basisEntry_eq hbar phi q hb d m (Finset.mem_range.mp hm)).2,
      (basisEntry_eq hbar phi q hb d n (Finset.mem_range.mp hn)).1]
    have : rho m n * (starRingEnd ℂ (ph phi m) * (psi hbar m q : ℂ)) * (ph phi n * (psi hbar n q : ℂ))
        = (rho m n * (starRingEnd ℂ (ph phi m) * ph phi n)) * ((psi hbar m q * psi hbar n q : ℝ) : ℂ) := by
      push_cast
      ring
    rw [this, Complex.re_mul_ofReal]
  have hfun : dmDensity hbar phi d rho = fun q => ∑ m ∈ Finset.range d, ∑ n ∈ Finset.range d,
        (rho m n * (starRingEnd ℂ (ph phi m) * ph phi n)).re * (psi hbar m q * psi hbar n q) :=
    funext e
  have hI : ∀ m n, Integrable fun q => (rho m n * (starRingEnd ℂ (ph phi m) * ph phi n)).re
      * (psi hbar m q * psi hbar n q) := fun m n => (psi_integrable hbar hb m n).1.const_mul _
  rw [hfun]
  constructor
  · exact integrable_finset_sum _ fun m _ => integrable_finset_sum _ fun n _ => hI m n
  · rw [integral_finset_sum _ fun m _ => integrable_finset_sum _ fun n _ => hI m n, Complex.re_sum]
    refine Finset.sum_congr rfl fun m hm => ?_
    rw [integral_finset_sum _ fun n _ => hI m n, Finset.sum_eq_single m]
    · rw [integral_const_mul, (psi_integrable hbar hb m m).2, if_pos rfl, ph_norm, mul_one, mul_one]
    · intro n _ hne
      rw [integral_const_mul, (psi_integrable hbar hb m n).2, if_neg (Ne.symm hne), mul_zero]
    · intro h
      exact absurd hm h

/-- **C51**: the quadrature distribution of a one-mode ket, at any angle, integrates to the squared
norm of the ket. -/
theorem C51_ket_normalised (hbar phi : ℝ) (hb : 0 < hbar) (v : List ℂ) :
    ∫ q, ketDensity hbar phi v q = ∑ n ∈ Finset.range v.length, ‖v.getD n 0‖ ^ 2 := by
  have e : ∀ q, ketDensity hbar phi v q
      = dmDensity hbar phi v.length (fun m n => starRingEnd ℂ (v.getD m 0) * v.getD n 0) q := by
    intro q
    unfold ketDensity dmDensity
    rw [← Complex.normSq_eq_norm_sq]
    have h1 : ∀ z : ℂ, Complex.normSq z = (starRingEnd ℂ z * z).re := by
      intro z
      rw [mul_comm, Complex.mul_conj]
      simp
    rw [h1, map_sum, Finset.sum_mul_sum]
    refine congrArg Complex.re (Finset.sum_congr rfl fun m hm => Finset.sum_congr rfl fun n hn => ?_)
    rw [(basisEntry_eq hbar phi q hb v.length m (Finset.mem_range.mp hm)).2,
      (basisEntry_eq hbar phi q hb v.length m (Finset.mem_range.mp hm)).1,
      (basisEntry_eq hbar phi q hb v.length n (Finset.mem_range.mp hn)).1]
    simp only [map_mul, Complex.conj_ofReal]
    ring
  simp only [e]
  rw [(C51_dm_normalised hbar phi hb v.length _).2, Complex.re_sum]
  refine Finset.sum_congr rfl fun n _ => ?_
  rw [mul_comm, Complex.mul_conj, Complex.ofReal_re, Complex.normSq_eq_norm_sq]

/-- A concrete case: the single photon has a normalised quadrature distribution at `ħ = 2`. -/
example (phi : ℝ) : ∫ q, ketDensity 2 phi [0, Complex.I] q = 1 := by
  rw [C51_ket_normalised 2 phi (by norm_num)]
  simp [Finset.sum_range_succ]

end Verif.Osc
