import Verif.Oscillator
import Mathlib.Analysis.SpecialFunctions.Gaussian.FourierTransform
import Mathlib.Tactic.LinearCombination
import Mathlib.Tactic.FieldSimp
import Mathlib.Tactic.IntervalCases

/-!
# The discretised Wigner function (property C60)
-/

namespace Verif.Wigner
open MeasureTheory Verif.Osc

/-! ## Model -/

/-- physics/wigner.py 30-38 `make_grid`: the entry of `grid` at the point `(q, p)`. -/
noncomputable def gridPt (hbar q p : ℝ) : ℂ := ((q : ℂ) + (p : ℂ) * (1 * Complex.I)) / (Real.sqrt (2 * hbar) : ℝ)

/-- wigner.py 147-155, at one grid point `g`: first row of `Wmat` and the running value of `W`.
`Wmat[0]` is a function of the column index; entries not yet written are zero. -/
noncomputable def iterRow0 (rho : ℕ → ℕ → ℂ) (g : ℂ) (cutoff : ℕ) : (ℕ → ℂ) × ℝ :=
  (List.range' 1 (cutoff - 1)).foldl
    (fun (s : (ℕ → ℂ) × ℝ) n =>
      let w := Function.update s.1 n (2 * g * s.1 (n - 1) / (Real.sqrt n : ℝ))
      (w, s.2 + 2 * (rho 0 n * w n).re))
    (Function.update (fun _ => 0) 0 ((Real.exp (-2 * ‖g‖ ^ 2) / Real.pi : ℝ) : ℂ),
      (rho 0 0).re * (Complex.ofReal (Real.exp (-2 * ‖g‖ ^ 2) / Real.pi)).re)

/-- wigner.py 157-170, at one grid point: one pass of the outer loop for row `m`; `w0` is `Wmat[0]`,
`w1` is `Wmat[1]`, which keeps the entries of the previous pass in the columns below `m`.  After the
pass `Wmat[0] = Wmat[1]`, so a single row is returned twice. -/
noncomputable def iterRow (rho : ℕ → ℕ → ℂ) (g : ℂ) (cutoff : ℕ) (s : (ℕ → ℂ) × (ℕ → ℂ) × ℝ) (m : ℕ) :
    (ℕ → ℂ) × (ℕ → ℂ) × ℝ :=
  let w0 := s.1
  let w1 := Function.update s.2.1 m
    ((2 * (starRingEnd ℂ) g * w0 m - (Real.sqrt m : ℝ) * w0 (m - 1)) / (Real.sqrt m : ℝ))
  let W := s.2.2 + (rho m m * w1 m).re
  let r := (List.range' (m + 1) (cutoff - (m + 1))).foldl
    (fun (t : (ℕ → ℂ) × ℝ) n =>
      let w := Function.update t.1 n ((2 * g * t.1 (n - 1) - (Real.sqrt m : ℝ) * w0 (n - 1)) / (Real.sqrt n : ℝ))
      (w, t.2 + 2 * (rho m n * w n).re))
    (w1, W)
  (r.1, r.1, r.2)

/-- wigner.py 144-173 `_wigner_discretized_iterative` at the grid point `(q, p)`; `rho` has shape
`(cutoff, cutoff)`. -/
noncomputable def iterative (hbar : ℝ) (rho : ℕ → ℕ → ℂ) (cutoff : ℕ) (q p : ℝ) : ℝ :=
  let g := gridPt hbar q p
  let s := iterRow0 rho g cutoff
  ((List.range' 1 (cutoff - 1)).foldl (iterRow rho g cutoff) (s.1, (fun _ => 0), s.2)).2.2 / hbar

/-- wigner.py 41-59 `_wig_laguerre_val` at one grid point; `diag` has at least two entries.  The loop
`for i in range(3, len(diag) + 1)` with `k = len(diag)` decremented first, so that `k = len - i + 2` and
`diag[-i] = diag[len - i] = diag[k - 2]`. -/
noncomputable def laguerreVal (L : ℕ) (x : ℝ) (diag : List ℂ) : ℂ :=
  let n := diag.length
  let y := (List.range' 3 (n - 2)).foldl
    (fun (y : ℂ × ℂ) i =>
      let k := n - (i - 2)
      (diag.getD (n - i) 0 - y.2 * (Real.sqrt ((((k - 1) * (L + k - 1) : ℕ) : ℝ) / (((L + k) * k : ℕ) : ℝ)) : ℝ),
        y.1 - y.2 * ((((L + 2 * k - 1 : ℕ) : ℝ) - x : ℝ) : ℂ) * (1 / Real.sqrt (((L + k) * k : ℕ) : ℝ) : ℝ)))
    (diag.getD (n - 2) 0, diag.getD (n - 1) 0)
  y.1 - y.2 * ((((L + 1 : ℕ) : ℝ) - x : ℝ) : ℂ) * (1 / Real.sqrt ((L + 1 : ℕ) : ℝ) : ℝ)

/-- wigner.py 113-141 `_wigner_discretized_clenshaw` at the grid point `(q, p)`; `np.diag(rho2, k)` is
the `k`-th super-diagonal of `rho2`, which is `rho` with its off-diagonal entries doubled. -/
noncomputable def clenshaw (hbar : ℝ) (rho : ℕ → ℕ → ℂ) (cutoff : ℕ) (q p : ℝ) : ℝ :=
  let A := 2 * gridPt hbar q p
  let B := ‖A‖ * ‖A‖
  let rho2 := fun i j => rho i j * (2 - if i = j then 1 else 0)
  let L := cutoff - 1
  let w := (List.range' 1 (cutoff - 1)).foldl
    (fun (w : ℂ) j =>
      laguerreVal (L - j) B ((List.range (cutoff - (L - j))).map fun n => rho2 n (n + (L - j)))
        + w * A * (1 / Real.sqrt ((L - j + 1 : ℕ) : ℝ) : ℝ))
    (2 * rho 0 (cutoff - 1))
  w.re * Real.exp (-B * (1 / 2)) / Real.pi / hbar

/-- wigner.py 67-110 `wigner_discretized`: the method is read from the settings. -/
noncomputable def wigner (iter : Bool) (hbar : ℝ) (rho : ℕ → ℕ → ℂ) (cutoff : ℕ) (q p : ℝ) : ℝ :=
  if iter then iterative hbar rho cutoff q p else clenshaw hbar rho cutoff q p

/-! ## Specification -/

/-- The matrix element `⟨x| ρ |x'⟩ = ∑ ρ_{mn} ψ_m(x) ψ_n(x')` of the operator whose Fock matrix is `rho`. -/
noncomputable def kernel (hbar : ℝ) (rho : ℕ → ℕ → ℂ) (cutoff : ℕ) (x x' : ℝ) : ℂ :=
  ∑ m ∈ Finset.range cutoff, ∑ n ∈ Finset.range cutoff, rho m n * (psi hbar m x : ℂ) * (psi hbar n x' : ℂ)

/-- The Wigner function `W(q, p) = 1/(πħ) ∫ ⟨q - y| ρ |q + y⟩ exp(2ipy/ħ) dy`. -/
noncomputable def W (hbar : ℝ) (rho : ℕ → ℕ → ℂ) (cutoff : ℕ) (q p : ℝ) : ℂ :=
  1 / (Real.pi * hbar : ℝ) * ∫ y : ℝ, kernel hbar rho cutoff (q - y) (q + y) * Complex.exp (2 * Complex.I * p * y / hbar)

/-! ## Ladder relations -/

/-- `√n ψ_{n-1}` -/
noncomputable def down (hbar : ℝ) : ℕ → ℝ → ℝ
  | 0, _ => 0
  | n + 1, q => Real.sqrt ((n + 1 : ℕ) : ℝ) * psi hbar n q

theorem norm_succ (n : ℕ) : 1 / Real.sqrt (2 ^ n * n.factorial)
    = Real.sqrt 2 * Real.sqrt ((n + 1 : ℕ) : ℝ) * (1 / Real.sqrt (2 ^ (n + 1) * (n + 1).factorial)) := by
  have e : (2 : ℝ) ^ (n + 1) * ((n + 1).factorial : ℝ) = (2 * ((n + 1 : ℕ) : ℝ)) * (2 ^ n * n.factorial) := by
    rw [Nat.factorial_succ, pow_succ]
    push_cast
    ring
  rw [e, Real.sqrt_mul (by positivity) (2 ^ n * (n.factorial : ℝ)), Real.sqrt_mul (by norm_num : (0 : ℝ) ≤ 2) ((n + 1 : ℕ) : ℝ)]
  have h1 : 0 < Real.sqrt 2 := Real.sqrt_pos.mpr (by norm_num)
  have h2 : 0 < Real.sqrt ((n + 1 : ℕ) : ℝ) := Real.sqrt_pos.mpr (by positivity)
  have h3 : 0 < Real.sqrt (2 ^ n * (n.factorial : ℝ)) := Real.sqrt_pos.mpr (by positivity)
  field_simp

theorem psi_poly (hbar : ℝ) (n : ℕ) (q : ℝ) : psi hbar n q
    = 1 / Real.sqrt (2 ^ n * n.factorial) * (Real.pi * hbar) ^ (-(1 / 4) : ℝ) *
      Real.exp (-(q ^ 2 / (2 * hbar))) * (Hp n).eval (q / Real.sqrt hbar) := by
  rw [psi, Hp_eval]

theorem psi_hasDerivAt (hbar : ℝ) (hb : 0 < hbar) (n : ℕ) (q : ℝ) :
    HasDerivAt (psi hbar n) ((Real.sqrt 2 * down hbar n q - q / Real.sqrt hbar * psi hbar n q) / Real.sqrt hbar) q := by
  have hs : 0 < Real.sqrt hbar := Real.sqrt_pos.mpr hb
  have hss : Real.sqrt hbar * Real.sqrt hbar = hbar := Real.mul_self_sqrt hb.le
  have h1 : HasDerivAt (fun q : ℝ => Real.exp (-(q ^ 2 / (2 * hbar))))
      (Real.exp (-(q ^ 2 / (2 * hbar))) * (-(2 * q / (2 * hbar)))) q := by
    have := ((hasDerivAt_pow 2 q).div_const (2 * hbar)).neg.exp
    simpa using this
  have h2 : HasDerivAt (fun q : ℝ => (Hp n).eval (q / Real.sqrt hbar))
      ((Polynomial.derivative (Hp n)).eval (q / Real.sqrt hbar) * (1 / Real.sqrt hbar)) q := by
    have hh : HasDerivAt (fun q : ℝ => q / Real.sqrt hbar) (1 / Real.sqrt hbar) q := (hasDerivAt_id' q).div_const _
    exact HasDerivAt.comp (h₂ := fun x => (Hp n).eval x) q ((Hp n).hasDerivAt (q / Real.sqrt hbar)) hh
  have h3 := (h1.mul h2).const_mul (1 / Real.sqrt (2 ^ n * n.factorial) * (Real.pi * hbar) ^ (-(1 / 4) : ℝ))
  have h4 : (psi hbar n) = fun q => 1 / Real.sqrt (2 ^ n * n.factorial) * (Real.pi * hbar) ^ (-(1 / 4) : ℝ) *
      (Real.exp (-(q ^ 2 / (2 * hbar))) * (Hp n).eval (q / Real.sqrt hbar)) := by
    funext q
    rw [psi_poly]
    ring
  rw [h4]
  refine h3.congr_deriv ?_
  cases n with
  | zero =>
    simp only [Hp, down, Polynomial.derivative_one, Polynomial.eval_zero, Polynomial.eval_one]
    generalize Real.exp _ = e
    generalize (Real.pi * hbar) ^ (-(1 / 4) : ℝ) = f
    generalize Real.sqrt _ = s at *
    generalize Real.sqrt (_ * _) = t at *
    rw [← hss]
    field_simp
    ring
  | succ n =>
    rw [Hp_deriv]
    simp only [down, psi_poly, norm_succ n, Polynomial.eval_mul, Polynomial.eval_C]
    have e2 : Real.sqrt 2 * Real.sqrt 2 = 2 := Real.mul_self_sqrt (by norm_num)
    have e3 : Real.sqrt ((n + 1 : ℕ) : ℝ) * Real.sqrt ((n + 1 : ℕ) : ℝ) = (n : ℝ) + 1 := by
      rw [Real.mul_self_sqrt (by positivity)]
      push_cast
      ring
    generalize Real.exp _ = e
    generalize (Real.pi * hbar) ^ (-(1 / 4) : ℝ) = f
    generalize Polynomial.eval _ (Hp n) = h
    generalize Polynomial.eval _ (Hp (n + 1)) = h'
    generalize Real.sqrt hbar = s at *
    generalize (1 / Real.sqrt (2 ^ (n + 1) * _)) = t at *
    generalize Real.sqrt 2 = u at *
    generalize Real.sqrt ((n + 1 : ℕ) : ℝ) = v at *
    rw [← hss]
    field_simp
    linear_combination (-(v * v * h) * s * t * f * e) * e2 - (2 * h * s * t * f * e) * e3

theorem psi_up (hbar : ℝ) (n : ℕ) (q : ℝ) :
    Real.sqrt 2 * (Real.sqrt ((n + 1 : ℕ) : ℝ) * psi hbar (n + 1) q)
      = 2 * (q / Real.sqrt hbar) * psi hbar n q - Real.sqrt 2 * down hbar n q := by
  have key : ∀ n, (Hp (n + 1)).eval (q / Real.sqrt hbar) = 2 * (q / Real.sqrt hbar) * (Hp n).eval (q / Real.sqrt hbar)
      - (Polynomial.derivative (Hp n)).eval (q / Real.sqrt hbar) := by
    intro n
    have e : Hp (n + 1) = Polynomial.C 2 * Polynomial.X * Hp n - Polynomial.derivative (Hp n) := rfl
    rw [e]
    simp
  rw [psi_poly, psi_poly, key, norm_succ n]
  cases n with
  | zero =>
    simp only [Hp, down, Polynomial.derivative_one, Polynomial.eval_zero, Polynomial.eval_one]
    ring
  | succ n =>
    rw [Hp_deriv]
    simp only [down, psi_poly, norm_succ n, norm_succ (n + 1), Polynomial.eval_mul, Polynomial.eval_C]
    have e2 : Real.sqrt 2 * Real.sqrt 2 = 2 := Real.mul_self_sqrt (by norm_num)
    have e3 : Real.sqrt ((n + 1 : ℕ) : ℝ) * Real.sqrt ((n + 1 : ℕ) : ℝ) = (n : ℝ) + 1 := by
      rw [Real.mul_self_sqrt (by positivity)]
      push_cast
      ring
    generalize Real.exp _ = e
    generalize (Real.pi * hbar) ^ (-(1 / 4) : ℝ) = f
    generalize Polynomial.eval _ (Hp n) = h
    generalize Polynomial.eval _ (Hp (n + 1)) = h'
    generalize Real.sqrt hbar = s at *
    generalize (1 / Real.sqrt (2 ^ (n + 1 + 1) * _)) = t at *
    generalize Real.sqrt 2 = u at *
    generalize Real.sqrt ((n + 1 : ℕ) : ℝ) = v at *
    generalize Real.sqrt ((n + 1 + 1 : ℕ) : ℝ) = w at *
    linear_combination (u * w * t * f * e * h * v * v) * e2 + (2 * u * w * t * f * e * h) * e3

/-! ## The Wigner transform of `|m⟩⟨n|` -/

/-- The integrand for `|m⟩⟨n|`. -/
noncomputable def G (hbar q p : ℝ) (m n : ℕ) (y : ℝ) : ℂ :=
  (psi hbar m (q - y) : ℂ) * (psi hbar n (q + y) : ℂ) * Complex.exp (2 * Complex.I * p * y / hbar)

theorem exp_cont (hbar p : ℝ) : Continuous fun y : ℝ => Complex.exp (2 * Complex.I * p * y / hbar) := by
  fun_prop

theorem exp_norm (hbar p y : ℝ) : ‖Complex.exp (2 * Complex.I * p * y / hbar)‖ = 1 := by
  have : (2 * Complex.I * p * y / hbar : ℂ) = ((2 * p * y / hbar : ℝ) : ℂ) * Complex.I := by
    push_cast
    ring
  rw [this, Complex.norm_exp_ofReal_mul_I]

theorem psi_pair (hbar : ℝ) (hb : 0 < hbar) (q : ℝ) (m n : ℕ) :
    Integrable fun y : ℝ => psi hbar m (q - y) * psi hbar n (q + y) := by
  have hs : 0 < Real.sqrt hbar := Real.sqrt_pos.mpr hb
  have hss : Real.sqrt hbar ^ 2 = hbar := Real.sq_sqrt hb.le
  have h := ((integrable_poly ((Hp m).comp (Polynomial.C (q / Real.sqrt hbar) - Polynomial.X)
    * (Hp n).comp (Polynomial.C (q / Real.sqrt hbar) + Polynomial.X))).comp_div hs.ne').const_mul
    (1 / Real.sqrt (2 ^ m * m.factorial) * (Real.pi * hbar) ^ (-(1 / 4) : ℝ)
      * (1 / Real.sqrt (2 ^ n * n.factorial) * (Real.pi * hbar) ^ (-(1 / 4) : ℝ)) * Real.exp (-(q ^ 2 / hbar)))
  refine h.congr (Filter.Eventually.of_forall fun y => ?_)
  have e : Real.exp (-((q - y) ^ 2 / (2 * hbar))) * Real.exp (-((q + y) ^ 2 / (2 * hbar)))
      = Real.exp (-(q ^ 2 / hbar)) * Real.exp (-(y / Real.sqrt hbar) ^ 2) := by
    rw [← Real.exp_add, ← Real.exp_add, div_pow, hss]
    refine congrArg Real.exp ?_
    field_simp
    ring
  simp only [psi_poly, Polynomial.eval_mul, Polynomial.eval_comp, Polynomial.eval_sub, Polynomial.eval_add,
    Polynomial.eval_C, Polynomial.eval_X]
  rw [sub_div, add_div]
  linear_combination (-(1 / Real.sqrt (2 ^ m * m.factorial) * (Real.pi * hbar) ^ (-(1 / 4) : ℝ)
      * (1 / Real.sqrt (2 ^ n * n.factorial) * (Real.pi * hbar) ^ (-(1 / 4) : ℝ))
      * Polynomial.eval (q / Real.sqrt hbar - y / Real.sqrt hbar) (Hp m)
      * Polynomial.eval (q / Real.sqrt hbar + y / Real.sqrt hbar) (Hp n))) * e

theorem G_integrable (hbar : ℝ) (hb : 0 < hbar) (q p : ℝ) (m n : ℕ) : Integrable (G hbar q p m n) := by
  have h := (psi_pair hbar hb q m n).ofReal (𝕜 := ℂ)
  have h2 := h.mul_bdd (c := 1) (g := fun y : ℝ => Complex.exp (2 * Complex.I * p * y / hbar))
    (exp_cont hbar p).aestronglyMeasurable (Filter.Eventually.of_forall fun y => (exp_norm hbar p y).le)
  refine h2.congr (Filter.Eventually.of_forall fun y => ?_)
  simp [G]

/-- `√m` times the integrand for `|m-1⟩⟨n|` -/
noncomputable def Gd (hbar q p : ℝ) (m n : ℕ) (y : ℝ) : ℂ :=
  (down hbar m (q - y) : ℂ) * (psi hbar n (q + y) : ℂ) * Complex.exp (2 * Complex.I * p * y / hbar)

theorem Gd_succ (hbar q p : ℝ) (m n : ℕ) (y : ℝ) :
    Gd hbar q p (m + 1) n y = (Real.sqrt ((m + 1 : ℕ) : ℝ) : ℂ) * G hbar q p m n y := by
  simp only [Gd, G, down, Complex.ofReal_mul]
  ring

theorem Gd_zero (hbar q p : ℝ) (n : ℕ) (y : ℝ) : Gd hbar q p 0 n y = 0 := by
  simp [Gd, down]

theorem Gd_integrable (hbar : ℝ) (hb : 0 < hbar) (q p : ℝ) (m n : ℕ) : Integrable (Gd hbar q p m n) := by
  cases m with
  | zero => exact (integrable_zero _ _ _).congr (Filter.Eventually.of_forall fun y => (Gd_zero hbar q p n y).symm)
  | succ m =>
    exact ((G_integrable hbar hb q p m n).const_mul _).congr
      (Filter.Eventually.of_forall fun y => (Gd_succ hbar q p m n y).symm)

theorem gridPt_eq (hbar : ℝ) (hb : 0 < hbar) (q p : ℝ) :
    2 * gridPt hbar q p = (Real.sqrt 2 : ℂ) * (q + p * Complex.I) / (Real.sqrt hbar : ℂ) := by
  have e2 : ((Real.sqrt 2 : ℝ) : ℂ) * ((Real.sqrt 2 : ℝ) : ℂ) = 2 := by
    rw [← Complex.ofReal_mul, Real.mul_self_sqrt (by norm_num)]
    norm_num
  have h1 : ((Real.sqrt 2 : ℝ) : ℂ) ≠ 0 := by
    rw [Complex.ofReal_ne_zero]
    exact (Real.sqrt_pos.mpr (by norm_num)).ne'
  have h2 : ((Real.sqrt hbar : ℝ) : ℂ) ≠ 0 := by
    rw [Complex.ofReal_ne_zero]
    exact (Real.sqrt_pos.mpr hb).ne'
  rw [gridPt, Real.sqrt_mul (by norm_num), Complex.ofReal_mul]
  generalize ((Real.sqrt 2 : ℝ) : ℂ) = u at *
  generalize ((Real.sqrt hbar : ℝ) : ℂ) = s at *
  field_simp
  linear_combination (-((q : ℂ) + p * Complex.I)) * e2

theorem G_hasDerivAt (hbar : ℝ) (hb : 0 < hbar) (q p : ℝ) (m n : ℕ) (y : ℝ) :
    HasDerivAt (G hbar q p m n)
      (((Real.sqrt 2 : ℝ) : ℂ) / (Real.sqrt hbar : ℝ) *
        (2 * gridPt hbar q p * G hbar q p m n y - (Real.sqrt ((n + 1 : ℕ) : ℝ) : ℂ) * G hbar q p m (n + 1) y - Gd hbar q p m n y)) y := by
  have h1 : HasDerivAt (fun y : ℝ => (psi hbar m (q - y) : ℂ)) _ y :=
    (((psi_hasDerivAt hbar hb m (q - y)).comp y ((hasDerivAt_id' y).const_sub q))).ofReal_comp
  have h2 : HasDerivAt (fun y : ℝ => (psi hbar n (q + y) : ℂ)) _ y :=
    (((psi_hasDerivAt hbar hb n (q + y)).comp y ((hasDerivAt_id' y).const_add q))).ofReal_comp
  have h3 : HasDerivAt (fun y : ℝ => Complex.exp (2 * Complex.I * p * y / hbar))
      (Complex.exp (2 * Complex.I * p * y / hbar) * (2 * Complex.I * p / hbar)) y := by
    have h := ((Complex.ofRealCLM.hasDerivAt (x := y)).const_mul (2 * Complex.I * (p : ℂ))).div_const (hbar : ℂ)
    have h' := h.cexp
    simpa using h'
  have h4 := (h1.mul h2).mul h3
  refine h4.congr_deriv ?_
  rw [gridPt_eq hbar hb]
  have hu := psi_up hbar n (q + y)
  have hu' := congrArg (fun t : ℝ => (t : ℂ)) hu
  simp only [Complex.ofReal_mul, Complex.ofReal_sub, Complex.ofReal_div, Complex.ofReal_add, Complex.ofReal_ofNat] at hu'
  have h2n : ((Real.sqrt 2 : ℝ) : ℂ) ≠ 0 := by
    rw [Complex.ofReal_ne_zero]
    exact (Real.sqrt_pos.mpr (by norm_num)).ne'
  have e2 : ((Real.sqrt 2 : ℝ) : ℂ) * ((Real.sqrt 2 : ℝ) : ℂ) = 2 := by
    rw [← Complex.ofReal_mul, Real.mul_self_sqrt (by norm_num)]
    norm_num
  have hsn : ((Real.sqrt hbar : ℝ) : ℂ) ≠ 0 := by
    rw [Complex.ofReal_ne_zero]
    exact (Real.sqrt_pos.mpr hb).ne'
  have hss : ((Real.sqrt hbar : ℝ) : ℂ) * ((Real.sqrt hbar : ℝ) : ℂ) = hbar := by
    rw [← Complex.ofReal_mul, Real.mul_self_sqrt hb.le]
  simp only [G, Gd, Function.comp_apply, Pi.mul_apply]
  push_cast at hu' ⊢
  generalize Complex.exp _ = e at *
  generalize ((Real.sqrt 2 : ℝ) : ℂ) = u at *
  generalize ((Real.sqrt hbar : ℝ) : ℂ) = s at *
  rw [← hss]
  field_simp at hu' ⊢
  generalize ((psi hbar n (q + y) : ℝ) : ℂ) = a at *
  generalize ((psi hbar (n + 1) (q + y) : ℝ) : ℂ) = a1 at *
  generalize ((psi hbar m (q - y) : ℝ) : ℂ) = b at *
  generalize ((down hbar m (q - y) : ℝ) : ℂ) = c at *
  generalize ((down hbar n (q + y) : ℝ) : ℂ) = d at *
  linear_combination (e * b) * hu' - (e * a * b * (q + p * Complex.I)) * e2

/-- The Wigner transform of `|m⟩⟨n|`, without the factor `1/(πħ)`. -/
noncomputable def I (hbar q p : ℝ) (m n : ℕ) : ℂ := ∫ y : ℝ, G hbar q p m n y

/-- `√m` times the transform of `|m-1⟩⟨n|` -/
noncomputable def Id (hbar q p : ℝ) : ℕ → ℕ → ℂ
  | 0, _ => 0
  | m + 1, n => (Real.sqrt ((m + 1 : ℕ) : ℝ) : ℂ) * I hbar q p m n

theorem Id_eq (hbar q p : ℝ) (m n : ℕ) : ∫ y : ℝ, Gd hbar q p m n y = Id hbar q p m n := by
  cases m with
  | zero => simp [Gd_zero, Id]
  | succ m => simp only [Gd_succ, integral_const_mul, Id, I]

theorem I_right (hbar : ℝ) (hb : 0 < hbar) (q p : ℝ) (m n : ℕ) :
    (Real.sqrt ((n + 1 : ℕ) : ℝ) : ℂ) * I hbar q p m (n + 1)
      = 2 * gridPt hbar q p * I hbar q p m n - Id hbar q p m n := by
  have hG := G_integrable hbar hb q p
  have i1 : Integrable fun y => 2 * gridPt hbar q p * G hbar q p m n y := (hG m n).const_mul _
  have i2 : Integrable fun y => (Real.sqrt ((n + 1 : ℕ) : ℝ) : ℂ) * G hbar q p m (n + 1) y := (hG m (n + 1)).const_mul _
  have i3 := Gd_integrable hbar hb q p m n
  have h := integral_eq_zero_of_hasDerivAt_of_integrable (G_hasDerivAt hbar hb q p m n)
    (((i1.sub i2).sub i3).const_mul _) (hG m n)
  rw [integral_const_mul] at h
  have hne : ((Real.sqrt 2 : ℝ) : ℂ) / (Real.sqrt hbar : ℝ) ≠ 0 := by
    rw [← Complex.ofReal_div, Complex.ofReal_ne_zero]
    exact (div_pos (Real.sqrt_pos.mpr (by norm_num)) (Real.sqrt_pos.mpr hb)).ne'
  have h' := (mul_eq_zero.mp h).resolve_left hne
  have e : ∫ y, (2 * gridPt hbar q p * G hbar q p m n y - (Real.sqrt ((n + 1 : ℕ) : ℝ) : ℂ) * G hbar q p m (n + 1) y - Gd hbar q p m n y)
      = 2 * gridPt hbar q p * I hbar q p m n - (Real.sqrt ((n + 1 : ℕ) : ℝ) : ℂ) * I hbar q p m (n + 1) - Id hbar q p m n := by
    have a := integral_sub (i1.sub i2) i3
    have b := integral_sub i1 i2
    simp only [Pi.sub_apply] at a b
    rw [a, b, integral_const_mul, integral_const_mul, Id_eq, I, I]
  rw [e] at h'
  linear_combination -h'

theorem I_conj (hbar q p : ℝ) (m n : ℕ) : I hbar q p n m = (starRingEnd ℂ) (I hbar q p m n) := by
  unfold I
  rw [← integral_conj, ← integral_neg_eq_self (G hbar q p n m)]
  refine integral_congr_ae (Filter.Eventually.of_forall fun y => ?_)
  simp only [G, map_mul, Complex.conj_ofReal, ← Complex.exp_conj, map_div₀, Complex.conj_I, sub_neg_eq_add]
  have e1 : (starRingEnd ℂ) 2 = 2 := Complex.conj_ofNat 2
  rw [e1, ← sub_eq_add_neg]
  have e2 : (2 * Complex.I * (p : ℂ) * ((-y : ℝ) : ℂ) / hbar) = 2 * -Complex.I * p * y / hbar := by
    push_cast
    ring
  rw [e2]
  ring

theorem gridPt_norm (hbar : ℝ) (hb : 0 < hbar) (q p : ℝ) : ‖gridPt hbar q p‖ ^ 2 = (q ^ 2 + p ^ 2) / (2 * hbar) := by
  rw [gridPt, norm_div, div_pow, ← Complex.normSq_eq_norm_sq, one_mul, Complex.normSq_add_mul_I, Complex.norm_real,
    Real.norm_eq_abs, sq_abs, Real.sq_sqrt (by positivity)]

theorem I_zero (hbar : ℝ) (hb : 0 < hbar) (q p : ℝ) :
    I hbar q p 0 0 = ((Real.exp (-2 * ‖gridPt hbar q p‖ ^ 2) : ℝ) : ℂ) := by
  have hne : (hbar : ℂ) ≠ 0 := by exact_mod_cast hb.ne'
  have hG : ∀ y, G hbar q p 0 0 y = (((Real.pi * hbar) ^ (-(1 / 2) : ℝ) : ℝ) : ℂ) *
      Complex.exp (-(1 / hbar : ℂ) * (y : ℂ) ^ 2 + (2 * Complex.I * p / hbar) * y + (-(q ^ 2 / hbar) : ℂ)) := by
    intro y
    have h2 : (Real.pi * hbar) ^ (-(1 / 2) : ℝ)
        = (Real.pi * hbar) ^ (-(1 / 4) : ℝ) * (Real.pi * hbar) ^ (-(1 / 4) : ℝ) := by
      have := Real.pi_pos
      rw [← Real.rpow_add (by positivity)]
      norm_num
    simp only [G, psi, H, pow_zero, Nat.factorial_zero, Nat.cast_one, mul_one, Real.sqrt_one, div_one, one_mul]
    rw [h2, Complex.ofReal_mul, Complex.ofReal_mul, Complex.ofReal_mul, Complex.ofReal_exp, Complex.ofReal_exp]
    have e3 : Complex.exp (-(1 / hbar : ℂ) * (y : ℂ) ^ 2 + (2 * Complex.I * p / hbar) * y + (-(q ^ 2 / hbar) : ℂ))
        = Complex.exp ((-((q - y) ^ 2 / (2 * hbar)) : ℝ) : ℂ) * Complex.exp ((-((q + y) ^ 2 / (2 * hbar)) : ℝ) : ℂ)
          * Complex.exp (2 * Complex.I * p * y / hbar) := by
      rw [← Complex.exp_add, ← Complex.exp_add]
      refine congrArg Complex.exp ?_
      push_cast
      field_simp
      ring
    rw [e3]
    ring
  unfold I
  simp only [hG]
  have hre : (-(1 / hbar : ℂ)).re < 0 := by
    have : (-(1 / hbar : ℂ)) = ((-(1 / hbar) : ℝ) : ℂ) := by push_cast; ring
    rw [this, Complex.ofReal_re]
    have : 0 < 1 / hbar := by positivity
    linarith
  rw [integral_const_mul, integral_cexp_quadratic hre]
  have e1 : ((Real.pi : ℂ) / -(-(1 / hbar : ℂ))) = ((Real.pi * hbar : ℝ) : ℂ) := by
    push_cast
    field_simp
  have hpi := Real.pi_pos
  have e2 : (((Real.pi * hbar : ℝ) : ℂ)) ^ (1 / 2 : ℂ) = (((Real.pi * hbar) ^ (1 / 2 : ℝ) : ℝ) : ℂ) := by
    rw [Complex.ofReal_cpow (by positivity)]
    norm_num
  rw [e1, e2, ← mul_assoc, ← Complex.ofReal_mul, ← Real.rpow_add (by positivity)]
  norm_num
  refine congrArg Complex.exp ?_
  have hg := congrArg (fun t : ℝ => (t : ℂ)) (gridPt_norm hbar hb q p)
  simp only [Complex.ofReal_pow, Complex.ofReal_div, Complex.ofReal_add, Complex.ofReal_mul, Complex.ofReal_ofNat] at hg
  rw [hg]
  field_simp
  linear_combination (4 * (p : ℂ) ^ 2) * Complex.I_sq

theorem I_left (hbar : ℝ) (hb : 0 < hbar) (q p : ℝ) (m n : ℕ) :
    (Real.sqrt ((m + 1 : ℕ) : ℝ) : ℂ) * I hbar q p (m + 1) n
      = 2 * (starRingEnd ℂ) (gridPt hbar q p) * I hbar q p m n - (starRingEnd ℂ) (Id hbar q p n m) := by
  have h := congrArg (starRingEnd ℂ) (I_right hbar hb q p n m)
  simp only [map_mul, map_sub, Complex.conj_ofReal, ← I_conj, Complex.conj_ofNat] at h
  exact h

theorem sqrt_ne (n : ℕ) : ((Real.sqrt ((n + 1 : ℕ) : ℝ) : ℝ) : ℂ) ≠ 0 := by
  rw [Complex.ofReal_ne_zero]
  exact (Real.sqrt_pos.mpr (by positivity)).ne'

/-! ## The iterative method -/

/-- `(1/π) I` -/
noncomputable def V (hbar q p : ℝ) (m n : ℕ) : ℂ := I hbar q p m n / (Real.pi : ℂ)

theorem V_zero (hbar : ℝ) (hb : 0 < hbar) (q p : ℝ) :
    V hbar q p 0 0 = ((Real.exp (-2 * ‖gridPt hbar q p‖ ^ 2) / Real.pi : ℝ) : ℂ) := by
  rw [V, I_zero hbar hb, Complex.ofReal_div]

theorem V_row0 (hbar : ℝ) (hb : 0 < hbar) (q p : ℝ) (n : ℕ) :
    V hbar q p 0 (n + 1) = 2 * gridPt hbar q p * V hbar q p 0 n / (Real.sqrt ((n + 1 : ℕ) : ℝ) : ℝ) := by
  have h := I_right hbar hb q p 0 n
  rw [Id, sub_zero] at h
  rw [eq_div_iff (sqrt_ne n), V, V]
  linear_combination h / (Real.pi : ℂ)

theorem V_diag (hbar : ℝ) (hb : 0 < hbar) (q p : ℝ) (m : ℕ) :
    V hbar q p (m + 1) (m + 1) = (2 * (starRingEnd ℂ) (gridPt hbar q p) * V hbar q p m (m + 1)
      - (Real.sqrt ((m + 1 : ℕ) : ℝ) : ℝ) * V hbar q p m m) / (Real.sqrt ((m + 1 : ℕ) : ℝ) : ℝ) := by
  have h := I_left hbar hb q p m (m + 1)
  rw [Id, map_mul, Complex.conj_ofReal, ← I_conj] at h
  rw [eq_div_iff (sqrt_ne m), V, V, V]
  linear_combination h / (Real.pi : ℂ)

theorem V_row (hbar : ℝ) (hb : 0 < hbar) (q p : ℝ) (m n : ℕ) :
    V hbar q p (m + 1) (n + 1) = (2 * gridPt hbar q p * V hbar q p (m + 1) n
      - (Real.sqrt ((m + 1 : ℕ) : ℝ) : ℝ) * V hbar q p m n) / (Real.sqrt ((n + 1 : ℕ) : ℝ) : ℝ) := by
  have h := I_right hbar hb q p (m + 1) n
  rw [Id] at h
  rw [eq_div_iff (sqrt_ne n), V, V, V]
  linear_combination h / (Real.pi : ℂ)

/-- The contribution of row `m`. -/
noncomputable def rowSum (hbar : ℝ) (rho : ℕ → ℕ → ℂ) (cutoff : ℕ) (q p : ℝ) (m : ℕ) : ℝ :=
  (rho m m * V hbar q p m m).re + ∑ n ∈ Finset.Ico (m + 1) cutoff, 2 * (rho m n * V hbar q p m n).re

theorem iterRow0_spec (hbar : ℝ) (hb : 0 < hbar) (rho : ℕ → ℕ → ℂ) (q p : ℝ) (cutoff : ℕ) (hc : 0 < cutoff) :
    (∀ n < cutoff, (iterRow0 rho (gridPt hbar q p) cutoff).1 n = V hbar q p 0 n) ∧
    (iterRow0 rho (gridPt hbar q p) cutoff).2 = rowSum hbar rho cutoff q p 0 := by
  obtain ⟨k, rfl⟩ : ∃ k, cutoff = k + 1 := ⟨cutoff - 1, by omega⟩
  unfold iterRow0 rowSum
  rw [Nat.add_sub_cancel]
  induction k with
  | zero =>
    refine ⟨fun n hn => ?_, ?_⟩
    · obtain rfl : n = 0 := by omega
      simp [V_zero hbar hb]
    · rw [V_zero hbar hb, Finset.Ico_eq_empty (by omega), Finset.sum_empty, add_zero, Complex.re_mul_ofReal]
      rfl
  | succ k ih =>
    obtain ⟨h1, h2⟩ := ih (by omega)
    rw [List.range'_concat, List.foldl_append]
    simp only [List.foldl_cons, List.foldl_nil]
    generalize List.foldl _ _ _ = s at *
    have hk : 1 + 1 * k = k + 1 := by omega
    rw [hk]
    have e : 2 * gridPt hbar q p * s.1 (k + 1 - 1) / ((Real.sqrt ((k + 1 : ℕ) : ℝ) : ℝ) : ℂ) = V hbar q p 0 (k + 1) := by
      rw [V_row0 hbar hb, Nat.add_sub_cancel, h1 k (by omega)]
    refine ⟨fun n hn => ?_, ?_⟩
    · rcases Nat.lt_succ_iff_lt_or_eq.mp hn with h | h
      · rw [Function.update_of_ne (by omega), h1 n h]
      · subst h
        rw [Function.update_self, e]
    · rw [Function.update_self, e, h2, Finset.sum_Ico_succ_top (show 0 + 1 ≤ k + 1 by omega)]
      ring

theorem iterRow_spec (hbar : ℝ) (hb : 0 < hbar) (rho : ℕ → ℕ → ℂ) (q p : ℝ) (cutoff m : ℕ) (hm : m + 1 < cutoff)
    (s : (ℕ → ℂ) × (ℕ → ℂ) × ℝ) (h0 : ∀ n, m ≤ n → n < cutoff → s.1 n = V hbar q p m n) :
    (∀ n, m + 1 ≤ n → n < cutoff → (iterRow rho (gridPt hbar q p) cutoff s (m + 1)).1 n = V hbar q p (m + 1) n) ∧
    (iterRow rho (gridPt hbar q p) cutoff s (m + 1)).2.2 = s.2.2 + rowSum hbar rho cutoff q p (m + 1) := by
  unfold iterRow rowSum
  simp only []
  obtain ⟨k, rfl⟩ : ∃ k, cutoff = m + 2 + k := ⟨cutoff - (m + 2), by omega⟩
  rw [show m + 2 + k - (m + 1 + 1) = k by omega]
  have ed : (2 * (starRingEnd ℂ) (gridPt hbar q p) * s.1 (m + 1) - ((Real.sqrt ((m + 1 : ℕ) : ℝ) : ℝ) : ℂ) * s.1 (m + 1 - 1))
      / ((Real.sqrt ((m + 1 : ℕ) : ℝ) : ℝ) : ℂ) = V hbar q p (m + 1) (m + 1) := by
    rw [V_diag hbar hb, Nat.add_sub_cancel, h0 m le_rfl (by omega), h0 (m + 1) (by omega) (by omega)]
  rw [ed, Function.update_self]
  have hs : ∀ n, m ≤ n → n < m + 2 + k → s.1 n = V hbar q p m n := h0
  clear h0 hm ed
  induction k with
  | zero =>
    refine ⟨fun n h1 h2 => ?_, ?_⟩
    · obtain rfl : n = m + 1 := by omega
      simp
    · simp
  | succ k ih =>
    obtain ⟨h1, h2⟩ := ih (fun n a b => hs n a (by omega))
    rw [List.range'_concat, List.foldl_append]
    simp only [List.foldl_cons, List.foldl_nil]
    generalize List.foldl _ _ _ = t at *
    have hk : m + 1 + 1 + 1 * k = m + 1 + k + 1 := by omega
    rw [hk]
    have e : (2 * gridPt hbar q p * t.1 (m + 1 + k + 1 - 1) - ((Real.sqrt ((m + 1 : ℕ) : ℝ) : ℝ) : ℂ) * s.1 (m + 1 + k + 1 - 1))
        / ((Real.sqrt ((m + 1 + k + 1 : ℕ) : ℝ) : ℝ) : ℂ) = V hbar q p (m + 1) (m + 1 + k + 1) := by
      rw [V_row hbar hb, Nat.add_sub_cancel, h1 (m + 1 + k) (by omega) (by omega), hs (m + 1 + k) (by omega) (by omega)]
    refine ⟨fun n ha hb => ?_, ?_⟩
    · by_cases h : n = m + 1 + k + 1
      · subst h
        rw [Function.update_self, e]
      · rw [Function.update_of_ne h, h1 n ha (by omega)]
    · rw [Function.update_self, e, h2, show m + 2 + (k + 1) = (m + 2 + k) + 1 by omega,
        Finset.sum_Ico_succ_top (show m + 1 + 1 ≤ m + 2 + k by omega),
        show m + 2 + k = m + 1 + k + 1 by omega]
      ring

theorem iterative_spec (hbar : ℝ) (hb : 0 < hbar) (rho : ℕ → ℕ → ℂ) (q p : ℝ) (cutoff : ℕ) (hc : 0 < cutoff) :
    iterative hbar rho cutoff q p = (∑ m ∈ Finset.range cutoff, rowSum hbar rho cutoff q p m) / hbar := by
  unfold iterative
  simp only []
  obtain ⟨h1, h2⟩ := iterRow0_spec hbar hb rho q p cutoff hc
  have key : ∀ k, k < cutoff →
      (∀ n, k ≤ n → n < cutoff → ((List.range' 1 k).foldl (iterRow rho (gridPt hbar q p) cutoff)
        ((iterRow0 rho (gridPt hbar q p) cutoff).1, (fun _ => 0), (iterRow0 rho (gridPt hbar q p) cutoff).2)).1 n
          = V hbar q p k n) ∧
      ((List.range' 1 k).foldl (iterRow rho (gridPt hbar q p) cutoff)
        ((iterRow0 rho (gridPt hbar q p) cutoff).1, (fun _ => 0), (iterRow0 rho (gridPt hbar q p) cutoff).2)).2.2
          = ∑ m ∈ Finset.range (k + 1), rowSum hbar rho cutoff q p m := by
    intro k
    induction k with
    | zero =>
      intro _
      refine ⟨fun n _ hn => h1 n hn, ?_⟩
      simpa using h2
    | succ k ih =>
      intro hk
      obtain ⟨i1, i2⟩ := ih (by omega)
      rw [List.range'_concat, List.foldl_append, show 1 + 1 * k = k + 1 by omega]
      simp only [List.foldl_cons, List.foldl_nil]
      generalize List.foldl _ _ _ = s at *
      obtain ⟨j1, j2⟩ := iterRow_spec hbar hb rho q p cutoff k hk s i1
      refine ⟨j1, ?_⟩
      rw [j2, i2, Finset.sum_range_succ _ (k + 1)]
  have := (key (cutoff - 1) (by omega)).2
  rw [this, show cutoff - 1 + 1 = cutoff by omega]

/-! ## Clenshaw's method -/

theorem V_three (hbar : ℝ) (hb : 0 < hbar) (q p : ℝ) (m n : ℕ) :
    ((Real.sqrt ((m + 2 : ℕ) : ℝ) : ℝ) : ℂ) * (Real.sqrt ((n + 2 : ℕ) : ℝ) : ℝ) * V hbar q p (m + 2) (n + 2)
      = ((2 * ‖2 * gridPt hbar q p‖ * ‖2 * gridPt hbar q p‖ / 2 - ((m + n + 3 : ℕ) : ℝ) : ℝ) : ℂ) * V hbar q p (m + 1) (n + 1)
        - ((Real.sqrt ((m + 1 : ℕ) : ℝ) : ℝ) : ℂ) * (Real.sqrt ((n + 1 : ℕ) : ℝ) : ℝ) * V hbar q p m n := by
  have h1 := I_right hbar hb q p (m + 2) (n + 1)
  have h2 := I_left hbar hb q p (m + 1) (n + 1)
  have h3 := I_right hbar hb q p (m + 1) n
  simp only [Id, map_mul, Complex.conj_ofReal, ← I_conj] at h1 h2 h3
  have hg : (2 * gridPt hbar q p) * (2 * (starRingEnd ℂ) (gridPt hbar q p))
      = ((2 * ‖2 * gridPt hbar q p‖ * ‖2 * gridPt hbar q p‖ / 2 : ℝ) : ℂ) := by
    have : (2 * gridPt hbar q p) * (2 * (starRingEnd ℂ) (gridPt hbar q p))
        = (2 * gridPt hbar q p) * (starRingEnd ℂ) (2 * gridPt hbar q p) := by
      rw [map_mul, Complex.conj_ofNat]
    rw [this, Complex.mul_conj, Complex.normSq_eq_norm_sq]
    refine congrArg _ ?_
    ring
  have e1 : ((Real.sqrt ((m + 2 : ℕ) : ℝ) : ℝ) : ℂ) * (Real.sqrt ((m + 2 : ℕ) : ℝ) : ℝ) = (m : ℂ) + 2 := by
    rw [← Complex.ofReal_mul, Real.mul_self_sqrt (by positivity)]
    push_cast
    ring
  have e2 : ((Real.sqrt ((n + 1 : ℕ) : ℝ) : ℝ) : ℂ) * (Real.sqrt ((n + 1 : ℕ) : ℝ) : ℝ) = (n : ℂ) + 1 := by
    rw [← Complex.ofReal_mul, Real.mul_self_sqrt (by positivity)]
    push_cast
    ring
  have hpi : (Real.pi : ℂ) ≠ 0 := by exact_mod_cast Real.pi_pos.ne'
  rw [Complex.ofReal_sub, ← hg]
  unfold V
  rw [show m + 1 + 1 = m + 2 by omega, show n + 1 + 1 = n + 2 by omega] at *
  push_cast at *
  generalize ((Real.sqrt ((m : ℝ) + 2) : ℝ) : ℂ) = a at *
  generalize ((Real.sqrt ((n : ℝ) + 2) : ℝ) : ℂ) = b at *
  generalize ((Real.sqrt ((m : ℝ) + 1) : ℝ) : ℂ) = c at *
  generalize ((Real.sqrt ((n : ℝ) + 1) : ℝ) : ℂ) = d at *
  generalize gridPt hbar q p = g at *
  have key : a * b * I hbar q p (m + 2) (n + 2) = (2 * g * (2 * (starRingEnd ℂ) g) - (m + n + 3)) * I hbar q p (m + 1) (n + 1)
      - c * d * I hbar q p m n := by
    linear_combination a * h1 + 2 * g * h2 + d * h3 - I hbar q p (m + 1) (n + 1) * e1 - I hbar q p (m + 1) (n + 1) * e2
  linear_combination key / (Real.pi : ℂ)

theorem V_two (hbar : ℝ) (hb : 0 < hbar) (q p : ℝ) (n : ℕ) :
    ((Real.sqrt ((n + 1 : ℕ) : ℝ) : ℝ) : ℂ) * V hbar q p 1 (n + 1)
      = ((2 * ‖2 * gridPt hbar q p‖ * ‖2 * gridPt hbar q p‖ / 2 - ((n + 1 : ℕ) : ℝ) : ℝ) : ℂ) * V hbar q p 0 n := by
  have h1 := I_right hbar hb q p 1 n
  have h2 := I_left hbar hb q p 0 n
  simp only [Id, zero_add, Nat.cast_one, Real.sqrt_one, Complex.ofReal_one, one_mul] at h1
  simp only [zero_add, Nat.cast_one, Real.sqrt_one, Complex.ofReal_one, one_mul] at h2
  have hg : (2 * gridPt hbar q p) * (2 * (starRingEnd ℂ) (gridPt hbar q p))
      = ((2 * ‖2 * gridPt hbar q p‖ * ‖2 * gridPt hbar q p‖ / 2 : ℝ) : ℂ) := by
    have : (2 * gridPt hbar q p) * (2 * (starRingEnd ℂ) (gridPt hbar q p))
        = (2 * gridPt hbar q p) * (starRingEnd ℂ) (2 * gridPt hbar q p) := by
      rw [map_mul, Complex.conj_ofNat]
    rw [this, Complex.mul_conj, Complex.normSq_eq_norm_sq]
    refine congrArg _ ?_
    ring
  have h3 : 2 * gridPt hbar q p * (starRingEnd ℂ) (Id hbar q p n 0) = n * I hbar q p 0 n := by
    cases n with
    | zero => simp [Id]
    | succ n =>
      have h := I_right hbar hb q p 0 n
      have e2 : ((Real.sqrt ((n + 1 : ℕ) : ℝ) : ℝ) : ℂ) * (Real.sqrt ((n + 1 : ℕ) : ℝ) : ℝ) = ((n + 1 : ℕ) : ℂ) := by
        rw [← Complex.ofReal_mul, Real.mul_self_sqrt (by positivity)]
        push_cast
        ring
      simp only [Id, sub_zero] at h ⊢
      rw [map_mul, Complex.conj_ofReal, ← I_conj, ← e2]
      linear_combination (-((Real.sqrt ((n + 1 : ℕ) : ℝ) : ℝ) : ℂ)) * h
  rw [Complex.ofReal_sub, ← hg]
  unfold V
  push_cast at *
  have key : ((Real.sqrt ((n : ℝ) + 1) : ℝ) : ℂ) * I hbar q p 1 (n + 1)
      = (2 * gridPt hbar q p * (2 * (starRingEnd ℂ) (gridPt hbar q p)) - (n + 1)) * I hbar q p 0 n := by
    linear_combination h1 + 2 * gridPt hbar q p * h2 - h3
  linear_combination key / (Real.pi : ℂ)

/-- The scaled Laguerre polynomials `Z_n^L`, by their three-term recurrence. -/
noncomputable def Z (L : ℕ) (x : ℝ) : ℕ → ℝ
  | 0 => 1
  | 1 => (x - ((L + 1 : ℕ) : ℝ)) * (1 / Real.sqrt ((L + 1 : ℕ) : ℝ))
  | k + 2 => (x - ((L + 2 * k + 3 : ℕ) : ℝ)) * (1 / Real.sqrt (((L + (k + 2)) * (k + 2) : ℕ) : ℝ)) * Z L x (k + 1)
      - Real.sqrt ((((k + 1) * (L + k + 1) : ℕ) : ℝ) / (((L + (k + 2)) * (k + 2) : ℕ) : ℝ)) * Z L x k

theorem V_Z (hbar : ℝ) (hb : 0 < hbar) (q p : ℝ) (L m : ℕ) :
    V hbar q p m (m + L) = V hbar q p 0 L * (Z L (‖2 * gridPt hbar q p‖ * ‖2 * gridPt hbar q p‖) m : ℝ) := by
  induction m using Nat.strong_induction_on with
  | _ m ih =>
    match m with
    | 0 => simp [Z]
    | 1 =>
      have h := V_two hbar hb q p L
      have hn := sqrt_ne L
      rw [Nat.add_comm 1 L, Z, Complex.ofReal_mul, Complex.ofReal_div, Complex.ofReal_one]
      field_simp
      rw [mul_comm, h, mul_comm]
      refine congrArg (HMul.hMul _) (congrArg _ ?_)
      ring
    | k + 2 =>
      have h := V_three hbar hb q p k (k + L)
      have i0 := ih k (by omega)
      have i1 := ih (k + 1) (by omega)
      rw [show k + 1 + L = k + L + 1 by omega] at i1
      rw [show k + 2 + L = k + L + 2 by omega, Z]
      rw [i0, i1] at h
      have e1 : Real.sqrt (((L + (k + 2)) * (k + 2) : ℕ) : ℝ) = Real.sqrt ((k + L + 2 : ℕ) : ℝ) * Real.sqrt ((k + 2 : ℕ) : ℝ) := by
        rw [← Real.sqrt_mul (by positivity)]
        refine congrArg _ ?_
        push_cast
        ring
      have e2 : Real.sqrt (((k + 1) * (L + k + 1) : ℕ) : ℝ) = Real.sqrt ((k + 1 : ℕ) : ℝ) * Real.sqrt ((k + L + 1 : ℕ) : ℝ) := by
        rw [← Real.sqrt_mul (by positivity)]
        refine congrArg _ ?_
        push_cast
        ring
      rw [Real.sqrt_div (by positivity), e1, e2]
      have n1 := sqrt_ne (k + 1)
      have n2 := sqrt_ne (k + L + 1)
      generalize Z L (‖2 * gridPt hbar q p‖ * ‖2 * gridPt hbar q p‖) k = z0 at *
      generalize Z L (‖2 * gridPt hbar q p‖ * ‖2 * gridPt hbar q p‖) (k + 1) = z1 at *
      simp only [Nat.add_assoc, Nat.reduceAdd] at *
      push_cast at *
      field_simp
      linear_combination h

theorem laguerreVal_spec (L : ℕ) (x : ℝ) (diag : List ℂ) (hd : 2 ≤ diag.length) :
    laguerreVal L x diag = ∑ j ∈ Finset.range diag.length, diag.getD j 0 * (Z L x j : ℝ) := by
  unfold laguerreVal
  simp only []
  obtain ⟨N, hN⟩ : ∃ N, diag.length = N + 2 := ⟨diag.length - 2, by omega⟩
  rw [hN]
  have key : ∀ t, t ≤ N →
      (∑ j ∈ Finset.range (N - t), diag.getD j 0 * (Z L x j : ℝ))
        + ((List.range' 3 t).foldl
          (fun (y : ℂ × ℂ) i =>
            (diag.getD (N + 2 - i) 0 - y.2 * (Real.sqrt ((((N + 2 - (i - 2) - 1) * (L + (N + 2 - (i - 2)) - 1) : ℕ) : ℝ)
                / (((L + (N + 2 - (i - 2))) * (N + 2 - (i - 2)) : ℕ) : ℝ)) : ℝ),
              y.1 - y.2 * ((((L + 2 * (N + 2 - (i - 2)) - 1 : ℕ) : ℝ) - x : ℝ) : ℂ)
                * (1 / Real.sqrt (((L + (N + 2 - (i - 2))) * (N + 2 - (i - 2)) : ℕ) : ℝ) : ℝ)))
          (diag.getD (N + 2 - 2) 0, diag.getD (N + 2 - 1) 0)).1 * (Z L x (N - t) : ℝ)
        + ((List.range' 3 t).foldl
          (fun (y : ℂ × ℂ) i =>
            (diag.getD (N + 2 - i) 0 - y.2 * (Real.sqrt ((((N + 2 - (i - 2) - 1) * (L + (N + 2 - (i - 2)) - 1) : ℕ) : ℝ)
                / (((L + (N + 2 - (i - 2))) * (N + 2 - (i - 2)) : ℕ) : ℝ)) : ℝ),
              y.1 - y.2 * ((((L + 2 * (N + 2 - (i - 2)) - 1 : ℕ) : ℝ) - x : ℝ) : ℂ)
                * (1 / Real.sqrt (((L + (N + 2 - (i - 2))) * (N + 2 - (i - 2)) : ℕ) : ℝ) : ℝ)))
          (diag.getD (N + 2 - 2) 0, diag.getD (N + 2 - 1) 0)).2 * (Z L x (N + 1 - t) : ℝ)
      = ∑ j ∈ Finset.range (N + 2), diag.getD j 0 * (Z L x j : ℝ) := by
    intro t
    induction t with
    | zero =>
      intro _
      rw [Finset.sum_range_succ, Finset.sum_range_succ]
      simp
    | succ t ih =>
      intro ht
      rw [← ih (by omega), List.range'_concat, List.foldl_append]
      simp only [List.foldl_cons, List.foldl_nil]
      generalize List.foldl _ _ _ = y
      obtain ⟨r, hr⟩ : ∃ r, N = r + (t + 1) := ⟨N - (t + 1), by omega⟩
      subst hr
      rw [show r + (t + 1) - t = r + 1 by omega, show r + (t + 1) + 1 - t = r + 2 by omega,
        show r + (t + 1) - (t + 1) = r by omega, show r + (t + 1) + 1 - (t + 1) = r + 1 by omega,
        show r + (t + 1) + 2 - (3 + 1 * t - 2) = r + 2 by omega, show r + (t + 1) + 2 - (3 + 1 * t) = r by omega,
        show r + 2 - 1 = r + 1 by omega, show L + (r + 2) - 1 = L + r + 1 by omega,
        show L + 2 * (r + 2) - 1 = L + 2 * r + 3 by omega, Finset.sum_range_succ, Z]
      push_cast
      ring
  have h := key N le_rfl
  rw [Nat.sub_self, show N + 1 - N = 1 by omega] at h
  rw [← h, show N + 2 - 2 = N by omega, show N + 2 - 1 = N + 1 by omega]
  simp only [Finset.range_zero, Finset.sum_empty, zero_add, Z]
  push_cast
  ring

theorem V_top (hbar : ℝ) (hb : 0 < hbar) (q p : ℝ) (L : ℕ) :
    V hbar q p 0 L = V hbar q p 0 0 * ((2 * gridPt hbar q p) ^ L / (Real.sqrt L.factorial : ℝ)) := by
  induction L with
  | zero => simp
  | succ L ih =>
    rw [V_row0 hbar hb, ih, Nat.factorial_succ, Nat.cast_mul, Real.sqrt_mul (by positivity), Complex.ofReal_mul, pow_succ]
    have n1 := sqrt_ne L
    have n2 : ((Real.sqrt (L.factorial : ℝ) : ℝ) : ℂ) ≠ 0 := by
      rw [Complex.ofReal_ne_zero]
      exact (Real.sqrt_pos.mpr (by positivity)).ne'
    field_simp

theorem horner (A : ℂ) (c : ℕ → ℂ) (L t : ℕ) (ht : t ≤ L) :
    (List.range' 1 t).foldl (fun (w : ℂ) j => c (L - j) + w * A * (1 / Real.sqrt ((L - j + 1 : ℕ) : ℝ) : ℝ)) (c L)
      * (A ^ (L - t) / (Real.sqrt (L - t).factorial : ℝ))
      = ∑ j ∈ Finset.Ico (L - t) (L + 1), c j * (A ^ j / (Real.sqrt j.factorial : ℝ)) := by
  induction t with
  | zero => simp
  | succ t ih =>
    rw [List.range'_concat, List.foldl_append]
    simp only [List.foldl_cons, List.foldl_nil]
    have h := ih (by omega)
    generalize List.foldl _ _ _ = w at *
    obtain ⟨r, hr⟩ : ∃ r, L = r + (t + 1) := ⟨L - (t + 1), by omega⟩
    subst hr
    rw [show r + (t + 1) - t = r + 1 by omega] at h
    rw [show r + (t + 1) - (1 + 1 * t) = r by omega, show r + (t + 1) - (t + 1) = r by omega,
      Finset.sum_eq_sum_Ico_succ_bot (by omega), ← h, Nat.factorial_succ, Nat.cast_mul, Real.sqrt_mul (by positivity),
      pow_succ]
    have n1 := sqrt_ne r
    have n2 : ((Real.sqrt (r.factorial : ℝ) : ℝ) : ℂ) ≠ 0 := by
      rw [Complex.ofReal_ne_zero]
      exact (Real.sqrt_pos.mpr (by positivity)).ne'
    rw [Complex.ofReal_mul, Complex.ofReal_div, Complex.ofReal_one]
    field_simp

theorem rowSum_eq (hbar : ℝ) (rho : ℕ → ℕ → ℂ) (cutoff : ℕ) (q p : ℝ) (m : ℕ) (hm : m < cutoff) :
    rowSum hbar rho cutoff q p m
      = (∑ j ∈ Finset.range (cutoff - m), rho m (m + j) * (2 - if m = m + j then 1 else 0) * V hbar q p m (m + j)).re := by
  obtain ⟨k, rfl⟩ : ∃ k, cutoff = m + (k + 1) := ⟨cutoff - m - 1, by omega⟩
  rw [show m + (k + 1) - m = k + 1 by omega, Finset.sum_range_succ', rowSum, Complex.add_re, add_comm, Complex.re_sum]
  refine congrArg₂ (· + ·) ?_ ?_
  · rw [Finset.sum_Ico_eq_sum_range, show m + (k + 1) - (m + 1) = k by omega]
    refine Finset.sum_congr rfl fun j _ => ?_
    rw [if_neg (by omega), show m + 1 + j = m + (j + 1) by omega, sub_zero, mul_right_comm, mul_comm _ (2 : ℂ)]
    simp
  · rw [Nat.add_zero, if_pos rfl]
    norm_num

theorem clenshaw_spec (hbar : ℝ) (hb : 0 < hbar) (rho : ℕ → ℕ → ℂ) (q p : ℝ) (cutoff : ℕ) (hc : 2 ≤ cutoff) :
    clenshaw hbar rho cutoff q p = (∑ m ∈ Finset.range cutoff, rowSum hbar rho cutoff q p m) / hbar := by
  obtain ⟨L, rfl⟩ : ∃ L, cutoff = L + 1 := ⟨cutoff - 1, by omega⟩
  set A := 2 * gridPt hbar q p with hA
  set B := ‖A‖ * ‖A‖ with hB
  let c : ℕ → ℂ := fun l => ∑ m ∈ Finset.range (L + 1 - l), rho m (m + l) * (2 - if m = m + l then 1 else 0) * (Z l B m : ℝ)
  have hw : clenshaw hbar rho (L + 1) q p = ((List.range' 1 L).foldl (fun (w : ℂ) j => c (L - j) + w * A * (1 / Real.sqrt ((L - j + 1 : ℕ) : ℝ) : ℝ)) (c L)).re
      * Real.exp (-B * (1 / 2)) / Real.pi / hbar := by
    unfold clenshaw
    simp only [Nat.add_sub_cancel]
    have e0 : 2 * rho 0 L = c L := by
      have : L + 1 - L = 1 := by omega
      simp only [c, this, Finset.sum_range_one, Nat.zero_add, Z]
      rw [if_neg (by omega)]
      push_cast
      ring
    have e1 : ∀ w₀ : ℂ, (List.range' 1 L).foldl (fun (w : ℂ) j => laguerreVal (L - j) B ((List.range (L + 1 - (L - j))).map
        fun n => rho n (n + (L - j)) * (2 - if n = n + (L - j) then 1 else 0)) + w * A * (1 / Real.sqrt ((L - j + 1 : ℕ) : ℝ) : ℝ)) w₀
        = (List.range' 1 L).foldl (fun (w : ℂ) j => c (L - j) + w * A * (1 / Real.sqrt ((L - j + 1 : ℕ) : ℝ) : ℝ)) w₀ := by
      intro w₀
      refine List.foldl_ext _ _ _ fun w j hj => ?_
      have hj' := List.mem_range'_1.mp hj
      rw [laguerreVal_spec _ _ _ (by rw [List.length_map, List.length_range]; omega), List.length_map, List.length_range]
      refine congrArg (· + _) (Finset.sum_congr rfl fun m hm => ?_)
      have hm' := Finset.mem_range.mp hm
      rw [List.getD_eq_getElem?_getD, List.getElem?_map, List.getElem?_range hm']
      rfl
    rw [← e0, ← e1]
  rw [hw]
  have hh := horner A c L L le_rfl
  rw [Nat.sub_self] at hh
  simp only [pow_zero, Nat.factorial_zero, Nat.cast_one, Real.sqrt_one, Complex.ofReal_one, div_one, mul_one] at hh
  rw [hh]
  have h00 : V hbar q p 0 0 = ((Real.exp (-B * (1 / 2)) / Real.pi : ℝ) : ℂ) := by
    rw [V_zero hbar hb]
    refine congrArg _ (congrArg (fun t => Real.exp t / Real.pi) ?_)
    rw [hB, hA, norm_mul]
    norm_num
    ring
  have hsum : (∑ j ∈ Finset.Ico 0 (L + 1), c j * (A ^ j / (Real.sqrt j.factorial : ℝ))) * V hbar q p 0 0
      = ∑ m ∈ Finset.range (L + 1), ∑ j ∈ Finset.range (L + 1 - m), rho m (m + j) * (2 - if m = m + j then 1 else 0) * V hbar q p m (m + j) := by
    rw [Finset.sum_mul, Finset.range_eq_Ico, Finset.sum_comm' (t' := Finset.Ico 0 (L + 1)) (s' := fun j => Finset.range (L + 1 - j))]
    · refine Finset.sum_congr rfl fun j _ => ?_
      simp only [c]
      rw [Finset.sum_mul, Finset.sum_mul]
      refine Finset.sum_congr rfl fun m _ => ?_
      rw [V_Z hbar hb, V_top hbar hb q p j]
      ring
    · intro m j
      simp only [Finset.mem_Ico, Finset.mem_range]
      omega
  have h2 := congrArg Complex.re hsum
  rw [h00, Complex.re_mul_ofReal] at h2
  rw [Finset.sum_congr rfl fun m hm => rowSum_eq hbar rho (L + 1) q p m (Finset.mem_range.mp hm), ← Complex.re_sum, ← h2]
  ring

/-! ## The property -/

theorem sum_split (c : ℕ) (f : ℕ → ℕ → ℂ) :
    ∑ m ∈ Finset.range c, ∑ n ∈ Finset.range c, f m n
      = ∑ m ∈ Finset.range c, (f m m + ∑ n ∈ Finset.Ico (m + 1) c, (f m n + f n m)) := by
  induction c with
  | zero => simp
  | succ c ih =>
    rw [Finset.sum_range_succ, Finset.sum_range_succ (fun m => f m m + ∑ n ∈ Finset.Ico (m + 1) (c + 1), (f m n + f n m)) c, Finset.Ico_self, Finset.sum_empty, add_zero]
    have h1 : ∑ m ∈ Finset.range c, ∑ n ∈ Finset.range (c + 1), f m n
        = (∑ m ∈ Finset.range c, ∑ n ∈ Finset.range c, f m n) + ∑ m ∈ Finset.range c, f m c := by
      rw [← Finset.sum_add_distrib]
      exact Finset.sum_congr rfl fun m _ => Finset.sum_range_succ _ _
    have h2 : ∑ m ∈ Finset.range c, (f m m + ∑ n ∈ Finset.Ico (m + 1) (c + 1), (f m n + f n m))
        = (∑ m ∈ Finset.range c, (f m m + ∑ n ∈ Finset.Ico (m + 1) c, (f m n + f n m)))
          + ∑ m ∈ Finset.range c, (f m c + f c m) := by
      rw [← Finset.sum_add_distrib]
      refine Finset.sum_congr rfl fun m hm => ?_
      have := Finset.mem_range.mp hm
      rw [Finset.sum_Ico_succ_top (by omega), add_assoc]
    rw [h1, h2, ih, Finset.sum_range_succ, Finset.sum_add_distrib (f := fun m => f m c)]
    ring

theorem W_eq (hbar : ℝ) (hb : 0 < hbar) (rho : ℕ → ℕ → ℂ) (cutoff : ℕ) (q p : ℝ) :
    W hbar rho cutoff q p = (∑ m ∈ Finset.range cutoff, ∑ n ∈ Finset.range cutoff, rho m n * V hbar q p m n) / hbar := by
  unfold W kernel
  have e : ∀ y : ℝ, (∑ m ∈ Finset.range cutoff, ∑ n ∈ Finset.range cutoff, rho m n * (psi hbar m (q - y) : ℂ) * (psi hbar n (q + y) : ℂ))
      * Complex.exp (2 * Complex.I * p * y / hbar)
      = ∑ m ∈ Finset.range cutoff, ∑ n ∈ Finset.range cutoff, rho m n * G hbar q p m n y := by
    intro y
    rw [Finset.sum_mul]
    refine Finset.sum_congr rfl fun m _ => ?_
    rw [Finset.sum_mul]
    refine Finset.sum_congr rfl fun n _ => ?_
    rw [G]
    ring
  simp only [e]
  rw [integral_finsetSum _ fun m _ => integrable_finsetSum _ fun n _ => (G_integrable hbar hb q p m n).const_mul _]
  have hpi : (Real.pi : ℂ) ≠ 0 := by exact_mod_cast Real.pi_pos.ne'
  have hne : (hbar : ℂ) ≠ 0 := by exact_mod_cast hb.ne'
  rw [Finset.sum_congr rfl fun m _ => integral_finsetSum _ fun n _ => (G_integrable hbar hb q p m n).const_mul _,
    Finset.mul_sum, Finset.sum_div]
  refine Finset.sum_congr rfl fun m _ => ?_
  rw [Finset.mul_sum, Finset.sum_div]
  refine Finset.sum_congr rfl fun n _ => ?_
  rw [integral_const_mul, V, I, Complex.ofReal_mul]
  field_simp

theorem W_herm (hbar : ℝ) (hb : 0 < hbar) (rho : ℕ → ℕ → ℂ) (cutoff : ℕ) (q p : ℝ)
    (hh : ∀ m < cutoff, ∀ n < cutoff, rho n m = (starRingEnd ℂ) (rho m n)) :
    W hbar rho cutoff q p = (((∑ m ∈ Finset.range cutoff, rowSum hbar rho cutoff q p m) / hbar : ℝ) : ℂ) := by
  rw [W_eq hbar hb, sum_split, Complex.ofReal_div, Complex.ofReal_sum]
  refine congrArg (· / (hbar : ℂ)) (Finset.sum_congr rfl fun m hm => ?_)
  have hm' := Finset.mem_range.mp hm
  have hV : ∀ m n, V hbar q p n m = (starRingEnd ℂ) (V hbar q p m n) := by
    intro m n
    rw [V, V, map_div₀, Complex.conj_ofReal, ← I_conj]
  rw [rowSum, Complex.ofReal_add, Complex.ofReal_sum]
  refine congrArg₂ (· + ·) ?_ (Finset.sum_congr rfl fun n hn => ?_)
  · have : (starRingEnd ℂ) (rho m m * V hbar q p m m) = rho m m * V hbar q p m m := by
      rw [map_mul, ← hV, ← hh m hm' m hm']
    exact (Complex.conj_eq_iff_re.mp this).symm
  · have hn' := Finset.mem_Ico.mp hn
    rw [hh m hm' n hn'.2, hV m n, ← map_mul, Complex.add_conj]

/-- **C60** (iterative method): for every cutoff, every Hermitian matrix, every value of
`settings.HBAR` and every point, the value returned is the Wigner function
`1/(πħ) ∫ ⟨q-y|ρ|q+y⟩ exp(2ipy/ħ) dy`. -/
theorem C60_iterative (hbar : ℝ) (hb : 0 < hbar) (rho : ℕ → ℕ → ℂ) (cutoff : ℕ) (hc : 0 < cutoff) (q p : ℝ)
    (hh : ∀ m < cutoff, ∀ n < cutoff, rho n m = (starRingEnd ℂ) (rho m n)) :
    (wigner true hbar rho cutoff q p : ℂ) = W hbar rho cutoff q p := by
  rw [W_herm hbar hb rho cutoff q p hh, ← iterative_spec hbar hb rho q p cutoff hc]
  rfl

/-- **C60** (Clenshaw's method), for a cutoff of at least two. -/
theorem C60_clenshaw (hbar : ℝ) (hb : 0 < hbar) (rho : ℕ → ℕ → ℂ) (cutoff : ℕ) (hc : 2 ≤ cutoff) (q p : ℝ)
    (hh : ∀ m < cutoff, ∀ n < cutoff, rho n m = (starRingEnd ℂ) (rho m n)) :
    (wigner false hbar rho cutoff q p : ℂ) = W hbar rho cutoff q p := by
  rw [W_herm hbar hb rho cutoff q p hh, ← clenshaw_spec hbar hb rho q p cutoff hc]
  rfl

/-- **C60**: for a cutoff of at least two the two methods return the same value for *every* matrix,
Hermitian or not. -/
theorem C60_methods_agree (hbar : ℝ) (hb : 0 < hbar) (rho : ℕ → ℕ → ℂ) (cutoff : ℕ) (hc : 2 ≤ cutoff) (q p : ℝ) :
    wigner false hbar rho cutoff q p = wigner true hbar rho cutoff q p := by
  show clenshaw hbar rho cutoff q p = iterative hbar rho cutoff q p
  rw [clenshaw_spec hbar hb rho q p cutoff hc, iterative_spec hbar hb rho q p cutoff (by omega)]

/-- **C60, disagreement**: with cutoff one Clenshaw's method returns twice the Wigner function. -/
theorem C60_disagreement_cutoff_one (hbar : ℝ) (rho : ℕ → ℕ → ℂ) (q p : ℝ) :
    wigner false hbar rho 1 q p = 2 * wigner true hbar rho 1 q p := by
  show clenshaw hbar rho 1 q p = 2 * iterative hbar rho 1 q p
  have h : Real.exp (-(‖2 * gridPt hbar q p‖ * ‖2 * gridPt hbar q p‖) * (1 / 2)) = Real.exp (-2 * ‖gridPt hbar q p‖ ^ 2) := by
    refine congrArg Real.exp ?_
    rw [norm_mul]
    norm_num
    ring
  rw [clenshaw, iterative, iterRow0]
  simp only [Nat.sub_self, List.range'_zero, List.foldl_nil]
  rw [h, Complex.ofReal_re]
  simp
  ring

/-- **C60, which index is the ket**: the arrays of density matrices in MrMustard are indexed
`[bra, ket]`, that is `arr m n = ⟨n|ρ|m⟩` (see C51, where the first index is conjugated).  Passed such
an array, `wigner_discretized` returns the Wigner function of the state at `(q, -p)`. -/
theorem C60_disagreement_bra_ket (hbar : ℝ) (hb : 0 < hbar) (rho : ℕ → ℕ → ℂ) (cutoff : ℕ) (hc : 0 < cutoff) (q p : ℝ)
    (hh : ∀ m < cutoff, ∀ n < cutoff, rho n m = (starRingEnd ℂ) (rho m n)) :
    (wigner true hbar (fun m n => rho n m) cutoff q p : ℂ) = W hbar rho cutoff q (-p) := by
  rw [C60_iterative hbar hb _ cutoff hc q p fun m hm n hn => hh n hn m hm]
  unfold W
  refine congrArg (HMul.hMul _) ?_
  rw [← integral_neg_eq_self fun y : ℝ => kernel hbar rho cutoff (q - y) (q + y) * Complex.exp (2 * Complex.I * ((-p : ℝ) : ℂ) * y / hbar)]
  refine integral_congr_ae (Filter.Eventually.of_forall fun y => ?_)
  simp only [sub_neg_eq_add, ← sub_eq_add_neg]
  refine congrArg₂ (· * ·) ?_ (congrArg Complex.exp ?_)
  · unfold kernel
    rw [Finset.sum_comm]
    refine Finset.sum_congr rfl fun m _ => Finset.sum_congr rfl fun n _ => ?_
    ring
  · push_cast
    ring

/-! ## A concrete case -/

/-- The one-photon state with a coherence: a Hermitian matrix with cutoff two. -/
noncomputable def exRho : ℕ → ℕ → ℂ := fun m n =>
  if m = 1 ∧ n = 1 then 1 else if m = 0 ∧ n = 1 then Complex.I / 4 else if m = 1 ∧ n = 0 then -Complex.I / 4 else 0

theorem exRho_herm : ∀ m < 2, ∀ n < 2, exRho n m = (starRingEnd ℂ) (exRho m n) := by
  intro m hm n hn
  interval_cases m <;> interval_cases n <;> simp [exRho, Complex.conj_ofNat]

/-- Both methods return the Wigner function of this state everywhere; at the origin it is negative. -/
theorem C60_example (q p : ℝ) :
    (wigner true 2 exRho 2 q p : ℂ) = W 2 exRho 2 q p ∧ (wigner false 2 exRho 2 q p : ℂ) = W 2 exRho 2 q p ∧
    wigner true 2 exRho 2 0 0 = -1 / (2 * Real.pi) := by
  refine ⟨C60_iterative 2 (by norm_num) _ 2 (by norm_num) q p exRho_herm,
    C60_clenshaw 2 (by norm_num) _ 2 le_rfl q p exRho_herm, ?_⟩
  show iterative 2 exRho 2 0 0 = _
  have hg : gridPt 2 0 0 = 0 := by simp [gridPt]
  rw [iterative, hg, iterRow0]
  simp only [show 2 - 1 = 1 from rfl, List.range'_one, List.foldl_cons, List.foldl_nil, iterRow, show 2 - (1 + 1) = 0 from rfl,
    List.range'_zero, Function.update_self]
  simp [exRho]
  ring

end Verif.Wigner
