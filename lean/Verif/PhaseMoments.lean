import Verif.PhaseSpace

/-!
# Trace, means and covariance of the state built from phase space data (C65)
-/

namespace Verif.Manifold
open Matrix Verif.Gauss MeasureTheory

variable {n : Type*} [Fintype n] [DecidableEq n]

theorem rot_pair (u : n → ℂ) : (rotmat n)ᴴ.mulVec (Sum.elim u (star u)) =
    fun r => ((Real.sqrt 2 * Sum.elim (fun i => (u i).re) (fun i => (u i).im) r : ℝ) : ℂ) := by
  have h2 : ((Real.sqrt 2 : ℝ) : ℂ) ≠ 0 := by rw [Complex.ofReal_ne_zero]; positivity
  have h2' : ((Real.sqrt 2 : ℝ) : ℂ) * ((Real.sqrt 2 : ℝ) : ℂ) = 2 := by
    rw [← Complex.ofReal_mul, Real.mul_self_sqrt (by norm_num)]; norm_num
  rw [rot_row]
  funext r
  rcases r with i | i
  · simp only [Sum.elim_inl, Pi.star_apply, Complex.star_def, Complex.add_conj]
    push_cast
    rw [div_eq_iff h2, mul_right_comm, h2']
  · simp only [Sum.elim_inr, Pi.star_apply, Complex.star_def, Complex.sub_conj]
    push_cast
    rw [div_eq_iff (mul_ne_zero Complex.I_ne_zero h2)]
    linear_combination -((u i).im : ℂ) * Complex.I * h2'

/-- Traces as integrals over phase space. -/
theorem opTr_rot {G : (n → ℂ) → (n → ℂ) → ℂ} {g : (n ⊕ n → ℂ) → ℂ}
    (h : ∀ z w, G z w = g ((rotmat n)ᴴ.mulVec (Sum.elim w z)) *
      Complex.exp (1 / 2 * ((rotmat n)ᴴ.mulVec (Sum.elim w z) ⬝ᵥ (rotmat n)ᴴ.mulVec (Sum.elim w z)))) :
    opTr G = (((2 * Real.pi) ^ Fintype.card n)⁻¹ : ℝ) * ∫ x : n ⊕ n → ℝ, g (fun r => (x r : ℂ)) := by
  unfold opTr
  have e1 : ∀ u : n → ℂ, G (star u) (star (star u)) * Complex.exp (-∑ i, (‖(star u) i‖ : ℂ) ^ 2) =
      g (fun r => ((Real.sqrt 2 * Sum.elim (fun i => (u i).re) (fun i => (u i).im) r : ℝ) : ℂ)) := fun u => by
    rw [star_star, h, rot_pair, mul_assoc, ← Complex.exp_add]
    have : (1 : ℂ) / 2 * ((fun r => ((Real.sqrt 2 * Sum.elim (fun i => (u i).re) (fun i => (u i).im) r : ℝ) : ℂ)) ⬝ᵥ
        fun r => ((Real.sqrt 2 * Sum.elim (fun i => (u i).re) (fun i => (u i).im) r : ℝ) : ℂ)) + -∑ i, (‖(star u) i‖ : ℂ) ^ 2 = 0 := by
      have h2' : ((Real.sqrt 2 : ℝ) : ℂ) * ((Real.sqrt 2 : ℝ) : ℂ) = 2 := by
        rw [← Complex.ofReal_mul, Real.mul_self_sqrt (by norm_num)]; norm_num
      rw [dotProduct, Fintype.sum_sum_type]
      have hn : ∀ i, (‖(star u) i‖ : ℂ) ^ 2 = ((u i).re : ℂ) ^ 2 + ((u i).im : ℂ) ^ 2 := fun i => by
        rw [Pi.star_apply, norm_star, ← Complex.ofReal_pow, ← Complex.normSq_eq_norm_sq, Complex.normSq_apply]
        push_cast
        ring
      simp only [hn, Sum.elim_inl, Sum.elim_inr]
      rw [← Finset.sum_add_distrib, Finset.mul_sum, ← sub_eq_add_neg, ← Finset.sum_sub_distrib]
      refine Finset.sum_eq_zero fun i _ => ?_
      push_cast
      linear_combination 1 / 2 * (((u i).re : ℂ) ^ 2 + ((u i).im : ℂ) ^ 2) * h2'
    rw [this, Complex.exp_zero, mul_one]
  have e2 : ∫ u : n → ℂ, G u (star u) * Complex.exp (-∑ i, (‖u i‖ : ℂ) ^ 2) =
      ∫ u : n → ℂ, g (fun r => ((Real.sqrt 2 * Sum.elim (fun i => (u i).re) (fun i => (u i).im) r : ℝ) : ℂ)) := by
    rw [← (conjPerm_mp (Equiv.refl n)).integral_comp' (fun u : n → ℂ => G u (star u) * Complex.exp (-∑ i, (‖u i‖ : ℂ) ^ 2))]
    refine integral_congr_ae (.of_forall fun u => ?_)
    have hc : conjPerm (Equiv.refl n) u = star u := funext fun i => conjPerm_apply (Equiv.refl n) u i
    simp only [hc]
    exact e1 u
  rw [e2, integral_cplx]
  have e3 : ∀ ξ : n ⊕ n → ℝ, g (fun r => ((Real.sqrt 2 * Sum.elim (fun i => (cplx ξ i).re) (fun i => (cplx ξ i).im) r : ℝ) : ℂ)) =
      (fun x : n ⊕ n → ℝ => g (fun r => (x r : ℂ))) (Real.sqrt 2 • ξ) := fun ξ => by
    refine congrArg g (funext fun r => ?_)
    rcases r with i | i <;> simp [cplx]
  simp only [e3]
  rw [Measure.integral_comp_smul (volume : Measure (n ⊕ n → ℝ)) (fun x : n ⊕ n → ℝ => g (fun r => (x r : ℂ))) (Real.sqrt 2)]
  rw [Module.finrank_fintype_fun_eq_card, Fintype.card_sum, ← two_mul, pow_mul, Real.sq_sqrt (by norm_num), abs_of_pos (by positivity),
    Complex.real_smul]
  push_cast
  rw [mul_pow, mul_inv]
  ring

/-- The quadratures in phase space coordinates: `x_r + ½ Σ (1 + iΩ)_{rs} ∂_s` acting on `h`, for the kernel `h(ξ) exp(ξ·ξ/2)`. -/
theorem quadLeft_rot {F : (n → ℂ) → (n → ℂ) → ℂ} {h : (n ⊕ n → ℂ) → ℂ} {h' : (n ⊕ n → ℂ) → n ⊕ n → ℂ}
    (hF : ∀ z w, F z w = h ((rotmat n)ᴴ.mulVec (Sum.elim w z)) *
      Complex.exp (1 / 2 * ((rotmat n)ᴴ.mulVec (Sum.elim w z) ⬝ᵥ (rotmat n)ᴴ.mulVec (Sum.elim w z))))
    (hh : ∀ ξ d : n ⊕ n → ℂ, HasDerivAt (fun t : ℂ => h (ξ + t • d)) (h' ξ ⬝ᵥ d) 0) (r : n ⊕ n) (z w : n → ℂ) :
    quadLeft F r z w = (fun ξ : n ⊕ n → ℂ => ξ r * h ξ + 1 / 2 * ((1 + Complex.I • toC (symForm n)).mulVec (h' ξ)) r)
      ((rotmat n)ᴴ.mulVec (Sum.elim w z)) *
      Complex.exp (1 / 2 * ((rotmat n)ᴴ.mulVec (Sum.elim w z) ⬝ᵥ (rotmat n)ᴴ.mulVec (Sum.elim w z))) := by
  set ξ := (rotmat n)ᴴ.mulVec (Sum.elim w z) with hξ
  set s : ℂ := ((Real.sqrt 2 : ℝ) : ℂ) with hs
  have h2 : s ≠ 0 := by rw [hs, Complex.ofReal_ne_zero]; positivity
  have h2' : s * s = 2 := by rw [hs, ← Complex.ofReal_mul, Real.mul_self_sqrt (by norm_num)]; norm_num
  have hd : ∀ i, deriv (fun t => F (Function.update z i t) w) (z i) =
      ((h' ξ (.inl i) + Complex.I * h' ξ (.inr i)) / s + (ξ (.inl i) + Complex.I * ξ (.inr i)) / s * h ξ) *
        Complex.exp (1 / 2 * (ξ ⬝ᵥ ξ)) := fun i => by
    set d : n ⊕ n → ℂ := Sum.elim (fun j => if j = i then 1 / s else 0) (fun j => if j = i then Complex.I / s else 0) with hdd
    have hupd : ∀ t, (rotmat n)ᴴ.mulVec (Sum.elim w (Function.update z i t)) = ξ + (t - z i) • d := fun t => by
      rw [hξ, rot_row, rot_row]
      funext r
      rcases r with j | j
      · by_cases hj : j = i
        · subst hj; simp [hdd]; field_simp; ring
        · simp [hdd, hj]
      · by_cases hj : j = i
        · subst hj; simp [hdd]; field_simp; rw [Complex.I_sq]; ring
        · simp [hdd, hj]
    have hdot : ∀ x : n ⊕ n → ℂ, x ⬝ᵥ d = (x (.inl i) + Complex.I * x (.inr i)) / s := fun x => by
      rw [dotProduct, Fintype.sum_sum_type]
      simp only [hdd, Sum.elim_inl, Sum.elim_inr, mul_ite, mul_zero, Finset.sum_ite_eq', Finset.mem_univ, if_true]
      ring
    have hdd0 : d ⬝ᵥ d = 0 := by
      rw [hdot]
      simp only [hdd, Sum.elim_inl, Sum.elim_inr, if_true]
      rw [mul_div_assoc', Complex.I_mul_I]
      ring
    have hq : ∀ t : ℂ, (ξ + t • d) ⬝ᵥ (ξ + t • d) = ξ ⬝ᵥ ξ + t * (2 * (ξ ⬝ᵥ d)) := fun t => by
      rw [add_dotProduct, dotProduct_add, dotProduct_add, smul_dotProduct, dotProduct_smul, smul_dotProduct, dotProduct_smul, hdd0,
        dotProduct_comm d ξ]
      simp only [smul_eq_mul]
      ring
    have hfun : (fun t => F (Function.update z i t) w) =
        (fun t : ℂ => h (ξ + t • d) * Complex.exp (1 / 2 * (ξ ⬝ᵥ ξ + t * (2 * (ξ ⬝ᵥ d))))) ∘ fun t => t - z i := by
      funext t
      rw [hF, hupd]
      simp only [Function.comp, hq]
    have hexp : HasDerivAt (fun t : ℂ => Complex.exp (1 / 2 * (ξ ⬝ᵥ ξ + t * (2 * (ξ ⬝ᵥ d)))))
        (Complex.exp (1 / 2 * (ξ ⬝ᵥ ξ)) * (ξ ⬝ᵥ d)) 0 := by
      have h1 : HasDerivAt (fun t : ℂ => 1 / 2 * (ξ ⬝ᵥ ξ + t * (2 * (ξ ⬝ᵥ d)))) (1 / 2 * (1 * (2 * (ξ ⬝ᵥ d)))) 0 :=
        (((hasDerivAt_id (0 : ℂ)).mul_const _).const_add _).const_mul _
      have := h1.cexp
      refine this.congr_deriv ?_
      rw [zero_mul, add_zero]
      ring
    have hm := (hh ξ d).mul hexp
    have hz : HasDerivAt (fun t : ℂ => t - z i) 1 (z i) := (hasDerivAt_id _).sub_const _
    have hcomp := HasDerivAt.comp (h₂ := fun t : ℂ => h (ξ + t • d) * Complex.exp (1 / 2 * (ξ ⬝ᵥ ξ + t * (2 * (ξ ⬝ᵥ d))))) (z i)
      (by rw [sub_self]; exact hm) hz
    rw [hfun, hcomp.deriv]
    rw [zero_smul, add_zero, zero_mul, add_zero, hdot, hdot]
    ring
  have hzi : ∀ i, z i = (ξ (.inl i) - Complex.I * ξ (.inr i)) / s := fun i => by
    rw [hξ, rot_row]
    simp only [Sum.elim_inl, Sum.elim_inr]
    rw [← hs]
    field_simp
    linear_combination z i * h2'
  have hJ1 : ∀ (x : n ⊕ n → ℂ) i, ((1 + Complex.I • toC (symForm n)).mulVec x) (.inl i) = x (.inl i) + Complex.I * x (.inr i) := fun x i => by
    rw [Matrix.add_mulVec, Matrix.one_mulVec, Matrix.smul_mulVec]
    simp only [Pi.add_apply, Pi.smul_apply, smul_eq_mul]
    congr 2
    simp [mulVec, dotProduct, toC, symForm, Matrix.one_apply, apply_ite Complex.ofReal]
  have hJ2 : ∀ (x : n ⊕ n → ℂ) i, ((1 + Complex.I • toC (symForm n)).mulVec x) (.inr i) = x (.inr i) - Complex.I * x (.inl i) := fun x i => by
    rw [Matrix.add_mulVec, Matrix.one_mulVec, Matrix.smul_mulVec]
    simp only [Pi.add_apply, Pi.smul_apply, smul_eq_mul, sub_eq_add_neg, ← mul_neg]
    congr 2
    simp [mulVec, dotProduct, toC, symForm, Matrix.one_apply, apply_ite Complex.ofReal]
  dsimp only
  rcases r with i | i
  · show (deriv (fun t => F (Function.update z i t) w) (z i) + z i * F z w) / s = _
    rw [hd, hF, ← hξ, hJ1]
    conv_lhs => rw [hzi i]
    generalize Complex.exp (1 / 2 * (ξ ⬝ᵥ ξ)) = E
    field_simp
    rw [show s ^ 2 = 2 by rw [sq, h2']]
    ring
  · show (deriv (fun t => F (Function.update z i t) w) (z i) - z i * F z w) / (Complex.I * s) = _
    rw [hd, hF, ← hξ, hJ2]
    conv_lhs => rw [hzi i]
    generalize Complex.exp (1 / 2 * (ξ ⬝ᵥ ξ)) = E
    field_simp
    rw [show s ^ 2 = 2 by rw [sq, h2']]
    ring_nf
    rw [Complex.I_sq]
    ring

/-! ## Moments -/

/-- An affine function times the Husimi function: derivative along a line. -/
theorem hus_deriv {V : Matrix (n ⊕ n) (n ⊕ n) ℝ} (hV : V.PosDef) (m : n ⊕ n → ℝ) (c a : ℂ) (l ξ d : n ⊕ n → ℂ) :
    HasDerivAt (fun t : ℂ => (a + l ⬝ᵥ (ξ + t • d - fun r => (m r : ℂ))) * (c * hus V m (ξ + t • d)))
      ((c * hus V m ξ) • (l - (a + l ⬝ᵥ (ξ - fun r => (m r : ℂ))) • (toC V⁻¹).mulVec (ξ - fun r => (m r : ℂ))) ⬝ᵥ d) 0 := by
  set y : n ⊕ n → ℂ := ξ - fun r => (m r : ℂ) with hy
  have e : ∀ t : ℂ, (ξ + t • d - fun r => (m r : ℂ)) = y + t • d := fun t => by rw [hy]; abel
  unfold hus
  simp only [e, ← hy]
  clear_value y
  have hsym := (posDef_symm hV).2
  have hq : ∀ t : ℂ, (y + t • d) ⬝ᵥ (toC V⁻¹).mulVec (y + t • d) =
      y ⬝ᵥ (toC V⁻¹).mulVec y + t * (2 * ((toC V⁻¹).mulVec y ⬝ᵥ d)) + t ^ 2 * (d ⬝ᵥ (toC V⁻¹).mulVec d) := fun t => by
    rw [Matrix.mulVec_add, Matrix.mulVec_smul, add_dotProduct, dotProduct_add, dotProduct_add, smul_dotProduct, dotProduct_smul,
      smul_dotProduct, dotProduct_smul, symm_dot hsym y d, dotProduct_comm ((toC V⁻¹).mulVec y) d]
    simp only [smul_eq_mul]
    ring
  have hl : ∀ t : ℂ, l ⬝ᵥ (y + t • d) = l ⬝ᵥ y + t * (l ⬝ᵥ d) := fun t => by
    rw [dotProduct_add, dotProduct_smul, smul_eq_mul]
  simp only [hq, hl]
  have hi := hasDerivAt_id (0 : ℂ)
  have h1 : HasDerivAt (fun t : ℂ => a + (l ⬝ᵥ y + t * (l ⬝ᵥ d))) (1 * (l ⬝ᵥ d)) 0 := ((hi.mul_const _).const_add _).const_add _
  have h2 : HasDerivAt (fun t : ℂ => -(1 / 2) * (y ⬝ᵥ (toC V⁻¹).mulVec y + t * (2 * ((toC V⁻¹).mulVec y ⬝ᵥ d)) + t ^ 2 * (d ⬝ᵥ (toC V⁻¹).mulVec d)))
      (-(1 / 2) * (1 * (2 * ((toC V⁻¹).mulVec y ⬝ᵥ d)) + (2 * (0 : ℂ) ^ (2 - 1) * 1) * (d ⬝ᵥ (toC V⁻¹).mulVec d))) 0 := by
    have := ((((hi.mul_const (2 * ((toC V⁻¹).mulVec y ⬝ᵥ d))).const_add (y ⬝ᵥ (toC V⁻¹).mulVec y)).add
      ((hi.pow 2).mul_const (d ⬝ᵥ (toC V⁻¹).mulVec d))).const_mul (-(1 / 2)))
    simpa using this
  have h3 := h1.mul ((h2.cexp.const_mul (((Real.sqrt V.det)⁻¹ : ℝ) : ℂ)).const_mul c)
  refine h3.congr_deriv ?_
  rw [smul_dotProduct, sub_dotProduct, smul_dotProduct]
  simp only [zero_mul, add_zero, smul_eq_mul]
  norm_num
  ring

theorem bell_hus (V : Matrix (n ⊕ n) (n ⊕ n) ℝ) (m x : n ⊕ n → ℝ) :
    hus V m (fun r => (x r : ℂ)) = ((Real.sqrt V.det)⁻¹ : ℝ) * (bell V m x : ℝ) := by
  unfold hus bell
  rw [Complex.ofReal_exp]
  refine congrArg _ (congrArg Complex.exp ?_)
  have : (fun r => (x r : ℂ)) - (fun r => (m r : ℂ)) = fun r => (((x - m) r : ℝ) : ℂ) := by funext r; simp
  rw [this, toC_mulVec]
  simp [dotProduct]

/-- Integrals of products of affine functions against the Husimi function. -/
theorem hus_moment {V : Matrix (n ⊕ n) (n ⊕ n) ℝ} (hV : V.PosDef) (m : n ⊕ n → ℝ) (c a a' : ℂ) (l l' : n ⊕ n → ℂ) :
    (((2 * Real.pi) ^ Fintype.card n)⁻¹ : ℝ) * ∫ x : n ⊕ n → ℝ,
      (a + l ⬝ᵥ ((fun r => (x r : ℂ)) - fun r => (m r : ℂ))) * (a' + l' ⬝ᵥ ((fun r => (x r : ℂ)) - fun r => (m r : ℂ))) *
        (c * hus V m (fun r => (x r : ℂ))) = c * (a * a' + l ⬝ᵥ (toC V).mulVec l') := by
  have hm := bell_moment hV m a a' l l'
  simp only [bell_hus]
  have e : ∀ x : n ⊕ n → ℝ, (a + l ⬝ᵥ ((fun r => (x r : ℂ)) - fun r => (m r : ℂ))) * (a' + l' ⬝ᵥ ((fun r => (x r : ℂ)) - fun r => (m r : ℂ))) *
      (c * (((Real.sqrt V.det)⁻¹ : ℝ) * (bell V m x : ℝ))) = c * ((Real.sqrt V.det)⁻¹ : ℝ) *
        ((a + ∑ i, l i * ((x i - m i : ℝ) : ℂ)) * (a' + ∑ i, l' i * ((x i - m i : ℝ) : ℂ)) * (bell V m x : ℝ)) := fun x => by
    simp only [dotProduct, Pi.sub_apply]
    push_cast
    ring
  simp only [e]
  rw [integral_const_mul, hm]
  have hdet := hV.det_pos
  rw [Fintype.card_sum, ← two_mul, mul_comm 2 (Fintype.card n), pow_mul, Real.sqrt_mul (by positivity), Real.sqrt_sq (by positivity)]
  have h1 : ((Real.sqrt V.det : ℝ) : ℂ) ≠ 0 := by rw [Complex.ofReal_ne_zero]; positivity
  have h2 : (((2 * Real.pi) ^ Fintype.card n : ℝ) : ℂ) ≠ 0 := by
    rw [Complex.ofReal_ne_zero]; have := Real.pi_pos; positivity
  rw [Complex.ofReal_inv, Complex.ofReal_inv, Complex.ofReal_mul]
  show _ = c * (a * a' + l ⬝ᵥ (V.map Complex.ofReal).mulVec l')
  field_simp

/-- **C65 (trace)** The state has trace `coeff`. -/
theorem C65_trace {ħ : ℝ} (hħ : 0 < ħ) {cov : Matrix (n ⊕ n) (n ⊕ n) ℝ} (h : (cov + (ħ / 2) • 1).PosDef) (μ : n ⊕ n → ℝ) (coeff : ℂ) :
    opTr (dmFromPhaseSpace ħ cov μ coeff) = coeff := by
  rw [opTr_rot (g := fun ξ => coeff * hus (vac ħ cov) (mean ħ μ) ξ) (dm_rot hħ h μ coeff)]
  have := hus_moment (vac_pos hħ h) (mean ħ μ) coeff 1 1 0 0
  simp only [zero_dotProduct, add_zero, mul_one, one_mul] at this
  exact this

/-- The quadratures acting on the state. -/
theorem quad_dm {ħ : ℝ} (hħ : 0 < ħ) {cov : Matrix (n ⊕ n) (n ⊕ n) ℝ} (h : (cov + (ħ / 2) • 1).PosDef) (μ : n ⊕ n → ℝ) (coeff : ℂ)
    {F : (n → ℂ) → (n → ℂ) → ℂ} {a : ℂ} {l : n ⊕ n → ℂ}
    (hF : ∀ z w, F z w = (fun ξ => (a + l ⬝ᵥ (ξ - fun r => (mean ħ μ r : ℂ))) * (coeff * hus (vac ħ cov) (mean ħ μ) ξ)) ((rotmat n)ᴴ.mulVec (Sum.elim w z)) *
      Complex.exp (1 / 2 * ((rotmat n)ᴴ.mulVec (Sum.elim w z) ⬝ᵥ (rotmat n)ᴴ.mulVec (Sum.elim w z)))) (r : n ⊕ n) (z w : n → ℂ) :
    quadLeft F r z w = (fun ξ => (((mean ħ μ r : ℂ) + (Pi.single r 1 - (1 / 2 : ℂ) • (toC (vac ħ cov)⁻¹ * (1 - Complex.I • toC (symForm n))).col r) ⬝ᵥ
        (ξ - fun r => (mean ħ μ r : ℂ))) * (a + l ⬝ᵥ (ξ - fun r => (mean ħ μ r : ℂ))) +
          1 / 2 * ((1 + Complex.I • toC (symForm n)).mulVec l) r) * (coeff * hus (vac ħ cov) (mean ħ μ) ξ))
        ((rotmat n)ᴴ.mulVec (Sum.elim w z)) *
      Complex.exp (1 / 2 * ((rotmat n)ᴴ.mulVec (Sum.elim w z) ⬝ᵥ (rotmat n)ᴴ.mulVec (Sum.elim w z))) := by
  have hV := vac_pos hħ h
  rw [quadLeft_rot (h := fun ξ => (a + l ⬝ᵥ (ξ - fun r => (mean ħ μ r : ℂ))) * (coeff * hus (vac ħ cov) (mean ħ μ) ξ))
    (h' := fun ξ => (coeff * hus (vac ħ cov) (mean ħ μ) ξ) • (l - (a + l ⬝ᵥ (ξ - fun r => (mean ħ μ r : ℂ))) •
      (toC (vac ħ cov)⁻¹).mulVec (ξ - fun r => (mean ħ μ r : ℂ)))) hF (fun ξ d => hus_deriv hV (mean ħ μ) coeff a l ξ d)]
  refine congrArg (· * _) ?_
  dsimp only
  set ξ := (rotmat n)ᴴ.mulVec (Sum.elim w z)
  set y : n ⊕ n → ℂ := ξ - fun r => (mean ħ μ r : ℂ) with hy
  set N : Matrix (n ⊕ n) (n ⊕ n) ℂ := 1 + Complex.I • toC (symForm n) with hN
  have hNt : Nᵀ = 1 - Complex.I • toC (symForm n) := by
    have hs : (toC (symForm n))ᵀ = -toC (symForm n) := by
      ext i j; rcases i with i | i <;> rcases j with j | j <;> simp [toC, symForm, Matrix.one_apply, eq_comm]
    rw [hN, transpose_add, transpose_one, transpose_smul, hs, smul_neg, sub_eq_add_neg]
  rw [← hNt]
  have hcol : (toC (vac ħ cov)⁻¹ * Nᵀ).col r ⬝ᵥ y = (N.mulVec ((toC (vac ħ cov)⁻¹).mulVec y)) r := by
    have : (toC (vac ħ cov)⁻¹ * Nᵀ).col r = ((toC (vac ħ cov)⁻¹ * Nᵀ)ᵀ) r := rfl
    rw [this, transpose_mul, transpose_transpose, (posDef_symm hV).2, Matrix.mulVec_mulVec]
    rfl
  have hξr : ξ r = (mean ħ μ r : ℂ) + y r := by rw [hy]; simp
  rw [Matrix.mulVec_smul, Matrix.mulVec_sub, Matrix.mulVec_smul, sub_dotProduct, single_dotProduct, smul_dotProduct, hcol, hξr]
  simp only [Pi.smul_apply, Pi.sub_apply, smul_eq_mul]
  ring

theorem quad_dm_one {ħ : ℝ} (hħ : 0 < ħ) {cov : Matrix (n ⊕ n) (n ⊕ n) ℝ} (h : (cov + (ħ / 2) • 1).PosDef) (μ : n ⊕ n → ℝ) (coeff : ℂ)
    (r : n ⊕ n) (z w : n → ℂ) :
    quadLeft (dmFromPhaseSpace ħ cov μ coeff) r z w = (fun ξ => ((mean ħ μ r : ℂ) +
      (Pi.single r 1 - (1 / 2 : ℂ) • (toC (vac ħ cov)⁻¹ * (1 - Complex.I • toC (symForm n))).col r) ⬝ᵥ
        (ξ - fun r => (mean ħ μ r : ℂ))) * (coeff * hus (vac ħ cov) (mean ħ μ) ξ))
        ((rotmat n)ᴴ.mulVec (Sum.elim w z)) *
      Complex.exp (1 / 2 * ((rotmat n)ᴴ.mulVec (Sum.elim w z) ⬝ᵥ (rotmat n)ᴴ.mulVec (Sum.elim w z))) := by
  have hF : ∀ z w, dmFromPhaseSpace ħ cov μ coeff z w = (fun ξ => ((1 : ℂ) + 0 ⬝ᵥ (ξ - fun r => (mean ħ μ r : ℂ))) *
      (coeff * hus (vac ħ cov) (mean ħ μ) ξ)) ((rotmat n)ᴴ.mulVec (Sum.elim w z)) *
      Complex.exp (1 / 2 * ((rotmat n)ᴴ.mulVec (Sum.elim w z) ⬝ᵥ (rotmat n)ᴴ.mulVec (Sum.elim w z))) := fun z w => by
    rw [dm_rot hħ h]
    simp only [zero_dotProduct, add_zero, one_mul]
  rw [quad_dm hħ h μ coeff hF]
  simp only [zero_dotProduct, add_zero, mul_one, Matrix.mulVec_zero, Pi.zero_apply, mul_zero]

theorem sqrt_mean {ħ : ℝ} (hħ : 0 < ħ) (μ : n ⊕ n → ℝ) (r : n ⊕ n) : ((Real.sqrt ħ : ℝ) : ℂ) * (mean ħ μ r : ℂ) = μ r := by
  rw [← Complex.ofReal_mul]
  unfold mean
  rw [mul_div_cancel₀]
  exact (Real.sqrt_pos.2 hħ).ne'

/-- **C65 (means)** The expectation value of the quadrature `r̂ = √ħ (a + a†)/√2` or `√ħ (a - a†)/(i√2)` is the given mean. -/
theorem C65_means {ħ : ℝ} (hħ : 0 < ħ) {cov : Matrix (n ⊕ n) (n ⊕ n) ℝ} (h : (cov + (ħ / 2) • 1).PosDef) (μ : n ⊕ n → ℝ) (coeff : ℂ)
    (r : n ⊕ n) :
    (Real.sqrt ħ : ℝ) * opTr (quadLeft (dmFromPhaseSpace ħ cov μ coeff) r) = coeff * μ r := by
  have hq := quad_dm_one hħ h μ coeff r
  generalize (Pi.single r 1 - (1 / 2 : ℂ) • (toC (vac ħ cov)⁻¹ * (1 - Complex.I • toC (symForm n))).col r : n ⊕ n → ℂ) = l at hq
  rw [opTr_rot (g := fun ξ => ((mean ħ μ r : ℂ) + l ⬝ᵥ (ξ - fun r => (mean ħ μ r : ℂ))) * (coeff * hus (vac ħ cov) (mean ħ μ) ξ)) hq]
  have := hus_moment (vac_pos hħ h) (mean ħ μ) coeff (mean ħ μ r) 1 l 0
  simp only [zero_dotProduct, Matrix.mulVec_zero, dotProduct_zero, add_zero, mul_one] at this
  rw [this, mul_left_comm, sqrt_mean hħ]

theorem hus_integrable {V : Matrix (n ⊕ n) (n ⊕ n) ℝ} (hV : V.PosDef) (m : n ⊕ n → ℝ) (a a' c : ℂ) (l l' : n ⊕ n → ℂ) :
    Integrable fun x : n ⊕ n → ℝ =>
      (a + l ⬝ᵥ ((fun r => (x r : ℂ)) - fun r => (m r : ℂ))) * (a' + l' ⬝ᵥ ((fun r => (x r : ℂ)) - fun r => (m r : ℂ))) *
        (c * hus V m (fun r => (x r : ℂ))) := by
  have h0 : Integrable fun x : n ⊕ n → ℝ => (a + ∑ i, l i * (x i : ℂ)) * (a' + ∑ i, l' i * (x i : ℂ)) * Complex.exp (form (prec V) 0 x) :=
    ((Tame.lin a l).mul (Tame.lin a' l')).integrable (prec_symm hV) (prec_posRe hV) 0
  have := ((h0.comp_sub_right m).const_mul (c * ((Real.sqrt V.det)⁻¹ : ℝ)))
  refine this.congr (.of_forall fun x => ?_)
  simp only [bell_hus, ← bell_form]
  have eb : bell V 0 (x - m) = bell V m x := by simp [bell]
  rw [eb]
  simp only [dotProduct, Pi.sub_apply]
  push_cast
  ring

/-- Two quadratures acting on the state. -/
theorem quad_dm_two {ħ : ℝ} (hħ : 0 < ħ) {cov : Matrix (n ⊕ n) (n ⊕ n) ℝ} (h : (cov + (ħ / 2) • 1).PosDef) (μ : n ⊕ n → ℝ) (coeff : ℂ)
    (r s : n ⊕ n) : ∃ g : (n ⊕ n → ℂ) → ℂ, (∀ z w, quadLeft (quadLeft (dmFromPhaseSpace ħ cov μ coeff) s) r z w =
      g ((rotmat n)ᴴ.mulVec (Sum.elim w z)) *
        Complex.exp (1 / 2 * ((rotmat n)ᴴ.mulVec (Sum.elim w z) ⬝ᵥ (rotmat n)ᴴ.mulVec (Sum.elim w z)))) ∧
      Integrable fun x : n ⊕ n → ℝ => g (fun r => (x r : ℂ)) := by
  have h1 := quad_dm_one hħ h μ coeff s
  generalize (Pi.single s 1 - (1 / 2 : ℂ) • (toC (vac ħ cov)⁻¹ * (1 - Complex.I • toC (symForm n))).col s : n ⊕ n → ℂ) = l at h1
  have h2 := quad_dm hħ h μ coeff h1 r
  generalize (Pi.single r 1 - (1 / 2 : ℂ) • (toC (vac ħ cov)⁻¹ * (1 - Complex.I • toC (symForm n))).col r : n ⊕ n → ℂ) = l' at h2
  refine ⟨fun ξ => (((mean ħ μ r : ℂ) + l' ⬝ᵥ (ξ - fun r => (mean ħ μ r : ℂ))) * ((mean ħ μ s : ℂ) + l ⬝ᵥ (ξ - fun r => (mean ħ μ r : ℂ))) +
    1 / 2 * ((1 + Complex.I • toC (symForm n)).mulVec l) r) * (coeff * hus (vac ħ cov) (mean ħ μ) ξ), h2, ?_⟩
  refine ((hus_integrable (vac_pos hħ h) (mean ħ μ) (mean ħ μ r) (mean ħ μ s) coeff l' l).add (hus_integrable (vac_pos hħ h) (mean ħ μ) 1 1
    (coeff * (1 / 2 * ((1 + Complex.I • toC (symForm n)).mulVec l) r)) 0 0)).congr (.of_forall fun x => ?_)
  simp only [Pi.add_apply, zero_dotProduct]
  ring

/-- **C65 (covariance)** The expectation value of the product of two quadratures: the symmetric part is the given covariance matrix plus
the product of the means, the antisymmetric part is half the commutator. -/
theorem C65_covariance {ħ : ℝ} (hħ : 0 < ħ) {cov : Matrix (n ⊕ n) (n ⊕ n) ℝ} (h : (cov + (ħ / 2) • 1).PosDef) (μ : n ⊕ n → ℝ) (coeff : ℂ)
    (r s : n ⊕ n) :
    (ħ : ℂ) * opTr (quadLeft (quadLeft (dmFromPhaseSpace ħ cov μ coeff) s) r) =
      coeff * (cov r s + μ r * μ s + Complex.I * ħ / 2 * symForm n r s) := by
  have hV := vac_pos hħ h
  set V := vac ħ cov with hVd
  set N : Matrix (n ⊕ n) (n ⊕ n) ℂ := 1 + Complex.I • toC (symForm n) with hN
  set N' : Matrix (n ⊕ n) (n ⊕ n) ℂ := 1 - Complex.I • toC (symForm n) with hN'
  set M : Matrix (n ⊕ n) (n ⊕ n) ℂ := 1 - (1 / 2 : ℂ) • (toC V⁻¹ * N') with hM
  have hcol : ∀ r, (Pi.single r 1 - (1 / 2 : ℂ) • (toC V⁻¹ * N').col r : n ⊕ n → ℂ) = M.col r := fun r => by
    funext i
    simp [hM, Matrix.one_apply, Pi.single_apply]
  have h1 : ∀ z w, quadLeft (dmFromPhaseSpace ħ cov μ coeff) s z w = (fun ξ => ((mean ħ μ s : ℂ) + M.col s ⬝ᵥ
        (ξ - fun r => (mean ħ μ r : ℂ))) * (coeff * hus V (mean ħ μ) ξ))
        ((rotmat n)ᴴ.mulVec (Sum.elim w z)) *
      Complex.exp (1 / 2 * ((rotmat n)ᴴ.mulVec (Sum.elim w z) ⬝ᵥ (rotmat n)ᴴ.mulVec (Sum.elim w z))) := fun z w => by
    rw [quad_dm_one hħ h μ coeff s, ← hVd, ← hN', hcol]
  have h2 := quad_dm hħ h μ coeff h1 r
  rw [← hVd, ← hN', hcol, ← hN] at h2
  rw [opTr_rot (g := fun ξ => (((mean ħ μ r : ℂ) + M.col r ⬝ᵥ (ξ - fun r => (mean ħ μ r : ℂ))) *
    ((mean ħ μ s : ℂ) + M.col s ⬝ᵥ (ξ - fun r => (mean ħ μ r : ℂ))) + 1 / 2 * (N.mulVec (M.col s)) r) * (coeff * hus V (mean ħ μ) ξ)) h2]
  have hint := fun a a' c l l' => hus_integrable hV (mean ħ μ) a a' c l l'
  have e : ∀ x : n ⊕ n → ℝ, (((mean ħ μ r : ℂ) + M.col r ⬝ᵥ ((fun r => (x r : ℂ)) - fun r => (mean ħ μ r : ℂ))) *
      ((mean ħ μ s : ℂ) + M.col s ⬝ᵥ ((fun r => (x r : ℂ)) - fun r => (mean ħ μ r : ℂ))) + 1 / 2 * (N.mulVec (M.col s)) r) *
        (coeff * hus V (mean ħ μ) (fun r => (x r : ℂ))) =
      ((mean ħ μ r : ℂ) + M.col r ⬝ᵥ ((fun r => (x r : ℂ)) - fun r => (mean ħ μ r : ℂ))) *
      ((mean ħ μ s : ℂ) + M.col s ⬝ᵥ ((fun r => (x r : ℂ)) - fun r => (mean ħ μ r : ℂ))) * (coeff * hus V (mean ħ μ) (fun r => (x r : ℂ))) +
      (1 + 0 ⬝ᵥ ((fun r => (x r : ℂ)) - fun r => (mean ħ μ r : ℂ))) * (1 + 0 ⬝ᵥ ((fun r => (x r : ℂ)) - fun r => (mean ħ μ r : ℂ))) *
        (coeff * (1 / 2 * (N.mulVec (M.col s)) r) * hus V (mean ħ μ) (fun r => (x r : ℂ))) := fun x => by
    simp only [zero_dotProduct]; ring
  simp only [e]
  rw [integral_add (hint _ _ _ _ _) (hint _ _ _ _ _), mul_add, hus_moment hV, hus_moment hV]
  simp only [zero_dotProduct, add_zero, mul_one]
  have hi := posDef_inv hV
  have ci1 : toC V * toC V⁻¹ = 1 := by rw [← toC_mul, hi.1, toC_one]
  have hNt : N'ᵀ = N := by
    have hs : (toC (symForm n))ᵀ = -toC (symForm n) := by
      ext i j; rcases i with i | i <;> rcases j with j | j <;> simp [toC, symForm, Matrix.one_apply, eq_comm]
    rw [hN', hN, transpose_sub, transpose_one, transpose_smul, hs, smul_neg, sub_neg_eq_add]
  have hmat : Mᵀ * toC V * M + (1 / 2 : ℂ) • (N * M) = toC V - (1 / 2 : ℂ) • N' := by
    have hMt : Mᵀ * toC V = toC V - (1 / 2 : ℂ) • N := by
      have hMt' : Mᵀ = 1 - (1 / 2 : ℂ) • (N * toC V⁻¹) := by
        rw [hM, transpose_sub, transpose_one, transpose_smul, transpose_mul, hNt, (posDef_symm hV).2]
      rw [hMt', Matrix.sub_mul, Matrix.one_mul, Matrix.smul_mul, Matrix.mul_assoc, mul_eq_one_comm.1 ci1, Matrix.mul_one]
    rw [hMt, ← Matrix.smul_mul, ← Matrix.add_mul, sub_add_cancel, hM, Matrix.mul_sub, Matrix.mul_one, Matrix.mul_smul, ← Matrix.mul_assoc,
      ci1, Matrix.one_mul]
  have hentry : M.col r ⬝ᵥ (toC V).mulVec (M.col s) + 1 / 2 * (N.mulVec (M.col s)) r = (toC V - (1 / 2 : ℂ) • N') r s := by
    rw [← hmat, Matrix.add_apply, Matrix.smul_apply, Matrix.mul_assoc]
    rfl
  rw [show coeff * ((mean ħ μ r : ℂ) * (mean ħ μ s : ℂ) + M.col r ⬝ᵥ (toC V).mulVec (M.col s)) + coeff * (1 / 2 * (N.mulVec (M.col s)) r) =
    coeff * ((mean ħ μ r : ℂ) * (mean ħ μ s : ℂ) + (M.col r ⬝ᵥ (toC V).mulVec (M.col s) + 1 / 2 * (N.mulVec (M.col s)) r)) by ring, hentry]
  have hVe : (toC V - (1 / 2 : ℂ) • N') r s = ((cov r s / ħ : ℝ) : ℂ) + Complex.I / 2 * symForm n r s := by
    rw [hVd, vac_eq hħ, hN']
    simp only [toC, Matrix.sub_apply, Matrix.map_apply, Matrix.add_apply, Matrix.smul_apply, smul_eq_mul, Matrix.one_apply]
    split_ifs <;> push_cast <;> ring
  rw [hVe]
  have hsq : ((Real.sqrt ħ : ℝ) : ℂ) * ((Real.sqrt ħ : ℝ) : ℂ) = ħ := by rw [← Complex.ofReal_mul, Real.mul_self_sqrt hħ.le]
  have hħ' : (ħ : ℂ) ≠ 0 := by exact_mod_cast hħ.ne'
  rw [← sqrt_mean hħ μ r, ← sqrt_mean hħ μ s]
  push_cast
  field_simp
  linear_combination (-(2 : ℂ) * coeff * (mean ħ μ r : ℂ) * (mean ħ μ s : ℂ)) * hsq

end Verif.Manifold
