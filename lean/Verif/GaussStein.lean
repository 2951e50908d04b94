import Verif.GaussReal
import Verif.Herm
import Mathlib.Analysis.Calculus.LineDeriv.IntegrationByParts

/-!
# Gaussian integrals of Hermite polynomials

`∫ amp_k(a + E x) exp(-½ xᵀ Q x + bᵀ x) dx` is again an amplitude: the derived variables of a Bargmann function survive
integration.  Specification side only: no model of the code.
-/

namespace Verif.Gauss
open MeasureTheory Complex Verif.Fock

variable {κ : Type*} [Fintype κ]

/-- Continuous and of at most exponential growth. -/
def Tame (p : (κ → ℝ) → ℂ) : Prop := Continuous p ∧ ∃ C R : ℝ, 0 ≤ C ∧ 0 ≤ R ∧ ∀ x, ‖p x‖ ≤ C * Real.exp (R * ∑ i, |x i|)

theorem Tame.const (a : ℂ) : Tame (fun _ : κ → ℝ => a) :=
  ⟨continuous_const, ‖a‖, 0, norm_nonneg _, le_rfl, fun x => by simp⟩

theorem abs_sum_nonneg (x : κ → ℝ) : 0 ≤ ∑ i, |x i| := Finset.sum_nonneg fun i _ => abs_nonneg _

theorem Tame.add {p q : (κ → ℝ) → ℂ} (hp : Tame p) (hq : Tame q) : Tame (fun x => p x + q x) := by
  obtain ⟨hp, C, R, hC, hR, h⟩ := hp
  obtain ⟨hq, C', R', hC', hR', h'⟩ := hq
  refine ⟨hp.add hq, C + C', R + R', by positivity, by positivity, fun x => ?_⟩
  have hs := abs_sum_nonneg x
  calc ‖p x + q x‖ ≤ ‖p x‖ + ‖q x‖ := norm_add_le _ _
    _ ≤ C * Real.exp (R * ∑ i, |x i|) + C' * Real.exp (R' * ∑ i, |x i|) := add_le_add (h x) (h' x)
    _ ≤ C * Real.exp ((R + R') * ∑ i, |x i|) + C' * Real.exp ((R + R') * ∑ i, |x i|) := by
        refine add_le_add (mul_le_mul_of_nonneg_left (Real.exp_le_exp.2 ?_) hC) (mul_le_mul_of_nonneg_left (Real.exp_le_exp.2 ?_) hC')
        · nlinarith [mul_nonneg hR' hs]
        · nlinarith [mul_nonneg hR hs]
    _ = _ := by ring

theorem Tame.mul {p q : (κ → ℝ) → ℂ} (hp : Tame p) (hq : Tame q) : Tame (fun x => p x * q x) := by
  obtain ⟨hp, C, R, hC, hR, h⟩ := hp
  obtain ⟨hq, C', R', hC', hR', h'⟩ := hq
  refine ⟨hp.mul hq, C * C', R + R', by positivity, by positivity, fun x => ?_⟩
  calc ‖p x * q x‖ = ‖p x‖ * ‖q x‖ := norm_mul _ _
    _ ≤ (C * Real.exp (R * ∑ i, |x i|)) * (C' * Real.exp (R' * ∑ i, |x i|)) := mul_le_mul (h x) (h' x) (norm_nonneg _) (by positivity)
    _ = _ := by rw [add_mul, Real.exp_add]; ring

theorem Tame.coord (l : κ) : Tame (fun x : κ → ℝ => (x l : ℂ)) := by
  refine ⟨by fun_prop, 1, 1, zero_le_one, zero_le_one, fun x => ?_⟩
  rw [norm_real, Real.norm_eq_abs, one_mul, one_mul]
  have h1 : |x l| ≤ ∑ i, |x i| := Finset.single_le_sum (f := fun i => |x i|) (fun i _ => abs_nonneg _) (Finset.mem_univ l)
  have := Real.add_one_le_exp (∑ i, |x i|)
  linarith

theorem Tame.sum {ι : Type*} (s : Finset ι) (p : ι → (κ → ℝ) → ℂ) (h : ∀ i ∈ s, Tame (p i)) : Tame (fun x => ∑ i ∈ s, p i x) := by
  classical
  induction s using Finset.induction_on with
  | empty => simpa using Tame.const (κ := κ) 0
  | insert a s ha ih =>
    simp only [Finset.sum_insert ha]
    exact (h a (Finset.mem_insert_self _ _)).add (ih fun i hi => h i (Finset.mem_insert_of_mem hi))

theorem form_add_b (Q : Matrix κ κ ℂ) (b b' : κ → ℂ) (x : κ → ℝ) : form Q (fun i => b i + b' i) x = form Q b x + ∑ i, b' i * x i := by
  unfold form
  simp only [add_mul, Finset.sum_add_distrib]
  ring

variable [DecidableEq κ]

theorem Tame.integrable {p : (κ → ℝ) → ℂ} (hp : Tame p) {Q : Matrix κ κ ℂ} (hs : ∀ i j, Q i j = Q j i) (h : PosRe Q) (b : κ → ℂ) :
    Integrable fun x : κ → ℝ => p x * cexp (form Q b x) := by
  obtain ⟨hc, C, R, hC, hR, hb⟩ := hp
  let sg : Bool → ℝ := fun s => if s then R else -R
  let B : (κ → Bool) → (κ → ℂ) := fun ε i => b i + (sg (ε i) : ℝ)
  have hdom : Integrable fun x : κ → ℝ => C * ∑ ε : κ → Bool, ‖cexp (form Q (B ε) x)‖ := by
    apply Integrable.const_mul
    apply integrable_finsetSum
    intro ε _
    exact (integrable_form hs h (B ε)).norm
  refine hdom.mono' ?_ (Filter.Eventually.of_forall fun x => ?_)
  · exact (hc.mul (Complex.continuous_exp.comp (continuous_form Q b))).aestronglyMeasurable
  · rw [norm_mul]
    have h1 : Real.exp (R * ∑ i, |x i|) ≤ ∑ ε : κ → Bool, Real.exp (∑ i, sg (ε i) * x i) := by
      have h2 : Real.exp (R * ∑ i, |x i|) ≤ Real.exp (∑ i, sg (decide (0 ≤ x i)) * x i) := by
        apply Real.exp_le_exp.2
        rw [Finset.mul_sum]
        apply Finset.sum_le_sum
        intro i _
        by_cases hx : 0 ≤ x i
        · simp [sg, hx, abs_of_nonneg hx]
        · simp [sg, hx, abs_of_neg (not_le.1 hx)]
      refine h2.trans ?_
      exact Finset.single_le_sum (f := fun ε : κ → Bool => Real.exp (∑ i, sg (ε i) * x i)) (fun ε _ => (Real.exp_pos _).le)
        (Finset.mem_univ (fun i => decide (0 ≤ x i)))
    have h3 : ∀ ε : κ → Bool, ‖cexp (form Q (B ε) x)‖ = Real.exp (∑ i, sg (ε i) * x i) * ‖cexp (form Q b x)‖ := by
      intro ε
      have : form Q (B ε) x = form Q b x + ((∑ i, sg (ε i) * x i : ℝ) : ℂ) := by
        rw [form_add_b]; push_cast; rfl
      rw [this, Complex.exp_add, norm_mul, norm_exp_ofReal, mul_comm]
    simp only [h3]
    rw [← Finset.sum_mul, ← mul_assoc]
    refine mul_le_mul_of_nonneg_right ?_ (norm_nonneg _)
    exact (hb x).trans (mul_le_mul_of_nonneg_left h1 hC)

/-- Derivative of the Gaussian along a coordinate. -/
theorem hasLineDeriv_gauss {Q : Matrix κ κ ℂ} (hs : ∀ i j, Q i j = Q j i) (b : κ → ℂ) (l : κ) (x : κ → ℝ) :
    HasLineDerivAt ℝ (fun x : κ → ℝ => cexp (form Q b x)) ((b l - ∑ j, Q l j * x j) * cexp (form Q b x)) x (Pi.single l 1) := by
  have e : ∀ t : ℝ, form Q b (x + t • Pi.single l 1) = form Q b x + t * (b l - ∑ j, Q l j * x j) - 1 / 2 * Q l l * t ^ 2 := by
    intro t
    have hx : ∀ i, (((x + t • (Pi.single l 1 : κ → ℝ)) i : ℝ) : ℂ) = x i + if i = l then (t : ℂ) else 0 := by
      intro i
      by_cases hi : i = l
      · subst hi; simp
      · simp [hi]
    unfold form
    simp only [hx, mul_add, add_mul, Finset.sum_add_distrib, mul_ite, ite_mul, mul_zero, zero_mul, Finset.sum_ite_eq', Finset.mem_univ, if_true]
    have h1 : ∀ i, (∑ j, if i = l then Q i j * (t : ℂ) * (x j : ℂ) else 0) = if i = l then ∑ j, Q l j * (t : ℂ) * (x j : ℂ) else 0 := by
      intro i
      by_cases hi : i = l
      · subst hi; simp
      · simp [hi]
    have h2 : ∑ i, Q i l * (x i : ℂ) * (t : ℂ) = t * ∑ j, Q l j * (x j : ℂ) := by
      rw [Finset.mul_sum]
      refine Finset.sum_congr rfl fun i _ => ?_
      rw [hs i l]; ring
    have h3 : ∑ j, Q l j * (t : ℂ) * (x j : ℂ) = t * ∑ j, Q l j * (x j : ℂ) := by
      rw [Finset.mul_sum]
      refine Finset.sum_congr rfl fun i _ => ?_
      ring
    simp only [h1, Finset.sum_ite_eq', Finset.mem_univ, if_true, h2, h3]
    ring
  unfold HasLineDerivAt
  simp only [e]
  have hd : HasDerivAt (fun t : ℝ => form Q b x + (t : ℂ) * (b l - ∑ j, Q l j * x j) - 1 / 2 * Q l l * (t : ℂ) ^ 2)
      (b l - ∑ j, Q l j * x j) 0 := by
    have h1 : HasDerivAt (fun t : ℝ => (t : ℂ)) 1 0 := Complex.ofRealCLM.hasDerivAt
    have h2 := ((h1.mul_const (b l - ∑ j, Q l j * x j)).const_add (form Q b x)).sub ((h1.pow 2).const_mul (1 / 2 * Q l l))
    convert! h2 using 1
    simp
  have := hd.cexp
  have e0 : form Q b x + ((0 : ℝ) : ℂ) * (b l - ∑ j, Q l j * x j) - 1 / 2 * Q l l * ((0 : ℝ) : ℂ) ^ 2 = form Q b x := by
    push_cast; ring
  rw [e0] at this
  rw [mul_comm (b l - ∑ j, Q l j * (x j : ℂ))]
  exact this

/-- Stein's identity (integration by parts). -/
theorem stein {Q : Matrix κ κ ℂ} (hs : ∀ i j, Q i j = Q j i) (h : PosRe Q) (b : κ → ℂ) (l : κ) {p p' : (κ → ℝ) → ℂ} (hp : Tame p) (hp' : Tame p')
    (hd : ∀ x, HasLineDerivAt ℝ p (p' x) x (Pi.single l 1)) :
    ∫ x : κ → ℝ, p x * (∑ j, Q l j * x j) * cexp (form Q b x) =
      b l * (∫ x : κ → ℝ, p x * cexp (form Q b x)) + ∫ x : κ → ℝ, p' x * cexp (form Q b x) := by
  have hlin : Tame fun x : κ → ℝ => ∑ j, Q l j * (x j : ℂ) := Tame.sum _ _ fun j _ => (Tame.const _).mul (Tame.coord j)
  have i1 := hp.integrable hs h b
  have i2 := hp'.integrable hs h b
  have i3 := (hp.mul hlin).integrable hs h b
  have hI := integral_bilinear_hasLineDerivAt_right_eq_neg_left_of_integrable (μ := volume) (B := ContinuousLinearMap.mul ℝ ℂ) (v := Pi.single l 1)
    (f := p) (f' := p') (g := fun x : κ → ℝ => cexp (form Q b x)) (g' := fun x => (b l - ∑ j, Q l j * x j) * cexp (form Q b x))
    (by simpa using i2)
    (by
      have := (i1.const_mul (b l)).sub i3
      refine this.congr (Filter.Eventually.of_forall fun x => ?_)
      simp only [ContinuousLinearMap.mul_apply', Pi.sub_apply]
      ring)
    (by simpa using i1) (fun x _ => hd x) (fun x _ => hasLineDeriv_gauss hs b l x)
  simp only [ContinuousLinearMap.mul_apply'] at hI
  have e : ∫ x : κ → ℝ, p x * ((b l - ∑ j, Q l j * x j) * cexp (form Q b x)) =
      b l * (∫ x : κ → ℝ, p x * cexp (form Q b x)) - ∫ x : κ → ℝ, p x * (∑ j, Q l j * x j) * cexp (form Q b x) := by
    rw [← integral_const_mul, ← integral_sub (i1.const_mul _) i3]
    refine integral_congr_ae (Filter.Eventually.of_forall fun x => ?_)
    simp only
    ring
  rw [e] at hI
  linear_combination -hI

/-! ### Hermite polynomials of a linear argument -/

theorem dn_comm (k : ℕ →₀ ℕ) (i j : ℕ) : dn (dn k i) j = dn (dn k j) i := by
  ext l; simp only [dn_apply]; split_ifs <;> rfl

theorem dn_up_ne {k : ℕ →₀ ℕ} {i j : ℕ} (h : i ≠ j) : dn (up k i) j = up (dn k j) i := by
  ext l; simp only [dn_apply, up_apply]; split_ifs <;> omega

theorem dn_up_self (k : ℕ →₀ ℕ) (i : ℕ) : dn (up k i) i = k := by
  ext l; simp only [dn_apply, up_apply]; split_ifs <;> omega

theorem sq_dn_comm (k : ℕ →₀ ℕ) (i j : ℕ) : Fock.sq (k i) * Fock.sq ((dn k i) j) = Fock.sq (k j) * Fock.sq ((dn k j) i) := by
  by_cases h : i = j
  · subst h; rfl
  · rw [dn_apply, dn_apply, if_neg (Ne.symm h), if_neg h, mul_comm]

/-- Differentiating with respect to the linear term lowers the index (Appell property), in algebraic form: the combination
that the derivative must equal satisfies the differentiated recursion. -/
theorem appell_step {D A b} (v : ℕ → ℂ) {i : ℕ} (hi : i < D) (k : ℕ →₀ ℕ) :
    Fock.sq (k i + 1) * (∑ l ∈ Finset.range D, v l * Fock.sq ((up k i) l) * amp D A b 1 (dn (up k i) l)) =
      v i * amp D A b 1 k + b i * (∑ l ∈ Finset.range D, v l * Fock.sq (k l) * amp D A b 1 (dn k l)) +
        ∑ j ∈ Finset.range D, symA A i j * Fock.sq (k j) * ∑ l ∈ Finset.range D, v l * Fock.sq ((dn k j) l) * amp D A b 1 (dn (dn k j) l) := by
  have hterm : ∀ l ∈ Finset.range D, Fock.sq (k i + 1) * (v l * Fock.sq ((up k i) l) * amp D A b 1 (dn (up k i) l)) =
      (if l = i then v i * amp D A b 1 k else 0) + v l * Fock.sq (k l) *
        (b i * amp D A b 1 (dn k l) + ∑ j ∈ Finset.range D, symA A i j * Fock.sq ((dn k l) j) * amp D A b 1 (dn (dn k l) j)) := by
    intro l _
    by_cases hl : l = i
    · subst hl
      rw [if_pos rfl, dn_up_self]
      by_cases h0 : k l = 0
      · simp only [up_apply, h0, if_true, sq_zero, mul_zero, zero_mul, add_zero]
        have := sq_mul_self (0 + 1)
        push_cast at this
        linear_combination v l * amp D A b 1 k * this
      · have r := amp_up' (A := A) (b := b) 1 hi (dn k l)
        rw [up_dn h0] at r
        rw [← r]
        have e : (dn k l) l + 1 = k l := by rw [dn_apply, if_pos rfl]; omega
        rw [e]
        simp only [up_apply, if_true]
        have h1 := sq_mul_self (k l + 1)
        have h2 := sq_mul_self (k l)
        push_cast at h1
        linear_combination v l * amp D A b 1 k * h1 - v l * amp D A b 1 k * h2
    · rw [if_neg hl, dn_up_ne (Ne.symm hl)]
      have r := amp_up' (A := A) (b := b) 1 hi (dn k l)
      rw [← r]
      have e : (dn k l) i = k i := by rw [dn_apply, if_neg (Ne.symm hl)]
      rw [e]
      have e2 : (up k i) l = k l := by rw [up_apply, if_neg hl]
      rw [e2]
      ring
  rw [Finset.mul_sum, Finset.sum_congr rfl hterm, Finset.sum_add_distrib, Finset.sum_ite_eq', if_pos (Finset.mem_range.2 hi), add_assoc]
  refine congrArg (HAdd.hAdd _) ?_
  simp only [mul_add, Finset.sum_add_distrib, Finset.mul_sum]
  refine congr (congrArg HAdd.hAdd ?_) ?_
  · refine Finset.sum_congr rfl fun l _ => ?_
    ring
  · rw [Finset.sum_comm]
    refine Finset.sum_congr rfl fun j _ => Finset.sum_congr rfl fun l _ => ?_
    rw [dn_comm k l j]
    linear_combination v l * symA A i j * amp D A b 1 (dn (dn k j) l) * sq_dn_comm k l j

/-- `amp` with linear term `a + E x`. -/
noncomputable def ampLin (D : ℕ) (A : ℕ → ℕ → ℂ) (a : ℕ → ℂ) (E : ℕ → κ → ℂ) (k : ℕ →₀ ℕ) (x : κ → ℝ) : ℂ :=
  amp D A (fun j => a j + ∑ l, E j l * x l) 1 k

theorem ampLin_up {D A} (a : ℕ → ℂ) (E : ℕ → κ → ℂ) {i : ℕ} (hi : i < D) (k : ℕ →₀ ℕ) (x : κ → ℝ) :
    ampLin D A a E (up k i) x = (Fock.sq (k i + 1))⁻¹ * ((a i + ∑ l, E i l * x l) * ampLin D A a E k x +
      ∑ j ∈ Finset.range D, symA A i j * Fock.sq (k j) * ampLin D A a E (dn k j) x) := by
  have hs : Fock.sq (k i + 1) ≠ 0 := sq_ne_zero (Nat.succ_ne_zero _)
  rw [eq_inv_mul_iff_mul_eq₀ hs]
  exact amp_up' 1 hi k

theorem ampLin_prop {D : ℕ} (P : (ℕ →₀ ℕ) → Prop) (h0 : P 0)
    (hstep : ∀ i < D, ∀ k, P k → (∀ j, P (dn k j)) → P (up k i)) : ∀ k, Below D k → P k := by
  have main : ∀ n, ∀ k : ℕ →₀ ℕ, k.degree = n → Below D k → P k := by
    intro n
    induction n using Nat.strong_induction_on with
    | _ n ih =>
    intro k hk hB
    by_cases hz : k = 0
    · subst hz; exact h0
    · obtain ⟨i, hi⟩ := Finsupp.ne_iff.1 hz
      simp only [Finsupp.coe_zero, Pi.zero_apply] at hi
      have hiD : i < D := by
        by_contra h
        exact hi (hB i (by omega))
      have hup : up (dn k i) i = k := up_dn hi
      have hdeg : (dn k i).degree + 1 = n := by rw [← hk, ← hup, degree_up, hup]
      rw [← hup]
      refine hstep i hiD _ (ih _ (by omega) _ rfl (hB.dn i)) fun j => ?_
      have := degree_dn (dn k i) j
      exact ih _ (by omega) _ rfl ((hB.dn i).dn j)
  intro k; exact main _ k rfl

theorem ampLin_zero {D A} (a : ℕ → ℂ) (E : ℕ → κ → ℂ) (x : κ → ℝ) : ampLin D A a E 0 x = 1 := amp_zero ..

theorem Tame.lin (a : ℂ) (e : κ → ℂ) : Tame fun x : κ → ℝ => a + ∑ l, e l * (x l : ℂ) :=
  (Tame.const a).add (Tame.sum _ _ fun l _ => (Tame.const (e l)).mul (Tame.coord l))

theorem ampLin_tame {D A} (a : ℕ → ℂ) (E : ℕ → κ → ℂ) : ∀ k, Below D k → Tame (ampLin D A a E k) := by
  apply ampLin_prop
  · simp only [funext (ampLin_zero (D := D) (A := A) a E)]
    exact Tame.const 1
  · intro i hi k h1 h2
    rw [funext (ampLin_up (A := A) a E hi k)]
    exact (Tame.const _).mul (((Tame.lin _ _).mul h1).add (Tame.sum _ _ fun j _ => (Tame.const _).mul (h2 j)))

theorem ampLin_deriv {D A} (a : ℕ → ℂ) (E : ℕ → κ → ℂ) (l : κ) : ∀ k, Below D k → ∀ x,
    HasLineDerivAt ℝ (ampLin D A a E k) (∑ j ∈ Finset.range D, E j l * Fock.sq (k j) * ampLin D A a E (dn k j) x) x (Pi.single l 1) := by
  apply ampLin_prop
  · intro x
    have e : (∑ j ∈ Finset.range D, E j l * Fock.sq ((0 : ℕ →₀ ℕ) j) * ampLin D A a E (dn 0 j) x) = 0 := by
      refine Finset.sum_eq_zero fun j _ => ?_
      simp
    rw [e, funext (ampLin_zero (D := D) (A := A) a E)]
    unfold HasLineDerivAt
    exact hasDerivAt_const _ _
  · intro i hi k h1 h2 x
    rw [funext (ampLin_up (A := A) a E hi k)]
    have hlin : HasLineDerivAt ℝ (fun x : κ → ℝ => a i + ∑ l, E i l * (x l : ℂ)) (E i l) x (Pi.single l 1) := by
      unfold HasLineDerivAt
      have e : ∀ t : ℝ, a i + ∑ m, E i m * (((x + t • (Pi.single l 1 : κ → ℝ)) m : ℝ) : ℂ) = (a i + ∑ m, E i m * (x m : ℂ)) + (t : ℂ) * E i l := by
        intro t
        have hx : ∀ m, (((x + t • (Pi.single l 1 : κ → ℝ)) m : ℝ) : ℂ) = x m + if m = l then (t : ℂ) else 0 := by
          intro m
          by_cases hm : m = l
          · subst hm; simp
          · simp [hm]
        simp only [hx, mul_add, Finset.sum_add_distrib, mul_ite, mul_zero, Finset.sum_ite_eq', Finset.mem_univ, if_true]
        ring
      simp only [e]
      have h1 : HasDerivAt (fun t : ℝ => (t : ℂ)) 1 0 := Complex.ofRealCLM.hasDerivAt
      simpa using (h1.mul_const (E i l)).const_add (a i + ∑ m, E i m * (x m : ℂ))
    have key := appell_step (A := A) (b := fun j => a j + ∑ l, E j l * x l) (fun j => E j l) hi k
    have hs : Fock.sq (k i + 1) ≠ 0 := sq_ne_zero (Nat.succ_ne_zero _)
    have hval : (∑ j ∈ Finset.range D, E j l * Fock.sq ((up k i) j) * ampLin D A a E (dn (up k i) j) x) =
        (Fock.sq (k i + 1))⁻¹ * ((E i l * ampLin D A a E k x + (a i + ∑ l, E i l * (x l : ℂ)) *
          (∑ j ∈ Finset.range D, E j l * Fock.sq (k j) * ampLin D A a E (dn k j) x)) +
          ∑ j ∈ Finset.range D, symA A i j * Fock.sq (k j) * ∑ m ∈ Finset.range D, E m l * Fock.sq ((dn k j) m) * ampLin D A a E (dn (dn k j) m) x) := by
      rw [eq_inv_mul_iff_mul_eq₀ hs]
      exact key
    rw [hval]
    unfold HasLineDerivAt at *
    have hsum : HasDerivAt (fun t : ℝ => ∑ j ∈ Finset.range D, symA A i j * Fock.sq (k j) * ampLin D A a E (dn k j) (x + t • (Pi.single l 1 : κ → ℝ)))
        (∑ j ∈ Finset.range D, symA A i j * Fock.sq (k j) * ∑ m ∈ Finset.range D, E m l * Fock.sq ((dn k j) m) * ampLin D A a E (dn (dn k j) m) x) 0 := by
      have := HasDerivAt.fun_sum (u := Finset.range D) fun j _ => (h2 j x).const_mul (symA A i j * Fock.sq (k j))
      exact this
    have hm := hlin.mul (h1 x)
    have hfin := (hm.add hsum).const_mul ((Fock.sq (k i + 1))⁻¹)
    simp only [zero_smul, add_zero] at hfin
    exact hfin

/-- **Gaussian integral of a Hermite polynomial of a linear function.**  `W = E Q⁻¹`. -/
theorem integral_ampLin {D A} {Q : Matrix κ κ ℂ} (hs : ∀ i j, Q i j = Q j i) (h : PosRe Q) (b : κ → ℂ) (a : ℕ → ℂ) (E W : ℕ → κ → ℂ)
    (hW : ∀ i l, ∑ m, W i m * Q m l = E i l) :
    ∀ k, Below D k → ∫ x : κ → ℝ, ampLin D A a E k x * cexp (form Q b x) =
      (∫ x : κ → ℝ, cexp (form Q b x)) * amp D (fun i j => A i j + ∑ l, W i l * E j l) (fun j => a j + ∑ l, W j l * b l) 1 k := by
  intro k hk
  rw [← amp_smul]
  refine amp_unique (fun k => ∫ x : κ → ℝ, ampLin D A a E k x * cexp (form Q b x)) ?_ ?_ k hk
  · simp only [ampLin_zero, one_mul]
  · intro i hi k hk
    have ht := ampLin_tame (D := D) (A := A) a E
    have i1 := (ht k hk).integrable hs h b
    have i2 : ∀ j, Integrable fun x : κ → ℝ => ampLin D A a E (dn k j) x * cexp (form Q b x) := fun j => (ht _ (hk.dn j)).integrable hs h b
    have hlin : ∀ l, Tame fun x : κ → ℝ => ∑ j, Q l j * (x j : ℂ) := fun l => Tame.sum _ _ fun j _ => (Tame.const _).mul (Tame.coord j)
    have i3 : ∀ l, Integrable fun x : κ → ℝ => ampLin D A a E k x * (∑ j, Q l j * (x j : ℂ)) * cexp (form Q b x) :=
      fun l => ((ht k hk).mul (hlin l)).integrable hs h b
    have hst : ∀ l, ∫ x : κ → ℝ, ampLin D A a E k x * (∑ j, Q l j * x j) * cexp (form Q b x) =
        b l * (∫ x : κ → ℝ, ampLin D A a E k x * cexp (form Q b x)) +
          ∑ j ∈ Finset.range D, E j l * Fock.sq (k j) * ∫ x : κ → ℝ, ampLin D A a E (dn k j) x * cexp (form Q b x) := by
      intro l
      rw [stein hs h b l (ht k hk) (Tame.sum _ _ fun j _ => (Tame.const _).mul (ht _ (hk.dn j))) (ampLin_deriv a E l k hk)]
      refine congrArg (HAdd.hAdd _) ?_
      simp only [Finset.sum_mul]
      rw [integral_finsetSum]
      · refine Finset.sum_congr rfl fun j _ => ?_
        rw [← integral_const_mul]
        refine integral_congr_ae (Filter.Eventually.of_forall fun x => ?_)
        simp only
        ring
      · intro j _
        refine ((i2 j).const_mul (E j l * Fock.sq (k j))).congr (Filter.Eventually.of_forall fun x => ?_)
        simp only
        ring
    have hpoint : ∀ x : κ → ℝ, Fock.sq (k i + 1) * (ampLin D A a E (up k i) x * cexp (form Q b x)) =
        a i * (ampLin D A a E k x * cexp (form Q b x)) +
        (∑ l, W i l * (ampLin D A a E k x * (∑ j, Q l j * (x j : ℂ)) * cexp (form Q b x))) +
        ∑ j ∈ Finset.range D, symA A i j * Fock.sq (k j) * (ampLin D A a E (dn k j) x * cexp (form Q b x)) := by
      intro x
      have hs' : Fock.sq (k i + 1) ≠ 0 := sq_ne_zero (Nat.succ_ne_zero _)
      have hEx : ∑ l, W i l * (ampLin D A a E k x * (∑ j, Q l j * (x j : ℂ)) * cexp (form Q b x)) =
          (∑ j, E i j * (x j : ℂ)) * (ampLin D A a E k x * cexp (form Q b x)) := by
        have : ∑ j, E i j * (x j : ℂ) = ∑ l, W i l * ∑ j, Q l j * (x j : ℂ) := by
          simp only [Finset.mul_sum]
          rw [Finset.sum_comm]
          refine Finset.sum_congr rfl fun j _ => ?_
          rw [← hW i j, Finset.sum_mul]
          refine Finset.sum_congr rfl fun l _ => ?_
          ring
        rw [this, Finset.sum_mul]
        refine Finset.sum_congr rfl fun l _ => ?_
        ring
      have hS : ∑ j ∈ Finset.range D, symA A i j * Fock.sq (k j) * (ampLin D A a E (dn k j) x * cexp (form Q b x)) =
          (∑ j ∈ Finset.range D, symA A i j * Fock.sq (k j) * ampLin D A a E (dn k j) x) * cexp (form Q b x) := by
        rw [Finset.sum_mul]
        refine Finset.sum_congr rfl fun l _ => ?_
        ring
      rw [hEx, hS, ampLin_up a E hi k x]
      field_simp
    have iA : Integrable fun x : κ → ℝ => a i * (ampLin D A a E k x * cexp (form Q b x)) := i1.const_mul _
    have iB : Integrable fun x : κ → ℝ => ∑ l, W i l * (ampLin D A a E k x * (∑ j, Q l j * (x j : ℂ)) * cexp (form Q b x)) :=
      integrable_finsetSum _ fun l _ => (i3 l).const_mul _
    have iC : Integrable fun x : κ → ℝ => ∑ j ∈ Finset.range D, symA A i j * Fock.sq (k j) * (ampLin D A a E (dn k j) x * cexp (form Q b x)) :=
      integrable_finsetSum _ fun j _ => (i2 j).const_mul _
    rw [← integral_const_mul]
    simp only [hpoint]
    have iAB : Integrable fun x : κ → ℝ => a i * (ampLin D A a E k x * cexp (form Q b x)) +
        ∑ l, W i l * (ampLin D A a E k x * (∑ j, Q l j * (x j : ℂ)) * cexp (form Q b x)) := iA.add iB
    rw [integral_add iAB iC, integral_add iA iB, integral_const_mul, integral_finsetSum _ fun l _ => (i3 l).const_mul _,
      integral_finsetSum _ fun j _ => (i2 j).const_mul _]
    simp only [integral_const_mul, hst]
    have hsymW : ∀ j, ∑ l, W i l * E j l = ∑ l, W j l * E i l := by
      intro j
      have e1 : ∀ l, E j l = ∑ m, W j m * Q m l := fun l => (hW j l).symm
      have e2 : ∀ l, E i l = ∑ m, W i m * Q m l := fun l => (hW i l).symm
      simp only [e1, e2, Finset.mul_sum]
      rw [Finset.sum_comm]
      refine Finset.sum_congr rfl fun l _ => Finset.sum_congr rfl fun m _ => ?_
      rw [hs m l]; ring
    set I := fun k => ∫ x : κ → ℝ, ampLin D A a E k x * cexp (form Q b x) with hI
    have hfinal : ∀ j ∈ Finset.range D, symA (fun i j => A i j + ∑ l, W i l * E j l) i j * Fock.sq (k j) * I (dn k j) =
        symA A i j * Fock.sq (k j) * I (dn k j) + (∑ l, W i l * E j l) * (Fock.sq (k j) * I (dn k j)) := by
      intro j _
      unfold symA
      linear_combination (-1 / 2 : ℂ) * Fock.sq (k j) * I (dn k j) * hsymW j
    change a i * I k + ∑ l, W i l * (b l * I k + ∑ j ∈ Finset.range D, E j l * Fock.sq (k j) * I (dn k j)) +
      ∑ j ∈ Finset.range D, symA A i j * Fock.sq (k j) * I (dn k j) = (a i + ∑ l, W i l * b l) * I k +
        ∑ j ∈ Finset.range D, symA (fun i j => A i j + ∑ l, W i l * E j l) i j * Fock.sq (k j) * I (dn k j)
    rw [Finset.sum_congr rfl hfinal, Finset.sum_add_distrib]
    simp only [mul_add, Finset.sum_add_distrib, Finset.mul_sum, Finset.sum_mul, add_mul]
    rw [Finset.sum_comm (s := Finset.range D)]
    have e1 : ∀ l, W i l * (b l * I k) = W i l * b l * I k := fun l => by ring
    have e2 : ∀ l j, W i l * (E j l * Fock.sq (k j) * I (dn k j)) = W i l * E j l * (Fock.sq (k j) * I (dn k j)) := fun l j => by ring
    simp only [e1, e2]
    ring

end Verif.Gauss
