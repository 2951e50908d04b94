import Verif.AutoShape
import Verif.CGI
import Verif.GaussSymm

/-!
# The marginals used by the automatic Fock shapes (math/lattice/autoshape.py 107-133, property C41)
-/

namespace Verif.Auto
open Verif.Fock Verif.Gauss Verif.PolyExp MeasureTheory

/-! ## Specification -/

/-- The Bargmann function `c exp(½ xᵀ A x + bᵀ x)` of an operator on `M` modes; the first index tells bra variables from ket variables. -/
noncomputable def bargmann {M : ℕ} (A : Fin 2 → Fin M → Fin 2 → Fin M → ℂ) (b : Fin 2 → Fin M → ℂ) (c : ℂ) (x : Fin 2 → Fin M → ℂ) : ℂ :=
  c * Complex.exp (1 / 2 * (∑ i, ∑ n, ∑ j, ∑ n', A i n j n' * x i n * x j n') + ∑ i, ∑ n, b i n * x i n)

/-- The variables of mode `m` are `y`, those of every other mode are `w` and its conjugate: what a trace over these modes integrates over. -/
noncomputable def traced {M : ℕ} (m : Fin M) (y : Fin 2 → ℂ) (w : {n : Fin M // n ≠ m} → ℂ) (i : Fin 2) (n : Fin M) : ℂ :=
  if h : n = m then y i else if i = 0 then w ⟨n, h⟩ else (starRingEnd ℂ) (w ⟨n, h⟩)

/-- The partial trace over all modes but `m`, with the Gaussian measure of Bargmann space. -/
noncomputable def reduced {M : ℕ} (A : Fin 2 → Fin M → Fin 2 → Fin M → ℂ) (b : Fin 2 → Fin M → ℂ) (c : ℂ) (m : Fin M) (y : Fin 2 → ℂ) : ℂ :=
  ((Real.pi : ℂ) ^ (M - 1))⁻¹ * ∫ w : {n : Fin M // n ≠ m} → ℂ, bargmann A b c (traced m y w) * Complex.exp (-((∑ n, ‖w n‖ ^ 2 : ℝ) : ℂ))

/-- The integral over the other modes converges absolutely. -/
def Traceable {M : ℕ} (A : Fin 2 → Fin M → Fin 2 → Fin M → ℂ) (m : Fin M) : Prop :=
  ∀ w : {n : Fin M // n ≠ m} → ℂ, w ≠ 0 →
    (∑ i, ∑ n, ∑ j, ∑ n', A i n j n' * traced m 0 w i n * traced m 0 w j n').re < 2 * ∑ n, ‖w n‖ ^ 2

/-! ## Proofs -/

section
variable {M : ℕ} {m : Fin M}

/-- First the ket half, then the bra half. -/
def restEquiv (m : Fin M) : {n : Fin M // n ≠ m} ⊕ {n : Fin M // n ≠ m} ≃ Rest M m where
  toFun := Sum.elim (fun n => (0, n)) fun n => (1, n)
  invFun p := if p.1 = 0 then Sum.inl p.2 else Sum.inr p.2
  left_inv p := by rcases p with n | n <;> simp
  right_inv p := by
    obtain ⟨i, n⟩ := p
    fin_cases i <;> simp

theorem traced_m (y : Fin 2 → ℂ) (w : {n : Fin M // n ≠ m} → ℂ) (i : Fin 2) : traced m y w i m = y i := by
  simp [traced]

theorem traced_rest (y : Fin 2 → ℂ) (w : {n : Fin M // n ≠ m} → ℂ) (p : {n : Fin M // n ≠ m} ⊕ {n : Fin M // n ≠ m}) :
    traced m y w (restEquiv m p).1 (restEquiv m p).2 = pair w p := by
  rcases p with n | n
  · simp [traced, restEquiv, pair, n.2]
  · simp [traced, restEquiv, pair, n.2]

theorem sum_split (f : Fin 2 → Fin M → ℂ) :
    ∑ i, ∑ n, f i n = ∑ i, f i m + ∑ p, f (restEquiv m p).1 (restEquiv m p).2 := by
  have h : ∀ i, ∑ n, f i n = f i m + ∑ n : {n : Fin M // n ≠ m}, f i n := fun i => Fintype.sum_eq_add_sum_subtype_ne (f i) m
  simp only [h, Finset.sum_add_distrib]
  rw [Equiv.sum_comp (restEquiv m) fun p => f p.1 p.2, Fintype.sum_prod_type]

/-- The matrix of the integral. -/
noncomputable def R (A : Fin 2 → Fin M → Fin 2 → Fin M → ℂ) (m : Fin M) := (restM A m).submatrix (restEquiv m) (restEquiv m)

theorem R_symm {A : Fin 2 → Fin M → Fin 2 → Fin M → ℂ} (hs : ∀ i n j n', A i n j n' = A j n' i n) (p q) : R A m p q = R A m q p := by
  show A _ _ _ _ - (if _ then _ else _) = A _ _ _ _ - if _ then _ else _
  rw [hs]
  simp only [ne_comm, eq_comm]

theorem quad_X (w : {n : Fin M // n ≠ m} → ℂ) :
    ∑ p, ∑ q, (if (restEquiv m p).1 ≠ (restEquiv m q).1 ∧ (restEquiv m p).2 = (restEquiv m q).2 then (1 : ℂ) else 0) * pair w p * pair w q =
      2 * ((∑ n, ‖w n‖ ^ 2 : ℝ) : ℂ) := by
  simp only [Fintype.sum_sum_type]
  simp [restEquiv, pair, Finset.sum_add_distrib, Complex.mul_conj, Complex.conj_mul', Complex.normSq_eq_norm_sq]
  ring

theorem quad_R (A : Fin 2 → Fin M → Fin 2 → Fin M → ℂ) (w : {n : Fin M // n ≠ m} → ℂ) :
    ∑ p, ∑ q, R A m p q * pair w p * pair w q =
      ∑ p, ∑ q, A (restEquiv m p).1 (restEquiv m p).2 (restEquiv m q).1 (restEquiv m q).2 * pair w p * pair w q - 2 * ((∑ n, ‖w n‖ ^ 2 : ℝ) : ℂ) := by
  rw [← quad_X, ← Finset.sum_sub_distrib]
  refine Finset.sum_congr rfl fun p _ => ?_
  rw [← Finset.sum_sub_distrib]
  refine Finset.sum_congr rfl fun q _ => ?_
  show (A _ _ _ _ - if _ then _ else _) * _ * _ = _
  ring

theorem quad_split {A : Fin 2 → Fin M → Fin 2 → Fin M → ℂ} (hs : ∀ i n j n', A i n j n' = A j n' i n) (y : Fin 2 → ℂ) (w : {n : Fin M // n ≠ m} → ℂ) :
    ∑ i, ∑ n, ∑ j, ∑ n', A i n j n' * traced m y w i n * traced m y w j n' =
      ∑ i, ∑ j, A i m j m * y i * y j + 2 * ∑ p, (∑ i, y i * A i m (restEquiv m p).1 (restEquiv m p).2) * pair w p +
      ∑ p, ∑ q, A (restEquiv m p).1 (restEquiv m p).2 (restEquiv m q).1 (restEquiv m q).2 * pair w p * pair w q := by
  have h : ∀ i n, ∑ j, ∑ n', A i n j n' * traced m y w i n * traced m y w j n' =
      ∑ j, A i n j m * traced m y w i n * y j + ∑ q, A i n (restEquiv m q).1 (restEquiv m q).2 * traced m y w i n * pair w q := by
    intro i n
    rw [sum_split (m := m)]
    simp only [traced_m, traced_rest]
  simp only [h]
  rw [sum_split (m := m)]
  simp only [traced_m, traced_rest, Finset.sum_add_distrib]
  have e1 : ∑ i, ∑ q, A i m (restEquiv m q).1 (restEquiv m q).2 * y i * pair w q =
      ∑ p, (∑ i, y i * A i m (restEquiv m p).1 (restEquiv m p).2) * pair w p := by
    rw [Finset.sum_comm]
    refine Finset.sum_congr rfl fun p _ => ?_
    rw [Finset.sum_mul]
    refine Finset.sum_congr rfl fun i _ => ?_
    ring
  have e2 : ∑ p, ∑ j, A (restEquiv m p).1 (restEquiv m p).2 j m * pair w p * y j =
      ∑ p, (∑ i, y i * A i m (restEquiv m p).1 (restEquiv m p).2) * pair w p := by
    refine Finset.sum_congr rfl fun p _ => ?_
    rw [Finset.sum_mul]
    refine Finset.sum_congr rfl fun i _ => ?_
    rw [hs]
    ring
  rw [e1, e2]
  ring

theorem negRe_R {A : Fin 2 → Fin M → Fin 2 → Fin M → ℂ} (hs : ∀ i n j n', A i n j n' = A j n' i n) (ht : Traceable A m) : NegRe (R A m) := by
  intro w hw
  have h := ht w hw
  rw [quad_split hs] at h
  simp only [Pi.zero_apply, mul_zero, zero_mul, Finset.sum_const_zero, zero_add] at h
  rw [quad_R, Complex.sub_re]
  have : (2 * ((∑ n, ‖w n‖ ^ 2 : ℝ) : ℂ)).re = 2 * ∑ n, ‖w n‖ ^ 2 := by
    rw [show (2 : ℂ) = ((2 : ℝ) : ℂ) by norm_num, ← Complex.ofReal_mul, Complex.ofReal_re]
  rw [this]
  linarith

/-- The linear coefficients of the integral. -/
noncomputable def bY (A : Fin 2 → Fin M → Fin 2 → Fin M → ℂ) (b : Fin 2 → Fin M → ℂ) (m : Fin M) (y : Fin 2 → ℂ)
    (p : {n : Fin M // n ≠ m} ⊕ {n : Fin M // n ≠ m}) : ℂ :=
  b (restEquiv m p).1 (restEquiv m p).2 + ∑ i, y i * A i m (restEquiv m p).1 (restEquiv m p).2

theorem exponent_split {A : Fin 2 → Fin M → Fin 2 → Fin M → ℂ} (hs : ∀ i n j n', A i n j n' = A j n' i n) (b : Fin 2 → Fin M → ℂ) (y : Fin 2 → ℂ)
    (w : {n : Fin M // n ≠ m} → ℂ) :
    1 / 2 * (∑ i, ∑ n, ∑ j, ∑ n', A i n j n' * traced m y w i n * traced m y w j n') + ∑ i, ∑ n, b i n * traced m y w i n
      - ((∑ n, ‖w n‖ ^ 2 : ℝ) : ℂ) =
    (1 / 2 * (∑ i, ∑ j, A i m j m * y i * y j) + ∑ i, b i m * y i) + cform (R A m) (bY A b m y) w := by
  rw [quad_split hs, sum_split (m := m) fun i n => b i n * traced m y w i n]
  simp only [traced_m, traced_rest]
  unfold cform bY
  rw [quad_R]
  simp only [add_mul, Finset.sum_add_distrib]
  ring

theorem invB_smul_left {κ : Type*} [Fintype κ] [DecidableEq κ] (N : Matrix κ κ ℂ) (t : ℂ) (u v : κ → ℂ) :
    invB N (fun p => t * u p) v = t * invB N u v := by
  rw [← invB_eq_sum, ← invB_eq_sum, Finset.mul_sum]
  refine Finset.sum_congr rfl fun p _ => ?_
  rw [Finset.mul_sum]
  refine Finset.sum_congr rfl fun q _ => ?_
  ring

theorem invB_R (A : Fin 2 → Fin M → Fin 2 → Fin M → ℂ) (u v : Rest M m → ℂ) :
    ∑ p, ∑ q, u p * (restM A m)⁻¹ p q * v q = invB (R A m) (fun p => u (restEquiv m p)) fun p => v (restEquiv m p) := by
  rw [← invB_eq_sum, R, Matrix.inv_submatrix_equiv, ← Equiv.sum_comp (restEquiv m)]
  refine Finset.sum_congr rfl fun p _ => ?_
  rw [← Equiv.sum_comp (restEquiv m)]
  rfl

/-- **C41**: up to a phase, which the probabilities do not depend on, the one-mode triple computed for mode `m` is the partial trace over all
other modes. -/
theorem C41_marginal {A : Fin 2 → Fin M → Fin 2 → Fin M → ℂ} (hs : ∀ i n j n', A i n j n' = A j n' i n) (b : Fin 2 → Fin M → ℂ) (c : ℂ)
    (m : Fin M) (ht : Traceable A m) :
    ∃ ε : ℂ, ‖ε‖ = 1 ∧ ∀ y : Fin 2 → ℂ,
      (marginal A b c m).c * Complex.exp (1 / 2 * (∑ i : Fin 2, ∑ j : Fin 2, (marginal A b c m).A i j * y i * y j)
        + ∑ i : Fin 2, (marginal A b c m).b i * y i) = ε * reduced A b c m y := by
  have hR := R_symm (m := m) hs
  have hN := negRe_R hs ht
  have hcard : Fintype.card {n : Fin M // n ≠ m} = M - 1 := by simp
  have hsq := gaussConst_sq hR hN
  have hdet : (R A m).det = (restM A m).det := Matrix.det_submatrix_equiv_self _ _
  have hg0 := gaussConst_ne hR hN
  have hd0 := det_ne_zero_of_negRe hR hN
  rw [hdet] at hsq hd0
  have hr : ((restM A m).det ^ (1 / 2 : ℂ)) ^ 2 = (restM A m).det := by
    rw [← Complex.cpow_nat_mul]; norm_num
  have hr0 : (restM A m).det ^ (1 / 2 : ℂ) ≠ 0 := by
    intro h; rw [h, zero_pow (by norm_num)] at hr; exact hd0 hr.symm
  refine ⟨((restM A m).det ^ (1 / 2 : ℂ))⁻¹ / gaussConst (R A m), ?_, fun y => ?_⟩
  · have h2 : ‖((restM A m).det ^ (1 / 2 : ℂ))⁻¹ / gaussConst (R A m)‖ ^ 2 = 1 := by
      rw [← norm_pow, div_pow, inv_pow, hr, hsq, norm_div, norm_div, norm_pow, norm_neg, norm_one, one_pow, norm_inv, one_div, div_self]
      exact inv_ne_zero (norm_ne_zero_iff.2 hd0)
    nlinarith [norm_nonneg (((restM A m).det ^ (1 / 2 : ℂ))⁻¹ / gaussConst (R A m))]
  · have hint : reduced A b c m y = c * Complex.exp (1 / 2 * (∑ i, ∑ j, A i m j m * y i * y j) + ∑ i, b i m * y i) *
        (gaussConst (R A m) * Complex.exp (-(1 / 2) * invB (R A m) (bY A b m y) (bY A b m y))) := by
      have h := integral_complex hR hN (bY A b m y) (D := 0) (fun _ _ => 0) (fun _ => 0) (fun _ _ => 0) 0 (fun _ _ => rfl)
      simp only [amp_zero, one_mul, mul_one] at h
      rw [hcard] at h
      unfold invB
      rw [← h]
      unfold reduced bargmann
      rw [mul_left_comm (c * _)]
      rw [← integral_const_mul (c * _)]
      refine congrArg (((Real.pi : ℂ) ^ (M - 1))⁻¹ * ·) (integral_congr_ae (Filter.Eventually.of_forall fun w => ?_))
      dsimp only
      rw [mul_assoc, mul_assoc, ← Complex.exp_add, ← Complex.exp_add, ← exponent_split hs, sub_eq_add_neg]
    rw [hint]
    have hA : ∀ i j : Fin 2, (marginal A b c m).A i j = A i m j m - invB (R A m) (fun p => A i m (restEquiv m p).1 (restEquiv m p).2)
        fun p => A j m (restEquiv m p).1 (restEquiv m p).2 := by
      intro i j
      simp only [marginal]
      rw [dif_pos ⟨i.2, j.2⟩]
      exact congrArg _ (invB_R A (fun p => A i m p.1 p.2) fun p => A j m p.1 p.2)
    have hb : ∀ i : Fin 2, (marginal A b c m).b i = b i m - invB (R A m) (fun p => A i m (restEquiv m p).1 (restEquiv m p).2)
        fun p => b (restEquiv m p).1 (restEquiv m p).2 := by
      intro i
      simp only [marginal]
      rw [dif_pos i.2]
      exact congrArg _ (invB_R A (fun p => A i m p.1 p.2) fun p => b p.1 p.2)
    have hc : (marginal A b c m).c = c * Complex.exp (-(1 / 2) * invB (R A m) (fun p => b (restEquiv m p).1 (restEquiv m p).2)
        fun p => b (restEquiv m p).1 (restEquiv m p).2) / (restM A m).det ^ (1 / 2 : ℂ) := by
      simp only [marginal]
      rw [← invB_R A (fun p => b p.1 p.2) fun p => b p.1 p.2]
    have hY : invB (R A m) (bY A b m y) (bY A b m y) =
        invB (R A m) (fun p => b (restEquiv m p).1 (restEquiv m p).2) (fun p => b (restEquiv m p).1 (restEquiv m p).2)
        + 2 * ∑ i, y i * invB (R A m) (fun p => A i m (restEquiv m p).1 (restEquiv m p).2) (fun p => b (restEquiv m p).1 (restEquiv m p).2)
        + ∑ i, ∑ j, invB (R A m) (fun p => A i m (restEquiv m p).1 (restEquiv m p).2) (fun p => A j m (restEquiv m p).1 (restEquiv m p).2) * y i * y j := by
      have e : bY A b m y = fun p => b (restEquiv m p).1 (restEquiv m p).2 +
          (y 0 * A 0 m (restEquiv m p).1 (restEquiv m p).2 + y 1 * A 1 m (restEquiv m p).1 (restEquiv m p).2) := by
        funext p; unfold bY; rw [Fin.sum_univ_two]
      have sr : ∀ (t : ℂ) (u v), invB (R A m) u (fun p => t * v p) = t * invB (R A m) u v := fun t u v => by
        rw [invB_comm hR, invB_smul_left, invB_comm hR]
      rw [e]
      simp only [Fin.sum_univ_two]
      simp only [invB_add_left, invB_add_right, invB_smul_left, sr]
      rw [invB_comm hR (fun p => b (restEquiv m p).1 (restEquiv m p).2) fun p => A 0 m (restEquiv m p).1 (restEquiv m p).2,
        invB_comm hR (fun p => b (restEquiv m p).1 (restEquiv m p).2) fun p => A 1 m (restEquiv m p).1 (restEquiv m p).2]
      ring
    rw [hY]
    simp only [hA, hb, hc]
    have e : ∀ g r e1 e2 e3 e4 : ℂ, g ≠ 0 → r ≠ 0 → e1 + e2 = e3 + e4 →
        c * Complex.exp e1 / r * Complex.exp e2 = r⁻¹ / g * (c * Complex.exp e3 * (g * Complex.exp e4)) := by
      intro g r e1 e2 e3 e4 hg hr h
      have : Complex.exp e1 * Complex.exp e2 = Complex.exp e3 * Complex.exp e4 := by rw [← Complex.exp_add, h, Complex.exp_add]
      field_simp
      linear_combination c * this
    refine e _ _ _ _ _ _ hg0 hr0 ?_
    simp only [Fin.sum_univ_two]
    ring

end

/-! ## Example: two correlated thermal modes -/

/-- Every mode has a thermal exponent, and the modes are correlated. -/
noncomputable def exA (i : Fin 2) (n : Fin 2) (j : Fin 2) (n' : Fin 2) : ℂ := if i = j then 0 else if n = n' then 1 / 2 else 1 / 4

theorem exA_symm (i n j n' : Fin 2) : exA i n j n' = exA j n' i n := by
  unfold exA; simp only [eq_comm]

theorem ex_one (n : {n : Fin 2 // n ≠ 0}) : n.1 = (⟨1, by decide⟩ : {n : Fin 2 // n ≠ 0}).1 := by
  obtain ⟨n, hn⟩ := n
  show n = 1
  omega

theorem exA_traceable : Traceable exA 0 := by
  intro w hw
  have h1 : w ⟨1, by decide⟩ ≠ 0 := by
    intro h
    apply hw
    funext n
    obtain ⟨n, hn⟩ := n
    have : n = 1 := by omega
    subst this
    exact h
  have e : ∑ n, ‖w n‖ ^ 2 = ‖w ⟨1, by decide⟩‖ ^ 2 := by
    refine Fintype.sum_eq_single _ fun n hn => ?_
    exact absurd (Subtype.ext (ex_one n)) hn
  rw [e, quad_split exA_symm]
  simp only [Pi.zero_apply, mul_zero, zero_mul, Finset.sum_const_zero, zero_add]
  have q : ∑ p, ∑ q, exA (restEquiv 0 p).1 (restEquiv 0 p).2 (restEquiv 0 q).1 (restEquiv 0 q).2 * pair w p * pair w q =
      ((‖w ⟨1, by decide⟩‖ ^ 2 : ℝ) : ℂ) := by
    have u : ∀ f : {n : Fin 2 // n ≠ 0} → ℂ, ∑ n, f n = f ⟨1, by decide⟩ := fun f =>
      Fintype.sum_eq_single _ fun n hn => absurd (Subtype.ext (ex_one n)) hn
    simp only [Fintype.sum_sum_type, u]
    simp [restEquiv, pair, exA]
    rw [mul_assoc, mul_assoc, Complex.mul_conj, Complex.conj_mul', Complex.normSq_eq_norm_sq]
    push_cast
    ring
  rw [q, Complex.ofReal_re]
  have : 0 < ‖w ⟨1, by decide⟩‖ := norm_pos_iff.2 h1
  nlinarith

example (b : Fin 2 → Fin 2 → ℂ) := C41_marginal exA_symm b 1 0 exA_traceable

end Verif.Auto
