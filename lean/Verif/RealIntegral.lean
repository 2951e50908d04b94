import Verif.CGI
import Verif.QuadSign

/-!
# Real Gaussian integrals and the fusion of triples in real variables (C103)
-/

namespace Verif.RealInt
open Verif.PolyExp Verif.Gauss MeasureTheory

/-! ## The code -/

/-- A triple `(A, b, c)` in `n` variables with a scalar `c`, not batched. -/
structure Tri where
  n : ℕ
  A : ℕ → ℕ → ℂ
  b : ℕ → ℂ
  c : ℂ

/-- `not_idx` (physics/gaussian_integrals.py 57, 118-119). -/
def notIdx (n : ℕ) (idx : List ℕ) : List ℕ := (List.range n).filter (· ∉ idx)

/-- `M` (physics/gaussian_integrals.py 61). -/
def subM (A : ℕ → ℕ → ℂ) (idx : List ℕ) : Matrix (Fin idx.length) (Fin idx.length) ℂ := fun p q => A (idx.getD p 0) (idx.getD q 0)

/-- The returned triple of `real_gaussian_integral` (physics/gaussian_integrals.py 61-83); `L = D M⁻¹`. -/
noncomputable def integrated (t : Tri) (idx : List ℕ) : Tri where
  n := (notIdx t.n idx).length
  A x y := t.A ((notIdx t.n idx).getD x 0) ((notIdx t.n idx).getD y 0) -
    ∑ p : Fin idx.length, ∑ q : Fin idx.length, t.A ((notIdx t.n idx).getD x 0) (idx.getD p 0) * (subM t.A idx)⁻¹ p q * t.A ((notIdx t.n idx).getD y 0) (idx.getD q 0)
  b x := t.b ((notIdx t.n idx).getD x 0) -
    ∑ p : Fin idx.length, ∑ q : Fin idx.length, t.A ((notIdx t.n idx).getD x 0) (idx.getD p 0) * (subM t.A idx)⁻¹ p q * t.b (idx.getD q 0)
  c := t.c * ((2 * Real.pi : ℂ) ^ idx.length) ^ (1 / 2 : ℂ) * ((-1) ^ idx.length / (subM t.A idx).det) ^ (1 / 2 : ℂ) *
    Complex.exp (-(1 / 2) * ∑ p : Fin idx.length, t.b (idx.getD p 0) * ((subM t.A idx)⁻¹.mulVec fun q => t.b (idx.getD q 0)) p)

open Classical in
/-- `real_gaussian_integral` (physics/gaussian_integrals.py 28-83).  `math.solve` raises for a singular matrix. -/
noncomputable def realGaussianIntegral (t : Tri) (idx : List ℕ) : Option Tri :=
  if idx = [] then some t else if (subM t.A idx).det = 0 then none else some (integrated t idx)

/-! ## Specification -/

/-- The function `c exp(½ xᵀ A x + bᵀ x)`. -/
noncomputable def Tri.eval (t : Tri) (x : ℕ → ℂ) : ℂ :=
  t.c * Complex.exp (1 / 2 * ∑ i ∈ Finset.range t.n, ∑ j ∈ Finset.range t.n, t.A i j * x i * x j + ∑ i ∈ Finset.range t.n, t.b i * x i)

/-- `A` is symmetric. -/
def Tri.Sym (t : Tri) : Prop := ∀ i < t.n, ∀ j < t.n, t.A i j = t.A j i

/-- The real part of the quadratic form is negative definite in the integrated variables, so that the integral converges. -/
def Tri.Conv (t : Tri) (idx : List ℕ) : Prop :=
  ∀ w : Fin idx.length → ℝ, w ≠ 0 → (∑ p : Fin idx.length, ∑ q : Fin idx.length, t.A (idx.getD p 0) (idx.getD q 0) * w p * w q).re < 0

/-! ## Proofs -/

theorem sum_split' {n : ℕ} {idx : List ℕ} (hn : idx.Nodup) (hlt : ∀ i ∈ idx, i < n) (F : ℕ → ℂ) :
    ∑ i ∈ Finset.range n, F i = ∑ p : Fin idx.length, F (idx.getD p 0) + ∑ x ∈ Finset.range (notIdx n idx).length, F ((notIdx n idx).getD x 0) := by
  rw [sum_getD, ← Finset.sum_range (fun p => F (idx.getD p 0)), sum_getD, ← List.sum_append, ← List.map_append]
  exact (sum_perm (perm_split hn hlt) F).symm

theorem getD_mem {l : List ℕ} {p : ℕ} (h : p < l.length) : l.getD p 0 ∈ l := by
  rw [List.getD_eq_getElem?_getD, List.getElem?_eq_getElem h]
  exact List.getElem_mem h

theorem notIdx_lt {n : ℕ} {idx : List ℕ} {x : ℕ} (h : x < (notIdx n idx).length) : (notIdx n idx).getD x 0 < n := by
  have := getD_mem h
  unfold notIdx at this ⊢
  exact List.mem_range.1 (List.mem_filter.1 this).1

/-- A square root with non-negative real part. -/
theorem root_unique {V K : ℂ} (h : V ^ 2 = K ^ 2) (hV : 0 < V.re) (hK : 0 ≤ K.re) : K = V := by
  rcases sq_eq_sq_iff_eq_or_eq_neg.1 h with h | h
  · exact h.symm
  · rw [h, Complex.neg_re] at hV
    linarith

theorem sqrt_re (z : ℂ) : 0 ≤ (z ^ (1 / 2 : ℂ)).re := by
  by_cases hz : z = 0
  · rw [hz, Complex.zero_cpow (by norm_num)]
    exact le_refl _
  · rw [Complex.cpow_def_of_ne_zero hz, Complex.exp_re]
    refine mul_nonneg (Real.exp_pos _).le (Real.cos_nonneg_of_neg_pi_div_two_le_of_le ?_ ?_)
    · have := Complex.neg_pi_lt_arg z
      rw [show (1 / 2 : ℂ) = ((1 / 2 : ℝ) : ℂ) by norm_num, mul_comm, Complex.im_ofReal_mul, Complex.log_im]
      linarith
    · have := Complex.arg_le_pi z
      rw [show (1 / 2 : ℂ) = ((1 / 2 : ℝ) : ℂ) by norm_num, mul_comm, Complex.im_ofReal_mul, Complex.log_im]
      linarith

/-- The exponent, split into integrated and remaining variables. -/
theorem exponent_eq {t : Tri} (hs : t.Sym) {idx : List ℕ} (hn : idx.Nodup) (hlt : ∀ i ∈ idx, i < t.n) (w : Fin idx.length → ℝ) (y x : ℕ → ℂ)
    (hw : ∀ p : Fin idx.length, x (idx.getD p 0) = w p) (hy : ∀ j < (notIdx t.n idx).length, x ((notIdx t.n idx).getD j 0) = y j) :
    1 / 2 * ∑ i ∈ Finset.range t.n, ∑ j ∈ Finset.range t.n, t.A i j * x i * x j + ∑ i ∈ Finset.range t.n, t.b i * x i =
      form (-(subM t.A idx)) (fun p => t.b (idx.getD p 0) + ∑ j ∈ Finset.range (notIdx t.n idx).length, y j * t.A ((notIdx t.n idx).getD j 0) (idx.getD p 0)) w +
      (1 / 2 * ∑ i ∈ Finset.range (notIdx t.n idx).length, ∑ j ∈ Finset.range (notIdx t.n idx).length, t.A ((notIdx t.n idx).getD i 0) ((notIdx t.n idx).getD j 0) * y i * y j +
        ∑ i ∈ Finset.range (notIdx t.n idx).length, t.b ((notIdx t.n idx).getD i 0) * y i) := by
  obtain ⟨ni, hni⟩ : ∃ ni, ni = notIdx t.n idx := ⟨_, rfl⟩
  have hsp : ∀ F : ℕ → ℂ, ∑ i ∈ Finset.range t.n, F i = ∑ p : Fin idx.length, F (idx.getD p 0) + ∑ x ∈ Finset.range ni.length, F (ni.getD x 0) := by
    rw [hni]
    exact sum_split' hn hlt
  rw [← hni] at hy ⊢
  have hlt' : ∀ j ∈ Finset.range ni.length, ni.getD j 0 < t.n := fun j hj => by
    rw [hni] at hj ⊢
    exact notIdx_lt (Finset.mem_range.1 hj)
  have hsum : ∀ G : ℕ → ℂ → ℂ, ∑ j ∈ Finset.range ni.length, G j (x (ni.getD j 0)) = ∑ j ∈ Finset.range ni.length, G j (y j) := fun G =>
    Finset.sum_congr rfl fun j hj => by rw [hy j (Finset.mem_range.1 hj)]
  rw [hsp fun i => ∑ j ∈ Finset.range t.n, t.A i j * x i * x j, hsp fun i => t.b i * x i]
  have hin : ∀ i, ∑ j ∈ Finset.range t.n, t.A i j * x i * x j = ∑ p : Fin idx.length, t.A i (idx.getD p 0) * x i * x (idx.getD p 0) +
      ∑ j ∈ Finset.range ni.length, t.A i (ni.getD j 0) * x i * x (ni.getD j 0) := fun i => hsp fun j => t.A i j * x i * x j
  simp only [hin]
  simp only [hw]
  rw [hsum fun j v => t.b (ni.getD j 0) * v]
  have e1 : ∀ p : Fin idx.length, ∑ j ∈ Finset.range ni.length, t.A (idx.getD p 0) (ni.getD j 0) * (w p : ℂ) * x (ni.getD j 0) =
      ∑ j ∈ Finset.range ni.length, y j * t.A (ni.getD j 0) (idx.getD p 0) * w p := fun p =>
    Finset.sum_congr rfl fun j hj => by
      rw [hy j (Finset.mem_range.1 hj), hs _ (hlt _ (getD_mem p.2)) _ (hlt' j hj)]
      ring
  have e2 : ∑ j ∈ Finset.range ni.length, (∑ p : Fin idx.length, t.A (ni.getD j 0) (idx.getD p 0) * x (ni.getD j 0) * (w p : ℂ) +
        ∑ k ∈ Finset.range ni.length, t.A (ni.getD j 0) (ni.getD k 0) * x (ni.getD j 0) * x (ni.getD k 0)) =
      ∑ p : Fin idx.length, ∑ j ∈ Finset.range ni.length, y j * t.A (ni.getD j 0) (idx.getD p 0) * w p +
        ∑ j ∈ Finset.range ni.length, ∑ k ∈ Finset.range ni.length, t.A (ni.getD j 0) (ni.getD k 0) * y j * y k := by
    rw [Finset.sum_add_distrib]
    refine congrArg₂ (· + ·) ?_ ?_
    · rw [Finset.sum_comm]
      refine Finset.sum_congr rfl fun p _ => Finset.sum_congr rfl fun j hj => ?_
      rw [hy j (Finset.mem_range.1 hj)]
      ring
    · refine Finset.sum_congr rfl fun j hj => Finset.sum_congr rfl fun k hk => ?_
      rw [hy j (Finset.mem_range.1 hj), hy k (Finset.mem_range.1 hk)]
  rw [e2]
  have hMe : ∀ p r : Fin idx.length, (-(subM t.A idx)) p r = -t.A (idx.getD p 0) (idx.getD r 0) := fun _ _ => rfl
  unfold form
  simp only [e1, hMe, Finset.sum_add_distrib, add_mul, Finset.sum_mul, neg_mul, Finset.sum_neg_distrib]
  ring

theorem Tri.Conv.pos {t : Tri} {idx : List ℕ} (h : t.Conv idx) : PosRe (-(subM t.A idx)) := by
  intro w hw
  have := h w hw
  have hMe : ∀ p r : Fin idx.length, (-(subM t.A idx)) p r = -t.A (idx.getD p 0) (idx.getD r 0) := fun _ _ => rfl
  simp only [hMe, neg_mul, Finset.sum_neg_distrib, Complex.neg_re]
  linarith

/-- **C103 (integral)** For a symmetric `A` and a convergent integral `real_gaussian_integral` returns, and the returned triple, at every point of the remaining variables, is the integral of
the given one over the variables `idx`, up to a sign `ε` that does not depend on the point.  The sign is `+` for real matrices, and for at most two integrated variables. -/
theorem C103_integral (t : Tri) (hs : t.Sym) (idx : List ℕ) (h0 : idx ≠ []) (hn : idx.Nodup) (hlt : ∀ i ∈ idx, i < t.n) (hconv : t.Conv idx) :
    ∃ r ε, realGaussianIntegral t idx = some r ∧ (ε = 1 ∨ ε = -1) ∧ (idx.length ≤ 2 → ε = 1) ∧
      ((∀ i ∈ idx, ∀ j ∈ idx, (t.A i j).im = 0) → ε = (1 : ℂ)) ∧ r.n = (notIdx t.n idx).length ∧
      ∀ (y : ℕ → ℂ) (x : (Fin idx.length → ℝ) → ℕ → ℂ), (∀ w, ∀ p : Fin idx.length, x w (idx.getD p 0) = w p) →
        (∀ w, ∀ j < (notIdx t.n idx).length, x w ((notIdx t.n idx).getD j 0) = y j) → ∫ w : Fin idx.length → ℝ, t.eval (x w) = ε * r.eval y := by
  obtain ⟨M, hM⟩ : ∃ M, M = subM t.A idx := ⟨_, rfl⟩
  have hMs : ∀ p q, M p q = M q p := fun p q => by
    rw [hM]
    exact hs _ (hlt _ (getD_mem p.2)) _ (hlt _ (getD_mem q.2))
  have hp : PosRe (-M) := hM ▸ hconv.pos
  obtain ⟨q, hq, hqd, hi⟩ := integral_form (Q := -M) (fun p q => by rw [Matrix.neg_apply, Matrix.neg_apply, hMs]) hp
  have hcard : Fintype.card (Fin idx.length) = idx.length := Fintype.card_fin _
  have hdet : (-M).det = (-1) ^ idx.length * M.det := by rw [Matrix.det_neg, hcard]
  have hd : M.det ≠ 0 := by
    intro e
    rw [hdet, e, mul_zero, Finset.prod_eq_zero_iff] at hqd
    obtain ⟨i, _, h⟩ := hqd
    have := hq i
    rw [h] at this
    simp at this
  obtain ⟨V, hV⟩ : ∃ V : ℂ, V = ∏ i, (2 * Real.pi / q i) ^ (1 / 2 : ℂ) := ⟨_, rfl⟩
  obtain ⟨K, hK⟩ : ∃ K : ℂ, K = ((2 * Real.pi : ℂ) ^ idx.length) ^ (1 / 2 : ℂ) * ((-1) ^ idx.length / M.det) ^ (1 / 2 : ℂ) := ⟨_, rfl⟩
  have hVK : V ^ 2 = K ^ 2 := by
    rw [hV, hK, sqrt_prod_sq, mul_pow (_ ^ (1 / 2 : ℂ)), Verif.Gauss.sqrt_sq, Verif.Gauss.sqrt_sq, hqd, hdet, hcard]
    have : ((-1 : ℂ) ^ idx.length) * (-1) ^ idx.length = 1 := by rw [← mul_pow]; norm_num
    have h1 : ((-1 : ℂ) ^ idx.length) ≠ 0 := pow_ne_zero _ (by norm_num)
    field_simp
    rw [pow_two, this]
  have hV0 : V ≠ 0 := by
    intro e
    rw [e] at hVK
    have h1 : K ^ 2 = 0 := by rw [← hVK]; norm_num
    rw [hK, mul_pow, Verif.Gauss.sqrt_sq, Verif.Gauss.sqrt_sq] at h1
    have h2 : ((2 * Real.pi : ℂ) ^ idx.length) ≠ 0 := pow_ne_zero _ (by simp [Real.pi_ne_zero])
    have h3 : ((-1 : ℂ) ^ idx.length) ≠ 0 := pow_ne_zero _ (by norm_num)
    exact (mul_ne_zero h2 (div_ne_zero h3 hd)) h1
  have hKre : 0 ≤ K.re := by
    have e : ((2 * Real.pi : ℂ) ^ idx.length) ^ (1 / 2 : ℂ) = ((((2 * Real.pi) ^ idx.length) ^ (1 / 2 : ℝ) : ℝ) : ℂ) := by
      rw [Complex.ofReal_cpow (by positivity)]
      push_cast
      rfl
    rw [hK, e, Complex.re_ofReal_mul]
    exact mul_nonneg (by positivity) (sqrt_re _)
  have hroot : 0 < V.re → K = V := fun h => root_unique hVK h hKre
  obtain ⟨ε, hε, hεK⟩ : ∃ ε : ℂ, (ε = 1 ∨ ε = -1) ∧ (V = ε * K ∧ (0 < V.re → ε = 1)) := by
    by_cases h : K = V
    · exact ⟨1, Or.inl rfl, by rw [h, one_mul], fun _ => rfl⟩
    · rcases sq_eq_sq_iff_eq_or_eq_neg.1 hVK with h1 | h1
      · exact absurd h1.symm h
      · exact ⟨-1, Or.inr rfl, by rw [h1]; ring, fun h2 => absurd (hroot h2) h⟩
  obtain ⟨ni, hni⟩ : ∃ ni, ni = notIdx t.n idx := ⟨_, rfl⟩
  obtain ⟨bM, hbM⟩ : ∃ bM : Fin idx.length → ℂ, bM = fun p : Fin idx.length => t.b (idx.getD p 0) := ⟨_, rfl⟩
  obtain ⟨D, hD⟩ : ∃ D : ℕ → Fin idx.length → ℂ, D = fun j (p : Fin idx.length) => t.A (ni.getD j 0) (idx.getD p 0) := ⟨_, rfl⟩
  refine ⟨integrated t idx, ε, ?_, hε, ?_, ?_, ?_, ?_⟩
  · exact (if_neg h0).trans (if_neg (hM ▸ hd))
  · intro h2
    refine hεK.2 ?_
    have hc : ∀ i, |((2 * Real.pi / q i) ^ (1 / 2 : ℂ)).im| < ((2 * Real.pi / q i) ^ (1 / 2 : ℂ)).re := fun i => by
      refine sqrt_cone ?_
      rw [show (2 * Real.pi / q i : ℂ) = ((2 * Real.pi : ℝ) : ℂ) * (q i)⁻¹ by push_cast; rw [div_eq_mul_inv], Complex.re_ofReal_mul, Complex.inv_re]
      have h3 := hq i
      have : 0 < Complex.normSq (q i) := Complex.normSq_pos.2 fun e => by rw [e] at h3; simp at h3
      have := Real.pi_pos
      positivity
    rw [hV]
    generalize hgen : (fun i => (2 * Real.pi / q i : ℂ) ^ (1 / 2 : ℂ)) = s at hc ⊢
    have hc' : ∀ i, |(s i).im| < (s i).re := fun i => by
      rw [← hgen]
      exact hc i
    clear hgen hc
    have h3 : Fintype.card (Fin idx.length) ≤ 2 := by omega
    generalize Fintype.card (Fin idx.length) = m at s hc' h3
    interval_cases m
    · simp
    · rw [Fin.prod_univ_one]
      exact (abs_nonneg _).trans_lt (hc' 0)
    · rw [Fin.prod_univ_two, Complex.mul_re]
      have h4 := hc' 0
      have h5 := hc' 1
      have h6 : (s 0).im * (s 1).im ≤ |(s 0).im| * |(s 1).im| := by rw [← abs_mul]; exact le_abs_self _
      have h7 : |(s 0).im| * |(s 1).im| < (s 0).re * (s 1).re := mul_lt_mul'' h4 h5 (abs_nonneg _) (abs_nonneg _)
      linarith
  · intro hre
    refine hεK.2 ?_
    have hb := hi 0 0 (by simp)
    simp only [Pi.zero_apply, zero_mul, Finset.sum_const_zero, mul_zero, Complex.exp_zero, mul_one] at hb
    rw [← hV] at hb
    have hr : ∀ w : Fin idx.length → ℝ, form (-M) 0 w = ((form (-M) 0 w).re : ℂ) := fun w => by
      have e : ∀ p r, M p r = ((M p r).re : ℂ) := fun p r => by
        refine Complex.ext rfl ?_
        rw [Complex.ofReal_im, hM]
        exact hre _ (getD_mem p.2) _ (getD_mem r.2)
      have e2 : form (-M) 0 w = ((-(1 / 2) * ∑ p, ∑ r, -(M p r).re * w p * w r : ℝ) : ℂ) := by
        unfold form
        push_cast
        simp only [Matrix.neg_apply, Pi.zero_apply, zero_mul, Finset.sum_const_zero, add_zero, ← e]
      rw [e2, Complex.ofReal_re]
    have hb' : V = ((∫ w : Fin idx.length → ℝ, Real.exp (form (-M) 0 w).re : ℝ) : ℂ) := by
      rw [← hb, ← integral_complex_ofReal]
      refine integral_congr_ae (Filter.Eventually.of_forall fun w => ?_)
      dsimp only
      rw [Complex.ofReal_exp, ← hr]
    have h1 : 0 ≤ V.re := by
      rw [hb', Complex.ofReal_re]
      exact integral_nonneg fun w => (Real.exp_pos _).le
    refine lt_of_le_of_ne h1 fun e => hV0 ?_
    refine Complex.ext e.symm ?_
    rw [hb', Complex.ofReal_im]
    rfl
  · rfl
  · intro y x hx hy
    have hexp : ∀ w, t.eval (x w) = t.c * Complex.exp (1 / 2 * ∑ i ∈ Finset.range ni.length, ∑ j ∈ Finset.range ni.length, t.A (ni.getD i 0) (ni.getD j 0) * y i * y j +
        ∑ i ∈ Finset.range ni.length, t.b (ni.getD i 0) * y i) * Complex.exp (form (-M) (fun p => bM p + ∑ j ∈ Finset.range ni.length, y j * D j p) w) := by
      intro w
      unfold Tri.eval
      rw [exponent_eq hs hn hlt w y (x w) (hx w) (hy w), hM, hbM, hD, hni, Complex.exp_add]
      ring
    simp only [hexp]
    rw [integral_const_mul, hi _ (fun p => -(M⁻¹.mulVec fun p => bM p + ∑ j ∈ Finset.range ni.length, y j * D j p) p)]
    · rw [← hV, hεK.1]
      have e1 : ∑ p, (bM p + ∑ j ∈ Finset.range ni.length, y j * D j p) * -(M⁻¹.mulVec fun p => bM p + ∑ j ∈ Finset.range ni.length, y j * D j p) p =
          -(invB M bM bM + 2 * ∑ j ∈ Finset.range ni.length, y j * invB M (D j) bM + ∑ j ∈ Finset.range ni.length, ∑ k ∈ Finset.range ni.length, y j * (y k * invB M (D j) (D k))) := by
        simp only [mul_neg, Finset.sum_neg_distrib]
        rw [invB_eq_dot, invB_add_left, invB_add_right, invB_add_right, invB_sum_left, invB_sum_left, invB_sum_right hMs]
        have : ∀ j, invB M (D j) (fun p => ∑ k ∈ Finset.range ni.length, y k * D k p) = ∑ k ∈ Finset.range ni.length, y k * invB M (D j) (D k) := fun j => invB_sum_right hMs _ _ _ _
        simp only [this, Finset.mul_sum]
        have h2 : ∀ j, invB M bM (D j) = invB M (D j) bM := fun j => invB_comm hMs _ _
        simp only [h2]
        rw [← Finset.mul_sum]
        ring
      rw [e1]
      unfold Tri.eval integrated
      dsimp only
      rw [← hni, ← hM]
      have e2 : ∀ i j, ∑ p : Fin idx.length, ∑ r : Fin idx.length, t.A (ni.getD i 0) (idx.getD p 0) * M⁻¹ p r * t.A (ni.getD j 0) (idx.getD r 0) = invB M (D i) (D j) := fun i j => by
        rw [hD]
        exact invB_eq_sum _ _
      have e3 : ∀ i, ∑ p : Fin idx.length, ∑ r : Fin idx.length, t.A (ni.getD i 0) (idx.getD p 0) * M⁻¹ p r * t.b (idx.getD r 0) = invB M (D i) bM := fun i => by
        rw [hD, hbM]
        exact invB_eq_sum _ _
      have e4 : ∑ p : Fin idx.length, t.b (idx.getD p 0) * (M⁻¹.mulVec fun r => t.b (idx.getD r 0)) p = invB M bM bM := by
        rw [hbM]
        exact invB_eq_dot _ _
      simp only [e2, e3, e4]
      rw [mul_assoc t.c (((2 * Real.pi : ℂ) ^ idx.length) ^ (1 / 2 : ℂ)), ← hK]
      have e5 : 1 / 2 * ∑ i ∈ Finset.range ni.length, ∑ j ∈ Finset.range ni.length, (t.A (ni.getD i 0) (ni.getD j 0) - invB M (D i) (D j)) * y i * y j +
          ∑ i ∈ Finset.range ni.length, (t.b (ni.getD i 0) - invB M (D i) bM) * y i =
          (1 / 2 * ∑ i ∈ Finset.range ni.length, ∑ j ∈ Finset.range ni.length, t.A (ni.getD i 0) (ni.getD j 0) * y i * y j + ∑ i ∈ Finset.range ni.length, t.b (ni.getD i 0) * y i) +
          (-(1 / 2) * ∑ j ∈ Finset.range ni.length, ∑ k ∈ Finset.range ni.length, y j * (y k * invB M (D j) (D k)) - ∑ j ∈ Finset.range ni.length, y j * invB M (D j) bM) := by
        simp only [sub_mul, Finset.sum_sub_distrib]
        have h1 : ∑ i ∈ Finset.range ni.length, ∑ j ∈ Finset.range ni.length, invB M (D i) (D j) * y i * y j =
            ∑ j ∈ Finset.range ni.length, ∑ k ∈ Finset.range ni.length, y j * (y k * invB M (D j) (D k)) :=
          Finset.sum_congr rfl fun i _ => Finset.sum_congr rfl fun j _ => by ring
        have h2 : ∑ i ∈ Finset.range ni.length, invB M (D i) bM * y i = ∑ j ∈ Finset.range ni.length, y j * invB M (D j) bM :=
          Finset.sum_congr rfl fun i _ => by ring
        rw [h1, h2]
        ring
      have e6 : 1 / 2 * -(invB M bM bM + 2 * ∑ j ∈ Finset.range ni.length, y j * invB M (D j) bM + ∑ j ∈ Finset.range ni.length, ∑ k ∈ Finset.range ni.length, y j * (y k * invB M (D j) (D k))) =
          -(1 / 2) * invB M bM bM + (-(1 / 2) * ∑ j ∈ Finset.range ni.length, ∑ k ∈ Finset.range ni.length, y j * (y k * invB M (D j) (D k)) - ∑ j ∈ Finset.range ni.length, y j * invB M (D j) bM) := by
        ring
      have key : ∀ P Q R : ℂ, t.c * Complex.exp P * (ε * K * Complex.exp (R + Q)) = ε * (t.c * K * Complex.exp R * Complex.exp (P + Q)) := fun P Q R => by
        rw [Complex.exp_add, Complex.exp_add]
        ring
      rw [e5, e6]
      exact key _ _ _
    · have : (-M).mulVec (-(M⁻¹.mulVec fun p => bM p + ∑ j ∈ Finset.range ni.length, y j * D j p)) = fun p => bM p + ∑ j ∈ Finset.range ni.length, y j * D j p := by
        rw [Matrix.neg_mulVec, Matrix.mulVec_neg, neg_neg, Matrix.mulVec_mulVec, Matrix.mul_nonsing_inv _ (isUnit_iff_ne_zero.2 hd), Matrix.one_mulVec]
      exact this

/-- Three variables with `A = -2 (1 + 3i)`. -/
noncomputable def ex3 : Tri := ⟨3, fun i j => if i = j then -2 * (1 + 3 * Complex.I) else 0, fun _ => 0, 1⟩

theorem ex3_conv : ex3.Conv [0, 1, 2] := by
  intro w hw
  have e : (∑ p : Fin [0, 1, 2].length, ∑ q : Fin [0, 1, 2].length, ex3.A ([0, 1, 2].getD p 0) ([0, 1, 2].getD q 0) * w p * w q).re = -2 * ∑ p : Fin 3, w p ^ 2 := by
    have h1 : (∑ p : Fin [0, 1, 2].length, ∑ q : Fin [0, 1, 2].length, ex3.A ([0, 1, 2].getD p 0) ([0, 1, 2].getD q 0) * (w p : ℂ) * w q) =
        ((-2 * ∑ p : Fin 3, w p ^ 2 : ℝ) : ℂ) * (1 + 3 * Complex.I) := by
      have h2 : ∀ F : Fin 3 → Fin 3 → ℂ, ∑ p : Fin [0, 1, 2].length, ∑ q : Fin [0, 1, 2].length, F p q = ∑ p : Fin 3, ∑ q : Fin 3, F p q := fun _ => rfl
      rw [h2 fun p q => ex3.A ([0, 1, 2].getD p 0) ([0, 1, 2].getD q 0) * (w p : ℂ) * w q]
      simp [Fin.sum_univ_three, ex3]
      ring
    rw [h1, Complex.re_ofReal_mul]
    simp
  rw [e]
  have : 0 < ∑ p : Fin 3, w p ^ 2 := by
    obtain ⟨p, hp⟩ := Function.ne_iff.1 hw
    exact Finset.sum_pos' (fun _ _ => sq_nonneg _) ⟨p, Finset.mem_univ _, by
      have h : w p ≠ 0 := hp
      positivity⟩
  linarith

/-- **C103 (finding)** With three complex variables the sign can be wrong: for `A = -2 (1 + 3i)` times the identity the returned number is minus the integral. -/
theorem C103_sign_wrong : ∃ r, realGaussianIntegral ex3 [0, 1, 2] = some r ∧
    ∀ x : (Fin 3 → ℝ) → ℕ → ℂ, (∀ w, ∀ p : Fin 3, x w p = w p) → ∀ y, ∫ w : Fin 3 → ℝ, ex3.eval (x w) = -r.eval y ∧ r.eval y ≠ 0 := by
  obtain ⟨r, ε, hr, hε, -, -, hn, hi⟩ := C103_integral ex3 (fun i _ j _ => by
    show (if i = j then (-2 * (1 + 3 * Complex.I) : ℂ) else 0) = if j = i then -2 * (1 + 3 * Complex.I) else 0
    by_cases h : i = j
    · rw [if_pos h, if_pos h.symm]
    · rw [if_neg h, if_neg (Ne.symm h)]) [0, 1, 2] (by simp) (by decide) (fun i hi => by simp at hi; show i < 3; omega) ex3_conv
  refine ⟨r, hr, fun x hx y => ?_⟩
  have h1 := hi y x (fun w p => by
    have := hx w p
    fin_cases p <;> exact this) (fun w j hj => absurd hj (by
      have : notIdx ex3.n [0, 1, 2] = [] := by decide
      rw [this]; simp))
  have h2 : (∫ w : Fin 3 → ℝ, ex3.eval (x w)).re < 0 := by
    have e : ∀ w : Fin 3 → ℝ, ex3.eval (x w) = Complex.exp (-(∑ v, (w v : ℂ) ^ 2) / (2 * (1 : ℝ)) + 1 / 2 * ((fun v => (w v : ℂ)) ⬝ᵥ Verif.Manifold.exQ3.1.mulVec fun v => (w v : ℂ))) := by
      intro w
      have h0 := hx w 0
      have h1 := hx w 1
      have h2 := hx w 2
      simp at h0 h1 h2
      unfold Tri.eval Verif.Manifold.exQ3
      dsimp only
      rw [Matrix.smul_mulVec, Matrix.one_mulVec]
      simp [dotProduct, Fin.sum_univ_three, ex3, Finset.sum_range_succ, h0, h1, h2]
      refine congrArg Complex.exp ?_
      ring
    have h3 := Verif.Manifold.exQ3_neg
    unfold Verif.Manifold.normInt at h3
    simp only [e]
    exact h3
  have h4 : r.eval y = r.c := by
    unfold Tri.eval
    rw [hn, show (notIdx ex3.n [0, 1, 2]).length = 0 by decide]
    simp
  have h5 : 0 ≤ (r.eval y).re := by
    have hr' : r = integrated ex3 [0, 1, 2] := by
      unfold realGaussianIntegral at hr
      rw [if_neg (by simp)] at hr
      split_ifs at hr
      exact (Option.some.inj hr).symm
    have e : ((2 * Real.pi : ℂ) ^ 3) ^ (1 / 2 : ℂ) = ((((2 * Real.pi) ^ 3) ^ (1 / 2 : ℝ) : ℝ) : ℂ) := by
      rw [Complex.ofReal_cpow (by positivity)]
      push_cast
      rfl
    have e2 : r.c = ((((2 * Real.pi) ^ 3) ^ (1 / 2 : ℝ) : ℝ) : ℂ) * ((-1) ^ 3 / (subM ex3.A [0, 1, 2]).det) ^ (1 / 2 : ℂ) := by
      rw [hr', ← e]
      unfold integrated
      dsimp only
      simp only [show ∀ i, ex3.b i = 0 from fun _ => rfl, show ex3.c = 1 from rfl, zero_mul, Finset.sum_const_zero, mul_zero, Complex.exp_zero, mul_one, one_mul]
      rfl
    rw [h4, e2, Complex.re_ofReal_mul]
    exact mul_nonneg (by positivity) (sqrt_re _)
  have h6 : ∫ w : Fin 3 → ℝ, ex3.eval (x w) = ε * r.eval y := h1
  rw [h6] at h2 ⊢
  rcases hε with rfl | rfl
  · rw [one_mul] at h2
    linarith
  · refine ⟨by ring, fun h0 => ?_⟩
    rw [h0] at h2
    simp at h2

end Verif.RealInt
