import Verif.QuadDef

/-!
# `from_quadrature` is the Bargmann transform (C97)
-/

namespace Verif.Manifold
open Matrix Verif.Gauss MeasureTheory

variable {W : Type*} [Fintype W] [DecidableEq W]

/-! ## Specification -/

/-- The kernel of the Bargmann transform at the quadrature angle `θ`. -/
noncomputable def bargKer (ħ θ x : ℝ) (z : ℂ) : ℂ :=
  (((Real.pi * ħ) ^ (1 / 4 : ℝ) : ℝ) : ℂ)⁻¹ *
    Complex.exp (-(x : ℂ) ^ 2 / (2 * ħ) + (Real.sqrt (2 / ħ) : ℝ) * Complex.exp (Complex.I * θ) * x * z - 1 / 2 * Complex.exp (Complex.I * θ) ^ 2 * z ^ 2)

/-- Bra outputs and ket inputs transform with the conjugate kernel. -/
def sideAngle (φ : ℝ) : Sd → ℝ
  | .ob => -φ
  | .ib => φ
  | .ok => φ
  | .ik => -φ

/-- The Bargmann transform of a function of the quadratures of the wires `W`. -/
noncomputable def bargTransform (ħ φ : ℝ) (sd : W → Sd) (ψ : (W → ℝ) → ℂ) (z : W → ℂ) : ℂ :=
  ∫ x : W → ℝ, (∏ w, bargKer ħ (sideAngle φ (sd w)) (x w) (z w)) * ψ x

/-! ## Proofs -/

/-- The kernel is the conjugate `⟨z̄|x_φ⟩` of the kernel of `BtoQ` of C85. -/
theorem bargKer_btoq (ħ φ x : ℝ) (z : ℂ) : bargKer ħ φ x z = (starRingEnd ℂ) (btoq ħ φ (fun _ : Unit => x) (fun _ => (starRingEnd ℂ) z)) := by
  rw [btoq_eq]
  simp only [Finset.univ_unique, Finset.sum_singleton, Fintype.card_unit]
  rw [map_mul, bqC_conj, ← Complex.exp_conj]
  unfold bargKer bqC
  have ho : (starRingEnd ℂ) (Complex.exp (-(Complex.I * φ))) = Complex.exp (Complex.I * φ) := by
    rw [← Complex.exp_conj, map_neg, map_mul, Complex.conj_I, Complex.conj_ofReal, neg_mul, neg_neg]
  refine congrArg₂ (· * ·) ?_ (congrArg Complex.exp ?_)
  · rw [one_div]
    norm_num
  · simp only [map_add, map_sub, map_mul, map_div₀, map_neg, map_pow, ho, Complex.conj_ofReal, Complex.conj_conj, Complex.conj_ofNat, map_one]
    ring

theorem exp_sideAngle (φ : ℝ) (d : Sd) : Complex.exp (Complex.I * sideAngle φ d) = 1 / omg φ d := by
  rw [one_div]
  cases d
  all_goals
    unfold sideAngle omg
    rw [← Complex.exp_neg]
    refine congrArg Complex.exp ?_
    push_cast
    ring

theorem bqC_prod {ħ : ℝ} (hħ : 0 < ħ) (N : ℕ) : ((((Real.pi * ħ) ^ (1 / 4 : ℝ) : ℝ) : ℂ)⁻¹) ^ N = bqC ħ N := by
  unfold bqC
  have h0 : 0 ≤ Real.pi * ħ := by positivity
  rw [inv_pow, one_div, ← Complex.ofReal_pow, ← Real.rpow_natCast, ← Real.rpow_mul h0]
  norm_num

/-- The integral, up to the choice of roots. -/
theorem quad_core {ħ : ℝ} (hħ : 0 < ħ) (φ : ℝ) (sd : W → Sd) {l : List Sd} (hall : ∀ d, d ∈ l) {T T' : Matrix W W ℂ × (W → ℂ) × ℂ} (hT : T.1ᵀ = T.1)
    (hA : ∀ x : W → ℝ, x ≠ 0 → (∑ i, ∑ j, T.1 i j * x i * x j).re < 0) {r : ℂ}
    (hR : Rel (quadF true ħ φ sd l) (quadG true ħ φ sd l) (quadChi true ħ φ sd l) r T T') :
    r ≠ 0 ∧ ∃ q : Fin (Fintype.card W) → ℂ, (∀ i, 0 < (q i).re) ∧ (bqC ħ (Fintype.card W) * ∏ i, (2 * Real.pi / q i) ^ (1 / 2 : ℂ)) ^ 2 = r ^ 2 ∧
      ((∫ x : W → ℝ, Complex.exp (form ((1 / ħ : ℂ) • 1 - T.1) 0 x)) = ∏ i, (2 * Real.pi / q i) ^ (1 / 2 : ℂ)) ∧
      r ^ 2 = numK true ħ (Fintype.card W) ^ 2 / (1 - (ħ : ℂ) • T.1).det ∧
      ∀ z, r * bargTransform ħ φ sd (fun x => bargFun T.1 T.2.1 T.2.2 (fun w => (x w : ℂ))) z =
        (bqC ħ (Fintype.card W) * ∏ i, (2 * Real.pi / q i) ^ (1 / 2 : ℂ)) * bargFun T'.1 T'.2.1 T'.2.2 z := by
  obtain ⟨hr2, hr0, hh⟩ := hbar_r hħ
  obtain ⟨J, j, hJ, hχ, hf, he⟩ := hR.ex
  obtain ⟨Q, hQ⟩ : ∃ Q, Q = (1 / ħ : ℂ) • (1 : Matrix W W ℂ) - T.1 := ⟨_, rfl⟩
  have hQs : ∀ i j, Q i j = Q j i := fun i j => by
    rw [hQ]
    simp only [Matrix.sub_apply, Matrix.smul_apply, Matrix.one_apply]
    rw [show T.1 i j = T.1 j i from congrFun (congrFun hT j) i]
    simp only [eq_comm]
  have hQp : PosRe Q := fun x hx => by
    have h1 : ∑ i, ∑ j, Q i j * x i * x j = ((1 / ħ * ∑ i, x i ^ 2 : ℝ) : ℂ) - ∑ i, ∑ j, T.1 i j * x i * x j := by
      rw [hQ]
      simp only [Matrix.sub_apply, Matrix.smul_apply, sub_mul, Finset.sum_sub_distrib, smul_eq_mul]
      refine congrArg (· - _) ?_
      push_cast
      rw [Finset.mul_sum]
      refine Finset.sum_congr rfl fun i _ => ?_
      rw [Finset.sum_eq_single i]
      · rw [Matrix.one_apply_eq]; ring
      · intro k _ hk; rw [Matrix.one_apply_ne hk.symm]; ring
      · exact fun h => absurd (Finset.mem_univ _) h
    rw [h1, Complex.sub_re, Complex.ofReal_re]
    have := hA x hx
    have : 0 ≤ 1 / ħ * ∑ i, x i ^ 2 := by positivity
    linarith
  obtain ⟨q, hq, hqd, hi⟩ := integral_form hQs hQp
  -- the Jacobian
  have hpos : ∀ z w, (J.mulVec z + j) w = (z w - ħ * grad T z w) / numS true ħ φ (sd w) := fun z w => by
    have := congrFun (congrArg Prod.fst (hf z)) w
    unfold quadF wireF at this
    dsimp only at this
    rw [if_pos (hall _)] at this
    rw [← this]
    unfold numT
    rw [if_pos rfl]
  have hJe : J = diagonal (fun w => 1 / numS true ħ φ (sd w)) * ((ħ : ℂ) • Q) := by
    have hb : j = fun w => -(ħ * T.2.1 w) / numS true ħ φ (sd w) := by
      funext w
      have := hpos 0 w
      rw [Matrix.mulVec_zero, zero_add] at this
      rw [this]
      unfold grad
      rw [Matrix.mulVec_zero, zero_add, Pi.zero_apply, zero_sub]
    apply Matrix.mulVec_injective
    funext z w
    have := hpos z w
    rw [Pi.add_apply, hb] at this
    unfold grad at this
    rw [Pi.add_apply] at this
    rw [← Matrix.mulVec_mulVec, Matrix.mulVec_diagonal, Matrix.smul_mulVec, hQ, Matrix.sub_mulVec, Matrix.smul_mulVec, Matrix.one_mulVec, Pi.smul_apply, Pi.sub_apply,
      Pi.smul_apply, smul_eq_mul, smul_eq_mul]
    have e : J.mulVec z w = (z w - ħ * (T.1.mulVec z w + T.2.1 w)) / numS true ħ φ (sd w) - -(ħ * T.2.1 w) / numS true ħ φ (sd w) := by rw [← this]; ring
    rw [e]
    have := numS_ne true hħ φ (sd w)
    field_simp
    ring
  have hħQ : (1 - (ħ : ℂ) • T.1) = (ħ : ℂ) • Q := by
    rw [hQ, smul_sub, smul_smul, mul_one_div_cancel hh, one_smul]
  have hJd : J.det = (∏ w, 1 / numS true ħ φ (sd w)) * (1 - (ħ : ℂ) • T.1).det := by
    rw [hJe, det_mul, det_diagonal, hħQ]
  have hd0 : (1 - (ħ : ℂ) • T.1).det ≠ 0 := fun h0 => hJ (by rw [hJd, h0, mul_zero])
  have hr : r ^ 2 = numK true ħ (Fintype.card W) ^ 2 / (1 - (ħ : ℂ) • T.1).det := by
    rw [eq_div_iff hd0]
    unfold quadChi at hχ
    simp only [hall, if_true] at hχ
    have e : (∏ w, numQ true ħ / numS true ħ φ (sd w)) = numQ true ħ ^ Fintype.card W * ∏ w, 1 / numS true ħ φ (sd w) := by
      rw [← Finset.card_univ, ← Finset.prod_const, ← Finset.prod_mul_distrib]
      exact Finset.prod_congr rfl fun w _ => by ring
    rw [e, hJd, ← numK_sq true hħ] at hχ
    have hp : (∏ w, 1 / numS true ħ φ (sd w)) ≠ 0 := Finset.prod_ne_zero_iff.2 fun w _ => one_div_ne_zero (numS_ne true hħ φ _)
    have : (∏ w, 1 / numS true ħ φ (sd w)) * (r ^ 2 * (1 - (ħ : ℂ) • T.1).det) = (∏ w, 1 / numS true ħ φ (sd w)) * numK true ħ (Fintype.card W) ^ 2 := by
      linear_combination hχ
    exact mul_left_cancel₀ hp this
  have hpi : ((Real.sqrt (Real.pi * ħ) : ℝ) : ℂ) ^ 2 = Real.pi * ħ := by
    rw [← Complex.ofReal_pow, Real.sq_sqrt (by positivity)]; push_cast; rfl
  have hp0 : ((Real.sqrt (Real.pi * ħ) : ℝ) : ℂ) ≠ 0 := by
    have : 0 < Real.sqrt (Real.pi * ħ) := Real.sqrt_pos.2 (by positivity)
    exact_mod_cast this.ne'
  have hQd : Q.det ≠ 0 := fun h0 => hd0 (by rw [hħQ, Matrix.det_smul, h0, mul_zero])
  refine ⟨?_, q, hq, ?_, ?_, hr, fun z => ?_⟩
  · intro h0
    rw [h0] at hr
    have := hr.symm
    rw [zero_pow two_ne_zero, div_eq_zero_iff, numK_sq true hħ] at this
    rcases this with h | h
    · unfold numQ at h
      rw [if_pos rfl] at h
      exact pow_ne_zero _ (mul_ne_zero two_ne_zero hp0) h
    · exact hd0 h
  · rw [hr, mul_pow, sqrt_prod_sq, bqC_sq hħ, numK_sq true hħ, hqd, hħQ, Matrix.det_smul]
    unfold numQ
    rw [if_pos rfl, mul_div_assoc', ← mul_pow, div_mul_eq_div_div, ← div_pow]
    refine congrArg (fun a => a ^ Fintype.card W / Q.det) ?_
    rw [eq_div_iff hh]
    field_simp
    linear_combination (-1 : ℂ) * hpi
  · have := hi 0 0 (by simp)
    rw [hQ] at this
    rw [this]
    simp
  · -- the stationary point
    obtain ⟨u, hu⟩ : ∃ u, J.mulVec u + j = z := ⟨J⁻¹.mulVec (z - j), by
      rw [Matrix.mulVec_mulVec, Matrix.mul_nonsing_inv _ (isUnit_iff_ne_zero.2 hJ), Matrix.one_mulVec]; abel⟩
    have hz : ∀ w, z w = (u w - ħ * grad T u w) / numS true ħ φ (sd w) := fun w => by rw [← hpos u w, hu]
    have hev := he u
    rw [hu] at hev
    obtain ⟨β, hβ⟩ : ∃ β : W → ℂ, β = fun w => T.2.1 w + (Real.sqrt (2 / ħ) : ℝ) / omg φ (sd w) * z w := ⟨_, rfl⟩
    have hQu : Q.mulVec u = β := by
      funext w
      have hs := numS_ne true hħ φ (sd w)
      have ho := omg_ne φ (sd w)
      have h1 : Q.mulVec u w = u w / ħ - T.1.mulVec u w := by
        rw [hQ, Matrix.sub_mulVec, Matrix.smul_mulVec, Matrix.one_mulVec, Pi.sub_apply, Pi.smul_apply, smul_eq_mul]; ring
      rw [h1, hβ]
      dsimp only
      rw [hz w]
      unfold grad
      rw [Pi.add_apply]
      unfold numS at hs ⊢
      rw [if_pos rfl] at hs ⊢
      field_simp
      ring
    have hI := hi β u hQu
    have hint : ∀ x : W → ℝ, (∏ w, bargKer ħ (sideAngle φ (sd w)) (x w) (z w)) * bargFun T.1 T.2.1 T.2.2 (fun w => (x w : ℂ)) =
        (bqC ħ (Fintype.card W) * T.2.2 * Complex.exp (-(1 / 2) * ∑ w, z w ^ 2 / omg φ (sd w) ^ 2)) * Complex.exp (form Q β x) := fun x => by
      unfold bargKer bargFun
      simp only [exp_sideAngle]
      rw [Finset.prod_mul_distrib, Finset.prod_const, Finset.card_univ, bqC_prod hħ, ← Complex.exp_sum]
      have e : (∑ w, (-(x w : ℂ) ^ 2 / (2 * ħ) + (Real.sqrt (2 / ħ) : ℝ) * (1 / omg φ (sd w)) * x w * z w - 1 / 2 * (1 / omg φ (sd w)) ^ 2 * z w ^ 2)) +
          (1 / 2 * ((fun w => (x w : ℂ)) ⬝ᵥ T.1.mulVec fun w => (x w : ℂ)) + T.2.1 ⬝ᵥ fun w => (x w : ℂ)) =
          -(1 / 2) * ∑ w, z w ^ 2 / omg φ (sd w) ^ 2 + form Q β x := by
        unfold form
        rw [quad_mulVec Q (fun w => (x w : ℂ)), hQ, Matrix.sub_mulVec, dotProduct_sub, Matrix.smul_mulVec, Matrix.one_mulVec, dotProduct_smul, smul_eq_mul]
        have e1 : (fun w => (x w : ℂ)) ⬝ᵥ (fun w => (x w : ℂ)) = ∑ w, (x w : ℂ) ^ 2 := Finset.sum_congr rfl fun w _ => (pow_two _).symm
        have e2 : ∑ w, β w * (x w : ℂ) = (T.2.1 ⬝ᵥ fun w => (x w : ℂ)) + ∑ w, (Real.sqrt (2 / ħ) : ℝ) * (1 / omg φ (sd w)) * x w * z w := by
          rw [hβ]
          simp only [dotProduct]
          rw [← Finset.sum_add_distrib]
          exact Finset.sum_congr rfl fun w _ => by ring
        have e3 : ∑ w, 1 / 2 * (1 / omg φ (sd w)) ^ 2 * z w ^ 2 = 1 / 2 * ∑ w, z w ^ 2 / omg φ (sd w) ^ 2 := by
          rw [Finset.mul_sum]
          exact Finset.sum_congr rfl fun w _ => by rw [div_pow, one_pow]; ring
        have e4 : ∑ w, -(x w : ℂ) ^ 2 / (2 * ħ) = -(1 / 2) * (1 / ħ * ∑ w, (x w : ℂ) ^ 2) := by
          rw [Finset.mul_sum, Finset.mul_sum]
          exact Finset.sum_congr rfl fun w _ => by field_simp
        rw [e1, e2, Finset.sum_sub_distrib, Finset.sum_add_distrib, e3, e4]
        ring
      calc _ = bqC ħ (Fintype.card W) * T.2.2 * (Complex.exp (∑ w, (-(x w : ℂ) ^ 2 / (2 * ħ) + (Real.sqrt (2 / ħ) : ℝ) * (1 / omg φ (sd w)) * x w * z w - 1 / 2 * (1 / omg φ (sd w)) ^ 2 * z w ^ 2)) *
            Complex.exp (1 / 2 * ((fun w => (x w : ℂ)) ⬝ᵥ T.1.mulVec fun w => (x w : ℂ)) + T.2.1 ⬝ᵥ fun w => (x w : ℂ))) := by ring
        _ = _ := by rw [← Complex.exp_add, e, Complex.exp_add]; ring
    unfold bargTransform
    simp only [hint]
    rw [integral_const_mul, hI]
    unfold ev at hev
    rw [hev]
    unfold bargFun
    have hexp : -(1 / 2) * ∑ w, z w ^ 2 / omg φ (sd w) ^ 2 + 1 / 2 * ∑ i, β i * u i =
        quadG true ħ φ sd l u (grad T u) + (1 / 2 * (u ⬝ᵥ T.1.mulVec u) + T.2.1 ⬝ᵥ u) := by
      have e0 : 1 / 2 * (u ⬝ᵥ T.1.mulVec u) + T.2.1 ⬝ᵥ u = ∑ w, (1 / 2 * u w * grad T u w + 1 / 2 * T.2.1 w * u w) := by
        unfold dotProduct grad
        rw [Finset.mul_sum, ← Finset.sum_add_distrib]
        exact Finset.sum_congr rfl fun w _ => by rw [Pi.add_apply]; ring
      rw [e0]
      unfold quadG wireG
      simp only [hall, if_true]
      rw [Finset.mul_sum, Finset.mul_sum, ← Finset.sum_add_distrib, ← Finset.sum_add_distrib]
      refine Finset.sum_congr rfl fun w _ => ?_
      have ho := omg_ne φ (sd w)
      rw [hβ]
      dsimp only
      rw [hz w]
      unfold numS numV numT
      simp only [if_true]
      obtain ⟨rt, hrt⟩ : ∃ rt : ℂ, rt = ((Real.sqrt (2 / ħ) : ℝ) : ℂ) := ⟨_, rfl⟩
      rw [← hrt] at hr0 hr2 ⊢
      have hb : (ħ : ℂ) = 2 / rt ^ 2 := by rw [eq_div_iff (pow_ne_zero _ hr0), mul_comm]; exact hr2
      rw [hb]
      field_simp
      ring
    calc _ = r * (∏ i, (2 * Real.pi / q i) ^ (1 / 2 : ℂ)) * bqC ħ (Fintype.card W) * T.2.2 *
          (Complex.exp (-(1 / 2) * ∑ w, z w ^ 2 / omg φ (sd w) ^ 2) * Complex.exp (1 / 2 * ∑ i, β i * u i)) := by ring
      _ = _ := by rw [← Complex.exp_add, hexp, Complex.exp_add]; ring

/-- **C97 (meaning)** For every square-integrable Gaussian function `ψ` of the quadratures of any wires, `from_quadrature` returns the triple of
its Bargmann transform, up to a sign of `c`. -/
theorem C97_integral {ħ : ℝ} (hħ : 0 < ħ) (φ : ℝ) (sd : W → Sd) {l : List Sd} (hl : l.Nodup) (hall : ∀ d, d ∈ l) (T : Matrix W W ℂ × (W → ℂ) × ℂ) (hT : T.1ᵀ = T.1)
    (hA : ∀ x : W → ℝ, x ≠ 0 → (∑ i, ∑ j, T.1 i j * x i * x j).re < 0) :
    ∃ T', quadSteps true ħ φ sd l T = some T' ∧ ∃ ε : ℂ, (ε = 1 ∨ ε = -1) ∧
      ∀ z, bargTransform ħ φ sd (fun x => bargFun T.1 T.2.1 T.2.2 (fun w => (x w : ℂ))) z = ε * bargFun T'.1 T'.2.1 T'.2.2 z := by
  obtain ⟨T', hT'⟩ := C97_defined hħ φ sd hl T hT hA
  obtain ⟨r, hR⟩ := quadSteps_rel true hħ φ sd l hl hT hT'
  obtain ⟨hr, q, -, hq, -, -, hI⟩ := quad_core hħ φ sd hall hT hA hR
  refine ⟨T', hT', bqC ħ (Fintype.card W) * (∏ i, (2 * Real.pi / q i) ^ (1 / 2 : ℂ)) / r, ?_, fun z => ?_⟩
  · rw [div_eq_iff hr, div_eq_iff hr, one_mul, neg_one_mul]
    exact sq_eq_sq_iff_eq_or_eq_neg.1 hq
  · rw [div_mul_eq_mul_div, eq_div_iff hr, ← hI z, mul_comm]

end Verif.Manifold
