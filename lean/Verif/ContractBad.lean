import Verif.ContractEx
import Mathlib.Tactic.LinearCombination

/-!
# `contract`: two ways in which the code departs from the integral (property C16)
-/

namespace Verif.PolyExp
open Verif.Fock Verif.Batch Verif.Gauss PolyExp MeasureTheory

/-! ### Three squeezed modes: wrong sign -/

/-- The matrix of the integral of `m` equally squeezed modes. -/
def sqM (m : ℕ) (v : ℂ) : Matrix (Fin m ⊕ Fin m) (Fin m ⊕ Fin m) ℂ := Matrix.fromBlocks (v • 1) (-1) (-1) (v • 1)

theorem sqM_symm (m : ℕ) (v : ℂ) : ∀ p q, sqM m v p q = sqM m v q p := by
  intro p q
  rcases p with i | i <;> rcases q with j | j <;> simp [sqM, Matrix.one_apply, eq_comm]

theorem sqM_quad (m : ℕ) (v : ℂ) (w : Fin m → ℂ) : ∑ p, ∑ q, sqM m v p q * pair w p * pair w q =
    ∑ i, (v * w i ^ 2 + v * (starRingEnd ℂ) (w i) ^ 2 - 2 * ((‖w i‖ ^ 2 : ℝ) : ℂ)) := by
  have e : ∀ i, ((‖w i‖ ^ 2 : ℝ) : ℂ) = w i * (starRingEnd ℂ) (w i) := fun i => by
    rw [Complex.mul_conj, Complex.normSq_eq_norm_sq]
  simp only [e, Fintype.sum_sum_type, sqM, Matrix.fromBlocks_apply₁₁, Matrix.fromBlocks_apply₁₂, Matrix.fromBlocks_apply₂₁, Matrix.fromBlocks_apply₂₂,
    Matrix.smul_apply, Matrix.neg_apply, smul_eq_mul, Matrix.one_apply, mul_ite, mul_one, mul_zero, ite_mul, zero_mul, neg_mul, one_mul, Finset.sum_ite_eq,
    Finset.mem_univ, if_true, Finset.sum_neg_distrib,
    pair, Sum.elim_inl, Sum.elim_inr, ← Finset.sum_add_distrib]
  refine Finset.sum_congr rfl fun i _ => ?_
  simp only [Finset.sum_add_distrib, Finset.sum_neg_distrib, Finset.sum_ite_eq, Finset.mem_univ, if_true]
  ring

theorem sqM_neg (m : ℕ) {v : ℂ} (hv : |v.re| < 1) : NegRe (sqM m v) := by
  intro w hw
  rw [sqM_quad, Complex.re_sum]
  obtain ⟨i, hi⟩ := Function.ne_iff.1 hw
  have key : ∀ z : ℂ, (v * z ^ 2 + v * (starRingEnd ℂ) z ^ 2 - 2 * ((‖z‖ ^ 2 : ℝ) : ℂ)).re = 2 * (v.re * (z.re ^ 2 - z.im ^ 2) - (z.re ^ 2 + z.im ^ 2)) := by
    intro z
    rw [← Complex.normSq_eq_norm_sq, Complex.normSq_apply]
    simp [Complex.mul_re, pow_two]
    ring
  obtain ⟨h1, h2⟩ := abs_lt.1 hv
  have le : ∀ z : ℂ, 2 * (v.re * (z.re ^ 2 - z.im ^ 2) - (z.re ^ 2 + z.im ^ 2)) ≤ 0 := by
    intro z
    nlinarith [mul_nonneg (sq_nonneg z.re) (by linarith : 0 ≤ 1 - v.re), mul_nonneg (sq_nonneg z.im) (by linarith : 0 ≤ 1 + v.re)]
  refine Finset.sum_neg' (fun j _ => by rw [key]; exact le _) ⟨i, Finset.mem_univ _, ?_⟩
  rw [key]
  have hz : 0 < (w i).re ^ 2 + (w i).im ^ 2 := by
    have := Complex.normSq_pos.2 hi
    rw [Complex.normSq_apply] at this
    nlinarith
  by_cases hr : (w i).re = 0
  · rw [hr] at hz ⊢
    nlinarith
  · have : 0 < (w i).re ^ 2 := by positivity
    nlinarith [mul_pos this (by linarith : 0 < 1 - v.re), mul_nonneg (sq_nonneg (w i).im) (by linarith : 0 ≤ 1 + v.re)]

theorem sqM_det (m : ℕ) (v : ℂ) : (sqM m v).det = (-1) ^ m * (1 - v ^ 2) ^ m := by
  unfold sqM
  rw [det_overlap]
  have : (1 - v • (1 : Matrix (Fin m) (Fin m) ℂ) * v • 1) = (1 - v ^ 2) • 1 := by
    rw [Matrix.smul_mul, Matrix.one_mul, smul_smul, sub_smul, one_smul, pow_two]
  rw [this, Matrix.det_smul]
  simp

/-- The Gaussian integral of `m` equally squeezed modes is the `m`-th power of the one-mode integral. -/
theorem sqM_const (m : ℕ) {v : ℂ} (hv : |v.re| < 1) : gaussConst (sqM m v) = ((1 / (1 - v ^ 2)) ^ (1 / 2 : ℂ)) ^ m := by
  set J : ℂ := ∫ x : ℂ, Complex.exp (1 / 2 * (v * x ^ 2 + v * (starRingEnd ℂ) x ^ 2 - 2 * ((‖x‖ ^ 2 : ℝ) : ℂ))) with hJ
  have hg : ∀ m : ℕ, gaussConst (sqM m v) = ((Real.pi : ℂ)⁻¹ * J) ^ m := by
    intro m
    unfold gaussConst
    have : ∀ w : Fin m → ℂ, cform (sqM m v) 0 w = ∑ i, (1 / 2 * (v * w i ^ 2 + v * (starRingEnd ℂ) (w i) ^ 2 - 2 * ((‖w i‖ ^ 2 : ℝ) : ℂ))) := by
      intro w
      unfold cform
      rw [sqM_quad, Finset.mul_sum]
      simp
    simp only [this, Complex.exp_sum]
    have := integral_fintype_prod_volume_eq_pow (ι := Fin m)
      (fun x : ℂ => Complex.exp (1 / 2 * (v * x ^ 2 + v * (starRingEnd ℂ) x ^ 2 - 2 * ((‖x‖ ^ 2 : ℝ) : ℂ))))
    rw [this, mul_pow, inv_pow, Fintype.card_fin]
  have h1 := gaussConst_one (sqM_symm 1 v) (sqM_neg 1 hv) (by simp)
  rw [hg 1, pow_one, sqM_det, Fintype.card_fin, pow_one, pow_one] at h1
  rw [hg m, ← h1]
  congr 2
  rw [neg_one_mul, neg_div_neg_eq]


/-- Three modes squeezed with tanh-parameter of modulus `< 1`: `exp(½ v (z₀² + z₁² + z₂²))`. -/
noncomputable def exV (v : ℂ) : PolyExp := ⟨[], false, 3, fun _ i j => if i = j then v else 0, fun _ _ => 0, [], fun _ _ => 1⟩

theorem exV_wf (v : ℂ) : (exV v).WF := ⟨by simp [exV], by simp [exV]⟩
theorem exV_sym (v : ℂ) : SymAll (exV v) := by intro β i _ j _; simp only [exV, eq_comm]
theorem exV_compat (v : ℂ) : Compat (exV v) (exV v) [] [0, 1, 2] [] [0, 1, 2] [] [] := by
  refine ⟨by decide, by decide, rfl, rfl, by decide, by decide, by decide, ?_, by decide, by decide, rfl, rfl, by decide, ?_, ?_⟩
  · intro d h; cases h
  · simp
  · intro h; cases h

theorem exV_call (v : ℂ) (β : List ℕ) (z : ℕ → ℂ) : (exV v).call β z = Complex.exp (1 / 2 * (v * (z 0 ^ 2 + z 1 ^ 2 + z 2 ^ 2))) := by
  rw [call_nls (by rfl)]
  unfold termAt termVal
  rw [show (exV v).numCV = 3 from rfl, show (exV v).derived = [] from rfl, nsum_nil]
  rw [show toF [] = 0 by ext; simp [toF], amp_zero]
  simp only [exV, Finset.sum_range_succ, Finset.sum_range_zero, mul_zero, add_zero, zero_add, mul_one, if_true]
  simp
  ring_nf

theorem exV_conv {v : ℂ} (hv : |v.re| < 1) (o : List ℕ) : AllConv (exV v) (exV v) [] [0, 1, 2] [] [0, 1, 2] [] o := by
  intro τ1 τ2 _ _ w hw
  change Fin 3 → ℂ at w
  have := sqM_neg 3 hv w hw
  rw [sqM_quad] at this
  have e : (exV v).quad (restrict (· ∈ []) [] o ++ τ1) (atLabel [0, 1, 2] [0, 1, 2] (padFin w) [] 0) +
      (exV v).quad (restrict (· ∈ []) [] o ++ τ2) (atLabel [0, 1, 2] [0, 1, 2] (padFin fun i => (starRingEnd ℂ) (w i)) [] 0) =
      1 / 2 * ∑ i, (v * w i ^ 2 + v * (starRingEnd ℂ) (w i) ^ 2 - 2 * ((‖w i‖ ^ 2 : ℝ) : ℂ)) + ((∑ i, ‖w i‖ ^ 2 : ℝ) : ℂ) := by
    unfold PolyExp.quad
    rw [show (exV v).numCV = 3 from rfl, Fin.sum_univ_three, Fin.sum_univ_three]
    simp only [Finset.sum_range_succ, Finset.sum_range_zero, exV]
    simp [atLabel, padFin, List.idxOf, List.findIdx_cons]
    ring
  refine lt_of_eq_of_lt (congrArg Complex.re e) ?_
  rw [Complex.add_re, Complex.ofReal_re]
  have h2 : ((1 / 2 : ℂ) * ∑ i, (v * w i ^ 2 + v * (starRingEnd ℂ) (w i) ^ 2 - 2 * ((‖w i‖ ^ 2 : ℝ) : ℂ))).re < 0 := by
    rw [show (1 / 2 : ℂ) = ((1 / 2 : ℝ) : ℂ) by norm_num, Complex.re_ofReal_mul]
    linarith
  change _ < ∑ i : Fin 3, ‖w i‖ ^ 2
  linarith

theorem exV_gM (v : ℂ) {A : ℕ → ℕ → ℂ} (hA : ∀ i < 6, ∀ j < 6, A i j = if i < 3 ∧ j < 3 then (exV v).A [] i j
    else if 3 ≤ i ∧ 3 ≤ j then (exV v).A [] (i - 3) (j - 3) else 0) : gM A [0, 1, 2] [3, 4, 5] (-1) = sqM 3 v := by
  ext p q
  rcases p with i | i <;> rcases q with j | j <;> fin_cases i <;> fin_cases j <;>
    simp only [gM, pos, sqM, Matrix.add_apply, Matrix.smul_apply, Matrix.of_apply, Matrix.fromBlocks_apply₁₁, Matrix.fromBlocks_apply₁₂,
        Matrix.fromBlocks_apply₂₁, Matrix.fromBlocks_apply₂₂, Sum.elim_inl, Sum.elim_inr, Matrix.one_apply, Matrix.zero_apply, Matrix.neg_apply] <;>
    refine Eq.trans (congrArg (· + _) (hA _ (by decide) _ (by decide))) ?_ <;> simp [exV]

/-- **C16** (the sign is not always right): the inner product of two three-mode squeezed vectors `exp(½ v (z₀² + z₁² + z₂²))`, with
`v = (477 - 189 i) / 520` of modulus less than one, converges to `1 / s³`, `s = (371 + 243 i) / 520`, but `contract` returns the opposite. -/
theorem C16_wrong_sign : let v : ℂ := (477 - 189 * Complex.I) / 520
    let s : ℂ := (371 + 243 * Complex.I) / 520
    ‖v‖ < 1 ∧ ∃ h, (exV v).contract (exV v) [] [0, 1, 2] [] [0, 1, 2] [] [] = some (.finite h) ∧ h.call [] 0 = -(1 / s ^ 3) ∧
      (pairIntegral 3 (-1) fun w => Complex.exp (1 / 2 * (v * (w 0 ^ 2 + w 1 ^ 2 + w 2 ^ 2))) *
        Complex.exp (1 / 2 * (v * ((starRingEnd ℂ) (w 0) ^ 2 + (starRingEnd ℂ) (w 1) ^ 2 + (starRingEnd ℂ) (w 2) ^ 2)))) = 1 / s ^ 3 := by
  intro v s
  have hs2 : s ^ 2 = 1 - v ^ 2 := by
    simp only [s, v]
    ring_nf
    rw [Complex.I_sq]
    ring
  have hre : v.re = 477 / 520 := by simp [v]
  have him : v.im = -(189 / 520) := by simp [v]; ring
  have hsre : s.re = 371 / 520 := by simp [s]
  have hsim : s.im = 243 / 520 := by simp [s]
  have hv : |v.re| < 1 := by rw [hre]; norm_num [abs_lt]
  have hs0 : s ≠ 0 := by
    intro h
    rw [h] at hsre
    norm_num at hsre
  have hroot1 : (1 / (1 - v ^ 2)) ^ (1 / 2 : ℂ) = 1 / s := by
    apply sqrt_of_re_pos
    · rw [← hs2, div_pow, one_pow]
    · rw [one_div, Complex.inv_re, hsre]
      have := Complex.normSq_pos.2 hs0
      positivity
  have hconst : gaussConst (sqM 3 v) = 1 / s ^ 3 := by rw [sqM_const 3 hv, hroot1, div_pow, one_pow]
  have hroot3 : ((-1) ^ 3 / (sqM 3 v).det) ^ (1 / 2 : ℂ) = -1 * gaussConst (sqM 3 v) := by
    rw [hconst]
    apply sqrt_of_re_pos
    · rw [sqM_det, ← hs2]
      field_simp
    · have h3 : (s ^ 3).re < 0 := by
        rw [pow_succ, pow_two, Complex.mul_re, Complex.mul_re, Complex.mul_im, hsre, hsim]
        norm_num
      rw [neg_one_mul, Complex.neg_re, one_div, Complex.inv_re, ← neg_div]
      exact div_pos (by linarith) (Complex.normSq_pos.2 (pow_ne_zero 3 hs0))
  refine ⟨?_, ?_⟩
  · rw [← sq_lt_one_iff₀ (norm_nonneg v), ← Complex.normSq_eq_norm_sq, Complex.normSq_apply, hre, him]
    norm_num
  · obtain ⟨h1, h2⟩ := C16_defined (exV_wf v) (exV_wf v) (exV_compat v)
    cases hc : (exV v).contract (exV v) [] [0, 1, 2] [] [0, 1, 2] [] [] with
    | none => exact absurd hc h1
    | some r =>
      cases r with
      | infinite =>
        exfalso
        obtain ⟨_, o, τ1, τ2, _, _, _, hd⟩ := h2.1 hc
        rw [overlap_det (m := 3) rfl (v • 1) (v • 1)
          (by intro i j; fin_cases i <;> fin_cases j <;> simp [exV, List.idxOf, List.findIdx_cons])
          (by intro i j; fin_cases i <;> fin_cases j <;> simp [exV, List.idxOf, List.findIdx_cons]), ← det_overlap] at hd
        change ‖(sqM 3 v).det‖ ≤ _ at hd
        rw [sqM_det, ← hs2, norm_mul, norm_pow, norm_pow, norm_pow, norm_neg, norm_one, one_pow, one_mul] at hd
        have : (1 / 2 : ℝ) ≤ ‖s‖ := by
          have := Complex.abs_re_le_norm s
          rw [hsre] at this
          norm_num [abs_le] at this ⊢
          linarith
        have h4 : (1 / 2 : ℝ) ^ 6 ≤ (‖s‖ ^ 2) ^ 3 := by
          rw [← pow_mul]
          exact pow_le_pow_left₀ (by norm_num) this 6
        norm_num at h4 hd
        linarith
      | finite h =>
        refine ⟨h, rfl, ?_⟩
        obtain ⟨JP, _, _, _, _, _, hob, hval⟩ := contract_core (exV_wf v) (exV_wf v) (exV_sym v) (exV_sym v) (exV_compat v) hc
        obtain ⟨v1, v2, v3⟩ := hval [] List.Forall₂.nil
        have hM : gM (JP.A ([] ++ ([] ++ []))) (zIdx [0, 1, 2] [0, 1, 2]) (zcIdx (exV v).numCV [0, 1, 2] [0, 1, 2]) (-1) = sqM 3 v := by
          have v1' := v1 [] [] List.Forall₂.nil List.Forall₂.nil
          exact exV_gM v v1'
        have hint : (pairIntegral 3 (-1) fun w => Complex.exp (1 / 2 * (v * (w 0 ^ 2 + w 1 ^ 2 + w 2 ^ 2))) *
            Complex.exp (1 / 2 * (v * ((starRingEnd ℂ) (w 0) ^ 2 + (starRingEnd ℂ) (w 1) ^ 2 + (starRingEnd ℂ) (w 2) ^ 2)))) = 1 / s ^ 3 := by
          rw [← hconst]
          unfold pairIntegral gaussConst
          rw [Fintype.card_fin]
          refine congrArg (HMul.hMul _) (congrArg _ ?_)
          funext w
          beta_reduce
          rw [← Complex.exp_add, ← Complex.exp_add]
          refine congrArg _ ?_
          unfold cform
          rw [sqM_quad, Fin.sum_univ_three, Fin.sum_univ_three]
          simp
          ring
        refine ⟨?_, hint⟩
        have := (v3 (fun _ _ => -1) (by
          intro τ1 τ2 h1 h2
          cases h1
          cases h2
          refine ⟨exV_conv hv [] [] [] List.Forall₂.nil List.Forall₂.nil, fun _ => ?_, fun h => by simp [zIdx] at h⟩
          refine Eq.trans ?_ (hroot3.trans (congrArg (fun t => -1 * gaussConst t) hM.symm))
          exact congrArg (fun t => ((-1) ^ 3 / Matrix.det t) ^ (1 / 2 : ℂ)) hM) 0).2
        rw [this]
        change nsum [] (fun _ => nsum [] _) = _
        rw [nsum_nil, nsum_nil, neg_one_mul, neg_inj, ← hint]
        refine congrArg (pairIntegral 3 (-1)) ?_
        funext w
        rw [← call_nls (f := exV v) (by rfl), ← call_nls (f := exV v) (by rfl), exV_call, exV_call]
        simp [atLabel, padFin, List.idxOf, List.findIdx_cons]
        rfl


/-! ### Labels in different orders -/

/-- The integral of two coherent-state exponentials. -/
theorem coherent_integral (m : ℕ) (u v : Fin m → ℂ) :
    (pairIntegral m (-1) fun w => Complex.exp (∑ i, u i * w i) * Complex.exp (∑ i, v i * (starRingEnd ℂ) (w i))) = Complex.exp (∑ i, u i * v i) := by
  have hX : (-1 : ℂ).re < 0 := by simp
  have h := integral_complex (X_symm (-1) m) (X_neg hX m) (Sum.elim u v) (D := 0) (fun _ _ => 0) (fun _ => 0) (fun _ _ => 0) 0 (by intro i _; rfl)
  simp only [amp_zero, mul_one, one_mul] at h
  rw [X_const hX m] at h
  have hinv : ((-1 : ℂ) • (Matrix.fromBlocks 0 1 1 0 : Matrix (Fin m ⊕ Fin m) (Fin m ⊕ Fin m) ℂ))⁻¹ =
      (-1 : ℂ) • (Matrix.fromBlocks 0 1 1 0 : Matrix (Fin m ⊕ Fin m) (Fin m ⊕ Fin m) ℂ) := by
    apply Matrix.inv_eq_left_inv
    rw [Matrix.smul_mul, Matrix.mul_smul, smul_smul, Matrix.fromBlocks_multiply]
    simp
  rw [hinv] at h
  have hq : Sum.elim u v ⬝ᵥ ((-1 : ℂ) • (Matrix.fromBlocks 0 1 1 0 : Matrix (Fin m ⊕ Fin m) (Fin m ⊕ Fin m) ℂ)).mulVec (Sum.elim u v) =
      -2 * ∑ i, u i * v i := by
    rw [Matrix.smul_mulVec, Matrix.fromBlocks_mulVec]
    simp [dotProduct, Fintype.sum_sum_type]
    simp only [mul_comm (v _)]
    ring
  rw [hq] at h
  rw [show -(1 / 2 : ℂ) * (-2 * ∑ i, u i * v i) = ∑ i, u i * v i by ring] at h
  rw [show (-(-1 : ℂ))⁻¹ ^ m = 1 by simp, one_mul] at h
  rw [← h]
  unfold pairIntegral
  rw [Fintype.card_fin]
  refine congrArg (HMul.hMul _) (congrArg _ ?_)
  funext w
  beta_reduce
  rw [← Complex.exp_add, ← Complex.exp_add]
  refine congrArg _ ?_
  unfold cform
  simp only [Matrix.smul_apply, smul_eq_mul, mul_assoc, ← Finset.mul_sum]
  simp only [← mul_assoc]
  rw [measure_quad]
  simp [Fintype.sum_sum_type, pair]
  ring

/-- `e^{z_k}` in two variables. -/
noncomputable def exE (k : ℕ) : PolyExp := ⟨[], false, 2, fun _ _ _ => 0, fun _ i => if i = k then 1 else 0, [], fun _ _ => 1⟩

theorem exE_wf (k : ℕ) : (exE k).WF := ⟨by simp [exE], by simp [exE]⟩
theorem exE_sym (k : ℕ) : SymAll (exE k) := by intro β i _ j _; simp only [exE]
theorem exE_compat (k l : ℕ) : Compat (exE k) (exE l) [] [0, 1] [] [0, 1] [] [] := by
  refine ⟨by decide, by decide, rfl, rfl, by decide, by decide, by decide, ?_, by decide, by decide, rfl, rfl, by decide, ?_, ?_⟩
  · intro d h; cases h
  · simp
  · intro h; cases h

theorem exE_call (k : ℕ) (β : List ℕ) (z : ℕ → ℂ) : (exE k).call β z = Complex.exp ((if 0 = k then z 0 else 0) + (if 1 = k then z 1 else 0)) := by
  rw [call_nls (by rfl)]
  unfold termAt termVal
  rw [show (exE k).numCV = 2 from rfl, show (exE k).derived = [] from rfl, nsum_nil]
  rw [show toF [] = 0 by ext; simp [toF], amp_zero]
  simp only [exE, Finset.sum_range_succ, Finset.sum_range_zero, mul_zero, add_zero, zero_add, mul_one, mul_ite]

/-- **C16** (labels in different orders): contracting `e^{z₀}` (labels `0, 1`) with `e^{z₁}` (labels `1, 0`) over both labels pairs the two variables of label
`0`, so the integral is `e`; but `contract` pairs positions and returns `1`. -/
theorem C16_label_order : ∃ h, (exE 0).contract (exE 1) [] [0, 1] [] [1, 0] [] [] = some (.finite h) ∧ h.call [] 0 = 1 ∧
    (pairIntegral 2 (-1) fun w => (exE 0).call [] (atLabel [0, 1] [0, 1] (padFin w) [] 0) *
      (exE 1).call [] (atLabel [1, 0] [0, 1] (padFin fun i => (starRingEnd ℂ) (w i)) [] 0)) = Complex.exp 1 := by
  have hsame : (exE 0).contract (exE 1) [] [0, 1] [] [1, 0] [] [] = (exE 0).contract (exE 1) [] [0, 1] [] [0, 1] [] [] := by
    have l1 : labelsOk (exE 0) (exE 1) [] [0, 1] [] [1, 0] [] [] := ⟨rfl, rfl, rfl, rfl, rfl, by decide, by simp⟩
    have l2 : labelsOk (exE 0) (exE 1) [] [0, 1] [] [0, 1] [] [] := ⟨rfl, rfl, rfl, rfl, rfl, by decide, by simp⟩
    unfold PolyExp.contract
    rw [if_neg (not_not.2 l1), if_neg (not_not.2 l2)]
    dsimp only
    rw [show shared [0, 1] [1, 0] = [0, 1] by decide, show shared [0, 1] [0, 1] = [0, 1] by decide, show sharedPos [1, 0] [0, 1] = sharedPos [0, 1] [0, 1] by decide,
      show leftover [0, 1] [1, 0] = leftover [0, 1] [0, 1] by decide]
  rw [hsame]
  obtain ⟨h1, h2⟩ := C16_defined (exE_wf 0) (exE_wf 1) (exE_compat 0 1)
  cases hc : (exE 0).contract (exE 1) [] [0, 1] [] [0, 1] [] [] with
  | none => exact absurd hc h1
  | some r =>
    cases r with
    | infinite =>
      exfalso
      obtain ⟨_, o, τ1, τ2, _, _, _, hd⟩ := h2.1 hc
      rw [overlap_det (m := 2) rfl 0 0 (by intro i j; rfl) (by intro i j; rfl)] at hd
      norm_num at hd
    | finite h =>
      have hcon := C16_conjugate (exE_wf 0) (exE_wf 1) (exE_sym 0) (exE_sym 1) (exE_compat 0 1) hc
        (fun o τ1 τ2 _ _ _ l _ _ l' _ _ => by simp [exE]) (by
          intro o _ τ1 τ2 _ _ w hw
          have q : ∀ k β z, (exE k).quad β z = 0 := by intro k β z; simp [PolyExp.quad, exE]
          rw [q, q, add_zero, Complex.zero_re]
          obtain ⟨i, hi⟩ := Function.ne_iff.1 hw
          exact Finset.sum_pos' (fun i _ => by positivity) ⟨i, Finset.mem_univ _, by have := norm_pos_iff.2 hi; positivity⟩)
      refine ⟨h, rfl, ?_, ?_⟩
      · rw [hcon.2.2 [] (by rw [hcon.2.1]; exact List.Forall₂.nil) 0]
        have := coherent_integral 2 ![1, 0] ![0, 1]
        simp only [Fin.sum_univ_two] at this
        simp at this
        rw [← this]
        refine congrArg (pairIntegral 2 (-1)) ?_
        funext w
        rw [exE_call, exE_call]
        simp [atLabel, padFin, List.idxOf, List.findIdx_cons]
        rfl
      · have := coherent_integral 2 ![1, 0] ![1, 0]
        simp only [Fin.sum_univ_two] at this
        simp at this
        rw [← this]
        refine congrArg (pairIntegral 2 (-1)) ?_
        funext w
        rw [exE_call, exE_call]
        simp [atLabel, padFin, List.idxOf, List.findIdx_cons]

end Verif.PolyExp
