import Verif.CGIProps

/-!
# C48: concrete cases, and the sign of the principal square root
-/

namespace Verif.PolyExp
open Verif.Fock Verif.Batch Verif.Gauss PolyExp MeasureTheory

/-- `X = [[0, 1], [1, 0]]`. -/
theorem det_X (m : ℕ) : (Matrix.fromBlocks 0 1 1 0 : Matrix (Fin m ⊕ Fin m) (Fin m ⊕ Fin m) ℂ).det = (-1) ^ m := by
  have h : (Matrix.fromBlocks 1 1 0 1 : Matrix (Fin m ⊕ Fin m) (Fin m ⊕ Fin m) ℂ) * Matrix.fromBlocks 0 1 1 0 = Matrix.fromBlocks 1 1 1 0 := by
    rw [Matrix.fromBlocks_multiply]; simp
  have h2 := congrArg Matrix.det h
  rw [Matrix.det_mul, Matrix.det_fromBlocks_zero₂₁, Matrix.det_fromBlocks_one₁₁] at h2
  simpa [Matrix.det_neg] using h2

/-- Four variables, the last one derived, with every coupling non-zero. -/
noncomputable def exT : PolyExp where
  batch := []
  linSup := false
  N := 4
  A := fun _ i j => if i + j = 1 then 1 / 2 else if i = j then 0 else 1
  b := fun _ i => i + 1
  derived := [3]
  c := fun _ k => if k = [2] then 5 else 2

theorem exT_numCV : exT.numCV = 3 := rfl

theorem exT_sym : SymAll exT := by
  intro β i _ j _
  simp only [exT, Nat.add_comm j i, eq_comm (a := j)]

theorem exT_det : (gM (exT.A []) [0] [1] (-1)).det = -1 / 4 := by
  have e : gM (exT.A []) [0] [1] (-1) = (-1 / 2 : ℂ) • (Matrix.fromBlocks 0 1 1 0 : Matrix (Fin [0].length ⊕ Fin [0].length) _ ℂ) := by
    ext p q
    rcases p with i | i <;> rcases q with j | j <;> obtain rfl : i = ⟨0, by simp⟩ := Fin.ext (by have := i.2; simp at this; simpa using this) <;>
      obtain rfl : j = ⟨0, by simp⟩ := Fin.ext (by have := j.2; simp at this; simpa using this) <;>
      simp only [gM, pos, exT, Matrix.add_apply, Matrix.smul_apply, Matrix.of_apply, Matrix.fromBlocks_apply₁₁, Matrix.fromBlocks_apply₁₂,
        Matrix.fromBlocks_apply₂₁, Matrix.fromBlocks_apply₂₂, Sum.elim_inl, Sum.elim_inr, Matrix.one_apply, Matrix.zero_apply] <;> norm_num
  rw [e, Matrix.det_smul, det_X]
  simp
  norm_num

theorem exT_conv (γ : List ℕ) : Conv exT γ [0] [1] (-1) := by
  intro w hw x hx h0
  have x0 : x 0 = w ⟨0, by simp⟩ := hx.1 ⟨0, by simp⟩
  have x1 : x 1 = (starRingEnd ℂ) (w ⟨0, by simp⟩) := hx.2 ⟨0, by simp⟩
  have x2 : x 2 = 0 := h0 2 (by simp) (by simp)
  have hw0 : w ⟨0, by simp⟩ ≠ 0 := by
    intro h
    apply hw
    funext k
    obtain rfl : k = ⟨0, by simp⟩ := Fin.ext (by have := k.2; simp at this; simpa using this)
    exact h
  have hp : 0 < Complex.normSq (w ⟨0, by simp⟩) := Complex.normSq_pos.2 hw0
  have e : ∑ i : Fin [0].length, ‖w i‖ ^ 2 = Complex.normSq (w ⟨0, by simp⟩) := by
    rw [Complex.normSq_eq_norm_sq]; exact Fin.sum_univ_one _
  rw [e, exT_numCV]
  have h1 := Complex.mul_conj (w ⟨0, by simp⟩)
  simp only [Finset.sum_range_succ, Finset.sum_range_zero, x0, x1, x2, exT]
  norm_num
  rw [Complex.normSq_apply] at hp ⊢
  change 0 < (w 0).re * (w 0).re + (w 0).im * (w 0).im at hp
  linarith

/-- The example has a finite trace. -/
theorem exT_trace : exT.trace [0] [1] (-1) = some (.finite (cgiTrue exT [0] [1] (-1))) := by
  have h : ∀ β ∈ ndindex exT.batch, ‖(gM (exT.A β) [0] [1] (-1)).det‖ > 1e-12 := by
    intro β hβ
    have : β = [] := by simpa [exT, ndindex] using hβ
    rw [this, exT_det]
    norm_num
  unfold PolyExp.trace cgi1
  rw [if_neg (by simp), if_neg (by simp), if_neg (by simp [exT_numCV]), if_neg (by simp), if_neg (by simp [exT_numCV]), if_neg (by simp), if_pos h]

theorem exT_wf : exT.WF := ⟨by simp [exT], by simp [exT]⟩

/-- Non-vacuity of `C48_one_pair`: the traced ansatz at any value `u` of its one remaining variable is the integral. -/
example (u : ℂ) : (cgiTrue exT [0] [1] (-1)).call [] (fun _ => u) =
    pairIntegral 1 (-1) fun w => exT.call [] (fun i => if i = 0 then w 0 else if i = 1 then (starRingEnd ℂ) (w 0) else u) := by
  refine C48_one_pair exT _ exT_wf exT_sym 0 1 (-1) (by simp) (by
    have := exT_trace
    unfold PolyExp.trace at this
    rwa [if_neg (by simp), if_neg (by simp), if_neg (by simp [exT_numCV])] at this) [] (fun γ _ => exT_conv γ) (fun _ => u)
    (fun w i => if i = 0 then w else if i = 1 then (starRingEnd ℂ) w else u) (fun w => by simp) ?_
  intro w x hx
  have hx' : x < 1 := by
    have e : (cgiTrue exT [0] [1] (-1)).numCV = 1 := by decide
    omega
  obtain rfl : x = 0 := by omega
  rfl

/-! ### The sign -/

theorem X_neg {e : ℂ} (he : e.re < 0) (m : ℕ) : NegRe (e • (Matrix.fromBlocks 0 1 1 0 : Matrix (Fin m ⊕ Fin m) (Fin m ⊕ Fin m) ℂ)) := by
  intro w hw
  simp only [Matrix.smul_apply, smul_eq_mul, mul_assoc, ← Finset.mul_sum]
  simp only [← mul_assoc]
  rw [measure_quad]
  obtain ⟨i, hi⟩ := Function.ne_iff.1 hw
  have hp : 0 < ∑ i, ‖w i‖ ^ 2 :=
    Finset.sum_pos' (fun i _ => by positivity) ⟨i, Finset.mem_univ _, by have := norm_pos_iff.2 hi; positivity⟩
  rw [show e * (2 * ((∑ i, ‖w i‖ ^ 2 : ℝ) : ℂ)) = ((2 * ∑ i, ‖w i‖ ^ 2 : ℝ) : ℂ) * e by push_cast; ring, Complex.re_ofReal_mul]
  nlinarith

theorem X_symm (e : ℂ) (m : ℕ) : ∀ p q, (e • (Matrix.fromBlocks 0 1 1 0 : Matrix (Fin m ⊕ Fin m) (Fin m ⊕ Fin m) ℂ)) p q =
    (e • (Matrix.fromBlocks 0 1 1 0 : Matrix (Fin m ⊕ Fin m) (Fin m ⊕ Fin m) ℂ)) q p := by
  intro p q
  rcases p with i | i <;> rcases q with j | j <;> simp [Matrix.one_apply, eq_comm]

theorem X_cform (e : ℂ) (m : ℕ) (w : Fin m → ℂ) :
    cform (e • (Matrix.fromBlocks 0 1 1 0 : Matrix (Fin m ⊕ Fin m) (Fin m ⊕ Fin m) ℂ)) 0 w = ∑ i, e * ((‖w i‖ ^ 2 : ℝ) : ℂ) := by
  unfold cform
  simp only [Matrix.smul_apply, smul_eq_mul, mul_assoc, ← Finset.mul_sum]
  simp only [← mul_assoc]
  rw [measure_quad]
  simp only [Pi.zero_apply, zero_mul, Finset.sum_const_zero, add_zero]
  rw [Complex.ofReal_sum]
  ring

/-- The integral of `exp(e |w|²)` over `ℂ^m`, for any number of pairs. -/
theorem X_const {e : ℂ} (he : e.re < 0) (m : ℕ) :
    gaussConst (e • (Matrix.fromBlocks 0 1 1 0 : Matrix (Fin m ⊕ Fin m) (Fin m ⊕ Fin m) ℂ)) = (-e)⁻¹ ^ m := by
  set J : ℂ := ∫ x : ℂ, Complex.exp (e * ((‖x‖ ^ 2 : ℝ) : ℂ)) with hJ
  have hg : ∀ m : ℕ, gaussConst (e • (Matrix.fromBlocks 0 1 1 0 : Matrix (Fin m ⊕ Fin m) (Fin m ⊕ Fin m) ℂ)) = ((Real.pi : ℂ)⁻¹ * J) ^ m := by
    intro m
    unfold gaussConst
    simp only [X_cform, Complex.exp_sum]
    have := integral_fintype_prod_volume_eq_pow (ι := Fin m) (fun x : ℂ => Complex.exp (e * ((‖x‖ ^ 2 : ℝ) : ℂ)))
    rw [this, mul_pow, inv_pow, Fintype.card_fin]
  have he0 : e ≠ 0 := by rintro rfl; simp at he
  have h1 := gaussConst_one (X_symm e 1) (X_neg he 1) (by simp)
  rw [hg 1, pow_one, Matrix.det_smul, det_X] at h1
  rw [hg m, ← h1]
  congr 1
  apply sqrt_of_re_pos
  · simp
  · rw [Complex.inv_re]
    apply div_pos
    · simpa using he
    · exact Complex.normSq_pos.2 (neg_ne_zero.2 he0)

/-- Bargmann function of the operator `λ^n̂ ⊗ λ^n̂` on two modes, `λ = 1/2 + 3/4 i`: `exp(λ (z₀ z₂ + z₁ z₃))`.  Its trace is
`(∑ λ^n)² = 1 / (1 - λ)²`. -/
noncomputable def exS : PolyExp where
  batch := []
  linSup := false
  N := 4
  A := fun _ i j => if i + 2 = j ∨ j + 2 = i then 1 / 2 + 3 / 4 * Complex.I else 0
  b := fun _ _ => 0
  derived := []
  c := fun _ _ => 1

theorem exS_gM : gM (exS.A []) [0, 1] [2, 3] (-1) = (-1 / 2 + 3 / 4 * Complex.I) • (Matrix.fromBlocks 0 1 1 0 : Matrix (Fin 2 ⊕ Fin 2) (Fin 2 ⊕ Fin 2) ℂ) := by
  ext p q
  rcases p with i | i <;> rcases q with j | j <;> fin_cases i <;> fin_cases j <;>
      simp only [gM, pos, exS, Matrix.add_apply, Matrix.smul_apply, Matrix.of_apply, Matrix.fromBlocks_apply₁₁, Matrix.fromBlocks_apply₁₂,
        Matrix.fromBlocks_apply₂₁, Matrix.fromBlocks_apply₂₂, Sum.elim_inl, Sum.elim_inr, Matrix.one_apply, Matrix.zero_apply] <;> norm_num <;> ring

theorem exS_root : (((-1) ^ 2 : ℂ) / (gM (exS.A []) [0, 1] [2, 3] (-1)).det) ^ (1 / 2 : ℂ) = -(1 / (1 - (1 / 2 + 3 / 4 * Complex.I)) ^ 2) := by
  rw [exS_gM]
  have : Matrix.det ((-1 / 2 + 3 / 4 * Complex.I) • (Matrix.fromBlocks 0 1 1 0 : Matrix (Fin 2 ⊕ Fin 2) (Fin 2 ⊕ Fin 2) ℂ)) = (-1 / 2 + 3 / 4 * Complex.I) ^ 4 := by
    rw [Matrix.det_smul, det_X]; simp
  have hd : (1 - (1 / 2 + 3 / 4 * Complex.I)) ^ 2 = -5 / 16 - 3 / 4 * Complex.I := by
    ring_nf; rw [Complex.I_sq]; ring
  apply sqrt_of_re_pos
  · refine Eq.trans ?_ (congrArg (fun d => (-1 : ℂ) ^ 2 / d) this).symm
    have : (-1 / 2 + 3 / 4 * Complex.I) = -(1 - (1 / 2 + 3 / 4 * Complex.I)) := by ring
    rw [this, neg_sq, div_pow, ← pow_mul, one_pow, neg_one_sq, show (-(1 - (1 / 2 + 3 / 4 * Complex.I))) ^ 4 = (1 - (1 / 2 + 3 / 4 * Complex.I)) ^ (2 * 2) by ring]
  · rw [hd, one_div, ← inv_neg, Complex.inv_re]
    apply div_pos
    · norm_num
    · rw [Complex.normSq_pos]
      intro h
      have := congrArg Complex.re h
      norm_num at this

theorem exS_sym : SymAll exS := by
  intro β i _ j _
  simp only [exS, or_comm]

theorem exS_conv : Conv exS [] [0, 1] [2, 3] (-1) := by
  intro w hw x hx h0
  have x0 : x 0 = w 0 := hx.1 0
  have x1 : x 1 = w 1 := hx.1 1
  have x2 : x 2 = (starRingEnd ℂ) (w 0) := hx.2 0
  have x3 : x 3 = (starRingEnd ℂ) (w 1) := hx.2 1
  have hp : 0 < ‖w 0‖ ^ 2 + ‖w 1‖ ^ 2 := by
    obtain ⟨i, hi⟩ := Function.ne_iff.1 hw
    have hn := norm_pos_iff.2 hi
    have : i = 0 ∨ i = 1 := by
      have : ∀ i : Fin 2, i = 0 ∨ i = 1 := by decide
      exact this i
    rcases this with rfl | rfl <;> positivity
  have e : ∑ i : Fin [0, 1].length, ‖w i‖ ^ 2 = ‖w 0‖ ^ 2 + ‖w 1‖ ^ 2 := Fin.sum_univ_two _
  rw [e]
  rw [show exS.numCV = 4 from rfl]
  have q : (1 / 2 * ∑ i ∈ Finset.range 4, ∑ j ∈ Finset.range 4, x i * x j * exS.A [] i j : ℂ) =
      ((‖w 0‖ ^ 2 + ‖w 1‖ ^ 2 : ℝ) : ℂ) * (1 / 2 + 3 / 4 * Complex.I) := by
    have e0 : w 0 * (starRingEnd ℂ) (w 0) = ((‖w 0‖ ^ 2 : ℝ) : ℂ) := by rw [Complex.mul_conj, Complex.normSq_eq_norm_sq]
    have e1 : w 1 * (starRingEnd ℂ) (w 1) = ((‖w 1‖ ^ 2 : ℝ) : ℂ) := by rw [Complex.mul_conj, Complex.normSq_eq_norm_sq]
    rw [Complex.ofReal_add, ← e0, ← e1]
    simp only [Finset.sum_range_succ, Finset.sum_range_zero, x0, x1, x2, x3, exS]
    norm_num
    ring
  rw [q, Complex.re_ofReal_mul]
  norm_num
  linarith

/-- **C48** (the sign is not always right): the two-mode trace of `λ^n̂ ⊗ λ^n̂`, `λ = 1/2 + 3/4 i`, converges to `1 / (1 - λ)²`, but
`trace` returns the opposite. -/
theorem C48_wrong_sign : ∃ g, exS.trace [0, 1] [2, 3] (-1) = some (.finite g) ∧ Conv exS [] [0, 1] [2, 3] (-1) ∧
    g.call [] 0 = -(1 / (1 - (1 / 2 + 3 / 4 * Complex.I)) ^ 2) ∧
    ∀ W : (Fin 2 → ℂ) → ℕ → ℂ, (∀ w, Holds [0, 1] [2, 3] w (W w)) →
      (pairIntegral 2 (-1) fun w => exS.call [] (W w)) = 1 / (1 - (1 / 2 + 3 / 4 * Complex.I)) ^ 2 := by
  have hdet : ‖(gM (exS.A []) [0, 1] [2, 3] (-1)).det‖ > 1e-12 := by
    rw [exS_gM]
    have : Matrix.det ((-1 / 2 + 3 / 4 * Complex.I) • (Matrix.fromBlocks 0 1 1 0 : Matrix (Fin 2 ⊕ Fin 2) (Fin 2 ⊕ Fin 2) ℂ)) = (-1 / 2 + 3 / 4 * Complex.I) ^ 4 := by
      rw [Matrix.det_smul, det_X]; simp
    refine lt_of_lt_of_eq ?_ (congrArg norm this).symm
    rw [norm_pow]
    have h1 : (1 / 2 : ℝ) ≤ ‖(-1 / 2 + 3 / 4 * Complex.I : ℂ)‖ := by
      have := Complex.abs_re_le_norm (-1 / 2 + 3 / 4 * Complex.I : ℂ)
      norm_num at this ⊢
      exact this
    calc (1e-12 : ℝ) < (1 / 2) ^ 4 := by norm_num
      _ ≤ _ := pow_le_pow_left₀ (by norm_num) h1 4
  have hc : cgi1 exS [0, 1] [2, 3] (-1) = some (.finite (cgiTrue exS [0, 1] [2, 3] (-1))) := by
    have h : ∀ β ∈ ndindex exS.batch, ‖(gM (exS.A β) [0, 1] [2, 3] (-1)).det‖ > 1e-12 := by
      intro β hβ
      have : β = [] := by simpa [exS, ndindex] using hβ
      rw [this]
      exact hdet
    have h4 : exS.numCV = 4 := rfl
    unfold cgi1
    rw [if_neg (by simp), if_neg (by simp [h4]), if_neg (by simp), if_pos h]
  have hval : (cgiTrue exS [0, 1] [2, 3] (-1)).call [] 0 = -(1 / (1 - (1 / 2 + 3 / 4 * Complex.I)) ^ 2) := by
    rw [call_nls (by rfl)]
    unfold termAt termVal
    rw [show (cgiTrue exS [0, 1] [2, 3] (-1)).numCV = 0 by decide]
    have : (cgiTrue exS [0, 1] [2, 3] (-1)).derived = [] := rfl
    rw [this, nsum_nil]
    simp only [Finset.range_zero, Finset.sum_empty, mul_zero, add_zero, Complex.exp_zero, one_mul]
    rw [show toF [] = 0 by ext; simp [toF], amp_zero, mul_one]
    have e0 : ∀ p, exS.b [] (pos [0, 1] [2, 3] p) = 0 := fun p => rfl
    simp only [cgiTrue, e0, zero_mul, Finset.sum_const_zero, mul_zero, Complex.exp_zero, mul_one]
    refine Eq.trans (one_mul _) exS_root
  refine ⟨_, ?_, exS_conv, hval, ?_⟩
  · have h4 : exS.numCV = 4 := rfl
    unfold PolyExp.trace
    rw [if_neg (by simp), if_neg (by simp), if_neg (by simp [h4])]
    exact hc
  · intro W hW
    have wf : exS.WF := ⟨by simp [exS], by simp [exS]⟩
    have := (C48_aux wf exS_sym (by simp) hc exS_conv (-1) (fun _ => by
      refine Eq.trans exS_root ?_
      have hx := X_const (e := -1 / 2 + 3 / 4 * Complex.I) (by norm_num) 2
      rw [← exS_gM] at hx
      refine Eq.trans ?_ (congrArg (fun t => -1 * t) hx).symm
      rw [show -(-1 / 2 + 3 / 4 * Complex.I) = 1 - (1 / 2 + 3 / 4 * Complex.I) by ring]
      simp) (fun h => by simp at h) 0 W hW (fun w i hi => by
        rw [show (cgiTrue exS [0, 1] [2, 3] (-1)).numCV = 0 by decide] at hi
        omega)).2
    rw [← call_nls (f := cgiTrue exS [0, 1] [2, 3] (-1)) (by rfl), hval, neg_one_mul, neg_inj] at this
    rw [this]
    rfl

end Verif.PolyExp
