import Verif.Inverse

/-!
# `Transformation.inverse` is the inverse (C96)
-/

namespace Verif.Manifold
open Matrix Verif.Gauss Verif.Fock

variable {ι W : Type*} [Fintype ι] [DecidableEq ι] [Fintype W] [DecidableEq W]

/-! ## Specification -/

/-- The integral over the shared wires of `F ∘ G` converges: the quadratic part of the exponent, `u` at the outputs of the second triple and
`ū` at the inputs of the first one, is dominated by `|u|²`. -/
def Converges (e : ι ⊕ ι ≃ W) (F G : Matrix W W ℂ × (W → ℂ) × ℂ) : Prop :=
  ∀ u : ι → ℂ, u ≠ 0 → (1 / 2 * ∑ i, ∑ j, G.1 (e (Sum.inl i)) (e (Sum.inl j)) * u i * u j +
    1 / 2 * ∑ i, ∑ j, F.1 (e (Sum.inr i)) (e (Sum.inr j)) * (starRingEnd ℂ) (u i) * (starRingEnd ℂ) (u j)).re < ∑ i, ‖u i‖ ^ 2

/-- Exchanging the wires by `σ` on the inputs and on the outputs conjugates the kernel (`σ` exchanges bra and ket wires: the map preserves
hermiticity). -/
def HermPres (e : ι ⊕ ι ≃ W) (T : Matrix W W ℂ × (W → ℂ) × ℂ) (σ : ι ≃ ι) : Prop :=
  ∀ p q, T.1 (e (Sum.map σ σ p)) (e (Sum.map σ σ q)) = (starRingEnd ℂ) (T.1 (e p) (e q))

/-! ## Proofs -/

theorem sqrt_mul_sqrt_inv {x : ℂ} (hx : x ≠ 0) : x ^ (1 / 2 : ℂ) * (1 / x) ^ (1 / 2 : ℂ) = if x.arg = Real.pi then -1 else 1 := by
  have hp : x ^ (1 / 2 : ℂ) ≠ 0 := by rw [Ne, Complex.cpow_eq_zero_iff]; exact fun h => hx h.1
  rw [one_div x, Complex.inv_cpow_eq_ite]
  split_ifs with h
  · have hc : (starRingEnd ℂ) (1 / 2 : ℂ) = 1 / 2 := by simp [Complex.conj_ofNat]
    rw [hc]
    have hxr : x = -((‖x‖ : ℝ) : ℂ) := by
      conv_lhs => rw [← Complex.norm_mul_exp_arg_mul_I x, h, Complex.exp_pi_mul_I]
      ring
    have hsq : (x ^ (1 / 2 : ℂ)) ^ 2 = x := sqrt_sq x
    have hre : (x ^ (1 / 2 : ℂ)).re = 0 := by
      rw [Complex.cpow_def_of_ne_zero hx, Complex.exp_re]
      have : (Complex.log x * (1 / 2)).im = Real.pi / 2 := by
        rw [show (1 / 2 : ℂ) = ((1 / 2 : ℝ) : ℂ) by norm_num, Complex.im_mul_ofReal, Complex.log_im, h]; ring
      rw [this, Real.cos_pi_div_two, mul_zero]
    obtain ⟨y, hy⟩ : ∃ y, y = x ^ (1 / 2 : ℂ) := ⟨_, rfl⟩
    rw [← hy] at hp hre ⊢
    have hcy : (starRingEnd ℂ) y = -y := by
      apply Complex.ext
      · simp [hre]
      · simp
    rw [map_inv₀, hcy]
    field_simp
  · exact mul_inv_cancel₀ hp

/-- Everything about `inverse`, in blocks. -/
theorem inverse_core {e : ι ⊕ ι ≃ W} {T V : Matrix W W ℂ × (W → ℂ) × ℂ} (hs : T.1ᵀ = T.1) (hc : T.2.2 ≠ 0) (hV : inverseT e T = some V) :
    T.1.det ≠ 0 ∧ (T.1.submatrix (e ∘ Sum.inl) (e ∘ Sum.inr)).det ≠ 0 ∧ V.1ᵀ = V.1 ∧
    ∃ a g d d' K a' bo bi, InvBlocks a g d d' K a' ∧ onSum e T = (fromBlocks a g gᵀ d, Sum.elim bo bi, T.2.2) ∧ onSum e V = invBlk d' K a' bo bi V.2.2 ∧
      (-1) ^ Fintype.card ι * (T.1.submatrix (e ∘ Sum.inl) (e ∘ Sum.inr)).det ^ 2 / T.1.det = (Kᵀ * gᵀ).det ∧ (Kᵀ * gᵀ).det ≠ 0 ∧
      ∀ κ z w, mulK κ (onSum e V) (onSum e T) z w = (Kᵀ * gᵀ).det ^ (1 / 2 : ℂ) * κ * opId z w ∧
        mulK κ (onSum e T) (onSum e V) z w = (Kᵀ * gᵀ).det ^ (1 / 2 : ℂ) * κ * opId z w := by
  have hd : T.1.det ≠ 0 := by
    intro h
    unfold inverseT at hV
    dsimp only at hV
    rw [(inv_At e T.1).1, Matrix.det_submatrix_equiv_self, if_pos (Or.inl h)] at hV
    exact absurd hV (by simp)
  obtain ⟨a, g, d, d', K, a', bo, bi, hI, eT, -, hV'⟩ := inverseT_spec e T hs hd
  obtain ⟨eV, hg, hK, hcV, -, hx⟩ := hV' V hV
  have eg : T.1.submatrix (e ∘ Sum.inl) (e ∘ Sum.inr) = g := by
    have h1 : (onSum e T).1.toBlocks₁₂ = g := by rw [eT]; exact toBlocks_fromBlocks₁₂ _ _ _ _
    exact h1
  have hx0 : (Kᵀ * gᵀ).det ≠ 0 := by
    rw [det_mul, det_transpose, det_transpose]; exact mul_ne_zero hK.ne_zero hg.ne_zero
  have hM1 : IsUnit (fromBlocks a (-1) (-1) d').det := by
    rw [isUnit_iff_ne_zero]
    intro h
    have := det_overlap a d'
    rw [h, mul_zero, hI.one_sub.1] at this
    exact hx0 this.symm
  have hM2 : IsUnit (fromBlocks a' (-1) (-1) d).det := by
    rw [isUnit_iff_ne_zero]
    intro h
    have := det_overlap a' d
    rw [h, mul_zero, hI.one_sub.2, det_mul, mul_comm, ← det_mul] at this
    exact hx0 this.symm
  have hE : ∀ κ : ℂ, V.2.2 * T.2.2 * κ * Complex.exp (-(1 / 2 * (bo ⬝ᵥ (d'.mulVec bo + Kᵀ.mulVec bi) + bi ⬝ᵥ (K.mulVec bo + a'.mulVec bi)))) =
      (Kᵀ * gᵀ).det ^ (1 / 2 : ℂ) * κ := by
    intro κ
    rw [hcV, Complex.exp_neg]
    generalize hq : Complex.exp (1 / 2 * (bo ⬝ᵥ (d'.mulVec bo + Kᵀ.mulVec bi) + bi ⬝ᵥ (K.mulVec bo + a'.mulVec bi))) = q
    have hq0 : q ≠ 0 := by rw [← hq]; exact Complex.exp_ne_zero _
    field_simp
  have hVs : V.1ᵀ = V.1 := by
    have h1 : (V.1.submatrix e e)ᵀ = V.1.submatrix e e := by
      have : V.1.submatrix e e = fromBlocks a' K Kᵀ d' := congrArg (fun t => t.1) eV
      rw [this, fromBlocks_transpose, hI.sa', hI.sd', transpose_transpose]
    ext i j
    have := congrFun (congrFun h1 (e.symm i)) (e.symm j)
    simpa using this
  refine ⟨hd, by rw [eg]; exact hg.ne_zero, hVs, a, g, d, d', K, a', bo, bi, hI, eT, eV, ?_, hx0, ?_⟩
  · rw [eg]; exact hx.symm
  · intro κ z w
    rw [eV, eT, mulK_left hI hK _ _ _ _ _ hM1, mulK_right hI hg _ _ _ _ _ hM2, hE]
    exact ⟨rfl, rfl⟩

theorem negRe_of_converges {e : ι ⊕ ι ≃ W} {F G : Matrix W W ℂ × (W → ℂ) × ℂ} (h : Converges e F G) :
    NegRe (fromBlocks (onSum e G).1.toBlocks₁₁ (-1) (-1) (onSum e F).1.toBlocks₂₂) := by
  intro u hu
  have := h u hu
  rw [overlap_quad]
  have e1 : ∑ i, ∑ j, G.1 (e (Sum.inl i)) (e (Sum.inl j)) * u i * u j = u ⬝ᵥ (onSum e G).1.toBlocks₁₁.mulVec u := quad_mulVec _ u
  have e2 : ∑ i, ∑ j, F.1 (e (Sum.inr i)) (e (Sum.inr j)) * (starRingEnd ℂ) (u i) * (starRingEnd ℂ) (u j) =
      star u ⬝ᵥ (onSum e F).1.toBlocks₂₂.mulVec (star u) := quad_mulVec _ (star u)
  have e3 : u ⬝ᵥ star u = ((∑ i, ‖u i‖ ^ 2 : ℝ) : ℂ) := by
    push_cast
    refine Finset.sum_congr rfl fun i _ => ?_
    rw [Pi.star_apply, Complex.star_def, Complex.mul_conj, Complex.normSq_eq_norm_sq]
    push_cast
    rfl
  rw [e1, e2] at this
  rw [e3, Complex.sub_re, show (2 : ℂ) * ((∑ i, ‖u i‖ ^ 2 : ℝ) : ℂ) = ((2 * ∑ i, ‖u i‖ ^ 2 : ℝ) : ℂ) by push_cast; ring, Complex.ofReal_re]
  rw [← mul_add, show (1 / 2 : ℂ) = ((1 / 2 : ℝ) : ℂ) by norm_num, Complex.re_ofReal_mul] at this
  linarith

/-- **C96 (when it is defined)** `inverse` raises exactly when `A`, or its block between outputs and inputs, is singular. -/
theorem C96_defined (e : ι ⊕ ι ≃ W) (T : Matrix W W ℂ × (W → ℂ) × ℂ) (hs : T.1ᵀ = T.1) :
    inverseT e T = none ↔ T.1.det = 0 ∨ (T.1.submatrix (e ∘ Sum.inl) (e ∘ Sum.inr)).det = 0 := by
  by_cases hd : T.1.det = 0
  · refine ⟨fun _ => Or.inl hd, fun _ => ?_⟩
    unfold inverseT
    dsimp only
    rw [(inv_At e T.1).1, Matrix.det_submatrix_equiv_self, if_pos (Or.inl hd)]
  · obtain ⟨a, g, d, d', K, a', bo, bi, hI, eT, hn, -⟩ := inverseT_spec e T hs hd
    have eg : T.1.submatrix (e ∘ Sum.inl) (e ∘ Sum.inr) = g := by
      have h1 : (onSum e T).1.toBlocks₁₂ = g := by rw [eT]; exact toBlocks_fromBlocks₁₂ _ _ _ _
      exact h1
    rw [hn, eg]
    simp [hd]

/-- **C96 (contraction)** Contracting a transformation with its inverse, in either order and whether or not the integral converges, the code
returns the identity — with the sign `-1` exactly when `(-1)^m det(g)² / det(A)` is a negative real number. -/
theorem C96_formal (e : ι ⊕ ι ≃ W) (T V : Matrix W W ℂ × (W → ℂ) × ℂ) (hs : T.1ᵀ = T.1) (hc : T.2.2 ≠ 0) (hV : inverseT e T = some V) (z w : ι → ℂ) :
    formalMul (onSum e V) (onSum e T) z w =
      (if ((-1) ^ Fintype.card ι * (T.1.submatrix (e ∘ Sum.inl) (e ∘ Sum.inr)).det ^ 2 / T.1.det).arg = Real.pi then -1 else 1) *
        Complex.exp (∑ i, z i * w i) ∧
    formalMul (onSum e T) (onSum e V) z w =
      (if ((-1) ^ Fintype.card ι * (T.1.submatrix (e ∘ Sum.inl) (e ∘ Sum.inr)).det ^ 2 / T.1.det).arg = Real.pi then -1 else 1) *
        Complex.exp (∑ i, z i * w i) := by
  obtain ⟨-, -, -, a, g, d, d', K, a', bo, bi, hI, eT, eV, hx, hx0, hm⟩ := inverse_core hs hc hV
  have hq : ((-1 : ℂ) ^ Fintype.card ι) ≠ 0 := pow_ne_zero _ (by norm_num)
  have hq2 : ((-1 : ℂ) ^ Fintype.card ι) * (-1) ^ Fintype.card ι = 1 := by rw [← mul_pow]; norm_num
  have k1 : (-1) ^ Fintype.card ι / (fromBlocks (onSum e T).1.toBlocks₁₁ (-1) (-1) (onSum e V).1.toBlocks₂₂).det = 1 / (Kᵀ * gᵀ).det := by
    rw [eV, eT]
    unfold invBlk
    rw [toBlocks_fromBlocks₁₁, toBlocks_fromBlocks₂₂, ← hI.one_sub.1, ← det_overlap, one_div, _root_.mul_inv_rev, div_eq_mul_inv, mul_comm,
      inv_eq_of_mul_eq_one_left hq2]
  have k2 : (-1) ^ Fintype.card ι / (fromBlocks (onSum e V).1.toBlocks₁₁ (-1) (-1) (onSum e T).1.toBlocks₂₂).det = 1 / (Kᵀ * gᵀ).det := by
    rw [eV, eT]
    unfold invBlk
    rw [toBlocks_fromBlocks₁₁, toBlocks_fromBlocks₂₂, det_mul, mul_comm Kᵀ.det, ← det_mul, ← hI.one_sub.2, ← det_overlap, one_div, _root_.mul_inv_rev, div_eq_mul_inv, mul_comm,
      inv_eq_of_mul_eq_one_left hq2]
  rw [formalMul_eq, formalMul_eq, k1, k2, (hm _ z w).1, (hm _ z w).2, sqrt_mul_sqrt_inv hx0, hx]
  exact ⟨rfl, rfl⟩

/-- The constant of the integral, given that it converges. -/
theorem sign_of_const {x κ : ℂ} (hx : x ≠ 0) (h2 : κ ^ 2 = 1 / x) : ∃ ε : ℂ, (ε = 1 ∨ ε = -1) ∧ x ^ (1 / 2 : ℂ) * κ = ε ∧ (0 < κ.re → ε = 1) := by
  have hs := sqrt_sq x
  have hsq : (x ^ (1 / 2 : ℂ) * κ) ^ 2 = 1 := by rw [mul_pow, hs, h2]; field_simp
  refine ⟨_, mul_self_eq_one_iff.1 (by rw [← pow_two]; exact hsq), rfl, ?_⟩
  intro hre
  have e1 := sqrt_of_re_pos h2 hre
  rw [← e1, sqrt_mul_sqrt_inv hx, if_neg]
  intro ha
  have : (1 / x : ℂ) = -((‖1 / x‖ : ℝ) : ℂ) := by
    have hxr : x = -((‖x‖ : ℝ) : ℂ) := by
      conv_lhs => rw [← Complex.norm_mul_exp_arg_mul_I x, ha, Complex.exp_pi_mul_I]
      ring
    rw [norm_div, norm_one]
    conv_lhs => rw [hxr]
    push_cast
    rw [div_neg]
  rw [this] at h2
  have him := congrArg Complex.im h2
  have hr := congrArg Complex.re h2
  rw [pow_two] at him hr
  simp only [Complex.mul_im, Complex.mul_re, Complex.neg_im, Complex.neg_re, Complex.ofReal_im, Complex.ofReal_re, neg_zero] at him hr
  have hi0 : κ.im = 0 := by
    have : κ.re * κ.im = 0 := by linarith
    rcases mul_eq_zero.1 this with h | h
    · exact absurd h hre.ne'
    · exact h
  rw [hi0, mul_zero, sub_zero] at hr
  have := norm_nonneg (1 / x)
  nlinarith

open Complex in
/-- For a single pair of wires the constant has positive real part. -/
theorem gaussConst_one_pos {M : Matrix (ι ⊕ ι) (ι ⊕ ι) ℂ} (hs : ∀ p q, M p q = M q p) (h : NegRe M) (h1 : Fintype.card ι = 1) :
    0 < (gaussConst M).re := by
  obtain ⟨q, hq, hd, hi⟩ := integral_form (Qof_symm hs) h.pos
  have i0 := hi 0 0 (by simp)
  unfold gaussConst
  rw [integral_cplx]
  have e : ∀ ξ : ι ⊕ ι → ℝ, cform M 0 (cplx ξ) = form (Qof M) 0 ξ := fun ξ => by
    rw [← form_Qof, Matrix.mulVec_zero]
  simp only [e]
  rw [i0]
  simp only [Pi.zero_apply, zero_mul, Finset.sum_const_zero, mul_zero, Complex.exp_zero, mul_one]
  have hc : Fintype.card (ι ⊕ ι) = 2 := by rw [Fintype.card_sum, h1]
  have hpair : ∀ {k : ℕ} (q : Fin k → ℂ), k = 2 → (∀ i, 0 < (q i).re) → 0 < (∏ i, (2 * Real.pi / q i) ^ (1 / 2 : ℂ)).re := by
    intro k q hk hq
    subst hk
    rw [Fin.prod_univ_two, mul_re]
    have hpos : ∀ i, 0 < (2 * (Real.pi : ℂ) / q i).re := by
      intro i
      have hqi : 0 < normSq (q i) := normSq_pos.2 (by intro e; have := hq i; rw [e] at this; simp at this)
      rw [div_eq_mul_inv, show (2 * (Real.pi : ℂ)) = ((2 * Real.pi : ℝ) : ℂ) by push_cast; rfl, re_ofReal_mul, inv_re]
      have := hq i
      have := Real.pi_pos
      positivity
    have a := sqrt_cone (hpos 0)
    have b := sqrt_cone (hpos 1)
    set u := (2 * (Real.pi : ℂ) / q 0) ^ (1 / 2 : ℂ)
    set v := (2 * (Real.pi : ℂ) / q 1) ^ (1 / 2 : ℂ)
    have h1 : u.im * v.im ≤ |u.im| * |v.im| := by rw [← abs_mul]; exact le_abs_self _
    have h2 : |u.im| * |v.im| < u.re * v.re := mul_lt_mul'' a b (abs_nonneg _) (abs_nonneg _)
    linarith
  rw [h1, pow_one, ← ofReal_inv, re_ofReal_mul]
  exact mul_pos (inv_pos.2 Real.pi_pos) (hpair q hc hq)

theorem InvBlocks.inv {a g d d' K a' : Matrix ι ι ℂ} (h : InvBlocks a g d d' K a') : (fromBlocks a g gᵀ d)⁻¹ = fromBlocks d' Kᵀ K a' := by
  apply inv_eq_right_inv
  rw [fromBlocks_multiply, h.h11, h.h12, h.h21, h.h22, fromBlocks_one]

/-- The constant of an overlap matrix `[[P, -1], [-1, Q]]` whose determinant is `±x`. -/
theorem overlap_sign {P Q : Matrix ι ι ℂ} (hP : Pᵀ = P) (hQ : Qᵀ = Q) (hN : NegRe (fromBlocks P (-1) (-1) Q)) {x : ℂ} (hx0 : x ≠ 0)
    (hx : (1 - Q * P).det = x) :
    ∃ ε : ℂ, (ε = 1 ∨ ε = -1) ∧ x ^ (1 / 2 : ℂ) * gaussConst (fromBlocks P (-1) (-1) Q) = ε ∧ (Fintype.card ι = 1 → ε = 1) ∧
      ∀ σ : ι ≃ ι, (∀ i j, P (σ i) (σ j) = (starRingEnd ℂ) (P i j)) → (∀ i j, Q (σ i) (σ j) = (starRingEnd ℂ) (Q i j)) → ε = 1 := by
  have hsy : ∀ i j, (fromBlocks P (-1) (-1) Q) i j = (fromBlocks P (-1) (-1) Q) j i := by
    have : (fromBlocks P (-1) (-1) Q)ᵀ = fromBlocks P (-1) (-1) Q := by
      rw [fromBlocks_transpose, hP, hQ, transpose_neg, transpose_one]
    intro i j
    conv_lhs => rw [← this]
    rfl
  have hq2 : ((-1 : ℂ) ^ Fintype.card ι) * (-1) ^ Fintype.card ι = 1 := by rw [← mul_pow]; norm_num
  have h2 : gaussConst (fromBlocks P (-1) (-1) Q) ^ 2 = 1 / x := by
    rw [gaussConst_sq hsy hN, ← hx, ← det_overlap, one_div, _root_.mul_inv_rev, div_eq_mul_inv, mul_comm, inv_eq_of_mul_eq_one_left hq2]
  obtain ⟨ε, h1, h3, h4⟩ := sign_of_const hx0 h2
  refine ⟨ε, h1, h3, fun h => h4 (gaussConst_one_pos hsy hN h), fun σ h5 h6 => h4 (gaussConst_pos_of_herm σ hsy hN ?_)⟩
  intro p q
  rcases p with i | i <;> rcases q with j | j
  · exact h5 i j
  · simp [Matrix.one_apply, apply_ite]
  · simp [Matrix.one_apply, apply_ite]
  · exact h6 i j

/-- The inverse of a map that preserves hermiticity preserves hermiticity. -/
theorem herm_blocks {e : ι ⊕ ι ≃ W} {T : Matrix W W ℂ × (W → ℂ) × ℂ} {a g d d' K a' : Matrix ι ι ℂ} (hI : InvBlocks a g d d' K a')
    (eT : (onSum e T).1 = fromBlocks a g gᵀ d) {σ : ι ≃ ι} (hσ : HermPres e T σ) :
    ((∀ i j, a (σ i) (σ j) = (starRingEnd ℂ) (a i j)) ∧ ∀ i j, d' (σ i) (σ j) = (starRingEnd ℂ) (d' i j)) ∧
    (∀ i j, a' (σ i) (σ j) = (starRingEnd ℂ) (a' i j)) ∧ ∀ i j, d (σ i) (σ j) = (starRingEnd ℂ) (d i j) := by
  have h5 : (fromBlocks a g gᵀ d).submatrix (Equiv.sumCongr σ σ) (Equiv.sumCongr σ σ) = cj (fromBlocks a g gᵀ d) := by
    rw [← eT]
    ext p q
    exact hσ p q
  have h6 := congrArg Inv.inv h5
  rw [Matrix.inv_submatrix_equiv, ← cj_inv, hI.inv] at h6
  exact ⟨⟨fun i j => congrFun (congrFun h5 (Sum.inl i)) (Sum.inl j), fun i j => congrFun (congrFun h6 (Sum.inl i)) (Sum.inl j)⟩,
    fun i j => congrFun (congrFun h6 (Sum.inr i)) (Sum.inr j), fun i j => congrFun (congrFun h5 (Sum.inr i)) (Sum.inr j)⟩

/-- **C96 (left inverse)** Whenever the integral converges, the operator returned by `inverse` composed with the transformation is the identity,
up to a sign; the sign is `+` for one wire, and for maps that preserve hermiticity (such as channels) on any number of modes. -/
theorem C96_left (e : ι ⊕ ι ≃ W) (T V : Matrix W W ℂ × (W → ℂ) × ℂ) (hs : T.1ᵀ = T.1) (hc : T.2.2 ≠ 0) (hV : inverseT e T = some V)
    (hcv : Converges e V T) :
    ∃ ε : ℂ, (ε = 1 ∨ ε = -1) ∧ (∀ z w, opMul (transFun e V) (transFun e T) z w = ε * opId z w) ∧
      (Fintype.card ι = 1 → ε = 1) ∧ ∀ σ, HermPres e T σ → ε = 1 := by
  obtain ⟨hd, -, -, a, g, d, d', K, a', bo, bi, hI, eT, eV, hx, hx0, hm⟩ := inverse_core hs hc hV
  have hN := negRe_of_converges hcv
  have hM : fromBlocks (onSum e T).1.toBlocks₁₁ (-1) (-1) (onSum e V).1.toBlocks₂₂ = fromBlocks a (-1) (-1) d' := by
    rw [eT, eV]; unfold invBlk; rw [toBlocks_fromBlocks₁₁, toBlocks_fromBlocks₂₂]
  rw [hM] at hN
  obtain ⟨ε, h1, h3, h4, h5⟩ := overlap_sign hI.sa hI.sd' hN hx0 (by rw [hI.one_sub.1])
  refine ⟨ε, h1, ?_, h4, fun σ hσ => ?_⟩
  · intro z w
    have := (hm (gaussConst (fromBlocks a (-1) (-1) d')) z w).1
    rw [h3] at this
    rw [← this, transFun_eq, transFun_eq, eT, eV]
    unfold invBlk
    exact opMul_bargOp rfl rfl hI.sd' hI.sa hN _ _ _ _ _ _ z w
  · obtain ⟨⟨q1, q2⟩, -⟩ := herm_blocks hI (congrArg (fun t => t.1) eT) hσ
    exact h5 σ q1 q2

/-- **C96 (right inverse)** The same in the other order. -/
theorem C96_right (e : ι ⊕ ι ≃ W) (T V : Matrix W W ℂ × (W → ℂ) × ℂ) (hs : T.1ᵀ = T.1) (hc : T.2.2 ≠ 0) (hV : inverseT e T = some V)
    (hcv : Converges e T V) :
    ∃ ε : ℂ, (ε = 1 ∨ ε = -1) ∧ (∀ z w, opMul (transFun e T) (transFun e V) z w = ε * opId z w) ∧
      (Fintype.card ι = 1 → ε = 1) ∧ ∀ σ, HermPres e T σ → ε = 1 := by
  obtain ⟨hd, -, -, a, g, d, d', K, a', bo, bi, hI, eT, eV, hx, hx0, hm⟩ := inverse_core hs hc hV
  have hN := negRe_of_converges hcv
  have hM : fromBlocks (onSum e V).1.toBlocks₁₁ (-1) (-1) (onSum e T).1.toBlocks₂₂ = fromBlocks a' (-1) (-1) d := by
    rw [eT, eV]; unfold invBlk; rw [toBlocks_fromBlocks₁₁, toBlocks_fromBlocks₂₂]
  rw [hM] at hN
  obtain ⟨ε, h1, h3, h4, h5⟩ := overlap_sign hI.sa' hI.sd hN hx0 (by rw [hI.one_sub.2, det_mul, mul_comm, ← det_mul])
  refine ⟨ε, h1, ?_, h4, fun σ hσ => ?_⟩
  · intro z w
    have := (hm (gaussConst (fromBlocks a' (-1) (-1) d)) z w).2
    rw [h3] at this
    rw [← this, transFun_eq, transFun_eq, eT, eV]
    unfold invBlk
    exact opMul_bargOp rfl rfl hI.sd hI.sa' hN _ _ _ _ _ _ z w
  · obtain ⟨-, q1, q2⟩ := herm_blocks hI (congrArg (fun t => t.1) eT) hσ
    exact h5 σ q1 q2

/-! ## Example: a transformation that is not unitary, on any number of modes -/

/-- `2 exp(z²/8 + z·w/2 + w²/8 + Σz + iΣw)`. -/
noncomputable def exT (ι : Type*) [DecidableEq ι] : Matrix (ι ⊕ ι) (ι ⊕ ι) ℂ × (ι ⊕ ι → ℂ) × ℂ :=
  (fromBlocks ((1 / 4 : ℂ) • 1) ((1 / 2 : ℂ) • 1) ((1 / 2 : ℂ) • 1) ((1 / 4 : ℂ) • 1), Sum.elim 1 (Complex.I • 1), 2)

theorem exT_inv : ((exT ι).1.submatrix (swapIO (Equiv.refl _)) (swapIO (Equiv.refl _)))⁻¹ =
    fromBlocks ((-4 / 3 : ℂ) • 1) ((8 / 3 : ℂ) • 1) ((8 / 3 : ℂ) • 1) ((-4 / 3 : ℂ) • 1) := by
  have h : (exT ι).1.submatrix (swapIO (Equiv.refl (ι ⊕ ι))) (swapIO (Equiv.refl _)) = (exT ι).1 := by
    ext i j
    rcases i with i | i <;> rcases j with j | j <;> rfl
  rw [h]
  apply inv_eq_right_inv
  unfold exT
  rw [fromBlocks_multiply, ← fromBlocks_one]
  simp only [Matrix.smul_mul, Matrix.mul_smul, Matrix.mul_one, smul_smul, ← add_smul]
  norm_num

/-- **C96 (example)** The inverse exists, is unbounded, the integrals converge, and it is the inverse with the right sign. -/
theorem C96_example : ∃ V, inverseT (Equiv.refl _) (exT ι) = some V ∧ V.1 = fromBlocks ((-4 / 3 : ℂ) • 1) ((8 / 3 : ℂ) • 1) ((8 / 3 : ℂ) • 1) ((-4 / 3 : ℂ) • 1) ∧
    Converges (Equiv.refl _) V (exT ι) ∧ Converges (Equiv.refl _) (exT ι) V ∧
    (∀ z w, opMul (transFun (Equiv.refl _) V) (transFun (Equiv.refl _) (exT ι)) z w = opId z w) ∧
    ∀ z w, opMul (transFun (Equiv.refl _) (exT ι)) (transFun (Equiv.refl _) V) z w = opId z w := by
  have hs : (exT ι).1ᵀ = (exT ι).1 := by
    unfold exT
    simp [fromBlocks_transpose]
  have hg : ((exT ι).1.submatrix ((Equiv.refl (ι ⊕ ι)) ∘ Sum.inl) ((Equiv.refl (ι ⊕ ι)) ∘ Sum.inr)).det ≠ 0 := by
    have : (exT ι).1.submatrix ((Equiv.refl (ι ⊕ ι)) ∘ Sum.inl) ((Equiv.refl (ι ⊕ ι)) ∘ Sum.inr) = (1 / 2 : ℂ) • 1 := by
      ext i j; rfl
    rw [this, det_smul, det_one, mul_one]
    exact pow_ne_zero _ (by norm_num)
  have hd : (exT ι).1.det ≠ 0 := by
    intro h0
    have h : (exT ι).1 * fromBlocks ((-4 / 3 : ℂ) • 1) ((8 / 3 : ℂ) • 1) ((8 / 3 : ℂ) • 1) ((-4 / 3 : ℂ) • 1) = 1 := by
      unfold exT
      rw [fromBlocks_multiply, ← fromBlocks_one]
      simp only [Matrix.smul_mul, Matrix.mul_smul, Matrix.mul_one, smul_smul, ← add_smul]
      norm_num
    have := congrArg det h
    rw [det_mul, h0, zero_mul, det_one] at this
    exact zero_ne_one this
  obtain ⟨V, hV⟩ : ∃ V, inverseT (Equiv.refl _) (exT ι) = some V := by
    rcases hq : inverseT (Equiv.refl _) (exT ι) with _ | V
    · rcases (C96_defined _ _ hs).1 hq with h | h
      · exact absurd h hd
      · exact absurd h hg
    · exact ⟨V, rfl⟩
  have hV1 : V.1 = fromBlocks ((-4 / 3 : ℂ) • 1) ((8 / 3 : ℂ) • 1) ((8 / 3 : ℂ) • 1) ((-4 / 3 : ℂ) • 1) := by
    have h := hV
    unfold inverseT at h
    dsimp only at h
    rw [(inv_At _ _).1] at h
    split_ifs at h
    rw [← Option.some.inj h, ← exT_inv]
  have hsum : ∀ (k : ℂ) (f : ι → ℂ), ∑ i, ∑ j, (k • (1 : Matrix ι ι ℂ)) i j * f i * f j = k * ∑ i, f i * f i := by
    intro k f
    rw [quad_mulVec, Matrix.smul_mulVec, Matrix.one_mulVec, dotProduct_smul, smul_eq_mul]
    rfl
  have hbound : ∀ u : ι → ℂ, u ≠ 0 → ∀ x y : ℝ, |x| + |y| < 2 →
      (1 / 2 * ((x : ℂ) * ∑ i, u i * u i) + 1 / 2 * ((y : ℂ) * ∑ i, (starRingEnd ℂ) (u i) * (starRingEnd ℂ) (u i))).re < ∑ i, ‖u i‖ ^ 2 := by
    intro u hu x y hxy
    have hpos : 0 < ∑ i, ‖u i‖ ^ 2 := by
      obtain ⟨i, hi⟩ := Function.ne_iff.1 hu
      exact Finset.sum_pos' (fun _ _ => by positivity) ⟨i, Finset.mem_univ i, by have := norm_pos_iff.2 hi; positivity⟩
    have hn : ∀ f : ι → ℂ, ‖∑ i, f i * f i‖ ≤ ∑ i, ‖f i‖ ^ 2 := fun f =>
      (norm_sum_le _ _).trans (le_of_eq (Finset.sum_congr rfl fun i _ => by rw [norm_mul, pow_two]))
    have h1 := hn u
    have h2 := hn fun i => (starRingEnd ℂ) (u i)
    simp only [RCLike.norm_conj] at h2
    refine lt_of_le_of_lt (Complex.re_le_norm _) ?_
    refine lt_of_le_of_lt (norm_add_le _ _) ?_
    rw [norm_mul, norm_mul, norm_mul, norm_mul, Complex.norm_real, Complex.norm_real, Real.norm_eq_abs, Real.norm_eq_abs]
    have h3 := mul_le_mul_of_nonneg_left h1 (abs_nonneg x)
    have h4 := mul_le_mul_of_nonneg_left h2 (abs_nonneg y)
    norm_num
    nlinarith
  have c1 : Converges (Equiv.refl _) V (exT ι) := by
    intro u hu
    have e1 := hsum (1 / 4) u
    have e2 := hsum (-4 / 3) fun i => (starRingEnd ℂ) (u i)
    have := hbound u hu (1 / 4) (-4 / 3) (by norm_num [abs_of_pos, abs_of_neg])
    push_cast at this
    rw [← e1, ← e2] at this
    rw [hV1]
    exact this
  have c2 : Converges (Equiv.refl _) (exT ι) V := by
    intro u hu
    have e1 := hsum (-4 / 3) u
    have e2 := hsum (1 / 4) fun i => (starRingEnd ℂ) (u i)
    have := hbound u hu (-4 / 3) (1 / 4) (by norm_num [abs_of_pos, abs_of_neg])
    push_cast at this
    rw [← e1, ← e2] at this
    rw [hV1]
    exact this
  have hherm : HermPres (Equiv.refl _) (exT ι) (Equiv.refl ι) := by
    intro p q
    rcases p with i | i <;> rcases q with j | j <;> simp [exT, Matrix.one_apply, apply_ite, Complex.conj_ofNat]
  have hc : (exT ι).2.2 ≠ 0 := by unfold exT; norm_num
  obtain ⟨ε, -, l1, -, l2⟩ := C96_left _ _ V hs hc hV c1
  obtain ⟨ε', -, r1, -, r2⟩ := C96_right _ _ V hs hc hV c2
  rw [l2 _ hherm] at l1
  rw [r2 _ hherm] at r1
  exact ⟨V, hV, hV1, c1, c2, fun z w => by rw [l1, one_mul], fun z w => by rw [r1, one_mul]⟩

end Verif.Manifold
