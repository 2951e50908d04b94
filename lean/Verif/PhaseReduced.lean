import Verif.PhaseShift

/-!
# Reduced states and mixtures of coherent states (C72)
-/

namespace Verif.Manifold
open Matrix Verif.Gauss MeasureTheory
open scoped ComplexOrder MatrixOrder

section Real
variable {κ : Type*} [Fintype κ] [DecidableEq κ]

theorem toC_inv_symm {V : Matrix κ κ ℝ} (hV : V.PosDef) : (toC V)ᵀ = toC V := by
  have h1 : Vᵀ = V := by
    have := hV.isHermitian
    unfold IsHermitian at this
    rwa [conjTranspose_eq_transpose_of_trivial] at this
  unfold toC; rw [← Matrix.transpose_map, h1]

theorem posDef_mul_inv {V : Matrix κ κ ℝ} (hV : V.PosDef) : V * V⁻¹ = 1 ∧ V⁻¹ * V = 1 := by
  have hu := (Matrix.isUnit_iff_isUnit_det _).1 hV.isUnit
  exact ⟨mul_nonsing_inv _ hu, nonsing_inv_mul _ hu⟩

/-- The Laplace transform of a Gaussian density at a complex point. -/
theorem laplace {V : Matrix κ κ ℝ} (hV : V.PosDef) (c : κ → ℂ) :
    ∫ x : κ → ℝ, ((bell V 0 x : ℝ) : ℂ) * Complex.exp (c ⬝ᵥ fun i => (x i : ℂ)) =
      (Real.sqrt ((2 * Real.pi) ^ Fintype.card κ * V.det) : ℝ) * Complex.exp (1 / 2 * (c ⬝ᵥ (toC V).mulVec c)) := by
  obtain ⟨q, -, -, hi⟩ := integral_form (prec_symm hV) (prec_posRe hV)
  have h0 := hi 0 0 (Matrix.mulVec_zero _)
  have hofR : ∫ x : κ → ℝ, ((bell V 0 x : ℝ) : ℂ) = ((∫ x : κ → ℝ, bell V 0 x : ℝ) : ℂ) := integral_ofReal (𝕜 := ℂ)
  simp only [← bell_form, Pi.zero_apply, mul_zero, Finset.sum_const_zero, Complex.exp_zero, mul_one] at h0
  rw [hofR, bell_integral hV 0] at h0
  have hm : (prec V).mulVec ((toC V).mulVec c) = c := by
    have e : prec V * toC V = 1 := by
      show toC V⁻¹ * toC V = 1
      rw [← toC_mul, (posDef_mul_inv hV).2, toC_one]
    rw [Matrix.mulVec_mulVec, e, Matrix.one_mulVec]
  rw [h0]
  refine Eq.trans ?_ (hi c _ hm)
  refine integral_congr_ae (.of_forall fun x => ?_)
  simp only []
  rw [bell_form, ← Complex.exp_add]
  refine congrArg Complex.exp ?_
  unfold form
  simp [dotProduct]

/-- A Gaussian exponential of a complex translation. -/
theorem bell_shift {V : Matrix κ κ ℝ} (hV : V.PosDef) (c : κ → ℂ) :
    ∫ x : κ → ℝ, Complex.exp (-(1 / 2) * (((fun i => (x i : ℂ)) - c) ⬝ᵥ (toC V⁻¹).mulVec ((fun i => (x i : ℂ)) - c))) =
      (Real.sqrt ((2 * Real.pi) ^ Fintype.card κ * V.det) : ℝ) := by
  have hs := toC_inv_symm hV.inv
  have e : ∀ x : κ → ℝ, Complex.exp (-(1 / 2) * (((fun i => (x i : ℂ)) - c) ⬝ᵥ (toC V⁻¹).mulVec ((fun i => (x i : ℂ)) - c))) =
      Complex.exp (-(1 / 2) * (c ⬝ᵥ (toC V⁻¹).mulVec c)) * (((bell V 0 x : ℝ) : ℂ) * Complex.exp ((toC V⁻¹).mulVec c ⬝ᵥ fun i => (x i : ℂ))) := by
    intro x
    have hb : ((bell V 0 x : ℝ) : ℂ) = Complex.exp (-(1 / 2) * ((fun i => (x i : ℂ)) ⬝ᵥ (toC V⁻¹).mulVec fun i => (x i : ℂ))) := by
      unfold bell
      rw [sub_zero, Complex.ofReal_exp, toC_mulVec]
      refine congrArg Complex.exp ?_
      simp [dotProduct]
    rw [hb, ← Complex.exp_add, ← Complex.exp_add]
    refine congrArg Complex.exp ?_
    rw [Matrix.mulVec_sub, sub_dotProduct, dotProduct_sub, dotProduct_sub, symm_dot hs c (fun i => (x i : ℂ)),
      dotProduct_comm ((toC V⁻¹).mulVec c)]
    ring
  simp only [e]
  have hi : toC V * toC V⁻¹ = 1 := by rw [← toC_mul, (posDef_mul_inv hV).1, toC_one]
  rw [integral_const_mul, laplace hV, Matrix.mulVec_mulVec, hi, Matrix.one_mulVec, dotProduct_comm ((toC V⁻¹).mulVec c), mul_left_comm, ← Complex.exp_add,
    ← add_mul, neg_add_cancel, zero_mul, Complex.exp_zero, mul_one]

variable {ι : Type*} [Fintype ι] [DecidableEq ι]

/-- Marginals of Gaussian functions: integrating out the second group of variables. -/
theorem marginal {A : Matrix ι ι ℝ} {B : Matrix ι κ ℝ} {D : Matrix κ κ ℝ} (hW : (fromBlocks A B Bᵀ D).PosDef) (η : ι → ℂ) :
    ∫ x : κ → ℝ, Complex.exp (-(1 / 2) * (Sum.elim η (fun i => (x i : ℂ)) ⬝ᵥ (toC (fromBlocks A B Bᵀ D)⁻¹).mulVec (Sum.elim η fun i => (x i : ℂ)))) =
      (Real.sqrt ((2 * Real.pi) ^ Fintype.card κ * (fromBlocks A B Bᵀ D).det) / Real.sqrt A.det : ℝ) * Complex.exp (-(1 / 2) * (η ⬝ᵥ (toC A⁻¹).mulVec η)) := by
  have hA : A.PosDef := by
    have := hW.submatrix (e := Sum.inl) Sum.inl_injective
    exact this
  haveI := invertibleOfIsUnitDet A ((Matrix.isUnit_iff_isUnit_det _).1 hA.isUnit)
  have hS : (D - Bᵀ * A⁻¹ * B).PosDef := by
    have := (Matrix.PosDef.fromBlocks₁₁ B D hA).1 (by rw [conjTranspose_eq_transpose_of_trivial]; exact hW.posSemidef)
    rw [conjTranspose_eq_transpose_of_trivial] at this
    rw [this.posDef_iff_det_ne_zero]
    have hd : (fromBlocks A B Bᵀ D).det = A.det * (D - Bᵀ * A⁻¹ * B).det := by
      rw [Matrix.det_fromBlocks₁₁, Matrix.invOf_eq_nonsing_inv]
    intro e
    rw [e, mul_zero] at hd
    exact hW.det_pos.ne' hd
  set S := D - Bᵀ * A⁻¹ * B with hSd
  have hdet : (fromBlocks A B Bᵀ D).det = A.det * S.det := by
    rw [Matrix.det_fromBlocks₁₁, Matrix.invOf_eq_nonsing_inv]
  have iA := (posDef_mul_inv hA)
  have iS := (posDef_mul_inv hS)
  have iW := (posDef_mul_inv hW)
  set c : κ → ℂ := (toC (Bᵀ * A⁻¹)).mulVec η with hc
  have q : ∀ x : κ → ℂ, Sum.elim η x ⬝ᵥ (toC (fromBlocks A B Bᵀ D)⁻¹).mulVec (Sum.elim η x) =
      η ⬝ᵥ (toC A⁻¹).mulVec η + (x - c) ⬝ᵥ (toC S⁻¹).mulVec (x - c) := by
    intro x
    set y2 := (toC S⁻¹).mulVec (x - c) with hy2
    set y1 := (toC A⁻¹).mulVec η - (toC (A⁻¹ * B)).mulVec y2 with hy1
    have hy : (toC (fromBlocks A B Bᵀ D)).mulVec (Sum.elim y1 y2) = Sum.elim η x := by
      have : toC (fromBlocks A B Bᵀ D) = fromBlocks (toC A) (toC B) (toC Bᵀ) (toC D) := fromBlocks_map _ _ _ _ _
      rw [this, fromBlocks_mulVec, Sum.elim_comp_inl, Sum.elim_comp_inr]
      have e1 : (toC A).mulVec y1 + (toC B).mulVec y2 = η := by
        rw [hy1, Matrix.mulVec_sub, Matrix.mulVec_mulVec, Matrix.mulVec_mulVec, ← toC_mul, ← toC_mul, ← Matrix.mul_assoc, iA.1, Matrix.one_mul, toC_one,
          Matrix.one_mulVec, sub_add_cancel]
      have e2 : (toC Bᵀ).mulVec y1 + (toC D).mulVec y2 = x := by
        have hD : D = S + Bᵀ * A⁻¹ * B := by rw [hSd]; abel
        have : (toC S).mulVec y2 = x - c := by rw [hy2, Matrix.mulVec_mulVec, ← toC_mul, iS.1, toC_one, Matrix.one_mulVec]
        rw [hy1, Matrix.mulVec_sub, Matrix.mulVec_mulVec, Matrix.mulVec_mulVec, ← toC_mul, ← toC_mul, ← Matrix.mul_assoc]
        conv_lhs => rw [hD]
        rw [toC_add, Matrix.add_mulVec, this, ← hc]
        abel
      rw [e1, e2]
    have hinv : (toC (fromBlocks A B Bᵀ D)⁻¹).mulVec (Sum.elim η x) = Sum.elim y1 y2 := by
      rw [← hy, Matrix.mulVec_mulVec, ← toC_mul, iW.2, toC_one, Matrix.one_mulVec]
    rw [hinv, sumElim_dotProduct_sumElim, hy1, dotProduct_sub, sub_dotProduct]
    have : η ⬝ᵥ (toC (A⁻¹ * B)).mulVec y2 = c ⬝ᵥ y2 := by
      have hT : (toC (A⁻¹ * B))ᵀ = toC (Bᵀ * A⁻¹) := by
        have : A⁻¹ᵀ = A⁻¹ := by
          have := hA.inv.isHermitian
          unfold IsHermitian at this
          rwa [conjTranspose_eq_transpose_of_trivial] at this
        unfold toC
        rw [← Matrix.transpose_map, Matrix.transpose_mul, this]
      rw [Matrix.dotProduct_mulVec, ← Matrix.mulVec_transpose, hT]
    rw [this]
    ring
  simp only [q, mul_add, Complex.exp_add]
  rw [integral_const_mul, bell_shift hS, hdet, mul_comm]
  refine congrArg (· * _) (congrArg _ ?_)
  have hAd := hA.det_pos
  rw [← Real.sqrt_div (by have := hS.det_pos; have := Real.pi_pos; positivity)]
  refine congrArg _ ?_
  field_simp

end Real

variable {n : Type*} [Fintype n] [DecidableEq n]
variable {p q : Type*} [Fintype p] [DecidableEq p] [Fintype q] [DecidableEq q]

/-- The trace over the modes `q` of an operator on the modes `p ⊕ q`, given by its Bargmann function at (output, input). -/
noncomputable def partialTr (G : (p ⊕ q → ℂ) → (p ⊕ q → ℂ) → ℂ) (z w : p → ℂ) : ℂ :=
  ((Real.pi : ℂ) ^ Fintype.card q)⁻¹ * ∫ u : q → ℂ, G (Sum.elim z u) (Sum.elim w (star u)) * Complex.exp (-∑ i, (‖u i‖ : ℂ) ^ 2)

/-- The quadratures of the modes `p` among those of `p ⊕ q`. -/
def keep : p ⊕ p → (p ⊕ q) ⊕ (p ⊕ q) := Sum.map Sum.inl Sum.inl

theorem rot_pieces (w z : p → ℂ) (w' z' : q → ℂ) :
    (rotmat (p ⊕ q))ᴴ.mulVec (Sum.elim (Sum.elim w w') (Sum.elim z z')) =
      Sum.elim ((rotmat p)ᴴ.mulVec (Sum.elim w z)) ((rotmat q)ᴴ.mulVec (Sum.elim w' z')) ∘ (Equiv.sumSumSumComm p p q q).symm := by
  rw [rot_row, rot_row, rot_row]
  funext r
  rcases r with (i | i) | (i | i) <;> rfl

/-- **C72 (reduced states)** Tracing out the modes `q` gives the state whose covariance matrix and mean are the parts of `cov` and `μ` that belong to
the other modes. -/
theorem C72_reduced {ħ : ℝ} (hħ : 0 < ħ) {cov : Matrix ((p ⊕ q) ⊕ (p ⊕ q)) ((p ⊕ q) ⊕ (p ⊕ q)) ℝ} (h : (cov + (ħ / 2) • 1).PosDef)
    (μ : (p ⊕ q) ⊕ (p ⊕ q) → ℝ) (k : ℂ) (z w : p → ℂ) :
    partialTr (dmFromPhaseSpace ħ cov μ k) z w = dmFromPhaseSpace ħ (cov.submatrix keep keep) (μ ∘ keep) k z w := by
  have hr : (cov.submatrix (keep (p := p) (q := q)) keep + (ħ / 2) • 1).PosDef := by
    have hk : Function.Injective (keep (p := p) (q := q)) := Sum.map_injective.2 ⟨Sum.inl_injective, Sum.inl_injective⟩
    have := h.submatrix hk
    have e : (cov + (ħ / 2) • 1).submatrix (keep (p := p) (q := q)) keep = cov.submatrix keep keep + (ħ / 2) • 1 := by
      ext a b
      by_cases hab : a = b
      · subst hab; simp
      · have : keep (q := q) a ≠ keep b := fun e => hab (hk e)
        simp [Matrix.one_apply_ne hab, Matrix.one_apply_ne this]
    rwa [e] at this
  set ξ := (rotmat p)ᴴ.mulVec (Sum.elim w z) with hξ
  set V := vac ħ cov with hV
  have hVp : V.PosDef := vac_pos hħ h
  set m := mean ħ μ with hm
  set σ := Equiv.sumSumSumComm p p q q with hσ
  have hG : ∀ z' w' : q → ℂ, dmFromPhaseSpace ħ cov μ k (Sum.elim z z') (Sum.elim w w') =
      (k * hus V m (Sum.elim ξ ((rotmat q)ᴴ.mulVec (Sum.elim w' z')) ∘ σ.symm) * Complex.exp (1 / 2 * (ξ ⬝ᵥ ξ))) *
        Complex.exp (1 / 2 * ((rotmat q)ᴴ.mulVec (Sum.elim w' z') ⬝ᵥ (rotmat q)ᴴ.mulVec (Sum.elim w' z'))) := by
    intro z' w'
    rw [dm_rot hħ h, rot_pieces, ← hξ, mul_assoc _ (Complex.exp _) (Complex.exp _), ← Complex.exp_add]
    refine congrArg (HMul.hMul _) (congrArg Complex.exp ?_)
    rw [← mul_add, ← sumElim_dotProduct_sumElim]
    refine congrArg (HMul.hMul _) ?_
    exact Equiv.sum_comp σ.symm (fun r => Sum.elim ξ ((rotmat q)ᴴ.mulVec (Sum.elim w' z')) r * Sum.elim ξ ((rotmat q)ᴴ.mulVec (Sum.elim w' z')) r)
  have hT : partialTr (dmFromPhaseSpace ħ cov μ k) z w = opTr fun z' w' : q → ℂ => dmFromPhaseSpace ħ cov μ k (Sum.elim z z') (Sum.elim w w') := rfl
  rw [hT, opTr_rot (g := fun x => k * hus V m (Sum.elim ξ x ∘ σ.symm) * Complex.exp (1 / 2 * (ξ ⬝ᵥ ξ))) hG]
  rw [dm_rot hħ hr, ← hξ]
  set V' := V.submatrix σ σ with hV'
  have hV'p : V'.PosDef := hVp.submatrix σ.injective
  have hA : V'.toBlocks₁₁ = vac ħ (cov.submatrix keep keep) := by
    unfold vac
    ext a b
    show (vac ħ cov) (σ (.inl a)) (σ (.inl b)) = _
    unfold vac
    have e : ∀ a b : p ⊕ p, (1 : Matrix ((p ⊕ q) ⊕ (p ⊕ q)) ((p ⊕ q) ⊕ (p ⊕ q)) ℝ) (σ (.inl a)) (σ (.inl b)) = (1 : Matrix (p ⊕ p) (p ⊕ p) ℝ) a b := by
      intro a b
      by_cases hab : a = b
      · subst hab; simp
      · rw [Matrix.one_apply_ne hab, Matrix.one_apply_ne fun e => hab (Sum.inl_injective (σ.injective e))]
    have e' : ∀ a : p ⊕ p, σ (.inl a) = keep a := by rintro (a | a) <;> rfl
    simp only [Matrix.smul_apply, Matrix.add_apply, Matrix.submatrix_apply, e]
    rw [e', e']
  have hB : V' = fromBlocks V'.toBlocks₁₁ V'.toBlocks₁₂ V'.toBlocks₁₂ᵀ V'.toBlocks₂₂ := by
    conv_lhs => rw [← fromBlocks_toBlocks V']
    congr 1
    ext a b
    have := congrFun (congrFun hV'p.isHermitian (.inr a)) (.inl b)
    rw [Matrix.conjTranspose_apply, star_trivial] at this
    exact this.symm
  have hdet : V'.det = V.det := by rw [hV', Matrix.det_submatrix_equiv_self]
  have hinv : V'⁻¹ = V⁻¹.submatrix σ σ := by rw [hV', Matrix.inv_submatrix_equiv]
  set mp : p ⊕ p → ℝ := mean ħ (μ ∘ keep) with hmp
  set mq : q ⊕ q → ℝ := fun r => m (σ (.inr r)) with hmq
  have hmp' : ∀ r, m (σ (.inl r)) = mp r := by rintro (r | r) <;> rfl
  have hH : ∀ x : q ⊕ q → ℝ, hus V m (Sum.elim ξ (fun r => (x r : ℂ)) ∘ σ.symm) = ((Real.sqrt V.det)⁻¹ : ℝ) *
      Complex.exp (-(1 / 2) * (Sum.elim (ξ - fun r => (mp r : ℂ)) (fun r => (((x - mq) r : ℝ) : ℂ)) ⬝ᵥ
        (toC V'⁻¹).mulVec (Sum.elim (ξ - fun r => (mp r : ℂ)) (fun r => (((x - mq) r : ℝ) : ℂ))))) := by
    intro x
    unfold hus
    refine congrArg (HMul.hMul _) (congrArg Complex.exp (congrArg (HMul.hMul _) ?_))
    set f := Sum.elim ξ (fun r => (x r : ℂ)) ∘ σ.symm - fun r => (m r : ℂ)
    have hf : Sum.elim (ξ - fun r => (mp r : ℂ)) (fun r => (((x - mq) r : ℝ) : ℂ)) = f ∘ σ := by
      funext r
      rcases r with r | r
      · show _ = Sum.elim ξ _ (σ.symm (σ (.inl r))) - (m (σ (.inl r)) : ℂ)
        rw [Equiv.symm_apply_apply, hmp']
        rfl
      · show _ = Sum.elim ξ _ (σ.symm (σ (.inr r))) - (m (σ (.inr r)) : ℂ)
        rw [Equiv.symm_apply_apply]
        simp [hmq]
    rw [hf, hinv]
    have : (toC (V⁻¹.submatrix σ σ)).mulVec (f ∘ σ) = ((toC V⁻¹).mulVec f) ∘ σ := by
      show ((toC V⁻¹).submatrix σ σ).mulVec (f ∘ σ) = _
      rw [Matrix.submatrix_mulVec_equiv]
      congr 2
      funext r
      simp
    rw [this]
    exact (Equiv.sum_comp σ fun r => f r * (toC V⁻¹).mulVec f r).symm
  simp only [hH]
  rw [integral_mul_const, integral_const_mul, integral_const_mul]
  have hsh := integral_sub_right_eq_self (μ := (volume : Measure (q ⊕ q → ℝ))) (fun x : q ⊕ q → ℝ =>
    Complex.exp (-(1 / 2) * (Sum.elim (ξ - fun r => (mp r : ℂ)) (fun r => ((x r : ℝ) : ℂ)) ⬝ᵥ
        (toC V'⁻¹).mulVec (Sum.elim (ξ - fun r => (mp r : ℂ)) (fun r => ((x r : ℝ) : ℂ)))))) mq
  rw [hsh]
  have hmar := marginal (A := V'.toBlocks₁₁) (B := V'.toBlocks₁₂) (D := V'.toBlocks₂₂) (by rw [← hB]; exact hV'p) (ξ - fun r => (mp r : ℂ))
  rw [← hB] at hmar
  rw [hmar, hdet, hA]
  unfold hus
  generalize Complex.exp (1 / 2 * (ξ ⬝ᵥ ξ)) = E1
  generalize Complex.exp (-(1 / 2) * _) = E2
  have hd := hVp.det_pos
  have hd' := (vac_pos hħ hr).det_pos
  rw [Fintype.card_sum, ← two_mul, mul_comm 2 (Fintype.card q), pow_mul, Real.sqrt_mul (by positivity), Real.sqrt_sq (by have := Real.pi_pos; positivity)]
  have hpi : (((2 * Real.pi) ^ Fintype.card q : ℝ) : ℂ) ≠ 0 := by rw [Complex.ofReal_ne_zero]; have := Real.pi_pos; positivity
  have h1 : ((Real.sqrt V.det : ℝ) : ℂ) ≠ 0 := by rw [Complex.ofReal_ne_zero]; positivity
  have h2 : ((Real.sqrt (vac ħ (cov.submatrix keep keep)).det : ℝ) : ℂ) ≠ 0 := by rw [Complex.ofReal_ne_zero]; positivity
  rw [Complex.ofReal_inv, Complex.ofReal_inv, Complex.ofReal_inv, Complex.ofReal_div, Complex.ofReal_mul]
  field_simp

/-- **C72 (mixtures)** A state whose covariance matrix exceeds that of the vacuum is a mixture of coherent states, with a Gaussian probability density
over their means. -/
theorem C72_mixture {ħ : ℝ} (hħ : 0 < ħ) {P : Matrix (n ⊕ n) (n ⊕ n) ℝ} (hP : P.PosDef) (μ : n ⊕ n → ℝ) (k : ℂ) (z w : n → ℂ) :
    dmFromPhaseSpace ħ ((ħ / 2) • 1 + P) μ k z w =
      ((Real.sqrt ((2 * Real.pi) ^ Fintype.card (n ⊕ n) * P.det))⁻¹ : ℝ) *
        ∫ x : n ⊕ n → ℝ, ((bell P μ x : ℝ) : ℂ) * dmFromPhaseSpace ħ ((ħ / 2) • 1) x k z w := by
  have h1 : ((ħ / 2) • (1 : Matrix (n ⊕ n) (n ⊕ n) ℝ)).PosDef := Matrix.PosDef.one.smul (by positivity)
  have hv1 := h1.add h1
  have hv := (h1.add hP).add h1
  rw [dm_rot hħ hv]
  simp only [dm_rot hħ hv1]
  set ξ := (rotmat n)ᴴ.mulVec (Sum.elim w z)
  clear_value ξ
  have e1 : vac ħ ((ħ / 2) • (1 : Matrix (n ⊕ n) (n ⊕ n) ℝ)) = 1 := by
    unfold vac
    rw [← add_smul, smul_smul, add_halves, inv_mul_cancel₀ hħ.ne', one_smul]
  have e2 : vac ħ ((ħ / 2) • (1 : Matrix (n ⊕ n) (n ⊕ n) ℝ) + P) = 1 + ħ⁻¹ • P := by
    unfold vac
    rw [add_right_comm, ← add_smul, smul_add, smul_smul, add_halves, inv_mul_cancel₀ hħ.ne', one_smul]
  have hQ : (1 + ħ⁻¹ • P).PosDef := Matrix.PosDef.one.add (hP.smul (inv_pos.2 hħ))
  have hK : (P⁻¹ + ħ⁻¹ • 1).PosDef := hP.inv.add (Matrix.PosDef.one.smul (inv_pos.2 hħ))
  have iP := posDef_mul_inv hP
  have iQ := posDef_mul_inv hQ
  have hKi : (P⁻¹ + ħ⁻¹ • 1)⁻¹ = (1 + ħ⁻¹ • P)⁻¹ * P := by
    refine Matrix.inv_eq_left_inv ?_
    rw [Matrix.mul_assoc, Matrix.mul_add, iP.1, Matrix.mul_smul, Matrix.mul_one, iQ.2]
  have hQi : (1 + ħ⁻¹ • P)⁻¹ = 1 - ħ⁻¹ • (P⁻¹ + ħ⁻¹ • 1)⁻¹ := by
    rw [hKi]
    have : (1 + ħ⁻¹ • P)⁻¹ + ħ⁻¹ • ((1 + ħ⁻¹ • P)⁻¹ * P) = 1 := by
      rw [← Matrix.mul_smul]
      conv_lhs => arg 1; rw [← Matrix.mul_one (1 + ħ⁻¹ • P)⁻¹]
      rw [← Matrix.mul_add, iQ.2]
    exact eq_sub_of_add_eq this
  have hdK : (P⁻¹ + ħ⁻¹ • 1)⁻¹.det * (1 + ħ⁻¹ • P).det = P.det := by
    rw [hKi, det_mul, mul_right_comm, ← det_mul, iQ.2, det_one, one_mul]
  set K := (P⁻¹ + ħ⁻¹ • (1 : Matrix (n ⊕ n) (n ⊕ n) ℝ))⁻¹ with hKd
  have hKp : K.PosDef := hK.inv
  have hKinv : K⁻¹ = P⁻¹ + ħ⁻¹ • 1 := by rw [hKd, Matrix.nonsing_inv_nonsing_inv]; exact (Matrix.isUnit_iff_isUnit_det _).1 hK.isUnit
  rw [e1, e2]
  have hgen : ∀ (a : ℂ) (η y : n ⊕ n → ℂ), (η - a • y) ⬝ᵥ (η - a • y) = η ⬝ᵥ η - 2 * (a • η ⬝ᵥ y) + a * a * (y ⬝ᵥ y) := by
    intro a η y
    rw [sub_dotProduct, dotProduct_sub, dotProduct_sub, smul_dotProduct, dotProduct_smul, dotProduct_smul, smul_dotProduct, dotProduct_comm y η]
    simp only [smul_dotProduct, smul_eq_mul]
    ring
  set η : n ⊕ n → ℂ := ξ - fun r => (mean ħ μ r : ℂ) with hη
  have hs : (0 : ℝ) < Real.sqrt ħ := Real.sqrt_pos.2 hħ
  have hsq : (Real.sqrt ħ) * (Real.sqrt ħ) = ħ := Real.mul_self_sqrt hħ.le
  have hI : ∀ x : n ⊕ n → ℝ, ((bell P μ x : ℝ) : ℂ) * (k * hus 1 (mean ħ x) ξ * Complex.exp (1 / 2 * (ξ ⬝ᵥ ξ))) =
      k * Complex.exp (1 / 2 * (ξ ⬝ᵥ ξ)) * Complex.exp (-(1 / 2) * (η ⬝ᵥ η)) *
        (fun y : n ⊕ n → ℝ => ((bell K 0 y : ℝ) : ℂ) * Complex.exp ((((Real.sqrt ħ)⁻¹ : ℝ) : ℂ) • η ⬝ᵥ fun i => (y i : ℂ))) (x - μ) := by
    intro x
    have hx : ξ - (fun r => (mean ħ x r : ℂ)) = η - (((Real.sqrt ħ)⁻¹ : ℝ) : ℂ) • fun r => (((x - μ) r : ℝ) : ℂ) := by
      funext r
      simp only [hη, Pi.sub_apply, Pi.smul_apply, mean, smul_eq_mul]
      push_cast
      ring
    unfold hus
    rw [hx, inv_one, toC_one, Matrix.one_mulVec, det_one, Real.sqrt_one, inv_one, Complex.ofReal_one, one_mul]
    set y := x - μ
    have hb : bell P μ x = bell P 0 y := by unfold bell; rw [sub_zero]
    rw [hb]
    have hbK : ((bell K 0 y : ℝ) : ℂ) = ((bell P 0 y : ℝ) : ℂ) * Complex.exp (-(1 / 2) * ((ħ⁻¹ : ℂ) * ((fun i => (y i : ℂ)) ⬝ᵥ fun i => (y i : ℂ)))) := by
      unfold bell
      rw [sub_zero, hKinv, Complex.ofReal_exp, Complex.ofReal_exp, ← Complex.exp_add]
      refine congrArg Complex.exp ?_
      rw [Matrix.add_mulVec, Matrix.smul_mulVec, Matrix.one_mulVec, dotProduct_add, dotProduct_smul]
      push_cast
      rw [mul_add, smul_eq_mul]
      simp [dotProduct]
    simp only [hbK]
    have hq : (η - (((Real.sqrt ħ)⁻¹ : ℝ) : ℂ) • fun r => ((y r : ℝ) : ℂ)) ⬝ᵥ (η - (((Real.sqrt ħ)⁻¹ : ℝ) : ℂ) • fun r => ((y r : ℝ) : ℂ)) =
        η ⬝ᵥ η - 2 * ((((Real.sqrt ħ)⁻¹ : ℝ) : ℂ) • η ⬝ᵥ fun r => ((y r : ℝ) : ℂ)) + (ħ⁻¹ : ℂ) * ((fun i => (y i : ℂ)) ⬝ᵥ fun i => (y i : ℂ)) := by
      have hħs : (ħ⁻¹ : ℂ) = (((Real.sqrt ħ)⁻¹ : ℝ) : ℂ) * (((Real.sqrt ħ)⁻¹ : ℝ) : ℂ) := by
        rw [← Complex.ofReal_mul, ← mul_inv, hsq]; push_cast; rfl
      rw [hħs, hgen]
    rw [hq]
    set q1 := η ⬝ᵥ η
    set q2 := (((Real.sqrt ħ)⁻¹ : ℝ) : ℂ) • η ⬝ᵥ fun r => ((y r : ℝ) : ℂ)
    set q3 := (ħ⁻¹ : ℂ) * ((fun i => (y i : ℂ)) ⬝ᵥ fun i => (y i : ℂ))
    have : -(1 / 2) * (q1 - 2 * q2 + q3) = -(1 / 2) * q1 + q2 + -(1 / 2) * q3 := by ring
    rw [this, Complex.exp_add, Complex.exp_add]
    ring
  simp only [hI]
  rw [integral_const_mul, integral_sub_right_eq_self (μ := (volume : Measure (n ⊕ n → ℝ)))
    (fun y : n ⊕ n → ℝ => ((bell K 0 y : ℝ) : ℂ) * Complex.exp ((((Real.sqrt ħ)⁻¹ : ℝ) : ℂ) • η ⬝ᵥ fun i => (y i : ℂ))) μ, laplace hKp]
  unfold hus
  rw [← hη]
  clear_value η
  have hfin : (1 / 2 : ℂ) * ((((Real.sqrt ħ)⁻¹ : ℝ) : ℂ) • η ⬝ᵥ (toC K).mulVec ((((Real.sqrt ħ)⁻¹ : ℝ) : ℂ) • η)) + -(1 / 2) * (η ⬝ᵥ η) =
      -(1 / 2) * (η ⬝ᵥ (toC (1 + ħ⁻¹ • P)⁻¹).mulVec η) := by
    have hħs : (ħ⁻¹ : ℂ) = (((Real.sqrt ħ)⁻¹ : ℝ) : ℂ) * (((Real.sqrt ħ)⁻¹ : ℝ) : ℂ) := by
      rw [← Complex.ofReal_mul, ← mul_inv, hsq]; push_cast; rfl
    have : toC (1 - ħ⁻¹ • K) = 1 - (ħ⁻¹ : ℂ) • toC K := by
      rw [sub_eq_add_neg, ← neg_smul, toC_add, toC_one, toC_smul, sub_eq_add_neg, ← neg_smul]
      push_cast; rfl
    rw [hQi, this, hħs, Matrix.sub_mulVec, Matrix.one_mulVec, Matrix.smul_mulVec, Matrix.mulVec_smul, dotProduct_sub, dotProduct_smul, dotProduct_smul,
      smul_dotProduct]
    simp only [smul_eq_mul]
    ring
  rw [← hfin, Complex.exp_add]
  generalize Complex.exp (1 / 2 * (ξ ⬝ᵥ ξ)) = E1
  generalize Complex.exp (-(1 / 2) * (η ⬝ᵥ η)) = E2
  generalize Complex.exp (1 / 2 * _) = E3
  have d1 := hP.det_pos
  have d2 := hQ.det_pos
  have d3 := hKp.det_pos
  have hpi : (0 : ℝ) < (2 * Real.pi) ^ Fintype.card (n ⊕ n) := by have := Real.pi_pos; positivity
  have hr : (Real.sqrt ((2 * Real.pi) ^ Fintype.card (n ⊕ n) * P.det))⁻¹ * Real.sqrt ((2 * Real.pi) ^ Fintype.card (n ⊕ n) * K.det) =
      (Real.sqrt (1 + ħ⁻¹ • P).det)⁻¹ := by
    rw [← hdK, Real.sqrt_mul hpi.le, Real.sqrt_mul hpi.le, Real.sqrt_mul d3.le]
    have a1 := Real.sqrt_pos.2 hpi
    have a2 := Real.sqrt_pos.2 d2
    have a3 := Real.sqrt_pos.2 d3
    field_simp
  rw [← hr]
  push_cast
  ring

/-- **C72 (product states)** The coherent states of `C72_mixture` are products of single-mode coherent states. -/
theorem C72_coherent_product {ħ : ℝ} (hħ : 0 < ħ) (α z w : n → ℂ) :
    dmFromPhaseSpace ħ ((ħ / 2) • 1) (point ħ α) 1 z w =
      ∏ i, Complex.exp (-(‖α i‖ : ℂ) ^ 2 + α i * z i + (starRingEnd ℂ) (α i) * w i) := by
  have h := C69_coherent (symplectic_one (n := n)) hħ α z w
  rw [Matrix.one_mul, transpose_one, Matrix.one_mulVec, C64_one, C64_one] at h
  have he : Complex.exp (∑ i, (‖α i‖ : ℂ) ^ 2) ≠ 0 := Complex.exp_ne_zero _
  refine mul_left_cancel₀ he ?_
  rw [← h, ← Complex.exp_sum, ← Complex.exp_add]
  unfold opId
  rw [← Complex.exp_conj, ← Complex.exp_add]
  refine congrArg Complex.exp ?_
  rw [map_sum, ← Finset.sum_add_distrib, ← Finset.sum_add_distrib]
  refine Finset.sum_congr rfl fun i _ => ?_
  rw [map_mul, Pi.star_apply, Complex.star_def, Complex.conj_conj]
  ring

end Verif.Manifold
