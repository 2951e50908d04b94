import Verif.StellarDM
import Verif.StellarPhys
import Verif.PhaseOverlap

/-!
# Traces of Gaussian density matrices and the bra-ket structure (C94)

Lemmas for the physical stellar decompositions of density matrices.
-/

namespace Verif.Manifold
open Matrix Verif.Gauss MeasureTheory
open scoped ComplexOrder MatrixOrder

variable {n m k p q : Type*} [Fintype n] [DecidableEq n] [Fintype m] [DecidableEq m] [Fintype k] [DecidableEq k] [Fintype p] [DecidableEq p] [Fintype q] [DecidableEq q]

/-! ## Specification -/

/-- The Gaussian function with matrix `A` is a trace-class operator: `|ρ(u, ū)| e^{-|u|²}` decays in every direction. The bra variables come first. -/
def TrClass (A : Matrix (n ⊕ n) (n ⊕ n) ℂ) : Prop :=
  ∀ u : n → ℂ, u ≠ 0 → (Sum.elim (star u) u ⬝ᵥ A.mulVec (Sum.elim (star u) u)).re < 2 * ∑ i, ‖u i‖ ^ 2

/-! ## Conjugation symmetry -/

/-- `M` commutes with complex conjugation combined with the exchange of bra and ket. -/
def Bk (M : Matrix (p ⊕ p) (q ⊕ q) ℂ) : Prop := M = Xmat p * cj M * Xmat q

/-- The bra half is the conjugate of the ket half. -/
def RV (v : n ⊕ n → ℂ) : Prop := v = Sum.elim (star (v ∘ Sum.inr)) (v ∘ Sum.inr)

theorem cj_X : cj (Xmat n) = Xmat n := by
  unfold Xmat cj
  rw [fromBlocks_map]
  simp

theorem Bk.cj {M : Matrix (p ⊕ p) (q ⊕ q) ℂ} (h : Bk M) : cj M = Xmat p * M * Xmat q := by
  have e := congrArg (fun N => Xmat p * N * Xmat q) h
  refine Eq.trans ?_ e.symm
  calc Manifold.cj M = (Xmat p * Xmat p) * Manifold.cj M * (Xmat q * Xmat q) := by rw [Xmat_sq, Xmat_sq, Matrix.one_mul, Matrix.mul_one]
    _ = _ := by simp only [Matrix.mul_assoc]

theorem Bk.of_cj {M : Matrix (p ⊕ p) (q ⊕ q) ℂ} (h : Manifold.cj M = Xmat p * M * Xmat q) : Bk M := by
  unfold Bk
  rw [h]
  calc M = (Xmat p * Xmat p) * M * (Xmat q * Xmat q) := by rw [Xmat_sq, Xmat_sq, Matrix.one_mul, Matrix.mul_one]
    _ = _ := by simp only [Matrix.mul_assoc]

theorem Bk.mul {M : Matrix (p ⊕ p) (q ⊕ q) ℂ} {N : Matrix (q ⊕ q) (n ⊕ n) ℂ} (hM : Bk M) (hN : Bk N) : Bk (M * N) := by
  refine Bk.of_cj ?_
  rw [cj_mul, hM.cj, hN.cj]
  calc _ = Xmat p * M * (Xmat q * Xmat q) * N * Xmat n := by simp only [Matrix.mul_assoc]
    _ = _ := by rw [Xmat_sq, Matrix.mul_one]; simp only [Matrix.mul_assoc]

theorem Bk.transpose {M : Matrix (p ⊕ p) (q ⊕ q) ℂ} (hM : Bk M) : Bk Mᵀ := by
  refine Bk.of_cj ?_
  have : Manifold.cj Mᵀ = (Manifold.cj M)ᵀ := rfl
  rw [this, hM.cj, transpose_mul, transpose_mul, Xmat_T, Xmat_T, Matrix.mul_assoc]

theorem Bk.add {M N : Matrix (p ⊕ p) (q ⊕ q) ℂ} (hM : Bk M) (hN : Bk N) : Bk (M + N) := by
  refine Bk.of_cj ?_
  rw [cj_add, hM.cj, hN.cj, Matrix.mul_add, Matrix.add_mul]

theorem Bk.neg {M : Matrix (p ⊕ p) (q ⊕ q) ℂ} (hM : Bk M) : Bk (-M) := by
  refine Bk.of_cj ?_
  rw [cj_neg, hM.cj, Matrix.mul_neg, Matrix.neg_mul]

theorem Bk.sub {M N : Matrix (p ⊕ p) (q ⊕ q) ℂ} (hM : Bk M) (hN : Bk N) : Bk (M - N) := by
  rw [sub_eq_add_neg]
  exact hM.add hN.neg

theorem Bk.X : Bk (Xmat n) := by
  refine Bk.of_cj ?_
  rw [cj_X, Xmat_sq, Matrix.one_mul]

theorem Bk.inv {M : Matrix (n ⊕ n) (n ⊕ n) ℂ} (hM : Bk M) : Bk M⁻¹ := by
  refine Bk.of_cj ?_
  have hX : (Xmat n)⁻¹ = Xmat n := inv_eq_left_inv Xmat_sq
  rw [cj_inv, hM.cj, Matrix.mul_inv_rev, Matrix.mul_inv_rev, hX, Matrix.mul_assoc]

theorem RV.star {v : n ⊕ n → ℂ} (h : RV v) : star v = (Xmat n).mulVec v := by
  rw [h, Xmat_elim]
  funext r
  rcases r with i | i <;> simp

theorem RV.of_star {v : n ⊕ n → ℂ} (h : Star.star v = (Xmat n).mulVec v) : RV v := by
  unfold RV
  have e : (Xmat n).mulVec v = Sum.elim (v ∘ Sum.inr) (v ∘ Sum.inl) := by
    conv_lhs => rw [← Sum.elim_comp_inl_inr v, Xmat_elim]
  rw [e] at h
  funext r
  rcases r with i | i
  · have := congrFun h (Sum.inr i)
    simp only [Pi.star_apply, Sum.elim_inr, Function.comp] at this
    simp [← this]
  · rfl

theorem Bk.mulVec {M : Matrix (p ⊕ p) (q ⊕ q) ℂ} (hM : Bk M) {v : q ⊕ q → ℂ} (hv : RV v) : RV (M.mulVec v) := by
  refine RV.of_star ?_
  rw [star_mulVec', hM.cj, hv.star, Matrix.mulVec_mulVec, Matrix.mulVec_mulVec, Matrix.mul_assoc, Matrix.mul_assoc, Xmat_sq, Matrix.mul_one]

omit [Fintype n] [DecidableEq n] in
theorem RV.pv (u : n → ℂ) : RV (Sum.elim (Star.star u) u) := by
  unfold RV
  rw [Sum.elim_comp_inr]

theorem RV.add {v w : n ⊕ n → ℂ} (hv : RV v) (hw : RV w) : RV (v + w) := by
  refine RV.of_star ?_
  rw [star_add, hv.star, hw.star, Matrix.mulVec_add]

theorem RV.neg {v : n ⊕ n → ℂ} (hv : RV v) : RV (-v) := by
  refine RV.of_star ?_
  rw [star_neg, hv.star, Matrix.mulVec_neg]

omit [Fintype n] [DecidableEq n] in
theorem RV.ext {v w : n ⊕ n → ℂ} (hv : RV v) (hw : RV w) (h : v ∘ Sum.inr = w ∘ Sum.inr) : v = w := by
  rw [hv, hw, h]

theorem X_quad (u : n → ℂ) : Sum.elim (star u) u ⬝ᵥ (Xmat n).mulVec (Sum.elim (star u) u) = 2 * ∑ i, (‖u i‖ : ℂ) ^ 2 := by
  rw [Xmat_elim, sumElim_dotProduct_sumElim, norm_dot, dotProduct_comm (star u) u]
  ring

theorem trClass_rv {A : Matrix (n ⊕ n) (n ⊕ n) ℂ} (h : TrClass A) {v : n ⊕ n → ℂ} (hv : RV v) (h0 : v ≠ 0) :
    (v ⬝ᵥ (A - Xmat n).mulVec v).re < 0 := by
  obtain ⟨u, hu⟩ : ∃ u, u = v ∘ Sum.inr := ⟨_, rfl⟩
  have hvu : v = Sum.elim (star u) u := by rw [hu]; exact hv
  have hu0 : u ≠ 0 := by
    rintro rfl
    refine h0 ?_
    rw [hvu]
    funext r
    rcases r with i | i <;> simp
  have := h u hu0
  rw [hvu, Matrix.sub_mulVec, dotProduct_sub, X_quad, Complex.sub_re]
  have e : (2 * ∑ i, (‖u i‖ : ℂ) ^ 2).re = 2 * ∑ i, ‖u i‖ ^ 2 := by
    have : (2 * ∑ i, (‖u i‖ : ℂ) ^ 2) = ((2 * ∑ i, ‖u i‖ ^ 2 : ℝ) : ℂ) := by push_cast; rfl
    rw [this, Complex.ofReal_re]
  rw [e]
  linarith

theorem trClass_of {A : Matrix (n ⊕ n) (n ⊕ n) ℂ} (h : ∀ v, RV v → v ≠ 0 → (v ⬝ᵥ (A - Xmat n).mulVec v).re < 0) : TrClass A := by
  intro u hu
  have := h _ (RV.pv u) (fun e => hu (by
    funext i
    exact congrFun e (Sum.inr i)))
  rw [Matrix.sub_mulVec, dotProduct_sub, X_quad, Complex.sub_re] at this
  have e : (2 * ∑ i, (‖u i‖ : ℂ) ^ 2).re = 2 * ∑ i, ‖u i‖ ^ 2 := by
    have : (2 * ∑ i, (‖u i‖ : ℂ) ^ 2) = ((2 * ∑ i, ‖u i‖ ^ 2 : ℝ) : ℂ) := by push_cast; rfl
    rw [this, Complex.ofReal_re]
  rw [e] at this
  linarith

/-! ## The Gaussian integral of a trace -/

omit [DecidableEq n] in
theorem pair_star (u : n → ℂ) : pair (star u) = Sum.elim (star u) u := by
  unfold pair
  refine congrArg (Sum.elim _) ?_
  funext i
  simp

theorem trClass_negRe {A : Matrix (n ⊕ n) (n ⊕ n) ℂ} (h : TrClass A) : NegRe (A - Xmat n) := by
  intro w hw
  rw [quad_mulVec]
  have e : pair w = Sum.elim (star (star w)) (star w) := by rw [← pair_star, star_star]
  rw [e]
  refine trClass_rv h (RV.pv _) fun e => hw ?_
  funext i
  have := congrFun e (Sum.inl i)
  simpa using this

theorem sub_X_symm {A : Matrix (n ⊕ n) (n ⊕ n) ℂ} (hs : Aᵀ = A) (i j : n ⊕ n) : (A - Xmat n) i j = (A - Xmat n) j i := by
  have : (A - Xmat n)ᵀ = A - Xmat n := by rw [transpose_sub, hs, Xmat_T]
  conv_lhs => rw [← this]
  rfl

theorem cform_tr (A : Matrix (n ⊕ n) (n ⊕ n) ℂ) (l : n ⊕ n → ℂ) (u : n → ℂ) :
    Complex.exp (cform (A - Xmat n) l (star u)) = Complex.exp (1 / 2 * (Sum.elim (star u) u ⬝ᵥ A.mulVec (Sum.elim (star u) u)) + l ⬝ᵥ Sum.elim (star u) u) *
      Complex.exp (-∑ i, (‖u i‖ : ℂ) ^ 2) := by
  unfold cform
  rw [quad_mulVec, pair_star, Matrix.sub_mulVec, dotProduct_sub, X_quad, ← Complex.exp_add]
  refine congrArg Complex.exp ?_
  show 1 / 2 * _ + l ⬝ᵥ _ = _
  ring

/-- The normalisation constant of a trace. -/
noncomputable def trC (A : Matrix (n ⊕ n) (n ⊕ n) ℂ) : ℂ := gaussConst (A - Xmat n)

theorem trC_ne {A : Matrix (n ⊕ n) (n ⊕ n) ℂ} (hs : Aᵀ = A) (h : TrClass A) : trC A ≠ 0 := gaussConst_ne (sub_X_symm hs) (trClass_negRe h)

theorem X_swap {M : Matrix (n ⊕ n) (n ⊕ n) ℂ} (i j : n ⊕ n) : (Xmat n * M * Xmat n) i j = M i.swap j.swap := by
  obtain ⟨a, b, c, d, rfl⟩ : ∃ a b c d, M = fromBlocks a b c d := ⟨_, _, _, _, (fromBlocks_toBlocks M).symm⟩
  unfold Xmat
  rw [fromBlocks_multiply, fromBlocks_multiply]
  rcases i with i | i <;> rcases j with j | j <;> simp

theorem trC_pos {A : Matrix (n ⊕ n) (n ⊕ n) ℂ} (hs : Aᵀ = A) (hb : Bk A) (h : TrClass A) : ∃ t : ℝ, 0 < t ∧ trC A = t := by
  refine gaussConst_pos (sub_X_symm hs) (trClass_negRe h) fun i j => ?_
  have := (hb.sub Bk.X).cj
  have e := X_swap (M := A - Xmat n) i j
  rw [← this] at e
  exact e.symm

theorem tr_det {A : Matrix (n ⊕ n) (n ⊕ n) ℂ} (hs : Aᵀ = A) (h : TrClass A) : (A - Xmat n).det ≠ 0 := det_ne_zero_of_negRe (sub_X_symm hs) (trClass_negRe h)

theorem tr_integral {A : Matrix (n ⊕ n) (n ⊕ n) ℂ} (hs : Aᵀ = A) (h : TrClass A) (l : n ⊕ n → ℂ) :
    ((Real.pi : ℂ) ^ Fintype.card n)⁻¹ * ∫ u : n → ℂ, Complex.exp (1 / 2 * (Sum.elim (star u) u ⬝ᵥ A.mulVec (Sum.elim (star u) u)) + l ⬝ᵥ Sum.elim (star u) u) *
      Complex.exp (-∑ i, (‖u i‖ : ℂ) ^ 2) = trC A * Complex.exp (-(1 / 2) * (l ⬝ᵥ (A - Xmat n)⁻¹.mulVec l)) := by
  have key := integral_complex (sub_X_symm hs) (trClass_negRe h) l (D := 0) (fun _ _ => 0) (fun _ => 0) (fun _ _ => 0) 0 (fun _ _ => rfl)
  simp only [Fock.amp_zero, one_mul, mul_one] at key
  rw [← integral_star] at key
  simp only [cform_tr] at key
  exact key

theorem tr_integrable {A : Matrix (n ⊕ n) (n ⊕ n) ℂ} (hs : Aᵀ = A) (h : TrClass A) (l : n ⊕ n → ℂ) :
    Integrable fun u : n → ℂ => Complex.exp (1 / 2 * (Sum.elim (star u) u ⬝ᵥ A.mulVec (Sum.elim (star u) u)) + l ⬝ᵥ Sum.elim (star u) u) *
      Complex.exp (-∑ i, (‖u i‖ : ℂ) ^ 2) := by
  have key := integrable_complex (sub_X_symm hs) (trClass_negRe h) l (D := 0) (fun _ _ => 0) (fun _ => 0) (fun _ _ => 0) 0 (fun _ _ => rfl)
  simp only [Fock.amp_zero, one_mul] at key
  have := ((conjPerm_mp (Equiv.refl n)).integrable_comp_emb (MeasurableEquiv.measurableEmbedding _)).2 key
  refine this.congr (.of_forall fun u => ?_)
  have hc : conjPerm (Equiv.refl n) u = star u := funext fun i => conjPerm_apply (Equiv.refl n) u i
  simp only [Function.comp, hc, cform_tr]

/-- The trace of a Gaussian operator. -/
theorem opTr_dmFun {A : Matrix (n ⊕ n) (n ⊕ n) ℂ} (hs : Aᵀ = A) (h : TrClass A) (b : n ⊕ n → ℂ) (c : ℂ) :
    opTr (dmFun A b c) = c * (trC A * Complex.exp (-(1 / 2) * (b ⬝ᵥ (A - Xmat n)⁻¹.mulVec b))) := by
  rw [← tr_integral hs h]
  unfold opTr dmFun
  simp only [mul_assoc]
  rw [integral_const_mul, mul_left_comm]

theorem rv_dot {v w : n ⊕ n → ℂ} (hv : RV v) (hw : RV w) : v ⬝ᵥ w = ((v ⬝ᵥ w).re : ℂ) := by
  have : (starRingEnd ℂ) (v ⬝ᵥ w) = v ⬝ᵥ w := by
    rw [conj_dot, hv.star, hw.star, Matrix.dotProduct_mulVec, ← Matrix.mulVec_transpose, Xmat_T, Matrix.mulVec_mulVec, Xmat_sq, Matrix.one_mulVec]
  exact (Complex.conj_eq_iff_re.1 this).symm

/-- The trace of a Hermitian Gaussian operator has the sign of `c`. -/
theorem opTr_pos {A : Matrix (n ⊕ n) (n ⊕ n) ℂ} (hs : Aᵀ = A) (hA : Bk A) (h : TrClass A) {b : n ⊕ n → ℂ} (hb : RV b) {c : ℝ} (hc : 0 < c) :
    ∃ t : ℝ, 0 < t ∧ opTr (dmFun A b c) = t := by
  obtain ⟨t, ht, e⟩ := trC_pos hs hA h
  rw [opTr_dmFun hs h, e, rv_dot hb ((hA.sub Bk.X).inv.mulVec hb)]
  obtain ⟨x, hx⟩ : ∃ x : ℝ, x = (b ⬝ᵥ (A - Xmat n)⁻¹.mulVec b).re := ⟨_, rfl⟩
  rw [← hx]
  refine ⟨c * (t * Real.exp (-(1 / 2) * x)), mul_pos hc (mul_pos ht (Real.exp_pos _)), ?_⟩
  push_cast
  rfl

end Verif.Manifold
