import Verif.StellarDMTrace
import Verif.PhaseUncert

/-!
# The reduced state and contractive blocks (C94)
-/

namespace Verif.Manifold
open Matrix Verif.Gauss MeasureTheory
open scoped ComplexOrder MatrixOrder

variable {n m k p q : Type*} [Fintype n] [DecidableEq n] [Fintype m] [DecidableEq m] [Fintype k] [DecidableEq k] [Fintype p] [DecidableEq p] [Fintype q] [DecidableEq q]

/-! ## Symmetry of the blocks -/

theorem X_swap' {M : Matrix (p ⊕ p) (q ⊕ q) ℂ} (i : p ⊕ p) (j : q ⊕ q) : (Xmat p * M * Xmat q) i j = M i.swap j.swap := by
  obtain ⟨a, b, c, d, rfl⟩ : ∃ a b c d, M = fromBlocks a b c d := ⟨_, _, _, _, (fromBlocks_toBlocks M).symm⟩
  unfold Xmat
  rw [fromBlocks_multiply, fromBlocks_multiply]
  rcases i with i | i <;> rcases j with j | j <;> simp

theorem bk_iff {M : Matrix (p ⊕ p) (q ⊕ q) ℂ} : Bk M ↔ ∀ i j, M i j = (starRingEnd ℂ) (M i.swap j.swap) := by
  constructor
  · intro h i j
    conv_lhs => rw [h]
    rw [X_swap']
    rfl
  · intro h
    ext i j
    rw [X_swap', h]
    rfl

omit [Fintype n] [DecidableEq n] in
theorem rv_iff {v : n ⊕ n → ℂ} : RV v ↔ v ∘ Sum.inr = star (v ∘ Sum.inl) := by
  constructor
  · intro h
    rw [h, Sum.elim_comp_inl, Sum.elim_comp_inr, star_star]
  · intro h
    unfold RV
    rw [h, star_star, ← h, Sum.elim_comp_inl_inr]

theorem bk_blocks {A : Matrix ((m ⊕ k) ⊕ (m ⊕ k)) ((m ⊕ k) ⊕ (m ⊕ k)) ℂ} (h : Bk A) :
    Bk (A.submatrix (coreFirst m k) (coreFirst m k)).toBlocks₁₁ ∧ Bk (A.submatrix (coreFirst m k) (coreFirst m k)).toBlocks₂₁ ∧
      Bk (A.submatrix (coreFirst m k) (coreFirst m k)).toBlocks₂₂ := by
  rw [bk_iff] at h
  simp only [bk_iff]
  refine ⟨fun i j => ?_, fun i j => ?_, fun i j => ?_⟩ <;>
  · rcases i with i | i <;> rcases j with j | j <;> exact h _ _

theorem rv_blocks {b : (m ⊕ k) ⊕ (m ⊕ k) → ℂ} (h : RV b) : RV ((b ∘ coreFirst m k) ∘ Sum.inl) ∧ RV ((b ∘ coreFirst m k) ∘ Sum.inr) := by
  rw [rv_iff] at h
  simp only [rv_iff]
  exact ⟨funext fun i => congrFun h (Sum.inl i), funext fun i => congrFun h (Sum.inr i)⟩

/-! ## The Schur complement -/

omit [DecidableEq p] [DecidableEq q] in
theorem quad_split (P : Matrix p p ℂ) (S : Matrix q p ℂ) (Q : Matrix q q ℂ) (x : p → ℂ) (y : q → ℂ) :
    Sum.elim x y ⬝ᵥ (fromBlocks P Sᵀ S Q).mulVec (Sum.elim x y) = x ⬝ᵥ P.mulVec x + 2 * (S.mulVec x ⬝ᵥ y) + y ⬝ᵥ Q.mulVec y := by
  rw [fromBlocks_mulVec, Sum.elim_comp_inl, Sum.elim_comp_inr, sumElim_dotProduct_sumElim, dotProduct_add, dotProduct_add,
    Matrix.mulVec_transpose, dotProduct_comm x (Matrix.vecMul _ _), ← Matrix.dotProduct_mulVec, dotProduct_comm (S.mulVec x) y]
  ring

omit [Fintype m] [DecidableEq m] [Fintype k] [DecidableEq k] in
theorem pv_vars (u : m ⊕ k → ℂ) : vars u (star u) = Sum.elim (Sum.elim (star (u ∘ Sum.inl)) (u ∘ Sum.inl)) (Sum.elim (star (u ∘ Sum.inr)) (u ∘ Sum.inr)) := rfl

/-- Trace class in the order of `coreFirst`. -/
theorem trClass_split {A : Matrix ((m ⊕ k) ⊕ (m ⊕ k)) ((m ⊕ k) ⊕ (m ⊕ k)) ℂ} (h : TrClass A) {Am : Matrix (m ⊕ m) (m ⊕ m) ℂ} {R : Matrix (k ⊕ k) (m ⊕ m) ℂ}
    {An : Matrix (k ⊕ k) (k ⊕ k) ℂ} (hN : A.submatrix (coreFirst m k) (coreFirst m k) = fromBlocks Am Rᵀ R An) {x : m ⊕ m → ℂ} {y : k ⊕ k → ℂ} (hx : RV x) (hy : RV y)
    (h0 : ¬ (x = 0 ∧ y = 0)) : (x ⬝ᵥ (Am - Xmat m).mulVec x + 2 * (R.mulVec x ⬝ᵥ y) + y ⬝ᵥ (An - Xmat k).mulVec y).re < 0 := by
  obtain ⟨u, hu⟩ : ∃ u : m ⊕ k → ℂ, u = Sum.elim (x ∘ Sum.inr) (y ∘ Sum.inr) := ⟨_, rfl⟩
  have hu0 : u ≠ 0 := by
    rintro rfl
    refine h0 ⟨RV.ext hx (by rw [rv_iff]; funext i; simp) ?_, RV.ext hy (by rw [rv_iff]; funext i; simp) ?_⟩
    · funext i
      exact (congrFun hu (Sum.inl i)).symm
    · funext i
      exact (congrFun hu (Sum.inr i)).symm
  have := h u hu0
  have hA : A = (A.submatrix (coreFirst m k) (coreFirst m k)).submatrix (coreFirst m k).symm (coreFirst m k).symm := by ext i j; simp
  rw [hA, submatrix_dot, Equiv.symm_symm, vars_eq, hN, pv_vars, quad_split] at this
  have ex : Sum.elim (star (u ∘ Sum.inl)) (u ∘ Sum.inl) = x := by rw [hu, Sum.elim_comp_inl]; exact hx.symm
  have ey : Sum.elim (star (u ∘ Sum.inr)) (u ∘ Sum.inr) = y := by rw [hu, Sum.elim_comp_inr]; exact hy.symm
  have qx := X_quad (u ∘ Sum.inl)
  have qy := X_quad (u ∘ Sum.inr)
  rw [ex] at this qx
  rw [ey] at this qy
  rw [Matrix.sub_mulVec, dotProduct_sub, Matrix.sub_mulVec, dotProduct_sub, qx, qy]
  have e : 2 * ∑ i, ‖u i‖ ^ 2 = (2 * ∑ i, (‖(u ∘ Sum.inl) i‖ : ℂ) ^ 2 + 2 * ∑ i, (‖(u ∘ Sum.inr) i‖ : ℂ) ^ 2).re := by
    rw [Fintype.sum_sum_type]
    have : (2 * ∑ i, (‖(u ∘ Sum.inl) i‖ : ℂ) ^ 2 + 2 * ∑ i, (‖(u ∘ Sum.inr) i‖ : ℂ) ^ 2) = ((2 * (∑ i, ‖u (Sum.inl i)‖ ^ 2 + ∑ i, ‖u (Sum.inr i)‖ ^ 2) : ℝ) : ℂ) := by
      push_cast; simp only [Function.comp]; ring
    rw [this, Complex.ofReal_re]
  rw [e, ← sub_neg, ← Complex.sub_re] at this
  refine lt_of_eq_of_lt (congrArg Complex.re ?_) this
  ring

theorem rv_zero : RV (0 : n ⊕ n → ℂ) := by rw [rv_iff]; funext i; simp

theorem trClass_core {A : Matrix ((m ⊕ k) ⊕ (m ⊕ k)) ((m ⊕ k) ⊕ (m ⊕ k)) ℂ} (h : TrClass A) {Am : Matrix (m ⊕ m) (m ⊕ m) ℂ} {R : Matrix (k ⊕ k) (m ⊕ m) ℂ}
    {An : Matrix (k ⊕ k) (k ⊕ k) ℂ} (hN : A.submatrix (coreFirst m k) (coreFirst m k) = fromBlocks Am Rᵀ R An) : TrClass Am := by
  refine trClass_of fun v hv h0 => ?_
  have := trClass_split h hN hv rv_zero (fun e => h0 e.1)
  rwa [dotProduct_zero, zero_dotProduct, mul_zero, add_zero, add_zero] at this

/-- `reduced_A` of `DM.physical_stellar_decomposition` (lab/states/dm.py 585). -/
noncomputable def redA (Am : Matrix (m ⊕ m) (m ⊕ m) ℂ) (R : Matrix (k ⊕ k) (m ⊕ m) ℂ) (An : Matrix (k ⊕ k) (k ⊕ k) ℂ) : Matrix (k ⊕ k) (k ⊕ k) ℂ :=
  An - R * (Am - Xmat m)⁻¹ * Rᵀ

theorem trClass_red {A : Matrix ((m ⊕ k) ⊕ (m ⊕ k)) ((m ⊕ k) ⊕ (m ⊕ k)) ℂ} (h : TrClass A) {Am : Matrix (m ⊕ m) (m ⊕ m) ℂ} {R : Matrix (k ⊕ k) (m ⊕ m) ℂ}
    {An : Matrix (k ⊕ k) (k ⊕ k) ℂ} (hN : A.submatrix (coreFirst m k) (coreFirst m k) = fromBlocks Am Rᵀ R An) (hs : Amᵀ = Am) (b1 : Bk Am) (b2 : Bk R) :
    TrClass (redA Am R An) := by
  refine trClass_of fun v hv h0 => ?_
  obtain ⟨x, hx⟩ : ∃ x, x = -((Am - Xmat m)⁻¹ * Rᵀ).mulVec v := ⟨_, rfl⟩
  have hxr : RV x := by
    rw [hx]
    exact ((((b1.sub Bk.X).inv).mul b2.transpose).mulVec hv).neg
  have hd := tr_det hs (trClass_core h hN)
  have := trClass_split h hN hxr hv (fun e => h0 e.2)
  have e1 : (Am - Xmat m).mulVec x = -Rᵀ.mulVec v := by
    rw [hx, Matrix.mulVec_neg, Matrix.mulVec_mulVec, ← Matrix.mul_assoc, mul_nonsing_inv _ (isUnit_iff_ne_zero.2 hd), Matrix.one_mul]
  have e2 : R.mulVec x ⬝ᵥ v = -(v ⬝ᵥ (R * (Am - Xmat m)⁻¹ * Rᵀ).mulVec v) := by
    rw [hx, Matrix.mulVec_neg, neg_dotProduct, Matrix.mulVec_mulVec, ← Matrix.mul_assoc, dotProduct_comm]
  have e3 : x ⬝ᵥ Rᵀ.mulVec v = R.mulVec x ⬝ᵥ v := by
    rw [Matrix.mulVec_transpose, dotProduct_comm x, ← Matrix.dotProduct_mulVec, dotProduct_comm]
  rw [e1, dotProduct_neg, e3, e2] at this
  refine lt_of_eq_of_lt (congrArg Complex.re ?_) this
  unfold redA
  rw [Matrix.sub_mulVec, Matrix.sub_mulVec, Matrix.sub_mulVec, dotProduct_sub, dotProduct_sub, dotProduct_sub]
  ring

theorem redA_symm {Am : Matrix (m ⊕ m) (m ⊕ m) ℂ} {R : Matrix (k ⊕ k) (m ⊕ m) ℂ} {An : Matrix (k ⊕ k) (k ⊕ k) ℂ} (h1 : Amᵀ = Am) (h2 : Anᵀ = An) :
    (redA Am R An)ᵀ = redA Am R An := by
  unfold redA
  rw [transpose_sub, h2, transpose_mul, transpose_mul, transpose_transpose, transpose_nonsing_inv, transpose_sub, h1, Xmat_T, Matrix.mul_assoc]

theorem redA_bk {Am : Matrix (m ⊕ m) (m ⊕ m) ℂ} {R : Matrix (k ⊕ k) (m ⊕ m) ℂ} {An : Matrix (k ⊕ k) (k ⊕ k) ℂ} (h1 : Bk Am) (h2 : Bk R) (h3 : Bk An) :
    Bk (redA Am R An) := h3.sub ((h2.mul (h1.sub Bk.X).inv).mul h2.transpose)

/-! ## The reduced state is positive -/

theorem integral_nonneg_complex {f : (n → ℂ) → ℂ} (h : ∀ u, 0 ≤ f u) : 0 ≤ ∫ u, f u := by
  have e : ∀ u, f u = ((f u).re : ℂ) := fun u => (Complex.conj_eq_iff_re.1 (Complex.conj_eq_iff_im.2 (Complex.le_def.1 (h u)).2.symm)).symm
  have : (∫ u, f u) = ((∫ u, (f u).re : ℝ) : ℂ) := by
    rw [← integral_complex_ofReal]
    exact integral_congr_ae (.of_forall e)
  rw [this]
  exact Complex.zero_le_real.2 (integral_nonneg fun u => (Complex.le_def.1 (h u)).1)

/-- The core modes traced out. -/
noncomputable def redFun (ρ : (m ⊕ k → ℂ) → (m ⊕ k → ℂ) → ℂ) (z w : k → ℂ) : ℂ := opTr fun u v => ρ (Sum.elim u z) (Sum.elim v w)

theorem sum_nonneg_exp {ρ : (m ⊕ k → ℂ) → (m ⊕ k → ℂ) → ℂ} (h : OpPos ρ)
    (hi : ∀ z w : k → ℂ, Integrable fun u : m → ℂ => ρ (Sum.elim u z) (Sum.elim (star u) w) * Complex.exp (-∑ i, (‖u i‖ : ℂ) ^ 2)) : OpPos (redFun ρ) := by
  intro N c P
  have e : ∑ i, ∑ j, (starRingEnd ℂ) (c i) * c j * redFun ρ (star (P i)) (P j) = ((Real.pi : ℂ) ^ Fintype.card m)⁻¹ * ∫ u : m → ℂ,
      ∑ i, ∑ j, (starRingEnd ℂ) (c i) * c j * (ρ (Sum.elim u (star (P i))) (Sum.elim (star u) (P j)) * Complex.exp (-∑ i, (‖u i‖ : ℂ) ^ 2)) := by
    rw [integral_finset_sum _ (fun i _ => integrable_finset_sum _ fun j _ => (hi _ _).const_mul _), Finset.mul_sum]
    refine Finset.sum_congr rfl fun i _ => ?_
    rw [integral_finset_sum _ (fun j _ => (hi _ _).const_mul _), Finset.mul_sum]
    refine Finset.sum_congr rfl fun j _ => ?_
    rw [integral_const_mul]
    unfold redFun opTr
    ring
  rw [e]
  have hpi : (0 : ℂ) ≤ ((Real.pi : ℂ) ^ Fintype.card m)⁻¹ := by
    have : ((Real.pi : ℂ) ^ Fintype.card m)⁻¹ = (((Real.pi ^ Fintype.card m)⁻¹ : ℝ) : ℂ) := by push_cast; rfl
    rw [this]
    exact Complex.zero_le_real.2 (inv_nonneg.2 (pow_nonneg Real.pi_pos.le _))
  refine mul_nonneg hpi (integral_nonneg_complex fun u => ?_)
  have hp := h N c (fun i => Sum.elim (star u) (P i))
  have hs : ∀ i, star (Sum.elim (star u) (P i)) = Sum.elim u (star (P i)) := fun i => by
    funext r
    rcases r with r | r <;> simp
  simp only [hs] at hp
  have e2 : ∑ i, ∑ j, (starRingEnd ℂ) (c i) * c j * (ρ (Sum.elim u (star (P i))) (Sum.elim (star u) (P j)) * Complex.exp (-∑ i, (‖u i‖ : ℂ) ^ 2)) =
      (∑ i, ∑ j, (starRingEnd ℂ) (c i) * c j * ρ (Sum.elim u (star (P i))) (Sum.elim (star u) (P j))) * Complex.exp (-∑ i, (‖u i‖ : ℂ) ^ 2) := by
    simp only [Finset.sum_mul, mul_assoc]
  rw [e2]
  refine mul_nonneg hp ?_
  have : Complex.exp (-∑ i, (‖u i‖ : ℂ) ^ 2) = ((Real.exp (-∑ i, ‖u i‖ ^ 2) : ℝ) : ℂ) := by push_cast; rfl
  rw [this]
  exact Complex.zero_le_real.2 (Real.exp_pos _).le

theorem redFun_split {A : Matrix ((m ⊕ k) ⊕ (m ⊕ k)) ((m ⊕ k) ⊕ (m ⊕ k)) ℂ} {Am : Matrix (m ⊕ m) (m ⊕ m) ℂ} {R : Matrix (k ⊕ k) (m ⊕ m) ℂ}
    {An : Matrix (k ⊕ k) (k ⊕ k) ℂ} (hN : A.submatrix (coreFirst m k) (coreFirst m k) = fromBlocks Am Rᵀ R An) {b : (m ⊕ k) ⊕ (m ⊕ k) → ℂ} (c : ℂ) (z w : k → ℂ)
    (u v : m → ℂ) : dmFun A b c (Sum.elim u z) (Sum.elim v w) = bargFun An ((b ∘ coreFirst m k) ∘ Sum.inr) c (Sum.elim w z) *
      Complex.exp (1 / 2 * (Sum.elim v u ⬝ᵥ Am.mulVec (Sum.elim v u)) + (Rᵀ.mulVec (Sum.elim w z) + (b ∘ coreFirst m k) ∘ Sum.inl) ⬝ᵥ Sum.elim v u) := by
  rw [dmFun_coreFirst, hN]
  unfold vars
  simp only [Sum.elim_comp_inl, Sum.elim_comp_inr]
  unfold bargFun
  conv_lhs => rw [quad_split, ← Sum.elim_comp_inl_inr (b ∘ coreFirst m k), sumElim_dotProduct_sumElim]
  rw [mul_assoc, ← Complex.exp_add, add_dotProduct, Matrix.mulVec_transpose, ← Matrix.dotProduct_mulVec, dotProduct_comm (Sum.elim w z) (R.mulVec _)]
  refine congrArg (HMul.hMul _) (congrArg Complex.exp ?_)
  ring

theorem redFun_integrable {A : Matrix ((m ⊕ k) ⊕ (m ⊕ k)) ((m ⊕ k) ⊕ (m ⊕ k)) ℂ} (h : TrClass A) {Am : Matrix (m ⊕ m) (m ⊕ m) ℂ} {R : Matrix (k ⊕ k) (m ⊕ m) ℂ}
    {An : Matrix (k ⊕ k) (k ⊕ k) ℂ} (hN : A.submatrix (coreFirst m k) (coreFirst m k) = fromBlocks Am Rᵀ R An) (hs : Amᵀ = Am) {b : (m ⊕ k) ⊕ (m ⊕ k) → ℂ} (c : ℂ) (z w : k → ℂ) :
    Integrable fun u : m → ℂ => dmFun A b c (Sum.elim u z) (Sum.elim (star u) w) * Complex.exp (-∑ i, (‖u i‖ : ℂ) ^ 2) := by
  have := (tr_integrable hs (trClass_core h hN) (Rᵀ.mulVec (Sum.elim w z) + (b ∘ coreFirst m k) ∘ Sum.inl)).const_mul
    (bargFun An ((b ∘ coreFirst m k) ∘ Sum.inr) c (Sum.elim w z))
  refine this.congr (.of_forall fun u => ?_)
  dsimp only
  rw [redFun_split hN, mul_assoc]

theorem redFun_eq {A : Matrix ((m ⊕ k) ⊕ (m ⊕ k)) ((m ⊕ k) ⊕ (m ⊕ k)) ℂ} (h : TrClass A) {Am : Matrix (m ⊕ m) (m ⊕ m) ℂ} {R : Matrix (k ⊕ k) (m ⊕ m) ℂ}
    {An : Matrix (k ⊕ k) (k ⊕ k) ℂ} (hN : A.submatrix (coreFirst m k) (coreFirst m k) = fromBlocks Am Rᵀ R An) (hs : Amᵀ = Am) {b : (m ⊕ k) ⊕ (m ⊕ k) → ℂ} (c : ℂ) (z w : k → ℂ) :
    redFun (dmFun A b c) z w = dmFun (redA Am R An) ((b ∘ coreFirst m k) ∘ Sum.inr - (R * (Am - Xmat m)⁻¹).mulVec ((b ∘ coreFirst m k) ∘ Sum.inl))
      (c * trC Am * Complex.exp (-(1 / 2) * (((b ∘ coreFirst m k) ∘ Sum.inl) ⬝ᵥ (Am - Xmat m)⁻¹.mulVec ((b ∘ coreFirst m k) ∘ Sum.inl)))) z w := by
  unfold redFun opTr
  simp only [redFun_split hN]
  obtain ⟨y, hy⟩ : ∃ y, y = Sum.elim w z := ⟨_, rfl⟩
  obtain ⟨bm, hbm⟩ : ∃ bm, bm = (b ∘ coreFirst m k) ∘ Sum.inl := ⟨_, rfl⟩
  obtain ⟨bn, hbn⟩ : ∃ bn, bn = (b ∘ coreFirst m k) ∘ Sum.inr := ⟨_, rfl⟩
  unfold dmFun
  rw [← hy, ← hbm, ← hbn]
  have key := tr_integral hs (trClass_core h hN) (Rᵀ.mulVec y + bm)
  simp only [mul_assoc]
  rw [integral_const_mul, mul_left_comm, key]
  obtain ⟨D, hD⟩ : ∃ D, D = (Am - Xmat m)⁻¹ := ⟨_, rfl⟩
  have hDs : Dᵀ = D := by rw [hD, transpose_nonsing_inv, transpose_sub, hs, Xmat_T]
  unfold redA bargFun
  rw [← hD]
  have hx : ∀ x y z t : ℂ, c * Complex.exp x * (t * Complex.exp y) = c * (t * (Complex.exp (x + y))) := fun x y z t => by rw [Complex.exp_add]; ring
  rw [hx _ _ 0, ← Complex.exp_add]
  refine congrArg (fun e => c * (trC Am * Complex.exp e)) ?_
  have e1 : Rᵀ.mulVec y ⬝ᵥ D.mulVec (Rᵀ.mulVec y) = y ⬝ᵥ (R * D * Rᵀ).mulVec y := by
    rw [Matrix.mulVec_transpose, ← Matrix.dotProduct_mulVec, ← Matrix.mulVec_transpose, Matrix.mulVec_mulVec, Matrix.mulVec_mulVec, Matrix.mul_assoc]
  have e2 : Rᵀ.mulVec y ⬝ᵥ D.mulVec bm = (R * D).mulVec bm ⬝ᵥ y := by
    rw [Matrix.mulVec_transpose, ← Matrix.dotProduct_mulVec, Matrix.mulVec_mulVec, dotProduct_comm]
  have e3 : bm ⬝ᵥ D.mulVec (Rᵀ.mulVec y) = Rᵀ.mulVec y ⬝ᵥ D.mulVec bm := by
    rw [Matrix.dotProduct_mulVec bm, ← Matrix.mulVec_transpose, hDs, dotProduct_comm]
  rw [Matrix.mulVec_add, add_dotProduct, dotProduct_add, dotProduct_add, e3, e2, e1, sub_dotProduct, Matrix.sub_mulVec, dotProduct_sub]
  ring

/-- The positive square `reduced_A[:M, M:]`. -/
theorem redA_pos {A : Matrix ((m ⊕ k) ⊕ (m ⊕ k)) ((m ⊕ k) ⊕ (m ⊕ k)) ℂ} (h : TrClass A) {Am : Matrix (m ⊕ m) (m ⊕ m) ℂ} {R : Matrix (k ⊕ k) (m ⊕ m) ℂ}
    {An : Matrix (k ⊕ k) (k ⊕ k) ℂ} (hN : A.submatrix (coreFirst m k) (coreFirst m k) = fromBlocks Am Rᵀ R An) (h1 : Amᵀ = Am) (h2 : Anᵀ = An) (b1 : Bk Am) (b2 : Bk R)
    (b3 : Bk An) {b : (m ⊕ k) ⊕ (m ⊕ k) → ℂ} (hb : RV b) {c : ℝ} (hc : 0 < c) (hp : OpPos (dmFun A b c)) : (redA Am R An).toBlocks₁₂.PosSemidef := by
  have hq := sum_nonneg_exp hp (fun z w => redFun_integrable h hN h1 c z w)
  rw [OpPos_congr (redFun_eq h hN h1 c)] at hq
  obtain ⟨rm, rn⟩ := rv_blocks hb
  obtain ⟨t, ht, e⟩ := trC_pos h1 b1 (trClass_core h hN)
  rw [e, rv_dot rm (((b1.sub Bk.X).inv).mulVec rm)] at hq
  obtain ⟨x, hx⟩ : ∃ x : ℝ, x = (((b ∘ coreFirst m k) ∘ Sum.inl) ⬝ᵥ (Am - Xmat m)⁻¹.mulVec ((b ∘ coreFirst m k) ∘ Sum.inl)).re := ⟨_, rfl⟩
  rw [← hx] at hq
  have ec : (c : ℂ) * t * Complex.exp (-(1 / 2) * x) = ((c * t * Real.exp (-(1 / 2) * x) : ℝ) : ℂ) := by push_cast; rfl
  rw [ec] at hq
  have hs := redA_symm (R := R) h1 h2
  have hbk := redA_bk b1 b2 b3
  have rb : RV ((b ∘ coreFirst m k) ∘ Sum.inr - (R * (Am - Xmat m)⁻¹).mulVec ((b ∘ coreFirst m k) ∘ Sum.inl)) := by
    rw [sub_eq_add_neg]
    exact rn.add ((b2.mul (b1.sub Bk.X).inv).mulVec rm).neg
  have := (C66_is_positive_exact hs hbk (rv_iff.1 rb) (mul_pos (mul_pos hc ht) (Real.exp_pos _))).2 hq
  have := (isPositive_iff (gamma_herm hs hbk) le_rfl).1 this
  simpa using this

/-! ## Contractive blocks -/

/-- A symmetric matrix whose quadratic form is bounded by the norm is a contraction. -/
theorem shrinks_of_re {P : Matrix n n ℂ} (hs : Pᵀ = P) (h : ∀ s : n → ℂ, s ≠ 0 → (s ⬝ᵥ P.mulVec s).re < ∑ i, ‖s i‖ ^ 2) : Shrinks P := by
  intro s hs0
  have hle : ∀ s : n → ℂ, (s ⬝ᵥ P.mulVec s).re ≤ ∑ i, ‖s i‖ ^ 2 := fun s => by
    by_cases h0 : s = 0
    · rw [h0]; simp
    · exact (h s h0).le
  obtain ⟨y, hy⟩ : ∃ y, y = P.mulVec s := ⟨_, rfl⟩
  obtain ⟨Y, hY⟩ : ∃ Y : ℝ, Y = ∑ i, ‖y i‖ ^ 2 := ⟨_, rfl⟩
  obtain ⟨Z, hZ⟩ : ∃ Z : ℝ, Z = ∑ i, ‖s i‖ ^ 2 := ⟨_, rfl⟩
  rw [← hy, ← hY, ← hZ]
  have hZ0 : 0 < Z := by
    obtain ⟨i, hi⟩ := Function.ne_iff.1 hs0
    rw [hZ]
    exact Finset.sum_pos' (fun _ _ => by positivity) ⟨i, Finset.mem_univ _, by have : s i ≠ 0 := hi; positivity⟩
  have hYn : 0 ≤ Y := by rw [hY]; exact Finset.sum_nonneg fun _ _ => by positivity
  -- polarisation with `t = τ ȳ`
  have pol : ∀ τ : ℝ, 2 * τ * Y < Z + τ ^ 2 * Y := by
    intro τ
    obtain ⟨t, ht⟩ : ∃ t : n → ℂ, t = (τ : ℂ) • star y := ⟨_, rfl⟩
    have q1 : (s + t) ⬝ᵥ P.mulVec (s + t) = s ⬝ᵥ P.mulVec s + 2 * (t ⬝ᵥ y) + t ⬝ᵥ P.mulVec t := by
      have : s ⬝ᵥ P.mulVec t = t ⬝ᵥ y := by rw [hy, Matrix.dotProduct_mulVec, ← Matrix.mulVec_transpose, hs, dotProduct_comm]
      rw [Matrix.mulVec_add, add_dotProduct, dotProduct_add, dotProduct_add, this, hy]
      ring
    have q2 : (Complex.I • (s - t)) ⬝ᵥ P.mulVec (Complex.I • (s - t)) = -(s ⬝ᵥ P.mulVec s) + 2 * (t ⬝ᵥ y) - t ⬝ᵥ P.mulVec t := by
      have : s ⬝ᵥ P.mulVec t = t ⬝ᵥ y := by rw [hy, Matrix.dotProduct_mulVec, ← Matrix.mulVec_transpose, hs, dotProduct_comm]
      rw [Matrix.mulVec_smul, smul_dotProduct, dotProduct_smul, smul_smul, Complex.I_mul_I, Matrix.mulVec_sub, sub_dotProduct, dotProduct_sub, dotProduct_sub, this, hy]
      simp only [smul_eq_mul]
      ring
    have ety : (t ⬝ᵥ y).re = τ * Y := by
      have : t ⬝ᵥ y = ((τ * Y : ℝ) : ℂ) := by
        rw [ht, smul_dotProduct, ← norm_sum_eq, ← hY, smul_eq_mul, ← Complex.ofReal_mul]
      rw [this, Complex.ofReal_re]
    have n1 : ∑ i, ‖(s + t) i‖ ^ 2 + ∑ i, ‖(Complex.I • (s - t)) i‖ ^ 2 = 2 * (Z + τ ^ 2 * Y) := by
      rw [← Finset.sum_add_distrib, hZ, hY, Finset.mul_sum, ← Finset.sum_add_distrib, Finset.mul_sum]
      refine Finset.sum_congr rfl fun i _ => ?_
      have hpl : ‖s i + t i‖ ^ 2 + ‖s i - t i‖ ^ 2 = 2 * (‖s i‖ ^ 2 + ‖t i‖ ^ 2) := by
        have := parallelogram_law_with_norm ℝ (s i) (t i)
        linarith
      have htn : ‖t i‖ ^ 2 = τ ^ 2 * ‖y i‖ ^ 2 := by
        rw [ht]
        simp [mul_pow]
      rw [Pi.add_apply, Pi.smul_apply, Pi.sub_apply, smul_eq_mul, norm_mul, Complex.norm_I, one_mul, hpl, htn]
    have hsum : ((s + t) ⬝ᵥ P.mulVec (s + t)).re + ((Complex.I • (s - t)) ⬝ᵥ P.mulVec (Complex.I • (s - t))).re = 4 * (τ * Y) := by
      rw [q1, q2, ← Complex.add_re, ← ety]
      have : s ⬝ᵥ P.mulVec s + 2 * (t ⬝ᵥ y) + t ⬝ᵥ P.mulVec t + (-(s ⬝ᵥ P.mulVec s) + 2 * (t ⬝ᵥ y) - t ⬝ᵥ P.mulVec t) = ((4 : ℝ) : ℂ) * (t ⬝ᵥ y) := by push_cast; ring
      rw [this, Complex.re_ofReal_mul]
    by_cases h0 : s + t = 0
    · have h1 : Complex.I • (s - t) ≠ 0 := by
        intro e
        have e' : s - t = 0 := (smul_eq_zero.1 e).resolve_left Complex.I_ne_zero
        apply hs0
        have : (2 : ℂ) • s = 0 := by rw [two_smul]; calc s + s = (s + t) + (s - t) := by abel
              _ = 0 := by rw [h0, e', add_zero]
        exact (smul_eq_zero.1 this).resolve_left two_ne_zero
      have a1 := hle (s + t)
      have a2 := h _ h1
      linarith
    · have a1 := h _ h0
      have a2 := hle (Complex.I • (s - t))
      linarith
  have := pol 1
  linarith

/-- The two diagonal blocks of a trace-class matrix with a positive off-diagonal block are contractions. -/
theorem shrinks_blocks {Q : Matrix (n ⊕ n) (n ⊕ n) ℂ} (hs : Qᵀ = Q) (hb : Bk Q) (h : TrClass Q) (hp : Q.toBlocks₁₂.PosSemidef) :
    Shrinks Q.toBlocks₁₁ ∧ Shrinks Q.toBlocks₂₂ := by
  obtain ⟨eQ, q1, q2⟩ := symm_blocks hs
  have key : ∀ s : n → ℂ, s ≠ 0 → (s ⬝ᵥ Q.toBlocks₂₂.mulVec s).re < ∑ i, ‖s i‖ ^ 2 ∧ (s ⬝ᵥ Q.toBlocks₁₁.mulVec s).re < ∑ i, ‖s i‖ ^ 2 := by
    have h11 : ∀ s : n → ℂ, star s ⬝ᵥ Q.toBlocks₁₁.mulVec (star s) = (starRingEnd ℂ) (s ⬝ᵥ Q.toBlocks₂₂.mulVec s) := by
      intro s
      rw [conj_dot, star_mulVec']
      refine congrArg (fun M => star s ⬝ᵥ Matrix.mulVec M (star s)) ?_
      ext i j
      exact (bk_iff.1 hb) (Sum.inl i) (Sum.inl j)
    have h22 : ∀ s : n → ℂ, s ≠ 0 → (s ⬝ᵥ Q.toBlocks₂₂.mulVec s).re < ∑ i, ‖s i‖ ^ 2 := by
      intro s h0
      have := h s h0
      have hq : Q.toBlocks₁₂ = Q.toBlocks₂₁ᵀ := by
        have := congrArg toBlocks₁₂ eQ
        rwa [toBlocks_fromBlocks₁₂] at this
      have e := quad_split Q.toBlocks₁₁ Q.toBlocks₂₁ Q.toBlocks₂₂ (star s) s
      rw [← eQ, h11] at e
      have hpos : 0 ≤ (Q.toBlocks₂₁.mulVec (star s) ⬝ᵥ s).re := by
        have h2 := hp.dotProduct_mulVec_nonneg s
        have : Q.toBlocks₂₁.mulVec (star s) ⬝ᵥ s = star s ⬝ᵥ Q.toBlocks₁₂.mulVec s := by
          rw [hq, Matrix.mulVec_transpose, dotProduct_comm (star s) (Matrix.vecMul _ _), ← Matrix.dotProduct_mulVec, dotProduct_comm]
        rw [this]
        exact (Complex.le_def.1 h2).1
      rw [e] at this
      have h3 : (2 * (Q.toBlocks₂₁.mulVec (star s) ⬝ᵥ s)).re = 2 * (Q.toBlocks₂₁.mulVec (star s) ⬝ᵥ s).re := by
        have := Complex.re_ofReal_mul 2 (Q.toBlocks₂₁.mulVec (star s) ⬝ᵥ s)
        push_cast at this
        exact this
      rw [Complex.add_re, Complex.add_re, Complex.conj_re, h3] at this
      linarith
    intro s h0
    refine ⟨h22 s h0, ?_⟩
    have e := h11 (star s)
    rw [star_star] at e
    rw [e, Complex.conj_re]
    have h2 := h22 (star s) (fun e => h0 (by rw [← star_star s, e, star_zero]))
    simpa using h2
  exact ⟨shrinks_of_re q1 fun s h0 => (key s h0).2, shrinks_of_re q2 fun s h0 => (key s h0).1⟩

end Verif.Manifold
