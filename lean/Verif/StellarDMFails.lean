import Verif.StellarDMFinal
import Mathlib.Tactic.LinearCombination
import Mathlib.Tactic.Linarith
import Mathlib.Tactic.NormNum

/-!
# When the physical stellar decomposition of a density matrix fails, and examples (C94)
-/

namespace Verif.Manifold
open Matrix Verif.Gauss MeasureTheory
open scoped ComplexOrder MatrixOrder

variable {m k : Type*} [Fintype m] [DecidableEq m] [Fintype k] [DecidableEq k]

theorem bk_herm {M : Matrix (m ⊕ m) (m ⊕ m) ℂ} (hs : Mᵀ = M) (hb : Bk M) : (Xmat m * M)ᴴ = Xmat m * M := by
  have h1 : Mᴴ = cj M := by
    conv_lhs => rw [← hs]
    rfl
  have h2 : (Xmat m)ᴴ = Xmat m := by
    rw [show (Xmat m)ᴴ = (cj (Xmat m))ᵀ from rfl, cj_X, Xmat_T]
  rw [conjTranspose_mul, h1, h2, hb.cj, Matrix.mul_assoc, Xmat_sq, Matrix.mul_one]

/-- A Gaussian of trace class: `1 - X A` is positive definite. -/
theorem tr_posDef {A : Matrix (m ⊕ m) (m ⊕ m) ℂ} (hs : Aᵀ = A) (hb : Bk A) (ht : TrClass A) : (Xmat m * (Xmat m - A)).PosDef := by
  have hs' : (Xmat m - A)ᵀ = Xmat m - A := by rw [transpose_sub, hs, Xmat_T]
  have hb' : Bk (Xmat m - A) := Bk.X.sub hb
  refine PosDef.of_dotProduct_mulVec_pos (bk_herm hs' hb') fun x hx => ?_
  obtain ⟨g, hg⟩ : ∃ g : m ⊕ m → ℂ, g = (1 / 2 : ℂ) • (x + (Xmat m).mulVec (star x)) := ⟨_, rfl⟩
  obtain ⟨g', hg'⟩ : ∃ g' : m ⊕ m → ℂ, g' = (-Complex.I / 2) • (x - (Xmat m).mulVec (star x)) := ⟨_, rfl⟩
  have sX : ∀ v : m ⊕ m → ℂ, star ((Xmat m).mulVec v) = (Xmat m).mulVec (star v) := fun v => by rw [star_mulVec', cj_X]
  have XX : ∀ v : m ⊕ m → ℂ, (Xmat m).mulVec ((Xmat m).mulVec v) = v := fun v => by rw [Matrix.mulVec_mulVec, Xmat_sq, Matrix.one_mulVec]
  have rg : RV g := RV.of_star (by
    rw [hg, star_smul, star_add, sX, star_star, Matrix.mulVec_smul, Matrix.mulVec_add, XX, add_comm]
    congr 1
    simp)
  have rg' : RV g' := RV.of_star (by
    rw [hg', star_smul, star_sub, sX, star_star, Matrix.mulVec_smul, Matrix.mulVec_sub, XX]
    funext i
    simp only [Pi.smul_apply, Pi.sub_apply, smul_eq_mul, Complex.star_def, map_div₀, map_neg, Complex.conj_I, Complex.conj_ofNat]
    ring)
  have ex : x = g + Complex.I • g' := by
    rw [hg, hg']
    funext i
    simp only [Pi.smul_apply, Pi.sub_apply, Pi.add_apply, smul_eq_mul]
    linear_combination ((1 / 2) * (x i - (Xmat m).mulVec (star x) i)) * Complex.I_mul_I
  have esx : star x = (Xmat m).mulVec (g - Complex.I • g') := by
    rw [ex, star_add, star_smul, rg.star, rg'.star, Matrix.mulVec_sub, Matrix.mulVec_smul]
    funext i
    simp only [Pi.smul_apply, Pi.sub_apply, Pi.add_apply, smul_eq_mul, Complex.star_def, Complex.conj_I]
    ring
  have key : star x ⬝ᵥ (Xmat m * (Xmat m - A)).mulVec x = g ⬝ᵥ (Xmat m - A).mulVec g + g' ⬝ᵥ (Xmat m - A).mulVec g' := by
    have e1 : ∀ v w : m ⊕ m → ℂ, (Xmat m).mulVec v ⬝ᵥ (Xmat m).mulVec w = v ⬝ᵥ w := fun v w => by
      rw [Matrix.dotProduct_mulVec, ← Matrix.mulVec_transpose, Xmat_T, XX]
    have e2 : g ⬝ᵥ (Xmat m - A).mulVec g' = g' ⬝ᵥ (Xmat m - A).mulVec g := by
      rw [Matrix.dotProduct_mulVec, ← Matrix.mulVec_transpose, hs', dotProduct_comm]
    rw [esx, ← Matrix.mulVec_mulVec, e1]
    conv_lhs => rw [ex]
    rw [Matrix.mulVec_add, Matrix.mulVec_smul, dotProduct_add, sub_dotProduct, sub_dotProduct, dotProduct_smul, dotProduct_smul, smul_dotProduct, smul_dotProduct, e2]
    simp only [smul_eq_mul]
    linear_combination (-(g' ⬝ᵥ (Xmat m - A).mulVec g')) * Complex.I_mul_I
  have pos : ∀ v : m ⊕ m → ℂ, RV v → v ≠ 0 → 0 < (v ⬝ᵥ (Xmat m - A).mulVec v).re := fun v hv h0 => by
    have := trClass_rv ht hv h0
    rw [Matrix.sub_mulVec, dotProduct_sub, Complex.sub_re] at this ⊢
    linarith
  rw [key, rv_dot rg (hb'.mulVec rg), rv_dot rg' (hb'.mulVec rg'), ← Complex.ofReal_add]
  have h0 : g ≠ 0 ∨ g' ≠ 0 := by
    by_contra h
    push Not at h
    refine hx ?_
    rw [ex, h.1, h.2, smul_zero, add_zero]
  have n1 : 0 ≤ (g ⬝ᵥ (Xmat m - A).mulVec g).re := by
    by_cases h : g = 0
    · rw [h]; simp
    · exact (pos g rg h).le
  have n2 : 0 ≤ (g' ⬝ᵥ (Xmat m - A).mulVec g').re := by
    by_cases h : g' = 0
    · rw [h]; simp
    · exact (pos g' rg' h).le
  refine Complex.zero_lt_real.2 ?_
  rcases h0 with h | h
  · linarith [pos g rg h]
  · linarith [pos g' rg' h]

/-- If the coupling between the core modes and the others is nonsingular, the reduced state is nowhere pure. -/
theorem redA_posDef {Am R An : Matrix (m ⊕ m) (m ⊕ m) ℂ} (h1 : Amᵀ = Am) (b1 : Bk Am) (b2 : Bk R) (ht : TrClass Am) (hp : An.toBlocks₁₂.PosSemidef) (hR : R.det ≠ 0) :
    (redA Am R An).toBlocks₁₂.PosDef := by
  have hX : (Xmat m)⁻¹ = Xmat m := inv_eq_left_inv Xmat_sq
  have hP := (tr_posDef h1 b1 ht).inv
  rw [Matrix.mul_inv_rev, hX] at hP
  have hRH : Rᴴ = Xmat m * Rᵀ * Xmat m := by
    have := b2.transpose.cj
    exact this
  have hinj : Function.Injective (Rᴴ).mulVec := by
    have : IsUnit Rᴴ := by
      rw [isUnit_iff_isUnit_det, det_conjTranspose]
      exact isUnit_iff_ne_zero.2 (star_ne_zero.2 hR)
    exact mulVec_injective_of_isUnit this
  have hQ := hP.mul_mul_conjTranspose_same (B := R) (vecMul_injective_of_isUnit ((isUnit_iff_isUnit_det _).2 (isUnit_iff_ne_zero.2 hR)))
  have e1 : R * ((Xmat m - Am)⁻¹ * Xmat m) * Rᴴ = -(R * (Am - Xmat m)⁻¹ * Rᵀ) * Xmat m := by
    have hn : (Xmat m - Am)⁻¹ = -(Am - Xmat m)⁻¹ := by
      rw [← neg_sub Am (Xmat m)]
      refine inv_eq_left_inv ?_
      rw [Matrix.neg_mul, Matrix.mul_neg, neg_neg, nonsing_inv_mul _ (isUnit_iff_ne_zero.2 (tr_det h1 ht))]
    rw [hRH, hn]
    calc _ = -(R * (Am - Xmat m)⁻¹ * (Xmat m * Xmat m) * Rᵀ * Xmat m) := by simp only [Matrix.mul_assoc, Matrix.neg_mul, Matrix.mul_neg]
      _ = _ := by rw [Xmat_sq, Matrix.mul_one, Matrix.neg_mul]
  rw [e1] at hQ
  have hQ1 := hQ.submatrix (e := (Sum.inl : m → m ⊕ m)) Sum.inl_injective
  have e2 : (redA Am R An).toBlocks₁₂ = An.toBlocks₁₂ + (-(R * (Am - Xmat m)⁻¹ * Rᵀ) * Xmat m).submatrix Sum.inl Sum.inl := by
    unfold redA
    obtain ⟨Z, hZ⟩ : ∃ Z, Z = R * (Am - Xmat m)⁻¹ * Rᵀ := ⟨_, rfl⟩
    rw [← hZ]
    have : ((-Z) * Xmat m).submatrix (Sum.inl : m → m ⊕ m) Sum.inl = -Z.toBlocks₁₂ := by
      rw [← fromBlocks_toBlocks Z, Matrix.neg_mul]
      unfold Xmat
      rw [fromBlocks_multiply]
      ext i j
      simp
    rw [this, ← sub_eq_add_neg]
    rfl
  rw [e2]
  exact PosDef.posSemidef_add hp hQ1

/-- **C94 (failure)** On a Gaussian density matrix the code fails (it inverts a singular matrix) exactly if the block of `A` that couples the core modes to the other modes is
singular: whatever the eigendecomposition and the order of `core_modes`. -/
theorem C94_fails (ord : m ≃ m) {A : Matrix ((m ⊕ m) ⊕ (m ⊕ m)) ((m ⊕ m) ⊕ (m ⊕ m)) ℂ} (hA : Aᵀ = A) (hH : A = Xmat (m ⊕ m) * cj A * Xmat (m ⊕ m))
    {b : (m ⊕ m) ⊕ (m ⊕ m) → ℂ} (hb : b ∘ Sum.inr = star (b ∘ Sum.inl)) {c : ℝ} (hc : 0 < c) (hp : OpPos (dmFun A b c)) (ht : TrClass A) {V : Matrix m m ℂ} {lam : m → ℝ}
    (hE : IsEigh (redA (A.submatrix (coreFirst m m) (coreFirst m m)).toBlocks₁₁ (A.submatrix (coreFirst m m) (coreFirst m m)).toBlocks₂₁
      (A.submatrix (coreFirst m m) (coreFirst m m)).toBlocks₂₂).toBlocks₁₂ V lam) :
    physDM ord V lam A b = none ↔ (A.submatrix (coreFirst m m) (coreFirst m m)).toBlocks₂₁.det = 0 := by
  obtain ⟨N, hN⟩ : ∃ N, N = A.submatrix (coreFirst m m) (coreFirst m m) := ⟨_, rfl⟩
  unfold physDM
  dsimp only
  rw [← hN] at hE ⊢
  have hNs : Nᵀ = N := by rw [hN, transpose_submatrix, hA]
  obtain ⟨eN, n1, n2⟩ := symm_blocks hNs
  obtain ⟨k1, k2, k3⟩ := bk_blocks (m := m) (k := m) hH
  rw [← hN] at k1 k2 k3
  have hN' : A.submatrix (coreFirst m m) (coreFirst m m) = fromBlocks N.toBlocks₁₁ N.toBlocks₂₁ᵀ N.toBlocks₂₁ N.toBlocks₂₂ := by rw [← hN]; exact eN
  have hpos := redA_pos ht hN' n1 n2 k1 k2 k3 (rv_iff.2 hb) hc hp
  obtain ⟨hS, hSS⟩ := eigh_sqrt hE hpos
  have tAm := trClass_core ht hN'
  have hW : N.toBlocks₂₂.toBlocks₁₂.PosSemidef := by
    obtain ⟨rm, rn⟩ := rv_blocks (rv_iff.2 hb)
    have hdm : dmFun A b c = dmOf (fromBlocks N.toBlocks₁₁ N.toBlocks₂₁ᵀ N.toBlocks₂₁ N.toBlocks₂₂) (Sum.elim ((b ∘ coreFirst m m) ∘ Sum.inl) ((b ∘ coreFirst m m) ∘ Sum.inr)) c := by
      funext z w
      rw [dmFun_coreFirst, dmOf_eq, hN', Sum.elim_comp_inl_inr]
    rw [hdm] at hp
    exact ((opPos_dmOf n1 n2 k1 k2 k3 rm rn hc).1 hp).submatrix Sum.inr
  constructor
  · intro h
    by_contra hR
    have hD := (redA_posDef (An := N.toBlocks₂₂) n1 k1 k2 tAm hW hR).det_pos.ne'
    have hSd : (gammaOf V lam).det ≠ 0 := by
      intro e
      rw [← hSS, det_mul, e, mul_zero] at hD
      exact hD rfl
    have hTd : (rTemp (gammaOf V lam)).det ≠ 0 := by
      unfold rTemp
      rw [det_fromBlocks_zero₁₂]
      refine mul_ne_zero ?_ (by rwa [det_transpose])
      have : (cj (gammaOf V lam)ᵀ) = (gammaOf V lam)ᴴ := rfl
      rw [this, hS]
      exact hSd
    rw [if_neg] at h
    · exact absurd h (by simp)
    · push Not
      refine ⟨tr_det n1 tAm, hTd, ?_⟩
      unfold phGamma
      rw [det_mul]
      refine mul_ne_zero ?_ hR
      rw [det_nonsing_inv]
      rw [Ring.inverse_eq_inv']
      exact inv_ne_zero hTd
  · intro h
    rw [if_pos]
    right; right
    unfold phGamma
    rw [det_mul, h, mul_zero]

/-- **C94 (product states)** The code fails on every state in which the core modes and the other modes are not correlated. -/
theorem C94_product [Nonempty m] (ord : m ≃ m) (V : Matrix m m ℂ) (lam : m → ℝ) (Am An : Matrix (m ⊕ m) (m ⊕ m) ℂ) (b : (m ⊕ m) ⊕ (m ⊕ m) → ℂ) :
    physDM ord V lam ((fromBlocks Am 0 0 An).submatrix (coreFirst m m).symm (coreFirst m m).symm) b = none := by
  unfold physDM
  dsimp only
  rw [if_pos]
  right; right
  unfold phGamma
  have : (((fromBlocks Am 0 0 An).submatrix (coreFirst m m).symm (coreFirst m m).symm).submatrix (coreFirst m m) (coreFirst m m)).toBlocks₂₁ = 0 := by
    ext i j
    simp [toBlocks₂₁]
  rw [this, Matrix.mul_zero, det_zero]

/-! ## Examples: correlated thermal modes -/

/-- Thermal noise `1/4` on every mode, coupling `1/2`. -/
noncomputable def exPhA (m : Type*) [Fintype m] [DecidableEq m] : Matrix ((m ⊕ m) ⊕ (m ⊕ m)) ((m ⊕ m) ⊕ (m ⊕ m)) ℂ :=
  (fromBlocks ((1 / 4 : ℂ) • Xmat m) ((1 / 2 : ℂ) • (1 : Matrix (m ⊕ m) (m ⊕ m) ℂ))ᵀ ((1 / 2 : ℂ) • 1) ((1 / 4 : ℂ) • Xmat m)).submatrix (coreFirst m m).symm (coreFirst m m).symm
/-- With any displacement of the core modes. -/
noncomputable def exPhB (v : m → ℂ) : (m ⊕ m) ⊕ (m ⊕ m) → ℂ := Sum.elim (Sum.elim (star v) v) (0 : m ⊕ m → ℂ) ∘ (coreFirst m m).symm

omit [Fintype m] [DecidableEq m] [Fintype k] [DecidableEq k] in
theorem bk_smul' [Fintype m] [DecidableEq m] [Fintype k] [DecidableEq k] {M : Matrix (m ⊕ m) (k ⊕ k) ℂ} (h : Bk M) (r : ℝ) : Bk ((r : ℂ) • M) := by
  rw [bk_iff] at *
  intro i j
  rw [Matrix.smul_apply, Matrix.smul_apply, h i j, smul_eq_mul, smul_eq_mul, map_mul, Complex.conj_ofReal]

theorem bk_one : Bk (1 : Matrix (m ⊕ m) (m ⊕ m) ℂ) := by
  have := (Bk.X (n := m)).mul (Bk.X (n := m))
  rwa [Xmat_sq] at this

theorem exPh_X : Bk ((1 / 4 : ℂ) • Xmat m) := by
  have := bk_smul' (Bk.X (n := m)) (1 / 4)
  push_cast at this
  exact this
theorem exPh_R : Bk ((1 / 2 : ℂ) • (1 : Matrix (m ⊕ m) (m ⊕ m) ℂ)) := by
  have := bk_smul' (bk_one (m := m)) (1 / 2)
  push_cast at this
  exact this
theorem exPh_XT : ((1 / 4 : ℂ) • Xmat m)ᵀ = (1 / 4 : ℂ) • Xmat m := by rw [transpose_smul, Xmat_T]

theorem exPh_symm : (exPhA m)ᵀ = exPhA m := symm_order exPh_XT exPh_XT
theorem exPh_bk : exPhA m = Xmat (m ⊕ m) * cj (exPhA m) * Xmat (m ⊕ m) := bk_order exPh_X exPh_R exPh_X
theorem exPh_rv (v : m → ℂ) : exPhB v ∘ Sum.inr = star (exPhB v ∘ Sum.inl) := rv_iff.1 (rv_order (RV.pv v) rv_zero)

theorem exPh_tr : TrClass (exPhA m) := by
  refine trClass_join fun x y hx hy h0 => ?_
  have e : ∀ v : m ⊕ m → ℂ, v ⬝ᵥ ((1 / 4 : ℂ) • Xmat m - Xmat m).mulVec v = -(3 / 4) * (v ⬝ᵥ (Xmat m).mulVec v) := fun v => by
    rw [Matrix.sub_mulVec, Matrix.smul_mulVec, dotProduct_sub, dotProduct_smul, smul_eq_mul]
    ring
  have hd := (X_quad_re (hx.add (Bk.X.mulVec hy).neg)).1
  have hd' : (x + -(Xmat m).mulVec y) ⬝ᵥ (Xmat m).mulVec (x + -(Xmat m).mulVec y) = x ⬝ᵥ (Xmat m).mulVec x - 2 * (x ⬝ᵥ y) + y ⬝ᵥ (Xmat m).mulVec y := by
    have XX : (Xmat m).mulVec ((Xmat m).mulVec y) = y := by rw [Matrix.mulVec_mulVec, Xmat_sq, Matrix.one_mulVec]
    have e1 : (Xmat m).mulVec y ⬝ᵥ (Xmat m).mulVec x = x ⬝ᵥ y := by
      rw [Matrix.dotProduct_mulVec, ← Matrix.mulVec_transpose, Xmat_T, XX, dotProduct_comm]
    rw [Matrix.mulVec_add, Matrix.mulVec_neg, XX, dotProduct_add, add_dotProduct, add_dotProduct, neg_dotProduct, neg_dotProduct, dotProduct_neg, dotProduct_neg, e1,
      dotProduct_comm ((Xmat m).mulVec y) y]
    ring
  rw [hd'] at hd
  have e2 : ((1 / 2 : ℂ) • (1 : Matrix (m ⊕ m) (m ⊕ m) ℂ)).mulVec x ⬝ᵥ y = 1 / 2 * (x ⬝ᵥ y) := by
    rw [Matrix.smul_mulVec, Matrix.one_mulVec, smul_dotProduct, smul_eq_mul]
  rw [e, e, e2]
  obtain ⟨p1, p2⟩ := X_quad_re hx
  obtain ⟨q1, q2⟩ := X_quad_re hy
  have hs : 0 < (x ⬝ᵥ (Xmat m).mulVec x).re + (y ⬝ᵥ (Xmat m).mulVec y).re := by
    by_cases h : x = 0
    · have : y ≠ 0 := fun h' => h0 ⟨h, h'⟩
      linarith [q2 this]
    · linarith [p2 h]
  have f1 : (-(3 / 4) * (x ⬝ᵥ (Xmat m).mulVec x) + 2 * (1 / 2 * (x ⬝ᵥ y)) + -(3 / 4) * (y ⬝ᵥ (Xmat m).mulVec y)).re =
      -(3 / 4) * (x ⬝ᵥ (Xmat m).mulVec x).re + (x ⬝ᵥ y).re + -(3 / 4) * (y ⬝ᵥ (Xmat m).mulVec y).re := by
    simp
  have f2 : (x ⬝ᵥ (Xmat m).mulVec x - 2 * (x ⬝ᵥ y) + y ⬝ᵥ (Xmat m).mulVec y).re = (x ⬝ᵥ (Xmat m).mulVec x).re - 2 * (x ⬝ᵥ y).re + (y ⬝ᵥ (Xmat m).mulVec y).re := by
    simp
  rw [f1]
  rw [f2] at hd
  linarith

theorem exPh_pos (v : m → ℂ) : OpPos (dmFun (exPhA m) (exPhB v) (1 : ℝ)) := by
  refine (opPos_dmOf exPh_XT exPh_XT exPh_X exPh_R exPh_X (RV.pv v) rv_zero one_pos).2 ?_
  have e1 : ((1 / 4 : ℂ) • Xmat m).toBlocks₁₂ = (1 / 4 : ℂ) • 1 := by ext i j; simp [toBlocks₁₂, Xmat]
  have e2 : ((1 / 2 : ℂ) • (1 : Matrix (m ⊕ m) (m ⊕ m) ℂ)).toBlocks₁₂ = 0 := by ext i j; simp [toBlocks₁₂]
  have e3 : ((1 / 2 : ℂ) • (1 : Matrix (m ⊕ m) (m ⊕ m) ℂ))ᵀ.toBlocks₁₂ = 0 := by ext i j; simp [toBlocks₁₂]
  rw [e1, e2, e3]
  have : fromBlocks ((1 / 4 : ℂ) • (1 : Matrix m m ℂ)) 0 0 ((1 / 4 : ℂ) • (1 : Matrix m m ℂ)) = (1 / 4 : ℂ) • (1 : Matrix (m ⊕ m) (m ⊕ m) ℂ) := by
    rw [← fromBlocks_one, fromBlocks_smul]
    simp
  rw [this]
  exact PosSemidef.one.smul (by rw [Complex.le_def]; norm_num)

theorem exPh_blocks : (exPhA m).submatrix (coreFirst m m) (coreFirst m m) =
    fromBlocks ((1 / 4 : ℂ) • Xmat m) ((1 / 2 : ℂ) • (1 : Matrix (m ⊕ m) (m ⊕ m) ℂ))ᵀ ((1 / 2 : ℂ) • 1) ((1 / 4 : ℂ) • Xmat m) := by
  unfold exPhA
  rw [submatrix_submatrix, Equiv.symm_comp_self, submatrix_id_id]

theorem exPh_eigh : IsEigh (redA ((exPhA m).submatrix (coreFirst m m) (coreFirst m m)).toBlocks₁₁ ((exPhA m).submatrix (coreFirst m m) (coreFirst m m)).toBlocks₂₁
    ((exPhA m).submatrix (coreFirst m m) (coreFirst m m)).toBlocks₂₂).toBlocks₁₂ (1 : Matrix m m ℂ) (fun _ => 7 / 12) := by
  rw [exPh_blocks, toBlocks_fromBlocks₁₁, toBlocks_fromBlocks₂₁, toBlocks_fromBlocks₂₂]
  have hi : ((1 / 4 : ℂ) • Xmat m - Xmat m)⁻¹ = (-(4 / 3) : ℂ) • Xmat m := by
    refine inv_eq_left_inv ?_
    rw [Matrix.smul_mul, Matrix.mul_sub, Matrix.mul_smul, Xmat_sq]
    ext i j
    simp only [Matrix.smul_apply, Matrix.sub_apply, smul_eq_mul]
    ring
  refine ⟨by rw [conjTranspose_one, Matrix.one_mul], ?_⟩
  unfold redA
  rw [hi]
  have : (1 / 4 : ℂ) • Xmat m - (1 / 2 : ℂ) • (1 : Matrix (m ⊕ m) (m ⊕ m) ℂ) * ((-(4 / 3) : ℂ) • Xmat m) * ((1 / 2 : ℂ) • (1 : Matrix (m ⊕ m) (m ⊕ m) ℂ))ᵀ = (7 / 12 : ℂ) • Xmat m := by
    rw [transpose_smul, transpose_one, Matrix.smul_mul, Matrix.one_mul, Matrix.mul_smul, Matrix.mul_one, smul_smul, smul_smul, ← sub_smul]
    norm_num
  rw [this, Matrix.one_mul, conjTranspose_one, Matrix.mul_one]
  ext i j
  by_cases h : i = j
  · subst h
    simp [toBlocks₁₂, Xmat]
  · simp [toBlocks₁₂, Xmat, h]

/-- The decomposition of the example exists, for every number of modes, every order of the core modes and every displacement. -/
theorem exPh_some (ord : m ≃ m) (v : m → ℂ) : ∃ core Φ, physDM ord (1 : Matrix m m ℂ) (fun _ => 7 / 12) (exPhA m) (exPhB v) = some (core, Φ) := by
  have h := C94_fails ord exPh_symm exPh_bk (exPh_rv v) one_pos (exPh_pos v) exPh_tr exPh_eigh
  rw [exPh_blocks, toBlocks_fromBlocks₂₁, det_smul, det_one, mul_one] at h
  cases e : physDM ord (1 : Matrix m m ℂ) (fun _ => 7 / 12) (exPhA m) (exPhB v) with
  | some x => exact ⟨x.1, x.2, rfl⟩
  | none => exact absurd (h.1 e) (pow_ne_zero _ (by norm_num))

/-- Two correlated thermal modes with a displaced core mode: the decomposition is physical. -/
example : ∃ core Φ, physDM (Equiv.refl Unit) (1 : Matrix Unit Unit ℂ) (fun _ => 7 / 12) (exPhA Unit) (exPhB fun _ => 1 + Complex.I) = some (core, Φ) ∧
    opTr (ketDM core) = 1 ∧ TracePres Φ ∧ OpPos (choiOp Φ) ∧ IsCore core := by
  obtain ⟨core, Φ, h⟩ := exPh_some (Equiv.refl Unit) (fun _ => 1 + Complex.I)
  obtain ⟨a1, a2, a3, -, -⟩ := C94_physical _ exPh_symm exPh_bk (exPh_rv _) one_pos (exPh_pos _) exPh_tr exPh_eigh h
  exact ⟨core, Φ, h, a1, a2, a3, C94_core exPh_symm exPh_bk (exPh_rv _) one_pos (exPh_pos _) exPh_tr exPh_eigh h⟩

/-- **C94 (order of the core modes)** For four modes and `core_modes` given in the order (1, 0), the returned ket need not be a core state: the displacements are applied to the
wrong modes. -/
theorem C94_unsorted_not_core : ∃ core Φ, physDM (Equiv.swap (0 : Fin 2) 1) (1 : Matrix (Fin 2) (Fin 2) ℂ) (fun _ => 7 / 12) (exPhA (Fin 2)) (exPhB ![1, 0]) = some (core, Φ) ∧
    ¬ IsCore core := by
  obtain ⟨core, Φ, h⟩ := exPh_some (Equiv.swap (0 : Fin 2) 1) ![1, 0]
  obtain ⟨-, -, -, -, a5⟩ := C94_physical _ exPh_symm exPh_bk (exPh_rv _) one_pos (exPh_pos _) exPh_tr exPh_eigh h
  refine ⟨core, Φ, h, fun hc => ?_⟩
  have h1 := a5.1 hc 0
  obtain ⟨G, hG⟩ : ∃ G, G = phGamma (gammaOf (1 : Matrix (Fin 2) (Fin 2) ℂ) (fun _ => 7 / 12)) ((exPhA (Fin 2)).submatrix (coreFirst (Fin 2) (Fin 2)) (coreFirst (Fin 2) (Fin 2))).toBlocks₂₁ := ⟨_, rfl⟩
  obtain ⟨s, hs⟩ : ∃ s : ℝ, s = Real.sqrt (7 / 12) := ⟨_, rfl⟩
  have hs0 : (s : ℂ) ≠ 0 := by rw [hs]; exact_mod_cast (Real.sqrt_pos.2 (by norm_num)).ne'
  have hS : gammaOf (1 : Matrix (Fin 2) (Fin 2) ℂ) (fun _ => 7 / 12) = (s : ℂ) • 1 := by
    unfold gammaOf
    rw [Matrix.one_mul, conjTranspose_one, Matrix.mul_one]
    dsimp only
    rw [← hs]
    ext i j
    by_cases h : i = j
    · subst h; simp
    · simp [h]
  have hT : rTemp ((s : ℂ) • (1 : Matrix (Fin 2) (Fin 2) ℂ)) = (s : ℂ) • 1 := by
    unfold rTemp
    rw [transpose_smul, transpose_one, ← fromBlocks_one, fromBlocks_smul]
    simp only [smul_zero]
    have : ∀ M M' : Matrix (Fin 2) (Fin 2) ℂ, M = M' → fromBlocks M 0 0 ((s : ℂ) • 1 : Matrix (Fin 2) (Fin 2) ℂ) = fromBlocks M' 0 0 ((s : ℂ) • 1) := fun M M' e => by rw [e]
    refine this _ _ ?_
    ext i j
    by_cases h : i = j
    · subst h; simp [cj]
    · simp [cj, h]
  have hG2 : Gᵀ⁻¹ = (2 * s : ℂ) • 1 := by
    have e : G = (1 / (2 * s) : ℂ) • 1 := by
      rw [hG, exPh_blocks, toBlocks_fromBlocks₂₁, hS]
      unfold phGamma
      rw [hT]
      have : ((s : ℂ) • (1 : Matrix (Fin 2 ⊕ Fin 2) (Fin 2 ⊕ Fin 2) ℂ))⁻¹ = (1 / s : ℂ) • 1 := by
        refine inv_eq_left_inv ?_
        rw [Matrix.smul_mul, Matrix.one_mul, smul_smul, one_div, inv_mul_cancel₀ hs0, one_smul]
      rw [this, Matrix.smul_mul, Matrix.one_mul, smul_smul]
      congr 1
      field_simp
    rw [e, transpose_smul, transpose_one]
    refine inv_eq_left_inv ?_
    rw [Matrix.smul_mul, Matrix.one_mul, smul_smul, mul_one_div, div_self (mul_ne_zero two_ne_zero hs0), one_smul]
  rw [← hG] at h1
  unfold phBm at h1
  rw [hG2, Matrix.smul_mulVec, Matrix.one_mulVec] at h1
  have hv : (exPhB (![1, 0] : Fin 2 → ℂ) ∘ coreFirst (Fin 2) (Fin 2)) ∘ Sum.inl = Sum.elim (star ![1, 0]) ![1, 0] := by
    unfold exPhB
    funext i
    simp
  rw [hv] at h1
  simp [hs0] at h1

end Verif.Manifold
