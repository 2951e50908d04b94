import Verif.StellarDMMixed
import Mathlib.Tactic.Abel

/-!
# The mixed physical stellar decomposition of density matrices: theorems (C95)
-/

namespace Verif.Manifold
open Matrix Verif.Gauss MeasureTheory
open scoped ComplexOrder MatrixOrder

variable {m k : Type*} [Fintype m] [DecidableEq m] [Fintype k] [DecidableEq k]

/-- The map and its action, for any core state of the right shape. -/
theorem phys_gen {A : Matrix ((m ⊕ m) ⊕ (m ⊕ m)) ((m ⊕ m) ⊕ (m ⊕ m)) ℂ} (hA : Aᵀ = A) (hH : Bk A) {b : (m ⊕ m) ⊕ (m ⊕ m) → ℂ} (hb : RV b)
    (c : ℝ) (ht : TrClass A) {Am R An : Matrix (m ⊕ m) (m ⊕ m) ℂ} (hN : A.submatrix (coreFirst m m) (coreFirst m m) = fromBlocks Am Rᵀ R An)
    {T Nc G : Matrix (m ⊕ m) (m ⊕ m) ℂ} (kT : Bk T) (kG : Bk G) (hG : G.det ≠ 0) (hTG : T * G = R) (Ncs : Ncᵀ = Nc) (redN : Nc + T * Xmat m * Tᵀ = redA Am R An)
    (hWφ : (fromBlocks Am.toBlocks₁₂ Gᵀ.toBlocks₁₂ G.toBlocks₁₂ (phIn Am G).toBlocks₁₂).PosSemidef) (γ : m → ℂ) {bm bn β : m ⊕ m → ℂ} (hbm : bm = (b ∘ coreFirst m m) ∘ Sum.inl)
    (hbn : bn = (b ∘ coreFirst m m) ∘ Sum.inr) (hβ : β = phBm G bm) {E1 E2 : m ⊕ m → ℂ} (hE1 : E1 = β + -Sum.elim (star γ) γ)
    (hE2 : E2 = phBn T (phIn Am G) β bn + (T * Xmat m).mulVec (Sum.elim (star γ) γ)) {κ : ℂ}
    (htr : opTr (dmOf (fromBlocks 0 Tᵀ T Nc) (Sum.elim E1 E2) κ) = 1) :
    TracePres (phPhi Am G γ) ∧ OpPos (choiOp (phPhi Am G γ)) ∧
      ∀ z w, opTr (dmFun A b c) * applyOnDM (phPhi Am G γ) (dmOf (fromBlocks 0 Tᵀ T Nc) (Sum.elim E1 E2) κ) z w = dmFun A b c z w := by
  have hNs : (A.submatrix (coreFirst m m) (coreFirst m m))ᵀ = A.submatrix (coreFirst m m) (coreFirst m m) := by rw [transpose_submatrix, hA]
  have hAms : Amᵀ = Am := by
    have := congrArg toBlocks₁₁ hNs
    rw [hN, fromBlocks_transpose, toBlocks_fromBlocks₁₁, toBlocks_fromBlocks₁₁] at this
    exact this
  obtain ⟨k1, k2, k3⟩ := bk_blocks hH
  rw [hN, toBlocks_fromBlocks₁₁] at k1
  rw [hN, toBlocks_fromBlocks₂₁] at k2
  rw [hN, toBlocks_fromBlocks₂₂] at k3
  have tAm := trClass_core ht hN
  have redt : TrClass (Nc + T * Xmat m * Tᵀ) := by rw [redN]; exact trClass_red ht hN hAms k1 k2
  have tcore := core_trClass kT redt
  obtain ⟨Q, hQd⟩ : ∃ Q, Q = phIn Am G := ⟨_, rfl⟩
  have Qs : Qᵀ = Q := by rw [hQd]; exact phIn_symm hAms G
  have kQ : Bk Q := by rw [hQd]; exact phIn_bk k1 kG
  have tQ : TrClass Q := by rw [hQd]; exact phIn_trClass hAms k1 kG tAm hG
  have hTQ : Nc + T * Q * Tᵀ = An := by
    have e1 : T * Q * Tᵀ = R * (Am - Xmat m)⁻¹ * Rᵀ + T * Xmat m * Tᵀ := by
      rw [hQd]
      unfold phIn
      rw [Matrix.mul_add, Matrix.add_mul, ← hTG, transpose_mul]
      simp only [Matrix.mul_assoc]
    rw [e1, add_comm (R * _ * _), ← add_assoc, redN]
    unfold redA
    rw [sub_add_cancel]
  rw [← hQd] at hWφ hE2
  have pQ : Q.toBlocks₁₂.PosSemidef := hWφ.submatrix Sum.inr
  obtain ⟨s1, s2⟩ := shrinks_blocks Qs kQ tQ pQ
  rw [hQd] at s1 s2
  obtain ⟨cφ, hcφ, eΦ, tΦ⟩ := phPhi_eq hAms k1 kG tAm s1 s2 γ
  rw [← eΦ] at tΦ
  rw [← hQd] at s1 s2
  have hlin : phLin Am G γ = Sum.elim (Gᵀ.mulVec (Sum.elim (star γ) γ)) ((Q - Xmat m).mulVec (Sum.elim (star γ) γ)) := by rw [hQd]; rfl
  have hmat : phA Am G = fromBlocks Am Gᵀ G Q := by rw [hQd]; rfl
  rw [hlin, hmat] at eΦ
  obtain ⟨g, hg⟩ : ∃ g, g = Sum.elim (star γ) γ := ⟨_, rfl⟩
  rw [← hg] at eΦ hE1 hE2
  have rg : RV g := by rw [hg]; exact RV.pv γ
  have hGβ : Gᵀ.mulVec β = bm := by
    rw [hβ]
    unfold phBm
    rw [Matrix.mulVec_mulVec, mul_nonsing_inv _ (isUnit_iff_ne_zero.2 (by rwa [det_transpose])), Matrix.one_mulVec]
  have hb' : b ∘ coreFirst m m = Sum.elim bm bn := by rw [hbm, hbn, Sum.elim_comp_inl_inr]
  have hdm : ∀ κ : ℂ, dmFun A b κ = dmOf (fromBlocks Am Rᵀ R An) (Sum.elim bm bn) κ := fun κ => by
    funext z w
    rw [dmFun_coreFirst, dmOf_eq, hN, hb']
  have l1 : Gᵀ.mulVec g + Gᵀ.mulVec E1 = bm := by
    rw [hE1, ← Matrix.mulVec_add, add_comm g, neg_add_cancel_right, hGβ]
  have l2 : E2 + T.mulVec (Q.mulVec E1 + (Q - Xmat m).mulVec g) = bn := by
    rw [hE2, hE1]
    unfold phBn
    simp only [Matrix.mulVec_add, Matrix.mulVec_neg, Matrix.sub_mulVec, Matrix.mulVec_sub, Matrix.mulVec_mulVec]
    abel
  obtain ⟨ρ, hρ⟩ : ∃ ρ, ρ = dmOf (fromBlocks 0 Tᵀ T Nc) (Sum.elim E1 E2) κ := ⟨_, rfl⟩
  obtain ⟨K, hK⟩ : ∃ K : ℂ, K = κ * cφ * Complex.exp (1 / 2 * (E1 ⬝ᵥ Q.mulVec E1) + (Q - Xmat m).mulVec g ⬝ᵥ E1) := ⟨_, rfl⟩
  have hactf : applyOnDM (phPhi Am G γ) ρ = dmFun A b K := by
    funext z w
    rw [eΦ, hρ, act_core Qs s1 s2, hTG, hTQ, l1, l2, hdm, hK]
  have z0 : ((0 : Matrix (m ⊕ m) (m ⊕ m) ℂ))ᵀ = 0 := transpose_zero
  have iρ : ∀ κ : ℂ, Integrable fun u : m ⊕ m → ℂ => dmFun A b κ u (star u) * Complex.exp (-∑ i, (‖u i‖ : ℂ) ^ 2) := fun κ => by
    have := (tr_integrable hA ht b).const_mul κ
    refine this.congr (.of_forall fun u => ?_)
    dsimp only [dmFun]
    ring
  have icore : Integrable fun u : m ⊕ m → ℂ => ρ u (star u) * Complex.exp (-∑ i, (‖u i‖ : ℂ) ^ 2) := by
    have := (tr_integrable (symm_order z0 Ncs) tcore (Sum.elim E1 E2 ∘ (coreFirst m m).symm)).const_mul κ
    refine this.congr (.of_forall fun u => ?_)
    rw [hρ]
    dsimp only [dmOf, dmFun]
    ring
  have htrK : opTr (dmFun A b K) = 1 := by
    rw [← htr, ← hρ, opTr_red icore, ← hactf, opTr_red (by rw [hactf]; exact iρ K)]
    have : redFun (applyOnDM (phPhi Am G γ) ρ) = redFun ρ := by
      funext z w
      rw [eΦ, hρ]
      refine act_red Qs s1 s2 _ _ _ ?_ _ _ _ _ _ z w
      rw [← eΦ]
      exact tΦ
    rw [this]
  refine ⟨tΦ, ?_, fun z w => ?_⟩
  · have : choiOp (phPhi Am G γ) = dmOf (fromBlocks Am Gᵀ G Q) (Sum.elim (Gᵀ.mulVec g) ((Q - Xmat m).mulVec g)) cφ := by
      funext z w
      rw [eΦ, choi_dmOf]
    rw [this]
    exact (opPos_dmOf hAms Qs k1 kG kQ (kG.transpose.mulVec rg) ((kQ.sub Bk.X).mulVec rg) hcφ).2 hWφ
  · rw [← hρ, congrFun (congrFun hactf z) w]
    rw [opTr_dmFun hA ht] at htrK ⊢
    obtain ⟨τ, hτ⟩ : ∃ τ, τ = trC A * Complex.exp (-(1 / 2) * (b ⬝ᵥ (A - Xmat (m ⊕ m))⁻¹.mulVec b)) := ⟨_, rfl⟩
    rw [← hτ] at htrK ⊢
    unfold dmFun
    linear_combination (c : ℂ) * Complex.exp (1 / 2 * (Sum.elim w z ⬝ᵥ A.mulVec (Sum.elim w z)) + b ⬝ᵥ Sum.elim w z) * htrK

/-! ## The matrices -/

theorem eigh_rc {H V : Matrix m m ℂ} {lam : m → ℝ} (hE : IsEigh H V lam) (hp : H.PosSemidef) : mxRc V lam * (mxRc V lam)ᴴ = H := by
  obtain ⟨h1, h2⟩ := hE
  have hlam : ∀ i, 0 ≤ lam i := by
    have hd : (diagonal fun i => (lam i : ℂ)).PosSemidef := by
      have := hp.conjTranspose_mul_mul_same V
      rw [h2] at this
      have e : Vᴴ * (V * diagonal (fun i => (lam i : ℂ)) * Vᴴ) * V = (Vᴴ * V) * diagonal (fun i => (lam i : ℂ)) * (Vᴴ * V) := by simp only [Matrix.mul_assoc]
      rwa [e, h1, Matrix.one_mul, Matrix.mul_one] at this
    intro i
    have := hd.diag_nonneg (i := i)
    rw [diagonal_apply_eq] at this
    exact Complex.zero_le_real.1 this
  unfold mxRc
  rw [conjTranspose_mul, diagonal_conjTranspose, h2]
  have hD : diagonal (fun i => ((Real.sqrt (lam i) : ℝ) : ℂ)) * diagonal (star fun i => ((Real.sqrt (lam i) : ℝ) : ℂ)) = diagonal (fun i => (lam i : ℂ)) := by
    rw [diagonal_mul_diagonal]
    refine congrArg diagonal (funext fun i => ?_)
    rw [Pi.star_apply, Complex.star_def, Complex.conj_ofReal, ← Complex.ofReal_mul, Real.mul_self_sqrt (hlam i)]
  rw [← hD]
  simp only [Matrix.mul_assoc]

/-- A Moore-Penrose inverse that is nonsingular is the inverse. -/
theorem pinv_det {P M : Matrix k k ℂ} (h : IsPinv P M) (hd : P.det ≠ 0) : M * P = 1 := by
  have h1 : P * (M * P) = P * 1 := by rw [← Matrix.mul_assoc, h.2.1, Matrix.mul_one]
  calc M * P = P⁻¹ * (P * (M * P)) := by rw [← Matrix.mul_assoc, nonsing_inv_mul _ (isUnit_iff_ne_zero.2 hd), Matrix.one_mul]
    _ = 1 := by rw [h1, Matrix.mul_one, nonsing_inv_mul _ (isUnit_iff_ne_zero.2 hd)]

/-- The Moore-Penrose inverse of a nonsingular matrix. -/
theorem pinv_inv {P M : Matrix k k ℂ} (h : IsPinv P M) (hd : M.det ≠ 0) : P.det ≠ 0 := by
  have h1 : M * P * M = M := h.1
  have h2 : M * P = 1 := by
    calc M * P = M * P * (M * M⁻¹) := by rw [mul_nonsing_inv _ (isUnit_iff_ne_zero.2 hd), Matrix.mul_one]
      _ = (M * P * M) * M⁻¹ := by simp only [Matrix.mul_assoc]
      _ = 1 := by rw [h1, mul_nonsing_inv _ (isUnit_iff_ne_zero.2 hd)]
  intro e
  have := congrArg Matrix.det h2
  rw [det_mul, e, mul_zero, det_one] at this
  exact zero_ne_one this

theorem one_sub_XA (Am : Matrix (m ⊕ m) (m ⊕ m) ℂ) : 1 - Xmat m * Am = Xmat m * (Xmat m - Am) := by rw [Matrix.mul_sub, Xmat_sq]

/-- `reduced_A` of the two decompositions. -/
theorem mxRed_eq {Am R : Matrix (m ⊕ m) (m ⊕ m) ℂ} (h1 : Amᵀ = Am) (b2 : Bk R) (ht : TrClass Am) : mxRed Am R = -(R * (Am - Xmat m)⁻¹ * Rᵀ) * Xmat m := by
  have hX : (Xmat m)⁻¹ = Xmat m := inv_eq_left_inv Xmat_sq
  have hRH : cj Rᵀ = Xmat m * Rᵀ * Xmat m := b2.transpose.cj
  have hn : (Xmat m - Am)⁻¹ = -(Am - Xmat m)⁻¹ := by
    rw [← neg_sub Am (Xmat m)]
    refine inv_eq_left_inv ?_
    rw [Matrix.neg_mul, Matrix.mul_neg, neg_neg, nonsing_inv_mul _ (isUnit_iff_ne_zero.2 (tr_det h1 ht))]
  unfold mxRed
  rw [one_sub_XA, Matrix.mul_inv_rev, hX, hRH, hn]
  calc _ = -(R * (Am - Xmat m)⁻¹ * (Xmat m * Xmat m) * Rᵀ * Xmat m) := by simp only [Matrix.mul_assoc, Matrix.neg_mul, Matrix.mul_neg]
    _ = _ := by rw [Xmat_sq, Matrix.mul_one, Matrix.neg_mul]

theorem mul_X_blocks (Z : Matrix (m ⊕ m) (m ⊕ m) ℂ) : (Z * Xmat m).toBlocks₂₂ = Z.toBlocks₂₁ ∧ (Z * Xmat m).toBlocks₂₁ = Z.toBlocks₂₂ := by
  obtain ⟨a, b, c, d, rfl⟩ : ∃ a b c d, Z = fromBlocks a b c d := ⟨_, _, _, _, (fromBlocks_toBlocks Z).symm⟩
  unfold Xmat
  rw [fromBlocks_multiply]
  simp

theorem rc_X (r : Matrix m m ℂ) : rTemp rᵀ * Xmat m * (rTemp rᵀ)ᵀ = fromBlocks 0 (cj (r * rᴴ)) (r * rᴴ) 0 := by
  have e : cj (r * rᴴ) = cj r * rᵀ := by
    rw [cj_mul]
    congr 1
    ext i j
    simp [cj]
  rw [e]
  unfold rTemp Xmat
  rw [transpose_transpose, fromBlocks_transpose, fromBlocks_multiply, fromBlocks_multiply]
  have : (cj r)ᵀ = rᴴ := rfl
  rw [this]
  simp

theorem rc_mul12 (r : Matrix m m ℂ) (M : Matrix (m ⊕ m) (m ⊕ m) ℂ) : (rTemp rᵀ * M).toBlocks₁₂ = cj r * M.toBlocks₁₂ ∧ (M * (rTemp rᵀ)ᵀ).toBlocks₁₂ = M.toBlocks₁₂ * rᵀ := by
  obtain ⟨a, b, c, d, rfl⟩ : ∃ a b c d, M = fromBlocks a b c d := ⟨_, _, _, _, (fromBlocks_toBlocks M).symm⟩
  unfold rTemp
  rw [transpose_transpose, fromBlocks_transpose, fromBlocks_multiply, fromBlocks_multiply]
  simp

theorem bk_21 {M : Matrix (m ⊕ m) (m ⊕ m) ℂ} (h : Bk M) : cj M.toBlocks₂₁ = M.toBlocks₁₂ ∧ cj M.toBlocks₂₂ = M.toBlocks₁₁ :=
  ⟨by ext i j; exact ((bk_iff.1 h) (Sum.inl i) (Sum.inr j)).symm, by ext i j; exact ((bk_iff.1 h) (Sum.inl i) (Sum.inl j)).symm⟩

/-- The core state and the core of the coupling reproduce the reduced state. -/
theorem mx_redN {Am R An : Matrix (m ⊕ m) (m ⊕ m) ℂ} (h1 : Amᵀ = Am) (b1 : Bk Am) (b2 : Bk R) (b3 : Bk An) (ht : TrClass Am) {r : Matrix m m ℂ}
    (hr : r * rᴴ = mxSq Am R) : mxNc Am R An + rTemp rᵀ * Xmat m * (rTemp rᵀ)ᵀ = redA Am R An := by
  obtain ⟨red, hred⟩ : ∃ red, red = redA Am R An := ⟨_, rfl⟩
  have redk : Bk red := by rw [hred]; exact redA_bk b1 b2 b3
  obtain ⟨u1, u2⟩ := bk_21 redk
  have e21 : red.toBlocks₂₁ = An.toBlocks₂₁ + (mxRed Am R).toBlocks₂₂ := by
    rw [mxRed_eq h1 b2 ht, (mul_X_blocks _).1, hred]
    unfold redA
    rw [sub_eq_add_neg]
    rfl
  have e22 : red.toBlocks₂₂ = An.toBlocks₂₂ + (mxRed Am R).toBlocks₂₁ := by
    rw [mxRed_eq h1 b2 ht, (mul_X_blocks _).2, hred]
    unfold redA
    rw [sub_eq_add_neg]
    rfl
  rw [rc_X, hr, ← hred]
  unfold mxNc
  dsimp only
  rw [fromBlocks_add, add_zero, add_zero, ← cj_add, ← e22]
  have : An.toBlocks₂₁ - R.toBlocks₂₁ * Am.toBlocks₂₁⁻¹ * cj R.toBlocks₂₁ᵀ + mxSq Am R = red.toBlocks₂₁ := by
    rw [e21]
    unfold mxSq
    abel
  rw [this, u1, u2, fromBlocks_toBlocks]

end Verif.Manifold
