import Verif.StellarDMMixedMain

/-!
# The mixed physical stellar decomposition of density matrices: the decomposition (C95)
-/

namespace Verif.Manifold
open Matrix Verif.Gauss MeasureTheory
open scoped ComplexOrder MatrixOrder

variable {m k : Type*} [Fintype m] [DecidableEq m] [Fintype k] [DecidableEq k]

theorem mxNc_12 {Am R An : Matrix (m ⊕ m) (m ⊕ m) ℂ} (b1 : Bk Am) (b2 : Bk R) (b3 : Bk An) :
    (mxNc Am R An).toBlocks₁₂ = An.toBlocks₁₂ - R.toBlocks₁₂ * Am.toBlocks₁₂⁻¹ * Rᵀ.toBlocks₁₂ := by
  unfold mxNc
  dsimp only
  rw [toBlocks_fromBlocks₁₂]
  have e1 : ∀ X Y : Matrix m m ℂ, cj (X - Y) = cj X - cj Y := fun X Y => by ext i j; simp [cj]
  have e2 : cj (cj R.toBlocks₂₁ᵀ) = Rᵀ.toBlocks₁₂ := by ext i j; exact Complex.conj_conj _
  rw [e1, cj_mul, cj_mul, cj_inv, (bk_21 b1).1, (bk_21 b2).1, (bk_21 b3).1, e2]

theorem mxNc_bk (Am R An : Matrix (m ⊕ m) (m ⊕ m) ℂ) : Bk (mxNc Am R An) := by
  rw [bk_iff]
  intro i j
  rcases i with i | i <;> rcases j with j | j
  · rfl
  · rfl
  · exact (Complex.conj_conj _).symm
  · exact (Complex.conj_conj _).symm

/-- The state has a positive Schur complement, and what remains is positive too. -/
theorem schur_pos {a B C d : Matrix m m ℂ} (h : (fromBlocks a B C d).PosSemidef) (ha : a.det ≠ 0) :
    a.PosDef ∧ C = Bᴴ ∧ (d - C * a⁻¹ * B).PosSemidef ∧ (fromBlocks a B C (C * a⁻¹ * B)).PosSemidef := by
  have hpa : a.PosSemidef := h.submatrix Sum.inl
  have hC : C = Bᴴ := by
    have := congrArg toBlocks₂₁ h.isHermitian
    rw [fromBlocks_conjTranspose, toBlocks_fromBlocks₂₁, toBlocks_fromBlocks₂₁] at this
    exact this.symm
  have hpd : a.PosDef := hpa.posDef_iff_isUnit.2 ((isUnit_iff_isUnit_det _).2 (isUnit_iff_ne_zero.2 ha))
  letI : Invertible a := invertibleOfIsUnitDet a (isUnit_iff_ne_zero.2 ha)
  refine ⟨hpd, hC, ?_, ?_⟩
  · rw [hC] at h ⊢
    exact (PosDef.fromBlocks₁₁ B d hpd).1 h
  · rw [hC]
    refine (PosDef.fromBlocks₁₁ B _ hpd).2 ?_
    rw [sub_self]
    exact PosSemidef.zero

/-- `alpha_m` is Hermitian and positive definite. -/
theorem alpha_pos {Am : Matrix (m ⊕ m) (m ⊕ m) ℂ} (h1 : Amᵀ = Am) (hp : Am.toBlocks₁₂.PosDef) : Am.toBlocks₂₁.PosDef := by
  have : Am.toBlocks₂₁ = Am.toBlocks₁₂ᵀ := by
    conv_lhs => rw [← h1]
    rfl
  rw [this]
  exact hp.transpose

theorem mxRed_pos {Am R : Matrix (m ⊕ m) (m ⊕ m) ℂ} (h1 : Amᵀ = Am) (b1 : Bk Am) (ht : TrClass Am) : (mxRed Am R).PosSemidef ∧ (R.det ≠ 0 → (mxRed Am R).PosDef) := by
  have hP := (tr_posDef h1 b1 ht).inv
  rw [← one_sub_XA] at hP
  unfold mxRed
  have e : cj Rᵀ = Rᴴ := rfl
  rw [e]
  exact ⟨hP.posSemidef.mul_mul_conjTranspose_same R,
    fun hR => hP.mul_mul_conjTranspose_same (B := R) (vecMul_injective_of_isUnit ((isUnit_iff_isUnit_det _).2 (isUnit_iff_ne_zero.2 hR)))⟩

theorem mxSq_pos {Am R : Matrix (m ⊕ m) (m ⊕ m) ℂ} (h1 : Amᵀ = Am) (b1 : Bk Am) (ht : TrClass Am) (hp : Am.toBlocks₁₂.PosDef) :
    (mxSq Am R).PosSemidef ∧ (R.det ≠ 0 → (mxSq Am R).PosDef) := by
  obtain ⟨p1, p2⟩ := mxRed_pos (R := R) h1 b1 ht
  have e : cj R.toBlocks₂₁ᵀ = R.toBlocks₂₁ᴴ := rfl
  have q := (alpha_pos h1 hp).inv.posSemidef.mul_mul_conjTranspose_same R.toBlocks₂₁
  unfold mxSq
  rw [e]
  refine ⟨(p1.submatrix Sum.inr).add q, fun hR => ?_⟩
  exact ((p2 hR).submatrix (e := (Sum.inr : m → m ⊕ m)) Sum.inr_injective).add_posSemidef q

theorem rTemp_det (r : Matrix m m ℂ) : (rTemp rᵀ).det ≠ 0 ↔ r.det ≠ 0 := by
  unfold rTemp
  rw [det_fromBlocks_zero₁₂, transpose_transpose]
  have : (cj r).det = star r.det := by
    have : cj r = rᴴᵀ := by ext i j; rfl
    rw [this, det_transpose, det_conjTranspose]
  rw [this]
  constructor
  · intro h e
    rw [e, mul_zero] at h
    exact h rfl
  · intro h
    exact mul_ne_zero (star_ne_zero.2 h) h

/-- **C95 (decomposition)** For every Gaussian density matrix (Hermitian, positive, of finite trace, normalised or not) on which the code does not fail, and whatever the order of
`core_modes`, `DM.physical_stellar_decomposition_mixed` returns a density matrix (positive, of trace one) and a channel (trace preserving, completely positive) on the core modes
that sends it to the normalised state. The density matrix is a core state exactly if the components of the displacement are the same in the given and in the increasing order of
the core modes. -/
theorem C95_mixed (ord : m ≃ m) {A : Matrix ((m ⊕ m) ⊕ (m ⊕ m)) ((m ⊕ m) ⊕ (m ⊕ m)) ℂ} (hA : Aᵀ = A) (hH : A = Xmat (m ⊕ m) * cj A * Xmat (m ⊕ m))
    {b : (m ⊕ m) ⊕ (m ⊕ m) → ℂ} (hb : b ∘ Sum.inr = star (b ∘ Sum.inl)) {c : ℝ} (hc : 0 < c) (hp : OpPos (dmFun A b c)) (ht : TrClass A) {V : Matrix m m ℂ} {lam : m → ℝ}
    (hE : IsEigh (mxSq (A.submatrix (coreFirst m m) (coreFirst m m)).toBlocks₁₁ (A.submatrix (coreFirst m m) (coreFirst m m)).toBlocks₂₁) V lam)
    {P : Matrix (m ⊕ m) (m ⊕ m) ℂ} (hP : IsPinv P (rTemp (mxRc V lam)ᵀ))
    {core : (m ⊕ m → ℂ) → (m ⊕ m → ℂ) → ℂ} {Φ : (m → ℂ) → (m → ℂ) → (m → ℂ) → (m → ℂ) → ℂ} (h : mixedDM ord V lam P A b = some (core, Φ)) :
    opTr core = 1 ∧ OpPos core ∧ TracePres Φ ∧ OpPos (choiOp Φ) ∧ (∀ z w, opTr (dmFun A b c) * applyOnDM Φ core z w = dmFun A b c z w) ∧
      (IsCoreDM core ↔ ∀ i, phBm (P * (A.submatrix (coreFirst m m) (coreFirst m m)).toBlocks₂₁) ((b ∘ coreFirst m m) ∘ Sum.inl) (Sum.inr (ord i)) =
        phBm (P * (A.submatrix (coreFirst m m) (coreFirst m m)).toBlocks₂₁) ((b ∘ coreFirst m m) ∘ Sum.inl) (Sum.inr i)) := by
  obtain ⟨N, hN⟩ : ∃ N, N = A.submatrix (coreFirst m m) (coreFirst m m) := ⟨_, rfl⟩
  unfold mixedDM at h
  dsimp only at h
  rw [← hN] at h hE ⊢
  have hNs : Nᵀ = N := by rw [hN, transpose_submatrix, hA]
  obtain ⟨eN, n1, n2⟩ := symm_blocks hNs
  obtain ⟨k1, k2, k3⟩ := bk_blocks (m := m) (k := m) hH
  rw [← hN] at k1 k2 k3
  have hN' : A.submatrix (coreFirst m m) (coreFirst m m) = fromBlocks N.toBlocks₁₁ N.toBlocks₂₁ᵀ N.toBlocks₂₁ N.toBlocks₂₂ := by rw [← hN]; exact eN
  obtain ⟨Am, hAm⟩ : ∃ Am, Am = N.toBlocks₁₁ := ⟨_, rfl⟩
  obtain ⟨R, hR⟩ : ∃ R, R = N.toBlocks₂₁ := ⟨_, rfl⟩
  obtain ⟨An, hAn⟩ : ∃ An, An = N.toBlocks₂₂ := ⟨_, rfl⟩
  rw [← hAm] at n1 k1
  rw [← hAn] at n2 k3
  rw [← hR] at k2
  rw [← hAm, ← hR] at hE
  rw [← hAm, ← hR, ← hAn] at hN' h
  rw [← hR]
  obtain ⟨bm, hbm⟩ : ∃ bm, bm = (b ∘ coreFirst m m) ∘ Sum.inl := ⟨_, rfl⟩
  obtain ⟨bn, hbn⟩ : ∃ bn, bn = (b ∘ coreFirst m m) ∘ Sum.inr := ⟨_, rfl⟩
  rw [← hbm] at h ⊢
  rw [← hbn] at h
  obtain ⟨r, hr⟩ : ∃ r, r = mxRc V lam := ⟨_, rfl⟩
  rw [← hr] at h hP
  obtain ⟨T, hT⟩ : ∃ T, T = rTemp rᵀ := ⟨_, rfl⟩
  rw [← hT] at h hP
  obtain ⟨G, hG⟩ : ∃ G, G = P * R := ⟨_, rfl⟩
  rw [← hG] at h ⊢
  obtain ⟨β, hβ⟩ : ∃ β, β = phBm G bm := ⟨_, rfl⟩
  rw [← hβ] at h ⊢
  obtain ⟨γ, hγ⟩ : ∃ γ, γ = (β ∘ Sum.inr) ∘ ord := ⟨_, rfl⟩
  rw [← hγ] at h
  split_ifs at h with hd
  push Not at hd
  obtain ⟨-, d2, -, d4⟩ := hd
  rw [Option.some.injEq, Prod.mk.injEq] at h
  obtain ⟨hcore, hΦ⟩ := h
  have tAm := trClass_core ht hN'
  obtain ⟨rm, rn⟩ := rv_blocks (rv_iff.2 hb)
  rw [← hbm] at rm
  rw [← hbn] at rn
  have hW : (fromBlocks Am.toBlocks₁₂ Rᵀ.toBlocks₁₂ R.toBlocks₁₂ An.toBlocks₁₂).PosSemidef := by
    have hdm : dmFun A b c = dmOf (fromBlocks Am Rᵀ R An) (Sum.elim bm bn) c := by
      funext z w
      rw [dmFun_coreFirst, dmOf_eq, hN', hbm, hbn, Sum.elim_comp_inl_inr]
    rw [hdm] at hp
    exact (opPos_dmOf n1 n2 k1 k2 k3 rm rn hc).1 hp
  have d2' : Am.toBlocks₁₂.det ≠ 0 := by
    have : Am.toBlocks₁₂ = Am.toBlocks₂₁ᵀ := by
      conv_lhs => rw [← n1]
      rfl
    rwa [this, det_transpose]
  obtain ⟨pa, hC, ps, pw⟩ := schur_pos hW d2'
  have hrr : r * rᴴ = mxSq Am R := by rw [hr]; exact eigh_rc hE (mxSq_pos n1 k1 tAm pa).1
  have hPd : P.det ≠ 0 := by
    intro e
    rw [hG, det_mul, e, zero_mul] at d4
    exact d4 rfl
  have hTP := pinv_det hP hPd
  have hTG : T * G = R := by rw [hG, ← Matrix.mul_assoc, hTP, Matrix.one_mul]
  have kT : Bk T := by rw [hT]; exact rTemp_bk _
  have hPi : P = T⁻¹ := (inv_eq_right_inv hTP).symm
  have kG : Bk G := by rw [hG, hPi]; exact kT.inv.mul k2
  obtain ⟨Nc, hNc⟩ : ∃ Nc, Nc = mxNc Am R An := ⟨_, rfl⟩
  rw [← hNc] at hcore
  have kNc : Bk Nc := by rw [hNc]; exact mxNc_bk _ _ _
  have redN : Nc + T * Xmat m * Tᵀ = redA Am R An := by rw [hNc, hT]; exact mx_redN n1 k1 k2 k3 tAm hrr
  have Ncs : Ncᵀ = Nc := by
    have : Nc = redA Am R An - T * Xmat m * Tᵀ := by rw [← redN, add_sub_cancel_right]
    rw [this, transpose_sub, redA_symm n1 n2, transpose_mul, transpose_mul, transpose_transpose, Xmat_T, Matrix.mul_assoc]
  have hNc12 : Nc.toBlocks₁₂ = An.toBlocks₁₂ - R.toBlocks₁₂ * Am.toBlocks₁₂⁻¹ * Rᵀ.toBlocks₁₂ := by rw [hNc]; exact mxNc_12 k1 k2 k3
  have hTQ : Nc + T * phIn Am G * Tᵀ = An := by
    have e1 : T * phIn Am G * Tᵀ = R * (Am - Xmat m)⁻¹ * Rᵀ + T * Xmat m * Tᵀ := by
      unfold phIn
      rw [Matrix.mul_add, Matrix.add_mul, ← hTG, transpose_mul]
      simp only [Matrix.mul_assoc]
    rw [e1, add_comm (R * _ * _), ← add_assoc, redN]
    unfold redA
    rw [sub_add_cancel]
  -- complete positivity
  have hTd : T.det ≠ 0 := by
    intro e
    have := congrArg Matrix.det hTP
    rw [det_mul, e, zero_mul, det_one] at this
    exact zero_ne_one this
  have hrd : r.det ≠ 0 := by rw [hT] at hTd; exact (rTemp_det r).1 hTd
  obtain ⟨S, hS⟩ : ∃ S, S = cj r := ⟨_, rfl⟩
  have hSd : S.det ≠ 0 := by
    have : S = rᴴᵀ := by rw [hS]; ext i j; rfl
    rw [this, det_transpose, det_conjTranspose]
    exact star_ne_zero.2 hrd
  have hSH : Sᴴ = rᵀ := by rw [hS]; ext i j; exact Complex.conj_conj _
  have hSi : S⁻¹ * S = 1 := nonsing_inv_mul _ (isUnit_iff_ne_zero.2 hSd)
  have hSi' : Sᴴ * S⁻¹ᴴ = 1 := by rw [← conjTranspose_mul, hSi, conjTranspose_one]
  have hWφ : (fromBlocks Am.toBlocks₁₂ Gᵀ.toBlocks₁₂ G.toBlocks₁₂ (phIn Am G).toBlocks₁₂).PosSemidef := by
    have := pw.mul_mul_conjTranspose_same (fromBlocks (1 : Matrix m m ℂ) 0 0 S⁻¹ : Matrix (m ⊕ m) (m ⊕ m) ℂ)
    have eA : R.toBlocks₁₂ * Am.toBlocks₁₂⁻¹ * Rᵀ.toBlocks₁₂ = S * (phIn Am G).toBlocks₁₂ * Sᴴ := by
      have h1 := (rc_mul12 r (T * phIn Am G)).2
      have h2 := (rc_mul12 r (phIn Am G)).1
      rw [← hT] at h1 h2
      rw [h2, ← hS, ← hSH] at h1
      rw [← h1]
      have h3 := congrArg toBlocks₁₂ hTQ
      have : ∀ X Y : Matrix (m ⊕ m) (m ⊕ m) ℂ, (X + Y).toBlocks₁₂ = X.toBlocks₁₂ + Y.toBlocks₁₂ := fun X Y => rfl
      rw [this, hNc12] at h3
      rw [sub_add_eq_add_sub, sub_eq_iff_eq_add] at h3
      exact (add_left_cancel h3).symm
    have eR : R.toBlocks₁₂ = S * G.toBlocks₁₂ := by rw [← hTG, hT, hS]; exact (rc_mul12 r G).1
    have eRt : Rᵀ.toBlocks₁₂ = Gᵀ.toBlocks₁₂ * Sᴴ := by rw [← hTG, transpose_mul, hT, hSH]; exact (rc_mul12 r Gᵀ).2
    rw [fromBlocks_conjTranspose, fromBlocks_multiply, fromBlocks_multiply, eA, eR, eRt] at this
    have f1 : S⁻¹ * (S * G.toBlocks₁₂) = G.toBlocks₁₂ := by rw [← Matrix.mul_assoc, hSi, Matrix.one_mul]
    have f2 : Gᵀ.toBlocks₁₂ * Sᴴ * S⁻¹ᴴ = Gᵀ.toBlocks₁₂ := by rw [Matrix.mul_assoc, hSi', Matrix.mul_one]
    have f3 : S⁻¹ * (S * (phIn Am G).toBlocks₁₂ * Sᴴ) * S⁻¹ᴴ = (phIn Am G).toBlocks₁₂ := by
      calc _ = (S⁻¹ * S) * (phIn Am G).toBlocks₁₂ * (Sᴴ * S⁻¹ᴴ) := by simp only [Matrix.mul_assoc]
        _ = _ := by rw [hSi, hSi', Matrix.one_mul, Matrix.mul_one]
    simp only [Matrix.one_mul, Matrix.mul_one, Matrix.zero_mul, Matrix.mul_zero, add_zero, zero_add, conjTranspose_one, conjTranspose_zero, f1, f2, f3] at this
    exact this
  -- the core state
  obtain ⟨βn, hβn⟩ : ∃ βn, βn = phBn T (phIn Am G) β bn := ⟨_, rfl⟩
  rw [← hβn] at hcore
  obtain ⟨κ, hκ0, hκ⟩ := disp_dm T Nc β βn γ
  rw [hκ] at hcore
  obtain ⟨E1, hE1⟩ : ∃ E1, E1 = β + -Sum.elim (star γ) γ := ⟨_, rfl⟩
  obtain ⟨E2, hE2⟩ : ∃ E2, E2 = βn + (T * Xmat m).mulVec (Sum.elim (star γ) γ) := ⟨_, rfl⟩
  rw [← hE1, ← hE2] at hcore
  have rg : RV (Sum.elim (star γ) γ) := RV.pv γ
  have rβ : RV β := by
    rw [hβ]
    unfold phBm
    exact kG.transpose.inv.mulVec rm
  have kQ : Bk (phIn Am G) := phIn_bk k1 kG
  have rβn : RV βn := by
    rw [hβn]
    unfold phBn
    rw [sub_eq_add_neg]
    exact rn.add ((kT.mul kQ).mulVec rβ).neg
  have rE1 : RV E1 := by rw [hE1]; exact rβ.add rg.neg
  have rE2 : RV E2 := by rw [hE2]; exact rβn.add ((kT.mul Bk.X).mulVec rg)
  have z0 : ((0 : Matrix (m ⊕ m) (m ⊕ m) ℂ))ᵀ = 0 := transpose_zero
  have kz : Bk (0 : Matrix (m ⊕ m) (m ⊕ m) ℂ) := by rw [bk_iff]; intro i j; simp
  have tcore : TrClass ((fromBlocks 0 Tᵀ T Nc).submatrix (coreFirst m m).symm (coreFirst m m).symm) := core_trClass kT (by rw [redN]; exact trClass_red ht hN' n1 k1 k2)
  obtain ⟨t, ht0, et⟩ := opTr_pos (symm_order z0 Ncs) (bk_order kz kT kNc) tcore (rv_order rE1 rE2) (c := 1) one_pos
  rw [Complex.ofReal_one] at et
  have hscale : ∀ (x y : ℂ) z w, dmOf (fromBlocks 0 Tᵀ T Nc) (Sum.elim E1 E2) x z w / y = dmOf (fromBlocks 0 Tᵀ T Nc) (Sum.elim E1 E2) (x / y) z w := fun x y z w => by
    rw [dmOf_eq, dmOf_eq]
    unfold bargFun
    ring
  have hzero : ∀ x : ℂ, dmOf (fromBlocks 0 Tᵀ T Nc) (Sum.elim E1 E2) x 0 0 = x := fun x => by
    have h0 : (0 : m ⊕ m → ℂ) = Sum.elim (0 : m → ℂ) (0 : m → ℂ) := by funext i; rcases i with i | i <;> rfl
    rw [h0, core_slice, ← h0, Matrix.mulVec_zero, Matrix.mulVec_zero]
    simp
  have hcore2 : core = dmOf (fromBlocks 0 Tᵀ T Nc) (Sum.elim E1 E2) (1 / t) := by
    rw [← hcore]
    unfold mxNormalize
    dsimp only
    simp only [hzero, hscale, div_self hκ0]
    have : opTr (fun z w => dmOf (fromBlocks 0 Tᵀ T Nc) (Sum.elim E1 E2) 1 z w) = t := et
    funext z w
    rw [this]
  have htr1 : opTr core = 1 := by
    rw [hcore2]
    unfold dmOf
    rw [opTr_dmFun (symm_order z0 Ncs) tcore] at et ⊢
    rw [one_mul] at et
    rw [et, one_div, inv_mul_cancel₀ (by exact_mod_cast ht0.ne')]
  rw [mxPhi_eq] at hΦ
  rw [hβn] at hE2
  have main := phys_gen hA hH (rv_iff.2 hb) c ht hN' kT kG d4 hTG Ncs redN hWφ γ hbm hbn hβ hE1 hE2 (by rw [← hcore2]; exact htr1)
  rw [← hcore2, hΦ] at main
  refine ⟨htr1, ?_, main.1, main.2.1, main.2.2, ?_⟩
  · have : (1 / (t : ℂ)) = ((1 / t : ℝ) : ℂ) := by push_cast; rfl
    rw [hcore2, this]
    refine (opPos_dmOf z0 Ncs kz kT kNc rE1 rE2 (one_div_pos.2 ht0)).2 ?_
    have hT12 : T.toBlocks₁₂ = 0 := by rw [hT]; rfl
    have hT12' : Tᵀ.toBlocks₁₂ = 0 := by rw [hT]; ext i j; rfl
    have h012 : (0 : Matrix (m ⊕ m) (m ⊕ m) ℂ).toBlocks₁₂ = 0 := rfl
    rw [hT12, hT12', h012]
    rw [← hNc12] at ps
    refine PosSemidef.of_dotProduct_mulVec_nonneg ?_ fun x => ?_
    · unfold IsHermitian
      rw [fromBlocks_conjTranspose, ps.isHermitian, conjTranspose_zero]
    · have := ps.dotProduct_mulVec_nonneg (x ∘ Sum.inr)
      rw [fromBlocks_mulVec]
      simp only [Matrix.zero_mulVec, zero_add]
      have e : star x = Sum.elim (star (x ∘ Sum.inl)) (star (x ∘ Sum.inr)) := by funext i; rcases i with i | i <;> rfl
      rw [e, sumElim_dotProduct_sumElim, dotProduct_zero, zero_add]
      exact this
  · have hval : ∀ z w : m → ℂ, core (Sum.elim z 0) (Sum.elim w 0) = 1 / t * Complex.exp ((E1 ∘ Sum.inr) ⬝ᵥ z + (E1 ∘ Sum.inl) ⬝ᵥ w) := fun z w => by
      rw [hcore2, core_slice]
      have h0 : Sum.elim (0 : m → ℂ) (0 : m → ℂ) = 0 := by funext i; rcases i with i | i <;> rfl
      rw [h0, Matrix.mulVec_zero, Matrix.mulVec_zero, dotProduct_zero, dotProduct_zero, mul_zero, add_zero, Complex.exp_zero, mul_one, zero_add]
    have ht' : (1 / (t : ℂ)) ≠ 0 := one_div_ne_zero (by exact_mod_cast ht0.ne')
    have hE1r : E1 ∘ Sum.inr = β ∘ Sum.inr - γ := by rw [hE1]; funext i; simp [sub_eq_add_neg]
    constructor
    · rintro ⟨κ', hκ'⟩
      have h1 : ∀ z : m → ℂ, Complex.exp ((E1 ∘ Sum.inr) ⬝ᵥ z) = 1 := fun z => by
        have h1 := hκ' z 0
        have h2 := hκ' 0 0
        rw [hval] at h1 h2
        rw [← h2, dotProduct_zero, dotProduct_zero, add_zero, add_zero, Complex.exp_zero] at h1
        exact mul_left_cancel₀ ht' h1
      obtain ⟨e, he⟩ : ∃ e, e = E1 ∘ Sum.inr := ⟨_, rfl⟩
      rw [← he] at h1 hE1r
      have h2 : star e ⬝ᵥ e = 0 := by
        have h3 := h1 (star e)
        rw [dotProduct_comm, ← norm_sum_eq, ← Complex.ofReal_exp] at h3
        have h4 : Real.exp (∑ i, ‖e i‖ ^ 2) = 1 := by exact_mod_cast h3
        rw [Real.exp_eq_one_iff] at h4
        rw [← norm_sum_eq, h4, Complex.ofReal_zero]
      have h3 : e = 0 := dotProduct_star_self_eq_zero.1 (by first | exact h2 | (rw [dotProduct_comm]; exact h2))
      rw [h3] at hE1r
      have h4 : γ = β ∘ Sum.inr := (sub_eq_zero.1 hE1r.symm).symm
      rw [hγ] at h4
      exact fun i => congrFun h4 i
    · intro h
      have h4 : γ = β ∘ Sum.inr := by rw [hγ]; exact funext h
      have h5 : E1 = 0 := RV.ext rE1 rv_zero (by rw [hE1r, h4, sub_self]; rfl)
      refine ⟨1 / t, fun z w => ?_⟩
      rw [hval, h5]
      have : ((0 : m ⊕ m → ℂ) ∘ (Sum.inr : m → m ⊕ m)) = 0 := rfl
      have h' : ((0 : m ⊕ m → ℂ) ∘ (Sum.inl : m → m ⊕ m)) = 0 := rfl
      rw [this, h', zero_dotProduct, zero_dotProduct, add_zero, Complex.exp_zero, mul_one]

/-- **C95 (core state)** With `core_modes` in increasing order the density matrix is a core state. -/
theorem C95_core {A : Matrix ((m ⊕ m) ⊕ (m ⊕ m)) ((m ⊕ m) ⊕ (m ⊕ m)) ℂ} (hA : Aᵀ = A) (hH : A = Xmat (m ⊕ m) * cj A * Xmat (m ⊕ m))
    {b : (m ⊕ m) ⊕ (m ⊕ m) → ℂ} (hb : b ∘ Sum.inr = star (b ∘ Sum.inl)) {c : ℝ} (hc : 0 < c) (hp : OpPos (dmFun A b c)) (ht : TrClass A) {V : Matrix m m ℂ} {lam : m → ℝ}
    (hE : IsEigh (mxSq (A.submatrix (coreFirst m m) (coreFirst m m)).toBlocks₁₁ (A.submatrix (coreFirst m m) (coreFirst m m)).toBlocks₂₁) V lam)
    {P : Matrix (m ⊕ m) (m ⊕ m) ℂ} (hP : IsPinv P (rTemp (mxRc V lam)ᵀ))
    {core : (m ⊕ m → ℂ) → (m ⊕ m → ℂ) → ℂ} {Φ : (m → ℂ) → (m → ℂ) → (m → ℂ) → (m → ℂ) → ℂ} (h : mixedDM (Equiv.refl m) V lam P A b = some (core, Φ)) : IsCoreDM core :=
  ((C95_mixed (Equiv.refl m) hA hH hb hc hp ht hE hP h).2.2.2.2.2).2 fun _ => rfl

/-- **C95 (failure)** On a Gaussian density matrix the code fails (it inverts a singular matrix) exactly if the block of `A` that couples the core modes to the other modes is
singular or the block that couples the kets and the bras of the core modes is. -/
theorem C95_fails (ord : m ≃ m) {A : Matrix ((m ⊕ m) ⊕ (m ⊕ m)) ((m ⊕ m) ⊕ (m ⊕ m)) ℂ} (hA : Aᵀ = A) (hH : A = Xmat (m ⊕ m) * cj A * Xmat (m ⊕ m))
    {b : (m ⊕ m) ⊕ (m ⊕ m) → ℂ} (hb : b ∘ Sum.inr = star (b ∘ Sum.inl)) {c : ℝ} (hc : 0 < c) (hp : OpPos (dmFun A b c)) (ht : TrClass A) {V : Matrix m m ℂ} {lam : m → ℝ}
    (hE : IsEigh (mxSq (A.submatrix (coreFirst m m) (coreFirst m m)).toBlocks₁₁ (A.submatrix (coreFirst m m) (coreFirst m m)).toBlocks₂₁) V lam)
    {P : Matrix (m ⊕ m) (m ⊕ m) ℂ} (hP : IsPinv P (rTemp (mxRc V lam)ᵀ)) :
    mixedDM ord V lam P A b = none ↔
      (A.submatrix (coreFirst m m) (coreFirst m m)).toBlocks₁₁.toBlocks₂₁.det = 0 ∨ (A.submatrix (coreFirst m m) (coreFirst m m)).toBlocks₂₁.det = 0 := by
  obtain ⟨N, hN⟩ : ∃ N, N = A.submatrix (coreFirst m m) (coreFirst m m) := ⟨_, rfl⟩
  unfold mixedDM
  dsimp only
  rw [← hN] at hE ⊢
  have hNs : Nᵀ = N := by rw [hN, transpose_submatrix, hA]
  obtain ⟨eN, n1, n2⟩ := symm_blocks hNs
  obtain ⟨k1, k2, k3⟩ := bk_blocks (m := m) (k := m) hH
  rw [← hN] at k1 k2 k3
  have hN' : A.submatrix (coreFirst m m) (coreFirst m m) = fromBlocks N.toBlocks₁₁ N.toBlocks₂₁ᵀ N.toBlocks₂₁ N.toBlocks₂₂ := by rw [← hN]; exact eN
  have tAm := trClass_core ht hN'
  have hW : N.toBlocks₁₁.toBlocks₁₂.PosSemidef := by
    obtain ⟨rm, rn⟩ := rv_blocks (rv_iff.2 hb)
    have hdm : dmFun A b c = dmOf (fromBlocks N.toBlocks₁₁ N.toBlocks₂₁ᵀ N.toBlocks₂₁ N.toBlocks₂₂) (Sum.elim ((b ∘ coreFirst m m) ∘ Sum.inl) ((b ∘ coreFirst m m) ∘ Sum.inr)) c := by
      funext z w
      rw [dmFun_coreFirst, dmOf_eq, hN', Sum.elim_comp_inl_inr]
    rw [hdm] at hp
    exact ((opPos_dmOf n1 n2 k1 k2 k3 rm rn hc).1 hp).submatrix Sum.inl
  constructor
  · intro h
    by_contra hR
    push Not at hR
    obtain ⟨ha, hR⟩ := hR
    have ha' : N.toBlocks₁₁.toBlocks₁₂.det ≠ 0 := by
      have : N.toBlocks₁₁.toBlocks₁₂ = N.toBlocks₁₁.toBlocks₂₁ᵀ := by
        conv_lhs => rw [← n1]
        rfl
      rwa [this, det_transpose]
    have pa := hW.posDef_iff_isUnit.2 ((isUnit_iff_isUnit_det _).2 (isUnit_iff_ne_zero.2 ha'))
    obtain ⟨q1, q2⟩ := mxSq_pos (R := N.toBlocks₂₁) n1 k1 tAm pa
    have hrr := eigh_rc hE q1
    have hD := (q2 hR).det_pos.ne'
    have hrd : (mxRc V lam).det ≠ 0 := by
      intro e
      rw [← hrr, det_mul, e, zero_mul] at hD
      exact hD rfl
    have hPd := pinv_inv hP ((rTemp_det _).2 hrd)
    rw [if_neg] at h
    · exact absurd h (by simp)
    · push Not
      refine ⟨?_, ha, tr_det n1 tAm, ?_⟩
      · rw [one_sub_XA]
        exact (tr_posDef n1 k1 tAm).det_pos.ne'
      · rw [det_mul]
        exact mul_ne_zero hPd hR
  · intro h
    rw [if_pos]
    rcases h with h | h
    · right; left; exact h
    · right; right; right
      rw [det_mul, h, mul_zero]

/-- **C95 (pure states)** The code fails on every pure state: `ket.dm()` has `A = diag(conj(a), a)`. -/
theorem C95_pure [Nonempty m] (ord : m ≃ m) (V : Matrix m m ℂ) (lam : m → ℝ) (P : Matrix (m ⊕ m) (m ⊕ m) ℂ) (a : Matrix (m ⊕ m) (m ⊕ m) ℂ) (b : (m ⊕ m) ⊕ (m ⊕ m) → ℂ) :
    mixedDM ord V lam P (fromBlocks (cj a) 0 0 a) b = none := by
  unfold mixedDM
  dsimp only
  rw [if_pos]
  right; left
  have : ((fromBlocks (cj a) 0 0 a).submatrix (coreFirst m m) (coreFirst m m)).toBlocks₁₁.toBlocks₂₁ = 0 := by
    ext i j
    rfl
  rw [this, det_zero]

/-! ## Examples -/

theorem exMx_eigh : IsEigh (mxSq ((exPhA m).submatrix (coreFirst m m) (coreFirst m m)).toBlocks₁₁ ((exPhA m).submatrix (coreFirst m m) (coreFirst m m)).toBlocks₂₁)
    (1 : Matrix m m ℂ) (fun _ => 1 / 3) := by
  rw [exPh_blocks, toBlocks_fromBlocks₁₁, toBlocks_fromBlocks₂₁]
  refine ⟨by rw [conjTranspose_one, Matrix.one_mul], ?_⟩
  have hi : (1 - Xmat m * ((1 / 4 : ℂ) • Xmat m))⁻¹ = (4 / 3 : ℂ) • 1 := by
    refine inv_eq_left_inv ?_
    rw [Matrix.mul_smul, Xmat_sq, Matrix.smul_mul, Matrix.one_mul]
    ext i j
    simp only [Matrix.smul_apply, Matrix.sub_apply, smul_eq_mul]
    ring
  have hs : ((1 / 2 : ℂ) • (1 : Matrix (m ⊕ m) (m ⊕ m) ℂ)).toBlocks₂₁ = 0 := by ext i j; simp [toBlocks₂₁]
  have hc : cj ((1 / 2 : ℂ) • (1 : Matrix (m ⊕ m) (m ⊕ m) ℂ))ᵀ = (1 / 2 : ℂ) • 1 := by
    ext i j
    by_cases h : i = j
    · subst h; simp [cj, Complex.conj_ofNat]
    · simp [cj, h, Ne.symm h]
  unfold mxSq mxRed
  rw [hi, hs, hc, Matrix.zero_mul, Matrix.zero_mul, add_zero, Matrix.one_mul, conjTranspose_one, Matrix.mul_one, Matrix.smul_mul, Matrix.one_mul, smul_smul, Matrix.smul_mul,
    Matrix.one_mul, smul_smul]
  ext i j
  by_cases h : i = j
  · subst h; simp [toBlocks₂₂]; norm_num
  · simp [toBlocks₂₂, h]

theorem exMx_rc : rTemp (mxRc (1 : Matrix m m ℂ) (fun _ => 1 / 3))ᵀ = ((Real.sqrt (1 / 3) : ℝ) : ℂ) • 1 := by
  have : mxRc (1 : Matrix m m ℂ) (fun _ => 1 / 3) = ((Real.sqrt (1 / 3) : ℝ) : ℂ) • 1 := by
    unfold mxRc
    rw [Matrix.one_mul]
    ext i j
    by_cases h : i = j
    · subst h; simp
    · simp [h]
  rw [this]
  unfold rTemp
  rw [transpose_transpose]
  obtain ⟨s, hs⟩ : ∃ s : ℝ, s = Real.sqrt (1 / 3) := ⟨_, rfl⟩
  rw [← hs]
  ext i j
  rcases i with i | i <;> rcases j with j | j
  · by_cases h : i = j
    · subst h; simp [cj]
    · simp [cj, h]
  · simp
  · simp
  · by_cases h : i = j
    · subst h; simp
    · simp [h]

theorem exMx_pinv : IsPinv (((Real.sqrt (1 / 3) : ℝ) : ℂ)⁻¹ • (1 : Matrix (m ⊕ m) (m ⊕ m) ℂ)) (rTemp (mxRc (1 : Matrix m m ℂ) (fun _ => 1 / 3))ᵀ) := by
  rw [exMx_rc]
  have h0 : ((Real.sqrt (1 / 3) : ℝ) : ℂ) ≠ 0 := by exact_mod_cast (Real.sqrt_pos.2 (by norm_num)).ne'
  have h1 : (((Real.sqrt (1 / 3) : ℝ) : ℂ) • (1 : Matrix (m ⊕ m) (m ⊕ m) ℂ)) * (((Real.sqrt (1 / 3) : ℝ) : ℂ)⁻¹ • (1 : Matrix (m ⊕ m) (m ⊕ m) ℂ)) = 1 := by
    rw [Matrix.smul_mul, Matrix.one_mul, smul_smul, mul_inv_cancel₀ h0, one_smul]
  have h2 : (((Real.sqrt (1 / 3) : ℝ) : ℂ)⁻¹ • (1 : Matrix (m ⊕ m) (m ⊕ m) ℂ)) * (((Real.sqrt (1 / 3) : ℝ) : ℂ) • (1 : Matrix (m ⊕ m) (m ⊕ m) ℂ)) = 1 := by
    rw [Matrix.smul_mul, Matrix.one_mul, smul_smul, inv_mul_cancel₀ h0, one_smul]
  refine ⟨by rw [h1, Matrix.one_mul], by rw [h2, Matrix.one_mul], by rw [h1, conjTranspose_one], by rw [h2, conjTranspose_one]⟩

theorem exMx_some (ord : m ≃ m) (v : m → ℂ) :
    ∃ core Φ, mixedDM ord (1 : Matrix m m ℂ) (fun _ => 1 / 3) (((Real.sqrt (1 / 3) : ℝ) : ℂ)⁻¹ • 1) (exPhA m) (exPhB v) = some (core, Φ) := by
  have h := C95_fails ord exPh_symm exPh_bk (exPh_rv v) one_pos (exPh_pos v) exPh_tr exMx_eigh exMx_pinv
  have e1 : ((1 / 4 : ℂ) • Xmat m).toBlocks₂₁ = (1 / 4 : ℂ) • 1 := by ext i j; simp [toBlocks₂₁, Xmat]
  rw [exPh_blocks, toBlocks_fromBlocks₁₁, toBlocks_fromBlocks₂₁, e1, det_smul, det_smul, det_one, det_one, mul_one, mul_one] at h
  cases e : mixedDM ord (1 : Matrix m m ℂ) (fun _ => 1 / 3) (((Real.sqrt (1 / 3) : ℝ) : ℂ)⁻¹ • 1) (exPhA m) (exPhB v) with
  | some x => exact ⟨x.1, x.2, rfl⟩
  | none =>
    rcases h.1 e with h | h
    · exact absurd h (pow_ne_zero _ (by norm_num))
    · exact absurd h (pow_ne_zero _ (by norm_num))

/-- Two correlated thermal modes with a displaced core mode. -/
example : ∃ core Φ, mixedDM (Equiv.refl Unit) (1 : Matrix Unit Unit ℂ) (fun _ => 1 / 3) (((Real.sqrt (1 / 3) : ℝ) : ℂ)⁻¹ • 1) (exPhA Unit) (exPhB fun _ => 1 + Complex.I) =
    some (core, Φ) ∧ opTr core = 1 ∧ OpPos core ∧ TracePres Φ ∧ OpPos (choiOp Φ) ∧ IsCoreDM core := by
  obtain ⟨core, Φ, h⟩ := exMx_some (Equiv.refl Unit) (fun _ => 1 + Complex.I)
  obtain ⟨a1, a2, a3, a4, -, -⟩ := C95_mixed _ exPh_symm exPh_bk (exPh_rv _) one_pos (exPh_pos _) exPh_tr exMx_eigh exMx_pinv h
  exact ⟨core, Φ, h, a1, a2, a3, a4, C95_core exPh_symm exPh_bk (exPh_rv _) one_pos (exPh_pos _) exPh_tr exMx_eigh exMx_pinv h⟩

end Verif.Manifold
