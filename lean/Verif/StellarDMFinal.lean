import Verif.StellarDMPhys

/-!
# The physical stellar decomposition of density matrices: theorems (C94)
-/

namespace Verif.Manifold
open Matrix Verif.Gauss MeasureTheory
open scoped ComplexOrder MatrixOrder

variable {m k : Type*} [Fintype m] [DecidableEq m] [Fintype k] [DecidableEq k]

/-! ## The square root -/

theorem eigh_sqrt {H V : Matrix m m ℂ} {lam : m → ℝ} (hE : IsEigh H V lam) (hp : H.PosSemidef) : (gammaOf V lam)ᴴ = gammaOf V lam ∧ gammaOf V lam * gammaOf V lam = H := by
  obtain ⟨h1, h2⟩ := hE
  have hlam : ∀ i, 0 ≤ lam i := by
    have hd : (diagonal fun i => (lam i : ℂ)).PosSemidef := by
      have := hp.conjTranspose_mul_mul_same V
      rw [h2] at this
      have e : Vᴴ * (V * diagonal (fun i => (lam i : ℂ)) * Vᴴ) * V = (Vᴴ * V) * diagonal (fun i => (lam i : ℂ)) * (Vᴴ * V) := by simp only [Matrix.mul_assoc]
      rwa [e, h1, Matrix.one_mul, Matrix.mul_one] at this
    intro i
    have := hd.diag_nonneg (i := i)
    rw [diagonal_apply_eq] at this
    exact Complex.zero_le_real.1 this
  have hD : diagonal (fun i => ((Real.sqrt (lam i) : ℝ) : ℂ)) * diagonal (fun i => ((Real.sqrt (lam i) : ℝ) : ℂ)) = diagonal (fun i => (lam i : ℂ)) := by
    rw [diagonal_mul_diagonal]
    refine congrArg diagonal (funext fun i => ?_)
    rw [← Complex.ofReal_mul, Real.mul_self_sqrt (hlam i)]
  constructor
  · unfold gammaOf
    rw [conjTranspose_mul, conjTranspose_mul, conjTranspose_conjTranspose, diagonal_conjTranspose, Matrix.mul_assoc]
    refine congrArg (HMul.hMul V) (congrArg (· * Vᴴ) (congrArg diagonal (funext fun i => ?_)))
    simp
  · rw [h2, ← hD]
    unfold gammaOf
    calc _ = V * diagonal (fun i => ((Real.sqrt (lam i) : ℝ) : ℂ)) * (Vᴴ * V) * diagonal (fun i => ((Real.sqrt (lam i) : ℝ) : ℂ)) * Vᴴ := by
          simp only [Matrix.mul_assoc]
      _ = _ := by rw [h1, Matrix.mul_one]; simp only [Matrix.mul_assoc]

theorem rTemp_bk (S : Matrix m k ℂ) : Bk (rTemp S) := by
  rw [bk_iff]
  intro i j
  rcases i with i | i <;> rcases j with j | j <;> simp [rTemp, cj]

theorem rTemp_X {S : Matrix m m ℂ} (hS : Sᴴ = S) : rTemp S * Xmat m * (rTemp S)ᵀ = fromBlocks 0 (S * S) (S * S)ᵀ 0 := by
  have e : cj Sᵀ = S := by rw [cj_transpose, hS]
  unfold rTemp Xmat
  rw [e, fromBlocks_transpose, fromBlocks_multiply, fromBlocks_multiply, transpose_mul]
  simp

theorem rTemp_mul12 {S : Matrix m m ℂ} (hS : Sᴴ = S) (M : Matrix (m ⊕ m) (m ⊕ m) ℂ) : (rTemp S * M).toBlocks₁₂ = S * M.toBlocks₁₂ ∧ (M * (rTemp S)ᵀ).toBlocks₁₂ = M.toBlocks₁₂ * S := by
  have e : cj Sᵀ = S := by rw [cj_transpose, hS]
  obtain ⟨a, b, c, d, rfl⟩ : ∃ a b c d, M = fromBlocks a b c d := ⟨_, _, _, _, (fromBlocks_toBlocks M).symm⟩
  unfold rTemp
  rw [e, fromBlocks_transpose, fromBlocks_multiply, fromBlocks_multiply]
  simp

/-- `reduced_A` in terms of the core state. -/
theorem red_core {M : Matrix (m ⊕ m) (m ⊕ m) ℂ} (hs : Mᵀ = M) (hb : Bk M) {S : Matrix m m ℂ} (hS : Sᴴ = S) (hSS : S * S = M.toBlocks₁₂) :
    fromBlocks (cj M.toBlocks₂₂) 0 0 M.toBlocks₂₂ + rTemp S * Xmat m * (rTemp S)ᵀ = M := by
  rw [rTemp_X hS, fromBlocks_add, hSS]
  obtain ⟨eM, -, -⟩ := symm_blocks hs
  have h12 : M.toBlocks₁₂ = M.toBlocks₂₁ᵀ := by
    have := congrArg toBlocks₁₂ eM
    rwa [toBlocks_fromBlocks₁₂] at this
  have h11 : cj M.toBlocks₂₂ = M.toBlocks₁₁ := by
    ext i j
    exact ((bk_iff.1 hb) (Sum.inl i) (Sum.inl j)).symm
  rw [add_zero, add_zero, zero_add, zero_add, h11, h12, transpose_transpose]
  exact eM.symm

/-! ## The decomposition -/

/-- Everything about the decomposition, with any displacement `γ`. -/
theorem phys_main {A : Matrix ((m ⊕ m) ⊕ (m ⊕ m)) ((m ⊕ m) ⊕ (m ⊕ m)) ℂ} (hA : Aᵀ = A) (hH : Bk A) {b : (m ⊕ m) ⊕ (m ⊕ m) → ℂ} (hb : RV b)
    {c : ℝ} (hc : 0 < c) (hp : OpPos (dmFun A b c)) (ht : TrClass A) {Am R An : Matrix (m ⊕ m) (m ⊕ m) ℂ}
    (hN : A.submatrix (coreFirst m m) (coreFirst m m) = fromBlocks Am Rᵀ R An) {S : Matrix m m ℂ} (hS : Sᴴ = S) (hSS : S * S = (redA Am R An).toBlocks₁₂)
    (hT : (rTemp S).det ≠ 0) (hG : (phGamma S R).det ≠ 0) (γ : m → ℂ) {bm bn β : m ⊕ m → ℂ} (hbm : bm = (b ∘ coreFirst m m) ∘ Sum.inl) (hbn : bn = (b ∘ coreFirst m m) ∘ Sum.inr)
    (hβ : β = phBm (phGamma S R) bm) {core : (m ⊕ m → ℂ) → ℂ} {Φ : (m → ℂ) → (m → ℂ) → (m → ℂ) → (m → ℂ) → ℂ}
    (hcore : core = phNormalize (applyOn (dispOp (-γ)) (phCore0 S (redA Am R An).toBlocks₂₂ β (phBn (rTemp S) (phIn Am (phGamma S R)) β bn))))
    (hΦ : Φ = phPhi Am (phGamma S R) γ) :
    opTr (ketDM core) = 1 ∧ TracePres Φ ∧ OpPos (choiOp Φ) ∧ (∀ z w, opTr (dmFun A b c) * applyOnDM Φ (ketDM core) z w = dmFun A b c z w) ∧
      (IsCore core ↔ γ = β ∘ Sum.inr) := by
  have hNs : (A.submatrix (coreFirst m m) (coreFirst m m))ᵀ = A.submatrix (coreFirst m m) (coreFirst m m) := by rw [transpose_submatrix, hA]
  have hAms : Amᵀ = Am := by
    have := congrArg toBlocks₁₁ hNs
    rw [hN, fromBlocks_transpose, toBlocks_fromBlocks₁₁, toBlocks_fromBlocks₁₁] at this
    exact this
  have hAns : Anᵀ = An := by
    have := congrArg toBlocks₂₂ hNs
    rw [hN, fromBlocks_transpose, toBlocks_fromBlocks₂₂, toBlocks_fromBlocks₂₂] at this
    exact this
  obtain ⟨k1, k2, k3⟩ := bk_blocks hH
  rw [hN, toBlocks_fromBlocks₁₁] at k1
  rw [hN, toBlocks_fromBlocks₂₁] at k2
  rw [hN, toBlocks_fromBlocks₂₂] at k3
  have tAm := trClass_core ht hN
  obtain ⟨red, hred⟩ : ∃ red, red = redA Am R An := ⟨_, rfl⟩
  have reds : redᵀ = red := by rw [hred]; exact redA_symm hAms hAns
  have redk : Bk red := by rw [hred]; exact redA_bk k1 k2 k3
  have redt : TrClass red := by rw [hred]; exact trClass_red ht hN hAms k1 k2
  obtain ⟨T, hTd⟩ : ∃ T, T = rTemp S := ⟨_, rfl⟩
  obtain ⟨G, hGd⟩ : ∃ G, G = phGamma S R := ⟨_, rfl⟩
  obtain ⟨Q, hQd⟩ : ∃ Q, Q = phIn Am G := ⟨_, rfl⟩
  rw [← hTd] at hT
  rw [← hGd] at hG hβ hcore hΦ
  rw [← hQd, ← hTd] at hcore
  rw [← hred] at hcore hSS
  have kT : Bk T := by rw [hTd]; exact rTemp_bk S
  have kG : Bk G := by rw [hGd]; unfold phGamma; rw [← hTd]; exact kT.inv.mul k2
  have hTG : T * G = R := by
    rw [hGd]
    unfold phGamma
    rw [← hTd, ← Matrix.mul_assoc, mul_nonsing_inv _ (isUnit_iff_ne_zero.2 hT), Matrix.one_mul]
  have Qs : Qᵀ = Q := by rw [hQd]; exact phIn_symm hAms G
  have kQ : Bk Q := by rw [hQd]; exact phIn_bk k1 kG
  have tQ : TrClass Q := by rw [hQd]; exact phIn_trClass hAms k1 kG tAm hG
  have redN : fromBlocks (cj red.toBlocks₂₂) 0 0 red.toBlocks₂₂ + T * Xmat m * Tᵀ = red := by rw [hTd]; exact red_core reds redk hS hSS
  obtain ⟨Nc, hNc⟩ : ∃ Nc : Matrix (m ⊕ m) (m ⊕ m) ℂ, Nc = fromBlocks (cj red.toBlocks₂₂) 0 0 red.toBlocks₂₂ := ⟨_, rfl⟩
  rw [← hNc] at redN
  have hTQ : Nc + T * Q * Tᵀ = An := by
    have e1 : T * Q * Tᵀ = R * (Am - Xmat m)⁻¹ * Rᵀ + T * Xmat m * Tᵀ := by
      rw [hQd]
      unfold phIn
      rw [Matrix.mul_add, Matrix.add_mul, ← hTG, transpose_mul]
      simp only [Matrix.mul_assoc]
    rw [e1, add_comm (R * _ * _), ← add_assoc, redN, hred]
    unfold redA
    rw [sub_add_cancel]
  -- the Choi operator
  have hSd : S.det ≠ 0 := by
    intro e
    refine hT ?_
    rw [hTd]
    unfold rTemp
    rw [det_fromBlocks_zero₁₂, det_transpose, e, mul_zero]
  have hSi : S⁻¹ * S = 1 := nonsing_inv_mul _ (isUnit_iff_ne_zero.2 hSd)
  have hSi' : S * S⁻¹ = 1 := mul_nonsing_inv _ (isUnit_iff_ne_zero.2 hSd)
  have hSih : (S⁻¹)ᴴ = S⁻¹ := by rw [conjTranspose_nonsing_inv, hS]
  obtain ⟨rm, rn⟩ := rv_blocks hb
  rw [← hbm] at rm
  rw [← hbn] at rn
  have hb' : b ∘ coreFirst m m = Sum.elim bm bn := by rw [hbm, hbn, Sum.elim_comp_inl_inr]
  have hdm : ∀ κ : ℂ, dmFun A b κ = dmOf (fromBlocks Am Rᵀ R An) (Sum.elim bm bn) κ := fun κ => by
    funext z w
    rw [dmFun_coreFirst, dmOf_eq, hN, hb']
  have hW : (fromBlocks Am.toBlocks₁₂ Rᵀ.toBlocks₁₂ R.toBlocks₁₂ An.toBlocks₁₂).PosSemidef := by
    rw [hdm] at hp
    exact (opPos_dmOf hAms hAns k1 k2 k3 rm rn hc).1 hp
  have hWφ : (fromBlocks Am.toBlocks₁₂ Gᵀ.toBlocks₁₂ G.toBlocks₁₂ Q.toBlocks₁₂).PosSemidef := by
    have := hW.mul_mul_conjTranspose_same (fromBlocks (1 : Matrix m m ℂ) 0 0 S⁻¹ : Matrix (m ⊕ m) (m ⊕ m) ℂ)
    have eR : R.toBlocks₁₂ = S * G.toBlocks₁₂ := by rw [← hTG, hTd]; exact (rTemp_mul12 hS G).1
    have eRt : Rᵀ.toBlocks₁₂ = Gᵀ.toBlocks₁₂ * S := by rw [← hTG, transpose_mul, hTd]; exact (rTemp_mul12 hS Gᵀ).2
    have eA : An.toBlocks₁₂ = S * Q.toBlocks₁₂ * S := by
      have h1 := (rTemp_mul12 hS (T * Q)).2
      have h2 := (rTemp_mul12 hS Q).1
      rw [← hTd] at h1 h2
      rw [← hTQ, hNc]
      have : ∀ X Y : Matrix (m ⊕ m) (m ⊕ m) ℂ, (X + Y).toBlocks₁₂ = X.toBlocks₁₂ + Y.toBlocks₁₂ := fun X Y => rfl
      rw [this, toBlocks_fromBlocks₁₂, zero_add, h1, h2]
    rw [fromBlocks_conjTranspose, fromBlocks_multiply, fromBlocks_multiply, eR, eRt, eA] at this
    have f1 : S⁻¹ * (S * G.toBlocks₁₂) = G.toBlocks₁₂ := by rw [← Matrix.mul_assoc, hSi, Matrix.one_mul]
    have f2 : Gᵀ.toBlocks₁₂ * S * S⁻¹ = Gᵀ.toBlocks₁₂ := by rw [Matrix.mul_assoc, hSi', Matrix.mul_one]
    have f3 : S⁻¹ * (S * Q.toBlocks₁₂ * S) * S⁻¹ = Q.toBlocks₁₂ := by
      calc _ = (S⁻¹ * S) * Q.toBlocks₁₂ * (S * S⁻¹) := by simp only [Matrix.mul_assoc]
        _ = _ := by rw [hSi, hSi', Matrix.one_mul, Matrix.mul_one]
    simp only [Matrix.one_mul, Matrix.mul_one, Matrix.zero_mul, Matrix.mul_zero, add_zero, zero_add, conjTranspose_one, conjTranspose_zero, hSih, f1, f2, f3] at this
    exact this
  have pQ : Q.toBlocks₁₂.PosSemidef := hWφ.submatrix Sum.inr
  obtain ⟨s1, s2⟩ := shrinks_blocks Qs kQ tQ pQ
  rw [hQd] at s1 s2
  obtain ⟨cφ, hcφ, eΦ, tΦ⟩ := phPhi_eq hAms k1 kG tAm s1 s2 γ
  rw [← eΦ, ← hΦ] at tΦ
  rw [← hΦ] at eΦ
  -- the core state
  obtain ⟨βn, hβn⟩ : ∃ βn, βn = phBn T Q β bn := ⟨_, rfl⟩
  rw [← hβn] at hcore
  obtain ⟨a, ha⟩ : ∃ a, a = red.toBlocks₂₂ := ⟨_, rfl⟩
  rw [← ha] at hcore hNc
  obtain ⟨e, he⟩ : ∃ e : m → ℂ, e = β ∘ Sum.inr - γ := ⟨_, rfl⟩
  obtain ⟨f, hf⟩ : ∃ f : m → ℂ, f = βn ∘ Sum.inr + Sᵀ.mulVec (star γ) := ⟨_, rfl⟩
  obtain ⟨ψ, hψ⟩ : ∃ ψ : (m ⊕ m → ℂ) → ℂ, ψ = bargFun (fromBlocks 0 S Sᵀ a) (Sum.elim e f) 1 := ⟨_, rfl⟩
  have hψ2 : (fun z => applyOn (dispOp (-γ)) (phCore0 S a β βn) z / applyOn (dispOp (-γ)) (phCore0 S a β βn) 0) = ψ := by
    funext z
    unfold phCore0
    rw [disp_core, hψ, he, hf]
  obtain ⟨E1, hE1⟩ : ∃ E1 : m ⊕ m → ℂ, E1 = Sum.elim (star e) e := ⟨_, rfl⟩
  obtain ⟨E2, hE2⟩ : ∃ E2 : m ⊕ m → ℂ, E2 = Sum.elim (star f) f := ⟨_, rfl⟩
  have hψdm : ketDM ψ = dmOf (fromBlocks 0 Tᵀ T Nc) (Sum.elim E1 E2) 1 := by
    funext z w
    rw [hψ, ketDM_core, ← hTd, ← hNc, ← hE1, ← hE2, map_one, mul_one]
  have z0 : ((0 : Matrix (m ⊕ m) (m ⊕ m) ℂ))ᵀ = 0 := transpose_zero
  have kz : Bk (0 : Matrix (m ⊕ m) (m ⊕ m) ℂ) := by rw [bk_iff]; intro i j; simp
  have as : aᵀ = a := by rw [ha]; exact (symm_blocks reds).2.2
  have Ncs : Ncᵀ = Nc := by rw [hNc, fromBlocks_transpose, as, cj_symm as, transpose_zero]
  have kNc : Bk Nc := by
    rw [hNc, bk_iff]
    intro i j
    rcases i with i | i <;> rcases j with j | j
    · rfl
    · simp
    · simp
    · exact (Complex.conj_conj _).symm
  have rE1 : RV E1 := by rw [hE1]; exact RV.pv e
  have rE2 : RV E2 := by rw [hE2]; exact RV.pv f
  have tcore : TrClass ((fromBlocks 0 Tᵀ T Nc).submatrix (coreFirst m m).symm (coreFirst m m).symm) := core_trClass kT (by rw [redN]; exact redt)
  obtain ⟨t, ht0, et⟩ := opTr_pos (symm_order z0 Ncs) (bk_order kz kT kNc) tcore (rv_order rE1 rE2) (c := 1) one_pos
  have etr : opTr (ketDM ψ) = t := by
    rw [hψdm, ← et]
    unfold dmOf
    rw [Complex.ofReal_one]
  have hroot : ((t : ℂ)) ^ (1 / 2 : ℂ) = ((Real.sqrt t : ℝ) : ℂ) := by
    refine sqrt_of_re_pos ?_ ?_
    · rw [← Complex.ofReal_pow, Real.sq_sqrt ht0.le]
    · rw [Complex.ofReal_re]
      exact Real.sqrt_pos.2 ht0
  have hcore2 : core = fun z => ψ z / ((Real.sqrt t : ℝ) : ℂ) := by
    rw [hcore]
    unfold phNormalize
    have h3 : ∀ z, applyOn (dispOp (-γ)) (phCore0 S a β βn) z / applyOn (dispOp (-γ)) (phCore0 S a β βn) 0 = ψ z := fun z => congrFun hψ2 z
    dsimp only
    simp only [h3]
    rw [show (fun z => ψ z) = ψ from rfl, etr, hroot]
  have hkd : ketDM core = dmOf (fromBlocks 0 Tᵀ T Nc) (Sum.elim E1 E2) (1 / (t : ℂ)) := by
    funext z w
    have e1 : ketDM core z w = ketDM ψ z w / t := by
      rw [hcore2]
      unfold ketDM
      rw [map_div₀, Complex.conj_ofReal, div_mul_div_comm, ← Complex.ofReal_mul, Real.mul_self_sqrt ht0.le]
    rw [e1, hψdm, dmOf_eq, dmOf_eq]
    unfold bargFun
    ring
  have htr1 : opTr (ketDM core) = 1 := by
    rw [hkd]
    unfold dmOf
    rw [opTr_dmFun (symm_order z0 Ncs) tcore]
    have := et
    rw [opTr_dmFun (symm_order z0 Ncs) tcore, Complex.ofReal_one, one_mul] at this
    rw [this, one_div, inv_mul_cancel₀ (by exact_mod_cast ht0.ne')]
  -- the action
  have hlin : phLin Am G γ = Sum.elim (Gᵀ.mulVec (Sum.elim (star γ) γ)) ((Q - Xmat m).mulVec (Sum.elim (star γ) γ)) := by rw [hQd]; rfl
  have hmat : phA Am G = fromBlocks Am Gᵀ G Q := by rw [hQd]; rfl
  rw [← hQd] at s1 s2
  rw [hlin, hmat] at eΦ
  obtain ⟨g, hg⟩ : ∃ g, g = Sum.elim (star γ) γ := ⟨_, rfl⟩
  rw [← hg] at eΦ
  have rg : RV g := by rw [hg]; exact RV.pv γ
  have rβ : RV β := by
    rw [hβ]
    unfold phBm
    exact kG.transpose.inv.mulVec rm
  have hGβ : Gᵀ.mulVec β = bm := by
    rw [hβ]
    unfold phBm
    rw [Matrix.mulVec_mulVec, mul_nonsing_inv _ (isUnit_iff_ne_zero.2 (by rwa [det_transpose])), Matrix.one_mulVec]
  have hE1' : E1 = β + -g := by
    refine RV.ext rE1 (rβ.add rg.neg) ?_
    rw [hE1, he, hg]
    funext i
    simp [sub_eq_add_neg]
  have rβn : RV βn := by
    rw [hβn]
    unfold phBn
    rw [sub_eq_add_neg]
    exact rn.add ((kT.mul kQ).mulVec rβ).neg
  have hE2' : E2 = βn + (T * Xmat m).mulVec g := by
    refine RV.ext rE2 (rβn.add ((kT.mul Bk.X).mulVec rg)) ?_
    rw [hE2, hf, hg, hTd, ← Matrix.mulVec_mulVec, Xmat_elim]
    unfold rTemp
    rw [fromBlocks_mulVec]
    funext i
    simp
  have l1 : Gᵀ.mulVec g + Gᵀ.mulVec E1 = bm := by
    rw [hE1', ← Matrix.mulVec_add, add_comm g, neg_add_cancel_right, hGβ]
  have l2 : E2 + T.mulVec (Q.mulVec E1 + (Q - Xmat m).mulVec g) = bn := by
    rw [hE2', hE1', hβn]
    unfold phBn
    simp only [Matrix.mulVec_add, Matrix.mulVec_neg, Matrix.sub_mulVec, Matrix.mulVec_sub, Matrix.mulVec_mulVec]
    abel
  have hact : ∀ z w, applyOnDM Φ (ketDM core) z w = dmFun A b ((1 / (t : ℂ)) * cφ * Complex.exp (1 / 2 * (E1 ⬝ᵥ Q.mulVec E1) + (Q - Xmat m).mulVec g ⬝ᵥ E1)) z w := by
    intro z w
    rw [eΦ, hkd, act_core Qs s1 s2, hTG, hTQ, l1, l2, hdm]
  obtain ⟨K, hK⟩ : ∃ K : ℂ, K = (1 / (t : ℂ)) * cφ * Complex.exp (1 / 2 * (E1 ⬝ᵥ Q.mulVec E1) + (Q - Xmat m).mulVec g ⬝ᵥ E1) := ⟨_, rfl⟩
  simp only [← hK] at hact
  have iρ : ∀ κ : ℂ, Integrable fun u : m ⊕ m → ℂ => dmFun A b κ u (star u) * Complex.exp (-∑ i, (‖u i‖ : ℂ) ^ 2) := fun κ => by
    have := (tr_integrable hA ht b).const_mul κ
    refine this.congr (.of_forall fun u => ?_)
    dsimp only [dmFun]
    ring
  have icore : Integrable fun u : m ⊕ m → ℂ => ketDM core u (star u) * Complex.exp (-∑ i, (‖u i‖ : ℂ) ^ 2) := by
    have := (tr_integrable (symm_order z0 Ncs) tcore (Sum.elim E1 E2 ∘ (coreFirst m m).symm)).const_mul (1 / (t : ℂ))
    refine this.congr (.of_forall fun u => ?_)
    rw [hkd]
    dsimp only [dmOf, dmFun]
    ring
  have hactf : applyOnDM Φ (ketDM core) = dmFun A b K := funext fun z => funext fun w => hact z w
  have htrK : opTr (dmFun A b K) = 1 := by
    rw [← htr1, opTr_red icore, ← hactf, opTr_red (by rw [hactf]; exact iρ K)]
    have : redFun (applyOnDM Φ (ketDM core)) = redFun (ketDM core) := by
      funext z w
      rw [eΦ, hkd]
      refine act_red Qs s1 s2 _ _ _ ?_ _ _ _ _ _ z w
      rw [← eΦ]
      exact tΦ
    rw [this]
  refine ⟨htr1, tΦ, ?_, fun z w => ?_, ?_⟩
  · have : choiOp Φ = dmOf (fromBlocks Am Gᵀ G Q) (Sum.elim (Gᵀ.mulVec g) ((Q - Xmat m).mulVec g)) cφ := by
      funext z w
      rw [eΦ, choi_dmOf]
    rw [this]
    exact (opPos_dmOf hAms Qs k1 kG kQ (kG.transpose.mulVec rg) ((kQ.sub Bk.X).mulVec rg) hcφ).2 hWφ
  · rw [hact]
    rw [opTr_dmFun hA ht] at htrK ⊢
    obtain ⟨τ, hτ⟩ : ∃ τ, τ = trC A * Complex.exp (-(1 / 2) * (b ⬝ᵥ (A - Xmat (m ⊕ m))⁻¹.mulVec b)) := ⟨_, rfl⟩
    rw [← hτ] at htrK ⊢
    unfold dmFun
    linear_combination (c : ℂ) * Complex.exp (1 / 2 * (Sum.elim w z ⬝ᵥ A.mulVec (Sum.elim w z)) + b ⬝ᵥ Sum.elim w z) * htrK
  · have hψe : ∀ x : m → ℂ, core (Sum.elim x 0) = Complex.exp (e ⬝ᵥ x) / ((Real.sqrt t : ℝ) : ℂ) := by
      intro x
      rw [hcore2]
      dsimp only
      rw [hψ, barg_core, Matrix.mulVec_zero, dotProduct_zero, dotProduct_zero, Matrix.mulVec_zero, mul_zero, add_zero, add_zero, Complex.exp_zero, one_mul, one_mul]
    have hsq : ((Real.sqrt t : ℝ) : ℂ) ≠ 0 := by exact_mod_cast (Real.sqrt_pos.2 ht0).ne'
    constructor
    · rintro ⟨κ, hκ⟩
      have h1 : ∀ x, Complex.exp (e ⬝ᵥ x) = 1 := by
        intro x
        have h1 := hκ x
        have h2 := hκ 0
        rw [hψe] at h1 h2
        rw [← h2, dotProduct_zero, Complex.exp_zero] at h1
        exact (div_left_inj' hsq).1 h1
      have h2 : star e ⬝ᵥ e = 0 := by
        have h3 := h1 (star e)
        rw [dotProduct_comm, ← norm_sum_eq, ← Complex.ofReal_exp] at h3
        have h4 : Real.exp (∑ i, ‖e i‖ ^ 2) = 1 := by exact_mod_cast h3
        rw [Real.exp_eq_one_iff] at h4
        rw [← norm_sum_eq, h4, Complex.ofReal_zero]
      have h3 : e = 0 := dotProduct_star_self_eq_zero.1 (by first | exact h2 | (rw [dotProduct_comm]; exact h2))
      rw [he, sub_eq_zero] at h3
      exact h3.symm
    · intro h
      refine ⟨1 / ((Real.sqrt t : ℝ) : ℂ), fun x => ?_⟩
      rw [hψe, he, h, sub_self, zero_dotProduct, Complex.exp_zero]

/-- **C94 (physical decomposition)** For every Gaussian density matrix (Hermitian, positive, of finite trace, normalised or not) on which the code does not fail, and whatever the
order of `core_modes`, `DM.physical_stellar_decomposition` returns a normalised ket and a channel (trace preserving, completely positive) on the core modes that sends the ket to
the normalised density matrix. The ket is a core state exactly if the components of the displacement are the same in the given and in the increasing order of the core modes. -/
theorem C94_physical (ord : m ≃ m) {A : Matrix ((m ⊕ m) ⊕ (m ⊕ m)) ((m ⊕ m) ⊕ (m ⊕ m)) ℂ} (hA : Aᵀ = A) (hH : A = Xmat (m ⊕ m) * cj A * Xmat (m ⊕ m))
    {b : (m ⊕ m) ⊕ (m ⊕ m) → ℂ} (hb : b ∘ Sum.inr = star (b ∘ Sum.inl)) {c : ℝ} (hc : 0 < c) (hp : OpPos (dmFun A b c)) (ht : TrClass A) {V : Matrix m m ℂ} {lam : m → ℝ}
    (hE : IsEigh (redA (A.submatrix (coreFirst m m) (coreFirst m m)).toBlocks₁₁ (A.submatrix (coreFirst m m) (coreFirst m m)).toBlocks₂₁
      (A.submatrix (coreFirst m m) (coreFirst m m)).toBlocks₂₂).toBlocks₁₂ V lam)
    {core : (m ⊕ m → ℂ) → ℂ} {Φ : (m → ℂ) → (m → ℂ) → (m → ℂ) → (m → ℂ) → ℂ} (h : physDM ord V lam A b = some (core, Φ)) :
    opTr (ketDM core) = 1 ∧ TracePres Φ ∧ OpPos (choiOp Φ) ∧ (∀ z w, opTr (dmFun A b c) * applyOnDM Φ (ketDM core) z w = dmFun A b c z w) ∧
      (IsCore core ↔ ∀ i, phBm (phGamma (gammaOf V lam) (A.submatrix (coreFirst m m) (coreFirst m m)).toBlocks₂₁) ((b ∘ coreFirst m m) ∘ Sum.inl) (Sum.inr (ord i)) =
        phBm (phGamma (gammaOf V lam) (A.submatrix (coreFirst m m) (coreFirst m m)).toBlocks₂₁) ((b ∘ coreFirst m m) ∘ Sum.inl) (Sum.inr i)) := by
  obtain ⟨N, hN⟩ : ∃ N, N = A.submatrix (coreFirst m m) (coreFirst m m) := ⟨_, rfl⟩
  unfold physDM at h
  dsimp only at h
  rw [← hN] at h hE ⊢
  have hNs : Nᵀ = N := by rw [hN, transpose_submatrix, hA]
  obtain ⟨eN, n1, n2⟩ := symm_blocks hNs
  obtain ⟨k1, k2, k3⟩ := bk_blocks (m := m) (k := m) hH
  rw [← hN] at k1 k2 k3
  have hN' : A.submatrix (coreFirst m m) (coreFirst m m) = fromBlocks N.toBlocks₁₁ N.toBlocks₂₁ᵀ N.toBlocks₂₁ N.toBlocks₂₂ := by rw [← hN]; exact eN
  have hpos := redA_pos ht hN' n1 n2 k1 k2 k3 (rv_iff.2 hb) hc hp
  obtain ⟨hS, hSS⟩ := eigh_sqrt hE hpos
  split_ifs at h with hd
  push Not at hd
  obtain ⟨-, d2, d3⟩ := hd
  rw [Option.some.injEq, Prod.mk.injEq] at h
  obtain ⟨a1, a2, a3, a4, a5⟩ := phys_main hA hH (rv_iff.2 hb) hc hp ht hN' hS hSS d2 d3 _ rfl rfl rfl h.1.symm h.2.symm
  refine ⟨a1, a2, a3, a4, a5.trans ?_⟩
  exact funext_iff

/-- **C94 (core state)** With `core_modes` in increasing order the ket is a core state. -/
theorem C94_core {A : Matrix ((m ⊕ m) ⊕ (m ⊕ m)) ((m ⊕ m) ⊕ (m ⊕ m)) ℂ} (hA : Aᵀ = A) (hH : A = Xmat (m ⊕ m) * cj A * Xmat (m ⊕ m))
    {b : (m ⊕ m) ⊕ (m ⊕ m) → ℂ} (hb : b ∘ Sum.inr = star (b ∘ Sum.inl)) {c : ℝ} (hc : 0 < c) (hp : OpPos (dmFun A b c)) (ht : TrClass A) {V : Matrix m m ℂ} {lam : m → ℝ}
    (hE : IsEigh (redA (A.submatrix (coreFirst m m) (coreFirst m m)).toBlocks₁₁ (A.submatrix (coreFirst m m) (coreFirst m m)).toBlocks₂₁
      (A.submatrix (coreFirst m m) (coreFirst m m)).toBlocks₂₂).toBlocks₁₂ V lam)
    {core : (m ⊕ m → ℂ) → ℂ} {Φ : (m → ℂ) → (m → ℂ) → (m → ℂ) → (m → ℂ) → ℂ} (h : physDM (Equiv.refl m) V lam A b = some (core, Φ)) : IsCore core :=
  ((C94_physical (Equiv.refl m) hA hH hb hc hp ht hE h).2.2.2.2).2 fun _ => rfl

end Verif.Manifold
