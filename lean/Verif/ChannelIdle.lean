import Verif.ChannelCP

/-!
# Channels acting on a part of the modes (C74)

`mrmustard/lab/transformations/base.py` 373-410, 489-530: a channel that `Channel.is_CP` accepts takes physical Gaussian states, of its own input modes
and of any further modes on which it does not act, to physical states.
-/

namespace Verif.Manifold
open Matrix Verif.Gauss MeasureTheory
open scoped ComplexOrder MatrixOrder

variable {n : Type*} [Fintype n] [DecidableEq n]
variable {p q r : Type*} [Fintype p] [DecidableEq p] [Fintype q] [DecidableEq q] [Fintype r] [DecidableEq r]

/-! ## Specification -/

/-- A channel next to the identity on further modes `r`. -/
noncomputable def withIdle (Φ : (p → ℂ) → (q → ℂ) → (p → ℂ) → (q → ℂ) → ℂ) (z : p ⊕ r → ℂ) (z' : q ⊕ r → ℂ) (w : p ⊕ r → ℂ) (w' : q ⊕ r → ℂ) : ℂ :=
  Φ (z ∘ Sum.inl) (z' ∘ Sum.inl) (w ∘ Sum.inl) (w' ∘ Sum.inl) * Complex.exp (z ∘ Sum.inr ⬝ᵥ z' ∘ Sum.inr) * Complex.exp (w ∘ Sum.inr ⬝ᵥ w' ∘ Sum.inr)

/-- `X` next to the identity. -/
def idleX (r : Type*) [DecidableEq r] (X : Matrix (p ⊕ p) (q ⊕ q) ℝ) : Matrix ((p ⊕ r) ⊕ (p ⊕ r)) ((q ⊕ r) ⊕ (q ⊕ r)) ℝ :=
  (fromBlocks X 0 0 1).submatrix (Equiv.sumSumSumComm p p r r).symm (Equiv.sumSumSumComm q q r r).symm

/-- `Y` next to no noise. -/
def idleY (r : Type*) (Y : Matrix (p ⊕ p) (p ⊕ p) ℝ) : Matrix ((p ⊕ r) ⊕ (p ⊕ r)) ((p ⊕ r) ⊕ (p ⊕ r)) ℝ :=
  (fromBlocks Y 0 0 0).submatrix (Equiv.sumSumSumComm p p r r).symm (Equiv.sumSumSumComm p p r r).symm

/-! ## The kernel -/

theorem idle_one : (1 : Matrix ((p ⊕ r) ⊕ (p ⊕ r)) ((p ⊕ r) ⊕ (p ⊕ r)) ℝ) =
    (fromBlocks 1 0 0 1).submatrix (Equiv.sumSumSumComm p p r r).symm (Equiv.sumSumSumComm p p r r).symm := by
  rw [fromBlocks_one, Matrix.submatrix_one_equiv]

theorem idle_Xi {ħ : ℝ} (X : Matrix (p ⊕ p) (q ⊕ q) ℝ) (Y : Matrix (p ⊕ p) (p ⊕ p) ℝ) :
    xyXi ħ (idleX r X) (idleY r Y) =
      (fromBlocks (xyXi ħ X Y) 0 0 1).submatrix (Equiv.sumSumSumComm p p r r).symm (Equiv.sumSumSumComm p p r r).symm := by
  have e : idleX r X * (idleX r X)ᵀ = (fromBlocks (X * Xᵀ) 0 0 1).submatrix (Equiv.sumSumSumComm p p r r).symm (Equiv.sumSumSumComm p p r r).symm := by
    unfold idleX
    rw [transpose_submatrix, submatrix_mul_equiv, fromBlocks_transpose, fromBlocks_multiply]
    simp
  unfold xyXi
  rw [e, idle_one]
  ext i j
  simp only [Matrix.add_apply, Matrix.smul_apply, Matrix.submatrix_apply, Matrix.map_apply, idleY]
  generalize (Equiv.sumSumSumComm p p r r).symm i = a
  generalize (Equiv.sumSumSumComm p p r r).symm j = b
  rcases a with a | a <;> rcases b with b | b <;> simp [fromBlocks]
  by_cases h : a = b
  · subst h; simp; norm_num
  · simp [Matrix.one_apply_ne h]

theorem idle_noise_psd {Y : Matrix (p ⊕ p) (p ⊕ p) ℝ} (hY : Y.PosSemidef) : (idleY r Y).PosSemidef := by
  have h := hY.mul_mul_conjTranspose_same (fromRows 1 0 : Matrix ((p ⊕ p) ⊕ (r ⊕ r)) (p ⊕ p) ℝ)
  rw [conjTranspose_fromRows_eq_fromCols_conjTranspose, fromRows_mul, fromRows_mul_fromCols] at h
  simp at h
  exact h.submatrix _

theorem hus_idle {ξ : Matrix (p ⊕ p) (p ⊕ p) ℝ} (hξ : ξ.PosDef) (η : p ⊕ p → ℂ) (ηr : r ⊕ r → ℂ) :
    hus ((fromBlocks ξ 0 0 (1 : Matrix (r ⊕ r) (r ⊕ r) ℝ)).submatrix (Equiv.sumSumSumComm p p r r).symm (Equiv.sumSumSumComm p p r r).symm) 0
      (Sum.elim η ηr ∘ (Equiv.sumSumSumComm p p r r).symm) = hus ξ 0 η * Complex.exp (-(1 / 2) * (ηr ⬝ᵥ ηr)) := by
  set σ := Equiv.sumSumSumComm p p r r
  have hinv : (fromBlocks ξ (0 : Matrix (p ⊕ p) (r ⊕ r) ℝ) 0 (1 : Matrix (r ⊕ r) (r ⊕ r) ℝ))⁻¹ = fromBlocks ξ⁻¹ 0 0 1 := by
    apply Matrix.inv_eq_left_inv
    rw [fromBlocks_multiply, (posDef_inv hξ).2]
    simp
  unfold hus
  rw [Matrix.det_submatrix_equiv_self, Matrix.inv_submatrix_equiv, hinv, Matrix.det_fromBlocks_zero₂₁, Matrix.det_one, mul_one, mul_assoc, ← Complex.exp_add]
  refine congrArg (HMul.hMul _) (congrArg Complex.exp ?_)
  have h1 : (Sum.elim η ηr ∘ σ.symm - fun i => (((0 : (p ⊕ r) ⊕ (p ⊕ r) → ℝ) i : ℝ) : ℂ)) = Sum.elim η ηr ∘ σ.symm := by funext; simp
  have h2 : (η - fun r => (((0 : p ⊕ p → ℝ) r : ℝ) : ℂ)) = η := by funext; simp
  rw [h1, h2]
  have e : (toC ((fromBlocks ξ⁻¹ (0 : Matrix (p ⊕ p) (r ⊕ r) ℝ) 0 (1 : Matrix (r ⊕ r) (r ⊕ r) ℝ)).submatrix σ.symm σ.symm)).mulVec (Sum.elim η ηr ∘ σ.symm) =
      ((toC (fromBlocks ξ⁻¹ (0 : Matrix (p ⊕ p) (r ⊕ r) ℝ) 0 (1 : Matrix (r ⊕ r) (r ⊕ r) ℝ))).mulVec (Sum.elim η ηr)) ∘ σ.symm := by
    show ((toC (fromBlocks ξ⁻¹ (0 : Matrix (p ⊕ p) (r ⊕ r) ℝ) 0 (1 : Matrix (r ⊕ r) (r ⊕ r) ℝ))).submatrix σ.symm σ.symm).mulVec (Sum.elim η ηr ∘ σ.symm) = _
    rw [Matrix.submatrix_mulVec_equiv]
    congr 2
    funext r
    simp
  rw [e]
  have e2 : (Sum.elim η ηr ∘ σ.symm) ⬝ᵥ ((toC (fromBlocks ξ⁻¹ (0 : Matrix (p ⊕ p) (r ⊕ r) ℝ) 0 (1 : Matrix (r ⊕ r) (r ⊕ r) ℝ))).mulVec (Sum.elim η ηr)) ∘ σ.symm =
      Sum.elim η ηr ⬝ᵥ (toC (fromBlocks ξ⁻¹ (0 : Matrix (p ⊕ p) (r ⊕ r) ℝ) 0 (1 : Matrix (r ⊕ r) (r ⊕ r) ℝ))).mulVec (Sum.elim η ηr) :=
    Equiv.sum_comp σ.symm fun i => Sum.elim η ηr i * (toC (fromBlocks ξ⁻¹ (0 : Matrix (p ⊕ p) (r ⊕ r) ℝ) 0 (1 : Matrix (r ⊕ r) (r ⊕ r) ℝ))).mulVec (Sum.elim η ηr) i
  rw [e2]
  have e3 : toC (fromBlocks ξ⁻¹ (0 : Matrix (p ⊕ p) (r ⊕ r) ℝ) 0 (1 : Matrix (r ⊕ r) (r ⊕ r) ℝ)) = fromBlocks (toC ξ⁻¹) 0 0 1 := by
    rw [show toC (fromBlocks ξ⁻¹ (0 : Matrix (p ⊕ p) (r ⊕ r) ℝ) 0 (1 : Matrix (r ⊕ r) (r ⊕ r) ℝ)) = fromBlocks (toC ξ⁻¹) (toC 0) (toC 0) (toC 1) from fromBlocks_map .., toC_one]
    congr 1 <;> ext <;> simp [toC]
  rw [e3, fromBlocks_mulVec, Sum.elim_comp_inl, Sum.elim_comp_inr, sumElim_dotProduct_sumElim]
  simp only [Matrix.zero_mulVec, add_zero, zero_add, Matrix.one_mulVec]
  ring

theorem idle_dot (x : q ⊕ q → ℂ) (y : r ⊕ r → ℂ) : (Sum.elim x y ∘ (Equiv.sumSumSumComm q q r r).symm) ⬝ᵥ
    (Sum.elim x y ∘ (Equiv.sumSumSumComm q q r r).symm) = x ⬝ᵥ x + y ⬝ᵥ y := by
  rw [← sumElim_dotProduct_sumElim]
  exact Equiv.sum_comp (Equiv.sumSumSumComm q q r r).symm fun i => Sum.elim x y i * Sum.elim x y i

/-- **C74 (idle modes)** The channel of `X`, `Y` next to the identity is the channel of `X ⊕ 1`, `Y ⊕ 0`. -/
theorem C74_idle {ħ : ℝ} (hħ : 0 < ħ) (X : Matrix (p ⊕ p) (q ⊕ q) ℝ) {Y : Matrix (p ⊕ p) (p ⊕ p) ℝ} (hY : Y.PosSemidef) :
    withIdle (r := r) (fromXY ħ X Y 0) = fromXY ħ (idleX r X) (idleY r Y) 0 := by
  have hξ := xyXi_pos hħ X hY
  have hξ' := xyXi_pos hħ (idleX r X) (idle_noise_psd (r := r) hY)
  rw [fromXY_zero hħ hξ, fromXY_zero hħ hξ']
  funext z z' w w'
  unfold withIdle gaussCh
  dsimp only
  obtain ⟨z1, z2, rfl⟩ : ∃ a b, z = Sum.elim a b := ⟨z ∘ Sum.inl, z ∘ Sum.inr, (Sum.elim_comp_inl_inr z).symm⟩
  obtain ⟨w1, w2, rfl⟩ : ∃ a b, w = Sum.elim a b := ⟨w ∘ Sum.inl, w ∘ Sum.inr, (Sum.elim_comp_inl_inr w).symm⟩
  obtain ⟨z1', z2', rfl⟩ : ∃ a b, z' = Sum.elim a b := ⟨z' ∘ Sum.inl, z' ∘ Sum.inr, (Sum.elim_comp_inl_inr z').symm⟩
  obtain ⟨w1', w2', rfl⟩ : ∃ a b, w' = Sum.elim a b := ⟨w' ∘ Sum.inl, w' ∘ Sum.inr, (Sum.elim_comp_inl_inr w').symm⟩
  simp only [Sum.elim_comp_inl, Sum.elim_comp_inr]
  rw [rot_pieces, rot_pieces, idle_Xi]
  set η := (rotmat p)ᴴ.mulVec (Sum.elim w1 z1)
  set η' := (rotmat q)ᴴ.mulVec (Sum.elim z1' w1')
  set ζ := (rotmat r)ᴴ.mulVec (Sum.elim w2 z2) with hζ
  set ζ' := (rotmat r)ᴴ.mulVec (Sum.elim z2' w2') with hζ'
  have hX : (toC (idleX r X)).mulVec (Sum.elim η' ζ' ∘ (Equiv.sumSumSumComm q q r r).symm) =
      Sum.elim ((toC X).mulVec η') ζ' ∘ (Equiv.sumSumSumComm p p r r).symm := by
    show ((toC (fromBlocks X 0 0 (1 : Matrix (r ⊕ r) (r ⊕ r) ℝ))).submatrix (Equiv.sumSumSumComm p p r r).symm (Equiv.sumSumSumComm q q r r).symm).mulVec _ = _
    rw [Matrix.submatrix_mulVec_equiv]
    have e3 : toC (fromBlocks X (0 : Matrix (p ⊕ p) (r ⊕ r) ℝ) 0 (1 : Matrix (r ⊕ r) (r ⊕ r) ℝ)) = fromBlocks (toC X) 0 0 1 := by
      rw [show toC (fromBlocks X (0 : Matrix (p ⊕ p) (r ⊕ r) ℝ) 0 (1 : Matrix (r ⊕ r) (r ⊕ r) ℝ)) = fromBlocks (toC X) (toC 0) (toC 0) (toC 1) from fromBlocks_map .., toC_one]
      congr 1 <;> ext <;> simp [toC]
    have e4 : (Sum.elim η' ζ' ∘ (Equiv.sumSumSumComm q q r r).symm) ∘ (Equiv.sumSumSumComm q q r r).symm.symm = Sum.elim η' ζ' := by
      funext i; rcases i with (i | i) | (i | i) <;> rfl
    rw [e3, e4, fromBlocks_mulVec, Sum.elim_comp_inl, Sum.elim_comp_inr]
    simp
  have hs : Sum.elim η ζ ∘ (Equiv.sumSumSumComm p p r r).symm - Sum.elim ((toC X).mulVec η') ζ' ∘ (Equiv.sumSumSumComm p p r r).symm =
      Sum.elim (η - (toC X).mulVec η') (ζ - ζ') ∘ (Equiv.sumSumSumComm p p r r).symm := by
    funext i
    rcases i with (i | i) | (i | i) <;> rfl
  have hζζ : ζ ⬝ᵥ ζ' = w2 ⬝ᵥ w2' + z2 ⬝ᵥ z2' := by
    have h2 : ((Real.sqrt 2 : ℝ) : ℂ) * ((Real.sqrt 2 : ℝ) : ℂ) = 2 := by
      rw [← Complex.ofReal_mul, Real.mul_self_sqrt (by norm_num)]; norm_num
    rw [hζ, hζ', rot_row, rot_row, sumElim_dotProduct_sumElim]
    simp only [dotProduct]
    rw [← Finset.sum_add_distrib, ← Finset.sum_add_distrib]
    refine Finset.sum_congr rfl fun i _ => ?_
    rw [div_mul_div_comm, div_mul_div_comm, mul_mul_mul_comm Complex.I, h2, Complex.I_mul_I]
    ring
  rw [hX, hs, hus_idle hξ, idle_dot, idle_dot, sub_dotProduct, dotProduct_sub, dotProduct_sub, dotProduct_comm ζ' ζ, hζζ]
  have hx : ∀ h a b c d e : ℂ, h * Complex.exp a * Complex.exp b * Complex.exp c * Complex.exp d = h * Complex.exp (a + b + c + d) := by
    intros; simp only [Complex.exp_add]; ring
  have hy : ∀ h a b c : ℂ, h * Complex.exp a * Complex.exp b * Complex.exp c = h * Complex.exp (a + b + c) := by
    intros; simp only [Complex.exp_add]; ring
  rw [hx _ _ _ _ _ 0, hy]
  refine congrArg (HMul.hMul _) (congrArg Complex.exp ?_)
  ring

/-! ## Physical states -/

/-- The noise of a channel: what `X`, `Y` must satisfy for complete positivity. -/
noncomputable def noiseMat (ħ : ℝ) (X : Matrix (p ⊕ p) (q ⊕ q) ℝ) (Y : Matrix (p ⊕ p) (p ⊕ p) ℝ) : Matrix (p ⊕ p) (p ⊕ p) ℂ :=
  toC Y + (Complex.I * (ħ / 2)) • (toC (symForm p) - toC X * toC (symForm q) * (toC X)ᵀ)

theorem noise_split (ħ : ℝ) (X : Matrix (p ⊕ p) (q ⊕ q) ℝ) (Y : Matrix (p ⊕ p) (p ⊕ p) ℝ) (cov : Matrix (q ⊕ q) (q ⊕ q) ℝ) :
    toC (X * cov * Xᵀ + Y) + (Complex.I * (ħ / 2)) • toC (symForm p) =
      noiseMat ħ X Y + toC X * (toC cov + (Complex.I * (ħ / 2)) • toC (symForm q)) * (toC X)ᴴ := by
  have hXc : (toC X)ᴴ = toC Xᵀ := by ext; simp [toC]
  have hXt : (toC X)ᵀ = toC Xᵀ := rfl
  unfold noiseMat
  rw [hXc, hXt, Matrix.mul_add, Matrix.add_mul, Matrix.mul_smul, Matrix.smul_mul, toC_add, toC_mul, toC_mul, smul_sub]
  abel

theorem uncertain_out {ħ : ℝ} {X : Matrix (p ⊕ p) (q ⊕ q) ℝ} {Y : Matrix (p ⊕ p) (p ⊕ p) ℝ} (hN : (noiseMat ħ X Y).PosSemidef) {cov : Matrix (q ⊕ q) (q ⊕ q) ℝ}
    (hu : (toC cov + (Complex.I * (ħ / 2)) • toC (symForm q)).PosSemidef) :
    (toC (X * cov * Xᵀ + Y) + (Complex.I * (ħ / 2)) • toC (symForm p)).PosSemidef := by
  rw [noise_split]
  exact hN.add (hu.mul_mul_conjTranspose_same _)

theorem symForm_idle : symForm (p ⊕ r) =
    (fromBlocks (symForm p) 0 0 (symForm r)).submatrix (Equiv.sumSumSumComm p p r r).symm (Equiv.sumSumSumComm p p r r).symm := by
  ext i j
  rcases i with (i | i) | (i | i) <;> rcases j with (j | j) | (j | j) <;> simp [symForm, Equiv.sumSumSumComm, Matrix.one_apply]

theorem noise_idle (ħ : ℝ) (X : Matrix (p ⊕ p) (q ⊕ q) ℝ) (Y : Matrix (p ⊕ p) (p ⊕ p) ℝ) :
    noiseMat ħ (idleX r X) (idleY r Y) =
      (fromBlocks (noiseMat ħ X Y) 0 0 0).submatrix (Equiv.sumSumSumComm p p r r).symm (Equiv.sumSumSumComm p p r r).symm := by
  have e : ∀ W : Matrix (p ⊕ p) (q ⊕ q) ℝ, toC (fromBlocks W (0 : Matrix (p ⊕ p) (r ⊕ r) ℝ) 0 (1 : Matrix (r ⊕ r) (r ⊕ r) ℝ)) = fromBlocks (toC W) 0 0 1 := by
    intro W
    rw [show toC (fromBlocks W (0 : Matrix (p ⊕ p) (r ⊕ r) ℝ) 0 1) = fromBlocks (toC W) (toC 0) (toC 0) (toC 1) from fromBlocks_map .., toC_one]
    congr 1 <;> ext <;> simp [toC]
  have e1 : toC (fromBlocks (symForm q) (0 : Matrix (q ⊕ q) (r ⊕ r) ℝ) 0 (symForm r)) = fromBlocks (toC (symForm q)) 0 0 (toC (symForm r)) := by
    rw [show toC (fromBlocks (symForm q) (0 : Matrix (q ⊕ q) (r ⊕ r) ℝ) 0 (symForm r)) = fromBlocks (toC (symForm q)) (toC 0) (toC 0) (toC (symForm r)) from
      fromBlocks_map ..]
    congr 1 <;> ext <;> simp [toC]
  have h1 : toC (idleX r X) * toC (symForm (q ⊕ r)) * (toC (idleX r X))ᵀ =
      (fromBlocks (toC X * toC (symForm q) * (toC X)ᵀ) 0 0 (toC (symForm r))).submatrix (Equiv.sumSumSumComm p p r r).symm (Equiv.sumSumSumComm p p r r).symm := by
    have h2 : toC (idleX r X) = (fromBlocks (toC X) 0 0 (1 : Matrix (r ⊕ r) (r ⊕ r) ℂ)).submatrix (Equiv.sumSumSumComm p p r r).symm (Equiv.sumSumSumComm q q r r).symm := by
      rw [← e]; rfl
    have h3 : toC (symForm (q ⊕ r)) =
        (fromBlocks (toC (symForm q)) 0 0 (toC (symForm r))).submatrix (Equiv.sumSumSumComm q q r r).symm (Equiv.sumSumSumComm q q r r).symm := by
      rw [← e1, symForm_idle]; rfl
    rw [h2, h3, submatrix_mul_equiv, transpose_submatrix, submatrix_mul_equiv, fromBlocks_transpose, fromBlocks_multiply, fromBlocks_multiply]
    simp
  unfold noiseMat
  rw [h1, symForm_idle]
  ext i j
  simp only [Matrix.add_apply, Matrix.smul_apply, Matrix.sub_apply, Matrix.submatrix_apply, idleY, toC, Matrix.map_apply]
  generalize (Equiv.sumSumSumComm p p r r).symm i = a
  generalize (Equiv.sumSumSumComm p p r r).symm j = b
  rcases a with a | a <;> rcases b with b | b <;> simp [fromBlocks]

theorem psd_pad {a b : Type*} [Fintype a] [Fintype b] [DecidableEq a] [DecidableEq b] {N : Matrix a a ℂ} (h : N.PosSemidef) :
    (fromBlocks N (0 : Matrix a b ℂ) 0 0).PosSemidef := by
  have h := h.mul_mul_conjTranspose_same (fromRows 1 0 : Matrix (a ⊕ b) a ℂ)
  rw [conjTranspose_fromRows_eq_fromCols_conjTranspose, fromRows_mul, fromRows_mul_fromCols] at h
  simpa using h

theorem psd_of_eps {a : Type*} [Fintype a] [DecidableEq a] {N W : Matrix a a ℂ} (hW : W.PosSemidef) (h : ∀ ε : ℝ, 0 < ε → (N + (ε : ℂ) • W).PosSemidef) :
    N.PosSemidef := by
  have hN : N.IsHermitian := by
    have h1 := (h 1 one_pos).isHermitian.sub hW.isHermitian
    simpa using h1
  refine PosSemidef.of_dotProduct_mulVec_nonneg hN fun x => ?_
  have hre : (star x ⬝ᵥ N.mulVec x).im = 0 := hN.im_star_dotProduct_mulVec_self x
  rw [Complex.nonneg_iff]
  refine ⟨?_, hre.symm⟩
  have hn : 0 ≤ (star x ⬝ᵥ W.mulVec x).re := (Complex.nonneg_iff.1 (hW.dotProduct_mulVec_nonneg x)).1
  by_contra hlt
  push Not at hlt
  set b := (star x ⬝ᵥ N.mulVec x).re
  set s := (star x ⬝ᵥ W.mulVec x).re with hs
  have hε : 0 < -b / (2 * (s + 1)) := by apply div_pos <;> linarith
  have h1 := (h _ hε).dotProduct_mulVec_nonneg x
  rw [Matrix.add_mulVec, Matrix.smul_mulVec, dotProduct_add, dotProduct_smul, smul_eq_mul, Complex.nonneg_iff] at h1
  have h2 := h1.1
  rw [Complex.add_re, Complex.re_ofReal_mul] at h2
  change 0 ≤ b + -b / (2 * (s + 1)) * s at h2
  have h3 : -b / (2 * (s + 1)) * s ≤ -b / 2 := by
    rw [div_mul_eq_mul_div, div_le_div_iff₀ (by linarith) (by norm_num)]
    nlinarith
  linarith

/-- The reflection of the momenta. -/
def flipP (q : Type*) [DecidableEq q] : Matrix (q ⊕ q) (q ⊕ q) ℝ := fromBlocks 1 0 0 (-1)

theorem flipP_sq : flipP q * flipP q = 1 := by
  unfold flipP
  rw [fromBlocks_multiply]
  simp

theorem flipP_T : (flipP q)ᵀ = flipP q := by
  unfold flipP
  rw [fromBlocks_transpose]
  simp

theorem flipP_form : flipP q * symForm q = -(symForm q * flipP q) := by
  unfold flipP symForm
  rw [fromBlocks_multiply, fromBlocks_multiply, fromBlocks_neg]
  simp

/-- Two-mode squeezing between `q` and a copy of `q`, with squeezing `k`; the quadratures are ordered mode set by mode set. -/
noncomputable def eprS (q : Type*) [DecidableEq q] (k : ℝ) : Matrix ((q ⊕ q) ⊕ (q ⊕ q)) ((q ⊕ q) ⊕ (q ⊕ q)) ℝ :=
  fromBlocks (((k + k⁻¹) / 2) • 1) (((k - k⁻¹) / 2) • flipP q) (((k - k⁻¹) / 2) • flipP q) (((k + k⁻¹) / 2) • 1)

theorem eprS_symp {k : ℝ} (hk : 0 < k) : eprS q k * fromBlocks (symForm q) 0 0 (symForm q) * (eprS q k)ᵀ = fromBlocks (symForm q) 0 0 (symForm q) := by
  unfold eprS
  rw [fromBlocks_transpose, fromBlocks_multiply, fromBlocks_multiply]
  simp only [transpose_smul, transpose_one, flipP_T, Matrix.mul_zero, add_zero, zero_add, Matrix.smul_mul, Matrix.mul_smul, Matrix.one_mul, Matrix.mul_one, smul_smul]
  have h1 : flipP q * symForm q * flipP q = -symForm q := by rw [flipP_form, Matrix.neg_mul, Matrix.mul_assoc, flipP_sq, Matrix.mul_one]
  have h2 : symForm q * flipP q = -(flipP q * symForm q) := by rw [flipP_form, neg_neg]
  rw [h1, h2]
  congr 1
  all_goals
    ext i j
    simp only [Matrix.add_apply, Matrix.smul_apply, Matrix.neg_apply, smul_eq_mul, Matrix.zero_apply]
    field_simp
    ring

theorem eprS_sq {k : ℝ} (hk : 0 < k) : 
    fromCols 1 (-flipP q) * (eprS q k * (eprS q k)ᵀ) * (fromCols (1 : Matrix (q ⊕ q) (q ⊕ q) ℝ) (-flipP q))ᵀ = (2 / k ^ 2) • (1 : Matrix (q ⊕ q) (q ⊕ q) ℝ) := by
  have h1 : fromCols 1 (-flipP q) * eprS q k = k⁻¹ • fromCols 1 (-flipP q) := by
    unfold eprS
    rw [fromCols_mul_fromBlocks]
    ext i j
    rcases j with j | j
    · simp only [fromCols_apply_inl, Matrix.smul_apply, Matrix.add_apply, Matrix.neg_mul, Matrix.mul_smul, Matrix.mul_one, flipP_sq, Matrix.neg_apply, smul_eq_mul,
        Matrix.one_mul]
      ring
    · simp only [fromCols_apply_inr, Matrix.smul_apply, Matrix.add_apply, Matrix.neg_mul, Matrix.mul_smul, Matrix.mul_one, flipP_sq, Matrix.neg_apply, smul_eq_mul,
        Matrix.one_mul]
      ring
  rw [← Matrix.mul_assoc, h1, Matrix.mul_assoc, ← transpose_mul, h1, transpose_smul, Matrix.smul_mul, Matrix.mul_smul, transpose_fromCols, fromCols_mul_fromRows,
    transpose_one, transpose_neg, flipP_T, Matrix.neg_mul, Matrix.mul_neg, neg_neg, flipP_sq, Matrix.one_mul, smul_smul]
  ext i j
  simp only [Matrix.smul_apply, Matrix.add_apply, smul_eq_mul]
  field_simp
  ring

theorem vac_uncertain : (1 + Complex.I • toC (symForm n)).PosSemidef := by
  rw [← rot_diag]
  have e : (1 : Matrix (n ⊕ n) (n ⊕ n) ℂ) + (rotmat n)ᴴ * fromBlocks 1 0 0 (-1) * rotmat n = (rotmat n)ᴴ * fromBlocks ((2 : ℂ) • 1) 0 0 0 * (rotmat n)ᴴᴴ := by
    have h1 : (rotmat n)ᴴ * rotmat n = 1 := mul_eq_one_comm.1 rotmat_mul
    rw [conjTranspose_conjTranspose]
    have h2 : fromBlocks ((2 : ℂ) • 1) 0 0 0 = 1 + fromBlocks (1 : Matrix n n ℂ) 0 0 (-1 : Matrix n n ℂ) := by
      rw [← fromBlocks_one, fromBlocks_add]
      congr 1
      · rw [two_smul]
      · simp
      · simp
      · simp
    rw [h2, Matrix.mul_add, Matrix.add_mul, Matrix.mul_one, h1]
  rw [e]
  refine PosSemidef.mul_mul_conjTranspose_same ?_ _
  refine psd_pad (PosSemidef.one.smul ?_)
  norm_num

/-- A covariance matrix on `q` and a copy of `q`, given mode set by mode set. -/
def pairCov (M : Matrix ((q ⊕ q) ⊕ (r ⊕ r)) ((q ⊕ q) ⊕ (r ⊕ r)) ℝ) : Matrix ((q ⊕ r) ⊕ (q ⊕ r)) ((q ⊕ r) ⊕ (q ⊕ r)) ℝ :=
  M.submatrix (Equiv.sumSumSumComm q q r r).symm (Equiv.sumSumSumComm q q r r).symm

theorem pairCov_uncertain (ħ : ℝ) (M : Matrix ((q ⊕ q) ⊕ (r ⊕ r)) ((q ⊕ q) ⊕ (r ⊕ r)) ℝ) :
    toC (pairCov M) + (Complex.I * (ħ / 2)) • toC (symForm (q ⊕ r)) =
      (toC M + (Complex.I * (ħ / 2)) • toC (fromBlocks (symForm q) 0 0 (symForm r))).submatrix (Equiv.sumSumSumComm q q r r).symm
        (Equiv.sumSumSumComm q q r r).symm := by
  rw [symForm_idle]
  rfl

theorem epr_uncertain {ħ : ℝ} (hħ : 0 < ħ) {k : ℝ} (hk : 0 < k) :
    (toC (pairCov ((ħ / 2) • (eprS q k * (eprS q k)ᵀ))) + (Complex.I * (ħ / 2)) • toC (symForm (q ⊕ q))).PosSemidef := by
  rw [pairCov_uncertain]
  refine PosSemidef.submatrix ?_ _
  have h0 : (1 + Complex.I • toC (fromBlocks (symForm q) 0 0 (symForm q))).PosSemidef := by
    have h := (vac_uncertain (n := q ⊕ q)).submatrix (Equiv.sumSumSumComm q q q q)
    rw [symForm_idle] at h
    generalize Equiv.sumSumSumComm q q q q = σ at h
    convert h using 1
    ext i j
    simp [Matrix.one_apply, toC]
  have e : toC ((ħ / 2) • (eprS q k * (eprS q k)ᵀ)) + (Complex.I * (ħ / 2)) • toC (fromBlocks (symForm q) 0 0 (symForm q)) =
      (ħ / 2 : ℂ) • (toC (eprS q k) * (1 + Complex.I • toC (fromBlocks (symForm q) 0 0 (symForm q))) * (toC (eprS q k))ᴴ) := by
    have hc : (toC (eprS q k))ᴴ = toC (eprS q k)ᵀ := by ext; simp [toC]
    rw [hc, Matrix.mul_add, Matrix.add_mul, Matrix.mul_one, Matrix.mul_smul, Matrix.smul_mul, ← toC_mul, ← toC_mul, ← toC_mul, eprS_symp hk]
    ext i j
    simp [toC]
    ring
  rw [e]
  refine (h0.mul_mul_conjTranspose_same _).smul ?_
  have : (0 : ℝ) ≤ ħ / 2 := by positivity
  exact_mod_cast this

/-- If the channel takes the two-mode squeezed vacua on its input modes and a copy of these to covariance matrices that obey the uncertainty relation, its
noise suffices. -/
theorem noise_of_states {ħ : ℝ} (hħ : 0 < ħ) (X : Matrix (p ⊕ p) (q ⊕ q) ℝ) (Y : Matrix (p ⊕ p) (p ⊕ p) ℝ)
    (h : ∀ k : ℝ, 0 < k → (toC (idleX q X * pairCov ((ħ / 2) • (eprS q k * (eprS q k)ᵀ)) * (idleX q X)ᵀ + idleY q Y) +
      (Complex.I * (ħ / 2)) • toC (symForm (p ⊕ q))).PosSemidef) : (noiseMat ħ X Y).PosSemidef := by
  have hW : (toC X * (toC X)ᴴ).PosSemidef := posSemidef_self_mul_conjTranspose _
  refine psd_of_eps hW fun ε hε => ?_
  set k := Real.sqrt (ħ / ε) with hkd
  have hk : 0 < k := Real.sqrt_pos.2 (by positivity)
  have hk2 : k ^ 2 = ħ / ε := Real.sq_sqrt (by positivity)
  have h1 := h k hk
  rw [noise_split, noise_idle, pairCov_uncertain] at h1
  set U := toC ((ħ / 2) • (eprS q k * (eprS q k)ᵀ)) + (Complex.I * (ħ / 2)) • toC (fromBlocks (symForm q) 0 0 (symForm q)) with hU
  set D : Matrix ((p ⊕ p) ⊕ (q ⊕ q)) ((q ⊕ q) ⊕ (q ⊕ q)) ℂ := fromBlocks (toC X) 0 0 1 with hD
  have hiX : toC (idleX q X) = D.submatrix (Equiv.sumSumSumComm p p q q).symm (Equiv.sumSumSumComm q q q q).symm := by
    have : toC (fromBlocks X (0 : Matrix (p ⊕ p) (q ⊕ q) ℝ) 0 1) = D := by
      rw [show toC (fromBlocks X (0 : Matrix (p ⊕ p) (q ⊕ q) ℝ) 0 1) = fromBlocks (toC X) (toC 0) (toC 0) (toC 1) from fromBlocks_map .., toC_one]
      congr 1 <;> ext <;> simp [toC]
    rw [← this]
    rfl
  rw [hiX, conjTranspose_submatrix, submatrix_mul_equiv, submatrix_mul_equiv] at h1
  replace h1 : ((fromBlocks (noiseMat ħ X Y) 0 0 0 + D * U * Dᴴ).submatrix (Equiv.sumSumSumComm p p q q).symm (Equiv.sumSumSumComm p p q q).symm).PosSemidef := h1
  have h2 := h1.submatrix (Equiv.sumSumSumComm p p q q)
  rw [Matrix.submatrix_submatrix, Equiv.symm_comp_self, Matrix.submatrix_id_id] at h2
  have h3 := h2.mul_mul_conjTranspose_same (fromCols 1 (-(toC X * toC (flipP q))))
  have hED : fromCols 1 (-(toC X * toC (flipP q))) * D = toC X * toC (fromCols 1 (-flipP q)) := by
    rw [hD, fromCols_mul_fromBlocks]
    have : toC (fromCols (1 : Matrix (q ⊕ q) (q ⊕ q) ℝ) (-flipP q)) = fromCols 1 (-toC (flipP q)) := by
      ext i j
      rcases j with j | j <;> simp [toC, Matrix.one_apply]
      split_ifs <;> simp
    rw [this, mul_fromCols]
    simp
  have hEN : fromCols 1 (-(toC X * toC (flipP q))) * fromBlocks (noiseMat ħ X Y) 0 0 0 * (fromCols 1 (-(toC X * toC (flipP q))))ᴴ = noiseMat ħ X Y := by
    rw [fromCols_mul_fromBlocks, conjTranspose_fromCols_eq_fromRows_conjTranspose, fromCols_mul_fromRows]
    simp
  have hEU : toC (fromCols 1 (-flipP q)) * U * (toC (fromCols 1 (-flipP q)))ᴴ = (ε : ℂ) • (1 : Matrix (q ⊕ q) (q ⊕ q) ℂ) := by
    have hc : (toC (fromCols (1 : Matrix (q ⊕ q) (q ⊕ q) ℝ) (-flipP q)))ᴴ = toC (fromCols 1 (-flipP q))ᵀ := by ext; simp [toC]
    have hΩ : fromCols 1 (-flipP q) * fromBlocks (symForm q) 0 0 (symForm q) * (fromCols (1 : Matrix (q ⊕ q) (q ⊕ q) ℝ) (-flipP q))ᵀ = (0 : Matrix (q ⊕ q) (q ⊕ q) ℝ) := by
      rw [fromCols_mul_fromBlocks, transpose_fromCols, fromCols_mul_fromRows, transpose_one, transpose_neg, flipP_T]
      simp only [Matrix.mul_zero, add_zero, zero_add, Matrix.one_mul, Matrix.mul_one, Matrix.neg_mul, Matrix.mul_neg, neg_neg]
      rw [flipP_form, Matrix.neg_mul, Matrix.mul_assoc, flipP_sq, Matrix.mul_one, add_neg_cancel]
    rw [hc, hU, Matrix.mul_add, Matrix.add_mul, Matrix.mul_smul, Matrix.smul_mul, ← toC_mul, ← toC_mul, ← toC_mul, ← toC_mul, hΩ, Matrix.mul_smul, Matrix.smul_mul,
      eprS_sq hk, hk2]
    have hε' : (ħ / 2) * (2 / (ħ / ε)) = ε := by field_simp
    rw [smul_smul, hε']
    ext i j
    by_cases hij : i = j <;> simp [toC, hij]
  have he : noiseMat ħ X Y + (ε : ℂ) • (toC X * (toC X)ᴴ) =
      fromCols 1 (-(toC X * toC (flipP q))) * (fromBlocks (noiseMat ħ X Y) 0 0 0 + D * U * Dᴴ) * (fromCols 1 (-(toC X * toC (flipP q))))ᴴ := by
    rw [Matrix.mul_add, Matrix.add_mul, hEN]
    refine congrArg (HAdd.hAdd _) ?_
    calc _ = toC X * ((ε : ℂ) • (1 : Matrix (q ⊕ q) (q ⊕ q) ℂ)) * (toC X)ᴴ := by rw [Matrix.mul_smul, Matrix.smul_mul, Matrix.mul_one]
      _ = (toC X * toC (fromCols 1 (-flipP q))) * U * (toC X * toC (fromCols 1 (-flipP q)))ᴴ := by
        rw [← hEU, conjTranspose_mul]
        simp only [Matrix.mul_assoc]
      _ = _ := by
        rw [← hED, conjTranspose_mul]
        simp only [Matrix.mul_assoc]
  rw [he]
  exact h3

/-! ## `Channel.is_CP` -/

/-- **C74 (criterion)** `Channel.is_CP` is true of the channel built by `Channel.from_XY` at every positive tolerance exactly if
`Y + i ħ/2 (Ω - X Ω Xᵀ)` is positive. -/
theorem C74_is_CP {ħ : ℝ} (hħ : 0 < ħ) (X : Matrix (p ⊕ p) (q ⊕ q) ℝ) {Y : Matrix (p ⊕ p) (p ⊕ p) ℝ} (hξ : (xyXi ħ X Y).PosDef) :
    (∀ atol : ℝ, 0 < atol → isCP atol (xyA ħ X Y)) ↔
      (toC Y + (Complex.I * (ħ / 2)) • (toC (symForm p) - toC X * toC (symForm q) * (toC X)ᵀ)).PosSemidef := by
  obtain ⟨hs, hA⟩ := xyA_herm X hξ
  have hb : (0 : (p ⊕ q) ⊕ (p ⊕ q) → ℂ) ∘ Sum.inr = star ((0 : (p ⊕ q) ⊕ (p ⊕ q) → ℂ) ∘ Sum.inl) := by funext; simp
  rw [C74_choi hs hA hb one_pos, ← C66_is_positive_exact hs hA hb one_pos, isPositive_iff (gamma_herm hs hA) le_rfl]
  have e0 : (xyA ħ X Y).toBlocks₁₂ + ((0 : ℝ) : ℂ) • 1 = (xyA ħ X Y).toBlocks₁₂ := by simp
  rw [e0, xyGamma_iff hħ X hξ]

/-- Without tolerance the strict comparison in `is_CP` rejects every channel whose noise is on the boundary of what is allowed. -/
theorem C74_strict {ħ : ℝ} (hħ : 0 < ħ) (X : Matrix (p ⊕ p) (q ⊕ q) ℝ) {Y : Matrix (p ⊕ p) (p ⊕ p) ℝ} (hξ : (xyXi ħ X Y).PosDef) :
    isCP 0 (xyA ħ X Y) ↔ (xyA ħ X Y).toBlocks₁₂.PosDef := by
  obtain ⟨hs, hA⟩ := xyA_herm X hξ
  rw [isCP_iff (gamma_herm hs hA) le_rfl]
  simp

/-- **C74 (physical states)** A channel from `Channel.from_XY` that `is_CP` accepts takes physical Gaussian states of its input modes and any further modes
to physical states. -/
theorem C74_states {ħ : ℝ} (hħ : 0 < ħ) (X : Matrix (p ⊕ p) (q ⊕ q) ℝ) {Y : Matrix (p ⊕ p) (p ⊕ p) ℝ} (hY : Y.PosSemidef)
    (hcp : ∀ atol : ℝ, 0 < atol → isCP atol (xyA ħ X Y)) {cov : Matrix ((q ⊕ r) ⊕ (q ⊕ r)) ((q ⊕ r) ⊕ (q ⊕ r)) ℝ} (h : cov.PosDef) (μ : (q ⊕ r) ⊕ (q ⊕ r) → ℝ)
    {k : ℝ} (hk : 0 < k) (hρ : OpPos (dmFromPhaseSpace ħ cov μ k)) :
    OpPos (applyCh (withIdle (fromXY ħ X Y 0)) (dmFromPhaseSpace ħ cov μ k)) := by
  have hN : (noiseMat ħ X Y).PosSemidef := (C74_is_CP hħ X (xyXi_pos hħ X hY)).1 hcp
  have hN' : (noiseMat ħ (idleX r X) (idleY r Y)).PosSemidef := by
    rw [noise_idle]
    exact (psd_pad hN).submatrix _
  rw [C66_uncertainty hħ (cov_vac_posDef hħ h) μ hk] at hρ
  have ho := uncertain_out hN' hρ
  rw [OpPos_congr fun z w => by rw [C74_idle hħ X hY, C73_action hħ _ (idle_noise_psd hY) h],
    C66_uncertainty hħ (C66_admissible hħ ho) _ hk]
  exact ho

/-- **C74 (complete positivity)** `Channel.is_CP` is true at every positive tolerance exactly if the channel, acting on one half of any physical Gaussian
state of two copies of its input modes, gives a positive operator. -/
theorem C74_complete {ħ : ℝ} (hħ : 0 < ħ) (X : Matrix (p ⊕ p) (q ⊕ q) ℝ) {Y : Matrix (p ⊕ p) (p ⊕ p) ℝ} (hY : Y.PosSemidef) :
    (∀ atol : ℝ, 0 < atol → isCP atol (xyA ħ X Y)) ↔ ∀ cov : Matrix ((q ⊕ q) ⊕ (q ⊕ q)) ((q ⊕ q) ⊕ (q ⊕ q)) ℝ, cov.PosDef → ∀ μ,
      OpPos (dmFromPhaseSpace ħ cov μ 1) → OpPos (applyCh (withIdle (fromXY ħ X Y 0)) (dmFromPhaseSpace ħ cov μ 1)) := by
  constructor
  · intro hcp cov h μ hρ
    have := C74_states hħ X hY hcp h μ one_pos (by rw [Complex.ofReal_one]; exact hρ)
    rwa [Complex.ofReal_one] at this
  · intro hst
    rw [C74_is_CP hħ X (xyXi_pos hħ X hY)]
    refine noise_of_states hħ X Y fun k hk => ?_
    have hu := epr_uncertain (q := q) hħ hk
    have hc := uncertainty_posDef hħ hu
    have h1 := hst _ hc 0 (by
      have := (C66_uncertainty hħ (cov_vac_posDef hħ hc) 0 one_pos).2 hu
      rwa [Complex.ofReal_one] at this)
    set cov := pairCov ((ħ / 2) • (eprS q k * (eprS q k)ᵀ))
    have hout : (idleX q X * cov * (idleX q X)ᵀ + idleY q Y).PosSemidef := by
      have := hc.posSemidef.mul_mul_conjTranspose_same (idleX q X)
      rw [conjTranspose_eq_transpose_of_trivial] at this
      exact this.add (idle_noise_psd hY)
    have hout' : (idleX q X * cov * (idleX q X)ᵀ + idleY q Y + (ħ / 2) • 1).PosDef := PosDef.posSemidef_add hout (PosDef.one.smul (by positivity))
    rw [OpPos_congr fun z w => by rw [C74_idle hħ X hY, C73_action hħ _ (idle_noise_psd hY) hc], ← Complex.ofReal_one,
      C66_uncertainty hħ hout' _ one_pos] at h1
    exact h1

end Verif.Manifold
