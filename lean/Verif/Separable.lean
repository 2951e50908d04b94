import Verif.PhaseReduced
import Verif.Entropy
import Mathlib.Data.Matrix.Block
import Mathlib.Tactic.FinCases

/-!
# `State.is_separable` (C72)
-/

namespace Verif.Manifold
open Matrix Verif.Gauss MeasureTheory
open scoped ComplexOrder MatrixOrder

variable {n : Type*} [Fintype n] [DecidableEq n]

/-! ## Model -/

/-- The two quadratures of mode `i`. -/
def modeIx (i : n) : Fin 1 ⊕ Fin 1 → n ⊕ n := Sum.map (fun _ => i) fun _ => i

/-- The covariance matrix of the reduced state `rho[mode]` (lab/states/base.py:131-132): the entries that belong to the mode (`C72_mode`). -/
def reducedCov (cov : Matrix (n ⊕ n) (n ⊕ n) ℝ) (i : n) : Matrix (Fin 1 ⊕ Fin 1) (Fin 1 ⊕ Fin 1) ℝ := cov.submatrix (modeIx i) (modeIx i)

/-- lab/states/base.py:126-134, `entropy_diff`. -/
noncomputable def entropyDiff (ħ : ℝ) (cov : Matrix (n ⊕ n) (n ⊕ n) ℝ) : ℝ := -vnEntropy ħ cov + ∑ i, vnEntropy ħ (reducedCov cov i)

/-- lab/states/base.py:114-138 `State.is_separable`, for a Gaussian state with covariance matrix `cov` (`phase_space(s=0)`, C71).  The tolerance is that of
`math.allclose` (math/backend_manager.py:240).  Linear superpositions, which the code refuses, are not modelled. -/
def isSeparable (ħ : ℝ) (cov : Matrix (n ⊕ n) (n ⊕ n) ℝ) : Prop := Fintype.card n = 1 ∨ |entropyDiff ħ cov| ≤ 1e-9

/-! ## Specification -/

/-- No correlations between different modes. -/
def Uncorrelated (cov : Matrix (n ⊕ n) (n ⊕ n) ℝ) : Prop := ∀ i j, i ≠ j → ∀ a b, cov (modeIx i a) (modeIx j b) = 0

/-! ## Reduced states -/

theorem rot_reindex {m : Type*} [Fintype m] [DecidableEq m] (e : m ≃ n) (z w : m → ℂ) :
    (rotmat n)ᴴ.mulVec (Sum.elim (w ∘ e.symm) (z ∘ e.symm)) = (rotmat m)ᴴ.mulVec (Sum.elim w z) ∘ (Equiv.sumCongr e e).symm := by
  rw [rot_row, rot_row]
  funext r
  rcases r with i | i <;> rfl

/-- Relabelling the modes. -/
theorem dm_reindex {m : Type*} [Fintype m] [DecidableEq m] (e : m ≃ n) {ħ : ℝ} (hħ : 0 < ħ) {cov : Matrix (n ⊕ n) (n ⊕ n) ℝ}
    (h : (cov + (ħ / 2) • 1).PosDef) (μ : n ⊕ n → ℝ) (k : ℂ) (z w : m → ℂ) :
    dmFromPhaseSpace ħ cov μ k (z ∘ e.symm) (w ∘ e.symm) =
      dmFromPhaseSpace ħ (cov.submatrix (Equiv.sumCongr e e) (Equiv.sumCongr e e)) (μ ∘ Equiv.sumCongr e e) k z w := by
  set σ := Equiv.sumCongr e e with hσ
  have e1 : cov.submatrix σ σ + (ħ / 2) • 1 = (cov + (ħ / 2) • 1).submatrix σ σ := by
    rw [Matrix.submatrix_add, Matrix.submatrix_smul]
    simp
  have h' : (cov.submatrix σ σ + (ħ / 2) • 1).PosDef := by rw [e1]; exact h.submatrix σ.injective
  rw [dm_rot hħ h, dm_rot hħ h', rot_reindex, ← hσ]
  set ξ := (rotmat m)ᴴ.mulVec (Sum.elim w z)
  have hv : vac ħ (cov.submatrix σ σ) = (vac ħ cov).submatrix σ σ := by
    unfold vac
    rw [e1]; rfl
  have hq : (ξ ∘ σ.symm) ⬝ᵥ (ξ ∘ σ.symm) = ξ ⬝ᵥ ξ := Equiv.sum_comp σ.symm fun r => ξ r * ξ r
  rw [hq]
  refine congrArg (· * _) (congrArg (HMul.hMul k) ?_)
  unfold hus
  rw [hv, Matrix.det_submatrix_equiv_self, Matrix.inv_submatrix_equiv]
  refine congrArg (HMul.hMul _) (congrArg Complex.exp (congrArg (HMul.hMul _) ?_))
  set f := ξ ∘ σ.symm - fun r => (mean ħ μ r : ℂ)
  have hf : ξ - (fun r => (mean ħ (μ ∘ σ) r : ℂ)) = f ∘ σ := by
    funext r
    show _ = ξ (σ.symm (σ r)) - (mean ħ μ (σ r) : ℂ)
    rw [Equiv.symm_apply_apply]
    rfl
  rw [hf]
  have : (toC ((vac ħ cov)⁻¹.submatrix σ σ)).mulVec (f ∘ σ) = ((toC (vac ħ cov)⁻¹).mulVec f) ∘ σ := by
    show ((toC (vac ħ cov)⁻¹).submatrix σ σ).mulVec (f ∘ σ) = _
    rw [Matrix.submatrix_mulVec_equiv]
    congr 2
    funext r
    simp
  rw [this]
  exact (Equiv.sum_comp σ fun r => f r * (toC (vac ħ cov)⁻¹).mulVec f r).symm

/-- One mode and the others. -/
def splitMode (i : n) : Fin 1 ⊕ {j : n // j ≠ i} ≃ n where
  toFun := Sum.elim (fun _ => i) Subtype.val
  invFun j := if h : j = i then .inl 0 else .inr ⟨j, h⟩
  left_inv x := by
    rcases x with x | x
    · simp [Subsingleton.elim x 0]
    · simp [x.2]
  right_inv j := by
    by_cases h : j = i <;> simp [h]

/-- **C72 (reduced modes)** Tracing out all modes but `i` gives the single-mode state whose covariance matrix is the one `is_separable` uses. -/
theorem C72_mode {ħ : ℝ} (hħ : 0 < ħ) {cov : Matrix (n ⊕ n) (n ⊕ n) ℝ} (h : (cov + (ħ / 2) • 1).PosDef) (μ : n ⊕ n → ℝ) (k : ℂ) (i : n) (z w : Fin 1 → ℂ) :
    partialTr (fun z w => dmFromPhaseSpace ħ cov μ k (z ∘ (splitMode i).symm) (w ∘ (splitMode i).symm)) z w =
      dmFromPhaseSpace ħ (reducedCov cov i) (μ ∘ modeIx i) k z w := by
  set σ := Equiv.sumCongr (splitMode i) (splitMode i) with hσ
  have e : (fun z w => dmFromPhaseSpace ħ cov μ k (z ∘ (splitMode i).symm) (w ∘ (splitMode i).symm)) =
      dmFromPhaseSpace ħ (cov.submatrix σ σ) (μ ∘ σ) k := funext fun z => funext fun w => dm_reindex (splitMode i) hħ h μ k z w
  have e1 : cov.submatrix σ σ + (ħ / 2) • 1 = (cov + (ħ / 2) • 1).submatrix σ σ := by
    rw [Matrix.submatrix_add, Matrix.submatrix_smul]
    simp
  rw [e, C72_reduced hħ (by rw [e1]; exact h.submatrix σ.injective)]
  have e2 : σ ∘ keep = modeIx i := by
    funext r
    rcases r with r | r <;> rfl
  rw [Matrix.submatrix_submatrix, Function.comp_assoc, e2]
  rfl

/-! ## Products -/

/-- The quadratures, mode by mode. -/
def byMode (n : Type*) : n ⊕ n ≃ (Fin 1 ⊕ Fin 1) × n where
  toFun := Sum.elim (fun i => (.inl 0, i)) fun i => (.inr 0, i)
  invFun x := modeIx x.2 x.1
  left_inv x := by rcases x with i | i <;> rfl
  right_inv x := by
    rcases x with ⟨a | a, i⟩ <;> simp [modeIx, Subsingleton.elim a 0]

/-- A matrix acting on each mode separately. -/
def onModes (f : n → Matrix (Fin 1 ⊕ Fin 1) (Fin 1 ⊕ Fin 1) ℝ) : Matrix (n ⊕ n) (n ⊕ n) ℝ := (blockDiagonal f).submatrix (byMode n) (byMode n)

theorem onModes_mul (f g : n → Matrix (Fin 1 ⊕ Fin 1) (Fin 1 ⊕ Fin 1) ℝ) : onModes f * onModes g = onModes fun i => f i * g i := by
  unfold onModes
  rw [Matrix.submatrix_mul_equiv, ← Matrix.blockDiagonal_mul]

theorem onModes_T (f : n → Matrix (Fin 1 ⊕ Fin 1) (Fin 1 ⊕ Fin 1) ℝ) : (onModes f)ᵀ = onModes fun i => (f i)ᵀ := by
  unfold onModes
  rw [Matrix.transpose_submatrix, Matrix.blockDiagonal_transpose]

theorem onModes_apply (f : n → Matrix (Fin 1 ⊕ Fin 1) (Fin 1 ⊕ Fin 1) ℝ) (i j : n) (a b : Fin 1 ⊕ Fin 1) :
    onModes f (modeIx i a) (modeIx j b) = if i = j then f i a b else 0 := by
  unfold onModes
  have e : ∀ (i : n) (a : Fin 1 ⊕ Fin 1), byMode n (modeIx i a) = (a, i) := fun i a => (byMode n).apply_symm_apply (a, i)
  rw [Matrix.submatrix_apply, e, e, Matrix.blockDiagonal_apply]

theorem ext_modes {A B : Matrix (n ⊕ n) (n ⊕ n) ℝ} (h : ∀ i j a b, A (modeIx i a) (modeIx j b) = B (modeIx i a) (modeIx j b)) : A = B := by
  ext x y
  have e : ∀ x : n ⊕ n, x = modeIx (byMode n x).2 (byMode n x).1 := fun x => ((byMode n).symm_apply_apply x).symm
  rw [e x, e y]
  exact h _ _ _ _

theorem onModes_symForm : onModes (fun _ : n => symForm (Fin 1)) = symForm n := by
  refine ext_modes fun i j a b => ?_
  rw [onModes_apply]
  rcases a with a | a <;> rcases b with b | b <;> by_cases hij : i = j <;>
    simp [symForm, modeIx, hij, Matrix.one_apply, Subsingleton.elim a 0, Subsingleton.elim b 0]

theorem onModes_diag (ν : n → ℝ) : onModes (fun i : n => diagonal (Sum.elim (fun _ : Fin 1 => ν i) fun _ => ν i)) = diagonal (Sum.elim ν ν) := by
  refine ext_modes fun i j a b => ?_
  rw [onModes_apply]
  rcases a with a | a <;> rcases b with b | b <;> by_cases hij : i = j <;>
    simp [modeIx, hij, diagonal_apply, Subsingleton.elim a 0, Subsingleton.elim b 0]

theorem reduced_posDef {cov : Matrix (n ⊕ n) (n ⊕ n) ℝ} (h : cov.PosDef) (i : n) : (reducedCov cov i).PosDef :=
  h.submatrix (Sum.map_injective.2 ⟨fun _ _ _ => Subsingleton.elim _ _, fun _ _ _ => Subsingleton.elim _ _⟩)

/-- **C72 (one mode)** A single-mode state is always separable. -/
theorem C72_single (ħ : ℝ) (cov : Matrix (n ⊕ n) (n ⊕ n) ℝ) (h : Fintype.card n = 1) : isSeparable ħ cov := Or.inl h

/-- **C72 (products)** A product state has `entropy_diff = 0`: it is reported as separable. -/
theorem C72_product {ħ : ℝ} (hħ : 0 < ħ) {cov : Matrix (n ⊕ n) (n ⊕ n) ℝ} (h : cov.PosDef) (hu : Uncorrelated cov) :
    entropyDiff ħ cov = 0 ∧ isSeparable ħ cov := by
  have key : entropyDiff ħ cov = 0 := by
    choose Z ν hZ hν hc using fun i => C68_normal_form hħ (reduced_posDef h i)
    have hsymp : Symplectic (onModes Z) := by
      show onModes Z * symForm n * (onModes Z)ᵀ = symForm n
      rw [← onModes_symForm, onModes_T, onModes_mul, onModes_mul]
      congr 1
      funext i
      exact hZ i
    have hcov : cov = williamsonCov ħ (onModes Z) fun i => ν i 0 := by
      unfold williamsonCov
      rw [← onModes_diag, onModes_T, onModes_mul, onModes_mul]
      refine ext_modes fun i j a b => ?_
      rw [Matrix.smul_apply, onModes_apply]
      by_cases hij : i = j
      · subst hij
        rw [if_pos rfl]
        have := congrFun (congrFun (hc i) a) b
        unfold reducedCov williamsonCov at this
        rw [Matrix.submatrix_apply, Matrix.smul_apply] at this
        rw [this]
        have hv : ν i = fun _ => ν i 0 := funext fun x => by rw [Subsingleton.elim x 0]
        conv_lhs => rw [hv]
      · rw [if_neg hij, hu i j hij, smul_zero]
    have h1 : vnEntropy ħ cov = ∑ i, entropyG (ν i 0) := by
      conv_lhs => rw [hcov]
      exact normal_entropy hħ hsymp fun i => (hν i 0).le
    have h2 : ∀ i, vnEntropy ħ (reducedCov cov i) = entropyG (ν i 0) := fun i => by
      rw [hc i, normal_entropy hħ (hZ i) fun j => (hν i j).le]
      simp
    unfold entropyDiff
    rw [h1]
    simp only [h2]
    ring
  exact ⟨key, Or.inr (by rw [key, abs_zero]; norm_num)⟩

/-! ## Pure states -/

theorem symForm_mode (i j : n) (a b : Fin 1 ⊕ Fin 1) : symForm n (modeIx i a) (modeIx j b) = if i = j then symForm (Fin 1) a b else 0 := by
  rw [← onModes_symForm, onModes_apply]

/-- Reduced states of physical states are physical. -/
theorem reduced_uncertainty {ħ : ℝ} {cov : Matrix (n ⊕ n) (n ⊕ n) ℝ} (hu : (toC cov + (Complex.I * (ħ / 2)) • toC (symForm n)).PosSemidef) (i : n) :
    (toC (reducedCov cov i) + (Complex.I * (ħ / 2)) • toC (symForm (Fin 1))).PosSemidef := by
  have := hu.submatrix (modeIx i)
  have e : (toC cov + (Complex.I * (ħ / 2)) • toC (symForm n)).submatrix (modeIx i) (modeIx i) =
      toC (reducedCov cov i) + (Complex.I * (ħ / 2)) • toC (symForm (Fin 1)) := by
    ext a b
    simp only [Matrix.submatrix_apply, Matrix.add_apply, Matrix.smul_apply, toC, Matrix.map_apply, symForm_mode, if_true, reducedCov]
  rwa [e] at this

theorem sum_modes {R : Type*} [AddCommMonoid R] (f : n ⊕ n → R) : ∑ r, f r = ∑ i, ∑ a, f (modeIx i a) := by
  rw [← Equiv.sum_comp (byMode n).symm f, Fintype.sum_prod_type_right]
  rfl

/-- A pure mode of a physical state is uncorrelated with the other modes. -/
theorem pure_mode {ħ : ℝ} (hħ : 0 < ħ) {cov : Matrix (n ⊕ n) (n ⊕ n) ℝ} (hu : (toC cov + (Complex.I * (ħ / 2)) • toC (symForm n)).PosSemidef) (i : n)
    {S : Matrix (Fin 1 ⊕ Fin 1) (Fin 1 ⊕ Fin 1) ℝ} (hS : Symplectic S) (hc : reducedCov cov i = (ħ / 2) • (S * Sᵀ)) (j : n) (hij : j ≠ i)
    (a b : Fin 1 ⊕ Fin 1) : cov (modeIx j b) (modeIx i a) = 0 := by
  have hd : IsUnit S.det := isUnit_iff_ne_zero.2 fun e => by
    have := symp_det hS
    rw [e, zero_mul] at this
    exact zero_ne_one this
  have hTS : S⁻¹ * S = 1 := nonsing_inv_mul _ hd
  have hST : S * S⁻¹ = 1 := mul_nonsing_inv _ hd
  set w : Fin 1 ⊕ Fin 1 → ℂ := Sum.elim (fun _ => 1) fun _ => Complex.I with hw
  set v := (toC S⁻¹ᵀ).mulVec w with hv
  have hSv : (toC Sᵀ).mulVec v = w := by
    rw [hv, Matrix.mulVec_mulVec, ← toC_mul, ← Matrix.transpose_mul, hTS, transpose_one, toC_one, Matrix.one_mulVec]
  have hker : (toC (reducedCov cov i) + (Complex.I * (ħ / 2)) • toC (symForm (Fin 1))).mulVec v = 0 := by
    have e : toC (reducedCov cov i) + (Complex.I * (ħ / 2)) • toC (symForm (Fin 1)) =
        ((ħ : ℂ) / 2) • (toC S * (1 + Complex.I • toC (symForm (Fin 1))) * toC Sᵀ) := by
      have hs : symForm (Fin 1) = S * symForm (Fin 1) * Sᵀ := hS.symm
      conv_lhs => rw [hs]
      rw [hc, toC_smul, toC_mul, toC_mul, toC_mul, Matrix.mul_add, Matrix.add_mul, Matrix.mul_one, Matrix.mul_smul, Matrix.smul_mul, smul_add, smul_smul,
        mul_comm Complex.I]
      push_cast
      rfl
    have hw0 : (1 + Complex.I • toC (symForm (Fin 1))).mulVec w = 0 := by
      funext r
      rcases r with r | r <;> obtain rfl : r = 0 := Subsingleton.elim _ _ <;> simp [hw, toC, symForm, Matrix.mulVec, dotProduct, Matrix.one_apply]
    rw [e, Matrix.smul_mulVec, ← Matrix.mulVec_mulVec, hSv, ← Matrix.mulVec_mulVec, hw0, Matrix.mulVec_zero, smul_zero]
  set M := toC cov + (Complex.I * (ħ / 2)) • toC (symForm n) with hM
  set x : n ⊕ n → ℂ := fun r => if (byMode n r).2 = i then v (byMode n r).1 else 0 with hx
  have hx' : ∀ k c, x (modeIx k c) = if k = i then v c else 0 := fun k c => by
    have e : byMode n (modeIx k c) = (c, k) := (byMode n).apply_symm_apply (c, k)
    rw [hx]
    simp only [e]
  have hMx : ∀ r, M.mulVec x r = ∑ c, M r (modeIx i c) * v c := fun r => by
    show ∑ t, M r t * x t = _
    rw [sum_modes, Finset.sum_eq_single i]
    · simp only [hx', if_true]
    · intro k _ hk
      simp only [hx', if_neg hk, mul_zero, Finset.sum_const_zero]
    · exact fun h => absurd (Finset.mem_univ _) h
  have hMm : ∀ k b c, M (modeIx k b) (modeIx i c) = (cov (modeIx k b) (modeIx i c) : ℂ) +
      Complex.I * (ħ / 2) * (if k = i then (symForm (Fin 1) b c : ℂ) else 0) := fun k b c => by
    simp only [hM, Matrix.add_apply, Matrix.smul_apply, toC, Matrix.map_apply, symForm_mode, smul_eq_mul]
    split_ifs <;> simp
  have hquad : star x ⬝ᵥ M.mulVec x = 0 := by
    show ∑ t, star x t * M.mulVec x t = 0
    rw [sum_modes]
    refine Finset.sum_eq_zero fun k _ => Finset.sum_eq_zero fun c _ => ?_
    by_cases hk : k = i
    · subst hk
      have : M.mulVec x (modeIx k c) = 0 := by
        rw [hMx]
        have := congrFun hker c
        simp only [Matrix.mulVec, dotProduct, Matrix.add_apply, Matrix.smul_apply, toC, Matrix.map_apply, smul_eq_mul, Pi.zero_apply] at this
        simp only [hMm, if_true]
        exact this
      rw [this, mul_zero]
    · rw [Pi.star_apply, hx', if_neg hk, star_zero, zero_mul]
  have hz := (hu.dotProduct_mulVec_zero_iff x).1 hquad
  have h0 := congrFun hz (modeIx j b)
  rw [hMx] at h0
  simp only [hMm, if_neg hij, mul_zero, add_zero, Pi.zero_apply] at h0
  set ρ : Fin 1 ⊕ Fin 1 → ℝ := fun c => cov (modeIx j b) (modeIx i c) with hρ
  have h1 : (((S⁻¹.mulVec ρ (.inl 0) : ℝ) : ℂ)) + ((S⁻¹.mulVec ρ (.inr 0) : ℝ) : ℂ) * Complex.I = 0 := by
    rw [← h0]
    have e : ∑ c, (cov (modeIx j b) (modeIx i c) : ℂ) * v c = (fun c => (ρ c : ℂ)) ⬝ᵥ (toC S⁻¹ᵀ).mulVec w := rfl
    have hT : toC S⁻¹ᵀ = (toC S⁻¹)ᵀ := rfl
    rw [e, Matrix.dotProduct_mulVec, hT, ← Matrix.mulVec_transpose, transpose_transpose, toC_mulVec]
    simp [dotProduct, hw]
  have hre := congrArg Complex.re h1
  have him := congrArg Complex.im h1
  simp at hre him
  have h2 : S⁻¹.mulVec ρ = 0 := by
    funext r
    rcases r with r | r
    · rw [Subsingleton.elim r 0]; exact hre
    · rw [Subsingleton.elim r 0]; exact him
  have h3 : ρ = 0 := by
    have := congrArg S.mulVec h2
    rwa [Matrix.mulVec_mulVec, hST, Matrix.one_mulVec, Matrix.mulVec_zero] at this
  exact congrFun h3 a

/-- **C72 (pure states)** For a pure state, `entropy_diff` is the sum of the entropies of the modes, it is `≥ 0`, and it vanishes exactly for the product
states. -/
theorem C72_pure {ħ : ℝ} (hħ : 0 < ħ) {S : Matrix (n ⊕ n) (n ⊕ n) ℝ} (hS : Symplectic S) :
    0 ≤ entropyDiff ħ ((ħ / 2) • (S * Sᵀ)) ∧ (entropyDiff ħ ((ħ / 2) • (S * Sᵀ)) = 0 ↔ Uncorrelated ((ħ / 2) • (S * Sᵀ))) := by
  have hu := C66_pure_uncertainty hS hħ
  have h0 : vnEntropy ħ ((ħ / 2) • (S * Sᵀ)) = 0 := (C68_entropy_pure hħ hu).2.2 ⟨S, hS, rfl⟩
  have hn : ∀ i, 0 ≤ vnEntropy ħ (reducedCov ((ħ / 2) • (S * Sᵀ)) i) := fun i => (C68_entropy_pure hħ (reduced_uncertainty hu i)).1
  have e : entropyDiff ħ ((ħ / 2) • (S * Sᵀ)) = ∑ i, vnEntropy ħ (reducedCov ((ħ / 2) • (S * Sᵀ)) i) := by unfold entropyDiff; rw [h0]; simp
  refine ⟨by rw [e]; exact Finset.sum_nonneg fun i _ => hn i, fun h => ?_, fun h => (C72_product hħ (pure_cov_posDef hS hħ) h).1⟩
  rw [e, Finset.sum_eq_zero_iff_of_nonneg fun i _ => hn i] at h
  intro i j hij a b
  obtain ⟨T, hT, hc⟩ := (C68_entropy_pure hħ (reduced_uncertainty hu j)).2.1 (h j (Finset.mem_univ _))
  exact pure_mode hħ hu j hT hc i hij b a

/-! ## A classically correlated state -/

/-- The covariance matrix `(ħ/2) [[3, 1], [1, 3]] ⊗ 1` of two correlated modes. -/
noncomputable def corrCov (ħ : ℝ) : Matrix (Fin 2 ⊕ Fin 2) (Fin 2 ⊕ Fin 2) ℝ := (ħ / 2) • fromBlocks !![3, 1; 1, 3] 0 0 !![3, 1; 1, 3]

/-- The symplectic matrix of a balanced beam splitter with real coefficients. -/
noncomputable def halfBS : Matrix (Fin 2 ⊕ Fin 2) (Fin 2 ⊕ Fin 2) ℝ :=
  fromBlocks ((Real.sqrt 2)⁻¹ • !![1, 1; 1, -1]) 0 0 ((Real.sqrt 2)⁻¹ • !![1, 1; 1, -1])

theorem halfBS_facts : Symplectic halfBS ∧ ∀ ħ, corrCov ħ = williamsonCov ħ halfBS ![4, 2] := by
  have h2 : (Real.sqrt 2)⁻¹ * (Real.sqrt 2)⁻¹ = 1 / 2 := by rw [← mul_inv, Real.mul_self_sqrt (by norm_num)]; norm_num
  have hT : (!![1, 1; 1, -1] : Matrix (Fin 2) (Fin 2) ℝ)ᵀ = !![1, 1; 1, -1] := by ext i j; fin_cases i <;> fin_cases j <;> rfl
  constructor
  · unfold Symplectic halfBS
    rw [fromBlocks_transpose, fromBlocks_multiply, fromBlocks_multiply]
    simp only [Matrix.transpose_smul, hT, Matrix.mul_zero, Matrix.zero_mul, Matrix.mul_one, Matrix.mul_neg, Matrix.neg_mul, add_zero, zero_add, transpose_zero,
      Matrix.smul_mul, Matrix.mul_smul, smul_smul, h2, neg_zero, smul_neg, smul_zero]
    have : (1 / 2 : ℝ) • (!![1, 1; 1, -1] * !![1, 1; 1, -1] : Matrix (Fin 2) (Fin 2) ℝ) = 1 := by
      ext i j; fin_cases i <;> fin_cases j <;> norm_num [Matrix.mul_apply, Fin.sum_univ_two]
    rw [this]
  · intro ħ
    unfold corrCov williamsonCov halfBS
    congr 1
    have hD : diagonal (Sum.elim ![4, 2] ![4, 2]) = fromBlocks (!![4, 0; 0, 2] : Matrix (Fin 2) (Fin 2) ℝ) 0 0 !![4, 0; 0, 2] := by
      ext a b
      rcases a with a | a <;> rcases b with b | b <;> fin_cases a <;> fin_cases b <;> simp
    rw [hD, fromBlocks_transpose, fromBlocks_multiply, fromBlocks_multiply]
    simp only [Matrix.transpose_smul, hT, Matrix.mul_zero, Matrix.zero_mul, add_zero, zero_add, transpose_zero,
      Matrix.smul_mul, Matrix.mul_smul, smul_smul, h2, smul_zero]
    have : (1 / 2 : ℝ) • (!![1, 1; 1, -1] * !![4, 0; 0, 2] * !![1, 1; 1, -1] : Matrix (Fin 2) (Fin 2) ℝ) = !![3, 1; 1, 3] := by
      ext i j; fin_cases i <;> fin_cases j <;> norm_num [Matrix.mul_apply, Fin.sum_univ_two]
    rw [this]

theorem corrCov_split (ħ : ℝ) (hħ : 0 < ħ) : ∃ P : Matrix (Fin 2 ⊕ Fin 2) (Fin 2 ⊕ Fin 2) ℝ, P.PosDef ∧ corrCov ħ = (ħ / 2) • 1 + P := by
  set M : Matrix (Fin 2 ⊕ Fin 2) (Fin 2 ⊕ Fin 2) ℝ := fromBlocks !![1, 0; 1, 0] 0 0 !![1, 0; 1, 0] with hM
  refine ⟨(ħ / 2) • (1 + M * Mᴴ), (Matrix.PosDef.one.add_posSemidef (posSemidef_self_mul_conjTranspose M)).smul (by positivity), ?_⟩
  rw [← smul_add]
  unfold corrCov
  congr 1
  have e : ∀ X : Matrix (Fin 2) (Fin 2) ℝ, (1 : Matrix (Fin 2 ⊕ Fin 2) (Fin 2 ⊕ Fin 2) ℝ) + (1 + fromBlocks X 0 0 X) =
      fromBlocks (1 + (1 + X)) 0 0 (1 + (1 + X)) := fun X => by
    rw [← fromBlocks_one, fromBlocks_add, fromBlocks_add]; simp
  have hX : (!![1, 0; 1, 0] * !![1, 0; 1, 0]ᴴ : Matrix (Fin 2) (Fin 2) ℝ) = !![1, 1; 1, 1] := by
    ext i j; fin_cases i <;> fin_cases j <;> simp [Matrix.vecMul, dotProduct]
  rw [hM, fromBlocks_conjTranspose, fromBlocks_multiply, hX]
  simp only [conjTranspose_zero, Matrix.mul_zero, Matrix.zero_mul, add_zero, zero_add]
  rw [e]
  have : (1 + (1 + !![1, 1; 1, 1]) : Matrix (Fin 2) (Fin 2) ℝ) = !![3, 1; 1, 3] := by
    ext i j; fin_cases i <;> fin_cases j <;> norm_num
  rw [this]

/-- **C72 (disagreement)** The state with covariance matrix `corrCov` is a Gaussian mixture of products of coherent states, hence separable, but
`is_separable` is false for it: the test detects correlations of any kind, not entanglement. -/
theorem C72_classical {ħ : ℝ} (hħ : 0 < ħ) : ¬ isSeparable ħ (corrCov ħ) ∧
    ∃ P : Matrix (Fin 2 ⊕ Fin 2) (Fin 2 ⊕ Fin 2) ℝ, P.PosDef ∧ ∀ z w, dmFromPhaseSpace ħ (corrCov ħ) 0 1 z w =
      ((Real.sqrt ((2 * Real.pi) ^ Fintype.card (Fin 2 ⊕ Fin 2) * P.det))⁻¹ : ℝ) *
        ∫ x : Fin 2 ⊕ Fin 2 → ℝ, ((bell P 0 x : ℝ) : ℂ) * dmFromPhaseSpace ħ ((ħ / 2) • 1) x 1 z w := by
  constructor
  · obtain ⟨hS, hc⟩ := halfBS_facts
    have h1 : vnEntropy ħ (corrCov ħ) = entropyG 4 + entropyG 2 := by
      rw [hc, normal_entropy hħ hS (fun j => by fin_cases j <;> simp)]
      simp
    have h2 : ∀ i, vnEntropy ħ (reducedCov (corrCov ħ) i) = entropyG 3 := fun i => by
      have : reducedCov (corrCov ħ) i = williamsonCov ħ 1 fun _ => 3 := by
        unfold reducedCov corrCov williamsonCov
        ext a b
        rcases a with a | a <;> rcases b with b | b <;> fin_cases i <;> obtain rfl : a = 0 := Subsingleton.elim _ _ <;>
          obtain rfl : b = 0 := Subsingleton.elim _ _ <;> simp [modeIx]
      rw [this, normal_entropy hħ symplectic_one (fun _ => by norm_num)]
      simp
    have h3 : entropyDiff ħ (corrCov ħ) = 2 * entropyG 3 - entropyG 4 - entropyG 2 := by
      unfold entropyDiff
      rw [h1]
      simp only [h2, Fin.sum_univ_two]
      ring
    have g3 := (entropyG_near (x := 3) (by norm_num)).1
    have g4 := (entropyG_near (x := 4) (by norm_num)).2
    have g2 := (entropyG_near (x := 2) (by norm_num)).2
    have hg : 2 * trueG 3 - trueG 4 - trueG 2 = 1 / 2 * Real.log (4096 / 3125) := by
      unfold trueG
      have e1 : Real.log (4096 / 3125) = 12 * Real.log 2 - 5 * Real.log 5 := by
        rw [Real.log_div (by norm_num) (by norm_num), show (4096 : ℝ) = 2 ^ 12 by norm_num, show (3125 : ℝ) = 5 ^ 5 by norm_num, Real.log_pow, Real.log_pow]
        push_cast; ring
      have e2 : Real.log ((4 + 1) / 2) = Real.log 5 - Real.log 2 := by rw [show ((4 : ℝ) + 1) / 2 = 5 / 2 by norm_num, Real.log_div (by norm_num) (by norm_num)]
      have e3 : Real.log ((4 - 1) / 2) = Real.log 3 - Real.log 2 := by rw [show ((4 : ℝ) - 1) / 2 = 3 / 2 by norm_num, Real.log_div (by norm_num) (by norm_num)]
      have e4 : Real.log ((2 + 1) / 2) = Real.log 3 - Real.log 2 := by rw [show ((2 : ℝ) + 1) / 2 = 3 / 2 by norm_num, Real.log_div (by norm_num) (by norm_num)]
      have e5 : Real.log ((2 - 1) / 2) = - Real.log 2 := by rw [show ((2 : ℝ) - 1) / 2 = 2⁻¹ by norm_num, Real.log_inv]
      have e6 : Real.log ((3 + 1) / 2) = Real.log 2 := by norm_num
      have e7 : Real.log ((3 - 1) / 2) = 0 := by norm_num
      rw [e1, e2, e3, e4, e5, e6, e7]
      ring
    have hl : (0.2 : ℝ) < Real.log (4096 / 3125) := by
      have := Real.one_sub_inv_le_log_of_pos (show (0 : ℝ) < 4096 / 3125 by norm_num)
      norm_num at this ⊢
      linarith
    rintro (h | h)
    · simp at h
    · rw [h3] at h
      have := (abs_le.1 h).2
      norm_num at this g3
      linarith
  · obtain ⟨P, hP, e⟩ := corrCov_split ħ hħ
    exact ⟨P, hP, fun z w => by rw [e, C72_mixture hħ hP]⟩

/-- Independent thermal and squeezed modes meet the hypotheses of `C72_product`. -/
example : ∃ cov : Matrix (Fin 2 ⊕ Fin 2) (Fin 2 ⊕ Fin 2) ℝ, cov.PosDef ∧ Uncorrelated cov ∧ cov ≠ 1 := by
  refine ⟨diagonal (Sum.elim ![3, 2] ![3, 1]), ?_, ?_, ?_⟩
  · rw [Matrix.posDef_diagonal_iff]
    rintro (i | i) <;> fin_cases i <;> simp
  · intro i j hij a b
    refine diagonal_apply_ne _ ?_
    rcases a with a | a <;> rcases b with b | b <;> simp [modeIx, hij]
  · intro h
    have := congrFun (congrFun h (.inl 0)) (.inl 0)
    norm_num at this

/-- Two-mode squeezing gives a pure state with correlated modes, so that `entropy_diff` is positive by `C72_pure`. -/
example (r : ℝ) (hr : 0 < r) : 0 < entropyDiff 1 ((1 / 2 : ℝ) • (tmsS r 0 * (tmsS r 0)ᵀ)) := by
  have hS : Symplectic (tmsS r 0) := (C64_twoModeSqueezing [] (fun _ => r) (fun _ => 0) []).1
  obtain ⟨h1, h2⟩ := C72_pure one_pos hS
  refine lt_of_le_of_ne h1 fun h => ?_
  have := h2.1 h.symm 0 1 (by decide) (.inl 0) (.inl 0)
  have h0 := Real.sinh_pos_iff.2 hr
  have hc := Real.cosh_pos r
  rw [Matrix.smul_apply, Matrix.mul_apply, Fintype.sum_sum_type] at this
  simp [modeIx, tmsS, Fin.sum_univ_two] at this
  nlinarith

end Verif.Manifold
