import Verif.StellarPhys
import Mathlib.Tactic.FinCases
import Mathlib.LinearAlgebra.Matrix.Notation

/-!
# The physical stellar decomposition: when the operator is unitary, and examples (C78)
-/

namespace Verif.Manifold
open Matrix Verif.Gauss MeasureTheory
open scoped ComplexOrder MatrixOrder

variable {m k : Type*} [Fintype m] [DecidableEq m] [Fintype k] [DecidableEq k]

theorem diag_sqrt {B : Matrix m m ℂ} {lam : m → ℝ} (h : B * diagonal (fun i => (lam i : ℂ)) = diagonal (fun i => (lam i : ℂ)) * B) :
    B * diagonal (fun i => ((Real.sqrt (lam i) : ℝ) : ℂ)) = diagonal (fun i => ((Real.sqrt (lam i) : ℝ) : ℂ)) * B := by
  ext i j
  have := congrFun (congrFun h i) j
  rw [Matrix.mul_diagonal, Matrix.diagonal_mul] at this ⊢
  by_cases h : B i j = 0
  · simp [h]
  · have : lam i = lam j := by
      have : ((lam j : ℂ) - lam i) * B i j = 0 := by linear_combination this
      rcases mul_eq_zero.1 this with h' | h'
      · exact_mod_cast (sub_eq_zero.1 h').symm
      · exact absurd h' h
    rw [this]; ring

/-- When `a` commutes with its conjugate, `gamma` is symmetric. -/
theorem gamma_real {a V : Matrix m m ℂ} {lam : m → ℝ} (hn : a * cj a = cj a * a) (hE : IsEigh (gammaSq a) V lam) : (gammaOf V lam)ᵀ = gammaOf V lam := by
  obtain ⟨h1, h2⟩ := hE
  have h1' : V * Vᴴ = 1 := mul_eq_one_comm.1 h1
  have hVt : Vᵀ * cj V = 1 := by
    have := congrArg cj h1
    rw [cj_mul, cj_one, cj_conjT] at this
    exact this
  have hVt' : cj V * Vᵀ = 1 := mul_eq_one_comm.1 hVt
  have hD : ∀ f : m → ℝ, cj (diagonal fun i => (f i : ℂ)) = diagonal fun i => (f i : ℂ) := fun f => by
    ext i j
    simp only [cj, Matrix.map_apply, diagonal_apply]
    split_ifs <;> simp
  have hr : cj (gammaSq a) = gammaSq a := by
    unfold gammaSq
    rw [sub_eq_add_neg, cj_add, cj_one, cj_neg, cj_mul, cj_cj, hn]
  have hB : Vᵀ * V * diagonal (fun i => (lam i : ℂ)) = diagonal (fun i => (lam i : ℂ)) * (Vᵀ * V) := by
    have h3 : V * diagonal (fun i => (lam i : ℂ)) * Vᴴ = cj V * diagonal (fun i => (lam i : ℂ)) * Vᵀ := by
      have := congrArg cj h2
      rw [hr, cj_mul, cj_mul, hD, cj_conjT] at this
      rw [← this, h2]
    calc Vᵀ * V * diagonal (fun i => (lam i : ℂ)) = Vᵀ * (V * diagonal (fun i => (lam i : ℂ)) * Vᴴ) * V := by
          simp only [Matrix.mul_assoc]; rw [h1, Matrix.mul_one]
      _ = (Vᵀ * cj V) * diagonal (fun i => (lam i : ℂ)) * (Vᵀ * V) := by rw [h3]; simp only [Matrix.mul_assoc]
      _ = _ := by rw [hVt, Matrix.one_mul]
  have hB' := diag_sqrt hB
  obtain ⟨D, hDd⟩ : ∃ D, D = diagonal (fun i => ((Real.sqrt (lam i) : ℝ) : ℂ)) := ⟨_, rfl⟩
  rw [← hDd] at hB'
  have hDt : Dᵀ = D := by rw [hDd, diagonal_transpose]
  unfold gammaOf
  rw [← hDd, transpose_mul, transpose_mul, hDt, conjT_transpose]
  calc cj V * (D * Vᵀ) = cj V * (D * (Vᵀ * V)) * Vᴴ := by
        simp only [Matrix.mul_assoc]; rw [h1', Matrix.mul_one]
    _ = (cj V * Vᵀ) * V * D * Vᴴ := by rw [← hB']; simp only [Matrix.mul_assoc]
    _ = _ := by rw [hVt', Matrix.one_mul]

/-- **C78 (unitarity, sufficient)** The operator is unitary when the ket has no linear term on the core modes or when the core block commutes with its conjugate:
in particular for every choice of one core mode and for every real core block. -/
theorem C78_unitary_of {A : Matrix (m ⊕ k) (m ⊕ k) ℂ} (hA : Aᵀ = A) (sA : Shrinks A) (b : m ⊕ k → ℂ) (c : ℂ) {V : Matrix m m ℂ} {lam : m → ℝ}
    (hE : IsEigh (1 - A.toBlocks₁₁ * cj A.toBlocks₁₁) V lam) {core : (m ⊕ k → ℂ) → ℂ} {U : (m → ℂ) → (m → ℂ) → ℂ} (hr : physStellar V lam A b c = some (core, U))
    (h : b ∘ Sum.inl = 0 ∨ A.toBlocks₁₁ * cj A.toBlocks₁₁ = cj A.toBlocks₁₁ * A.toBlocks₁₁) : IsUnitaryOp U := by
  rw [C78_unitary hA sA b c hE hr]
  obtain ⟨-, hs, -⟩ := symm_blocks hA
  have hg := gamma_of hs hE (eigs_pos hs (shrinks_block sA) hE)
  rcases h with h | h
  · rw [h]; simp
  · have ht := gamma_real h hE
    have hi : (gammaOf V lam)⁻¹ᵀ = (gammaOf V lam)⁻¹ := by rw [transpose_nonsing_inv, ht]
    have e := gamma_inter_inv hg
    rw [hi] at e ⊢
    rw [e, Matrix.mulVec_add, Matrix.mulVec_mulVec, add_comm]

/-- **C78 (one core mode)** -/
theorem C78_one_mode [Unique m] {A : Matrix (m ⊕ k) (m ⊕ k) ℂ} (hA : Aᵀ = A) (sA : Shrinks A) (b : m ⊕ k → ℂ) (c : ℂ) {V : Matrix m m ℂ} {lam : m → ℝ}
    (hE : IsEigh (1 - A.toBlocks₁₁ * cj A.toBlocks₁₁) V lam) (hd : A.toBlocks₁₁.det ≠ 0) :
    ∃ core U, physStellar V lam A b c = some (core, U) ∧ IsCore core ∧ IsUnitaryOp U ∧ ∀ z, applyOn U core z = bargFun A b c z := by
  obtain ⟨core, U, h1, h2, h3⟩ := C78_physical hA sA b c hE hd
  refine ⟨core, U, h1, h2, C78_unitary_of hA sA b c hE h1 (.inr ?_), h3⟩
  ext i j
  simp only [Matrix.mul_apply, Finset.univ_unique, Finset.sum_singleton]
  rw [Subsingleton.elim i default, Subsingleton.elim j default, mul_comm]

/-! ## Two core modes: the operator need not be unitary -/

/-- The core block of the counterexample. -/
noncomputable def exA : Matrix (Fin 2) (Fin 2) ℂ := !![-1 / 10, 7 / 10 * Complex.I; 7 / 10 * Complex.I, 1 / 10]
/-- The eigenvectors. -/
noncomputable def exV : Matrix (Fin 2) (Fin 2) ℂ := ((Real.sqrt (1 / 2) : ℝ) : ℂ) • !![1, 1; Complex.I, -Complex.I]
/-- The eigenvalues. -/
noncomputable def exLam : Fin 2 → ℝ := ![(8 / 10) ^ 2, (6 / 10) ^ 2]

theorem exVH : exVᴴ = ((Real.sqrt (1 / 2) : ℝ) : ℂ) • !![1, -Complex.I; 1, Complex.I] := by
  unfold exV
  rw [conjTranspose_smul]
  refine congrArg₂ (· • ·) (by simp) ?_
  ext i j
  fin_cases i <;> fin_cases j <;> simp

theorem exV_conj (D : Matrix (Fin 2) (Fin 2) ℂ) : exV * D * exVᴴ = (1 / 2 : ℂ) • (!![1, 1; Complex.I, -Complex.I] * D * !![1, -Complex.I; 1, Complex.I]) := by
  rw [exVH, exV, Matrix.smul_mul, Matrix.smul_mul, Matrix.mul_smul, smul_smul, half_sq]

theorem diag_two (f : Fin 2 → ℂ) : diagonal f = !![f 0, 0; 0, f 1] := by
  ext i j
  fin_cases i <;> fin_cases j <;> simp

theorem cj_exA : cj exA = !![-1 / 10, -7 / 10 * Complex.I; -7 / 10 * Complex.I, 1 / 10] := by
  ext i j
  fin_cases i <;> fin_cases j <;> simp [cj, exA, Complex.ext_iff, Complex.div_re, Complex.div_im] <;> norm_num

theorem exEigh : IsEigh (1 - exA * cj exA) exV exLam := by
  refine ⟨?_, ?_⟩
  · rw [exVH, exV, Matrix.smul_mul, Matrix.mul_smul, smul_smul, half_sq]
    ext i j
    fin_cases i <;> fin_cases j <;> simp [Matrix.mul_apply, Fin.sum_univ_two] <;> norm_num
  · rw [exV_conj, diag_two, Matrix.mul_fin_two, Matrix.mul_fin_two, cj_exA, exA, Matrix.mul_fin_two, Matrix.one_fin_two]
    simp only [exLam, Matrix.cons_val_zero, Matrix.cons_val_one, Matrix.cons_val_fin_one]
    ext i j
    fin_cases i <;> fin_cases j <;> simp [Complex.ext_iff] <;> norm_num

theorem exGamma : gammaOf exV exLam = !![7 / 10, -Complex.I / 10; Complex.I / 10, 7 / 10] := by
  unfold gammaOf
  have e : (fun i => ((Real.sqrt (exLam i) : ℝ) : ℂ)) = ![8 / 10, 6 / 10] := by
    funext i
    fin_cases i
    · simp only [exLam, Fin.zero_eta, Matrix.cons_val_zero]
      rw [Real.sqrt_sq (by norm_num)]; norm_num
    · simp only [exLam, Fin.mk_one, Matrix.cons_val_one, Matrix.cons_val_zero, Matrix.cons_val_fin_one]
      rw [Real.sqrt_sq (by norm_num)]; norm_num
  rw [e, exV_conj, diag_two, Matrix.mul_fin_two, Matrix.mul_fin_two]
  ext i j
  fin_cases i <;> fin_cases j <;> simp [Complex.ext_iff] <;> norm_num

theorem exGammaInv : (gammaOf exV exLam)⁻¹ = (1 / 48 : ℂ) • !![70, 10 * Complex.I; -10 * Complex.I, 70] := by
  rw [exGamma]
  refine inv_eq_right_inv ?_
  rw [Matrix.mul_smul, Matrix.mul_fin_two, Matrix.one_fin_two]
  ext i j
  fin_cases i <;> fin_cases j <;> simp [Complex.ext_iff] <;> norm_num

/-- The ket of the counterexample: two core modes and one other mode, in a product state. -/
noncomputable def exKet : Matrix (Fin 2 ⊕ Fin 1) (Fin 2 ⊕ Fin 1) ℂ := fromBlocks exA 0 0 0
/-- Its linear term. -/
noncomputable def exB : Fin 2 ⊕ Fin 1 → ℂ := Sum.elim ![1, 0] 0

theorem exA_symm : exAᵀ = exA := by
  ext i j
  fin_cases i <;> fin_cases j <;> simp [exA]

theorem exKet_symm : exKetᵀ = exKet := by
  unfold exKet
  rw [fromBlocks_transpose, exA_symm, transpose_zero, transpose_zero, transpose_zero]

theorem exA_shrinks : Shrinks exA := by
  have hg := gamma_of exA_symm exEigh (by
    intro i
    fin_cases i <;> simp [exLam])
  have h := gamma_shrinks exA_symm hg
  intro w hw
  have := h (star w) (by simpa using hw)
  have e : ∀ i, ‖(-cj exA).mulVec (star w) i‖ = ‖exA.mulVec w i‖ := fun i => by
    rw [Matrix.neg_mulVec, Pi.neg_apply, norm_neg, ← star_mulVec', Pi.star_apply, norm_star]
  simp only [e, Pi.star_apply, norm_star] at this
  exact this

theorem exKet_shrinks : Shrinks exKet := by
  intro w hw
  rw [Fintype.sum_sum_type, Fintype.sum_sum_type]
  unfold exKet
  rw [← Sum.elim_comp_inl_inr w, fromBlocks_mulVec]
  simp only [Sum.elim_inl, Sum.elim_inr, Sum.elim_comp_inl, Sum.elim_comp_inr, Matrix.zero_mulVec, add_zero, Pi.zero_apply, norm_zero, ne_eq, OfNat.ofNat_ne_zero,
    not_false_eq_true, zero_pow, Finset.sum_const_zero]
  by_cases h : w ∘ Sum.inl = 0
  · rw [h]
    have h2 : w ∘ Sum.inr ≠ 0 := fun e => hw (by rw [← Sum.elim_comp_inl_inr w, h, e]; exact Sum.elim_zero_zero)
    obtain ⟨i, hi⟩ := Function.ne_iff.1 h2
    simp only [Matrix.mulVec_zero, Pi.zero_apply, norm_zero, ne_eq, OfNat.ofNat_ne_zero, not_false_eq_true, zero_pow, Finset.sum_const_zero, zero_add]
    refine Finset.sum_pos' (fun i _ => by positivity) ⟨i, Finset.mem_univ i, ?_⟩
    have : (0 : ℝ) < ‖(w ∘ Sum.inr) i‖ := norm_pos_iff.2 (by simpa using hi)
    positivity
  · have := exA_shrinks _ h
    have h3 : 0 ≤ ∑ x, ‖(w ∘ Sum.inr) x‖ ^ 2 := Finset.sum_nonneg fun i _ => by positivity
    linarith

theorem exDet : exKet.toBlocks₁₁.det ≠ 0 := by
  unfold exKet exA
  rw [toBlocks_fromBlocks₁₁, det_fin_two_of]
  intro h
  have := congrArg Complex.re h
  simp at this
  norm_num at this

/-- **C78 (not unitary)** For two core modes the operator of the physical decomposition is not always unitary: for this normalisable ket the call succeeds, the core state
and the operator reproduce the ket, and the operator is not unitary. -/
theorem C78_not_unitary : ∃ core U, physStellar exV exLam exKet exB 1 = some (core, U) ∧ IsCore core ∧ (∀ z, applyOn U core z = bargFun exKet exB 1 z) ∧ ¬ IsUnitaryOp U := by
  have hE : IsEigh (1 - exKet.toBlocks₁₁ * cj exKet.toBlocks₁₁) exV exLam := by
    unfold exKet
    rw [toBlocks_fromBlocks₁₁]
    exact exEigh
  obtain ⟨core, U, h1, h2, h3⟩ := C78_physical exKet_symm exKet_shrinks exB 1 hE exDet
  refine ⟨core, U, h1, h2, h3, fun h => ?_⟩
  rw [C78_unitary exKet_symm exKet_shrinks exB 1 hE h1, exGammaInv] at h
  have e1 : exKet.toBlocks₁₁ = exA := by unfold exKet; rw [toBlocks_fromBlocks₁₁]
  have e2 : exB ∘ Sum.inl = ![1, 0] := by unfold exB; rw [Sum.elim_comp_inl]
  rw [e1, e2, cj_exA] at h
  have et : ((1 / 48 : ℂ) • !![70, 10 * Complex.I; -10 * Complex.I, 70])ᵀ = (1 / 48 : ℂ) • !![70, -10 * Complex.I; 10 * Complex.I, 70] := by
    ext i j
    fin_cases i <;> fin_cases j <;> simp
  rw [et, Matrix.mul_smul, Matrix.mul_fin_two] at h
  have h0 := congrArg Complex.re (congrFun h 0)
  simp [Matrix.mulVec, dotProduct, Fin.sum_univ_two] at h0
  norm_num at h0

/-- The matrix of a correlated two-mode ket. -/
noncomputable def exTms : Matrix (Fin 1 ⊕ Fin 1) (Fin 1 ⊕ Fin 1) ℂ := Matrix.of fun _ _ => 1 / 4

/-- A correlated two-mode squeezed ket with a displacement meets the hypotheses of `C78_one_mode`. -/
example : ∃ core U, physStellar (1 : Matrix (Fin 1) (Fin 1) ℂ) (fun _ => 15 / 16) exTms
    (Sum.elim (fun _ => 1) (fun _ => Complex.I)) 1 = some (core, U) ∧ IsCore core ∧ IsUnitaryOp U ∧
    ∀ z, applyOn U core z = bargFun exTms (Sum.elim (fun _ => 1) (fun _ => Complex.I)) 1 z := by
  refine C78_one_mode ?_ ?_ _ _ ⟨?_, ?_⟩ ?_
  · rfl
  · intro w hw
    rw [Fintype.sum_sum_type, Fintype.sum_sum_type]
    simp only [exTms, Matrix.mulVec, dotProduct, Matrix.of_apply, Fintype.sum_sum_type, Finset.univ_unique, Finset.sum_singleton, Fin.default_eq_zero]
    obtain ⟨x, hx⟩ : ∃ x, x = w (Sum.inl 0) := ⟨_, rfl⟩
    obtain ⟨y, hy⟩ : ∃ y, y = w (Sum.inr 0) := ⟨_, rfl⟩
    rw [← hx, ← hy]
    have hxy : 0 < ‖x‖ ^ 2 + ‖y‖ ^ 2 := by
      rcases eq_or_ne x 0 with h | h
      · rcases eq_or_ne y 0 with h' | h'
        · exact absurd (funext fun i => by rcases i with i | i <;> (obtain rfl : i = 0 := Subsingleton.elim _ _) <;> simp [← hx, ← hy, h, h']) hw
        · have := norm_pos_iff.2 h'; positivity
      · have := norm_pos_iff.2 h; positivity
    have hn : ‖1 / 4 * x + 1 / 4 * y‖ ≤ 1 / 4 * ‖x‖ + 1 / 4 * ‖y‖ := by
      refine (norm_add_le _ _).trans (le_of_eq ?_)
      rw [norm_mul, norm_mul]; norm_num
    have h0 := norm_nonneg (1 / 4 * x + 1 / 4 * y)
    nlinarith [sq_nonneg (‖x‖ - ‖y‖), norm_nonneg x, norm_nonneg y]
  · simp
  · ext i j
    obtain rfl : i = 0 := Subsingleton.elim _ _
    obtain rfl : j = 0 := Subsingleton.elim _ _
    simp [toBlocks₁₁, exTms, cj, Matrix.mul_apply, Complex.conj_ofNat]
    norm_num
  · rw [det_unique]
    simp [toBlocks₁₁, exTms]

end Verif.Manifold
