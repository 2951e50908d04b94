import Verif.PhaseShift
import Verif.PhaseUncert

/-!
# `State.phase_space` (C71)

Model of the `s`-parametrised displacement map, of its contraction with a Gaussian state and of the conversion of the result to phase space.
-/

namespace Verif.Manifold
open Matrix Verif.Gauss MeasureTheory
open scoped ComplexOrder MatrixOrder

variable {n : Type*} [Fintype n] [DecidableEq n]

/-- `math.Zmat` (math/backend_manager.py). -/
def Zmat (n : Type*) [DecidableEq n] : Matrix (n ⊕ n) (n ⊕ n) ℂ := fromBlocks 1 0 0 (-1)

/-- physics/triples.py:848-861, the permutation `order_list`: new position ↦ old position, `[0, 3, 1, 2]` in blocks. -/
def orderList : (n ⊕ n) ⊕ (n ⊕ n) → (n ⊕ n) ⊕ (n ⊕ n)
  | .inl (.inl i) => .inl (.inl i)
  | .inl (.inr i) => .inr (.inr i)
  | .inr (.inl i) => .inl (.inr i)
  | .inr (.inr i) => .inr (.inl i)

/-- physics/triples.py:813-867 `displacement_map_s_parametrized_Abc`, the matrix `A` (the vector is zero and the constant one).
The variables are those of the wires out_bra, in_bra, out_ket, in_ket. -/
noncomputable def mapS (n : Type*) [Fintype n] [DecidableEq n] (s : ℝ) : Matrix ((n ⊕ n) ⊕ (n ⊕ n)) ((n ⊕ n) ⊕ (n ⊕ n)) ℂ :=
  (fromBlocks ((((s - 1) / 2 : ℝ) : ℂ) • Xmat n) (-Zmat n) (-Zmat n) (Xmat n)).submatrix orderList orderList

/-- The output wires (bra, ket) of the map. -/
def outW : n ⊕ n → (n ⊕ n) ⊕ (n ⊕ n)
  | .inl i => .inl (.inl i)
  | .inr i => .inr (.inl i)

/-- The input wires (bra, ket) of the map. -/
def inW : n ⊕ n → (n ⊕ n) ⊕ (n ⊕ n)
  | .inl i => .inl (.inr i)
  | .inr i => .inr (.inr i)

/-- The matrix of the Gaussian integral contracting a state with matrix `A` with the map (physics/gaussian_integrals.py, `M`). -/
noncomputable def charM (s : ℝ) (A : Matrix (n ⊕ n) (n ⊕ n) ℂ) : Matrix ((n ⊕ n) ⊕ (n ⊕ n)) ((n ⊕ n) ⊕ (n ⊕ n)) ℂ :=
  fromBlocks A (-1) (-1) ((mapS n s).submatrix inW inW)

/-- lab/states/base.py:520 `self.contract(BtoChar(self.modes, s=s), "zip")`, the matrix of the result: `R - D M⁻¹ Dᵀ`. -/
noncomputable def charA (s : ℝ) (A : Matrix (n ⊕ n) (n ⊕ n) ℂ) : Matrix (n ⊕ n) (n ⊕ n) ℂ :=
  (mapS n s).submatrix outW outW - (mapS n s).submatrix outW inW * (charM s A)⁻¹.toBlocks₂₂ * (mapS n s).submatrix inW outW

/-- lab/states/base.py:520, the vector of the result: `r - D M⁻¹ b`. -/
noncomputable def charB (s : ℝ) (A : Matrix (n ⊕ n) (n ⊕ n) ℂ) (b : n ⊕ n → ℂ) : n ⊕ n → ℂ :=
  -((mapS n s).submatrix outW inW).mulVec ((charM s A)⁻¹.toBlocks₂₁.mulVec b)

/-- lab/states/base.py:520, the constant of the result: `c √((-1)ᵐ / det M) exp(-½ b M⁻¹ b)` for `m` pairs of contracted variables. -/
noncomputable def charC (s : ℝ) (A : Matrix (n ⊕ n) (n ⊕ n) ℂ) (b : n ⊕ n → ℂ) (c : ℂ) : ℂ :=
  c * ((-1) ^ Fintype.card (n ⊕ n) / (charM s A).det) ^ (1 / 2 : ℂ) * Complex.exp (-(1 / 2) * (b ⬝ᵥ (charM s A)⁻¹.toBlocks₁₁.mulVec b))

/-- physics/bargmann_utils.py:56-59 of `bargmann_Abc_to_phasespace_cov_means`, the covariance matrix. -/
noncomputable def psCov (ħ : ℝ) (A : Matrix (n ⊕ n) (n ⊕ n) ℂ) : Matrix (n ⊕ n) (n ⊕ n) ℂ :=
  let Ω : Matrix (n ⊕ n) (n ⊕ n) ℂ := (fromBlocks 0 1 (-1) 0)ᵀ
  let W := (rotmat n)ᴴ
  (ħ : ℂ) • (-Ω * W * A * Wᵀ * Ωᵀ)

/-- physics/bargmann_utils.py:56-60 of `bargmann_Abc_to_phasespace_cov_means`, the mean. -/
noncomputable def psMean (ħ : ℝ) (b : n ⊕ n → ℂ) : n ⊕ n → ℂ :=
  let Ω : Matrix (n ⊕ n) (n ⊕ n) ℂ := (fromBlocks 0 1 (-1) 0)ᵀ
  let W := (rotmat n)ᴴ
  (Complex.I * ((Real.sqrt ħ : ℝ) : ℂ)) • (Ω * W).mulVec b

/-- The blocks of the displacement map. -/
theorem mapS_blocks (s : ℝ) : (mapS n s).submatrix outW outW = (((s - 1) / 2 : ℝ) : ℂ) • Xmat n ∧ (mapS n s).submatrix inW inW = Xmat n ∧
    (mapS n s).submatrix outW inW = fromBlocks 0 (-1) 1 0 ∧ (mapS n s).submatrix inW outW = fromBlocks 0 1 (-1) 0 := by
  refine ⟨?_, ?_, ?_, ?_⟩ <;> ext p q <;> rcases p with i | i <;> rcases q with j | j <;>
    simp [mapS, outW, inW, orderList, Xmat, Zmat, Matrix.one_apply, eq_comm]

theorem X_mul_rhoA {ħ : ℝ} (hħ : 0 < ħ) {cov : Matrix (n ⊕ n) (n ⊕ n) ℝ} (h : (cov + (ħ / 2) • 1).PosDef) :
    (1 - Xmat n * rhoA ħ cov) * husimiQ ħ cov = 1 ∧ rhoA ħ cov * husimiQ ħ cov = Xmat n * (husimiQ ħ cov - 1) := by
  obtain ⟨-, hi⟩ := husimiQ_inv hħ h
  have hi' : (husimiQ ħ cov)⁻¹ * husimiQ ħ cov = 1 := mul_eq_one_comm.mp hi
  have e : cayley (pqMat ħ cov) (1 / 2) = 1 - (husimiQ ħ cov)⁻¹ := by
    unfold cayley
    have : pqMat ħ cov - (1 / 2 : ℂ) • 1 = husimiQ ħ cov - 1 := by
      unfold husimiQ
      ext p q
      simp only [Matrix.sub_apply, Matrix.add_apply, Matrix.smul_apply, smul_eq_mul]
      ring
    rw [this]
    show (husimiQ ħ cov)⁻¹ * _ = _
    rw [Matrix.mul_sub, hi', Matrix.mul_one]
  unfold rhoA
  rw [e]
  constructor
  · rw [← Matrix.mul_assoc, Xmat_sq, Matrix.one_mul, sub_sub_cancel, hi']
  · rw [Matrix.mul_assoc, Matrix.sub_mul, hi', Matrix.one_mul]

theorem norm_X (w : n ⊕ n → ℂ) : ∑ i, ‖(Xmat n).mulVec w i‖ ^ 2 ≤ ∑ i, ‖w i‖ ^ 2 := by
  have : w = Sum.elim (w ∘ Sum.inl) (w ∘ Sum.inr) := (Sum.elim_comp_inl_inr w).symm
  rw [this, Xmat_elim, Fintype.sum_sum_type, Fintype.sum_sum_type]
  simp only [Sum.elim_inl, Sum.elim_inr]
  rw [add_comm]

theorem charM_facts {ħ : ℝ} (hħ : 0 < ħ) {cov : Matrix (n ⊕ n) (n ⊕ n) ℝ} (h : cov.PosDef) (s : ℝ) :
    charM s (rhoA ħ cov) = fromBlocks (rhoA ħ cov) (-1) (-1) (Xmat n) ∧ NegRe (fromBlocks (rhoA ħ cov) (-1) (-1) (Xmat n)) ∧
      (charM s (rhoA ħ cov))⁻¹ = fromBlocks (-(husimiQ ħ cov * Xmat n)) (-husimiQ ħ cov) (-(husimiQ ħ cov)ᵀ) (-(rhoA ħ cov * husimiQ ħ cov)) ∧
      ((-1) ^ Fintype.card (n ⊕ n) / (charM s (rhoA ħ cov)).det) ^ (1 / 2 : ℂ) = gaussConst (fromBlocks (rhoA ħ cov) (-1) (-1) (Xmat n)) := by
  have hv := cov_vac_posDef hħ h
  obtain ⟨hT, hH⟩ := rhoA_herm hħ hv
  have e1 : charM s (rhoA ħ cov) = fromBlocks (rhoA ħ cov) (-1) (-1) (Xmat n) := by
    unfold charM; rw [(mapS_blocks s).2.1]
  have hN : NegRe (fromBlocks (rhoA ħ cov) (-1) (-1) (Xmat n)) := overlap_negRe' (shrinks_rhoA hħ h).1 norm_X
  refine ⟨e1, hN, by rw [e1, overlap_inv hT Xmat_T (X_mul_rhoA hħ hv).1], ?_⟩
  rw [e1]
  refine gaussConst_herm (Equiv.sumComm n n) (overlap_symm hT Xmat_T) hN ?_
  have hA : ∀ p q, rhoA ħ cov p.swap q.swap = (starRingEnd ℂ) (rhoA ħ cov p q) := by
    intro p q
    have hs : ∀ (M : Matrix (n ⊕ n) (n ⊕ n) ℂ) (p q : n ⊕ n), (Xmat n * M * Xmat n) p q = M p.swap q.swap := by
      intro M p q
      obtain ⟨a, b, c, d, rfl⟩ : ∃ a b c d, M = fromBlocks a b c d := ⟨_, _, _, _, (fromBlocks_toBlocks M).symm⟩
      unfold Xmat
      rw [fromBlocks_multiply, fromBlocks_multiply]
      rcases p with i | i <;> rcases q with j | j <;> simp
    have := congrFun (congrFun hH p.swap) q.swap
    rw [hs, Sum.swap_swap, Sum.swap_swap] at this
    exact this
  have h1 : ∀ p q : n ⊕ n, -(1 : Matrix (n ⊕ n) (n ⊕ n) ℂ) p.swap q.swap = (starRingEnd ℂ) (-(1 : Matrix (n ⊕ n) (n ⊕ n) ℂ) p q) := by
    intro p q
    by_cases hpq : p = q
    · subst hpq
      rw [Matrix.one_apply_eq, Matrix.one_apply_eq, map_neg, map_one]
    · have : p.swap ≠ q.swap := fun e => hpq (Equiv.sumComm n n |>.injective e)
      rw [Matrix.one_apply_ne hpq, Matrix.one_apply_ne this, neg_zero, map_zero]
  intro p q
  rcases p with p | p <;> rcases q with q | q
  · exact hA p q
  · show -(1 : Matrix (n ⊕ n) (n ⊕ n) ℂ) p.swap q.swap = (starRingEnd ℂ) (-(1 : Matrix (n ⊕ n) (n ⊕ n) ℂ) p q)
    rw [h1]
  · show -(1 : Matrix (n ⊕ n) (n ⊕ n) ℂ) p.swap q.swap = (starRingEnd ℂ) (-(1 : Matrix (n ⊕ n) (n ⊕ n) ℂ) p q)
    rw [h1]
  · rcases p with p | p <;> rcases q with q | q <;> simp [Xmat, Matrix.one_apply] <;> split_ifs <;> simp_all

/-- **C71 (characteristic function)** The contraction with the displacement map, evaluated at `(γ̄, γ)`, is `Tr(ρ D_s(γ))` with
`D_s(γ) = exp(s|γ|²/2) D(γ)`. -/
theorem C71_characteristic {ħ : ℝ} (hħ : 0 < ħ) {cov : Matrix (n ⊕ n) (n ⊕ n) ℝ} (h : cov.PosDef) (μ : n ⊕ n → ℝ) (k : ℂ) (s : ℝ) (γ : n → ℂ) :
    charC s (rhoA ħ cov) (rhoB ħ cov μ) (k * rhoC ħ cov μ) * Complex.exp (1 / 2 * (Sum.elim (star γ) γ ⬝ᵥ (charA s (rhoA ħ cov)).mulVec (Sum.elim (star γ) γ)) +
      charB s (rhoA ħ cov) (rhoB ħ cov μ) ⬝ᵥ Sum.elim (star γ) γ) =
      Complex.exp (s / 2 * ∑ i, (‖γ i‖ : ℂ) ^ 2) * opTr (opMul (dmFromPhaseSpace ħ cov μ k) (dispOp γ)) := by
  have hv := cov_vac_posDef hħ h
  obtain ⟨hT, hH⟩ := rhoA_herm hħ hv
  obtain ⟨e1, hN, e2, e3⟩ := charM_facts hħ h s
  obtain ⟨b1, b2, b3, b4⟩ := mapS_blocks (n := n) s
  have hd : dispOp γ = dmFun (Xmat n) (Sum.elim (-star γ) γ) (Complex.exp (-(∑ i, (‖γ i‖ : ℂ) ^ 2) / 2)) := by
    funext z w
    unfold dispOp dmFun
    rw [← Complex.exp_add, Xmat_elim, sumElim_dotProduct_sumElim, sumElim_dotProduct_sumElim]
    refine congrArg Complex.exp ?_
    rw [dotProduct_comm w z, neg_dotProduct]
    simp only [dotProduct, Pi.star_apply, Complex.star_def]
    ring
  have hr : dmFromPhaseSpace ħ cov μ k = dmFun (rhoA ħ cov) (rhoB ħ cov μ) (k * rhoC ħ cov μ) := funext fun z => funext fun w => dm_dmFun cov μ k z w
  have hXXX : Xmat n * Xmat n * Xmat n = Xmat n := by rw [Xmat_sq, Matrix.one_mul]
  have ho := gauss_overlap_of hT Xmat_T hN (X_mul_rhoA hħ hv).1 (rhoB ħ cov μ) ((Xmat n).mulVec (Sum.elim (-star γ) γ))
  have ht := trace_mul_of hT Xmat_T (by rw [hXXX]; exact hN) (rhoB ħ cov μ) (Sum.elim (-star γ) γ) (k * rhoC ħ cov μ)
    (Complex.exp (-(∑ i, (‖γ i‖ : ℂ) ^ 2) / 2))
  rw [hXXX, ho] at ht
  rw [hd, hr, ht]
  unfold charA charB charC
  rw [e3, e2, b1, b3, b4, toBlocks_fromBlocks₁₁, toBlocks_fromBlocks₂₁, toBlocks_fromBlocks₂₂]
  set P := rhoA ħ cov
  set W := husimiQ ħ cov
  set b := rhoB ħ cov μ
  have hy : (Xmat n).mulVec (Sum.elim (-star γ) γ) = Sum.elim γ (-star γ) := Xmat_elim _ _
  have hJ : (fromBlocks 0 1 (-1) 0 : Matrix (n ⊕ n) (n ⊕ n) ℂ).mulVec (Sum.elim (star γ) γ) = Sum.elim γ (-star γ) := by
    rw [fromBlocks_mulVec]; simp [Matrix.neg_mulVec]
  have hJT : (fromBlocks 0 (-1) 1 0 : Matrix (n ⊕ n) (n ⊕ n) ℂ) = (fromBlocks 0 1 (-1) 0)ᵀ := by rw [fromBlocks_transpose]; simp
  have q1 : Sum.elim (star γ) γ ⬝ᵥ ((((s - 1) / 2 : ℝ) : ℂ) • Xmat n - fromBlocks 0 (-1) 1 0 * (-(P * W)) * fromBlocks 0 1 (-1) 0).mulVec (Sum.elim (star γ) γ) =
      (s - 1) * ∑ i, (‖γ i‖ : ℂ) ^ 2 + Sum.elim γ (-star γ) ⬝ᵥ (P * W).mulVec (Sum.elim γ (-star γ)) := by
    rw [Matrix.sub_mulVec, Matrix.smul_mulVec, Xmat_elim, dotProduct_sub, dotProduct_smul, ← Matrix.mulVec_mulVec, hJ, ← Matrix.mulVec_mulVec, hJT,
      Matrix.mulVec_transpose, dotProduct_comm _ (vecMul _ _), ← Matrix.dotProduct_mulVec, hJ, Matrix.neg_mulVec, neg_dotProduct, sumElim_dotProduct_sumElim,
      dotProduct_comm (star γ) γ, dotProduct_comm ((P * W).mulVec _)]
    have : γ ⬝ᵥ star γ = ∑ i, (‖γ i‖ : ℂ) ^ 2 := by
      refine Finset.sum_congr rfl fun i _ => ?_
      rw [Pi.star_apply, Complex.star_def, Complex.mul_conj, Complex.normSq_eq_norm_sq]
      push_cast
      rfl
    rw [this, smul_eq_mul]
    push_cast
    ring
  have q2 : (-(fromBlocks 0 (-1) 1 0 : Matrix (n ⊕ n) (n ⊕ n) ℂ).mulVec ((-Wᵀ).mulVec b)) ⬝ᵥ Sum.elim (star γ) γ = b ⬝ᵥ W.mulVec (Sum.elim γ (-star γ)) := by
    rw [Matrix.neg_mulVec, Matrix.mulVec_neg, neg_neg, hJT, Matrix.mulVec_transpose, ← Matrix.dotProduct_mulVec, hJ, Matrix.mulVec_transpose,
      ← Matrix.dotProduct_mulVec]
  have q3 : b ⬝ᵥ (-(W * Xmat n)).mulVec b = -(b ⬝ᵥ (W * Xmat n).mulVec b) := by rw [Matrix.neg_mulVec, dotProduct_neg]
  rw [q1, q2, q3, hy]
  simp only [mul_assoc, mul_left_comm _ (gaussConst _), ← Complex.exp_add]
  refine congrArg (HMul.hMul _) ?_
  rw [mul_left_comm (Complex.exp (↑s / 2 * _)) k, mul_left_comm (Complex.exp (↑s / 2 * _)) (rhoC _ _ _), ← Complex.exp_add]
  refine congrArg (HMul.hMul _) (congrArg (HMul.hMul _) (congrArg Complex.exp ?_))
  ring

/-- The symplectic form as a complex matrix. -/
def Jc (n : Type*) [DecidableEq n] : Matrix (n ⊕ n) (n ⊕ n) ℂ := fromBlocks 0 1 (-1) 0

theorem Jc_facts : (Jc n)ᵀ = -Jc n ∧ Jc n * Jc n = -1 ∧ (fromBlocks 0 (-1) 1 0 : Matrix (n ⊕ n) (n ⊕ n) ℂ) = -Jc n ∧
    -Jc n * Xmat n = -Zmat n ∧ Jc n * Xmat n = Zmat n ∧ -Zmat n * Jc n = -Xmat n := by
  refine ⟨?_, ?_, ?_, ?_, ?_, ?_⟩ <;> simp [Jc, Xmat, Zmat, fromBlocks_transpose, fromBlocks_multiply, fromBlocks_neg]
  rw [← fromBlocks_one, fromBlocks_neg]; simp

theorem rot_Z : (rotmat n)ᴴ * Zmat n * rotmat n = Complex.I • Jc n := by
  have := rot_diag (n := n)
  have e : toC (symForm n) = Jc n := by unfold toC symForm Jc; rw [fromBlocks_map]; congr 1 <;> ext i j <;> by_cases h : i = j <;> first | (subst h; simp) | simp [h]
  rw [e] at this
  exact this

theorem L_facts : let L : Matrix (n ⊕ n) (n ⊕ n) ℂ := (Jc n)ᵀ * (rotmat n)ᴴ
    let R : Matrix (n ⊕ n) (n ⊕ n) ℂ := (rotmat n)ᴴᵀ * (Jc n)ᵀᵀ
    L * Xmat n * R = 1 ∧ L * (-Jc n * Xmat n * rotmat n) = -Complex.I • 1 ∧ (rotmat n)ᴴ * Jc n * R = -Complex.I • 1 := by
  intro L R
  obtain ⟨j1, j2, -, j4, j5, -⟩ := Jc_facts (n := n)
  have hR : R = Xmat n * rotmat n * Jc n := by
    show (rotmat n)ᴴᵀ * (Jc n)ᵀᵀ = _
    rw [transpose_transpose, Xmat_rot, conjT_transpose]
  have hL : L = -(Jc n * (rotmat n)ᴴ) := by
    show (Jc n)ᵀ * (rotmat n)ᴴ = _
    rw [j1, Matrix.neg_mul]
  refine ⟨?_, ?_, ?_⟩
  · rw [hL, hR]
    calc _ = -(Jc n * ((rotmat n)ᴴ * (Xmat n * Xmat n) * rotmat n) * Jc n) := by simp only [Matrix.mul_assoc, Matrix.neg_mul]
      _ = 1 := by rw [Xmat_sq, Matrix.mul_one, rotmat_mul', Matrix.mul_one, j2, neg_neg]
  · rw [hL, j4]
    calc _ = Jc n * ((rotmat n)ᴴ * Zmat n * rotmat n) := by simp only [Matrix.mul_assoc, Matrix.neg_mul, Matrix.mul_neg, neg_neg]
      _ = _ := by rw [rot_Z, Matrix.mul_smul, j2]; simp
  · rw [hR]
    calc _ = (rotmat n)ᴴ * (Jc n * Xmat n) * rotmat n * Jc n := by simp only [Matrix.mul_assoc]
      _ = _ := by rw [j5, rot_Z, Matrix.smul_mul, j2]; simp

theorem psCov_eq (ħ : ℝ) (A : Matrix (n ⊕ n) (n ⊕ n) ℂ) :
    psCov ħ A = (-ħ : ℂ) • ((Jc n)ᵀ * (rotmat n)ᴴ * A * ((rotmat n)ᴴᵀ * (Jc n)ᵀᵀ)) := by
  show (ħ : ℂ) • (-(Jc n)ᵀ * (rotmat n)ᴴ * A * (rotmat n)ᴴᵀ * (Jc n)ᵀᵀ) = _
  simp only [Matrix.mul_assoc, Matrix.neg_mul, smul_neg, neg_smul]

/-- **C71 (round trip)** `phase_space(s)` of the state built from `(cov, μ)` returns the covariance matrix `cov - (s ħ / 2) 1`, the mean `μ` and the coefficient. -/
theorem C71_roundtrip {ħ : ℝ} (hħ : 0 < ħ) {cov : Matrix (n ⊕ n) (n ⊕ n) ℝ} (h : cov.PosDef) (μ : n ⊕ n → ℝ) (k : ℂ) (s : ℝ) :
    psCov ħ (charA s (rhoA ħ cov)) = toC (cov - (s * ħ / 2) • 1) ∧
      psMean ħ (charB s (rhoA ħ cov) (rhoB ħ cov μ)) = (fun r => (μ r : ℂ)) ∧
      charC s (rhoA ħ cov) (rhoB ħ cov μ) (k * rhoC ħ cov μ) = k := by
  have hv := cov_vac_posDef hħ h
  obtain ⟨hT, hH⟩ := rhoA_herm hħ hv
  obtain ⟨e1, hN, e2, e3⟩ := charM_facts hħ h s
  obtain ⟨b1, b2, b3, b4⟩ := mapS_blocks (n := n) s
  obtain ⟨j1, j2, j3, j4, j5, j6⟩ := Jc_facts (n := n)
  obtain ⟨l1, l2, l3⟩ := L_facts (n := n)
  have hX := X_mul_rhoA hħ hv
  have hW1 := (husimiQ_inv hħ hv).2
  have hħ' : (ħ : ℂ) ≠ 0 := by exact_mod_cast hħ.ne'
  have sR : ∀ r : n ⊕ n → ℝ, star ((rotmat n).mulVec fun i => (r i : ℂ)) = (Xmat n).mulVec ((rotmat n).mulVec fun i => (r i : ℂ)) := by
    intro r
    rw [Matrix.mulVec_mulVec, Xmat_rot]
    funext p
    simp only [Pi.star_apply, Matrix.mulVec, dotProduct, star_sum, star_mul', cj, Matrix.map_apply, Complex.star_def, Complex.conj_ofReal]
  have sv : star (pqVec ħ μ) = (Xmat n).mulVec (pqVec ħ μ) := sR _
  have sy : star ((husimiQ ħ cov)⁻¹.mulVec (pqVec ħ μ)) = (Xmat n).mulVec ((husimiQ ħ cov)⁻¹.mulVec (pqVec ħ μ)) := by
    rw [(husimiQ_inv hħ hv).1]
    unfold pqVec
    rw [Matrix.mulVec_mulVec, Matrix.mul_assoc, rotmat_mul', Matrix.mul_one, ← Matrix.mulVec_mulVec, toC_mulVec]
    exact sR _
  have hWH : (husimiQ ħ cov)ᴴ = husimiQ ħ cov := by
    have : (toC (vac ħ cov))ᴴ = toC (vac ħ cov) := by
      have := (posDef_symm (vac_pos hħ hv)).1
      ext p q
      have e := congrFun (congrFun this p) q
      simp only [Matrix.conjTranspose_apply, toC, Matrix.map_apply, Matrix.transpose_apply, Complex.star_def, Complex.conj_ofReal] at e ⊢
      exact e
    rw [husimiQ_eq hħ, Matrix.conjTranspose_mul, Matrix.conjTranspose_mul, conjTranspose_conjTranspose, this, Matrix.mul_assoc]
  have hWb : (husimiQ ħ cov)ᵀ.mulVec (rhoB ħ cov μ) = star (pqVec ħ μ) := by
    unfold rhoB
    rw [Matrix.mulVec_transpose]
    conv_lhs => rw [← hWH]
    rw [← Matrix.star_mulVec, hWH, Matrix.mulVec_mulVec, hW1, Matrix.one_mulVec]
  refine ⟨?_, ?_, ?_⟩
  · have hA : charA s (rhoA ħ cov) = (((s - 1) / 2 : ℝ) : ℂ) • Xmat n + -Jc n * Xmat n * pqMat ħ cov * Jc n + (1 / 2 : ℂ) • Xmat n := by
      unfold charA
      rw [e2, b1, b3, b4, toBlocks_fromBlocks₂₂, hX.2, j3]
      have : husimiQ ħ cov - 1 = pqMat ħ cov - (1 / 2 : ℂ) • 1 := by
        unfold husimiQ
        ext p q
        simp only [Matrix.sub_apply, Matrix.add_apply, Matrix.smul_apply, smul_eq_mul]
        ring
      rw [this]
      show (((s - 1) / 2 : ℝ) : ℂ) • Xmat n - -Jc n * -(Xmat n * (pqMat ħ cov - (1 / 2 : ℂ) • 1)) * Jc n = _
      have e : -Jc n * -(Xmat n * (pqMat ħ cov - (1 / 2 : ℂ) • 1)) * Jc n =
          -(-Jc n * Xmat n * pqMat ħ cov * Jc n) + (1 / 2 : ℂ) • (-Jc n * Xmat n * Jc n) := by
        rw [Matrix.mul_neg, Matrix.neg_mul, Matrix.mul_sub, Matrix.mul_sub, Matrix.sub_mul]
        simp only [Matrix.mul_assoc, Matrix.mul_smul, Matrix.smul_mul, Matrix.mul_one]
        abel
      rw [e, j4, j6]
      module
    rw [psCov_eq, hA, Matrix.mul_add, Matrix.mul_add, Matrix.add_mul, Matrix.add_mul, Matrix.mul_smul, Matrix.smul_mul, Matrix.mul_smul, Matrix.smul_mul, l1]
    have e : (Jc n)ᵀ * (rotmat n)ᴴ * (-Jc n * Xmat n * pqMat ħ cov * Jc n) * ((rotmat n)ᴴᵀ * (Jc n)ᵀᵀ) = -toC (cov.map (· / ħ)) := by
      unfold pqMat
      calc _ = (Jc n)ᵀ * (rotmat n)ᴴ * (-Jc n * Xmat n * rotmat n) * toC (cov.map (· / ħ)) * ((rotmat n)ᴴ * Jc n * ((rotmat n)ᴴᵀ * (Jc n)ᵀᵀ)) := by
            simp only [Matrix.mul_assoc]
        _ = _ := by
            rw [l2, l3]
            simp only [Matrix.smul_mul, Matrix.mul_smul, Matrix.one_mul, Matrix.mul_one, smul_smul]
            simp
    rw [e]
    ext p q
    simp only [Matrix.smul_apply, Matrix.add_apply, Matrix.neg_apply, toC, Matrix.map_apply, Matrix.sub_apply, smul_eq_mul]
    push_cast
    have : (((1 : Matrix (n ⊕ n) (n ⊕ n) ℝ) p q : ℝ) : ℂ) = (1 : Matrix (n ⊕ n) (n ⊕ n) ℂ) p q := by
      by_cases hpq : p = q
      · subst hpq; simp
      · rw [Matrix.one_apply_ne hpq, Matrix.one_apply_ne hpq]; simp
    rw [this]
    field_simp
    ring
  · have hb : charB s (rhoA ħ cov) (rhoB ħ cov μ) = (-Jc n * Xmat n * rotmat n).mulVec (fun r => ((μ r / Real.sqrt ħ : ℝ) : ℂ)) := by
      unfold charB
      rw [e2, b3, toBlocks_fromBlocks₂₁, j3, Matrix.neg_mulVec _ (husimiQ ħ cov)ᵀ, hWb, Matrix.mulVec_neg, neg_neg, sv, Matrix.mulVec_mulVec]
      unfold pqVec
      rw [Matrix.mulVec_mulVec]
    rw [hb]
    show (Complex.I * ((Real.sqrt ħ : ℝ) : ℂ)) • ((Jc n)ᵀ * (rotmat n)ᴴ).mulVec _ = _
    rw [Matrix.mulVec_mulVec, l2]
    funext r
    have hs : ((Real.sqrt ħ : ℝ) : ℂ) ≠ 0 := by exact_mod_cast (Real.sqrt_pos.2 hħ).ne'
    rw [Matrix.smul_mulVec, Matrix.one_mulVec, Pi.smul_apply, Pi.smul_apply, smul_eq_mul, smul_eq_mul]
    push_cast
    field_simp
    rw [Complex.I_sq]
    ring
  · unfold charC
    rw [e2, e1, overlap_det hX.1, toBlocks_fromBlocks₁₁, Matrix.neg_mulVec, dotProduct_neg]
    have q : rhoB ħ cov μ ⬝ᵥ (husimiQ ħ cov * Xmat n).mulVec (rhoB ħ cov μ) =
        ∑ r, (starRingEnd ℂ) (pqVec ħ μ r) * ((husimiQ ħ cov)⁻¹.mulVec (pqVec ħ μ)) r := by
      rw [← Matrix.mulVec_mulVec, Matrix.dotProduct_mulVec, ← Matrix.mulVec_transpose, hWb]
      unfold rhoB
      rw [sy, Matrix.mulVec_mulVec, Xmat_sq, Matrix.one_mulVec]
      rfl
    rw [q]
    unfold rhoC
    have hd : (husimiQ ħ cov).det ≠ 0 := fun e => by
      have := congrArg Matrix.det hW1
      rw [det_mul, e, zero_mul, det_one] at this
      exact zero_ne_one this
    have hd' : (husimiQ ħ cov).det ^ (1 / 2 : ℂ) ≠ 0 := fun e => hd (Complex.cpow_eq_zero_iff _ _ |>.1 e).1
    dsimp only
    set E := ∑ r, (starRingEnd ℂ) (pqVec ħ μ r) * ((husimiQ ħ cov)⁻¹.mulVec (pqVec ħ μ)) r
    have he : Complex.exp (-(1 / 2) * E) * Complex.exp (-(1 / 2) * -E) = 1 := by rw [← Complex.exp_add]; ring_nf; exact Complex.exp_zero
    generalize Complex.exp (-(1 / 2) * E) = a at he ⊢
    generalize Complex.exp (-(1 / 2) * -E) = a' at he ⊢
    field_simp
    linear_combination k * he

/-- **C71 (which `s` is which)** For the vacuum, `s = 1` gives the zero covariance matrix (the Glauber–Sudarshan function, a point mass) and `s = -1` gives
`ħ 1` (the Husimi function): the docstring of `phase_space` names them the other way round. -/
theorem C71_vacuum {ħ : ℝ} (hħ : 0 < ħ) :
    psCov ħ (charA 1 (rhoA ħ ((ħ / 2) • (1 : Matrix (n ⊕ n) (n ⊕ n) ℝ)))) = 0 ∧
      psCov ħ (charA (-1) (rhoA ħ ((ħ / 2) • (1 : Matrix (n ⊕ n) (n ⊕ n) ℝ)))) = (ħ : ℂ) • 1 := by
  have h : ((ħ / 2) • (1 : Matrix (n ⊕ n) (n ⊕ n) ℝ)).PosDef := Matrix.PosDef.one.smul (by positivity)
  constructor
  · rw [(C71_roundtrip hħ h 0 1 1).1, one_mul, sub_self]
    ext; simp [toC]
  · rw [(C71_roundtrip hħ h 0 1 (-1)).1, ← sub_smul, toC_smul, toC_one]
    push_cast
    congr 1
    ring

/-- A two-mode state of non-trivial moments that meets the hypotheses of `C71_characteristic` and `C71_roundtrip`. -/
example : (Matrix.diagonal fun r : Fin 2 ⊕ Fin 2 => Sum.elim (fun i : Fin 2 => (i : ℝ) + 2) (fun _ => 1 / 2) r).PosDef := by
  rw [Matrix.posDef_diagonal_iff]
  rintro (i | i) <;> simp
  positivity

end Verif.Manifold
