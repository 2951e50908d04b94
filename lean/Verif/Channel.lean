import Verif.PhaseReduced

/-!
# Gaussian channels: `Channel.from_XY`, `Channel.is_CP` (C73)

`mrmustard/physics/triples.py` 938-1005, `mrmustard/lab/transformations/base.py` 373-410.  The wires of a channel are ordered
(output bra, input bra, output ket, input ket), so its `A` matrix is indexed by `(p ⊕ q) ⊕ (p ⊕ q)` with `p` the output modes and `q` the input
modes.
-/

namespace Verif.Manifold
open Matrix Verif.Gauss MeasureTheory
open scoped ComplexOrder MatrixOrder

variable {n : Type*} [Fintype n] [DecidableEq n]
variable {p q : Type*} [Fintype p] [DecidableEq p] [Fintype q] [DecidableEq q]

/-! ## Model -/

/-- `xi` in `XY_to_channel_Abc` (`mrmustard/physics/triples.py` 963). -/
noncomputable def xyXi (ħ : ℝ) (X : Matrix (p ⊕ p) (q ⊕ q) ℝ) (Y : Matrix (p ⊕ p) (p ⊕ p) ℝ) : Matrix (p ⊕ p) (p ⊕ p) ℝ :=
  (1 / 2 : ℝ) • 1 + (1 / 2 : ℝ) • (X * Xᵀ) + Y.map (· / ħ)

/-- The matrix `R` in `XY_to_channel_Abc` (`mrmustard/physics/triples.py` 968-995). -/
noncomputable def xyR (p q : Type*) [DecidableEq p] [DecidableEq q] : Matrix ((p ⊕ q) ⊕ (p ⊕ q)) ((p ⊕ p) ⊕ (q ⊕ q)) ℂ :=
  ((1 / Real.sqrt 2 : ℝ) : ℂ) • fromBlocks (fromBlocks 1 (Complex.I • 1) 0 0) (fromBlocks 0 0 1 (-(Complex.I • 1)))
    (fromBlocks 1 (-(Complex.I • 1)) 0 0) (fromBlocks 0 0 1 (Complex.I • 1))

/-- `xi_inv_in_blocks` in `XY_to_channel_Abc` (`mrmustard/physics/triples.py` 964-967). -/
noncomputable def xyK (ξ : Matrix (p ⊕ p) (p ⊕ p) ℝ) (X : Matrix (p ⊕ p) (q ⊕ q) ℝ) : Matrix ((p ⊕ p) ⊕ (q ⊕ q)) ((p ⊕ p) ⊕ (q ⊕ q)) ℝ :=
  fromBlocks (1 - ξ⁻¹) (ξ⁻¹ * X) (Xᵀ * ξ⁻¹) (1 - Xᵀ * ξ⁻¹ * X)

/-- The `A` matrix of `XY_to_channel_Abc` (`mrmustard/physics/triples.py` 997).  One batch element.  The code demands that `X` and `Y` have the same
shape, i.e. `p = q`; the model allows any number of output and input modes. -/
noncomputable def xyA (ħ : ℝ) (X : Matrix (p ⊕ p) (q ⊕ q) ℝ) (Y : Matrix (p ⊕ p) (p ⊕ p) ℝ) : Matrix ((p ⊕ q) ⊕ (p ⊕ q)) ((p ⊕ q) ⊕ (p ⊕ q)) ℂ :=
  Xmat (p ⊕ q) * xyR p q * toC (xyK (xyXi ħ X Y) X) * (xyR p q)ᴴ

/-- The `b` vector of `XY_to_channel_Abc` (`mrmustard/physics/triples.py` 998-1001). -/
noncomputable def xyB (ħ : ℝ) (X : Matrix (p ⊕ p) (q ⊕ q) ℝ) (Y : Matrix (p ⊕ p) (p ⊕ p) ℝ) (d : p ⊕ p → ℝ) : (p ⊕ q) ⊕ (p ⊕ q) → ℂ :=
  ((1 / Real.sqrt ħ : ℝ) : ℂ) • (cj (xyR p q)).mulVec
    fun r => ((Sum.elim ((xyXi ħ X Y)⁻¹.mulVec d) ((Xᵀ * (xyXi ħ X Y)⁻¹).mulVec d) r : ℝ) : ℂ)

/-- The scalar `c` of `XY_to_channel_Abc` (`mrmustard/physics/triples.py` 1002-1003). -/
noncomputable def xyC (ħ : ℝ) (X : Matrix (p ⊕ p) (q ⊕ q) ℝ) (Y : Matrix (p ⊕ p) (p ⊕ p) ℝ) (d : p ⊕ p → ℝ) : ℝ :=
  Real.exp (-(1 / 2) / ħ * (d ⬝ᵥ (xyXi ħ X Y)⁻¹.mulVec d)) / Real.sqrt (xyXi ħ X Y).det

/-- A channel with the triple `(A, b, c)` as a function of its output ket `z`, input ket `z'`, output bra `w` and input bra `w'` variables
(`mrmustard/lab/transformations/base.py` 346-371 for the wires). -/
noncomputable def chanFun (A : Matrix ((p ⊕ q) ⊕ (p ⊕ q)) ((p ⊕ q) ⊕ (p ⊕ q)) ℂ) (b : (p ⊕ q) ⊕ (p ⊕ q) → ℂ) (c : ℂ) (z : p → ℂ) (z' : q → ℂ)
    (w : p → ℂ) (w' : q → ℂ) : ℂ := dmFun A b c (Sum.elim z z') (Sum.elim w w')

/-- The channel built by `Channel.from_XY` (`mrmustard/lab/transformations/base.py` 489-530). -/
noncomputable def fromXY (ħ : ℝ) (X : Matrix (p ⊕ p) (q ⊕ q) ℝ) (Y : Matrix (p ⊕ p) (p ⊕ p) ℝ) (d : p ⊕ p → ℝ) :
    (p → ℂ) → (q → ℂ) → (p → ℂ) → (q → ℂ) → ℂ := chanFun (xyA ħ X Y) (xyB ħ X Y d) (xyC ħ X Y d)

/-- `Channel.is_CP` (`mrmustard/lab/transformations/base.py` 373-410) for one batch element: `gamma_A = A[:m, m:]` must be Hermitian up to `ATOL` in
Frobenius norm and the real parts of its eigenvalues must exceed `-ATOL` (strictly, unlike `DM.is_positive`). -/
def isCP (atol : ℝ) (A : Matrix (n ⊕ n) (n ⊕ n) ℂ) : Prop :=
  ¬ atol < Real.sqrt (∑ i, ∑ j, ‖(A.toBlocks₁₂ - A.toBlocks₁₂ᴴ) i j‖ ^ 2) ∧
    ∀ x : ℂ, (x • (1 : Matrix n n ℂ) - A.toBlocks₁₂).det = 0 → -atol < x.re

/-! ## Specification -/

/-- The action of a channel with Bargmann function `Φ` (output ket, input ket, output bra, input bra) on an operator: the inputs of the channel are
contracted with the ket and bra of the operator with the Bargmann measure. -/
noncomputable def applyCh (Φ : (p → ℂ) → (q → ℂ) → (p → ℂ) → (q → ℂ) → ℂ) (ρ : (q → ℂ) → (q → ℂ) → ℂ) (z w : p → ℂ) : ℂ :=
  ((Real.pi : ℂ) ^ Fintype.card q)⁻¹ * ∫ u : q → ℂ, ((Real.pi : ℂ) ^ Fintype.card q)⁻¹ * (∫ v : q → ℂ,
    Φ z (star u) w (star v) * ρ u v * Complex.exp (-∑ i, (‖v i‖ : ℂ) ^ 2)) * Complex.exp (-∑ i, (‖u i‖ : ℂ) ^ 2)

/-- The Gaussian channel that sends a mean `m` to `X m + δ` and a Husimi covariance `V` to `ξ + X (V - 1) Xᵀ`, in units of `ħ`. -/
noncomputable def gaussCh (ξ : Matrix (p ⊕ p) (p ⊕ p) ℝ) (X : Matrix (p ⊕ p) (q ⊕ q) ℝ) (δ : p ⊕ p → ℝ) (z : p → ℂ) (z' : q → ℂ) (w : p → ℂ) (w' : q → ℂ) : ℂ :=
  let η := (rotmat p)ᴴ.mulVec (Sum.elim w z)
  let η' := (rotmat q)ᴴ.mulVec (Sum.elim z' w')
  hus ξ δ (η - (toC X).mulVec η') * Complex.exp (1 / 2 * (η ⬝ᵥ η)) * Complex.exp (1 / 2 * (η' ⬝ᵥ η'))

/-! ## The triple in phase space coordinates -/

theorem xyR_mul (w z : p → ℂ) (w' z' : q → ℂ) :
    (xyR p q)ᴴ.mulVec (Sum.elim (Sum.elim w w') (Sum.elim z z')) =
      Sum.elim ((rotmat p)ᴴ.mulVec (Sum.elim w z)) ((rotmat q)ᴴ.mulVec (Sum.elim z' w')) := by
  have h2 : ((Real.sqrt 2 : ℝ) : ℂ) ≠ 0 := by rw [Complex.ofReal_ne_zero]; positivity
  rw [rot_row, rot_row]
  unfold xyR
  rw [conjTranspose_smul, Matrix.smul_mulVec, fromBlocks_conjTranspose]
  simp only [fromBlocks_conjTranspose, fromBlocks_mulVec, Sum.elim_comp_inl, Sum.elim_comp_inr, conjTranspose_smul, conjTranspose_one, conjTranspose_neg,
    conjTranspose_zero, Matrix.zero_mulVec, Matrix.one_mulVec, Matrix.neg_mulVec, Matrix.smul_mulVec]
  funext r
  rcases r with (i | i) | (i | i) <;> simp <;> field_simp <;> ring_nf <;> simp <;> ring

theorem Xmat_xyR : Xmat (p ⊕ q) * xyR p q = cj (xyR p q) := by
  unfold xyR Xmat
  rw [Matrix.mul_smul, fromBlocks_multiply]
  ext r s
  rcases r with (i | i) | (i | i) <;> rcases s with (j | j) | (j | j) <;> simp [cj, Matrix.one_apply] <;> split_ifs <;> simp

theorem xyR_dot (x : (p ⊕ p) ⊕ (q ⊕ q) → ℂ) (y : (p ⊕ q) ⊕ (p ⊕ q) → ℂ) : (cj (xyR p q)).mulVec x ⬝ᵥ y = x ⬝ᵥ (xyR p q)ᴴ.mulVec y := by
  rw [← cj_transpose', Matrix.mulVec_transpose, dotProduct_comm, Matrix.dotProduct_mulVec, dotProduct_comm]

theorem xyXi_symm {ħ : ℝ} {X : Matrix (p ⊕ p) (q ⊕ q) ℝ} {Y : Matrix (p ⊕ p) (p ⊕ p) ℝ} (hY : Yᵀ = Y) : (xyXi ħ X Y)ᵀ = xyXi ħ X Y := by
  unfold xyXi
  rw [transpose_add, transpose_add, transpose_smul, transpose_smul, transpose_one, transpose_mul, transpose_transpose, ← transpose_map, hY]

/-- The hypothesis on `Y` used below: adding the noise `Y` is possible. -/
theorem xyXi_pos {ħ : ℝ} (hħ : 0 < ħ) (X : Matrix (p ⊕ p) (q ⊕ q) ℝ) {Y : Matrix (p ⊕ p) (p ⊕ p) ℝ} (hY : Y.PosSemidef) : (xyXi ħ X Y).PosDef := by
  unfold xyXi
  have h1 : ((1 / 2 : ℝ) • (1 : Matrix (p ⊕ p) (p ⊕ p) ℝ)).PosDef := PosDef.one.smul (by norm_num)
  have h2 : ((1 / 2 : ℝ) • (X * Xᵀ)).PosSemidef := by
    have := posSemidef_self_mul_conjTranspose X
    rw [conjTranspose_eq_transpose_of_trivial] at this
    exact this.smul (by norm_num)
  have h3 : (Y.map (· / ħ)).PosSemidef := by
    have : Y.map (· / ħ) = ħ⁻¹ • Y := by ext i j; simp [div_eq_inv_mul]
    rw [this]
    exact hY.smul (inv_nonneg.2 hħ.le)
  exact (h1.add_posSemidef h2).add_posSemidef h3

theorem toC_sub {a b : Type*} (M N : Matrix a b ℝ) : toC (M - N) = toC M - toC N := by ext; simp [toC]

theorem xyK_dot {ξ : Matrix (p ⊕ p) (p ⊕ p) ℝ} (hξ : ξ.PosDef) (X : Matrix (p ⊕ p) (q ⊕ q) ℝ) (η : p ⊕ p → ℂ) (η' : q ⊕ q → ℂ) :
    Sum.elim η η' ⬝ᵥ (toC (xyK ξ X)).mulVec (Sum.elim η η') =
      η ⬝ᵥ η + η' ⬝ᵥ η' - (η - (toC X).mulVec η') ⬝ᵥ (toC ξ⁻¹).mulVec (η - (toC X).mulVec η') := by
  have hs := (posDef_symm hξ).2
  have e : toC (xyK ξ X) = fromBlocks (1 - toC ξ⁻¹) (toC ξ⁻¹ * toC X) ((toC X)ᵀ * toC ξ⁻¹) (1 - (toC X)ᵀ * toC ξ⁻¹ * toC X) := by
    unfold xyK
    rw [show toC (fromBlocks (1 - ξ⁻¹) (ξ⁻¹ * X) (Xᵀ * ξ⁻¹) (1 - Xᵀ * ξ⁻¹ * X)) =
      fromBlocks (toC (1 - ξ⁻¹)) (toC (ξ⁻¹ * X)) (toC (Xᵀ * ξ⁻¹)) (toC (1 - Xᵀ * ξ⁻¹ * X)) from fromBlocks_map ..]
    rw [toC_sub, toC_sub, toC_one, toC_one, toC_mul, toC_mul, toC_mul, toC_mul]
    rfl
  rw [e, fromBlocks_mulVec, Sum.elim_comp_inl, Sum.elim_comp_inr, sumElim_dotProduct_sumElim]
  simp only [Matrix.sub_mulVec, Matrix.one_mulVec, dotProduct_add, dotProduct_sub, Matrix.mulVec_sub, sub_dotProduct, ← Matrix.mulVec_mulVec]
  have h1 : ∀ x : p ⊕ p → ℂ, η' ⬝ᵥ (toC X)ᵀ.mulVec x = (toC X).mulVec η' ⬝ᵥ x := fun x => by
    rw [Matrix.dotProduct_mulVec, Matrix.vecMul_transpose]
  rw [h1, h1, symm_dot hs ((toC X).mulVec η') η]
  ring

theorem toC_mulVec_real {a b : Type*} [Fintype b] (M : Matrix a b ℝ) (v : b → ℝ) : (fun r => ((M.mulVec v r : ℝ) : ℂ)) = (toC M).mulVec fun r => (v r : ℂ) :=
  (toC_mulVec M v).symm

/-- **C73 (from_XY)** The channel built by `Channel.from_XY`, in phase space coordinates: without displacement it is the Gaussian channel with these
`X`, `Y`; with a displacement `d` it has the additional factor `exp(2 η'·Xᵀ ξ⁻¹ d/√ħ)` of the input variables. -/
theorem fromXY_eq {ħ : ℝ} (hħ : 0 < ħ) {X : Matrix (p ⊕ p) (q ⊕ q) ℝ} {Y : Matrix (p ⊕ p) (p ⊕ p) ℝ} (hξ : (xyXi ħ X Y).PosDef) (d : p ⊕ p → ℝ)
    (z : p → ℂ) (z' : q → ℂ) (w : p → ℂ) (w' : q → ℂ) :
    fromXY ħ X Y d z z' w w' = gaussCh (xyXi ħ X Y) X (mean ħ d) z z' w w' *
      Complex.exp (2 * ((rotmat q)ᴴ.mulVec (Sum.elim z' w') ⬝ᵥ (toC (Xᵀ * (xyXi ħ X Y)⁻¹)).mulVec fun r => (mean ħ d r : ℂ))) := by
  unfold fromXY chanFun dmFun gaussCh
  dsimp only
  set ξ := xyXi ħ X Y with hξd
  have hA : Sum.elim (Sum.elim w w') (Sum.elim z z') ⬝ᵥ (xyA ħ X Y).mulVec (Sum.elim (Sum.elim w w') (Sum.elim z z')) =
      Sum.elim ((rotmat p)ᴴ.mulVec (Sum.elim w z)) ((rotmat q)ᴴ.mulVec (Sum.elim z' w')) ⬝ᵥ
        (toC (xyK ξ X)).mulVec (Sum.elim ((rotmat p)ᴴ.mulVec (Sum.elim w z)) ((rotmat q)ᴴ.mulVec (Sum.elim z' w'))) := by
    unfold xyA
    rw [Xmat_xyR, ← Matrix.mulVec_mulVec, ← Matrix.mulVec_mulVec, dotProduct_comm, xyR_dot, dotProduct_comm, xyR_mul]
  have hB : xyB ħ X Y d ⬝ᵥ Sum.elim (Sum.elim w w') (Sum.elim z z') =
      ((rotmat p)ᴴ.mulVec (Sum.elim w z)) ⬝ᵥ (toC ξ⁻¹).mulVec (fun r => (mean ħ d r : ℂ)) +
        ((rotmat q)ᴴ.mulVec (Sum.elim z' w')) ⬝ᵥ (toC (Xᵀ * ξ⁻¹)).mulVec (fun r => (mean ħ d r : ℂ)) := by
    unfold xyB
    rw [smul_dotProduct, xyR_dot, xyR_mul, ← hξd]
    have e : (fun r => ((Sum.elim (ξ⁻¹.mulVec d) ((Xᵀ * ξ⁻¹).mulVec d) r : ℝ) : ℂ)) =
        Sum.elim ((toC ξ⁻¹).mulVec fun r => (d r : ℂ)) ((toC (Xᵀ * ξ⁻¹)).mulVec fun r => (d r : ℂ)) := by
      rw [← toC_mulVec_real, ← toC_mulVec_real]
      funext r
      rcases r with r | r <;> rfl
    have hm : (fun r => (mean ħ d r : ℂ)) = ((1 / Real.sqrt ħ : ℝ) : ℂ) • fun r => (d r : ℂ) := by
      funext r
      simp only [mean, Pi.smul_apply, smul_eq_mul]
      push_cast
      ring
    rw [e, sumElim_dotProduct_sumElim, hm, Matrix.mulVec_smul, Matrix.mulVec_smul, dotProduct_smul, dotProduct_smul, smul_add,
      dotProduct_comm, dotProduct_comm ((toC (Xᵀ * ξ⁻¹)).mulVec _)]
  have hC : ((xyC ħ X Y d : ℝ) : ℂ) = ((Real.sqrt ξ.det)⁻¹ : ℝ) * Complex.exp (-(1 / 2) * ((fun r => (mean ħ d r : ℂ)) ⬝ᵥ (toC ξ⁻¹).mulVec fun r => (mean ħ d r : ℂ))) := by
    unfold xyC
    rw [← hξd, ← toC_mulVec_real]
    have e : (fun r => (mean ħ d r : ℂ)) ⬝ᵥ (fun r => ((ξ⁻¹.mulVec (mean ħ d) r : ℝ) : ℂ)) = ((ħ⁻¹ * (d ⬝ᵥ ξ⁻¹.mulVec d) : ℝ) : ℂ) := by
      have hm : mean ħ d = (Real.sqrt ħ)⁻¹ • d := by funext r; simp [mean, div_eq_inv_mul]
      have : ((mean ħ d ⬝ᵥ ξ⁻¹.mulVec (mean ħ d) : ℝ) : ℂ) = (fun r => (mean ħ d r : ℂ)) ⬝ᵥ (fun r => ((ξ⁻¹.mulVec (mean ħ d) r : ℝ) : ℂ)) := by
        simp [dotProduct]
      rw [← this, hm, Matrix.mulVec_smul, dotProduct_smul, smul_dotProduct, smul_eq_mul, smul_eq_mul, ← mul_assoc, ← mul_inv, Real.mul_self_sqrt hħ.le]
    rw [e, div_eq_inv_mul]
    push_cast
    refine congrArg (HMul.hMul _) (congrArg Complex.exp ?_)
    ring
  rw [hA, hB, hC, xyK_dot hξ]
  have hs := (posDef_symm hξ).2
  set η := (rotmat p)ᴴ.mulVec (Sum.elim w z)
  set η' := (rotmat q)ᴴ.mulVec (Sum.elim z' w')
  unfold hus
  set δ : p ⊕ p → ℂ := fun r => (mean ħ d r : ℂ)
  have hx : η' ⬝ᵥ (toC (Xᵀ * ξ⁻¹)).mulVec δ = (toC X).mulVec η' ⬝ᵥ (toC ξ⁻¹).mulVec δ := by
    rw [toC_mul, ← Matrix.mulVec_mulVec, Matrix.dotProduct_mulVec, show toC Xᵀ = (toC X)ᵀ from rfl, Matrix.vecMul_transpose]
  rw [hx, mul_assoc, ← Complex.exp_add, mul_assoc _ (Complex.exp _) (Complex.exp _), ← Complex.exp_add, mul_assoc _ (Complex.exp _) (Complex.exp _),
    ← Complex.exp_add, mul_assoc _ (Complex.exp _) (Complex.exp _), ← Complex.exp_add]
  refine congrArg (HMul.hMul _) (congrArg Complex.exp ?_)
  set ζ := η - (toC X).mulVec η' with hζ
  have e1 : η ⬝ᵥ (toC ξ⁻¹).mulVec δ = ζ ⬝ᵥ (toC ξ⁻¹).mulVec δ + (toC X).mulVec η' ⬝ᵥ (toC ξ⁻¹).mulVec δ := by
    rw [← add_dotProduct, hζ, sub_add_cancel]
  rw [e1]
  clear_value ζ
  simp only [Matrix.mulVec_sub, dotProduct_sub, sub_dotProduct]
  rw [symm_dot hs δ ζ]
  ring

end Verif.Manifold
