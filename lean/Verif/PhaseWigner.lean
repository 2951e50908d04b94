import Verif.Homodyne

/-!
# Phase space quasi-probabilities: `BtoPS` and `State.wigner` (C86)

Model of `bargmann_to_wigner_Abc`, of its contraction with a Gaussian state, of `PolyExpAnsatz.PS` and of `State.wigner`.
-/

namespace Verif.Manifold
open Matrix Verif.Gauss MeasureTheory
open scoped ComplexOrder MatrixOrder

variable {n : Type*} [Fintype n] [DecidableEq n]

/-! ## Model -/

/-- physics/triples.py:880-891 of `bargmann_to_wigner_Abc`: the matrix `A` (the vector is zero); the variables are those of the wires out_bra, in_bra,
out_ket, in_ket. -/
noncomputable def wigS (n : Type*) [Fintype n] [DecidableEq n] (s : ℝ) : Matrix ((n ⊕ n) ⊕ (n ⊕ n)) ((n ⊕ n) ⊕ (n ⊕ n)) ℂ :=
  (2 / ((s : ℂ) - 1)) • fromBlocks
    (fromBlocks 0 (-1) (-1) 0) (fromBlocks 1 0 0 ((((s : ℂ) + 1) / 2) • 1))
    (fromBlocks 1 0 0 ((((s : ℂ) + 1) / 2) • 1)) (fromBlocks 0 (-1) (-1) 0)

/-- physics/triples.py:893 of `bargmann_to_wigner_Abc`: the constant. -/
noncomputable def wigS0 (s : ℝ) (N : ℕ) : ℝ := (2 / (|s - 1| * Real.pi)) ^ N

/-- The matrix of the Gaussian integral contracting a state with matrix `A` with the map (physics/gaussian_integrals.py, `M`). -/
noncomputable def wigM (s : ℝ) (A : Matrix (n ⊕ n) (n ⊕ n) ℂ) : Matrix ((n ⊕ n) ⊕ (n ⊕ n)) ((n ⊕ n) ⊕ (n ⊕ n)) ℂ :=
  fromBlocks A (-1) (-1) ((wigS n s).submatrix inW inW)

/-- lab/states/base.py:191 `self >> BtoPS(self.modes, s)`, the matrix of the result: `R - D M⁻¹ Dᵀ`. -/
noncomputable def wigA (s : ℝ) (A : Matrix (n ⊕ n) (n ⊕ n) ℂ) : Matrix (n ⊕ n) (n ⊕ n) ℂ :=
  (wigS n s).submatrix outW outW - (wigS n s).submatrix outW inW * (wigM s A)⁻¹.toBlocks₂₂ * (wigS n s).submatrix inW outW

/-- lab/states/base.py:191, the vector of the result: `r - D M⁻¹ b`. -/
noncomputable def wigB (s : ℝ) (A : Matrix (n ⊕ n) (n ⊕ n) ℂ) (b : n ⊕ n → ℂ) : n ⊕ n → ℂ :=
  -((wigS n s).submatrix outW inW).mulVec ((wigM s A)⁻¹.toBlocks₂₁.mulVec b)

/-- lab/states/base.py:191, the constant of the result: `c c' √((-1)ᵐ / det M) exp(-½ b M⁻¹ b)` for `m` pairs of contracted variables. -/
noncomputable def wigC (s : ℝ) (A : Matrix (n ⊕ n) (n ⊕ n) ℂ) (b : n ⊕ n → ℂ) (c : ℂ) : ℂ :=
  c * wigS0 s (Fintype.card n) * ((-1) ^ Fintype.card (n ⊕ n) / (wigM s A).det) ^ (1 / 2 : ℂ) *
    Complex.exp (-(1 / 2) * (b ⬝ᵥ (wigM s A)⁻¹.toBlocks₁₁.mulVec b))

/-- physics/ansatz/polyexp_ansatz.py:221 of `PS`: `W = conj(rotmat) / √ħ`. -/
noncomputable def psW (n : Type*) [Fintype n] [DecidableEq n] (ħ : ℝ) : Matrix (n ⊕ n) (n ⊕ n) ℂ :=
  (((Real.sqrt ħ)⁻¹ : ℝ) : ℂ) • cj (rotmat n)

/-- physics/ansatz/polyexp_ansatz.py:223 of `PS`: `einsum("ji,...jk,kl->...il", W, A, W)`. -/
noncomputable def psMat (ħ : ℝ) (A : Matrix (n ⊕ n) (n ⊕ n) ℂ) : Matrix (n ⊕ n) (n ⊕ n) ℂ :=
  Matrix.of fun i l => ∑ j, ∑ k, psW n ħ j i * A j k * psW n ħ k l

/-- physics/ansatz/polyexp_ansatz.py:224 of `PS`: `einsum("ij,...j->...i", W, b)`. -/
noncomputable def psVec (ħ : ℝ) (b : n ⊕ n → ℂ) : n ⊕ n → ℂ := fun i => ∑ j, psW n ħ i j * b j

/-- physics/ansatz/polyexp_ansatz.py:225 of `PS`: the constant (`N` is half the number of variables). -/
noncomputable def psConst (ħ : ℝ) (N : ℕ) (c : ℂ) : ℂ := c / (2 * (ħ : ℂ)) ^ N

/-- The value at the point `z` (the variables of the bra wires followed by those of the ket wires) of the ansatz of `state >> BtoPS(modes, s)`, for the state
`DM.from_phase_space(modes, (cov, μ, k))`. -/
noncomputable def btops (ħ s : ℝ) (cov : Matrix (n ⊕ n) (n ⊕ n) ℝ) (μ : n ⊕ n → ℝ) (k : ℂ) (z : n ⊕ n → ℂ) : ℂ :=
  wigC s (rhoA ħ cov) (rhoB ħ cov μ) (k * rhoC ħ cov μ) *
    Complex.exp (1 / 2 * (z ⬝ᵥ (wigA s (rhoA ħ cov)).mulVec z) + wigB s (rhoA ħ cov) (rhoB ħ cov μ) ⬝ᵥ z)

/-- lab/states/base.py:175-194 `State.wigner`: the value of the ansatz `(self >> BtoPS(self.modes, s=0)).ansatz.PS` at the phase space point `r`. -/
noncomputable def wigner (ħ : ℝ) (cov : Matrix (n ⊕ n) (n ⊕ n) ℝ) (μ : n ⊕ n → ℝ) (k : ℂ) (r : n ⊕ n → ℝ) : ℂ :=
  psConst ħ (Fintype.card n) (wigC 0 (rhoA ħ cov) (rhoB ħ cov μ) (k * rhoC ħ cov μ)) *
    Complex.exp (1 / 2 * ((fun i => (r i : ℂ)) ⬝ᵥ (psMat ħ (wigA 0 (rhoA ħ cov))).mulVec fun i => (r i : ℂ)) +
      psVec ħ (wigB 0 (rhoA ħ cov) (rhoB ħ cov μ)) ⬝ᵥ fun i => (r i : ℂ))

/-! ## Specification -/

/-- Reflection of the momenta: `(x, p) ↦ (x, -p)`. -/
def mirror (r : n ⊕ n → ℝ) : n ⊕ n → ℝ := Sum.elim (fun i => r (.inl i)) fun i => -r (.inr i)

/-! ## Closed form of the contraction -/

theorem wigS_blocks {s : ℝ} (hs : s < 1) :
    (wigS n s).submatrix outW outW = -((2 / (1 - s) : ℝ) : ℂ) • Xmat n ∧
    (wigS n s).submatrix inW inW = (1 - ((2 / (1 - s) : ℝ) : ℂ)) • Xmat n ∧
    (wigS n s).submatrix outW inW = ((2 / (1 - s) : ℝ) : ℂ) • 1 ∧ (wigS n s).submatrix inW outW = ((2 / (1 - s) : ℝ) : ℂ) • 1 := by
  have h1 : (s : ℂ) - 1 ≠ 0 := by
    have : s - 1 ≠ 0 := by linarith
    exact_mod_cast this
  have h2 : (1 : ℂ) - s ≠ 0 := by
    have : 1 - s ≠ 0 := by linarith
    exact_mod_cast this
  have e1 : (2 : ℂ) / ((s : ℂ) - 1) = -(2 / (1 - s)) := by field_simp; ring
  have e2 : -(2 / (1 - (s : ℂ))) * (((s : ℂ) + 1) / 2) = 1 - 2 / (1 - s) := by field_simp; ring
  refine ⟨?_, ?_, ?_, ?_⟩ <;> ext p q <;> rcases p with i | i <;> rcases q with j | j <;>
    simp [wigS, outW, inW, Xmat, Matrix.one_apply, e1] <;> split_ifs <;> field_simp <;> ring

theorem wigS0_eq {s : ℝ} (hs : s < 1) (N : ℕ) : wigS0 s N = (2 / (1 - s) / Real.pi) ^ N := by
  unfold wigS0
  rw [abs_of_neg (by linarith), neg_sub, div_div]

variable {ħ s : ℝ} {cov : Matrix (n ⊕ n) (n ⊕ n) ℝ}

/-- `1 + t (v - 1) = (t/ħ) (cov - s ħ/2)`. -/
theorem shift_eq (hħ : 0 < ħ) (hs : s < 1) (cov : Matrix (n ⊕ n) (n ⊕ n) ℝ) :
    1 + (2 / (1 - s)) • (vac ħ cov - 1) = (2 / (1 - s) / ħ) • (cov - (s * ħ / 2) • (1 : Matrix (n ⊕ n) (n ⊕ n) ℝ)) := by
  have h1 : 1 - s ≠ 0 := by linarith
  unfold vac
  ext p q
  simp only [Matrix.add_apply, Matrix.smul_apply, Matrix.sub_apply, smul_eq_mul]
  field_simp
  ring

theorem wig_W (hħ : 0 < ħ) (hs : s < 1) (h : (cov + (ħ / 2) • 1).PosDef) (hC : (cov - (s * ħ / 2) • (1 : Matrix (n ⊕ n) (n ⊕ n) ℝ)).PosDef) :
    (1 - ((1 - ((2 / (1 - s) : ℝ) : ℂ)) • Xmat n) * rhoA ħ cov) *
      (rotmat n * toC ((ħ * (1 - s) / 2) • (vac ħ cov * (cov - (s * ħ / 2) • (1 : Matrix (n ⊕ n) (n ⊕ n) ℝ))⁻¹)) * (rotmat n)ᴴ) = 1 := by
  obtain ⟨r1, -⟩ := rhoA_rot hħ h
  obtain ⟨i1, j1⟩ := posDef_inv (vac_pos hħ h)
  obtain ⟨i2, -⟩ := posDef_inv hC
  have h1 : 1 - s ≠ 0 := by linarith
  have hsh := shift_eq hħ hs cov
  set v := vac ħ cov
  set C := cov - (s * ħ / 2) • (1 : Matrix (n ⊕ n) (n ⊕ n) ℝ)
  set t := 2 / (1 - s) with ht
  have hX : Xmat n * cj (rotmat n) = rotmat n := by rw [← Xmat_rot, ← Matrix.mul_assoc, Xmat_sq, Matrix.one_mul]
  have e1 : 1 - ((1 - (t : ℂ)) • Xmat n) * rhoA ħ cov = rotmat n * toC ((t / ħ) • (C * v⁻¹)) * (rotmat n)ᴴ := by
    rw [r1, Matrix.smul_mul]
    have e : Xmat n * (cj (rotmat n) * (1 - toC v⁻¹) * (rotmat n)ᴴ) = rotmat n * (1 - toC v⁻¹) * (rotmat n)ᴴ := by
      calc _ = (Xmat n * cj (rotmat n)) * (1 - toC v⁻¹) * (rotmat n)ᴴ := by simp only [Matrix.mul_assoc]
        _ = _ := by rw [hX]
    rw [e]
    have e' : toC ((t / ħ) • (C * v⁻¹)) = 1 - (1 - (t : ℂ)) • (1 - toC v⁻¹) := by
      rw [← Matrix.smul_mul, ← hsh, Matrix.add_mul, Matrix.one_mul, Matrix.smul_mul, Matrix.sub_mul, i1, Matrix.one_mul]
      ext p q
      simp only [toC, Matrix.map_apply, Matrix.add_apply, Matrix.smul_apply, Matrix.sub_apply, smul_eq_mul, Matrix.one_apply]
      split_ifs <;> push_cast <;> ring
    rw [e']
    generalize 1 - toC v⁻¹ = N
    rw [Matrix.mul_sub, Matrix.sub_mul, Matrix.mul_one, rotmat_mul, Matrix.mul_smul, Matrix.smul_mul]
  rw [e1]
  calc _ = rotmat n * (toC ((t / ħ) • (C * v⁻¹)) * (((rotmat n)ᴴ * rotmat n) * toC ((ħ * (1 - s) / 2) • (v * C⁻¹)))) * (rotmat n)ᴴ := by
        simp only [Matrix.mul_assoc]
    _ = 1 := by
        rw [rotmat_mul', Matrix.one_mul, ← toC_mul, Matrix.smul_mul, Matrix.mul_smul, smul_smul, Matrix.mul_assoc C, ← Matrix.mul_assoc _ v, j1,
          Matrix.one_mul, i2, show t / ħ * (ħ * (1 - s) / 2) = 1 by rw [ht]; field_simp, one_smul, toC_one, Matrix.mul_one, rotmat_mul]

theorem wig_closed (hħ : 0 < ħ) (hs : s < 1) (h : (cov + (ħ / 2) • 1).PosDef) (hC : (cov - (s * ħ / 2) • (1 : Matrix (n ⊕ n) (n ⊕ n) ℝ)).PosDef)
    (μ : n ⊕ n → ℝ) (k : ℂ) :
    wigA s (rhoA ħ cov) = -(cj (rotmat n) * toC (ħ • (cov - (s * ħ / 2) • (1 : Matrix (n ⊕ n) (n ⊕ n) ℝ))⁻¹) * (rotmat n)ᴴ) ∧
    wigB s (rhoA ħ cov) (rhoB ħ cov μ) = (cj (rotmat n)).mulVec
      (fun r => ((Real.sqrt ħ * (cov - (s * ħ / 2) • (1 : Matrix (n ⊕ n) (n ⊕ n) ℝ))⁻¹.mulVec μ r : ℝ) : ℂ)) ∧
    wigC s (rhoA ħ cov) (rhoB ħ cov μ) (k * rhoC ħ cov μ) =
      k * (((2 * ħ) ^ Fintype.card n * normalPdf (cov - (s * ħ / 2) • (1 : Matrix (n ⊕ n) (n ⊕ n) ℝ)) μ 0 : ℝ) : ℂ) := by
  have hW := wig_W hħ hs h hC
  obtain ⟨r1, -⟩ := rhoA_rot hħ h
  have V1 := vac_pos hħ h
  obtain ⟨i1, j1⟩ := posDef_inv V1
  obtain ⟨i2, j2⟩ := posDef_inv hC
  have h1 : 1 - s ≠ 0 := by linarith
  have h1' : 0 < 1 - s := by linarith
  have hsh := shift_eq hħ hs cov
  have b1 := rhoB_eq hħ h μ
  have c1 := rhoC_eq hħ h μ
  obtain ⟨sy1, -⟩ := rhoA_herm hħ h
  obtain ⟨k1, k2, k3, k4⟩ := wigS_blocks (n := n) hs
  obtain ⟨u1, u2, u3⟩ := cj_rot_unitary (n := n)
  set v := vac ħ cov with hv
  set C := cov - (s * ħ / 2) • (1 : Matrix (n ⊕ n) (n ⊕ n) ℝ) with hCd
  obtain ⟨t, ht⟩ : ∃ t, t = 2 / (1 - s) := ⟨_, rfl⟩
  rw [← ht] at hW hsh k1 k2 k3 k4
  have htp : 0 < t := by rw [ht]; positivity
  have ht2 : ħ * (1 - s) / 2 = ħ / t := by rw [ht]; field_simp
  rw [ht2] at hW
  set W := rotmat n * toC ((ħ / t) • (v * C⁻¹)) * (rotmat n)ᴴ with hWd
  have hXs : ((1 - (t : ℂ)) • Xmat n)ᵀ = (1 - (t : ℂ)) • Xmat n := by rw [transpose_smul, Xmat_T]
  have hinv := overlap_inv sy1 hXs hW
  have hM : wigM s (rhoA ħ cov) = fromBlocks (rhoA ħ cov) (-1) (-1) ((1 - (t : ℂ)) • Xmat n) := by unfold wigM; rw [k2]
  have hvT : vᵀ = v := by
    have := V1.isHermitian
    unfold IsHermitian at this
    rwa [conjTranspose_eq_transpose_of_trivial] at this
  have hCT : (C⁻¹)ᵀ = C⁻¹ := by
    have := hC.isHermitian.inv
    unfold IsHermitian at this
    rwa [conjTranspose_eq_transpose_of_trivial] at this
  have hvC : v = ħ⁻¹ • C + ((1 + s) / 2) • 1 := by
    rw [hv, hCd]
    unfold vac
    ext p q
    simp only [Matrix.add_apply, Matrix.smul_apply, Matrix.sub_apply, smul_eq_mul]
    field_simp
    ring
  have hX : Xmat n * cj (rotmat n) = rotmat n := by rw [← Xmat_rot, ← Matrix.mul_assoc, Xmat_sq, Matrix.one_mul]
  have hXR : Xmat n = cj (rotmat n) * (rotmat n)ᴴ := by rw [← Xmat_rot, Matrix.mul_assoc, rotmat_mul, Matrix.mul_one]
  have hRR : (rotmat n)ᴴ * rotmat n = 1 := rotmat_mul'
  have cj' : toC v⁻¹ * toC v = 1 := by rw [← toC_mul, j1, toC_one]
  refine ⟨?_, ?_, ?_⟩
  · unfold wigA
    rw [k1, k3, k4, hM, hinv, toBlocks_fromBlocks₂₂, Matrix.smul_mul, Matrix.one_mul, Matrix.mul_smul, Matrix.mul_one, smul_neg, smul_neg, sub_neg_eq_add]
    have eAW : rhoA ħ cov * W = cj (rotmat n) * toC ((ħ / t) • ((v - 1) * C⁻¹)) * (rotmat n)ᴴ := by
      rw [r1, hWd]
      calc _ = cj (rotmat n) * ((1 - toC v⁻¹) * (((rotmat n)ᴴ * rotmat n) * toC ((ħ / t) • (v * C⁻¹)))) * (rotmat n)ᴴ := by simp only [Matrix.mul_assoc]
        _ = _ := by
            have e : 1 - toC v⁻¹ = toC (1 - v⁻¹) := by rw [toC_sub, toC_one]
            rw [hRR, Matrix.one_mul, e, ← toC_mul, Matrix.mul_smul, Matrix.sub_mul, Matrix.one_mul, ← Matrix.mul_assoc, j1, Matrix.one_mul,
              Matrix.sub_mul v, Matrix.one_mul]
    rw [eAW, hXR]
    have e3 : toC (ħ • C⁻¹) = (t : ℂ) • 1 - (t : ℂ) • (t : ℂ) • toC ((ħ / t) • ((v - 1) * C⁻¹)) := by
      have e4 : ħ • C⁻¹ = t • 1 - (t * t * (ħ / t)) • ((v - 1) * C⁻¹) := by
        have e5 : t • (v - 1) = (t / ħ) • C - 1 := by rw [← hsh]; abel
        have e6 : (t * t * (ħ / t)) • ((v - 1) * C⁻¹) = ħ • ((t • (v - 1)) * C⁻¹) := by
          rw [Matrix.smul_mul, smul_smul]; congr 1; field_simp
        rw [e6, e5, Matrix.sub_mul, Matrix.smul_mul, i2, Matrix.one_mul, smul_sub, smul_smul, show ħ * (t / ħ) = t by field_simp]
        abel
      rw [e4]
      ext p q
      simp only [toC, Matrix.map_apply, Matrix.sub_apply, Matrix.smul_apply, smul_eq_mul, Matrix.one_apply]
      split_ifs <;> push_cast <;> ring
    rw [e3]
    generalize toC ((ħ / t) • ((v - 1) * C⁻¹)) = N
    generalize cj (rotmat n) = R'
    rw [Matrix.mul_sub R', Matrix.sub_mul]
    simp only [Matrix.mul_smul, Matrix.smul_mul, Matrix.mul_one, neg_smul]
    abel
  · unfold wigB
    rw [k3, hM, hinv, toBlocks_fromBlocks₂₁, b1, Matrix.neg_mulVec, Matrix.mulVec_neg, neg_neg, Matrix.smul_mulVec, Matrix.one_mulVec, Matrix.mulVec_mulVec]
    have e : Wᵀ * cj (rotmat n) = cj (rotmat n) * toC ((ħ / t) • (C⁻¹ * v)) := by
      rw [hWd, transpose_mul, transpose_mul, conjT_transpose, ← toC_T, transpose_smul, transpose_mul, hCT, hvT, Matrix.mul_assoc, Matrix.mul_assoc, u2, Matrix.mul_one]
    rw [e, ← Matrix.mulVec_mulVec, toC_mulVec, ← Matrix.mulVec_smul]
    refine congrArg _ (funext fun r => ?_)
    have e2 : ((ħ / t) • (C⁻¹ * v)).mulVec (v⁻¹.mulVec (mean ħ μ)) = (ħ / t / Real.sqrt ħ) • C⁻¹.mulVec μ := by
      rw [Matrix.smul_mulVec, Matrix.mulVec_mulVec, Matrix.mul_assoc, i1, Matrix.mul_one,
        show mean ħ μ = (Real.sqrt ħ)⁻¹ • μ from funext fun r => by simp [mean, div_eq_inv_mul], Matrix.mulVec_smul, smul_smul, ← div_eq_mul_inv]
    rw [Pi.smul_apply, e2, Pi.smul_apply, smul_eq_mul, smul_eq_mul, ← Complex.ofReal_mul]
    refine congrArg Complex.ofReal ?_
    have hsq := Real.mul_self_sqrt hħ.le
    have hsp : 0 < Real.sqrt ħ := Real.sqrt_pos.2 hħ
    field_simp
    linear_combination (-(C⁻¹.mulVec μ r)) * hsq
  · unfold wigC
    rw [hM, hinv, toBlocks_fromBlocks₁₁, overlap_det hW, b1, c1, wigS0_eq hs, ← ht]
    have hdet : W.det = (((ħ / t) ^ (2 * Fintype.card n) * (v.det * C.det⁻¹) : ℝ) : ℂ) := by
      rw [hWd, det_mul, det_mul, mul_right_comm, ← det_mul, rotmat_mul, det_one, one_mul, toC_det, det_smul, det_mul, Fintype.card_sum, ← two_mul]
      have : (C⁻¹).det = C.det⁻¹ := by
        have := congrArg det i2
        rw [det_mul, det_one] at this
        exact eq_inv_of_mul_eq_one_right this
      rw [this]
    have hq : ((cj (rotmat n)).mulVec fun r => ((v⁻¹.mulVec (mean ħ μ) r : ℝ) : ℂ)) ⬝ᵥ (-(W * ((1 - (t : ℂ)) • Xmat n))).mulVec
        ((cj (rotmat n)).mulVec fun r => ((v⁻¹.mulVec (mean ħ μ) r : ℝ) : ℂ)) =
        ((-((1 - t) * (ħ / t) * (mean ħ μ ⬝ᵥ (C⁻¹ * v⁻¹).mulVec (mean ħ μ))) : ℝ) : ℂ) := by
      have e1 : (rotmat n)ᴴ * (W * ((1 - (t : ℂ)) • Xmat n)) * cj (rotmat n) = toC ((1 - t) • (ħ / t) • (v * C⁻¹)) := by
        rw [hWd]
        calc _ = (1 - (t : ℂ)) • (((rotmat n)ᴴ * rotmat n) * toC ((ħ / t) • (v * C⁻¹)) * ((rotmat n)ᴴ * (Xmat n * cj (rotmat n)))) := by
              simp only [Matrix.mul_assoc, Matrix.mul_smul, Matrix.smul_mul]
          _ = _ := by
              rw [hX, hRR, Matrix.mul_one, Matrix.one_mul]
              ext p q
              simp [toC]
      rw [Matrix.neg_mulVec, dotProduct_neg, dot_rot, Matrix.mulVec_mulVec, Matrix.mulVec_mulVec, e1, toC_mulVec]
      have e2 : ∀ a b : n ⊕ n → ℝ, (fun r => (a r : ℂ)) ⬝ᵥ (fun r => (b r : ℂ)) = ((a ⬝ᵥ b : ℝ) : ℂ) := fun a b => by simp [dotProduct]
      rw [e2, ← Complex.ofReal_neg]
      refine congrArg Complex.ofReal (congrArg Neg.neg ?_)
      rw [Matrix.smul_mulVec, Matrix.smul_mulVec, dotProduct_smul, dotProduct_smul, smul_eq_mul, smul_eq_mul, ← mul_assoc]
      refine congrArg _ ?_
      have hvI : (v⁻¹)ᵀ = v⁻¹ := by rw [transpose_nonsing_inv, hvT]
      have e4 : ∀ y, v⁻¹.mulVec (mean ħ μ) ⬝ᵥ y = mean ħ μ ⬝ᵥ v⁻¹.mulVec y := fun y => by
        rw [Matrix.dotProduct_mulVec, ← Matrix.mulVec_transpose, hvI]
      rw [e4, Matrix.mulVec_mulVec, Matrix.mulVec_mulVec, ← Matrix.mul_assoc, j1, Matrix.one_mul]
    have hE : mean ħ μ ⬝ᵥ v⁻¹.mulVec (mean ħ μ) - (1 - t) * (ħ / t) * (mean ħ μ ⬝ᵥ (C⁻¹ * v⁻¹).mulVec (mean ħ μ)) = μ ⬝ᵥ C⁻¹.mulVec μ := by
      have e1 : v⁻¹ - ((1 - t) * (ħ / t)) • (C⁻¹ * v⁻¹) = ħ • C⁻¹ := by
        have e2 : 1 - ((1 - t) * (ħ / t)) • C⁻¹ = (ħ • C⁻¹) * v := by
          rw [hvC, Matrix.mul_add, Matrix.smul_mul, Matrix.mul_smul, j2, Matrix.smul_mul, Matrix.mul_smul, Matrix.mul_one, smul_smul, smul_smul,
            mul_inv_cancel₀ hħ.ne', one_smul, sub_eq_add_neg, ← neg_smul]
          congr 2
          rw [ht]; field_simp; ring
        calc _ = (1 - ((1 - t) * (ħ / t)) • C⁻¹) * v⁻¹ := by rw [Matrix.sub_mul, Matrix.one_mul, Matrix.smul_mul]
          _ = _ := by rw [e2, Matrix.mul_assoc, i1, Matrix.mul_one]
      have e3 := congrArg (fun M : Matrix (n ⊕ n) (n ⊕ n) ℝ => mean ħ μ ⬝ᵥ M.mulVec (mean ħ μ)) e1
      simp only [Matrix.sub_mulVec, dotProduct_sub, Matrix.smul_mulVec, dotProduct_smul, smul_eq_mul] at e3
      rw [e3, show mean ħ μ = (Real.sqrt ħ)⁻¹ • μ from funext fun r => by simp [mean, div_eq_inv_mul], Matrix.mulVec_smul, dotProduct_smul, smul_dotProduct,
        smul_eq_mul, smul_eq_mul]
      have hsq := Real.mul_self_sqrt hħ.le
      have hsp : 0 < Real.sqrt ħ := Real.sqrt_pos.2 hħ
      field_simp
      rw [Real.sq_sqrt hħ.le]
    rw [hq, hdet]
    unfold normalPdf
    rw [zero_sub, neg_dotProduct, Matrix.mulVec_neg, dotProduct_neg, neg_neg, ← hE]
    have hdp : 0 < v.det * C.det⁻¹ := mul_pos V1.det_pos (inv_pos.2 hC.det_pos)
    have hpow : (((ħ / t) ^ (2 * Fintype.card n) * (v.det * C.det⁻¹) : ℝ) : ℂ) ^ (1 / 2 : ℂ) =
        (((ħ / t) ^ Fintype.card n * (Real.sqrt v.det * (Real.sqrt C.det)⁻¹) : ℝ) : ℂ) := by
      rw [show (1 / 2 : ℂ) = ((1 / 2 : ℝ) : ℂ) by norm_num, ← Complex.ofReal_cpow (by positivity), ← Real.sqrt_eq_rpow, Real.sqrt_mul (by positivity),
        mul_comm 2, pow_mul, Real.sqrt_sq (by positivity), Real.sqrt_mul V1.det_pos.le, Real.sqrt_inv]
    rw [hpow, Fintype.card_sum, ← two_mul, Real.sqrt_mul (by positivity), mul_comm 2 (Fintype.card n), pow_mul, Real.sqrt_sq (by positivity)]
    generalize mean ħ μ ⬝ᵥ v⁻¹.mulVec (mean ħ μ) = a
    generalize mean ħ μ ⬝ᵥ (C⁻¹ * v⁻¹).mulVec (mean ħ μ) = b
    rw [show Complex.exp (-(1 / 2) * ((-((1 - t) * (ħ / t) * b) : ℝ) : ℂ)) = ((Real.exp (-(1 / 2) * -((1 - t) * (ħ / t) * b)) : ℝ) : ℂ) by push_cast; rfl]
    have hsv := Real.sqrt_pos.2 V1.det_pos
    have hsc := Real.sqrt_pos.2 hC.det_pos
    have hexp : Real.exp (-(1 / 2) * (a - (1 - t) * (ħ / t) * b)) = Real.exp (-(1 / 2) * a) * Real.exp (-(1 / 2) * -((1 - t) * (ħ / t) * b)) := by
      rw [← Real.exp_add]; congr 1; ring
    rw [hexp, mul_assoc k, mul_assoc k, mul_assoc k]
    refine congrArg (HMul.hMul k) ?_
    rw [← Complex.ofReal_mul, ← Complex.ofReal_mul, ← Complex.ofReal_mul]
    refine congrArg Complex.ofReal ?_
    generalize Real.exp (-(1 / 2) * a) = E1
    generalize Real.exp (-(1 / 2) * -((1 - t) * (ħ / t) * b)) = E2
    have hp : (t / Real.pi) ^ Fintype.card n * (ħ / t) ^ Fintype.card n * (2 * Real.pi) ^ Fintype.card n = (2 * ħ) ^ Fintype.card n := by
      rw [← mul_pow, ← mul_pow]; congr 1; field_simp
    rw [← hp]
    have hpi : (2 * Real.pi) ^ Fintype.card n ≠ 0 := by positivity
    field_simp

/-! ## The quasi-probabilities -/

theorem normalPdf_zero {κ : Type*} [Fintype κ] [DecidableEq κ] {V : Matrix κ κ ℝ} (hV : V.PosDef) (m x : κ → ℝ) :
    normalPdf V m x = normalPdf V m 0 * Real.exp (-(1 / 2) * (x ⬝ᵥ V⁻¹.mulVec x) + V⁻¹.mulVec m ⬝ᵥ x) := by
  have hVT : (V⁻¹)ᵀ = V⁻¹ := by
    have := hV.isHermitian.inv
    unfold IsHermitian at this
    rwa [conjTranspose_eq_transpose_of_trivial] at this
  have e : x ⬝ᵥ V⁻¹.mulVec m = m ⬝ᵥ V⁻¹.mulVec x := by
    rw [Matrix.dotProduct_mulVec, ← Matrix.mulVec_transpose, hVT, dotProduct_comm]
  unfold normalPdf
  rw [mul_assoc, ← Real.exp_add, zero_sub, neg_dotProduct, Matrix.mulVec_neg, dotProduct_neg, neg_neg, Matrix.mulVec_sub, dotProduct_sub, sub_dotProduct, sub_dotProduct,
    e, dotProduct_comm (V⁻¹.mulVec m) x, e]
  refine congrArg _ (congrArg Real.exp ?_)
  ring

/-- **C86 (quasi-probability)** `state >> BtoPS(modes, s)`, evaluated at `γ` on the bra wires and `γ̄` on the ket wires, is (up to the Jacobian `(2ħ)^m`
of the change of variables) the `s`-ordered quasi-probability of the state: the normal density with the mean of the state and the covariance matrix `cov - s ħ/2`. -/
theorem C86_quasi (hħ : 0 < ħ) (hs : s < 1) (h : (cov + (ħ / 2) • 1).PosDef) (hC : (cov - (s * ħ / 2) • (1 : Matrix (n ⊕ n) (n ⊕ n) ℝ)).PosDef)
    (μ : n ⊕ n → ℝ) (k : ℂ) (γ : n → ℂ) :
    btops ħ s cov μ k (Sum.elim γ (star γ)) =
      k * (((2 * ħ) ^ Fintype.card n * normalPdf (cov - (s * ħ / 2) • (1 : Matrix (n ⊕ n) (n ⊕ n) ℝ)) μ (point ħ γ) : ℝ) : ℂ) := by
  obtain ⟨a1, a2, a3⟩ := wig_closed hħ hs h hC μ k
  unfold btops
  rw [a1, a2, a3, normalPdf_zero hC μ (point ħ γ), ← mul_assoc ((2 * ħ) ^ _), Complex.ofReal_mul (_ * _) (Real.exp _), ← mul_assoc k, Complex.ofReal_exp]
  refine congrArg (HMul.hMul _) (congrArg Complex.exp ?_)
  have e2 : ∀ a b : n ⊕ n → ℝ, (fun r => (a r : ℂ)) ⬝ᵥ (fun r => (b r : ℂ)) = ((a ⬝ᵥ b : ℝ) : ℂ) := fun a b => by simp [dotProduct]
  set D := (cov - (s * ħ / 2) • (1 : Matrix (n ⊕ n) (n ⊕ n) ℝ))⁻¹
  obtain ⟨x, hx⟩ : ∃ x : n ⊕ n → ℝ, x = fun r => Real.sqrt 2 * Sum.elim (fun i => (γ i).re) (fun i => (γ i).im) r := ⟨_, rfl⟩
  have hr : (rotmat n)ᴴ.mulVec (Sum.elim γ (star γ)) = fun r => (x r : ℂ) := by rw [rot_pair, hx]
  have hp : point ħ γ = Real.sqrt ħ • x := by
    rw [hx]
    funext r
    unfold point
    rw [Pi.smul_apply, smul_eq_mul, Real.sqrt_mul zero_le_two]
    ring
  rw [Matrix.neg_mulVec, dotProduct_neg, dotProduct_comm _ (mulVec _ _), Matrix.mul_assoc, ← Matrix.mulVec_mulVec, dot_rot, dot_rot, ← Matrix.mulVec_mulVec, hr, toC_mulVec,
    e2, e2, hp, Matrix.mulVec_smul, smul_dotProduct, dotProduct_smul, dotProduct_smul, Matrix.smul_mulVec, dotProduct_comm x,
    show (fun r => Real.sqrt ħ * D.mulVec μ r) = Real.sqrt ħ • D.mulVec μ from rfl]
  simp only [smul_dotProduct, smul_eq_mul]
  have hsq := Real.mul_self_sqrt hħ.le
  rw [← mul_assoc (Real.sqrt ħ) (Real.sqrt ħ), hsq]
  push_cast
  ring

/-- **C86 (mirror)** At `γ̄` on the bra wires and `γ` on the ket wires (the convention of `PS`, of the wigner function of the library and of its tests) it is the
quasi-probability at the conjugate point: the momenta are reflected. -/
theorem C86_mirror (hħ : 0 < ħ) (hs : s < 1) (h : (cov + (ħ / 2) • 1).PosDef) (hC : (cov - (s * ħ / 2) • (1 : Matrix (n ⊕ n) (n ⊕ n) ℝ)).PosDef)
    (μ : n ⊕ n → ℝ) (k : ℂ) (γ : n → ℂ) :
    btops ħ s cov μ k (Sum.elim (star γ) γ) =
      k * (((2 * ħ) ^ Fintype.card n * normalPdf (cov - (s * ħ / 2) • (1 : Matrix (n ⊕ n) (n ⊕ n) ℝ)) μ (mirror (point ħ γ)) : ℝ) : ℂ) := by
  have := C86_quasi hħ hs h hC μ k (star γ)
  rw [star_star] at this
  rw [this]
  have : point ħ (star γ) = mirror (point ħ γ) := by
    funext r; rcases r with i | i <;> simp [point, mirror]
  rw [this]

/-- **C86 (Husimi)** For `s = -1` it is the Husimi function `⟨γ|ρ|γ⟩ / π^m`, where `|γ⟩` is the coherent state. -/
theorem C86_husimi (hħ : 0 < ħ) (h : (cov + (ħ / 2) • 1).PosDef) (μ : n ⊕ n → ℝ) (k : ℂ) (γ : n → ℂ) :
    btops ħ (-1) cov μ k (Sum.elim γ (star γ)) =
      (Complex.exp (-∑ i, (‖γ i‖ : ℂ) ^ 2) * dmFromPhaseSpace ħ cov μ k (star γ) γ) / (Real.pi : ℂ) ^ Fintype.card n := by
  have e : cov - (-1 * ħ / 2) • (1 : Matrix (n ⊕ n) (n ⊕ n) ℝ) = cov + (ħ / 2) • 1 := by
    rw [show -1 * ħ / 2 = -(ħ / 2) by ring, neg_smul, sub_neg_eq_add]
  rw [C86_quasi hħ (by norm_num) h (by rw [e]; exact h), e, C65_husimi hħ h, mul_div_assoc]
  refine congrArg (HMul.hMul _) ?_
  unfold normalPdf
  rw [← Complex.ofReal_pow, ← Complex.ofReal_div]
  refine congrArg Complex.ofReal ?_
  rw [Fintype.card_sum, ← two_mul, Real.sqrt_mul (by positivity), mul_comm 2 (Fintype.card n), pow_mul, Real.sqrt_sq (by positivity)]
  have hsd := Real.sqrt_pos.2 h.det_pos
  rw [mul_pow, mul_pow]
  field_simp

/-! ## `State.wigner` -/

theorem psMat_eq (ħ : ℝ) (A : Matrix (n ⊕ n) (n ⊕ n) ℂ) : psMat ħ A = (psW n ħ)ᵀ * A * psW n ħ := by
  ext i l
  simp only [psMat, Matrix.of_apply, Matrix.mul_apply, Matrix.transpose_apply, Finset.sum_mul]
  exact Finset.sum_comm

theorem psVec_eq (ħ : ℝ) (b : n ⊕ n → ℂ) : psVec ħ b = (psW n ħ).mulVec b := rfl

theorem cj_rotmat : cj (rotmat n) = ((Real.sqrt (1 / 2) : ℝ) : ℂ) • fromBlocks 1 (-(Complex.I • 1)) 1 (Complex.I • (1 : Matrix n n ℂ)) := by
  ext p q
  rcases p with i | i <;> rcases q with j | j <;> by_cases h : i = j <;> simp [cj, rotmat, Matrix.one_apply, h]

/-- The reflection of the momenta. -/
theorem rot_mirror (r : n ⊕ n → ℝ) : (rotmat n)ᴴ.mulVec ((cj (rotmat n)).mulVec fun i => (r i : ℂ)) = fun i => (mirror r i : ℂ) := by
  have h2 := half_sq
  rw [Matrix.mulVec_mulVec, cj_rotmat, rotmat_conjT, Matrix.smul_mul, Matrix.mul_smul, smul_smul, h2, fromBlocks_multiply, ← Sum.elim_comp_inl_inr (fun i => (r i : ℂ)),
    Matrix.smul_mulVec, fromBlocks_mulVec]
  have hI := Complex.I_mul_I
  funext i
  rcases i with i | i
  · simp [mirror, Matrix.add_mulVec, Matrix.neg_mulVec, Matrix.smul_mulVec]
    ring
  · simp [mirror, Matrix.add_mulVec, Matrix.neg_mulVec, Matrix.smul_mulVec]
    linear_combination (r (.inr i) : ℂ) * hI

theorem rot_twice (a b : n → ℂ) : (cj (rotmat n)).mulVec ((cj (rotmat n)).mulVec (Sum.elim a b)) =
    Sum.elim (fun i => (1 - Complex.I) / 2 * (a i + b i)) fun i => (1 + Complex.I) / 2 * (a i - b i) := by
  have h2 := half_sq
  rw [Matrix.mulVec_mulVec, cj_rotmat, Matrix.smul_mul, Matrix.mul_smul, smul_smul, h2, fromBlocks_multiply, Matrix.smul_mulVec, fromBlocks_mulVec]
  have hI := Complex.I_mul_I
  funext i
  rcases i with i | i
  · simp [Matrix.add_mulVec, Matrix.neg_mulVec, Matrix.smul_mulVec]
    linear_combination (-(1 / 2) * b i) * hI
  · simp [Matrix.add_mulVec, Matrix.neg_mulVec, Matrix.smul_mulVec]
    linear_combination (1 / 2 * b i) * hI

/-- **C86 (exact behaviour of `wigner`)** With `(a, b) = cov⁻¹ μ`, the linear term of the exponent is `½ Σ ((1 - i)(a + b) x + (1 + i)(a - b) p)`: `PS`
transforms the vector with `W` where the change of variables needs `Wᵀ`. -/
theorem C86_exact (hħ : 0 < ħ) (h : cov.PosDef) (μ : n ⊕ n → ℝ) (k : ℂ) (r : n ⊕ n → ℝ) :
    wigner ħ cov μ k r = k * (normalPdf cov μ 0 : ℝ) * Complex.exp ((-(1 / 2) * (mirror r ⬝ᵥ cov⁻¹.mulVec (mirror r)) : ℝ) +
      ∑ i, ((1 - Complex.I) / 2 * (cov⁻¹.mulVec μ (.inl i) + cov⁻¹.mulVec μ (.inr i)) * r (.inl i) +
        (1 + Complex.I) / 2 * (cov⁻¹.mulVec μ (.inl i) - cov⁻¹.mulVec μ (.inr i)) * r (.inr i))) := by
  have e0 : cov - (0 * ħ / 2) • (1 : Matrix (n ⊕ n) (n ⊕ n) ℝ) = cov := by simp
  obtain ⟨a1, a2, a3⟩ := wig_closed hħ (by norm_num : (0 : ℝ) < 1) (cov_vac_posDef hħ h) (by rw [e0]; exact h) μ k
  rw [e0] at a1 a2 a3
  unfold wigner psConst
  rw [a1, a2, a3, psMat_eq, psVec_eq]
  have e2 : ∀ a b : n ⊕ n → ℝ, (fun r => (a r : ℂ)) ⬝ᵥ (fun r => (b r : ℂ)) = ((a ⬝ᵥ b : ℝ) : ℂ) := fun a b => by simp [dotProduct]
  have hsp : 0 < Real.sqrt ħ := Real.sqrt_pos.2 hħ
  have hsq := Real.mul_self_sqrt hħ.le
  have hc : k * (((2 * ħ) ^ Fintype.card n * normalPdf cov μ 0 : ℝ) : ℂ) / (2 * (ħ : ℂ)) ^ Fintype.card n = k * (normalPdf cov μ 0 : ℝ) := by
    have : (2 * (ħ : ℂ)) ^ Fintype.card n ≠ 0 := by
      have : (ħ : ℂ) ≠ 0 := Complex.ofReal_ne_zero.2 hħ.ne'
      positivity
    push_cast
    field_simp
  rw [hc]
  refine congrArg (HMul.hMul _) (congrArg Complex.exp ?_)
  have q1 : (fun i => (r i : ℂ)) ⬝ᵥ ((psW n ħ)ᵀ * -(cj (rotmat n) * toC (ħ • cov⁻¹) * (rotmat n)ᴴ) * psW n ħ).mulVec (fun i => (r i : ℂ)) =
      ((-(mirror r ⬝ᵥ cov⁻¹.mulVec (mirror r)) : ℝ) : ℂ) := by
    rw [← Matrix.mulVec_mulVec, ← Matrix.mulVec_mulVec, Matrix.dotProduct_mulVec _ (psW n ħ)ᵀ, Matrix.vecMul_transpose, Matrix.neg_mulVec, dotProduct_neg]
    unfold psW
    rw [Matrix.smul_mulVec, Matrix.mulVec_smul, dotProduct_smul, smul_dotProduct, dotProduct_comm, Matrix.mul_assoc, ← Matrix.mulVec_mulVec, dot_rot,
      ← Matrix.mulVec_mulVec, rot_mirror, toC_mulVec, e2, Matrix.smul_mulVec, smul_dotProduct, dotProduct_comm (cov⁻¹.mulVec _)]
    simp only [smul_eq_mul]
    rw [← Complex.ofReal_mul, ← Complex.ofReal_mul, ← Complex.ofReal_neg]
    refine congrArg Complex.ofReal (congrArg Neg.neg ?_)
    field_simp
    rw [Real.sq_sqrt hħ.le]
  have q2 : (psW n ħ).mulVec ((cj (rotmat n)).mulVec fun r => ((Real.sqrt ħ * cov⁻¹.mulVec μ r : ℝ) : ℂ)) =
      Sum.elim (fun i => (1 - Complex.I) / 2 * (cov⁻¹.mulVec μ (.inl i) + cov⁻¹.mulVec μ (.inr i)))
        fun i => (1 + Complex.I) / 2 * (cov⁻¹.mulVec μ (.inl i) - cov⁻¹.mulVec μ (.inr i)) := by
    have e : (fun r => ((Real.sqrt ħ * cov⁻¹.mulVec μ r : ℝ) : ℂ)) = ((Real.sqrt ħ : ℝ) : ℂ) • Sum.elim (fun i => (cov⁻¹.mulVec μ (.inl i) : ℂ))
        fun i => (cov⁻¹.mulVec μ (.inr i) : ℂ) := by
      funext r; rcases r with i | i <;> simp
    unfold psW
    rw [e, Matrix.mulVec_smul, Matrix.smul_mulVec, Matrix.mulVec_smul, smul_smul, ← Complex.ofReal_mul, inv_mul_cancel₀ hsp.ne', Complex.ofReal_one, one_smul, rot_twice]
  rw [q1, q2]
  simp only [dotProduct, Fintype.sum_sum_type, Sum.elim_inl, Sum.elim_inr, Finset.sum_add_distrib]
  push_cast
  ring

/-- **C86 (`wigner` of a centred state)** For zero mean, `wigner` is the Wigner function of the state (the normal density with its covariance matrix), at the
point with reflected momenta. -/
theorem C86_centred (hħ : 0 < ħ) (h : cov.PosDef) (k : ℂ) (r : n ⊕ n → ℝ) :
    wigner ħ cov 0 k r = k * (normalPdf cov 0 (mirror r) : ℝ) := by
  rw [C86_exact hħ h, normalPdf_zero h 0 (mirror r), Matrix.mulVec_zero, zero_dotProduct, add_zero, Complex.ofReal_mul (normalPdf _ _ _), Complex.ofReal_exp, ← mul_assoc]
  simp

/-- **C86 (`wigner` of a displaced state)** `wigner` is real-valued exactly for the states with zero mean: for every displaced Gaussian state it is not the Wigner
function (nor its reflection). -/
theorem C86_real_iff (hħ : 0 < ħ) (h : cov.PosDef) (μ : n ⊕ n → ℝ) : (∀ r, (wigner ħ cov μ 1 r).im = 0) ↔ μ = 0 := by
  constructor
  · intro hr
    have hpdf : 0 < normalPdf cov μ 0 := by
      unfold normalPdf
      have := h.det_pos
      positivity
    have key : ∀ r : n ⊕ n → ℝ, (∑ i, (-(1 / 2) * (cov⁻¹.mulVec μ (.inl i) + cov⁻¹.mulVec μ (.inr i)) * r (.inl i) +
        1 / 2 * (cov⁻¹.mulVec μ (.inl i) - cov⁻¹.mulVec μ (.inr i)) * r (.inr i))) ≠ Real.pi / 2 := by
      intro r hθ
      have h1 := hr r
      rw [C86_exact hħ h, one_mul, Complex.im_ofReal_mul, Complex.exp_im] at h1
      have him : ((-(1 / 2) * (mirror r ⬝ᵥ cov⁻¹.mulVec (mirror r)) : ℝ) +
          ∑ i, ((1 - Complex.I) / 2 * (cov⁻¹.mulVec μ (.inl i) + cov⁻¹.mulVec μ (.inr i)) * r (.inl i) +
            (1 + Complex.I) / 2 * (cov⁻¹.mulVec μ (.inl i) - cov⁻¹.mulVec μ (.inr i)) * r (.inr i)) : ℂ).im = Real.pi / 2 := by
        rw [Complex.add_im, Complex.ofReal_im, zero_add, Complex.im_sum, ← hθ]
        refine Finset.sum_congr rfl fun i _ => ?_
        rw [← Complex.ofReal_add, ← Complex.ofReal_sub, Complex.add_im, Complex.im_mul_ofReal, Complex.im_mul_ofReal, Complex.im_mul_ofReal, Complex.im_mul_ofReal]
        simp
        ring
      rw [him, Real.sin_pi_div_two, mul_one] at h1
      exact (mul_pos hpdf (Real.exp_pos _)).ne' h1
    have hz : ∀ i, cov⁻¹.mulVec μ (.inl i) + cov⁻¹.mulVec μ (.inr i) = 0 ∧ cov⁻¹.mulVec μ (.inl i) - cov⁻¹.mulVec μ (.inr i) = 0 := by
      intro i
      constructor
      · by_contra hne
        refine key (Pi.single (.inl i) (-Real.pi / (cov⁻¹.mulVec μ (.inl i) + cov⁻¹.mulVec μ (.inr i)))) ?_
        rw [Finset.sum_eq_single i]
        · simp only [Pi.single_eq_same, Pi.single_eq_of_ne (Sum.inr_ne_inl : (Sum.inr i : n ⊕ n) ≠ Sum.inl i)]
          field_simp
          ring
        · intro j _ hj
          rw [Pi.single_eq_of_ne (fun e => hj (Sum.inl_injective e)), Pi.single_eq_of_ne Sum.inr_ne_inl, mul_zero, mul_zero, add_zero]
        · simp
      · by_contra hne
        refine key (Pi.single (.inr i) (Real.pi / (cov⁻¹.mulVec μ (.inl i) - cov⁻¹.mulVec μ (.inr i)))) ?_
        rw [Finset.sum_eq_single i]
        · simp only [Pi.single_eq_same, Pi.single_eq_of_ne (Sum.inl_ne_inr : (Sum.inl i : n ⊕ n) ≠ Sum.inr i)]
          field_simp
          ring
        · intro j _ hj
          rw [Pi.single_eq_of_ne (fun e => hj (Sum.inr_injective e)), Pi.single_eq_of_ne Sum.inl_ne_inr, mul_zero, mul_zero, add_zero]
        · simp
    have hz' : cov⁻¹.mulVec μ = 0 := by
      funext r
      rcases r with i | i
      · have := hz i; show _ = (0 : ℝ); linarith
      · have := hz i; show _ = (0 : ℝ); linarith
    have := congrArg cov.mulVec hz'
    rwa [Matrix.mulVec_mulVec, (posDef_inv h).1, Matrix.one_mulVec, Matrix.mulVec_zero] at this
  · rintro rfl r
    rw [C86_centred hħ h, one_mul, Complex.ofReal_im]

theorem mirror_mirror (r : n ⊕ n → ℝ) : mirror (mirror r) = r := by funext i; rcases i with i | i <;> simp [mirror]

theorem mirror_measurePreserving : MeasurePreserving (mirror : (n ⊕ n → ℝ) → n ⊕ n → ℝ) := by
  have := measurePreserving_pi (fun _ : n ⊕ n => (volume : Measure ℝ)) (fun _ => volume) (f := fun i => Sum.elim (fun _ x => x) (fun _ x => -x) i)
    (by rintro (i | i)
        · exact MeasurePreserving.id _
        · exact Measure.measurePreserving_neg volume)
  have e : (mirror : (n ⊕ n → ℝ) → n ⊕ n → ℝ) = fun a i => Sum.elim (fun (_ : n) (x : ℝ) => x) (fun _ x => -x) i (a i) := by
    funext r i
    rcases i with i | i <;> rfl
  rw [e]
  exact this

/-- **C86 (normalisation)** `wigner` of a centred state integrates to the trace of the state. -/
theorem C86_normalised (hħ : 0 < ħ) (h : cov.PosDef) (k : ℂ) : ∫ r : n ⊕ n → ℝ, wigner ħ cov 0 k r = k := by
  simp only [C86_centred hħ h]
  rw [integral_const_mul, integral_complex_ofReal]
  have e : ∫ r : n ⊕ n → ℝ, normalPdf cov 0 (mirror r) = ∫ r : n ⊕ n → ℝ, normalPdf cov 0 r := by
    have hm : Measurable (mirror : (n ⊕ n → ℝ) → n ⊕ n → ℝ) := mirror_measurePreserving.measurable
    exact mirror_measurePreserving.integral_comp (MeasurableEquiv.measurableEmbedding ⟨⟨mirror, mirror, mirror_mirror, mirror_mirror⟩, hm, hm⟩) _
  have e2 : ∫ r : n ⊕ n → ℝ, normalPdf cov 0 r = 1 := by
    have e3 : ∀ r : n ⊕ n → ℝ, normalPdf cov 0 r = (Real.sqrt ((2 * Real.pi) ^ Fintype.card (n ⊕ n) * cov.det))⁻¹ * bell cov 0 r := fun r => by
      unfold normalPdf bell; rfl
    simp only [e3]
    rw [integral_const_mul, bell_integral h]
    exact inv_mul_cancel₀ (Real.sqrt_pos.2 (mul_pos (by positivity) h.det_pos)).ne'
  rw [e, e2, Complex.ofReal_one, mul_one]

/-- The vacuum: `wigner` is the Gaussian `exp(-(x² + p²)/ħ) / (π ħ)`. -/
theorem C86_vacuum (hħ : 0 < ħ) (x p : ℝ) : wigner ħ ((ħ / 2) • (1 : Matrix (Unit ⊕ Unit) (Unit ⊕ Unit) ℝ)) 0 1 (Sum.elim (fun _ => x) fun _ => p) =
    (Real.exp (-(x ^ 2 + p ^ 2) / ħ) / (Real.pi * ħ) : ℝ) := by
  have h : ((ħ / 2) • (1 : Matrix (Unit ⊕ Unit) (Unit ⊕ Unit) ℝ)).PosDef := PosDef.one.smul (by positivity)
  rw [C86_centred hħ h, one_mul]
  refine congrArg Complex.ofReal ?_
  have hi : ((ħ / 2) • (1 : Matrix (Unit ⊕ Unit) (Unit ⊕ Unit) ℝ))⁻¹ = (2 / ħ) • 1 := by
    refine Matrix.inv_eq_right_inv ?_
    rw [Matrix.smul_mul, Matrix.one_mul, smul_smul, show ħ / 2 * (2 / ħ) = 1 by field_simp, one_smul]
  unfold normalPdf
  rw [hi, det_smul, det_one, mul_one, sub_zero, Matrix.smul_mulVec, Matrix.one_mulVec, dotProduct_smul, ← mul_pow, Fintype.card_sum, Fintype.card_unit,
    Real.sqrt_sq (by positivity)]
  have e : mirror (Sum.elim (fun _ : Unit => x) fun _ : Unit => p) ⬝ᵥ mirror (Sum.elim (fun _ : Unit => x) fun _ : Unit => p) = x ^ 2 + p ^ 2 := by
    simp [mirror, dotProduct, Fintype.sum_sum_type]; ring
  rw [e, smul_eq_mul, show -(1 / 2) * (2 / ħ * (x ^ 2 + p ^ 2)) = -(x ^ 2 + p ^ 2) / ħ by field_simp]
  field_simp

/-- The coherent state with mean `(1, 0)` (and `ħ = 1`): `wigner` is not real-valued. -/
theorem C86_coherent_disagrees : ¬∀ r, (wigner 1 ((1 / 2 : ℝ) • (1 : Matrix (Unit ⊕ Unit) (Unit ⊕ Unit) ℝ)) (Sum.elim 1 0) 1 r).im = 0 := by
  rw [C86_real_iff one_pos (PosDef.one.smul (by norm_num))]
  intro h
  have := congrFun h (.inl ())
  simp at this

/-- A displaced squeezed state whose quasi-probability exists for `s = 1/4` (`ħ = 1`). -/
example : ((Matrix.diagonal fun r : Unit ⊕ Unit => Sum.elim (fun _ => (1 / 4 : ℝ)) (fun _ => 1) r) - (1 / 4 * 1 / 2 : ℝ) • (1 : Matrix (Unit ⊕ Unit) (Unit ⊕ Unit) ℝ)).PosDef := by
  rw [show (1 / 4 * 1 / 2 : ℝ) • (1 : Matrix (Unit ⊕ Unit) (Unit ⊕ Unit) ℝ) = Matrix.diagonal fun _ => 1 / 8 by
    ext i j; by_cases h : i = j <;> simp [h, Matrix.one_apply, Matrix.diagonal_apply] <;> norm_num, Matrix.diagonal_sub, Matrix.posDef_diagonal_iff]
  rintro (i | i) <;> norm_num

end Verif.Manifold
