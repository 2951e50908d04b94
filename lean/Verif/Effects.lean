import Verif.PhaseOverlap
import Verif.PhaseFidelity
import Verif.PhaseChar
import Verif.Channel

/-!
# Expectation values of Gaussian effects

The expectation value, in a state built by `DM.from_phase_space`, of an operator whose Husimi symbol is `k · exp(-½ (ξ - m)ᵀ T (ξ - m))`,
where `T` is any real symmetric matrix for which the integral converges.  Used by the quadrature kernel (C85) and by the phase space
quasi-probabilities (C86).
-/

namespace Verif.Manifold
open Matrix Verif.Gauss MeasureTheory
open scoped ComplexOrder MatrixOrder

variable {n : Type*} [Fintype n] [DecidableEq n]

/-- The operator with symbol `k · exp(½ ξ·ξ - ½ (ξ - m)ᵀ T (ξ - m))`, `ξ = R† (w, z)`. -/
noncomputable def effect (T : Matrix (n ⊕ n) (n ⊕ n) ℝ) (m : n ⊕ n → ℝ) (k : ℂ) (z w : n → ℂ) : ℂ :=
  dmFun (cj (rotmat n) * (1 - toC T) * (rotmat n)ᴴ) ((cj (rotmat n)).mulVec ((toC T).mulVec fun r => (m r : ℂ)))
    (k * Complex.exp (-(1 / 2) * ((m ⬝ᵥ T.mulVec m : ℝ) : ℂ))) z w

/-- The symbol in closed form. -/
theorem effect_eq {T : Matrix (n ⊕ n) (n ⊕ n) ℝ} (hT : Tᵀ = T) (m : n ⊕ n → ℝ) (k : ℂ) (z w : n → ℂ) :
    effect T m k z w = k * Complex.exp (1 / 2 * ((rotmat n)ᴴ.mulVec (Sum.elim w z) ⬝ᵥ (rotmat n)ᴴ.mulVec (Sum.elim w z)) -
      1 / 2 * (((rotmat n)ᴴ.mulVec (Sum.elim w z) - fun r => (m r : ℂ)) ⬝ᵥ (toC T).mulVec ((rotmat n)ᴴ.mulVec (Sum.elim w z) - fun r => (m r : ℂ)))) := by
  unfold effect dmFun
  have hTc : (toC T)ᵀ = toC T := by rw [← toC_T, hT]
  have e0 : ((m ⬝ᵥ T.mulVec m : ℝ) : ℂ) = (fun r => (m r : ℂ)) ⬝ᵥ (toC T).mulVec (fun r => (m r : ℂ)) := by
    rw [toC_mulVec]; simp [dotProduct]
  rw [e0, dot_rot, Matrix.mul_assoc, ← Matrix.mulVec_mulVec, dotProduct_comm _ ((cj (rotmat n)).mulVec _), dot_rot, ← Matrix.mulVec_mulVec]
  generalize (rotmat n)ᴴ.mulVec (Sum.elim w z) = ξ
  generalize (fun r => (m r : ℂ)) = c
  rw [mul_assoc, ← Complex.exp_add]
  refine congrArg (HMul.hMul _) (congrArg Complex.exp ?_)
  rw [Matrix.sub_mulVec, Matrix.one_mulVec, sub_dotProduct, Matrix.mulVec_sub, dotProduct_sub, sub_dotProduct, sub_dotProduct, symm_dot hTc c ξ, dotProduct_comm ((toC T).mulVec ξ) ξ,
    dotProduct_comm ((toC T).mulVec c) ξ]
  ring

theorem effect_X (T : Matrix (n ⊕ n) (n ⊕ n) ℝ) :
    Xmat n * (cj (rotmat n) * (1 - toC T) * (rotmat n)ᴴ) * Xmat n = rotmat n * (1 - toC T) * (rotmat n)ᵀ := by
  have e2 : (rotmat n)ᴴ * Xmat n = (rotmat n)ᵀ := by
    rw [← cj_transpose', ← Xmat_rot, transpose_mul, Xmat_T, Matrix.mul_assoc, Xmat_sq, Matrix.mul_one]
  rw [← Xmat_rot, ← e2]
  calc _ = (Xmat n * Xmat n) * rotmat n * (1 - toC T) * ((rotmat n)ᴴ * Xmat n) := by simp only [Matrix.mul_assoc]
    _ = _ := by rw [Xmat_sq, Matrix.one_mul]

theorem effect_T {T : Matrix (n ⊕ n) (n ⊕ n) ℝ} (hT : Tᵀ = T) :
    (cj (rotmat n) * (1 - toC T) * (rotmat n)ᴴ)ᵀ = cj (rotmat n) * (1 - toC T) * (rotmat n)ᴴ ∧
    (rotmat n * (1 - toC T) * (rotmat n)ᵀ)ᵀ = rotmat n * (1 - toC T) * (rotmat n)ᵀ := by
  have hTc : (1 - toC T)ᵀ = 1 - toC T := by rw [transpose_sub, ← toC_T, hT, transpose_one]
  constructor
  · rw [transpose_mul, transpose_mul, hTc, conjT_transpose, cj_transpose', Matrix.mul_assoc]
  · rw [transpose_mul, transpose_mul, hTc, transpose_transpose, Matrix.mul_assoc]

theorem X_entry (M : Matrix (n ⊕ n) (n ⊕ n) ℂ) (p q : n ⊕ n) : (Xmat n * M * Xmat n) p q = M p.swap q.swap := by
  rcases p with p | p <;> rcases q with q | q <;>
    simp [Xmat, Matrix.mul_apply, Fintype.sum_sum_type, Matrix.one_apply]

theorem one_swap (p q : n ⊕ n) : (1 : Matrix (n ⊕ n) (n ⊕ n) ℂ) p.swap q.swap = (starRingEnd ℂ) ((1 : Matrix (n ⊕ n) (n ⊕ n) ℂ) p q) := by
  by_cases h : p = q
  · subst h; simp
  · rw [Matrix.one_apply_ne h, Matrix.one_apply_ne (fun e => h (Sum.swap_leftInverse.injective e)), map_zero]

theorem effect_cj (T : Matrix (n ⊕ n) (n ⊕ n) ℝ) (p q : n ⊕ n) :
    (rotmat n * (1 - toC T) * (rotmat n)ᵀ) p.swap q.swap = (starRingEnd ℂ) ((rotmat n * (1 - toC T) * (rotmat n)ᵀ) p q) := by
  have h : Xmat n * (rotmat n * (1 - toC T) * (rotmat n)ᵀ) * Xmat n = cj (rotmat n * (1 - toC T) * (rotmat n)ᵀ) := by
    rw [← effect_X]
    calc _ = (Xmat n * Xmat n) * (cj (rotmat n) * (1 - toC T) * (rotmat n)ᴴ) * (Xmat n * Xmat n) := by simp only [Matrix.mul_assoc]
      _ = cj (rotmat n * (1 - toC T) * (rotmat n)ᵀ) := by
          rw [Xmat_sq, Matrix.one_mul, Matrix.mul_one, cj_mul, cj_mul, cj_transpose]
          have : cj (1 - toC T) = 1 - toC T := by
            have e : (1 - toC T) = toC (1 - T) := by rw [toC_sub, toC_one]
            rw [e, toC_inv_real]
          rw [this]
      _ = _ := by rw [effect_X]
  have := X_entry (rotmat n * (1 - toC T) * (rotmat n)ᵀ) p q
  rw [← this, h]
  rfl

/-- **Expectation value of a Gaussian effect.** -/
theorem effect_overlap {ħ : ℝ} (hħ : 0 < ħ) {cov : Matrix (n ⊕ n) (n ⊕ n) ℝ} (h : cov.PosDef) (μ : n ⊕ n → ℝ) (k1 : ℂ)
    {T H : Matrix (n ⊕ n) (n ⊕ n) ℝ} (hT : Tᵀ = T) (hc : ∀ w : n ⊕ n → ℂ, ∑ i, ‖(1 - toC T).mulVec w i‖ ^ 2 ≤ ∑ i, ‖w i‖ ^ 2)
    (hH : (1 + T * (vac ħ cov - 1)) * H = 1) (hd : 0 < (1 + T * (vac ħ cov - 1)).det) (m : n ⊕ n → ℝ) (k2 : ℂ) :
    opTr (opMul (dmFromPhaseSpace ħ cov μ k1) (effect T m k2)) =
      k1 * k2 * ((Real.sqrt (1 + T * (vac ħ cov - 1)).det)⁻¹ *
        Real.exp (-(1 / 2) * ((mean ħ μ - m) ⬝ᵥ (H * T).mulVec (mean ħ μ - m))) : ℝ) := by
  have g1 := cov_vac_posDef hħ h
  have V1 := vac_pos hħ g1
  obtain ⟨i1, j1⟩ := posDef_inv V1
  obtain ⟨r1, -⟩ := rhoA_rot hħ g1
  have c1 := rhoC_eq hħ g1 μ
  have b1 := rhoB_eq hħ g1 μ
  obtain ⟨sy1, hm1⟩ := rhoA_herm hħ g1
  obtain ⟨sh1, -⟩ := shrinks_rhoA hħ h
  obtain ⟨t1, t2⟩ := effect_T (n := n) hT
  obtain ⟨-, u2, u3⟩ := cj_rot_unitary (n := n)
  have hN : NegRe (fromBlocks (rhoA ħ cov) (-1) (-1) (rotmat n * (1 - toC T) * (rotmat n)ᵀ)) := by
    refine overlap_negRe' sh1 fun w => ?_
    rw [← Matrix.mulVec_mulVec, ← Matrix.mulVec_mulVec, norm_iso rotmat_mul', ← norm_iso u3 w]
    exact hc _
  rw [show dmFromPhaseSpace ħ cov μ k1 = _ from funext fun z => funext fun w => dm_dmFun cov μ k1 z w]
  have hX := effect_X T
  have ht := trace_mul_of sy1 t1 (by rw [hX]; exact hN) (rhoB ħ cov μ) ((cj (rotmat n)).mulVec ((toC T).mulVec fun r => (m r : ℂ)))
    (k1 * rhoC ħ cov μ) (k2 * Complex.exp (-(1 / 2) * ((m ⬝ᵥ T.mulVec m : ℝ) : ℂ)))
  rw [show effect T m k2 = dmFun _ _ _ from rfl, ht, hX]
  have hD' : H * (1 + T * (vac ħ cov - 1)) = 1 := mul_eq_one_comm.mp hH
  set R := rotmat n
  set v := vac ħ cov
  have ci : toC v * toC v⁻¹ = 1 := by rw [← toC_mul, i1, toC_one]
  have cj' : toC v⁻¹ * toC v = 1 := by rw [← toC_mul, j1, toC_one]
  have hRR : Rᴴ * R = 1 := rotmat_mul'
  -- real identities
  have a1 : H * (1 - T) * v⁻¹ = v⁻¹ - H * T := by
    have e : H + H * T * v - H * T = 1 := by
      rw [← hD']
      simp only [Matrix.mul_add, Matrix.mul_sub, Matrix.mul_one, Matrix.mul_assoc]
      abel
    have e2 : H - H * T = 1 - H * T * v := by rw [← e]; abel
    rw [Matrix.mul_sub, Matrix.mul_one, e2, Matrix.sub_mul, Matrix.one_mul, Matrix.mul_assoc (H * T), i1, Matrix.mul_one]
  have a2 : T * (v - 1) * H * T = T - H * T := by
    have e : T * (v - 1) * H = 1 - H := by
      have e0 := hH
      rw [Matrix.add_mul, Matrix.one_mul] at e0
      exact eq_sub_of_add_eq' e0
    rw [e, Matrix.sub_mul, Matrix.one_mul]
  have hvT : vᵀ = v := by
    have := V1.isHermitian
    unfold IsHermitian at this
    rwa [conjTranspose_eq_transpose_of_trivial] at this
  have a3 : (H * T)ᵀ = H * T := by
    have d1 : (1 + (v - 1) * T) * Hᵀ = 1 := by
      have := congrArg transpose hD'
      rwa [transpose_mul, transpose_add, transpose_mul, transpose_sub, hvT, hT, transpose_one] at this
    have d2 : T * (1 + (v - 1) * T) = (1 + T * (v - 1)) * T := by
      simp only [Matrix.mul_add, Matrix.add_mul, Matrix.mul_one, Matrix.one_mul, Matrix.mul_assoc]
    calc (H * T)ᵀ = T * Hᵀ := by rw [transpose_mul, hT]
      _ = H * (1 + T * (v - 1)) * T * Hᵀ := by rw [hD', Matrix.one_mul]
      _ = H * T * ((1 + (v - 1) * T) * Hᵀ) := by rw [Matrix.mul_assoc H, ← d2]; simp only [Matrix.mul_assoc]
      _ = H * T := by rw [d1, Matrix.mul_one]
  have hQP : 1 - (1 - toC T) * (1 - toC v⁻¹) = toC (1 + T * (v - 1)) * toC v⁻¹ := by
    rw [toC_add, toC_mul, toC_sub, toC_one]
    simp only [Matrix.mul_sub, Matrix.sub_mul, Matrix.add_mul, Matrix.mul_one, Matrix.one_mul, Matrix.mul_assoc, ci]
    abel
  have hW : (1 - R * (1 - toC T) * Rᵀ * rhoA ħ cov) * (R * (toC v * toC H) * Rᴴ) = 1 := by
    have e : R * (1 - toC T) * Rᵀ * rhoA ħ cov = R * ((1 - toC T) * (1 - toC v⁻¹)) * Rᴴ := by
      rw [r1]
      calc _ = R * (1 - toC T) * (Rᵀ * cj R) * (1 - toC v⁻¹) * Rᴴ := by simp only [Matrix.mul_assoc]
        _ = _ := by rw [u2, Matrix.mul_one]; simp only [Matrix.mul_assoc]
    have e' : 1 - R * ((1 - toC T) * (1 - toC v⁻¹)) * Rᴴ = R * (toC (1 + T * (v - 1)) * toC v⁻¹) * Rᴴ := by
      rw [← hQP]
      generalize (1 - toC T) * (1 - toC v⁻¹) = N
      rw [Matrix.mul_sub, Matrix.sub_mul, Matrix.mul_one, rotmat_mul]
    rw [e, e']
    calc _ = R * (toC (1 + T * (v - 1)) * (toC v⁻¹ * ((Rᴴ * R) * toC v)) * toC H) * Rᴴ := by simp only [Matrix.mul_assoc]
      _ = 1 := by rw [hRR, Matrix.one_mul, cj', Matrix.mul_one, ← toC_mul, hH, toC_one, Matrix.mul_one, rotmat_mul]
  rw [gauss_overlap_of sy1 t2 hN hW]
  -- the constant
  have hdH : H.det = (1 + T * (v - 1)).det⁻¹ := by
    have := congrArg det hH
    rw [det_mul, det_one] at this
    exact eq_inv_of_mul_eq_one_right this
  have hconst : gaussConst (fromBlocks (rhoA ħ cov) (-1) (-1) (R * (1 - toC T) * Rᵀ)) =
      ((Real.sqrt (v.det * (1 + T * (v - 1)).det⁻¹) : ℝ) : ℂ) := by
    rw [← gaussConst_herm (Equiv.sumComm n n) (overlap_symm sy1 t2) hN, overlap_det hW, det_mul, det_mul, mul_right_comm,
      ← det_mul, rotmat_mul, det_one, one_mul, det_mul, toC_det, toC_det, hdH]
    · rw [show (1 / 2 : ℂ) = ((1 / 2 : ℝ) : ℂ) by norm_num, ← Complex.ofReal_mul, ← Complex.ofReal_cpow, ← Real.sqrt_eq_rpow]
      exact mul_nonneg V1.det_pos.le (inv_nonneg.2 hd.le)
    · intro p q
      have a1 : ∀ p q, rhoA ħ cov p.swap q.swap = (starRingEnd ℂ) (rhoA ħ cov p q) := fun p q => by
        have := congrFun (congrFun hm1 p.swap) q.swap
        rw [X_entry, Sum.swap_swap, Sum.swap_swap] at this
        exact this
      have a2 := effect_cj (n := n) T
      rcases p with p | p <;> rcases q with q | q <;>
        simp only [Sum.map_inl, Sum.map_inr, Equiv.sumComm_apply, fromBlocks_apply₁₁, fromBlocks_apply₁₂, fromBlocks_apply₂₁, fromBlocks_apply₂₂,
          Matrix.neg_apply, map_neg, a1, one_swap]
      exact a2 p q
  rw [hconst, b1]
  set m1 : n ⊕ n → ℂ := fun r => (mean ħ μ r : ℂ) with hm1'
  set m2 : n ⊕ n → ℂ := fun r => (m r : ℂ) with hm2'
  have x1 : (fun r => ((v⁻¹.mulVec (mean ħ μ) r : ℝ) : ℂ)) = (toC v⁻¹).mulVec m1 := (toC_mulVec _ _).symm
  have ky1 : (toC v⁻¹)ᵀ = toC v⁻¹ := (posDef_symm V1).2
  have kyT : (toC T)ᵀ = toC T := by rw [← toC_T, hT]
  rw [x1]
  have hy : (Xmat n).mulVec ((cj R).mulVec ((toC T).mulVec m2)) = R.mulVec ((toC T).mulVec m2) := by
    rw [Matrix.mulVec_mulVec, ← Xmat_rot, ← Matrix.mul_assoc, Xmat_sq, Matrix.one_mul]
  have kdot : ∀ {K : Matrix (n ⊕ n) (n ⊕ n) ℂ}, Kᵀ = K → ∀ x y, K.mulVec x ⬝ᵥ y = x ⬝ᵥ K.mulVec y := fun hK x y => by
    rw [Matrix.dotProduct_mulVec, ← Matrix.mulVec_transpose, hK]
  have q1 : (cj R).mulVec ((toC v⁻¹).mulVec m1) ⬝ᵥ (R * (toC v * toC H) * Rᴴ * (R * (1 - toC T) * Rᵀ)).mulVec
      ((cj R).mulVec ((toC v⁻¹).mulVec m1)) = m1 ⬝ᵥ (toC v⁻¹).mulVec m1 - m1 ⬝ᵥ (toC (H * T)).mulVec m1 := by
    rw [dot_rot, kdot ky1]
    simp only [Matrix.mulVec_mulVec]
    rw [← dotProduct_sub, ← Matrix.sub_mulVec]
    refine congrArg (fun M : Matrix (n ⊕ n) (n ⊕ n) ℂ => m1 ⬝ᵥ M.mulVec m1) ?_
    calc _ = (toC v⁻¹ * ((Rᴴ * R) * toC v) * toC H) * (Rᴴ * R) * (1 - toC T) * (Rᵀ * cj R) * toC v⁻¹ := by
          simp only [Matrix.mul_assoc]; rfl
      _ = toC (H * (1 - T) * v⁻¹) := by
          rw [hRR, u2, Matrix.one_mul, cj', Matrix.mul_one, Matrix.mul_one, Matrix.one_mul, toC_mul, toC_mul, toC_sub, toC_one]
      _ = _ := by rw [a1, toC_sub]
  have q2 : (cj R).mulVec ((toC v⁻¹).mulVec m1) ⬝ᵥ (R * (toC v * toC H) * Rᴴ).mulVec (R.mulVec ((toC T).mulVec m2)) =
      m1 ⬝ᵥ (toC (H * T)).mulVec m2 := by
    rw [dot_rot, kdot ky1]
    simp only [Matrix.mulVec_mulVec]
    refine congrArg (fun M : Matrix (n ⊕ n) (n ⊕ n) ℂ => m1 ⬝ᵥ M.mulVec m2) ?_
    calc _ = (toC v⁻¹ * ((Rᴴ * R) * toC v)) * toC H * ((Rᴴ * R) * toC T) := by simp only [Matrix.mul_assoc]; rfl
      _ = _ := by rw [hRR, Matrix.one_mul, Matrix.one_mul, cj', Matrix.one_mul, toC_mul]
  have q3 : R.mulVec ((toC T).mulVec m2) ⬝ᵥ (rhoA ħ cov * (R * (toC v * toC H) * Rᴴ)).mulVec
      (R.mulVec ((toC T).mulVec m2)) = m2 ⬝ᵥ (toC T).mulVec m2 - m2 ⬝ᵥ (toC (H * T)).mulVec m2 := by
    have rdot : ∀ x y, R.mulVec x ⬝ᵥ y = x ⬝ᵥ Rᵀ.mulVec y := fun x y => by
      rw [Matrix.dotProduct_mulVec, ← Matrix.mulVec_transpose, transpose_transpose]
    rw [rdot, kdot kyT, r1]
    simp only [Matrix.mulVec_mulVec]
    rw [← dotProduct_sub, ← Matrix.sub_mulVec]
    refine congrArg (fun M : Matrix (n ⊕ n) (n ⊕ n) ℂ => m2 ⬝ᵥ M.mulVec m2) ?_
    calc _ = toC T * (Rᵀ * cj R) * (1 - toC v⁻¹) * (Rᴴ * R) * toC v * toC H * ((Rᴴ * R) * toC T) := by
          simp only [Matrix.mul_assoc]
      _ = toC T * ((1 - toC v⁻¹) * toC v) * toC H * toC T := by
          rw [hRR, u2, Matrix.one_mul, Matrix.mul_one, Matrix.mul_one]; simp only [Matrix.mul_assoc]
      _ = toC (T * (v - 1) * H * T) := by
          rw [Matrix.sub_mul, Matrix.one_mul, cj', toC_mul, toC_mul, toC_mul, toC_sub, toC_one]
      _ = _ := by rw [a2, toC_sub]
  rw [hy, q1, q2, q3, c1]
  have d1 : ((mean ħ μ ⬝ᵥ v⁻¹.mulVec (mean ħ μ) : ℝ) : ℂ) = m1 ⬝ᵥ (toC v⁻¹).mulVec m1 := by
    rw [hm1', toC_mulVec]; simp [dotProduct]
  have d2 : ((m ⬝ᵥ T.mulVec m : ℝ) : ℂ) = m2 ⬝ᵥ (toC T).mulVec m2 := by
    rw [hm2', toC_mulVec]; simp [dotProduct]
  have d3 : (((mean ħ μ - m) ⬝ᵥ (H * T).mulVec (mean ħ μ - m) : ℝ) : ℂ) =
      m1 ⬝ᵥ (toC (H * T)).mulVec m1 - 2 * (m1 ⬝ᵥ (toC (H * T)).mulVec m2) + m2 ⬝ᵥ (toC (H * T)).mulVec m2 := by
    have kyH : (toC (H * T))ᵀ = toC (H * T) := by rw [← toC_T, a3]
    have e2 : (((mean ħ μ - m) ⬝ᵥ (H * T).mulVec (mean ħ μ - m) : ℝ) : ℂ) = (m1 - m2) ⬝ᵥ (toC (H * T)).mulVec (m1 - m2) := by
      have : m1 - m2 = fun r => (((mean ħ μ - m) r : ℝ) : ℂ) := by funext r; simp [hm1', hm2']
      rw [this, toC_mulVec]; simp [dotProduct]
    rw [e2, Matrix.mulVec_sub, dotProduct_sub, sub_dotProduct, sub_dotProduct, symm_dot kyH m2 m1]
    ring
  have hroot : (Real.sqrt v.det)⁻¹ * Real.sqrt (v.det * (1 + T * (v - 1)).det⁻¹) = (Real.sqrt (1 + T * (v - 1)).det)⁻¹ := by
    have p1 := Real.sqrt_pos.2 V1.det_pos
    rw [Real.sqrt_mul V1.det_pos.le, Real.sqrt_inv]
    field_simp
  rw [← hroot]
  push_cast
  rw [d3, d1, d2]
  set E1 := m1 ⬝ᵥ (toC v⁻¹).mulVec m1
  set E2 := m2 ⬝ᵥ (toC T).mulVec m2
  set E3 := m1 ⬝ᵥ (toC (H * T)).mulVec m1
  set E4 := m1 ⬝ᵥ (toC (H * T)).mulVec m2
  set E5 := m2 ⬝ᵥ (toC (H * T)).mulVec m2
  rw [show -(1 / 2) * (E3 - 2 * E4 + E5) = -(1 / 2) * E1 + (-(1 / 2) * E2 + (1 / 2 * (E1 - E3) + E4 + 1 / 2 * (E2 - E5))) by ring,
    Complex.exp_add (-(1 / 2) * E1), Complex.exp_add (-(1 / 2) * E2)]
  ring

end Verif.Manifold
