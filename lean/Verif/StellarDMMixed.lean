import Verif.StellarDMFails
import Mathlib.LinearAlgebra.Matrix.SchurComplement
import Mathlib.Analysis.Matrix.PosDef

/-!
# The mixed physical stellar decomposition of density matrices (C95)

Model of `DM.physical_stellar_decomposition_mixed` (lab/states/dm.py 654-798). One batch element. The concatenations of the code only succeed if there are as many other modes as
core modes (`C95_shapes`), so both are indexed by `m`, the core modes first; the rank of the coupling is then never larger than the number of core modes. The loop that contracts
one displacement per core mode is modelled by one displacement of all core modes; `core_modes` may be given in any order: `ord` sends the position of a mode among the sorted
core modes to its position in `core_modes`.
-/

namespace Verif.Manifold
open Matrix Verif.Gauss MeasureTheory
open scoped ComplexOrder MatrixOrder

variable {m k p q : Type*} [Fintype m] [DecidableEq m] [Fintype k] [DecidableEq k] [Fintype p] [DecidableEq p] [Fintype q] [DecidableEq q]

/-! ## Specification -/

/-- `P` is the Moore-Penrose inverse of `M`. -/
def IsPinv (P M : Matrix m m ℂ) : Prop := M * P * M = M ∧ P * M * P = P ∧ (M * P)ᴴ = M * P ∧ (P * M)ᴴ = P * M

/-! ## The code -/

/-- `math.concat` of two arrays with `r₁ × c₁` and `r₂ × c₂` entries along the last axis: the shape of the result (math/backend_numpy.py `concat`). -/
def hcatShape (a b : ℕ × ℕ) : Option (ℕ × ℕ) := if a.1 = b.1 then some (a.1, a.2 + b.2) else none
/-- `math.concat` along the second to last axis. -/
def vcatShape (a b : ℕ × ℕ) : Option (ℕ × ℕ) := if a.2 = b.2 then some (a.1 + b.1, a.2) else none
/-- The shape of `R_c = math.block([[conj(r_c), Os_NM], [Os_MN, r_c]])` for `M` core modes, `N` other modes and an `r_c` of shape `s` (lab/states/dm.py 736-743,
math/backend_manager.py `block`). -/
def rcShape (M N : ℕ) (s : ℕ × ℕ) : Option (ℕ × ℕ) := do
  let top ← hcatShape s (N, M)
  let bot ← hcatShape (M, N) s
  vcatShape top bot

/-- `reduced_A` (lab/states/dm.py 729). -/
noncomputable def mxRed (Am R : Matrix (m ⊕ m) (m ⊕ m) ℂ) : Matrix (m ⊕ m) (m ⊕ m) ℂ := R * (1 - Xmat m * Am)⁻¹ * cj Rᵀ
/-- `r_c_squared` (lab/states/dm.py 732-734), with `sigma = R[M:, :M]` and `alpha_m = Am[M:, :M]` (lab/states/dm.py 705-707). -/
noncomputable def mxSq (Am R : Matrix (m ⊕ m) (m ⊕ m) ℂ) : Matrix m m ℂ := (mxRed Am R).toBlocks₂₂ + R.toBlocks₂₁ * (Am.toBlocks₂₁)⁻¹ * cj R.toBlocks₂₁ᵀ
/-- `r_c` (lab/states/dm.py 735-740): all eigenvectors, since there are `M` of them. -/
noncomputable def mxRc (V : Matrix m m ℂ) (lam : m → ℝ) : Matrix m m ℂ := V * diagonal (fun i => ((Real.sqrt (lam i) : ℝ) : ℂ))
/-- `A_core_n` (lab/states/dm.py 761-765), with `alpha_n = An[N:, :N]` and `a_n = An[N:, N:]` (lab/states/dm.py 708-709). -/
noncomputable def mxNc (Am R An : Matrix (m ⊕ m) (m ⊕ m) ℂ) : Matrix (m ⊕ m) (m ⊕ m) ℂ :=
  let α := An.toBlocks₂₁ - R.toBlocks₂₁ * (Am.toBlocks₂₁)⁻¹ * cj R.toBlocks₂₁ᵀ
  let a := An.toBlocks₂₂ + (mxRed Am R).toBlocks₂₁
  fromBlocks (cj a) (cj α) α a

/-- `U.contract(U.adjoint)`: the channel of a unitary (lab/states/dm.py 788-789). -/
noncomputable def unChan (U : (p → ℂ) → (q → ℂ) → ℂ) : (p → ℂ) → (q → ℂ) → (p → ℂ) → (q → ℂ) → ℂ := fun z z' w w' => U z z' * (starRingEnd ℂ) (U (star w) (star w'))
/-- `Unitary.inverse`: the dual (lab/transformations/base.py 300-316). -/
noncomputable def unInv (U : (p → ℂ) → (q → ℂ) → ℂ) : (q → ℂ) → (p → ℂ) → ℂ := fun z w => (starRingEnd ℂ) (U (star w) (star z))
/-- `d_ch_inverse.contract(phi)` (lab/states/dm.py 792). -/
noncomputable def afterMap (D : (q → ℂ) → (q → ℂ) → (q → ℂ) → (q → ℂ) → ℂ) (Φ : (p → ℂ) → (q → ℂ) → (p → ℂ) → (q → ℂ) → ℂ) : (p → ℂ) → (q → ℂ) → (p → ℂ) → (q → ℂ) → ℂ :=
  fun z z' w w' => applyCh Φ (fun u v => D u z' v w') z w
/-- `phi` (lab/states/dm.py 755-759, 784-797). -/
noncomputable def mxPhi (Am G : Matrix (m ⊕ m) (m ⊕ m) ℂ) (γ : m → ℂ) : (m → ℂ) → (m → ℂ) → (m → ℂ) → (m → ℂ) → ℂ :=
  renormMap (unitMap (afterMap (unChan (unInv (dispOp (-γ)))) (renormMap (mapOf (phA Am G) 0 1))))
/-- `DM.from_bargmann(..., (core.ansatz.A, core.ansatz.b, 1)).normalize()` (lab/states/dm.py 794, lab/states/base.py `normalize`). -/
noncomputable def mxNormalize {n : Type*} [Fintype n] (ρ : (n → ℂ) → (n → ℂ) → ℂ) : (n → ℂ) → (n → ℂ) → ℂ :=
  let ρ1 := fun z w => ρ z w / ρ 0 0
  fun z w => ρ1 z w / opTr ρ1

/-- `DM.physical_stellar_decomposition_mixed` (lab/states/dm.py 654-798), with the result `(V, lam)` of `math.eigh` and the result `P` of `math.pinv(R_c)`; `none` if a matrix to
be inverted is singular. The `c` of the state is not used. -/
noncomputable def mixedDM (ord : m ≃ m) (V : Matrix m m ℂ) (lam : m → ℝ) (P : Matrix (m ⊕ m) (m ⊕ m) ℂ) (A : Matrix ((m ⊕ m) ⊕ (m ⊕ m)) ((m ⊕ m) ⊕ (m ⊕ m)) ℂ)
    (b : (m ⊕ m) ⊕ (m ⊕ m) → ℂ) : Option (((m ⊕ m → ℂ) → (m ⊕ m → ℂ) → ℂ) × ((m → ℂ) → (m → ℂ) → (m → ℂ) → (m → ℂ) → ℂ)) :=
  open Classical in
  let N := A.submatrix (coreFirst m m) (coreFirst m m)
  let b' := b ∘ coreFirst m m
  let Am := N.toBlocks₁₁
  let R := N.toBlocks₂₁
  let T := rTemp (mxRc V lam)ᵀ
  let G := P * R
  let β := phBm G (b' ∘ Sum.inl)
  let βn := phBn T (phIn Am G) β (b' ∘ Sum.inr)
  let γ := (β ∘ Sum.inr) ∘ ord
  if (1 - Xmat m * Am).det = 0 ∨ Am.toBlocks₂₁.det = 0 ∨ (Am - Xmat m).det = 0 ∨ G.det = 0 then none
  else some (mxNormalize (applyOnDM (unChan (dispOp (-γ))) (dmOf (fromBlocks 0 Tᵀ T (mxNc Am R N.toBlocks₂₂)) (Sum.elim β βn) 1)), mxPhi Am G γ)

/-! ## Shapes -/

/-- **C95 (shapes)** Whatever the shape of `r_c`, the blocks of `R_c` fit together only if there are as many other modes as core modes, and then exactly if `r_c` has a row
per mode; the result then has two rows per mode. -/
theorem C95_shapes (M N : ℕ) (s : ℕ × ℕ) : ((rcShape M N s).isSome ↔ M = N ∧ s.1 = N) ∧ ∀ t, rcShape M N s = some t → t = (2 * N, s.2 + N) := by
  unfold rcShape hcatShape vcatShape
  by_cases h1 : s.1 = N
  · by_cases h2 : M = N
    · subst h2
      simp [h1, Nat.add_comm]
      omega
    · have h3 : ¬ M = s.1 := fun e => h2 (e.trans h1)
      simp [h1, h2]
  · simp [h1]

example : (rcShape 2 2 (2, 2)).isSome = true ∧ rcShape 1 2 (2, 1) = none := by decide

/-! ## Displacements -/

theorem unInv_disp (γ : q → ℂ) : unInv (dispOp (-γ)) = dispOp γ := by
  funext z w
  unfold unInv
  rw [disp_exp, disp_exp, map_mul, ← Complex.exp_conj, ← Complex.exp_conj, ← Complex.exp_add, ← Complex.exp_add]
  refine congrArg Complex.exp ?_
  rw [map_sub, map_div₀, map_neg, conj_dot, conj_dot, conj_dot, Complex.conj_ofNat, star_star, star_star, star_add, star_star]
  simp only [star_neg, star_star, neg_dotProduct, dotProduct_neg, neg_neg, add_dotProduct]
  rw [dotProduct_comm (star γ) γ, dotProduct_comm z w]
  ring

omit [DecidableEq m] in
theorem mxPhi_eq [DecidableEq m] (Am G : Matrix (m ⊕ m) (m ⊕ m) ℂ) (γ : m → ℂ) : mxPhi Am G γ = phPhi Am G γ := by
  unfold mxPhi phPhi
  rw [unInv_disp]
  rfl

/-- The channel of a displacement. -/
theorem unChan_disp (δ : m → ℂ) : unChan (dispOp δ) =
    mapOf (fromBlocks 0 (1 : Matrix (m ⊕ m) (m ⊕ m) ℂ)ᵀ 1 0) (Sum.elim (Sum.elim (star δ) δ) (-(Xmat m).mulVec (Sum.elim (star δ) δ))) (Complex.exp (-(δ ⬝ᵥ star δ))) := by
  funext z z' w w'
  unfold unChan
  rw [mapOf_eq, bargFun_split]
  unfold bargFun
  rw [disp_exp, disp_exp, map_mul, ← Complex.exp_conj, ← Complex.exp_conj, ← Complex.exp_add, ← Complex.exp_add, ← Complex.exp_add, ← Complex.exp_add, ← Complex.exp_add]
  refine congrArg Complex.exp ?_
  rw [map_sub, map_div₀, map_neg, conj_dot, conj_dot, conj_dot, Complex.conj_ofNat, star_star, star_star, star_add, star_star, star_star, Xmat_elim, Matrix.zero_mulVec,
    Matrix.zero_mulVec, Matrix.one_mulVec, dotProduct_zero, dotProduct_zero]
  simp only [add_dotProduct, neg_dotProduct, sumElim_dotProduct_sumElim]
  rw [dotProduct_comm (star δ) δ, dotProduct_comm z' z, dotProduct_comm w' w]
  ring

/-- A displacement of the core modes. -/
theorem disp_dm (T : Matrix (k ⊕ k) (m ⊕ m) ℂ) (Nc : Matrix (k ⊕ k) (k ⊕ k) ℂ) (e1 : m ⊕ m → ℂ) (e2 : k ⊕ k → ℂ) (γ : m → ℂ) : ∃ κ : ℂ, κ ≠ 0 ∧
    applyOnDM (unChan (dispOp (-γ))) (dmOf (fromBlocks 0 Tᵀ T Nc) (Sum.elim e1 e2) 1) =
      dmOf (fromBlocks 0 Tᵀ T Nc) (Sum.elim (e1 + -Sum.elim (star γ) γ) (e2 + (T * Xmat m).mulVec (Sum.elim (star γ) γ))) κ := by
  have hz : ((0 : Matrix (m ⊕ m) (m ⊕ m) ℂ))ᵀ = 0 := transpose_zero
  have hn : Sum.elim (star (-γ)) (-γ) = -Sum.elim (star γ) γ := by funext i; rcases i with i | i <;> simp
  refine ⟨1 * Complex.exp (-(-γ ⬝ᵥ star (-γ))) * Complex.exp (1 / 2 * (e1 ⬝ᵥ (0 : Matrix (m ⊕ m) (m ⊕ m) ℂ).mulVec e1) + -(Xmat m).mulVec (-Sum.elim (star γ) γ) ⬝ᵥ e1), ?_, ?_⟩
  · exact mul_ne_zero (mul_ne_zero one_ne_zero (Complex.exp_ne_zero _)) (Complex.exp_ne_zero _)
  · funext z w
    rw [unChan_disp, hn, act_core hz (show Shrinks (0 : Matrix m m ℂ) from shrinks_zero) (show Shrinks (0 : Matrix m m ℂ) from shrinks_zero)]
    rw [Matrix.mul_one, Matrix.mul_zero, Matrix.zero_mul, add_zero, transpose_one, Matrix.one_mulVec, Matrix.zero_mulVec, zero_add, add_comm (-Sum.elim (star γ) γ) e1,
      ← Matrix.mulVec_mulVec]
    have : T.mulVec (-(Xmat m).mulVec (-Sum.elim (star γ) γ)) = T.mulVec ((Xmat m).mulVec (Sum.elim (star γ) γ)) := by
      simp only [Matrix.mulVec_neg, neg_neg]
    rw [this]

end Verif.Manifold
