import Verif.Entropy

/-!
# Concrete cases of C67, C68, C69
-/

namespace Verif.Manifold
open Matrix Verif.Gauss MeasureTheory
open scoped ComplexOrder MatrixOrder

/-- A squeezed thermal state of one mode with one thermal photon. -/
noncomputable def sqThermal (r φ : ℝ) : Matrix (Fin 1 ⊕ Fin 1) (Fin 1 ⊕ Fin 1) ℝ := williamsonCov 2 (sqS r φ) fun _ => 3

theorem sqS_symplectic (r φ : ℝ) : Symplectic (sqS r φ) := (C64_squeezing [] (fun _ => r) (fun _ => φ) []).1

/-- It is a physical state. -/
theorem sqThermal_uncertainty (r φ : ℝ) : (toC (sqThermal r φ) + (Complex.I * ((2 : ℝ) / 2)) • toC (symForm (Fin 1))).PosSemidef :=
  (normal_uncertainty (by norm_num) (sqS_symplectic r φ) _).2 fun _ => by norm_num

theorem sqThermal_posDef (r φ : ℝ) : (sqThermal r φ).PosDef := uncertainty_posDef (by norm_num) (sqThermal_uncertainty r φ)

example (r φ : ℝ) : sympEigs 2 (sqThermal r φ) = [3] := by
  have h := (C68_eigenvalues (ħ := 2) (by norm_num) (sqS_symplectic r φ) (ν := fun _ => 3) fun _ => by norm_num).1
  simp only [Finset.univ_unique, Finset.singleton_val, Multiset.map_singleton] at h
  exact Multiset.coe_eq_singleton.1 h

example (r φ : ℝ) : purityFn 2 (sqThermal r φ) = 1 / 3 := by
  unfold sqThermal
  rw [normal_purity (by norm_num) (sqS_symplectic r φ) fun _ => by norm_num]
  norm_num

/-- It has positive entropy and is not a ket. -/
example (r φ : ℝ) : 0 < vnEntropy 2 (sqThermal r φ) ∧ ¬ ketAccepts 2 (sqThermal r φ) (some 1e-5) := by
  constructor
  · unfold sqThermal
    rw [normal_entropy (by norm_num) (sqS_symplectic r φ) fun _ => by norm_num]
    simpa using entropyG_pos (x := 3) (by norm_num)
  · unfold ketAccepts sqThermal
    rw [normal_purity (by norm_num) (sqS_symplectic r φ) fun _ => by norm_num]
    norm_num

/-- Two coherent states: `Tr ρ₁ρ₂ = exp(-(q₁-q₂)²/4 …)`, here at `ħ = 2` and means `(2,0)`, `(0,0)`. -/
example : opTr (opMul (dmFromPhaseSpace 2 1 (Sum.elim ![2] ![0]) 1) (dmFromPhaseSpace 2 1 0 1)) = (Real.exp (-1) : ℝ) := by
  have h1 : (1 : Matrix (Fin 1 ⊕ Fin 1) (Fin 1 ⊕ Fin 1) ℝ).PosDef := Matrix.PosDef.one
  rw [C67_overlap (by norm_num) h1 h1]
  have e : (1 + 1 : Matrix (Fin 1 ⊕ Fin 1) (Fin 1 ⊕ Fin 1) ℝ) = (2 : ℝ) • 1 := by rw [two_smul]
  have ei : ((2 : ℝ) • (1 : Matrix (Fin 1 ⊕ Fin 1) (Fin 1 ⊕ Fin 1) ℝ))⁻¹ = (1 / 2 : ℝ) • 1 := Matrix.inv_eq_right_inv (by
    rw [Matrix.smul_mul, Matrix.one_mul, smul_smul]; norm_num)
  rw [e, det_smul, det_one, ei]
  simp [Fintype.card_sum, Matrix.smul_mulVec, dotProduct]

/-- A squeezer applied to the thermal state gives the squeezed thermal state. -/
example (r φ : ℝ) (z w : Fin 1 → ℂ) :
    evolve (fun z w => (Verif.Triples.squeezing [] (fun _ => r) (fun _ => φ)).call [] (args z w)) (dmFromPhaseSpace 2 ((3 : ℝ) • 1) 0 1) z w =
      dmFromPhaseSpace 2 (sqThermal r φ) 0 1 z w := by
  rw [C69_squeezing [] _ _ [] (by norm_num) (scalar_posDef' 3 (by norm_num)), Matrix.mulVec_zero]
  refine congrArg (fun c => dmFromPhaseSpace 2 c 0 1 z w) ?_
  unfold sqThermal williamsonCov
  have : diagonal (Sum.elim (fun _ : Fin 1 => (3 : ℝ)) fun _ : Fin 1 => 3) = (3 : ℝ) • (1 : Matrix (Fin 1 ⊕ Fin 1) (Fin 1 ⊕ Fin 1) ℝ) := by
    rw [← diagonal_one, ← diagonal_smul]
    refine congrArg _ (funext fun r => ?_)
    rcases r with j | j <;> simp
  rw [this]
  norm_num
where scalar_posDef' (c : ℝ) (hc : 0 < c) : (c • (1 : Matrix (Fin 1 ⊕ Fin 1) (Fin 1 ⊕ Fin 1) ℝ)).PosDef := Matrix.PosDef.one.smul hc

end Verif.Manifold
