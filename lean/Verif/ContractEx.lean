import Verif.ContractDef
import Verif.CGIEx
import Mathlib.LinearAlgebra.Matrix.SchurComplement

/-!
# `contract`: an example, and two ways in which the code departs from the integral (property C16)
-/

namespace Verif.PolyExp
open Verif.Fock Verif.Batch Verif.Gauss PolyExp MeasureTheory

/-- The determinant of the integral. -/
theorem det_overlap {m : ℕ} (A D : Matrix (Fin m) (Fin m) ℂ) :
    (Matrix.fromBlocks A (-1) (-1) D).det = (-1) ^ m * (1 - D * A).det := by
  have h1 : Matrix.fromBlocks A (-1) (-1) D * Matrix.fromBlocks 0 1 1 0 = Matrix.fromBlocks (-1) A D (-1) := by
    rw [Matrix.fromBlocks_multiply]; simp
  have h2 := congrArg Matrix.det h1
  rw [Matrix.det_mul, det_X] at h2
  have h3 : (Matrix.fromBlocks (-1) A D (-1) : Matrix (Fin m ⊕ Fin m) (Fin m ⊕ Fin m) ℂ) = -Matrix.fromBlocks 1 (-A) (-D) 1 := by
    rw [Matrix.fromBlocks_neg]; simp
  rw [h3, Matrix.det_neg, Matrix.det_fromBlocks_one₁₁, Matrix.neg_mul, Matrix.mul_neg, neg_neg, Fintype.card_sum, Fintype.card_fin, ← two_mul, pow_mul,
    neg_one_sq, one_pow, one_mul] at h2
  rw [← h2, mul_comm, mul_assoc, ← mul_pow]
  simp

theorem overlap_det {f g : PolyExp} {β1 β2 c1 c2 : List ℕ} {m : ℕ} (hm : (c1.filter (· ∈ c2)).length = m) (A D : Matrix (Fin m) (Fin m) ℂ)
    (hA : ∀ i j : Fin m, f.A β1 (c1.idxOf ((c1.filter (· ∈ c2)).getD i 0)) (c1.idxOf ((c1.filter (· ∈ c2)).getD j 0)) = A i j)
    (hD : ∀ i j : Fin m, g.A β2 (c2.idxOf ((c1.filter (· ∈ c2)).getD i 0)) (c2.idxOf ((c1.filter (· ∈ c2)).getD j 0)) = D i j) :
    (overlapMatrix f β1 g β2 c1 c2).det = (-1) ^ m * (1 - D * A).det := by
  subst hm
  rw [← det_overlap]
  unfold overlapMatrix
  congr 2
  · ext i j; exact hA i j
  · ext i j; exact hD i j

/-! ### A batched superposition contracted over two labels (density matrix and Hermitian kernel) -/

/-- A superposition of two terms in the variables `(bra, ket)` with a batch axis of size 3; quadratic part `½ z_bra z_ket`. -/
noncomputable def exD : PolyExp :=
  ⟨[3, 2], true, 2, fun _ i j => if i = j then 0 else 1 / 2, fun β i => (β.getD 0 0 : ℂ) + i, [], fun β _ => (1 + β.getD 1 0 : ℂ)⟩

/-- A kernel in `(x, bra, ket)` plus one derived variable. -/
noncomputable def exK : PolyExp :=
  ⟨[], false, 4, fun _ i j => if i * j = 2 then 1 / 3 else if i * j = 0 then 1 else if i * j = 3 then Complex.I else 0, fun _ i => (i : ℂ) * Complex.I, [2], fun _ k => if k = [1] then 1 else 2⟩

theorem exD_wf : exD.WF := ⟨by simp [exD], by simp [exD]⟩
theorem exK_wf : exK.WF := ⟨by simp [exK], by simp [exK]⟩
theorem exD_sym : SymAll exD := by intro β i _ j _; simp only [exD, eq_comm]
theorem exK_sym : SymAll exK := by intro β i _ j _; simp only [exK, mul_comm]

theorem exDK_compat : Compat exD exK [7] [0, 1] [] [2, 0, 1] [7] [2] := by
  refine ⟨by decide, by decide, by decide, by decide, by decide, by decide, by decide, ?_, by decide, by decide, by decide, by decide, by decide, ?_, ?_⟩
  · intro d _ h; cases h
  · simp
  · intro _ h; cases h

theorem exDK_quad (β1 β2 : List ℕ) (w : Fin 2 → ℂ) :
    exD.quad β1 (atLabel [0, 1] [0, 1] (padFin w) [] 0) + exK.quad β2 (atLabel [2, 0, 1] [0, 1] (padFin fun i => (starRingEnd ℂ) (w i)) [] 0) =
      1 / 2 * (w 0 * w 1) + 1 / 3 * (starRingEnd ℂ) (w 0 * w 1) := by
  unfold PolyExp.quad
  rw [show exD.numCV = 2 from rfl, show exK.numCV = 3 from rfl]
  simp only [Finset.sum_range_succ, Finset.sum_range_zero, exD, exK]
  simp [atLabel, padFin, List.idxOf, List.findIdx_cons]
  ring

theorem exDK_conv (o : List ℕ) : AllConv exD exK [7] [0, 1] [] [2, 0, 1] [7] o := by
  intro τ1 τ2 _ _ w hw
  change Fin 2 → ℂ at w
  have q := exDK_quad (restrict (· ∈ [7]) [7] o ++ τ1) (restrict (· ∈ []) [7] o ++ τ2) w
  refine lt_of_eq_of_lt (congrArg Complex.re q) ?_
  have e : ∑ i, ‖w i‖ ^ 2 = ‖w 0‖ ^ 2 + ‖w 1‖ ^ 2 := Fin.sum_univ_two _
  refine lt_of_lt_of_eq ?_ e.symm
  have hp : 0 < ‖w 0‖ ^ 2 + ‖w 1‖ ^ 2 := by
    obtain ⟨i, hi⟩ := Function.ne_iff.1 hw
    have hn := norm_pos_iff.2 hi
    have : i = 0 ∨ i = 1 := by
      have : ∀ i : Fin 2, i = 0 ∨ i = 1 := by decide
      exact this i
    rcases this with rfl | rfl
    · have : 0 < ‖w 0‖ := hn
      positivity
    · have : 0 < ‖w 1‖ := hn
      positivity
  have h1 : (w 0 * w 1).re ≤ ‖w 0‖ * ‖w 1‖ := by
    rw [← norm_mul]; exact Complex.re_le_norm _
  have h2 : (1 / 2 * (w 0 * w 1) + 1 / 3 * (starRingEnd ℂ) (w 0 * w 1)).re = 5 / 6 * (w 0 * w 1).re := by
    generalize w 0 * w 1 = z
    simp [Complex.mul_re]
    ring
  rw [h2]
  nlinarith [sq_nonneg (‖w 0‖ - ‖w 1‖)]

theorem exDK_det (β1 β2 : List ℕ) : (overlapMatrix exD β1 exK β2 [0, 1] [2, 0, 1]).det = 25 / 36 := by
  rw [overlap_det (m := 2) rfl !![0, 1 / 2; 1 / 2, 0] !![0, 1 / 3; 1 / 3, 0]
    (by intro i j; fin_cases i <;> fin_cases j <;> simp [exD, List.idxOf, List.findIdx_cons])
    (by intro i j; fin_cases i <;> fin_cases j <;> simp [exK, List.idxOf, List.findIdx_cons]), Matrix.det_fin_two]
  simp [Matrix.mul_apply, Fin.sum_univ_two]
  norm_num

/-- The hypotheses of the C16 theorems can be met: a batched superposition of two terms contracted over two labels with a kernel that has a
derived variable. -/
example : ∃ h, exD.contract exK [7] [0, 1] [] [2, 0, 1] [7] [2] = some (.finite h) ∧ IsContraction exD exK h [7] [0, 1] [] [2, 0, 1] [7] [2] := by
  obtain ⟨h1, h2⟩ := C16_defined exD_wf exK_wf exDK_compat
  cases hc : exD.contract exK [7] [0, 1] [] [2, 0, 1] [7] [2] with
  | none => exact absurd hc h1
  | some r =>
    cases r with
    | infinite =>
      obtain ⟨_, o, τ1, τ2, _, _, _, hd⟩ := h2.1 hc
      rw [exDK_det] at hd
      norm_num at hd
    | finite h =>
      refine ⟨h, rfl, C16_hermitian exD_wf exK_wf exD_sym exK_sym exDK_compat hc (fun l => 1 - l) ?_ ?_ fun o _ => exDK_conv o⟩
      · intro l hl _
        fin_cases hl <;> simp
      · intro o τ1 τ2 _ _ _ l hl _ l' hl' _
        fin_cases hl <;> fin_cases hl' <;> simp [exD, exK, List.idxOf, List.findIdx_cons, Complex.conj_ofNat]

end Verif.PolyExp
