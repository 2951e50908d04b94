import Verif.CompactGrad
import Mathlib.Tactic.IntervalCases

/-!
# The compact diagonal strategy: examples
-/

namespace Verif.Compact
open Verif.Fock Verif.FastDiag

/-- Two modes, correlated bra and ket. -/
noncomputable def exA (t : ℝ) (i j : ℕ) : ℂ := if i + j = 2 ∧ i ≠ j then (t : ℂ) else if i + j = 4 ∧ i ≠ j then 1 / 3 else 0

theorem exA_symm (t : ℝ) (D : ℕ) : Symm D (exA t) := by
  intro i _ j _
  unfold exA
  simp only [add_comm j i, ne_comm (a := j) (b := i)]

/-- C79 applies to two modes with cutoffs 2 and 3, and the entry for one photon in the first mode is not zero. -/
example : ∃ out, diagonal (exA (1 / 2)) (fun _ => 0) 3 [2, 3] = some out ∧ out [1, 0] = 3 / 2 := by
  obtain ⟨out, h, ho⟩ := C79_diagonal (exA (1 / 2)) (fun _ => 0) 3 [2, 3] (exA_symm _ _)
  refine ⟨out, h, ?_⟩
  rw [ho [1, 0] (by simp)]
  have e : ([1, 0] ++ [1, 0] : List ℕ).toFinsupp = up (up 0 0) 2 := by
    ext x
    rw [up_apply, up_apply, List.toFinsupp_apply]
    rcases x with _ | _ | _ | _ | x <;> simp
  rw [e]
  have h := amp_up (D := 4) (b := fun _ => 0) (3 : ℂ) (exA_symm (1 / 2) 4) (i := 2) (by norm_num) (up 0 0)
  have h0 : dn (up 0 0) 0 = 0 := by
    ext x
    rw [dn_apply, up_apply]
    split_ifs <;> simp
  simp [Finset.sum_range_succ, up_apply, Fock.sq, h0, exA, amp_zero] at h
  simp only [List.length_cons, List.length_nil]
  rw [show 2 * (0 + 1 + 1) = 4 from rfl, one_div, h]
  norm_num

/-- A matrix that is not symmetric. -/
example : diagonal (fun i j => if i < j then 1 else 0) (fun _ => 0) 1 [2, 3] = none := by
  refine C79_refused _ _ _ _ fun h => ?_
  have := h 0 (by simp) 1 (by simp)
  simp at this

/-- C80 applies to a family that moves an entry of `A`, `B` and `C`. -/
example : HasDerivAt (𝕜 := ℝ) (fun t : ℝ => ((prodL ([2, 3].map List.range)).map fun p => (p.sum : ℂ) * (amps (exA t) (fun _ => (t : ℂ)) (1 + t) [2, 3]).a0 p).sum)
    (let grad := backward (exA (1 / 2 : ℝ)) (fun _ => ((1 / 2 : ℝ) : ℂ)) (1 + (1 / 2 : ℝ)) [2, 3] (amps (exA (1 / 2 : ℝ)) (fun _ => ((1 / 2 : ℝ) : ℂ)) (1 + (1 / 2 : ℝ)) [2, 3]) fun p => (p.sum : ℂ)
     ∑ i ∈ Finset.range 4, ∑ j ∈ Finset.range 4, grad.1.1 i j * (if i + j = 2 ∧ i ≠ j then 1 else 0) + ∑ i ∈ Finset.range 4, grad.1.2 i * 1 + grad.2 * 1) (1 / 2) := by
  have hid : HasDerivAt (fun t : ℝ => (t : ℂ)) 1 (1 / 2) := (hasDerivAt_id (1 / 2 : ℝ)).ofReal_comp
  refine C80_diagonal_backward (𝕜 := ℝ) exA (fun t _ => (t : ℂ)) (fun t => 1 + (t : ℂ)) (fun i j => if i + j = 2 ∧ i ≠ j then 1 else 0) (fun _ => 1) 1 (1 / 2) [2, 3] (fun p => (p.sum : ℂ))
    (fun t => exA_symm t _) (by push_cast; norm_num) (fun i _ j _ => ?_) (fun i _ => hid) (hid.const_add 1)
  unfold exA
  split_ifs
  · exact hid
  · exact hasDerivAt_const _ _
  · exact hasDerivAt_const _ _

end Verif.Compact
