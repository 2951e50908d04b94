import Verif.CompactLeftGrad
import Verif.CompactEx

/-!
# The compact strategy with one leftover mode: examples
-/

namespace Verif.Compact
open Verif.Fock Verif.FastDiag

/-- C81 applies with one detected mode; one photon in each axis of the leftover mode and none detected. -/
example : ∃ out, leftoverJax (exA (1 / 2)) (fun _ => 0) 3 4 [2] true = some out ∧ out 1 1 [0] = 3 / 2 := by
  obtain ⟨out, h, ho⟩ := C81_leftover (exA (1 / 2)) (fun _ => 0) 3 4 [2] (by simp) (exA_symm _ _)
  refine ⟨out, h, ?_⟩
  rw [ho [0] (by simp) 1 1 (by norm_num) (by norm_num)]
  have e : ((1 :: [0]) ++ (1 :: [0]) : List ℕ).toFinsupp = up (up 0 0) 2 := by
    ext x
    rw [up_apply, up_apply, List.toFinsupp_apply]
    rcases x with _ | _ | _ | _ | x <;> simp
  rw [e]
  have h := amp_up (D := 4) (b := fun _ => 0) (3 : ℂ) (exA_symm (1 / 2) 4) (i := 2) (by norm_num) (up 0 0)
  have h0 : dn (up 0 0) 0 = 0 := by
    ext x
    rw [dn_apply, up_apply]
    split_ifs <;> simp
  simp [Finset.sum_range_succ, up_apply, Fock.sq, h0, exA, amp_zero] at h
  simp only [List.length_cons, List.length_nil]
  rw [show 2 * (0 + 1 + 1) = 4 from rfl, one_div, h]
  norm_num

/-- The back ends agree on three modes. -/
example : ∃ out out', leftoverJax (exA (1 / 2)) (fun _ => 1) 3 4 [2, 3] true = some out ∧ leftoverNumpy (exA (1 / 2)) (fun _ => 1) 3 4 [2, 3] true = some out' ∧
    ∀ p, List.Forall₂ (· ≤ ·) p [2, 3] → ∀ m n, m ≤ 4 → n ≤ 4 → out m n p = out' m n p :=
  C81_backends _ _ _ 4 [2, 3] (by simp) (exA_symm _ _) (by simp)

/-- **C81 (flag, disagreement)** With `reorderedAB = False` the back ends differ: JAX reads the variables as interleaved, numpy reorders them all the same. -/
theorem C81_backends_disagree : ∃ out out', leftoverJax (exA (1 / 2)) (fun _ => 0) 3 4 [2] false = some out ∧ leftoverNumpy (exA (1 / 2)) (fun _ => 0) 3 4 [2] false = some out' ∧
    out 1 1 [0] = 0 ∧ out' 1 1 [0] = 3 / 2 := by
  obtain ⟨out, h, ho⟩ := C81_interleaved (exA (1 / 2)) (fun _ => 0) 3 4 [2] (by simp) (exA_symm _ _)
  obtain ⟨out', h', ho'⟩ := C42_all_outcomes (exA (1 / 2)) (fun _ => 0) 3 4 [2] false (by simp) (exA_symm _ _) (by simp)
  refine ⟨out, _, h, by unfold leftoverNumpy; rw [h']; rfl, ?_, ?_⟩
  · rw [ho [0] (by simp) 1 1 (by norm_num) (by norm_num)]
    have e : (1 :: 1 :: [0].flatMap fun x => [x, x] : List ℕ).toFinsupp = up (up 0 0) 1 := by
      ext x
      rw [up_apply, up_apply, List.toFinsupp_apply]
      rcases x with _ | _ | _ | _ | x <;> simp
    rw [e]
    have h := amp_up (D := 4) (b := fun _ => 0) (3 : ℂ) (exA_symm (1 / 2) 4) (i := 1) (by norm_num) (up 0 0)
    simp [Finset.sum_range_succ, up_apply, Fock.sq, exA] at h
    simp only [List.length_cons, List.length_nil]
    rw [show 2 * (0 + 1 + 1) = 4 from rfl, one_div, h]
  · refine (ho' [0] (by simp) 1 1 (by norm_num) (by norm_num)).trans ?_
    have e : ((1 :: [0]) ++ (1 :: [0]) : List ℕ).toFinsupp = up (up 0 0) 2 := by
      ext x
      rw [up_apply, up_apply, List.toFinsupp_apply]
      rcases x with _ | _ | _ | _ | x <;> simp
    rw [e]
    have h := amp_up (D := 4) (b := fun _ => 0) (3 : ℂ) (exA_symm (1 / 2) 4) (i := 2) (by norm_num) (up 0 0)
    have h0 : dn (up 0 0) 0 = 0 := by
      ext x
      rw [dn_apply, up_apply]
      split_ifs <;> simp
    simp [Finset.sum_range_succ, up_apply, Fock.sq, h0, exA, amp_zero] at h
    simp only [List.length_cons, List.length_nil]
    rw [show 2 * (0 + 1 + 1) = 4 from rfl, one_div, h]
    norm_num

/-- No detected mode: refused. -/
example : leftoverJax (exA (1 / 2)) (fun _ => 0) 3 4 [] true = none := C81_refused _ _ _ _ _ (Or.inl rfl)

/-- C82 applies to a family that moves entries of `A`, `B` and `C`, with one detected mode. -/
example : HasDerivAt (𝕜 := ℝ) (fun t : ℝ => ((List.range 3).map fun m => ((List.range 3).map fun n => ((prodL ([2].map List.range)).map fun p =>
      ((m + p.sum : ℕ) : ℂ) * (ampsLeft (exA t) (fun _ => (t : ℂ)) (1 + t) 3 [2]).a0 p m n).sum).sum).sum)
    (let grad := backwardLeft (exA (1 / 2 : ℝ)) (fun _ => ((1 / 2 : ℝ) : ℂ)) (1 + (1 / 2 : ℝ)) 3 [2] (ampsLeft (exA (1 / 2 : ℝ)) (fun _ => ((1 / 2 : ℝ) : ℂ)) (1 + (1 / 2 : ℝ)) 3 [2])
        fun m _ p => ((m + p.sum : ℕ) : ℂ)
     ∑ i ∈ Finset.range 4, ∑ j ∈ Finset.range 4, grad.1.1 i j * (if i + j = 2 ∧ i ≠ j then 1 else 0) + ∑ i ∈ Finset.range 4, grad.1.2 i * 1 + grad.2 * 1) (1 / 2) := by
  have hid : HasDerivAt (fun t : ℝ => (t : ℂ)) 1 (1 / 2) := (hasDerivAt_id (1 / 2 : ℝ)).ofReal_comp
  refine C82_leftover_backward (𝕜 := ℝ) exA (fun t _ => (t : ℂ)) (fun t => 1 + (t : ℂ)) (fun i j => if i + j = 2 ∧ i ≠ j then 1 else 0) (fun _ => 1) 1 (1 / 2) 3 [2] (fun m _ p => ((m + p.sum : ℕ) : ℂ))
    (fun t => exA_symm t _) (by push_cast; norm_num) (fun i _ j _ => ?_) (fun i _ => hid) (hid.const_add 1)
  unfold exA
  split_ifs
  · exact hid
  · exact hasDerivAt_const _ _
  · exact hasDerivAt_const _ _

end Verif.Compact
