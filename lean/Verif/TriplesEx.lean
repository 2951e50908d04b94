import Verif.TriplesTrace
import Verif.FockUnique
import Verif.ToBargmann
import Mathlib.Analysis.Complex.ExponentialBounds
import Mathlib.Analysis.SpecialFunctions.Trigonometric.DerivHyp

/-!
# Concrete cases of C52–C58
-/

namespace Verif.Triples
open Verif.Fock Verif.Batch Verif.Gauss Verif.PolyExp

/-- `Compat` of two triples is a condition on the labels and the batch shapes. -/
theorem compat_mk {B B' : List ℕ} {N N' : ℕ} {A A' : List ℕ → ℕ → ℕ → ℂ} {b b' : List ℕ → ℕ → ℂ} {c c' : List ℕ → ℂ} {b1 c1 b2 c2 bo co : List ℕ}
    (h : b1.Nodup ∧ b2.Nodup ∧ b1.length = B.length ∧ b2.length = B'.length ∧ bo.filter (· ∈ b1) = b1 ∧ bo.filter (· ∈ b2) = b2 ∧
      (∀ d ∈ bo, d ∈ b1 ∨ d ∈ b2) ∧ (∀ d ∈ b1, d ∈ b2 → Batch.sizeOf b1 B d = Batch.sizeOf b2 B' d) ∧ c1.Nodup ∧ c2.Nodup ∧ c1.length = N ∧ c2.length = N' ∧
      c1.filter (· ∈ c2) = c2.filter (· ∈ c1) ∧ co.Perm (c1.filter (· ∉ c2) ++ c2.filter (· ∉ c1))) :
    Compat (mk B N A b c) (mk B' N' A' b' c') b1 c1 b2 c2 bo co := by
  obtain ⟨h1, h2, h3, h4, h5, h6, h7, h8, h9, h10, h11, h12, h13, h14⟩ := h
  exact ⟨h1, h2, by rw [mk_outBatch, h3], by rw [mk_outBatch, h4], h5, h6, h7, by rw [mk_outBatch, mk_outBatch]; exact h8, h9, h10, by rw [mk_numCV, h11],
    by rw [mk_numCV, h12], h13, h14, by simp [mk]⟩

theorem tmsv_sym (B : List ℕ) (r φ : List ℕ → ℝ) : SymAll (tmsv B r φ) := mk_symm fun _ i hi j hj => by interval_cases i <;> interval_cases j <;> rfl

section C52
variable (r φ θ : List ℕ → ℝ) (α : List ℕ → ℂ)

/-- A rotation, batched over three angles, of the second mode of a batch of two two-mode squeezed vacua. -/
example := C52_rotation (B := [3]) (θ := θ) (x := 2) (l := 1) (b1 := [7]) (b2 := [8]) (bo := [7, 8]) (co := [0, 2]) (f := tmsv [2] r φ) mk_wf (tmsv_sym _ _ _)
  (compat_mk (by decide)) (by decide : 1 ∈ [0, 1]) (by decide)

/-- The same for a displacement sharing the batch axis, with the output in another order. -/
example := C52_displacement (B := [2]) (α := α) (x := 2) (l := 0) (b1 := [7]) (b2 := [7]) (bo := [7]) (co := [2, 1]) (f := tmsv [2] r φ) mk_wf (tmsv_sym _ _ _)
  (compat_mk (by decide)) (by decide : 0 ∈ [0, 1]) (by decide)

example := C52_damping (B := []) (d := θ) (x := 2) (l := 0) (b1 := [7]) (b2 := []) (bo := [7]) (co := [1, 2]) (f := tmsv [2] r φ) mk_wf (tmsv_sym _ _ _)
  (compat_mk (by decide)) (by decide : 0 ∈ [0, 1]) (by decide)

example := C52_beamsplitter (B := [2]) (θ := θ) (φ := r) (x0 := 2) (x1 := 3) (l0 := 0) (l1 := 1) (b1 := [7]) (b2 := [7]) (bo := [7]) (co := [2, 3])
  (f := tmsv [2] r φ) mk_wf (tmsv_sym _ _ _) (compat_mk (by decide)) (by decide : 0 ∈ [0, 1]) (by decide) (by decide) (by decide)

example := C52_identity (n := 2) (O := [2, 3]) (I := [0, 1]) (b1 := [7]) (b2 := []) (bo := [7]) (co := [2, 3]) (f := tmsv [2] r φ) mk_wf (tmsv_sym _ _ _) rfl rfl
  (compat_mk (by decide)) (by decide : ∀ l ∈ [0, 1], l ∈ [0, 1]) (by decide)

/-- The amplifier with gain 2 exists and acts on a thermal state. -/
example : ∃ g, amplifier [] (fun _ => 2) = some g ∧ ∃ F, ContractsTo (thermal [2] r) g [7] [0, 1] [] [2, 0, 3, 1] [7] [2, 3] F := by
  refine ⟨_, if_neg (by rintro ⟨β, -, h⟩; norm_num at h), ?_⟩
  refine Exists.intro _ (C52_amplifier (B := []) (G := fun _ => 2) (if_neg (by rintro ⟨β, -, h⟩; norm_num at h)) mk_wf
    (mk_symm fun _ i hi j hj => by interval_cases i <;> interval_cases j <;> rfl) (compat_mk (by decide)) (by decide) (by decide) (by decide) (by decide))

end C52

section C53
variable (r φ θ : List ℕ → ℝ) (α β : List ℕ → ℂ)

example := C53_coherent (B := [3]) (α := α) (x := 1) (l := 0) (b2 := [7]) (by decide) (by decide) rfl
example := C53_squeezed (B := [3]) (r := r) (φ := φ) (x := 1) (l := 0) (b2 := [7]) (by decide) (by decide) rfl
example := C53_tmsv (B := [3]) (r := r) (φ := φ) (x := 2) (y := 3) (l := 0) (m := 1) (b2 := [7]) (by decide) (by decide) rfl
example := C53_displaced_squeezed (B := [3]) (α := α) (r := r) (φ := φ) (x := 1) (l := 0) (b2 := [7]) (compat_mk (by decide)) (by decide)
example := C53_coherent_displaced (B := [3]) (B' := [2]) (α := α) (β := β) (x := 1) (l := 0) (b1 := [7]) (b2 := [8]) (bo := [8, 7]) (co := [1]) (by decide)
  (compat_mk (by decide))
example := C53_coherent_rotated (B := [3]) (B' := []) (α := α) (θ := θ) (x := 1) (l := 0) (b1 := [7]) (b2 := []) (bo := [7]) (co := [1]) (by decide)
  (compat_mk (by decide))
example := C53_coherent_beamsplitter (B := [3]) (B' := [2]) (a := α) (b := β) (θ := θ) (φ := φ) (x0 := 2) (x1 := 3) (l0 := 0) (l1 := 1) (b1 := [7]) (b2 := [8])
  (bo := [7, 8]) (co := [2, 3]) (by decide) (compat_mk (by decide))

end C53

section C54
variable (r φ θ : List ℕ → ℝ) (α β : List ℕ → ℂ)

example := C54_displacement (B := [3]) (B' := [2]) (α := α) (β := β) (x := 2) (m := 1) (l := 0) (b1 := [7]) (b2 := [8]) (bo := [7, 8]) (by decide) (by decide) (by decide)
  (compat_mk (by decide))
example := C54_rotation (B := [3]) (B' := [2]) (θ := θ) (θ' := r) (x := 2) (m := 1) (l := 0) (b1 := [7]) (b2 := [8]) (bo := [7, 8]) (by decide) (by decide) (by decide)
  (compat_mk (by decide))
example := C54_beamsplitter (B := [3]) (B' := []) (θ := θ) (θ' := r) (φ := fun _ => 1) (φ' := fun _ => 1) (x0 := 4) (x1 := 5) (m0 := 2) (m1 := 3) (l0 := 0) (l1 := 1)
  (b1 := [7]) (b2 := []) (bo := [7]) (by decide) (compat_mk (by decide)) (fun _ => rfl)

/-- Two squeezings by `r = 1/2` compose; so does a squeezing with its inverse. -/
example (s : ℝ) (hs : s = 1 / 2 ∨ s = -(1 / 2)) : ∃ F, ContractsTo (squeezing [3] (fun _ => 1 / 2) fun _ => 0) (squeezing [] (fun _ => s) fun _ => 0) [7] [1, 0] [] [2, 1] [7] [2, 0] F := by
  refine ⟨_, C54_squeezing (by decide) (by decide) (by decide) (compat_mk (by decide)) (fun _ => rfl) fun o _ => ?_⟩
  have h2 : Real.cosh s = Real.cosh (1 / 2) := by rcases hs with rfl | rfl <;> simp [Real.cosh_neg]
  rw [h2]
  have h1 : Real.cosh (1 / 2) < 10 := by
    rw [Real.cosh_eq]
    have e1 : Real.exp (1 / 2) < 3 := lt_trans (Real.exp_lt_exp.2 (by norm_num : (1 / 2 : ℝ) < 1)) (lt_trans Real.exp_one_lt_d9 (by norm_num))
    have e2 : Real.exp (-(1 / 2)) < 1 := by rw [Real.exp_lt_one_iff]; norm_num
    linarith
  have h0 := Real.cosh_pos (1 / 2)
  have h3 := Real.one_le_cosh (1 / 2 + s)
  rw [lt_div_iff₀ (by positivity)]
  nlinarith

end C54

/-- Attenuators with efficiencies 1/2 and 1/4. -/
example : ∃ f g, attenuator [3] (fun _ => 1 / 2) = some f ∧ attenuator [] (fun _ => 1 / 4) = some g ∧
    ∃ F, ContractsTo f g [7] [2, 0, 3, 1] [] [4, 2, 5, 3] [7] [4, 0, 5, 1] F := by
  have e1 : ¬ ((∃ β ∈ ndindex [3], (1 / 2 : ℝ) > 1) ∨ ∃ β ∈ ndindex [3], (1 / 2 : ℝ) < 0) := by norm_num
  have e2 : ¬ ((∃ β ∈ ndindex [], (1 / 4 : ℝ) > 1) ∨ ∃ β ∈ ndindex [], (1 / 4 : ℝ) < 0) := by norm_num
  refine ⟨_, _, if_neg e1, if_neg e2, ?_⟩
  exact Exists.intro _ (C55_attenuator (B := [3]) (B' := []) (η := fun _ => 1 / 2) (η' := fun _ => 1 / 4) (if_neg e1) (if_neg e2) (by decide)
    (compat_mk (by decide)))

/-! ### C57 -/

example (α : List ℕ → ℂ) (φ : List ℕ → ℝ) : ContractsTo (displacedSqueezed [3] α (fun _ => 1) φ) (displacedSqueezed [3] α (fun _ => 1) φ).conj [7] [0] [7] [0] [7] [] fun _ _ => 1 := by
  refine C57_displaced_squeezed (by decide) rfl fun o _ => ?_
  have h1 : Real.cosh 1 < 10 := by
    rw [Real.cosh_eq]
    have e1 := Real.exp_one_lt_d9
    have e2 : Real.exp (-1) < 1 := by rw [Real.exp_lt_one_iff]; norm_num
    linarith
  have h0 := Real.cosh_pos 1
  rw [lt_div_iff₀ (by positivity)]
  nlinarith

example : ∃ h, (thermal [2] fun β => 1 + β.getD 0 0).trace [0] [1] (-1) = some (.finite h) ∧ h.outBatch = [2] ∧ ∀ β, InB [2] β → ∀ y, h.call β y = 1 := by
  obtain ⟨h, h1, -, h2, h3⟩ := (C57_thermal (B := [2]) (n := fun β => 1 + β.getD 0 0) fun β _ => by positivity).2 fun β hβ => by
    have : β.getD 0 0 < 2 := by cases hβ with | cons h1 _ => exact h1
    have : (β.getD 0 0 : ℝ) < 2 := by exact_mod_cast this
    linarith
  exact ⟨h, h1, h2, h3⟩

/-- A million photons on average are too many. -/
example : (thermal [2] fun _ => 1000000).trace [0] [1] (-1) = some .infinite :=
  (C57_thermal (B := [2]) (n := fun _ => 1000000) fun β _ => by norm_num).1.2 ⟨[0], by decide, by norm_num⟩

/-! ### C58 -/

/-- The Fock array of a coherent state sums to its value. -/
example (α : List ℕ → ℂ) := C58_series (coherent [2] α) mk_wf (fun _ _ _ _ _ => rfl) [1]

/-- `f` and the superposition `f/2 + f/2` have the same Fock arrays. -/
example (α : ℂ) (shape k : List ℕ) (hk : InB shape k) :
    (mk [] 1 (fun _ _ _ => 0) (fun _ => vec [α]) fun _ => 1).fockArray shape [] k =
      (⟨[2], true, 1, fun _ _ _ => 0, fun _ => vec [α], [], fun _ _ => 1 / 2⟩ : PolyExp).fockArray shape [] k := by
  refine C58_determined _ (⟨[2], true, 1, fun _ _ _ => 0, fun _ => vec [α], [], fun _ _ => 1 / 2⟩ : PolyExp) mk_wf ⟨by simp, by simp⟩ (fun _ _ _ _ _ => rfl)
    (fun _ _ _ _ _ => rfl) [] [] rfl (fun z => ?_) shape k hk
  · rw [mk_call]
    unfold PolyExp.call PolyExp.termAt termVal
    simp [Finset.sum_range_succ, PolyExp.numCV, nsum_nil]
    have e : toF [] = 0 := by ext i; simp [toF]
    rw [e, amp_zero]
    ring

end Verif.Triples
