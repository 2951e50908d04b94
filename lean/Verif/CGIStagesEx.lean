import Verif.CGIStages

/-!
# C17, C18: a concrete case

Five variables: `0↔2` and `1↔3` are coupled (`1/2`) and integrated out, `4` is coupled to `0` and `2` and remains.
-/

namespace Verif.PolyExp
open Verif.Fock Verif.Batch Verif.Gauss PolyExp MeasureTheory

noncomputable def exH : PolyExp where
  batch := []
  linSup := false
  N := 5
  A := fun _ i j => if i ≤ 3 ∧ j ≤ 3 ∧ (i + 2 = j ∨ j + 2 = i) then 1 / 2 else
    if (i = 4 ∧ (j = 0 ∨ j = 2)) ∨ (j = 4 ∧ (i = 0 ∨ i = 2)) then 1 else 0
  b := fun _ i => i
  derived := []
  c := fun _ _ => 1

theorem trace_cgi1 {f : PolyExp} {zi zc : List ℕ} {s : ℝ} {r : Res} (h : f.trace zi zc s = some r) : cgi1 f zi zc s = some r := by
  unfold PolyExp.trace at h
  split_ifs at h
  exact h

theorem fin_of_det (f : PolyExp) (zi zc : List ℕ) (s : ℝ) (hl : zi.length = zc.length) (hlt : ∀ i ∈ zi ++ zc, i < f.numCV) (hz : zi ≠ [])
    (hb : f.batch = []) (hd : ‖(gM (f.A []) zi zc s).det‖ > 1e-12) : cgi1 f zi zc s = some (.finite (cgiTrue f zi zc s)) := by
  have hall : ∀ β ∈ ndindex f.batch, ‖(gM (f.A β) zi zc s).det‖ > 1e-12 := by
    intro β hβ
    have : β = [] := by simpa [hb, ndindex] using hβ
    rw [this]; exact hd
  unfold cgi1
  rw [if_neg (by simpa using hl), if_neg (by
    rw [List.any_eq_true]
    rintro ⟨x, hx, h⟩
    have := hlt x hx
    simp at h; omega), if_neg (fun h => hz (List.append_eq_nil_iff.1 h).1), if_pos hall]

theorem exH_sym : SymAll exH := by
  intro β i _ j _
  have e1 : (i ≤ 3 ∧ j ≤ 3 ∧ (i + 2 = j ∨ j + 2 = i)) ↔ (j ≤ 3 ∧ i ≤ 3 ∧ (j + 2 = i ∨ i + 2 = j)) := by omega
  have e2 : ((i = 4 ∧ (j = 0 ∨ j = 2)) ∨ (j = 4 ∧ (i = 0 ∨ i = 2))) ↔ ((j = 4 ∧ (i = 0 ∨ i = 2)) ∨ (i = 4 ∧ (j = 0 ∨ j = 2))) := by omega
  simp only [exH, e1, e2]

theorem exH_wf : exH.WF := ⟨by simp [exH], by simp [exH]⟩

theorem exH_gM : gM (exH.A []) [0, 1] [2, 3] (-1) = (-1 / 2 : ℂ) • (Matrix.fromBlocks 0 1 1 0 : Matrix (Fin 2 ⊕ Fin 2) (Fin 2 ⊕ Fin 2) ℂ) := by
  ext p q
  rcases p with i | i <;> rcases q with j | j <;> fin_cases i <;> fin_cases j <;>
      simp only [gM, pos, exH, Matrix.add_apply, Matrix.smul_apply, Matrix.of_apply, Matrix.fromBlocks_apply₁₁, Matrix.fromBlocks_apply₁₂,
        Matrix.fromBlocks_apply₂₁, Matrix.fromBlocks_apply₂₂, Sum.elim_inl, Sum.elim_inr, Matrix.one_apply, Matrix.zero_apply] <;> norm_num

theorem exH_conv : Conv exH [] [0, 1] [2, 3] (-1) := by
  intro w hw x hx h0
  have x0 : x 0 = w 0 := hx.1 0
  have x1 : x 1 = w 1 := hx.1 1
  have x2 : x 2 = (starRingEnd ℂ) (w 0) := hx.2 0
  have x3 : x 3 = (starRingEnd ℂ) (w 1) := hx.2 1
  have x4 : x 4 = 0 := h0 4 (by simp) (by simp)
  have hp : 0 < ‖w 0‖ ^ 2 + ‖w 1‖ ^ 2 := by
    obtain ⟨i, hi⟩ := Function.ne_iff.1 hw
    have hn := norm_pos_iff.2 hi
    have : i = 0 ∨ i = 1 := by
      have : ∀ i : Fin 2, i = 0 ∨ i = 1 := by decide
      exact this i
    rcases this with rfl | rfl <;> positivity
  have e : ∑ i : Fin [0, 1].length, ‖w i‖ ^ 2 = ‖w 0‖ ^ 2 + ‖w 1‖ ^ 2 := Fin.sum_univ_two _
  rw [e]
  rw [show exH.numCV = 5 from rfl]
  have q : (1 / 2 * ∑ i ∈ Finset.range 5, ∑ j ∈ Finset.range 5, x i * x j * exH.A [] i j : ℂ) =
      ((‖w 0‖ ^ 2 + ‖w 1‖ ^ 2 : ℝ) : ℂ) * (1 / 2 : ℝ) := by
    have e0 : w 0 * (starRingEnd ℂ) (w 0) = ((‖w 0‖ ^ 2 : ℝ) : ℂ) := by rw [Complex.mul_conj, Complex.normSq_eq_norm_sq]
    have e1 : w 1 * (starRingEnd ℂ) (w 1) = ((‖w 1‖ ^ 2 : ℝ) : ℂ) := by rw [Complex.mul_conj, Complex.normSq_eq_norm_sq]
    rw [Complex.ofReal_add, ← e0, ← e1]
    simp only [Finset.sum_range_succ, Finset.sum_range_zero, x0, x1, x2, x3, x4, exH]
    norm_num
    ring
  rw [q, Complex.re_ofReal_mul, Complex.ofReal_re]
  linarith

/-- All hypotheses of `C17_two_stage` and `C18_hermitian` hold for `exH`, with stages `(0, 2)` and then `(1, 3)` (positions `0, 1` among the
remaining variables `1, 3, 4`). -/
theorem exH_stages : ∃ h g g', cgi1 exH [0] [2] (-1) = some (.finite h) ∧ cgi1 h [0] [1] (-1) = some (.finite g') ∧
    cgi1 exH [0, 1] [2, 3] (-1) = some (.finite g) ∧ ∀ y, g'.termAt [] y = g.termAt [] y := by
  have n5 : exH.numCV = 5 := rfl
  have hr : notIdx exH.N [0] [2] = [1, 3, 4] := by decide
  have m1 := exS_h_gM exH (1 / 2) 0 2 (by simp [exH]) (by simp [exH]) (by simp [exH]) (by simp [exH])
  have d1 : ‖(gM (exH.A []) [0] [2] (-1)).det‖ > 1e-12 := by
    rw [m1, Matrix.det_smul, det_X]
    norm_num
  set h := cgiTrue exH [0] [2] (-1) with hh
  have n3 : h.numCV = 3 := by decide
  have hD : ∀ i < 2, ∀ p, exH.A [] ((notIdx exH.N [0] [2]).getD i 0) (pos [0] [2] p) = 0 := by
    intro i hi p
    rw [hr]
    have hi' : i = 0 ∨ i = 1 := by omega
    rcases p with a | a <;> obtain rfl : a = ⟨0, by simp⟩ := Fin.ext (by have := a.2; simp at this; simpa using this) <;>
      rcases hi' with rfl | rfl <;> simp [exH, pos]
  have hA : ∀ i < 2, ∀ j < 2, h.A [] i j = exH.A [] ([1, 3, 4].getD i 0) ([1, 3, 4].getD j 0) := by
    intro i hi j hj
    have e : h.A [] i j = exH.A [] ((notIdx exH.N [0] [2]).getD i 0) ((notIdx exH.N [0] [2]).getD j 0) - ∑ p, ∑ q,
      exH.A [] ((notIdx exH.N [0] [2]).getD i 0) (pos [0] [2] p) * (gM (exH.A []) [0] [2] (-1))⁻¹ p q * exH.A [] ((notIdx exH.N [0] [2]).getD j 0) (pos [0] [2] q) := rfl
    rw [e]
    simp only [hD i hi, zero_mul, Finset.sum_const_zero, sub_zero]
    rw [hr]
  have m2 := exS_h_gM h (1 / 2) 0 1 (by rw [hA 0 (by omega) 0 (by omega)]; simp [exH]) (by rw [hA 1 (by omega) 1 (by omega)]; simp [exH])
    (by rw [hA 0 (by omega) 1 (by omega)]; simp [exH]) (by rw [hA 1 (by omega) 0 (by omega)]; simp [exH])
  have d2 : ‖(gM (h.A []) [0] [1] (-1)).det‖ > 1e-12 := by
    rw [m2, Matrix.det_smul, det_X]
    norm_num
  have d3 : ‖(gM (exH.A []) [0, 1] [2, 3] (-1)).det‖ > 1e-12 := by
    rw [exH_gM]
    have : Matrix.det ((-1 / 2 : ℂ) • (Matrix.fromBlocks 0 1 1 0 : Matrix (Fin 2 ⊕ Fin 2) (Fin 2 ⊕ Fin 2) ℂ)) = 1 / 16 := by
      rw [Matrix.det_smul, det_X]; simp; norm_num
    refine lt_of_lt_of_eq ?_ (congrArg norm this).symm
    norm_num
  have f1 := fin_of_det exH [0] [2] (-1) rfl (by simp [n5]) (by simp) rfl d1
  have f2 := fin_of_det h [0] [1] (-1) rfl (by simp [n3]) (by simp) rfl d2
  have f3 := fin_of_det exH [0, 1] [2, 3] (-1) rfl (by simp [n5]) (by simp) rfl d3
  refine ⟨_, _, _, f1, f2, f3, fun y => ?_⟩
  refine C18_hermitian exH _ _ _ exH_wf exH_sym [0] [2] [0] [1] (-1) (by simp) (by simp) f1 f2 [0, 1] [2, 3] (by decide) (by decide) (by simp) f3 []
    (by simp [exH, ndindex]) exH_conv ?_ y
  intro i hi j hj
  have hi' : i = 0 ∨ i = 1 := by simp at hi; omega
  have hj' : j = 0 ∨ j = 1 := by simp at hj; omega
  rcases hi' with rfl | rfl <;> rcases hj' with rfl | rfl <;> simp [exH, Complex.conj_ofNat]

end Verif.PolyExp
