import Verif.MixedEinsum

/-!
# Contraction across representations: the Bargmann branch (C111)
-/

namespace Verif.Mixed
open Verif.Fock Verif.Batch Verif.PolyExp PolyExp Verif.Arr Verif.Arr.Arr Verif.ToBargmann Verif.Triples

/-- Specification of the amplitude at `k` of the contraction of the array `a` (axes labelled `c1`) with the amplitudes `G` of a component with axes labelled `c2`:
the sum over the shared labels, up to the sizes of the axes of `a`, of the products; labels in `co` have the values `k`. -/
noncomputable def einsumAmp (a : Arr) (G : List ℕ → ℂ) (c1 c2 co k : List ℕ) : ℂ :=
  sumOver (dimIn (il c1) a.shape) (il (c1.filter (· ∈ c2))) (fun τ => a.entry ((il c1).map τ) * G ((il c2).map τ)) (assign (il co) k)

variable {f g : PolyExp} {c1 c2 co : List ℕ}

theorem poly_zero {n : ℕ} (hp : Poly f n) (S : List ℕ) : ZeroBlock f c1 S := by
  intro β i hi j hj _ _
  rw [hp.numCV] at hi hj
  rw [hp.A]
  show (if i + n = j ∨ j + n = i then (1 : ℂ) else 0) = 0
  rw [if_neg (by omega)]

theorem mixed_call {n : ℕ} (hp : Poly f n) (fb : f.batch = []) (hg : g.WF) (sg : SymAll g) (gl : g.linSup = false) (gb : g.batch = []) (gd : g.derived = [])
    (H : Compat f g [] c1 [] c2 [] co) :
    ∃ h, f.contract g [] c1 [] c2 [] co = some (.finite h) ∧ h.WF ∧ h.numCV = co.length ∧ SymAll h ∧ h.linSup = false ∧ h.batch = [] ∧
      ∀ y, h.call [] y = termVal co.length f.derived (mixA c1 c2 co (g.A [])) (mixB c1 c2 co (g.b [])) (fun d => f.c [] d * g.c [] []) y := by
  obtain ⟨h, hc⟩ := kernel_finite hp.wf hg hp.symm sg H (Or.inl (poly_zero hp _))
  obtain ⟨JP, r, hJw, hJs, hJn, hJd, hr, hw, hn, hsy, hls, hba, hA, hB, hC, hv⟩ := stages hp.wf hg hp.symm sg hp.ls gl fb gb H hc
  refine ⟨h, hc, hw, hn, hsy, hls, hba, fun y => ?_⟩
  have hn1 : c1.length = n := by rw [H.lc1, hp.numCV]
  have hJ := joint hp hA hB
  rw [← hn1, ← H.lc2] at hJ
  have hm := mixed_term H hJw hJs hJn (by rw [hJd, gd, List.append_nil]) (by rw [hp.der, hn1]) hJ (γ := g.c [] []) (by
    intro k hk
    rw [hC, List.take_of_length_le (le_of_eq (List.Forall₂.length_eq hk)), List.drop_of_length_le (le_of_eq (List.Forall₂.length_eq hk))]) y
  rw [hv y, ← hm]
  rcases cgi1_data hr with ⟨h1, h2, ⟨h0, rfl⟩ | ⟨h0, rfl⟩⟩
  · have hz : zcIdx f.numCV c1 c2 = [] := List.length_eq_zero_iff.1 (by rw [← h1, h0]; rfl)
    rw [h0, hz, cgi_nil hJw hJs]
  · rfl

/-- The amplitudes of a Gaussian without batch. -/
theorem gauss_amp (gl : g.linSup = false) (gd : g.derived = []) (x : List ℕ) : g.fockAmp [] x = g.c [] [] * amp g.N (g.A []) (g.b []) 1 (toF x) := by
  unfold PolyExp.fockAmp PolyExp.supShape
  rw [gl, if_neg (by simp), nsum_nil, gd, nsum_nil, List.append_nil, List.append_nil]

theorem assign_il (co k : List ℕ) (l : ℕ) : assign (il co) k (Lab.int l) = k.getD (co.idxOf l) 0 := by
  unfold assign
  rw [il_idxOf]

theorem dimIn_il (c s : List ℕ) (l : ℕ) : dimIn (il c) s (Lab.int l) = s.getD (c.idxOf l) 0 := by
  unfold dimIn
  rw [il_idxOf]

theorem il_map_getD (c : List ℕ) (τ : Lab → ℕ) {l : ℕ} (h : l ∈ c) : ((il c).map τ).getD (c.idxOf l) 0 = τ (Lab.int l) := by
  have hi := List.idxOf_lt_length_of_mem h
  unfold il
  rw [List.map_map, List.getD_eq_getElem _ _ (by simpa using hi), List.getElem_map]
  show τ (Lab.int c[c.idxOf l]) = _
  rw [List.getElem_idxOf]

/-- From the function to the amplitudes. -/
theorem amp_of_call (L0 : Labels c1 c2 co) {a : Arr} (hlen : c1.length = a.shape.length) (sg : SymAll g) (gl : g.linSup = false) (gd : g.derived = []) (hN : g.N = c2.length)
    {h : PolyExp} (hw : h.WF) (hn : h.numCV = co.length) (hsy : SymAll h)
    (hv : ∀ y, h.call [] y = termVal co.length a.shape (mixA c1 c2 co (g.A [])) (mixB c1 c2 co (g.b [])) (fun d => a.get d * g.c [] []) y)
    (shape k : List ℕ) (h0 : 0 ∉ shape) (hl : shape.length = co.length) (hk : InB shape k) : h.fockArray shape [] k = some (einsumAmp a (g.fockAmp []) c1 c2 co k) := by
  obtain ⟨P, hP⟩ : ∃ P : PolyExp, P = ⟨[], false, co.length + c1.length, fun _ => mixA c1 c2 co (g.A []), fun _ => mixB c1 c2 co (g.b []), a.shape,
    fun _ d => a.get d * g.c [] []⟩ := ⟨_, rfl⟩
  have hPn : P.numCV = co.length := by rw [hP]; show co.length + c1.length - a.shape.length = _; omega
  have hPw : P.WF := by rw [hP]; exact ⟨by show a.shape.length ≤ co.length + c1.length; omega, by intro h; cases h⟩
  have hPs : ∀ β, Symm P.N (P.A β) := by
    intro β
    rw [hP]
    exact mixA_symm L0 (le_of_eq hN.symm) (sg [])
  have hcall : ∀ y, h.call [] y = P.call [] y := by
    intro y
    rw [hv y]
    unfold call
    have e1 : P.linSup = false := by rw [hP]
    rw [e1]
    unfold termAt
    rw [hPn, hP]
    rfl
  rw [C58_determined h P hw hPw hsy hPs [] [] (by rw [hn, hPn]) hcall shape k hk, C58_entries P hPw hPs shape [] k h0 (by rw [hPn, hl]) hk]
  refine congrArg some ?_
  have hkl : k.length = co.length := by rw [← hl]; exact List.Forall₂.length_eq hk
  have e1 : P.fockAmp [] k = nsum a.shape fun d => a.get d * g.c [] [] * amp (co.length + c1.length) (mixA c1 c2 co (g.A [])) (mixB c1 c2 co (g.b [])) 1 (toF (k ++ d)) := by
    rw [hP]
    unfold PolyExp.fockAmp PolyExp.supShape
    rw [if_neg (by simp), nsum_nil]
  rw [e1]
  have L := layout L0
  have e2 : ∀ d, InB a.shape d → a.get d * g.c [] [] * amp (co.length + c1.length) (mixA c1 c2 co (g.A [])) (mixB c1 c2 co (g.b [])) 1 (toF (k ++ d)) =
      if ∀ j < c1.length, decide (c1.getD j 0 ∈ c2) = false → assign (il co) k (Lab.int (c1.getD j 0)) = d.getD j 0 then
        a.get d * g.fockAmp [] (c2.map fun l => if l ∈ c1 then d.getD (c1.idxOf l) 0 else k.getD (co.idxOf l) 0) else 0 := by
    intro d hd
    have hdl : d.length = c1.length := by rw [hlen]; exact List.Forall₂.length_eq hd
    unfold mixA mixB
    rw [amp_layout L _ _ _ _ (toF_below _ (by rw [List.length_append]; omega))]
    have hcond : (∀ v < co.length + c1.length, lab co c1 v ∉ c2 → toF (k ++ d) v = toF (k ++ d) (partner co c1 v)) ↔
        ∀ j < c1.length, decide (c1.getD j 0 ∈ c2) = false → assign (il co) k (Lab.int (c1.getD j 0)) = d.getD j 0 := by
      have hx : ∀ j < c1.length, c1.getD j 0 ∉ c2 → partner co c1 (co.length + j) = co.idxOf (c1.getD j 0) ∧ co.idxOf (c1.getD j 0) < co.length ∧
          toF (k ++ d) (co.length + j) = d.getD j 0 ∧ toF (k ++ d) (co.idxOf (c1.getD j 0)) = k.getD (co.idxOf (c1.getD j 0)) 0 := by
        intro j hj hm
        have hi := List.idxOf_lt_length_of_mem (L0.mem.2 (Or.inl ⟨getD_mem' hj, hm⟩))
        refine ⟨?_, hi, ?_, ?_⟩
        · unfold partner
          rw [if_neg (by omega), Nat.add_sub_cancel_left]
        · rw [toF_apply, List.getD_append_right _ _ _ _ (by omega), hkl, Nat.add_sub_cancel_left]
        · rw [toF_apply, List.getD_append _ _ _ _ (by omega)]
      constructor
      · intro hv j hj hm
        have hm' := of_decide_eq_false hm
        obtain ⟨x1, x2, x3, x4⟩ := hx j hj hm'
        have := hv (co.length + j) (by omega) (by rw [lab_ge]; exact hm')
        rw [x1, x3, x4] at this
        rw [assign_il]
        exact this.symm
      · intro hj v hv hm
        by_cases hvl : v < co.length
        · rw [lab_lt hvl] at hm
          have hmc : co.getD v 0 ∈ c1 := by
            have := L0.mem.1 (getD_mem' hvl)
            tauto
          have hi := List.idxOf_lt_length_of_mem hmc
          have hlb : c1.getD (c1.idxOf (co.getD v 0)) 0 = co.getD v 0 := PolyExp.getD_idxOf hmc
          have h1 := hj _ hi (by rw [hlb]; exact decide_eq_false hm)
          rw [assign_il, hlb, PolyExp.idxOf_getD L0.n0 hvl] at h1
          have e : partner co c1 v = co.length + c1.idxOf (co.getD v 0) := if_pos hvl
          rw [e, toF_apply, toF_apply, List.getD_append _ _ _ _ (by omega), h1, List.getD_append_right _ _ _ _ (by omega), hkl, Nat.add_sub_cancel_left]
        · obtain ⟨j, rfl⟩ : ∃ j, v = co.length + j := ⟨v - co.length, by omega⟩
          rw [lab_ge] at hm
          obtain ⟨x1, x2, x3, x4⟩ := hx j (by omega) hm
          have := hj j (by omega) (decide_eq_false hm)
          rw [assign_il] at this
          rw [x1, x3, x4, this]
    have hpull : pull c2.length (fun i => (co ++ c1).idxOf (c2.getD i 0)) (toF (k ++ d)) =
        toF (c2.map fun l => if l ∈ c1 then d.getD (c1.idxOf l) 0 else k.getD (co.idxOf l) 0) := by
      ext i
      rw [pull_apply, toF_apply, toF_apply]
      by_cases hi : i < c2.length
      · rw [if_pos hi, List.getD_eq_getElem (c2.map _) _ (by simpa using hi), List.getElem_map, ← List.getD_eq_getElem c2 0 hi]
        have hm := getD_mem' hi
        by_cases h1 : c2.getD i 0 ∈ c1
        · rw [if_pos h1, List.idxOf_append_of_notMem (fun h => by have := L0.mem.1 h; tauto), List.getD_append_right _ _ _ _ (by omega), hkl, Nat.add_sub_cancel_left]
        · have hco := L0.mem.2 (Or.inr ⟨hm, h1⟩)
          rw [if_neg h1, List.idxOf_append_of_mem hco, List.getD_append _ _ _ _ (by rw [hkl]; exact List.idxOf_lt_length_of_mem hco)]
      · rw [if_neg hi, List.getD_eq_default _ _ (by simpa using hi)]
    rw [hpull, gauss_amp gl gd, hN]
    by_cases hcd : ∀ j < c1.length, decide (c1.getD j 0 ∈ c2) = false → assign (il co) k (Lab.int (c1.getD j 0)) = d.getD j 0
    · rw [if_pos hcd, if_pos (hcond.2 hcd)]; ring
    · rw [if_neg hcd, if_neg (fun h => hcd (hcond.1 h)), mul_zero]
  rw [nsum_congr e2, nsum_delta (fun l => decide (l ∈ c2)) c1 a.shape hlen L0.n1 (dimIn (il c1) a.shape) (by
    intro j hj
    rw [dimIn_il, PolyExp.idxOf_getD L0.n1 hj]) (fun d => a.get d * g.fockAmp [] (c2.map fun l => if l ∈ c1 then d.getD (c1.idxOf l) 0 else k.getD (co.idxOf l) 0))]
  unfold einsumAmp
  refine sumOver_congr (il_nodup (L0.n1.filter _)) fun τ h1 _ => ?_
  have e3 : (c2.map fun l => if l ∈ c1 then ((il c1).map τ).getD (c1.idxOf l) 0 else k.getD (co.idxOf l) 0) = (il c2).map τ := by
    have e4 : (il c2).map τ = c2.map fun l => τ (Lab.int l) := List.map_map
    rw [e4]
    refine List.map_congr_left fun l hl => ?_
    by_cases hm : l ∈ c1
    · rw [if_pos hm]
      exact il_map_getD c1 τ hm
    · rw [if_neg hm, h1 _ (fun h => hm (List.mem_filter.1 (mem_il.1 h)).1), assign_il]
  rw [e3]
  unfold Arr.entry
  by_cases hin : inb ((il c1).map τ) a.shape = true
  · rw [if_pos hin, if_pos hin]
  · rw [if_neg hin, if_neg hin, zero_mul]

theorem mixed_amp {n : ℕ} (hp : Poly f n) (fb : f.batch = []) {a : Arr} (ha : f.derived = a.shape) (hc : f.c [] = a.get) (hg : g.WF) (sg : SymAll g) (gl : g.linSup = false)
    (gb : g.batch = []) (gd : g.derived = []) (H : Compat f g [] c1 [] c2 [] co) :
    ∃ h, f.contract g [] c1 [] c2 [] co = some (.finite h) ∧ h.WF ∧ h.numCV = co.length ∧ SymAll h ∧ h.linSup = false ∧ h.batch = [] ∧
      ∀ shape k, 0 ∉ shape → shape.length = co.length → InB shape k → h.fockArray shape [] k = some (einsumAmp a (g.fockAmp []) c1 c2 co k) := by
  obtain ⟨h, h1, hw, hn, hsy, hls, hba, hv⟩ := mixed_call hp fb hg sg gl gb gd H
  refine ⟨h, h1, hw, hn, hsy, hls, hba, ?_⟩
  refine amp_of_call (labels H) (by rw [← ha, hp.der, H.lc1, hp.numCV]) sg gl gd (by rw [H.lc2]; unfold numCV; rw [gd]; rfl) hw hn hsy ?_
  rw [← ha, ← hc]
  exact hv

end Verif.Mixed
