import Verif.ContractThm

/-!
# When `contract` is defined (property C16)
-/

namespace Verif.PolyExp
open Verif.Fock Verif.Batch Verif.Gauss PolyExp MeasureTheory

variable {f g h : PolyExp} {b1 c1 b2 c2 bo co : List ℕ}

/-- The matrix of the Gaussian integral over the shared variables, `[[A_f, -1], [-1, A_g]]` restricted to the shared labels. -/
noncomputable def overlapMatrix (f : PolyExp) (β1 : List ℕ) (g : PolyExp) (β2 c1 c2 : List ℕ) :
    Matrix (Fin (c1.filter (· ∈ c2)).length ⊕ Fin (c1.filter (· ∈ c2)).length) (Fin (c1.filter (· ∈ c2)).length ⊕ Fin (c1.filter (· ∈ c2)).length) ℂ :=
  Matrix.fromBlocks
    (Matrix.of fun i j => f.A β1 (c1.idxOf ((c1.filter (· ∈ c2)).getD i 0)) (c1.idxOf ((c1.filter (· ∈ c2)).getD j 0))) (-1) (-1)
    (Matrix.of fun i j => g.A β2 (c2.idxOf ((c1.filter (· ∈ c2)).getD i 0)) (c2.idxOf ((c1.filter (· ∈ c2)).getD j 0)))

theorem gM_overlap_eq (H : Compat f g b1 c1 b2 c2 bo co) {A : ℕ → ℕ → ℂ} {β1 β2 : List ℕ}
    (hA : ∀ i < f.numCV + g.numCV, ∀ j < f.numCV + g.numCV, A i j = if i < f.numCV ∧ j < f.numCV then f.A β1 i j
            else if f.numCV ≤ i ∧ f.numCV ≤ j then g.A β2 (i - f.numCV) (j - f.numCV) else 0) :
    gM A (zIdx c1 c2) (zcIdx f.numCV c1 c2) (-1) =
      (overlapMatrix f β1 g β2 c1 c2).submatrix (Equiv.sumCongr (finCongr (zIdx_len c1 c2)) (finCongr (zIdx_len c1 c2)))
        (Equiv.sumCongr (finCongr (zIdx_len c1 c2)) (finCongr (zIdx_len c1 c2))) := by
    ext p q
    have F := fun i : Fin (zIdx c1 c2).length => zIdx_facts H i i.2
    rcases p with i | i <;> rcases q with j | j <;> obtain ⟨a1, a2, a3, a4⟩ := F i <;> obtain ⟨d1, d2, d3, d4⟩ := F j <;>
      simp only [gM, pos, Matrix.add_apply, Matrix.smul_apply, Matrix.of_apply, Sum.elim_inl, Sum.elim_inr, overlapMatrix, Matrix.submatrix_apply,
        Equiv.sumCongr_apply, Sum.map_inl, Sum.map_inr, Matrix.fromBlocks_apply₁₁, Matrix.fromBlocks_apply₁₂, Matrix.fromBlocks_apply₂₁,
        Matrix.fromBlocks_apply₂₂, Matrix.zero_apply, Matrix.neg_apply, Matrix.one_apply, finCongr_apply, Fin.val_cast, Fin.cast_inj, smul_eq_mul] <;>
      rw [hA _ (by omega) _ (by omega)]
    · rw [if_pos ⟨a2, d2⟩, a1, d1]; simp
    · rw [if_neg (by omega), if_neg (by omega)]; simp; split_ifs <;> simp
    · rw [if_neg (by omega), if_neg (by omega)]; simp; split_ifs <;> simp
    · rw [if_neg (by omega), if_pos (by omega), a3, d3, Nat.add_sub_cancel_left, Nat.add_sub_cancel_left]; simp

theorem gM_overlap (H : Compat f g b1 c1 b2 c2 bo co) {A : ℕ → ℕ → ℂ} {β1 β2 : List ℕ}
    (hA : ∀ i < f.numCV + g.numCV, ∀ j < f.numCV + g.numCV, A i j = if i < f.numCV ∧ j < f.numCV then f.A β1 i j
            else if f.numCV ≤ i ∧ f.numCV ≤ j then g.A β2 (i - f.numCV) (j - f.numCV) else 0) :
    (gM A (zIdx c1 c2) (zcIdx f.numCV c1 c2) (-1)).det = (overlapMatrix f β1 g β2 c1 c2).det := by
  rw [gM_overlap_eq H hA, Matrix.det_submatrix_equiv_self]

theorem InB.split {s t k : List ℕ} (h : InB (s ++ t) k) : ∃ a b, InB s a ∧ InB t b ∧ k = a ++ b := by
  refine ⟨k.take s.length, k.drop s.length, ?_, ?_, (List.take_append_drop _ _).symm⟩
  · have := List.forall₂_take s.length h
    rwa [List.take_left] at this
  · have := List.forall₂_drop s.length h
    rwa [List.drop_left] at this

/-- **C16** (definedness): for compatible operands `contract` never raises; it returns infinite arrays exactly when there is something to
integrate and the determinant of the integral is below `1e-12` for some batch element (of either operand). -/
theorem C16_defined (hf : f.WF) (hg : g.WF) (H : Compat f g b1 c1 b2 c2 bo co) :
    f.contract g b1 c1 b2 c2 bo co ≠ none ∧
    (f.contract g b1 c1 b2 c2 bo co = some .infinite ↔ (∃ l ∈ c1, l ∈ c2) ∧ ∃ o τ1 τ2, InB (outDims b1 b2 bo f.outBatch g.outBatch) o ∧
      InB f.lsBatch τ1 ∧ InB g.lsBatch τ2 ∧
      ‖(overlapMatrix f (restrict (· ∈ b1) bo o ++ τ1) g (restrict (· ∈ b2) bo o ++ τ2) c1 c2).det‖ ≤ 1e-12) := by
  obtain ⟨J, hJ, hJb, hJN, hJv⟩ := contract_join hf hg H.nb1 H.nb2 H.lb1 H.lb2 H.ob1 H.ob2 H.bout H.bsz
  have hfd := hf.der
  have hgd := hg.der
  obtain ⟨JP, hJP⟩ : ∃ x, x = J.toPolyExp (f.linSup || g.linSup) (f.derived ++ g.derived) := ⟨_, rfl⟩
  have hnum : JP.numCV = f.numCV + g.numCV := by
    rw [hJP]
    show J.N - (f.derived ++ g.derived).length = _
    rw [hJN]
    simp only [List.length_append, numCV]; omega
  have hJPb : JP.batch = J.batch := by rw [hJP]; rfl
  have hJPwf : JP.WF := by
    rw [hJP]
    refine ⟨?_, ?_⟩
    · show (f.derived ++ g.derived).length ≤ J.N
      rw [hJN, List.length_append]; omega
    · intro hls
      show J.batch ≠ []
      change (f.linSup || g.linSup) = true at hls
      rw [hJb]
      intro e
      rw [List.append_eq_nil_iff, List.append_eq_nil_iff] at e
      unfold lsBatch at e
      cases h1 : f.linSup <;> cases h2 : g.linSup <;> simp_all
  have hNf : f.N = f.numCV + f.derived.length := by unfold numCV; omega
  have hdet : ∀ o τ1 τ2, InB (outDims b1 b2 bo f.outBatch g.outBatch) o → InB f.lsBatch τ1 → InB g.lsBatch τ2 →
      (gM (JP.A (o ++ (τ1 ++ τ2))) (zIdx c1 c2) (zcIdx f.numCV c1 c2) (-1)).det =
        (overlapMatrix f (restrict (· ∈ b1) bo o ++ τ1) g (restrict (· ∈ b2) bo o ++ τ2) c1 c2).det := by
    intro o τ1 τ2 ho h1 h2
    apply gM_overlap H
    intro i hi j hj
    obtain ⟨_, _, hA, _⟩ := hJv o τ1 τ2 ho h1 h2
    rw [hJP]
    show J.A _ i j = _
    rw [hA, hNf]
    exact joined_entry _ _ hi hj
  have hl : (zIdx c1 c2).length = (zcIdx f.numCV c1 c2).length := by rw [zIdx_len, zcIdx_len]
  have hlt : ∀ i ∈ zIdx c1 c2 ++ zcIdx f.numCV c1 c2, i < JP.numCV := by
    intro i hi
    rw [hnum]
    rw [List.mem_append] at hi
    rcases hi with hi | hi
    · have := zIdx_lt H hi; omega
    · exact (zcIdx_range H hi).2
  have hT : JP.trace (zIdx c1 c2) (zcIdx f.numCV c1 c2) (-1) = cgi1 JP (zIdx c1 c2) (zcIdx f.numCV c1 c2) (-1) := by
    unfold PolyExp.trace
    have e1 : ∀ l : List ℕ, (∀ i ∈ l, i < JP.numCV) → ¬ l.any (· ≥ JP.numCV) = true := by
      intro l hl
      rw [List.any_eq_true]
      rintro ⟨i, hi, h⟩
      have := hl i hi
      simp at h
      omega
    rw [if_neg (by simp [hl]), if_neg (by simpa using zz_nodup H), if_neg]
    rw [← List.any_append]
    exact e1 _ hlt
  obtain ⟨t1, t2⟩ := C48_errors JP (zIdx c1 c2) (zcIdx f.numCV c1 c2) (-1)
  rw [hT] at t1 t2
  have hsome : cgi1 JP (zIdx c1 c2) (zcIdx f.numCV c1 c2) (-1) ≠ none := fun h => (t1.1 h) ⟨hl, zz_nodup H, hlt⟩
  have hinf : cgi1 JP (zIdx c1 c2) (zcIdx f.numCV c1 c2) (-1) = some .infinite ↔ (∃ l ∈ c1, l ∈ c2) ∧
      ∃ o τ1 τ2, InB (outDims b1 b2 bo f.outBatch g.outBatch) o ∧ InB f.lsBatch τ1 ∧ InB g.lsBatch τ2 ∧
      ‖(overlapMatrix f (restrict (· ∈ b1) bo o ++ τ1) g (restrict (· ∈ b2) bo o ++ τ2) c1 c2).det‖ ≤ 1e-12 := by
    rw [t2]
    have hz : zIdx c1 c2 ≠ [] ↔ ∃ l ∈ c1, l ∈ c2 := by
      unfold zIdx
      rw [ne_eq, List.map_eq_nil_iff, List.filter_eq_nil_iff]
      push Not
      simp
    constructor
    · rintro ⟨_, h0, β, hβ, hd⟩
      refine ⟨hz.1 h0, ?_⟩
      rw [mem_ndindex, hJPb, hJb] at hβ
      obtain ⟨o, x, ho, hx, rfl⟩ := InB.split hβ
      obtain ⟨τ1, τ2, h1, h2, rfl⟩ := InB.split hx
      exact ⟨o, τ1, τ2, ho, h1, h2, by rw [← hdet o τ1 τ2 ho h1 h2]; exact hd⟩
    · rintro ⟨h0, o, τ1, τ2, ho, h1, h2, hd⟩
      refine ⟨⟨hl, zz_nodup H, hlt⟩, hz.2 h0, o ++ (τ1 ++ τ2), ?_, by rw [hdet o τ1 τ2 ho h1 h2]; exact hd⟩
      rw [mem_ndindex, hJPb, hJb]
      exact InB.append ho (InB.append h1 h2)
  have hzz : cgi1 (J.toPolyExp (f.linSup || g.linSup) (f.derived ++ g.derived)) (sharedPos c1 (shared c1 c2))
          ((sharedPos c2 (shared c1 c2)).map (f.numCV + ·)) (-1) = cgi1 JP (zIdx c1 c2) (zcIdx f.numCV c1 c2) (-1) := by
    rw [H.zi_eq, H.zc_eq, hJP]; rfl
  rw [← hinf]
  unfold PolyExp.contract
  rw [if_neg (not_not.2 H.labels)]
  dsimp only
  rw [hJ]
  dsimp only
  rw [hzz]
  cases hres : cgi1 JP (zIdx c1 c2) (zcIdx f.numCV c1 c2) (-1) with
  | none => exact absurd hres hsome
  | some res =>
    cases res with
    | infinite => simp
    | finite r =>
      dsimp only
      obtain ⟨hrw, hrn⟩ := cgi1_wf hJPwf hres
      obtain ⟨hrb, hrl, hrd⟩ := cgi1_meta hres
      have hboth : f.linSup = true → g.linSup = true → outDims b1 b2 bo f.outBatch g.outBatch = f.outBatch ∧ g.derived = [] :=
        fun h1 h2 => ⟨outDims_self H (H.both h1 h2).1, (H.both h1 h2).2⟩
      have hmerge : ∃ r', (if f.linSup ∧ g.linSup then mergeLs f g r else some r) = some r' := by
        by_cases hb : f.linSup = true ∧ g.linSup = true
        · rw [if_pos hb]
          unfold mergeLs
          dsimp only
          have l1 : f.lsBatch = [f.batch.getLastD 0] := by simp [lsBatch, hb.1]
          have l2 : g.lsBatch = [g.batch.getLastD 0] := by simp [lsBatch, hb.2]
          obtain ⟨e1, e2⟩ := hboth hb.1 hb.2
          have ho : f.batch.dropLast = f.outBatch := by simp [outBatch, hb.1]
          have hrb' : r.batch.prod = (f.batch.dropLast ++ [f.batch.getLastD 0 * g.batch.getLastD 0]).prod := by
            rw [hrb, hJPb, hJb, e1, ho, l1, l2]
            simp
          have hrd' : r.derived = f.derived := by rw [hrd, hJP]; show f.derived ++ g.derived = _; rw [e2, List.append_nil]
          rw [if_pos ⟨by rw [hrb'], by rw [hrb'], by rw [List.prod_append, List.prod_append (l₁ := r.batch), hrb', hrd']⟩]
          exact ⟨_, rfl⟩
        · rw [if_neg hb]; exact ⟨_, rfl⟩
      obtain ⟨r', hr'⟩ := hmerge
      rw [hr']
      dsimp only
      obtain ⟨hw', ho', hn', hv'⟩ := merged_call (D := outDims b1 b2 bo f.outBatch g.outBatch) hrw (by rw [hrb, hJPb]; exact hJb)
        (by rw [hrl, hJP]; rfl) (by rw [hrd, hJP]; rfl) hboth hr'
      have hco : co.Perm (leftover c1 c2) := by rw [H.leftover_eq]; exact H.out
      rw [if_pos fun l hl => hco.mem_iff.1 hl]
      have hrem : remCV JP.numCV (zIdx c1 c2) (zcIdx f.numCV c1 c2)
          = (List.range (f.numCV + g.numCV)).filter (· ∉ zIdx c1 c2 ++ zcIdx f.numCV c1 c2) := by rw [hnum]; rfl
      have hleft : r'.numCV = (leftover c1 c2).length := by
        rw [hn', hrn, hrem, ← rem_labels H, List.length_map]
      unfold PolyExp.reorder
      rw [if_neg (by rw [List.length_map, hleft, hco.length_eq]; simp)]
      simp

end Verif.PolyExp
