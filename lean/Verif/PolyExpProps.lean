import Verif.PolyExp

/-!
# Algebra of `PolyExpAnsatz` at the level of evaluation (C27, C28, C30)
-/

namespace Verif.PolyExp
open Verif.Fock Verif.Batch PolyExp

/-! ## C27: scalar operations -/

theorem call_scale (f : PolyExp) (a : ℂ) (β : List ℕ) (z : ℕ → ℂ) :
    ({ f with c := fun β k => a * f.c β k } : PolyExp).call β z = a * f.call β z := by
  unfold call
  simp only [termAt, numCV]
  split_ifs
  · rw [Finset.mul_sum]
    exact Finset.sum_congr rfl fun l _ => termVal_smul _ _ _ _ _ _ a
  · exact termVal_smul _ _ _ _ _ _ a

/-- **C27** `(f * a)(z) = f(z) * a`, `(f / a)(z) = f(z) / a`, `(-f)(z) = -f(z)`, at every batch index and point. -/
theorem C27_scalar (f : PolyExp) (a : ℂ) (β : List ℕ) (z : ℕ → ℂ) :
    (f.mul a).call β z = f.call β z * a ∧ (f.div a).call β z = f.call β z / a ∧ f.neg.call β z = - f.call β z := by
  have h1 : f.mul a = { f with c := fun β k => a * f.c β k } := by
    unfold PolyExp.mul; simp only [mul_comm]
  have h2 : f.div a = { f with c := fun β k => a⁻¹ * f.c β k } := by
    unfold PolyExp.div; simp only [div_eq_mul_inv, mul_comm]
  have h3 : f.neg = { f with c := fun β k => (-1) * f.c β k } := by
    unfold PolyExp.neg; simp only [neg_mul, one_mul]
  refine ⟨?_, ?_, ?_⟩
  · rw [h1, call_scale, mul_comm]
  · rw [h2, call_scale, div_eq_mul_inv, mul_comm]
  · rw [h3, call_scale, neg_one_mul]

theorem map_nsum (s F) : (starRingEnd ℂ) (nsum s F) = nsum s (fun k => (starRingEnd ℂ) (F k)) := by
  unfold nsum
  rw [map_list_sum, List.map_map]; rfl

theorem termVal_conj (n d A b c z) :
    termVal n d (fun i j => (starRingEnd ℂ) (A i j)) (fun i => (starRingEnd ℂ) (b i)) (fun k => (starRingEnd ℂ) (c k))
      (fun i => (starRingEnd ℂ) (z i)) = (starRingEnd ℂ) (termVal n d A b c z) := by
  unfold termVal
  rw [map_mul, ← Complex.exp_conj, map_nsum]
  refine congrArg₂ (· * ·) ?_ ?_
  · congr 1
    simp only [map_add, map_mul, map_sum, map_div₀, map_one, Complex.conj_ofNat]
  · apply nsum_congr
    intro k hk
    rw [map_mul, amp_conj (toF_below k (le_of_eq (List.Forall₂.length_eq hk)))]
    simp only [map_add, map_sum, map_mul]

theorem call_ls {f : PolyExp} (h : f.linSup = true) (β z) :
    f.call β z = ∑ l ∈ Finset.range (f.batch.getLastD 0), f.termAt (β ++ [l]) z := by
  unfold call; rw [if_pos h]

theorem call_nls {f : PolyExp} (h : f.linSup = false) (β z) : f.call β z = f.termAt β z := by
  unfold call; rw [if_neg (by simp [h])]

/-- **C27** `f.conj` at the conjugate point is the conjugate of `f`. -/
theorem C27_conj (f : PolyExp) (β : List ℕ) (z : ℕ → ℂ) :
    f.conj.call β (fun i => (starRingEnd ℂ) (z i)) = (starRingEnd ℂ) (f.call β z) := by
  have ht : ∀ γ, f.conj.termAt γ (fun i => (starRingEnd ℂ) (z i)) = (starRingEnd ℂ) (f.termAt γ z) :=
    fun γ => termVal_conj _ _ _ _ _ _
  cases h : f.linSup with
  | true =>
    rw [call_ls h, call_ls (f := f.conj) h, map_sum]
    exact Finset.sum_congr rfl fun l _ => ht _
  | false => rw [call_nls h, call_nls (f := f.conj) h]; exact ht _

/-! ## C27: sums -/

theorem termVal_pad {n d d' A b c z} (h : List.Forall₂ (· ≤ ·) d d') :
    termVal n d' A b (fun k => if inb k d then c k else 0) z = termVal n d A b c z := by
  have hl := h.length_eq
  unfold termVal
  refine congrArg (HMul.hMul _) ?_
  rw [← nsum_pad h, hl]
  apply nsum_congr
  intro k _
  beta_reduce
  by_cases hk : inb k d = true
  · rw [if_pos hk, if_pos hk]
  · rw [if_neg hk, if_neg hk, zero_mul]

theorem nsum_ones (m F) : nsum (List.replicate m 1) F = F (List.replicate m 0) := by
  induction m generalizing F with
  | zero => exact nsum_nil F
  | succ m ih => rw [List.replicate_succ, nsum_cons, Finset.sum_range_one, ih]; rfl

theorem toF_zeros (m) : toF (List.replicate m 0) = 0 := by
  ext i
  rw [toF_apply, List.getD_eq_getElem?_getD, List.getElem?_replicate]
  split_ifs <;> rfl

/-- One summand inside the stacked ansatz. -/
theorem summand {f : PolyExp} (hf : f.WF) {nd : ℕ} {dmax : List ℕ}
    (hm : f.derived.length = nd ∨ (f.derived = [] ∧ f.lead = 1))
    (hd : List.Forall₂ (· ≤ ·) (f.cShape nd).tail dmax) (l : ℕ) (hl : l < f.lead) (z : ℕ → ℂ) :
    termVal f.numCV dmax (f.padA l) (f.padB l) (fun k => f.padC nd (l :: k)) z = f.termAt (f.unlead l) z := by
  have hN : f.numCV + f.derived.length = f.N := by unfold numCV; have := hf.der; omega
  have hlen : dmax.length = nd ∨ f.derived = [] := by
    rcases hm with h | h
    · left; rw [← hd.length_eq]; simp [cShape, atleastNd, h]
    · exact Or.inr h.1
  unfold termAt
  rcases hm with h | ⟨h0, h1⟩
  · have hs : (f.cShape nd).tail = f.derived := by simp [cShape, atleastNd, h]
    rw [hs] at hd
    rw [← termVal_pad hd]
    have hll := hd.length_eq
    apply termVal_congr
    · intro i hi j hj
      unfold padA; rw [if_pos (by omega)]
    · intro i hi
      unfold padB; rw [if_pos (by omega)]
    · intro k _
      simp [padC, hs, h]
    · intro i _; rfl
  · have hs : (f.cShape nd).tail = List.replicate nd 1 := by
      have : f.cShape nd = List.replicate (nd + 1) 1 := by
        simp [cShape, atleastNd, h0, h1, List.replicate_succ']
      rw [this, List.replicate_succ, List.tail_cons]
    rw [hs] at hd
    have hll := hd.length_eq
    have hl0 : l = 0 := by omega
    have e : (fun k => f.padC nd (l :: k)) = fun k => if inb k (List.replicate nd 1) then f.padC nd (l :: k) else 0 := by
      funext k
      split_ifs with hk
      · rfl
      · simp [padC, hs, hk]
    rw [e, termVal_pad hd]
    unfold termVal
    rw [nsum_ones, toF_zeros, amp_zero, mul_one, h0, nsum_nil, show (toF ([] : List ℕ)) = 0 from toF_zeros 0, amp_zero,
      mul_one]
    have hN' : f.N = f.numCV := by rw [h0] at hN; simpa using hN.symm
    refine congrArg₂ (· * ·) ?_ ?_
    · have e1 : ∑ i ∈ Finset.range f.numCV, ∑ j ∈ Finset.range f.numCV, z i * z j * f.padA l i j =
          ∑ i ∈ Finset.range f.numCV, ∑ j ∈ Finset.range f.numCV, z i * z j * f.A (f.unlead l) i j := by
        refine Finset.sum_congr rfl fun i hi => Finset.sum_congr rfl fun j hj => ?_
        have hi := Finset.mem_range.1 hi
        have hj := Finset.mem_range.1 hj
        unfold padA; rw [if_pos (by omega)]
      have e2 : ∑ i ∈ Finset.range f.numCV, z i * f.padB l i = ∑ i ∈ Finset.range f.numCV, z i * f.b (f.unlead l) i := by
        refine Finset.sum_congr rfl fun i hi => ?_
        have hi := Finset.mem_range.1 hi
        unfold padB; rw [if_pos (by omega)]
      rw [e1, e2]
    · unfold padC
      have hin : inb (List.replicate nd 0) (List.replicate nd 1) = true := by
        have : ∀ m, inb (List.replicate m 0) (List.replicate m 1) = true := by
          intro m; induction m with
          | zero => rfl
          | succ m ih => simp [List.replicate_succ, inb, ih]
        exact this nd
      simp only [List.tail_cons, hs, hin, if_true, h0, List.length_nil, Nat.sub_zero]
      have : (l :: List.replicate nd 0).drop nd = [0] := by
        rw [hl0, ← List.replicate_succ, List.drop_replicate]; simp
      rw [this, hl0]

theorem call_lead {f : PolyExp} (hf : f.WF) (hb : ¬ (f.batch ≠ [] ∧ ¬ f.linSup)) (hl : ¬ f.batch.length > 1) (z : ℕ → ℂ) :
    f.call [] z = ∑ l ∈ Finset.range f.lead, f.termAt (f.unlead l) z := by
  unfold call lead unlead
  by_cases h : f.linSup = true
  · have hne := hf.ls h
    have : f.batch.length = 1 := by
      have := List.length_pos_of_ne_nil hne; omega
    obtain ⟨x, hx⟩ := List.length_eq_one_iff.1 this
    rw [if_pos h, if_pos this, hx]
    simp
  · have hbn : f.batch = [] := by
      by_contra hc; exact hb ⟨hc, h⟩
    simp [h, hbn]

theorem cShape_len (f : PolyExp) {nd} (h : f.derived.length ≤ nd) : (f.cShape nd).length = nd + 1 := by
  unfold cShape atleastNd; simp; omega

theorem zipWith_max_le : ∀ (s t : List ℕ), s.length = t.length →
    List.Forall₂ (· ≤ ·) s (List.zipWith max s t) ∧ List.Forall₂ (· ≤ ·) t (List.zipWith max s t)
  | [], [], _ => ⟨.nil, .nil⟩
  | a :: s, b :: t, h => by
    have := zipWith_max_le s t (by simpa using h)
    exact ⟨.cons (le_max_left ..) this.1, .cons (le_max_right ..) this.2⟩
  | [], b :: t, h => by simp at h
  | a :: s, [], h => by simp at h

theorem cShape_head {f : PolyExp} {nd : ℕ} (h : f.derived.length ≤ nd) :
    (f.cShape nd).getD 0 0 = if f.derived.length = nd then f.lead else 1 := by
  unfold cShape atleastNd
  by_cases e : f.derived.length = nd
  · simp [e]
  · have : nd + 1 - (f.lead :: f.derived).length = (nd - f.derived.length - 1) + 1 := by
      simp; omega
    rw [this, List.replicate_succ, if_neg e]; rfl

/-- **C27** addition.  Whenever `f + g` returns an ansatz and the two have the same number of derived variables, or
one of them has none, its value is the sum of the values at every point. -/
theorem C27_add (f g h : PolyExp) (hf : f.WF) (hg : g.WF) (hadd : f.add g = some h)
    (hm : f.derived.length = g.derived.length ∨ f.derived = [] ∨ g.derived = []) (z : ℕ → ℂ) :
    h.outBatch = [] ∧ h.WF ∧ h.numCV = f.numCV ∧ h.call [] z = f.call [] z + g.call [] z := by
  unfold add at hadd
  split_ifs at hadd with hc hb hl
  push Not at hc
  have hb1 : ¬ (f.batch ≠ [] ∧ ¬ f.linSup) := fun x => hb (Or.inl x)
  have hb2 : ¬ (g.batch ≠ [] ∧ ¬ g.linSup) := fun x => hb (Or.inr x)
  have hl1 : ¬ f.batch.length > 1 := fun x => hl (Or.inl x)
  have hl2 : ¬ g.batch.length > 1 := fun x => hl (Or.inr x)
  set nd := max f.derived.length g.derived.length with hnd
  have n1 : f.derived.length ≤ nd := le_max_left ..
  have n2 : g.derived.length ≤ nd := le_max_right ..
  have c1 := cShape_len f n1
  have c2 := cShape_len g n2
  have hd1 := hf.der
  have hd2 := hg.der
  have hN : max f.N g.N = f.numCV + nd := by
    have e1 : f.N = f.numCV + f.derived.length := by unfold numCV; omega
    have e2 : g.N = f.numCV + g.derived.length := by rw [hc]; unfold numCV; omega
    omega
  simp only [init] at hadd
  split_ifs at hadd with hchk
  have hhead : (f.cShape nd).getD 0 0 + (g.cShape nd).getD 0 0 = f.lead + g.lead := by
    simpa using hchk
  rw [cShape_head n1, cShape_head n2] at hhead
  obtain ⟨q1, q2⟩ := zipWith_max_le (f.cShape nd).tail (g.cShape nd).tail (by simp [c1, c2])
  have dl : (List.zipWith max (f.cShape nd).tail (g.cShape nd).tail).length = nd := by simp [c1, c2]
  have m1 : f.derived.length = nd ∨ (f.derived = [] ∧ f.lead = 1) := by
    by_cases e : f.derived.length = nd
    · exact Or.inl e
    · right
      have e2 : g.derived.length = nd := by omega
      rw [if_neg e, if_pos e2] at hhead
      refine ⟨?_, by omega⟩
      rcases hm with h | h | h
      · omega
      · exact h
      · rw [h] at e2; simp at e2; omega
  have m2 : g.derived.length = nd ∨ (g.derived = [] ∧ g.lead = 1) := by
    by_cases e : g.derived.length = nd
    · exact Or.inl e
    · right
      have e2 : f.derived.length = nd := by omega
      rw [if_neg e, if_pos e2] at hhead
      refine ⟨?_, by omega⟩
      rcases hm with h | h | h
      · omega
      · rw [h] at e2; simp at e2; omega
      · exact h
  have hh1 : (f.cShape nd).getD 0 0 = f.lead := by
    rw [cShape_head n1]; split_ifs with e
    · rfl
    · rcases m1 with h | h
      · contradiction
      · exact h.2.symm
  have hh2 : (g.cShape nd).getD 0 0 = g.lead := by
    rw [cShape_head n2]; split_ifs with e
    · rfl
    · rcases m2 with h | h
      · contradiction
      · exact h.2.symm
  cases hadd
  rw [call_lead hf hb1 hl1, call_lead hg hb2 hl2]
  have hcv : max f.N g.N - nd = f.numCV := by omega
  refine ⟨rfl, ⟨?_, fun _ => by simp⟩, ?_, ?_⟩
  · simp [dl]; omega
  · simp only [numCV, List.length_cons, List.length_nil, List.drop_succ_cons, List.drop_zero, dl]
    exact hcv
  · unfold call
    simp only [if_true, List.getLastD_cons, List.getLastD_nil, List.nil_append]
    have hcall : ∀ l (X : PolyExp), X.termAt [l] z = termVal X.numCV X.derived (X.A [l]) (X.b [l]) (X.c [l]) z := fun _ _ => rfl
    simp only [hcall]
    rw [Finset.sum_range_add]
    refine congrArg₂ (· + ·) ?_ ?_
    · apply Finset.sum_congr rfl
      intro l hl
      have hl := Finset.mem_range.1 hl
      rw [← summand hf m1 q1 l hl z]
      simp only [numCV, List.length_cons, List.length_nil, List.drop_succ_cons, List.drop_zero, dl, hcv]
      simp only [List.getD_cons_zero, hl, if_true, List.cons_append, List.nil_append, hh1]
    · apply Finset.sum_congr rfl
      intro l hl
      have hl := Finset.mem_range.1 hl
      rw [← summand hg m2 q2 l hl z]
      have hnl : ¬ (f.lead + l < f.lead) := by omega
      simp only [numCV, List.length_cons, List.length_nil, List.drop_succ_cons, List.drop_zero, dl, hcv]
      simp only [List.getD_cons_zero, hnl, if_false, List.cons_append, List.nil_append, hh1, Nat.add_sub_cancel_left,
        List.tail_cons]
      rw [← show f.numCV = g.N - g.derived.length from hc]
      rfl

/-- **C27** when addition succeeds.  Two single-axis (or unbatched) ansätze over the same number of variables add without an
error exactly when they have equally many derived variables or the one with fewer has a single term. -/
theorem C27_add_defined (f g : PolyExp) (hn : f.numCV = g.numCV) (hb1 : f.batch ≠ [] → f.linSup = true)
    (hb2 : g.batch ≠ [] → g.linSup = true) (l1 : f.batch.length ≤ 1) (l2 : g.batch.length ≤ 1) :
    (∃ h, f.add g = some h) ↔
      (f.derived.length < g.derived.length → f.lead = 1) ∧ (g.derived.length < f.derived.length → g.lead = 1) := by
  unfold add
  rw [if_neg (by simpa using hn), if_neg (by simp; exact ⟨hb1, hb2⟩), if_neg (by omega)]
  simp only [init]
  set nd := max f.derived.length g.derived.length with hnd
  have n1 : f.derived.length ≤ nd := le_max_left ..
  have n2 : g.derived.length ≤ nd := le_max_right ..
  have key : ((((f.cShape nd).getD 0 0 + (g.cShape nd).getD 0 0) ::
      List.zipWith max (f.cShape nd).tail (g.cShape nd).tail).take [f.lead + g.lead].length = [f.lead + g.lead]) ↔
      (f.derived.length < g.derived.length → f.lead = 1) ∧ (g.derived.length < f.derived.length → g.lead = 1) := by
    simp only [List.length_cons, List.length_nil, List.take_succ_cons, List.take_zero, List.cons.injEq, and_true]
    rw [cShape_head n1, cShape_head n2]
    split_ifs <;> omega
  rw [← key]
  by_cases h : ((((f.cShape nd).getD 0 0 + (g.cShape nd).getD 0 0) ::
      List.zipWith max (f.cShape nd).tail (g.cShape nd).tail).take [f.lead + g.lead].length = [f.lead + g.lead])
  · rw [if_pos h]; simp only [h, iff_true]; exact ⟨_, rfl⟩
  · rw [if_neg h]; simp only [h, iff_false]; rintro ⟨_, hh⟩; cases hh

/-- A term with one continuous and one derived variable: `exp(0) · ∂_β exp(β) = 1` everywhere. -/
noncomputable def exF : PolyExp :=
  ⟨[], false, 2, fun _ _ _ => 0, fun _ i => if i = 1 then 1 else 0, [2], fun _ k => if k = [1] then 1 else 0⟩
/-- The zero function, with one continuous and two derived variables. -/
noncomputable def exG : PolyExp := ⟨[], false, 3, fun _ _ _ => 0, fun _ _ => 0, [1, 1], fun _ _ => 0⟩

theorem exF_call (z : ℕ → ℂ) : exF.call [] z = 1 := by
  have hB : Below 1 (toF [1]) := toF_below _ (by simp)
  have h1 : amp 1 (fun _ _ => 0) (fun i => if i = 0 then 1 else 0) 1 (toF [1]) = 1 := by
    rw [amp_linear hB, mono]
    have : toF [1] = up 0 0 := by
      ext i; rw [toF_apply, up_apply]
      cases i with
      | zero => rfl
      | succ i => simp
    rw [this, sqrtFact_up]
    simp [sqrtFact, Fock.sq]
  rw [call_nls rfl]
  simp only [termAt, exF, termVal, numCV, List.length_cons, List.length_nil]
  simp only [nsum, ndindex, List.range_succ, List.range_zero]
  simp
  have : (fun j => if j = 0 then (1:ℂ) else 0) = (fun i => if i = 0 then 1 else 0) := rfl
  simpa [Nat.add_comm] using h1

/-- **C27 fails** for ansätze with different, non-zero numbers of derived variables: `atleast_nd` prepends the missing
axis of `c` while `A` and `b` are padded at the end, so the coefficients meet the wrong variables.  Here `f = 1` and
`g = 0` everywhere, the addition raises no error, and `(f + g)(z) = 0`. -/
theorem C27_add_wrong : ∃ f g h : PolyExp, f.WF ∧ g.WF ∧ f.add g = some h ∧
    ∀ z, f.call [] z = 1 ∧ g.call [] z = 0 ∧ h.call [] z = 0 := by
  have hdef : ∃ h, exF.add exG = some h := by
    rw [C27_add_defined]
    · simp [exF, exG, lead]
    · simp [exF, exG, numCV]
    · simp [exF]
    · simp [exG]
    · simp [exF]
    · simp [exG]
  obtain ⟨h, hh⟩ := hdef
  refine ⟨exF, exG, h, ⟨by simp [exF], by simp [exF]⟩, ⟨by simp [exG], by simp [exG]⟩, hh, fun z => ⟨exF_call z, ?_, ?_⟩⟩
  · rw [call_nls rfl]
    simp [termAt, exG, termVal, nsum]
  · have hB : Below 2 (toF [0, 1]) := toF_below _ (by simp)
    have hz : ∀ b : ℕ → ℂ, b 1 = 0 → amp 2 (fun _ _ => 0) b 1 (toF [0, 1]) = 0 := by
      intro b hb
      rw [amp_linear hB, mono, Finset.prod_range_succ, Finset.prod_range_one]
      simp [hb]
    unfold add at hh
    rw [if_neg (by simp [exF, exG, numCV]), if_neg (by simp [exF, exG]), if_neg (by simp [exF, exG])] at hh
    simp only [init] at hh
    split_ifs at hh
    cases hh
    rw [call_ls rfl]
    simp only [exF, exG, termAt, termVal, numCV, lead, cShape, atleastNd, unlead, padA, padB, padC]
    simp [nsum, ndindex, List.range_succ, inb]
    rw [amp_congr (A' := fun _ _ => 0) (b' := fun i => if i = 0 then 1 else 0)]
    · exact hz _ rfl
    · intro i _ j _; simp [padA]
    · intro i hi
      have : i = 0 ∨ i = 1 := by omega
      rcases this with rfl | rfl <;> simp [padA, padB]

end Verif.PolyExp
