import Verif.PolyExpJoin

/-!
# C27: the tensor product `f & g` evaluates to the product of the values
-/

namespace Verif.PolyExp
open Verif.Fock Verif.Batch PolyExp

theorem restrict_append (P : ℕ → Bool) : ∀ (a b x y : List ℕ), a.length = x.length →
    restrict P (a ++ b) (x ++ y) = restrict P a x ++ restrict P b y
  | [], b, [], y, _ => rfl
  | d :: a, b, i :: x, y, h => by
    have := restrict_append P a b x y (by simpa using h)
    simp only [List.cons_append, restrict, this]
    split_ifs <;> rfl

theorem restrict_all (P : ℕ → Bool) : ∀ (a x : List ℕ), a.length = x.length → (∀ d ∈ a, P d = true) → restrict P a x = x
  | [], [], _, _ => rfl
  | d :: a, i :: x, h, hP => by
    simp only [restrict, hP d (by simp), if_true]
    rw [restrict_all P a x (by simpa using h) fun d hd => hP d (by simp [hd])]

theorem restrict_none (P : ℕ → Bool) : ∀ (a x : List ℕ), (∀ d ∈ a, P d = false) → restrict P a x = []
  | [], x, _ => by cases x <;> rfl
  | d :: a, [], _ => rfl
  | d :: a, i :: x, hP => by
    simp only [restrict, hP d (by simp)]
    exact restrict_none P a x fun d hd => hP d (by simp [hd])

theorem InB.append {s t k l : List ℕ} (h1 : InB s k) (h2 : InB t l) : InB (s ++ t) (k ++ l) := List.rel_append h1 h2

theorem sizeOf_map_append {u t B T : List ℕ} (hn : (u ++ t).Nodup) (hu : B.length = u.length) (ht : T.length = t.length) :
    u.map (sizeOf (u ++ t) (B ++ T)) = B ∧ t.map (sizeOf (u ++ t) (B ++ T)) = T := by
  have := map_sizeOf (batch := B ++ T) hn (by simp [hu, ht])
  rw [List.map_append] at this
  exact List.append_inj this (by simp [hu])

/-- Batch broadcasting in an outer product whose superposition labels are moved to the end. -/
theorem outer_read {u1 t1 u2 t2 B1 T1 B2 T2 : List ℕ} (hn : ((u1 ++ t1) ++ (u2 ++ t2)).Nodup)
    (hu1 : B1.length = u1.length) (ht1 : T1.length = t1.length)
    (hu2 : B2.length = u2.length) (ht2 : T2.length = t2.length) :
    joinBatch (u1 ++ t1) (B1 ++ T1) (u2 ++ t2) (B2 ++ T2) ((u1 ++ u2) ++ (t1 ++ t2)) = some ((B1 ++ B2) ++ (T1 ++ T2)) ∧
    ∀ β1 β2 τ1 τ2, InB B1 β1 → InB B2 β2 → InB T1 τ1 → InB T2 τ2 →
      bread (u1 ++ t1) (B1 ++ T1) ((u1 ++ u2) ++ (t1 ++ t2)) ((β1 ++ β2) ++ (τ1 ++ τ2)) = β1 ++ τ1 ∧
      bread (u2 ++ t2) (B2 ++ T2) ((u1 ++ u2) ++ (t1 ++ t2)) ((β1 ++ β2) ++ (τ1 ++ τ2)) = β2 ++ τ2 := by
  have n1 : (u1 ++ t1).Nodup := (List.nodup_append.1 hn).1
  have n2 : (u2 ++ t2).Nodup := (List.nodup_append.1 hn).2.1
  have dis : ∀ d, d ∈ u1 ++ t1 → d ∉ u2 ++ t2 := fun d h h' => (List.nodup_append.1 hn).2.2 d h d h' rfl
  have a1 : ∀ d ∈ u1, d ∈ u1 ++ t1 := fun d h => by simp [h]
  have a2 : ∀ d ∈ t1, d ∈ u1 ++ t1 := fun d h => by simp [h]
  have a3 : ∀ d ∈ u2, d ∈ u2 ++ t2 := fun d h => by simp [h]
  have a4 : ∀ d ∈ t2, d ∈ u2 ++ t2 := fun d h => by simp [h]
  have dis' : ∀ d, d ∈ u2 ++ t2 → d ∉ u1 ++ t1 := fun d h h' => dis d h' h
  have o1 : ((u1 ++ u2) ++ (t1 ++ t2)).filter (· ∈ u1 ++ t1) = u1 ++ t1 := by
    rw [List.filter_append, List.filter_append, List.filter_append,
      List.filter_eq_self.2 (fun d h => decide_eq_true (a1 d h)),
      List.filter_eq_self.2 (fun d h => decide_eq_true (a2 d h)),
      List.filter_eq_nil_iff.2 (fun d h => by simpa using dis' d (a3 d h)),
      List.filter_eq_nil_iff.2 (fun d h => by simpa using dis' d (a4 d h))]
    simp
  have o2 : ((u1 ++ u2) ++ (t1 ++ t2)).filter (· ∈ u2 ++ t2) = u2 ++ t2 := by
    rw [List.filter_append, List.filter_append, List.filter_append,
      List.filter_eq_self.2 (fun d h => decide_eq_true (a3 d h)),
      List.filter_eq_self.2 (fun d h => decide_eq_true (a4 d h)),
      List.filter_eq_nil_iff.2 (fun d h => by simpa using dis d (a1 d h)),
      List.filter_eq_nil_iff.2 (fun d h => by simpa using dis d (a2 d h))]
    simp
  have l1 : (B1 ++ T1).length = (u1 ++ t1).length := by simp [hu1, ht1]
  have l2 : (B2 ++ T2).length = (u2 ++ t2).length := by simp [hu2, ht2]
  obtain ⟨shape, hs, _, hread⟩ := C43_broadcast n1 n2 l1 l2 o1 o2 (by
      intro d hd
      simp only [List.mem_append] at hd ⊢
      tauto) (fun d h h' => absurd h' (dis d h))
  obtain ⟨s1, s2⟩ := sizeOf_map_append n1 hu1 ht1
  obtain ⟨s3, s4⟩ := sizeOf_map_append n2 hu2 ht2
  have hshape : shape = (B1 ++ B2) ++ (T1 ++ T2) := by
    have : joinBatch (u1 ++ t1) (B1 ++ T1) (u2 ++ t2) (B2 ++ T2) ((u1 ++ u2) ++ (t1 ++ t2)) =
        some (((u1 ++ u2) ++ (t1 ++ t2)).map (dimOf (u1 ++ t1) (B1 ++ T1) (u2 ++ t2) (B2 ++ T2))) := by
      rw [hs]
      unfold joinBatch at hs
      split_ifs at hs
      rw [← hs]
    rw [hs, Option.some.injEq] at this
    rw [this, List.map_append, List.map_append, List.map_append]
    have f1 : ∀ d ∈ u1 ++ t1, dimOf (u1 ++ t1) (B1 ++ T1) (u2 ++ t2) (B2 ++ T2) d = sizeOf (u1 ++ t1) (B1 ++ T1) d :=
      fun d h => by unfold dimOf; rw [if_neg (dis d h)]
    have f2 : ∀ d ∈ u2 ++ t2, dimOf (u1 ++ t1) (B1 ++ T1) (u2 ++ t2) (B2 ++ T2) d = sizeOf (u2 ++ t2) (B2 ++ T2) d :=
      fun d h => by unfold dimOf; rw [if_pos h]
    rw [List.map_congr_left (fun d h => f1 d (a1 d h)), List.map_congr_left (fun d h => f1 d (a2 d h)),
      List.map_congr_left (fun d h => f2 d (a3 d h)), List.map_congr_left (fun d h => f2 d (a4 d h)), s1, s2, s3, s4]
  refine ⟨hshape ▸ hs, fun β1 β2 τ1 τ2 h1 h2 h3 h4 => ?_⟩
  have e1 : u1.length = β1.length := by rw [← hu1]; exact (List.Forall₂.length_eq h1).symm
  have e2 : u2.length = β2.length := by rw [← hu2]; exact (List.Forall₂.length_eq h2).symm
  have e3 : t1.length = τ1.length := by rw [← ht1]; exact (List.Forall₂.length_eq h3).symm
  have e4 : t2.length = τ2.length := by rw [← ht2]; exact (List.Forall₂.length_eq h4).symm
  have hin : InB shape ((β1 ++ β2) ++ (τ1 ++ τ2)) := by
    rw [hshape]; exact InB.append (InB.append h1 h2) (InB.append h3 h4)
  obtain ⟨r1, _, r2, _⟩ := hread _ hin
  rw [r1, r2]
  have ea : (u1 ++ u2).length = (β1 ++ β2).length := by simp [e1, e2]
  rw [restrict_append _ _ _ _ _ ea, restrict_append _ _ _ _ _ ea,
    restrict_append _ _ _ _ _ e1, restrict_append _ _ _ _ _ e1,
    restrict_append _ _ _ _ _ e3, restrict_append _ _ _ _ _ e3]
  rw [restrict_all _ u1 β1 e1 (fun d h => by simpa using a1 d h), restrict_none _ u2 _ (fun d h => by simpa using dis' d (a3 d h)),
    restrict_all _ t1 τ1 e3 (fun d h => by simpa using a2 d h), restrict_none _ t2 _ (fun d h => by simpa using dis' d (a4 d h)),
    restrict_none _ u1 _ (fun d h => by simpa using dis d (a1 d h)), restrict_all _ u2 β2 e2 (fun d h => by simpa using a3 d h),
    restrict_none _ t1 _ (fun d h => by simpa using dis d (a2 d h)), restrict_all _ t2 τ2 e4 (fun d h => by simpa using a4 d h)]
  simp

/-- The part of the batch shape that is summed over. -/
def PolyExp.lsBatch (f : PolyExp) : List ℕ := if f.linSup then [f.batch.getLastD 0] else []

theorem batch_split {f : PolyExp} (hf : f.WF) : f.batch = f.outBatch ++ f.lsBatch := by
  unfold outBatch lsBatch
  cases h : f.linSup with
  | true =>
    have := hf.ls h
    simp only [if_true]
    rw [List.getLastD_eq_getLast?, List.getLast?_eq_getLast_of_ne_nil this]
    exact (List.dropLast_append_getLast this).symm
  | false => simp

/-- Evaluation as a sum over the superposition axes. -/
theorem call_eq_nsum {f : PolyExp} (β z) : f.call β z = nsum f.lsBatch (fun τ => f.termAt (β ++ τ) z) := by
  cases h : f.linSup with
  | true => rw [call_ls h]; unfold lsBatch; rw [if_pos h, nsum_cons]; simp only [nsum_nil]
  | false => rw [call_nls h]; unfold lsBatch; rw [if_neg (by simp [h]), nsum_nil, List.append_nil]

/-- The words and the output of the batch string used by `&`. -/
theorem and_str {f g : PolyExp} (hf : f.WF) (hg : g.WF) : ∃ u1 t1 u2 t2 : List ℕ,
    outerStr [f.batch.length, g.batch.length] (some ((if f.linSup then [0] else []) ++ (if g.linSup then [1] else []))) =
      some ([u1 ++ t1, u2 ++ t2], (u1 ++ u2) ++ (t1 ++ t2)) ∧
    ((u1 ++ t1) ++ (u2 ++ t2)).Nodup ∧ f.outBatch.length = u1.length ∧ f.lsBatch.length = t1.length ∧
    g.outBatch.length = u2.length ∧ g.lsBatch.length = t2.length := by
  have split : ∀ (d off : ℕ), 0 < d → genBatch d off = genBatch (d - 1) off ++ [97 + (off + (d - 1))] := by
    intro d off hd
    unfold genBatch
    obtain ⟨e, rfl⟩ : ∃ e, d = e + 1 := ⟨d - 1, by omega⟩
    rw [List.range'_1_concat]; simp
  have hnd : (genBatch f.batch.length 0 ++ genBatch g.batch.length f.batch.length).Nodup := by
    have : (words 0 [f.batch.length, g.batch.length]).flatten = _ := words_flatten 0 _
    have h2 : (words 0 [f.batch.length, g.batch.length]).flatten =
      genBatch f.batch.length 0 ++ genBatch g.batch.length f.batch.length := by simp [words]
    rw [← h2, this]; exact nodup_genBatch _ _
  have hw : words 0 [f.batch.length, g.batch.length] =
      [genBatch f.batch.length 0, genBatch g.batch.length f.batch.length] := by simp [words]
  cases h1 : f.linSup with
  | true =>
    have p1 : 0 < f.batch.length := List.length_pos_of_ne_nil (hf.ls h1)
    have s1 := split f.batch.length 0 p1
    cases h2 : g.linSup with
    | true =>
      have p2 : 0 < g.batch.length := List.length_pos_of_ne_nil (hg.ls h2)
      have s2 := split g.batch.length f.batch.length p2
      refine ⟨genBatch (f.batch.length - 1) 0, [97 + (0 + (f.batch.length - 1))], genBatch (g.batch.length - 1) f.batch.length,
        [97 + (f.batch.length + (g.batch.length - 1))], ?_, ?_, ?_⟩
      · simp only [outerStr, hw]
        rw [s1, s2]
        simp [popAll]
      · rw [← s1, ← s2]; exact hnd
      · simp [outBatch, lsBatch, h1, h2, length_genBatch]
    | false =>
      refine ⟨genBatch (f.batch.length - 1) 0, [97 + (0 + (f.batch.length - 1))], genBatch g.batch.length f.batch.length, [], ?_, ?_, ?_⟩
      · simp only [outerStr, hw]
        rw [s1]
        simp [popAll]
      · rw [← s1, List.append_nil]; exact hnd
      · simp [outBatch, lsBatch, h1, h2, length_genBatch]
  | false =>
    cases h2 : g.linSup with
    | true =>
      have p2 : 0 < g.batch.length := List.length_pos_of_ne_nil (hg.ls h2)
      have s2 := split g.batch.length f.batch.length p2
      refine ⟨genBatch f.batch.length 0, [], genBatch (g.batch.length - 1) f.batch.length,
        [97 + (f.batch.length + (g.batch.length - 1))], ?_, ?_, ?_⟩
      · simp only [outerStr, hw]
        rw [s2]
        simp [popAll]
      · rw [← s2, List.append_nil]; exact hnd
      · simp [outBatch, lsBatch, h1, h2, length_genBatch]
    | false =>
      refine ⟨genBatch f.batch.length 0, [], genBatch g.batch.length f.batch.length, [], ?_, ?_, ?_⟩
      · simp [outerStr, hw, popAll]
      · simpa using hnd
      · simp [outBatch, lsBatch, h1, h2, length_genBatch]

/-- What `join_Abc` returns inside `&`. -/
theorem and_join {f g : PolyExp} (hf : f.WF) (hg : g.WF) {u1 t1 u2 t2 : List ℕ}
    (hn : ((u1 ++ t1) ++ (u2 ++ t2)).Nodup) (hu1 : f.outBatch.length = u1.length) (ht1 : f.lsBatch.length = t1.length)
    (hu2 : g.outBatch.length = u2.length) (ht2 : g.lsBatch.length = t2.length) :
    ∃ J, joinAbc f g (u1 ++ t1) (u2 ++ t2) ((u1 ++ u2) ++ (t1 ++ t2)) = some J ∧
      J.batch = (f.outBatch ++ g.outBatch) ++ (f.lsBatch ++ g.lsBatch) ∧ J.N = f.N + g.N ∧
      J.cshape = J.batch ++ (f.derived ++ g.derived) ∧
      ∀ β1 β2 τ1 τ2 z w, InB f.outBatch β1 → InB g.outBatch β2 → InB f.lsBatch τ1 → InB g.lsBatch τ2 →
        termVal (f.numCV + g.numCV) (f.derived ++ g.derived) (J.A ((β1 ++ β2) ++ (τ1 ++ τ2))) (J.b ((β1 ++ β2) ++ (τ1 ++ τ2)))
          (fun k => J.c (((β1 ++ β2) ++ (τ1 ++ τ2)) ++ k)) (joinPt f.numCV z w) =
        f.termAt (β1 ++ τ1) z * g.termAt (β2 ++ τ2) w := by
  obtain ⟨hj, hr⟩ := outer_read hn hu1 ht1 hu2 ht2
  rw [← batch_split hf, ← batch_split hg] at hj
  unfold joinAbc
  rw [hj]
  refine ⟨_, rfl, rfl, rfl, rfl, ?_⟩
  intro β1 β2 τ1 τ2 z w h1 h2 h3 h4
  obtain ⟨r1, r2⟩ := hr β1 β2 τ1 τ2 h1 h2 h3 h4
  rw [← batch_split hf] at r1
  rw [← batch_split hg] at r2
  have hlen : ((f.outBatch ++ g.outBatch) ++ (f.lsBatch ++ g.lsBatch)).length = ((β1 ++ β2) ++ (τ1 ++ τ2)).length := by
    simp [List.Forall₂.length_eq h1, List.Forall₂.length_eq h2, List.Forall₂.length_eq h3, List.Forall₂.length_eq h4]
  dsimp only
  have hN : f.N = f.numCV + f.derived.length := by unfold numCV; have := hf.der; omega
  simp only [hlen, List.take_left, List.drop_left]
  rw [r1, r2, hN]
  unfold termAt
  exact termVal_join z w

theorem ravel_append : ∀ {s a : List ℕ} (t b : List ℕ), s.length = a.length →
    ravel (s ++ t) (a ++ b) = ravel s a * t.prod + ravel t b
  | [], [], t, b, _ => by simp [ravel]
  | n :: s, k :: a, t, b, h => by
    simp only [List.cons_append, ravel, List.prod_append]
    rw [ravel_append t b (by simpa using h)]; ring

theorem unravel_merge {B β : List ℕ} (h : InB B β) {L1 L2 l1 l2 : ℕ} (h1 : l1 < L1) (h2 : l2 < L2) :
    unravel (B ++ [L1, L2]) (ravel (B ++ [L1 * L2]) (β ++ [l1 * L2 + l2])) = β ++ [l1, l2] := by
  have hl : B.length = β.length := (List.Forall₂.length_eq h).symm
  have e : ravel (B ++ [L1 * L2]) (β ++ [l1 * L2 + l2]) = ravel (B ++ [L1, L2]) (β ++ [l1, l2]) := by
    rw [ravel_append _ _ hl, ravel_append _ _ hl]
    simp [ravel]
  rw [e]
  exact (unravel_ravel (InB.append h (List.Forall₂.cons h1 (List.Forall₂.cons h2 List.Forall₂.nil)))).2

theorem sum_range_mul (L1 L2 : ℕ) (F : ℕ → ℂ) :
    ∑ l ∈ Finset.range (L1 * L2), F l = ∑ a ∈ Finset.range L1, ∑ b ∈ Finset.range L2, F (a * L2 + b) := by
  induction L1 with
  | zero => simp
  | succ n ih => rw [Nat.succ_mul, Finset.sum_range_add, ih, Finset.sum_range_succ]

theorem mergeLast_two (B : List ℕ) (x y : ℕ) : mergeLast (B ++ [x, y]) = B ++ [x * y] := by
  unfold mergeLast
  have e : B ++ [x, y] = (B ++ [x]) ++ [y] := by simp
  rw [e, List.dropLast_concat, List.dropLast_concat, List.getLastD_concat, List.getLastD_concat]

/-- **C27** (tensor product).  Unless both operands are superpositions and one of them has derived variables, `f & g`
is defined, its batch is the batch of `f` followed by the batch of `g`, it has the variables of `f` followed by those of `g`,
and its value at every batch index and every point is the product of the values. -/
theorem C27_and (f g : PolyExp) (hf : f.WF) (hg : g.WF)
    (hd : f.linSup = true → g.linSup = true → f.derived = [] ∧ g.derived = []) :
    ∃ h, f.and g = some h ∧ h.WF ∧ h.outBatch = f.outBatch ++ g.outBatch ∧ h.numCV = f.numCV + g.numCV ∧
      ∀ β1 β2 z w, InB f.outBatch β1 → InB g.outBatch β2 →
        h.call (β1 ++ β2) (joinPt f.numCV z w) = f.call β1 z * g.call β2 w := by
  obtain ⟨u1, t1, u2, t2, hstr, hn, hu1, ht1, hu2, ht2⟩ := and_str hf hg
  obtain ⟨J, hJ, hb, hN, hc, hv⟩ := and_join hf hg hn hu1 ht1 hu2 ht2
  have hfd := hf.der
  have hgd := hg.der
  have hnum : f.N + g.N - (f.derived ++ g.derived).length = f.numCV + g.numCV := by
    simp only [List.length_append, numCV]; omega
  unfold PolyExp.and
  simp only [hstr, List.getD_cons_zero, List.getD_cons_succ, hJ]
  by_cases hboth : f.linSup = true ∧ g.linSup = true
  · obtain ⟨e1, e2⟩ := hd hboth.1 hboth.2
    rw [if_pos hboth]
    have l1 : f.lsBatch = [f.batch.getLastD 0] := by simp [lsBatch, hboth.1]
    have l2 : g.lsBatch = [g.batch.getLastD 0] := by simp [lsBatch, hboth.2]
    set L1 := f.batch.getLastD 0
    set L2 := g.batch.getLastD 0
    have hb' : J.batch = (f.outBatch ++ g.outBatch) ++ [L1, L2] := by rw [hb, l1, l2]; rfl
    have hc' : J.cshape = (f.outBatch ++ g.outBatch) ++ [L1, L2] := by rw [hc, e1, e2, hb']; simp
    rw [hb', hc', mergeLast_two]
    unfold init
    rw [if_pos (by simp)]
    refine ⟨_, rfl, ⟨by simp, by simp⟩, ?_, ?_, ?_⟩
    · simp [outBatch]
    · simp only [numCV]
      have h1 : f.derived.length = 0 := by rw [e1]; rfl
      have h2 : g.derived.length = 0 := by rw [e2]; rfl
      rw [hN, h1, h2]; simp
    · intro β1 β2 z w h1 h2
      rw [call_ls rfl, call_eq_nsum (f := f), call_eq_nsum (f := g), l1, l2]
      dsimp only
      rw [List.getLastD_concat, sum_range_mul, nsum_cons, nsum_cons, Finset.sum_mul]
      simp only [nsum_nil]
      refine Finset.sum_congr rfl fun a ha => ?_
      rw [Finset.mul_sum]
      refine Finset.sum_congr rfl fun b hb => ?_
      have ha := Finset.mem_range.1 ha
      have hb := Finset.mem_range.1 hb
      rw [← hv β1 β2 [a] [b] z w h1 h2 (by rw [l1]; exact List.Forall₂.cons ha List.Forall₂.nil)
        (by rw [l2]; exact List.Forall₂.cons hb List.Forall₂.nil)]
      have hun := unravel_merge (InB.append h1 h2) ha hb
      have el : (f.outBatch ++ g.outBatch ++ [L1 * L2]).length = ((β1 ++ β2) ++ [a * L2 + b]).length := by
        simp [List.Forall₂.length_eq h1, List.Forall₂.length_eq h2]
      unfold termAt
      dsimp only [numCV]
      rw [hun]
      have d0 : List.drop (f.outBatch ++ g.outBatch ++ [L1 * L2]).length (f.outBatch ++ g.outBatch ++ [L1 * L2]) =
        f.derived ++ g.derived := by rw [e1, e2]; simp
      rw [d0, hN, hnum]
      have : ∀ k, InB (f.derived ++ g.derived) k →
          J.c (unravel (f.outBatch ++ g.outBatch ++ [L1, L2])
            (ravel (f.outBatch ++ g.outBatch ++ [L1 * L2]) (β1 ++ β2 ++ [a * L2 + b] ++ k))) =
          J.c (β1 ++ β2 ++ ([a] ++ [b]) ++ k) := by
        intro k hk
        rw [e1, e2] at hk
        cases hk
        rw [List.append_nil, List.append_nil, hun]; rfl
      exact termVal_congr (fun _ _ _ _ => rfl) (fun _ _ => rfl) this (fun _ _ => rfl)
  · rw [if_neg hboth]
    unfold init
    have hlen : J.cshape.take J.batch.length = J.batch := by rw [hc, List.take_left]
    have hdrop : J.cshape.drop J.batch.length = f.derived ++ g.derived := by rw [hc, List.drop_left]
    rw [if_pos hlen]
    have hls : (f.linSup || g.linSup) = true → ∃ L, f.lsBatch ++ g.lsBatch = [L] := by
      intro h
      unfold lsBatch
      cases h1 : f.linSup <;> cases h2 : g.linSup <;> simp_all
    have hls0 : (f.linSup || g.linSup) = false → f.lsBatch = [] ∧ g.lsBatch = [] := by
      intro h
      unfold lsBatch
      cases h1 : f.linSup <;> cases h2 : g.linSup <;> simp_all
    have hsum : ∀ F : List ℕ → ℂ, nsum f.lsBatch (fun a => nsum g.lsBatch (fun b => F (a ++ b))) =
        nsum (f.lsBatch ++ g.lsBatch) F := fun F => (nsum_append ..).symm
    have hlsb : (PolyExp.mk J.batch (f.linSup || g.linSup) J.N J.A J.b (J.cshape.drop J.batch.length)
        (fun β k => J.c (β ++ k))).lsBatch = f.lsBatch ++ g.lsBatch := by
      unfold lsBatch
      dsimp only
      cases h1 : f.linSup <;> cases h2 : g.linSup
      · simp
      · rw [hb]; unfold lsBatch; simp [h1, h2]
      · rw [hb]; unfold lsBatch; simp [h1, h2]
      · exact absurd ⟨h1, h2⟩ hboth
    refine ⟨_, rfl, ⟨?_, ?_⟩, ?_, ?_, ?_⟩
    · dsimp only; rw [hdrop, hN]; simp only [List.length_append]; omega
    · dsimp only
      intro h
      obtain ⟨L, hL⟩ := hls h
      rw [hb, hL]; simp
    · unfold outBatch at hb ⊢
      dsimp only
      cases h : (f.linSup || g.linSup) with
      | true =>
        obtain ⟨L, hL⟩ := hls h
        rw [hL] at hb
        rw [if_pos rfl, hb, List.dropLast_concat]
      | false =>
        obtain ⟨a, b⟩ := hls0 h
        rw [a, b] at hb
        rw [if_neg (by simp), hb]; simp
    · unfold numCV; dsimp only; rw [hdrop, hN]; exact hnum
    · intro β1 β2 z w h1 h2
      rw [call_eq_nsum, call_eq_nsum (f := f), call_eq_nsum (f := g), hlsb, nsum_append, ← nsum_mul_right]
      apply nsum_congr
      intro τ1 ht1
      rw [← nsum_mul_left]
      apply nsum_congr
      intro τ2 ht2
      rw [← hv β1 β2 τ1 τ2 z w h1 h2 ht1 ht2]
      unfold termAt
      dsimp only [numCV]
      rw [hdrop, hN, hnum]
      rfl

/-- **C27** (tensor product, error).  Two superpositions, one of them with derived variables: unless the second has a
single term (or the first has none), `f & g` fails. -/
theorem C27_and_error (f g : PolyExp) (hf : f.WF) (hg : g.WF) (h1 : f.linSup = true) (h2 : g.linSup = true)
    (hd : f.derived ++ g.derived ≠ []) (hL1 : f.batch.getLastD 0 ≠ 0) (hL2 : g.batch.getLastD 0 ≠ 1) :
    f.and g = none := by
  obtain ⟨u1, t1, u2, t2, hstr, hn, hu1, ht1, hu2, ht2⟩ := and_str hf hg
  obtain ⟨J, hJ, hb, hN, hc, hv⟩ := and_join hf hg hn hu1 ht1 hu2 ht2
  unfold PolyExp.and
  simp only [hstr, List.getD_cons_zero, List.getD_cons_succ, hJ]
  rw [if_pos ⟨h1, h2⟩]
  have l1 : f.lsBatch = [f.batch.getLastD 0] := by simp [lsBatch, h1]
  have l2 : g.lsBatch = [g.batch.getLastD 0] := by simp [lsBatch, h2]
  set L1 := f.batch.getLastD 0
  set L2 := g.batch.getLastD 0
  have hb' : J.batch = (f.outBatch ++ g.outBatch) ++ [L1, L2] := by rw [hb, l1, l2]; rfl
  unfold init
  rw [if_neg]
  rw [hc, hb', mergeLast_two]
  have hne : ∃ R, mergeLast ((f.outBatch ++ g.outBatch) ++ [L1, L2] ++ (f.derived ++ g.derived)) =
      (f.outBatch ++ g.outBatch) ++ L1 :: R := by
    rcases List.eq_nil_or_concat (f.derived ++ g.derived) with e | ⟨D, x, e⟩
    · exact absurd e hd
    · rw [e]
      rcases List.eq_nil_or_concat D with e' | ⟨D', y, e'⟩
      · refine ⟨[L2 * x], ?_⟩
        have : f.outBatch ++ g.outBatch ++ [L1, L2] ++ D.concat x = (f.outBatch ++ g.outBatch ++ [L1]) ++ [L2, x] := by
          simp [e']
        rw [this, mergeLast_two]; simp
      · refine ⟨L2 :: D' ++ [y * x], ?_⟩
        have : f.outBatch ++ g.outBatch ++ [L1, L2] ++ D.concat x =
            (f.outBatch ++ g.outBatch ++ L1 :: L2 :: D') ++ [y, x] := by
          simp [e']
        rw [this, mergeLast_two]; simp
  obtain ⟨R, hR⟩ := hne
  rw [hR]
  intro hx
  have e : ((f.outBatch ++ g.outBatch) ++ L1 :: R).take ((f.outBatch ++ g.outBatch) ++ [L1 * L2]).length =
      (f.outBatch ++ g.outBatch) ++ [L1] := by
    rw [List.length_append, List.take_length_add_append]; simp
  rw [e] at hx
  have := List.append_cancel_left hx
  simp only [List.cons.injEq, and_true] at this
  rcases Nat.eq_zero_or_pos L1 with h | h
  · exact hL1 h
  · apply hL2
    have : L1 * L2 = L1 * 1 := by omega
    exact Nat.eq_of_mul_eq_mul_left h this

/-- A one-term superposition without continuous variables: the number `c₀·1 + c₁·β = 1` with `β = 1`, `c = (0, 1)`. -/
noncomputable def exP : PolyExp := ⟨[1], true, 1, fun _ _ _ => 0, fun _ _ => 1, [2], fun _ k => if k = [1] then 1 else 0⟩
/-- The number `c₀·1 + c₁·β = 1` with `β = 0`, `c = (1, 0)`. -/
noncomputable def exQ : PolyExp := ⟨[1], true, 1, fun _ _ _ => 0, fun _ _ => 0, [2], fun _ k => if k = [0] then 1 else 0⟩

theorem toF_one : toF [1] = up 0 0 := by
  ext i; rw [toF_apply, up_apply]
  cases i with
  | zero => rfl
  | succ i => simp

theorem exP_call (z) : exP.call [] z = 1 := by
  have hB : Below 1 (toF [1]) := toF_below _ (by simp)
  have h1 : amp 1 (fun _ _ => 0) (fun _ => 1) 1 (toF [1]) = 1 := by
    rw [amp_linear hB, mono, toF_one, sqrtFact_up]
    simp [sqrtFact, Fock.sq]
  rw [call_ls rfl]
  simp only [termAt, exP, termVal, numCV, List.length_cons, List.length_nil]
  simp only [nsum, ndindex, List.range_succ, List.range_zero]
  simpa using h1

theorem exQ_call (z) : exQ.call [] z = 1 := by
  have hB : Below 1 (toF [0]) := toF_below _ (by simp)
  have h0 : toF [0] = 0 := toF_zeros 1
  have h1 : amp 1 (fun _ _ => 0) (fun _ => 0) 1 (toF [0]) = 1 := by
    rw [amp_linear hB, mono, h0]
    simp [sqrtFact]
  rw [call_ls rfl]
  simp only [termAt, exQ, termVal, numCV, List.length_cons, List.length_nil]
  simp only [nsum, ndindex, List.range_succ, List.range_zero]
  simpa using h1

/-- The exception is real: for two one-term superpositions, each with one derived variable of size 2, `f & g` raises
nothing, and the product of two ansätze that are 1 everywhere is 0: the array `c` of shape `(1, 1, 2, 2)` is reshaped
to `(1, 1, 4)`. -/
theorem C27_and_wrong : ∃ f g h : PolyExp, f.WF ∧ g.WF ∧ f.and g = some h ∧
    ∀ z w, f.call [] z = 1 ∧ g.call [] w = 1 ∧ h.call [] (joinPt f.numCV z w) = 0 := by
  have wf : exP.WF := ⟨by simp [exP], by simp [exP]⟩
  have wg : exQ.WF := ⟨by simp [exQ], by simp [exQ]⟩
  have hs : outerStr [exP.batch.length, exQ.batch.length] (some ((if exP.linSup then [0] else []) ++ (if exQ.linSup then [1] else []))) =
      some ([[97], [98]], [97, 98]) := by decide
  have hj : joinBatch [97] [1] [98] [1] [97, 98] = some [1, 1] := by decide
  have hand : ∃ h, exP.and exQ = some h ∧ h.linSup = true ∧ h.batch = [1] ∧ h.derived = [1, 4] ∧ h.N = 2 ∧
      (∀ i j, h.A [0] i j = 0) ∧ h.b [0] 1 = 0 ∧ h.c [0] [0, 0] = 0 ∧ h.c [0] [0, 1] = 0 := by
    unfold PolyExp.and
    simp only [hs, List.getD_cons_zero, List.getD_cons_succ, joinAbc]
    have : joinBatch [97] exP.batch [98] exQ.batch [97, 98] = some [1, 1] := hj
    rw [this]
    dsimp only
    rw [if_pos ⟨rfl, rfl⟩]
    unfold init
    rw [if_pos (by decide)]
    refine ⟨_, rfl, rfl, by decide, by decide, rfl, ?_, ?_, ?_, ?_⟩
    · intro i j
      have e1 : ∀ β, exP.A β = fun _ _ => 0 := fun _ => rfl
      have e2 : ∀ β, exQ.A β = fun _ _ => 0 := fun _ => rfl
      simp [dsumA, e1, e2]
    · simp [dsumB, joinPerm, numCV, exP, exQ]
    · simp [mergeLast, ravel, unravel, exP, exQ]
    · simp [mergeLast, ravel, unravel, exP, exQ]
  obtain ⟨h, hh, h1, h2, h3, h4, hA, hb, hc0, hc1⟩ := hand
  refine ⟨exP, exQ, h, wf, wg, hh, fun z w => ⟨exP_call z, exQ_call w, ?_⟩⟩
  rw [call_ls h1, h2]
  have hn : h.numCV = 0 := by unfold numCV; rw [h3, h4]; rfl
  have e : h.termAt [0] (joinPt exP.numCV z w) = 0 := by
    unfold termAt termVal
    rw [hn, h3]
    have hz : ∀ k : ℕ, k ≠ 0 → amp 2 (fun _ _ => 0) (fun j => h.b [0] j) 1 (toF [0, k]) = 0 := by
      intro k hk
      rw [amp_linear (toF_below _ (by simp)), mono, Finset.prod_range_succ, Finset.prod_range_one, hb]
      rw [toF_apply, toF_apply]
      simp [hk]
    have : (nsum [1, 4] fun k => h.c [0] k * amp [1, 4].length (fun i j => h.A [0] (0 + i) (0 + j))
        (fun j => ∑ a ∈ Finset.range 0, h.A [0] a (0 + j) * joinPt exP.numCV z w a + h.b [0] (0 + j)) 1 (toF k)) = 0 := by
      simp only [hA, Finset.range_zero, Finset.sum_empty, zero_add, nsum_cons, nsum_nil, List.length_cons, List.length_nil]
      simp only [Finset.sum_range_succ, Finset.range_zero, Finset.sum_empty, zero_add]
      rw [hc0, hc1, hz 2 (by decide), hz 3 (by decide)]
      simp
    rw [this, mul_zero]
  simpa using e

/-- The theorem applies to non-trivial operands: `exF` has one continuous and one derived variable, `exP` is a superposition
with a derived variable, and their product is 1 at every point. -/
example : ∃ h, exF.and exP = some h ∧ ∀ z w, h.call [] (joinPt 1 z w) = 1 := by
  obtain ⟨h, h1, _, _, _, hv⟩ := C27_and exF exP ⟨by simp [exF], by simp [exF]⟩ ⟨by simp [exP], by simp [exP]⟩ (by simp [exF])
  refine ⟨h, h1, fun z w => ?_⟩
  have := hv [] [] z w List.Forall₂.nil List.Forall₂.nil
  rw [exF_call, exP_call, mul_one] at this
  exact this

end Verif.PolyExp
