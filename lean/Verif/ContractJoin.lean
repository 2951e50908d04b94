import Verif.Contract

/-!
# `contract`: batch labels, positions of the shared labels, the joined triple
-/

namespace Verif.PolyExp
open Verif.Fock Verif.Batch Verif.Gauss PolyExp

/-! ### Batch labels -/

theorem restrict_map2 {P Q : ℕ → Bool} (h : ∀ d, Q (d + 2) = P d) :
    ∀ l o : List ℕ, restrict Q (l.map (· + 2)) o = restrict P l o
  | [], o => by cases o <;> rfl
  | d :: l, [] => rfl
  | d :: l, i :: o => by simp only [List.map_cons, restrict, h, restrict_map2 h l o]

theorem idxOf_map2 (l : List ℕ) (d : ℕ) : (l.map (· + 2)).idxOf (d + 2) = l.idxOf d := by
  induction l with
  | nil => rfl
  | cons a l ih =>
    rw [List.map_cons, List.idxOf_cons, List.idxOf_cons, ih]
    by_cases h : a = d
    · subst h; simp
    · have : ¬ (a + 2 = d + 2) := by omega
      simp [h]

theorem mem_opLabels {b : List ℕ} {ls : Bool} {l d : ℕ} (hl : l < 2) :
    d ∈ opLabels b ls l ↔ (∃ x ∈ b, d = x + 2) ∨ (ls = true ∧ d = l) := by
  unfold opLabels
  rw [List.mem_append, List.mem_map]
  constructor
  · rintro (⟨x, hx, rfl⟩ | h)
    · exact Or.inl ⟨x, hx, rfl⟩
    · right
      cases ls <;> simp_all
  · rintro (⟨x, hx, rfl⟩ | ⟨h, rfl⟩)
    · exact Or.inl ⟨x, hx, rfl⟩
    · right; simp [h]

theorem mem_opLabels_two {b : List ℕ} {ls : Bool} {l d : ℕ} (hl : l < 2) : d + 2 ∈ opLabels b ls l ↔ d ∈ b := by
  rw [mem_opLabels hl]
  constructor
  · rintro (⟨x, hx, h⟩ | ⟨_, h⟩)
    · rwa [show d = x by omega]
    · omega
  · intro h; exact Or.inl ⟨d, h, rfl⟩

theorem opLabels_nodup {b : List ℕ} (hb : b.Nodup) (ls : Bool) {l : ℕ} (hl : l < 2) : (opLabels b ls l).Nodup := by
  unfold opLabels
  rw [List.nodup_append]
  refine ⟨hb.map fun a b h => by simpa using h, by cases ls <;> simp, ?_⟩
  intro a ha c hc
  rw [List.mem_map] at ha
  obtain ⟨x, _, rfl⟩ := ha
  cases ls
  · simp at hc
  · simp only [if_true, List.mem_singleton] at hc
    omega

/-- The sizes of the output batch axes. -/
def outDims (b1 b2 bo B1 B2 : List ℕ) : List ℕ := bo.map fun d => if d ∈ b1 then sizeOf b1 B1 d else sizeOf b2 B2 d

theorem sizeOf_opLabels {b B T : List ℕ} {ls : Bool} {l d : ℕ} (hl : B.length = b.length) (hd : d ∈ b) :
    sizeOf (opLabels b ls l) (B ++ T) (d + 2) = sizeOf b B d := by
  unfold Batch.sizeOf opLabels
  have h1 : d + 2 ∈ b.map (· + 2) := List.mem_map.mpr ⟨d, hd, rfl⟩
  rw [List.idxOf_append_of_mem h1, idxOf_map2]
  have : b.idxOf d < b.length := List.idxOf_lt_length_iff.mpr hd
  rw [List.getD_append _ _ _ _ (by omega)]

theorem contract_join {f g : PolyExp} (hf : f.WF) (hg : g.WF) {b1 b2 bo : List ℕ} (n1 : b1.Nodup) (n2 : b2.Nodup)
    (l1 : b1.length = f.outBatch.length) (l2 : b2.length = g.outBatch.length) (o1 : bo.filter (· ∈ b1) = b1)
    (o2 : bo.filter (· ∈ b2) = b2) (hout : ∀ d ∈ bo, d ∈ b1 ∨ d ∈ b2)
    (hsz : ∀ d ∈ b1, d ∈ b2 → sizeOf b1 f.outBatch d = sizeOf b2 g.outBatch d) :
    ∃ J, joinAbc f g (opLabels b1 f.linSup 0) (opLabels b2 g.linSup 1) (outLabels bo f.linSup g.linSup) = some J ∧
      J.batch = outDims b1 b2 bo f.outBatch g.outBatch ++ (f.lsBatch ++ g.lsBatch) ∧ J.N = f.N + g.N ∧
      ∀ o τ1 τ2, InB (outDims b1 b2 bo f.outBatch g.outBatch) o → InB f.lsBatch τ1 → InB g.lsBatch τ2 →
        InB f.outBatch (restrict (· ∈ b1) bo o) ∧ InB g.outBatch (restrict (· ∈ b2) bo o) ∧
        J.A (o ++ (τ1 ++ τ2)) = (fun i j => dsumA f.N (f.A (restrict (· ∈ b1) bo o ++ τ1)) (g.A (restrict (· ∈ b2) bo o ++ τ2))
          ((joinPerm f.numCV f.derived.length g.numCV g.derived.length).getD i 0)
          ((joinPerm f.numCV f.derived.length g.numCV g.derived.length).getD j 0)) ∧
        J.b (o ++ (τ1 ++ τ2)) = (fun i => dsumB f.N (f.b (restrict (· ∈ b1) bo o ++ τ1)) (g.b (restrict (· ∈ b2) bo o ++ τ2))
          ((joinPerm f.numCV f.derived.length g.numCV g.derived.length).getD i 0)) ∧
        ∀ k, J.c (o ++ (τ1 ++ τ2) ++ k) = f.c (restrict (· ∈ b1) bo o ++ τ1) (k.take f.derived.length) *
          g.c (restrict (· ∈ b2) bo o ++ τ2) (k.drop f.derived.length) := by
  obtain ⟨in1, hin1⟩ : ∃ x, x = opLabels b1 f.linSup 0 := ⟨_, rfl⟩
  obtain ⟨in2, hin2⟩ : ∃ x, x = opLabels b2 g.linSup 1 := ⟨_, rfl⟩
  obtain ⟨out, hO⟩ : ∃ x, x = outLabels bo f.linSup g.linSup := ⟨_, rfl⟩
  obtain ⟨t1, ht1⟩ : ∃ x : List ℕ, x = if f.linSup then [0] else [] := ⟨_, rfl⟩
  obtain ⟨t2, ht2⟩ : ∃ x : List ℕ, x = if g.linSup then [1] else [] := ⟨_, rfl⟩
  have e1 : in1 = b1.map (· + 2) ++ t1 := by rw [hin1, ht1]; rfl
  have e2 : in2 = b2.map (· + 2) ++ t2 := by rw [hin2, ht2]; rfl
  have eo : out = bo.map (· + 2) ++ (t1 ++ t2) := by rw [hO, ht1, ht2]; rfl
  have lt1 : f.lsBatch.length = t1.length := by rw [ht1]; unfold lsBatch; cases f.linSup <;> rfl
  have lt2 : g.lsBatch.length = t2.length := by rw [ht2]; unfold lsBatch; cases g.linSup <;> rfl
  have m1 : ∀ d, d + 2 ∈ in1 ↔ d ∈ b1 := fun d => by rw [hin1]; exact mem_opLabels_two (by omega)
  have m2 : ∀ d, d + 2 ∈ in2 ↔ d ∈ b2 := fun d => by rw [hin2]; exact mem_opLabels_two (by omega)
  have nd1 : in1.Nodup := by rw [hin1]; exact opLabels_nodup n1 _ (by omega)
  have nd2 : in2.Nodup := by rw [hin2]; exact opLabels_nodup n2 _ (by omega)
  have t1m : ∀ d ∈ t1, d = 0 := fun d hd => by rw [ht1] at hd; cases h : f.linSup <;> simp_all
  have t2m : ∀ d ∈ t2, d = 1 := fun d hd => by rw [ht2] at hd; cases h : g.linSup <;> simp_all
  have t1in : ∀ d ∈ t1, d ∈ in1 := fun d hd => by rw [e1]; simp [hd]
  have t2in : ∀ d ∈ t2, d ∈ in2 := fun d hd => by rw [e2]; simp [hd]
  have t1n : ∀ d ∈ t1, d ∉ in2 := fun d hd h => by
    rw [hin2, mem_opLabels (by omega)] at h
    have := t1m d hd
    rcases h with ⟨x, _, h⟩ | ⟨_, h⟩ <;> omega
  have t2n : ∀ d ∈ t2, d ∉ in1 := fun d hd h => by
    rw [hin1, mem_opLabels (by omega)] at h
    have := t2m d hd
    rcases h with ⟨x, _, h⟩ | ⟨_, h⟩ <;> omega
  have filt : ∀ (b inn : List ℕ), (∀ d, d + 2 ∈ inn ↔ d ∈ b) → bo.filter (· ∈ b) = b →
      (bo.map (· + 2)).filter (· ∈ inn) = b.map (· + 2) := by
    intro b inn hm ho
    rw [List.filter_map]
    have : bo.filter ((fun x => decide (x ∈ inn)) ∘ (· + 2)) = b := by
      conv_rhs => rw [← ho]
      apply List.filter_congr
      intro x _
      simp [hm]
    rw [this]
  have fo1 : out.filter (· ∈ in1) = in1 := by
    rw [eo, List.filter_append, List.filter_append, filt b1 in1 m1 o1,
      List.filter_eq_self.2 (fun d h => decide_eq_true (t1in d h)),
      List.filter_eq_nil_iff.2 (fun d h => by simpa using t2n d h), List.append_nil, ← e1]
  have fo2 : out.filter (· ∈ in2) = in2 := by
    rw [eo, List.filter_append, List.filter_append, filt b2 in2 m2 o2,
      List.filter_eq_self.2 (fun d h => decide_eq_true (t2in d h)),
      List.filter_eq_nil_iff.2 (fun d h => by simpa using t1n d h), List.nil_append, ← e2]
  have bl1 : f.batch.length = in1.length := by
    rw [batch_split hf, e1]; simp [l1, lt1]
  have bl2 : g.batch.length = in2.length := by
    rw [batch_split hg, e2]; simp [l2, lt2]
  have s1 : ∀ d ∈ b1, sizeOf in1 f.batch (d + 2) = sizeOf b1 f.outBatch d := fun d hd => by
    rw [batch_split hf, hin1]; exact sizeOf_opLabels l1.symm hd
  have s2 : ∀ d ∈ b2, sizeOf in2 g.batch (d + 2) = sizeOf b2 g.outBatch d := fun d hd => by
    rw [batch_split hg, hin2]; exact sizeOf_opLabels l2.symm hd
  obtain ⟨shape, hs, _, hread⟩ := C43_broadcast nd1 nd2 bl1 bl2 fo1 fo2
    (by
      intro d hd
      rw [eo, List.mem_append, List.mem_append] at hd
      rcases hd with hd | hd | hd
      · rw [List.mem_map] at hd
        obtain ⟨x, hx, rfl⟩ := hd
        rw [m1, m2]
        exact hout x hx
      · exact Or.inl (t1in d hd)
      · exact Or.inr (t2in d hd))
    (by
      intro d hd hd'
      rw [hin1, mem_opLabels (by omega)] at hd
      rcases hd with ⟨x, hx, rfl⟩ | ⟨h, rfl⟩
      · have hx2 := (m2 x).mp hd'
        rw [s1 x hx, s2 x hx2]
        exact hsz x hx hx2
      · exact absurd hd' (t1n 0 (by rw [ht1, if_pos h]; simp)))
  have hshape : shape = outDims b1 b2 bo f.outBatch g.outBatch ++ (f.lsBatch ++ g.lsBatch) := by
    have : joinBatch in1 f.batch in2 g.batch out = some (out.map (dimOf in1 f.batch in2 g.batch)) := by
      rw [hs]
      unfold joinBatch at hs
      split_ifs at hs
      rw [← hs]
    rw [hs, Option.some.injEq] at this
    rw [this, eo, List.map_append, List.map_append]
    refine congr (congrArg HAppend.hAppend ?_) (congr (congrArg HAppend.hAppend ?_) ?_)
    · unfold outDims
      rw [List.map_map]
      apply List.map_congr_left
      intro d hd
      simp only [Function.comp_apply]
      unfold dimOf
      by_cases h2 : d ∈ b2
      · rw [if_pos ((m2 d).mpr h2), s2 d h2]
        split_ifs with h1
        · rw [hsz d h1 h2]
        · rfl
      · have h1 := (hout d hd).resolve_right h2
        rw [if_neg (fun h => h2 ((m2 d).mp h)), if_pos h1, s1 d h1]
    · rw [List.map_congr_left (g := sizeOf in1 f.batch) (fun d hd => by unfold dimOf; rw [if_neg (t1n d hd)])]
      have := (sizeOf_map_append (u := b1.map (· + 2)) (t := t1) (B := f.outBatch) (T := f.lsBatch) (by rw [← e1]; exact nd1)
        (by simp [l1]) lt1).2
      rw [← e1, ← batch_split hf] at this
      exact this
    · rw [List.map_congr_left (g := sizeOf in2 g.batch) (fun d hd => by unfold dimOf; rw [if_pos (t2in d hd)])]
      have := (sizeOf_map_append (u := b2.map (· + 2)) (t := t2) (B := g.outBatch) (T := g.lsBatch) (by rw [← e2]; exact nd2)
        (by simp [l2]) lt2).2
      rw [← e2, ← batch_split hg] at this
      exact this
  rw [← hin1, ← hin2, ← hO]
  unfold joinAbc
  rw [hs]
  refine ⟨_, rfl, hshape, rfl, ?_⟩
  intro o τ1 τ2 ho hτ1 hτ2
  have hol : (bo.map (· + 2)).length = o.length := by
    rw [InB.length ho]; simp [outDims]
  have hl1 : t1.length = τ1.length := by rw [InB.length hτ1, lt1]
  have hl2 : t2.length = τ2.length := by rw [InB.length hτ2, lt2]
  have hin : InB shape (o ++ (τ1 ++ τ2)) := by
    rw [hshape]; exact InB.append ho (InB.append hτ1 hτ2)
  obtain ⟨r1, q1, r2, q2⟩ := hread _ hin
  have v1 : restrict (· ∈ in1) out (o ++ (τ1 ++ τ2)) = restrict (· ∈ b1) bo o ++ τ1 := by
    rw [eo, restrict_append _ _ _ _ _ hol, restrict_append _ _ _ _ _ hl1,
      restrict_map2 (P := (· ∈ b1)) (fun d => by simp [m1]), restrict_all _ t1 τ1 hl1 (fun d h => by simpa using t1in d h),
      restrict_none _ t2 _ (fun d h => by simpa using t2n d h), List.append_nil]
  have v2 : restrict (· ∈ in2) out (o ++ (τ1 ++ τ2)) = restrict (· ∈ b2) bo o ++ τ2 := by
    rw [eo, restrict_append _ _ _ _ _ hol, restrict_append _ _ _ _ _ hl1,
      restrict_map2 (P := (· ∈ b2)) (fun d => by simp [m2]), restrict_all _ t2 τ2 hl2 (fun d h => by simpa using t2in d h),
      restrict_none _ t1 _ (fun d h => by simpa using t1n d h), List.nil_append]
  have hlen : shape.length = (o ++ (τ1 ++ τ2)).length := (InB.length hin).symm
  rw [v1] at r1 q1
  rw [v2] at r2 q2
  have cut : ∀ {B T x t : List ℕ}, InB (B ++ T) (x ++ t) → InB T t → InB B x := by
    intro B T x t h ht
    have hx : x.length = B.length := by
      have h1 := InB.length h
      have h2 := InB.length ht
      simp only [List.length_append] at h1; omega
    have := List.forall₂_take B.length h
    rwa [List.take_left, ← hx, List.take_left] at this
  refine ⟨?_, ?_, ?_, ?_, ?_⟩
  · rw [batch_split hf] at q1; exact cut q1 hτ1
  · rw [batch_split hg] at q2; exact cut q2 hτ2
  · dsimp only
    rw [r1, r2]
  · dsimp only
    rw [r1, r2]
  · intro k
    dsimp only
    rw [hlen, List.take_left, List.drop_left, r1, r2]

/-- Every term of the joined triple is the product of a term of `f` and a term of `g`. -/
theorem joined_term {f g : PolyExp} (hf : f.WF) {J : Joined} {γ β1 β2 : List ℕ} {ls : Bool} (hg : g.WF) (hN : J.N = f.N + g.N)
    (hA : J.A γ = fun i j => dsumA f.N (f.A β1) (g.A β2)
          ((joinPerm f.numCV f.derived.length g.numCV g.derived.length).getD i 0)
          ((joinPerm f.numCV f.derived.length g.numCV g.derived.length).getD j 0))
    (hb : J.b γ = fun i => dsumB f.N (f.b β1) (g.b β2) ((joinPerm f.numCV f.derived.length g.numCV g.derived.length).getD i 0))
    (hc : ∀ k, J.c (γ ++ k) = f.c β1 (k.take f.derived.length) * g.c β2 (k.drop f.derived.length)) (z w : ℕ → ℂ) :
    (J.toPolyExp ls (f.derived ++ g.derived)).numCV = f.numCV + g.numCV ∧
    (J.toPolyExp ls (f.derived ++ g.derived)).termAt γ (joinPt f.numCV z w) = f.termAt β1 z * g.termAt β2 w := by
  have hfd := hf.der
  have hgd := hg.der
  have hnum : (J.toPolyExp ls (f.derived ++ g.derived)).numCV = f.numCV + g.numCV := by
    show J.N - (f.derived ++ g.derived).length = _
    rw [hN]
    simp only [List.length_append, numCV]; omega
  refine ⟨hnum, ?_⟩
  have hNf : f.N = f.numCV + f.derived.length := by unfold numCV; omega
  have : (J.toPolyExp ls (f.derived ++ g.derived)).termAt γ (joinPt f.numCV z w)
      = termVal (f.numCV + g.numCV) (f.derived ++ g.derived) (J.A γ) (J.b γ) (fun k => J.c (γ ++ k)) (joinPt f.numCV z w) := by
    unfold termAt
    rw [hnum]
    rfl
  rw [this, hA, hb, hNf]
  simp only [hc]
  exact termVal_join z w

/-! ### Positions of the shared labels -/

theorem map_idxOf_range {c : List ℕ} (hc : c.Nodup) : c.map c.idxOf = List.range c.length := by
  apply List.ext_getElem
  · simp
  · intro i h1 h2
    rw [List.getElem_map, List.getElem_range]
    exact hc.idxOf_getElem i (by simpa using h1)

theorem idxOf_sorted {c : List ℕ} (hc : c.Nodup) (P : ℕ → Bool) : ((c.filter P).map c.idxOf).Pairwise (· < ·) := by
  have h1 : ((c.filter P).map c.idxOf).Sublist (List.range c.length) := by
    rw [← map_idxOf_range hc]
    exact (List.filter_sublist).map _
  exact List.Pairwise.sublist h1 List.pairwise_lt_range

theorem sharedPos_eq {c : List ℕ} (hc : c.Nodup) (P : ℕ → Bool) :
    sharedPos c (c.filter P) = (c.filter P).map c.idxOf := by
  unfold sharedPos
  have := (idxOf_sorted hc P).imp (fun h => le_of_lt h)
  exact List.Pairwise.insertionSort_eq this

end Verif.PolyExp
