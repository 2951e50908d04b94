import Verif.EinsumProps

/-!
# `mm_einsum` on Fock arrays does not depend on the path (C15), continued: one step and all steps
-/

namespace Verif.Arr

open Verif.Fock Verif.PolyExp

/-! ### One step -/

theorem step_data {fd : ℕ → Option ℕ} {output : List Lab} {st st' : List (Arr × List Lab)} {p : ℕ × ℕ} (h : step fd output st p = some st') :
    ∃ A B a' b' r others, st.Perm (A :: B :: others) ∧ A.1.reduce (getShape fd A.1 B.1 A.2 B.2) = some a' ∧
      B.1.reduce (getShape fd B.1 A.1 B.2 A.2) = some b' ∧
      contract a' b' A.2 B.2 (prepareIdxOut (others.map Prod.snd) A.2 B.2 output) = some r ∧
      st' = others ++ [(r, prepareIdxOut (others.map Prod.snd) A.2 B.2 output)] := by
  unfold step at h
  split_ifs at h with h1
  simp only [Option.bind_eq_bind, Option.bind_eq_some_iff] at h
  obtain ⟨A, hA, B, hB, h⟩ := h
  split_ifs at h with h2 h3 h4
  · rw [Option.bind_eq_some_iff] at h
    obtain ⟨a', ha', h⟩ := h
    rw [Option.bind_eq_some_iff] at h
    obtain ⟨b', hb', h⟩ := h
    rw [Option.bind_eq_some_iff] at h
    obtain ⟨r, hr, h⟩ := h
    cases h
    refine ⟨A, B, a', b', r, _, ?_, ha', hb', hr, rfl⟩
    obtain ⟨l1, e1⟩ := List.getElem?_eq_some_iff.1 hA
    obtain ⟨l2, e2⟩ := List.getElem?_eq_some_iff.1 hB
    rcases Nat.lt_or_gt_of_ne h1 with hlt | hlt
    · rw [max_eq_right hlt.le, min_eq_left hlt.le]
      have q1 := List.getElem_cons_eraseIdx_perm l2
      have l1' : p.1 < (st.eraseIdx p.2).length := by rw [List.length_eraseIdx]; split_ifs <;> omega
      have q2 := List.getElem_cons_eraseIdx_perm l1'
      rw [List.getElem_eraseIdx_of_lt _ hlt] at q2
      rw [e2] at q1; rw [e1] at q2
      exact (q1.symm.trans (q2.symm.cons B)).trans (List.Perm.swap _ _ _)
    · rw [max_eq_left hlt.le, min_eq_right hlt.le]
      have q1 := List.getElem_cons_eraseIdx_perm l1
      have l2' : p.2 < (st.eraseIdx p.1).length := by rw [List.length_eraseIdx]; split_ifs <;> omega
      have q2 := List.getElem_cons_eraseIdx_perm l2'
      rw [List.getElem_eraseIdx_of_lt _ hlt] at q2
      rw [e1] at q1; rw [e2] at q2
      exact q1.symm.trans (q2.symm.cons A)

/-- The size of label `l` in a labelled array. -/
def ldim (p : Arr × List Lab) (l : Lab) : ℕ := dimIn p.2 p.1.shape l

theorem LWF.shape {p : Arr × List Lab} (h : LWF p) : p.1.shape = p.2.map (ldim p) := shape_eq_map h.nodup h.len

theorem LWF.split {p : Arr × List Lab} (h : LWF p) : p.1.WF ∧ p.1.batch = (strs p.2).map (ldim p) ∧ p.1.core = (ints p.2).map (ldim p) := by
  have hs := h.shape
  have h2 : p.1.shape = (strs p.2).map (ldim p) ++ (ints p.2).map (ldim p) := by
    rw [← List.map_append]; exact hs.trans (congrArg _ h.std.symm)
  have hl : ((strs p.2).map (ldim p)).length = p.1.batchDims := by rw [List.length_map, h.bd]
  refine ⟨?_, ?_, ?_⟩
  · unfold Arr.WF; rw [h2, List.length_append, hl]; omega
  · unfold Arr.batch; rw [h2, List.take_left' hl]
  · unfold Arr.core; rw [h2, List.drop_left' hl]

theorem nodup_strs {l : List Lab} (h : l.Nodup) : (strs l).Nodup := h.filter _
theorem nodup_ints {l : List Lab} (h : l.Nodup) : (ints l).Nodup := h.filter _
theorem mem_strs {l : List Lab} {x : Lab} : x ∈ strs l ↔ x ∈ l ∧ x.isStr = true := by simp [strs]
theorem mem_ints {l : List Lab} {x : Lab} : x ∈ ints l ↔ x ∈ l ∧ x.isStr = false := by simp [ints]

/-- The size of a core label after `to_fock` (for batch labels: unchanged). -/
def sdim (fd : ℕ → Option ℕ) (A B : Arr × List Lab) (l : Lab) : ℕ :=
  if l.isStr then ldim A l
  else match fdim fd l with
    | some d => d
    | none => if l ∈ B.2 then min (ldim A l) (ldim B l) else ldim A l

theorem getShape_eq {fd : ℕ → Option ℕ} {A B : Arr × List Lab} (hA : LWF A) (hB : LWF B) :
    getShape fd A.1 B.1 A.2 B.2 = (ints A.2).map (sdim fd A B) := by
  unfold getShape
  apply List.map_congr_left
  intro l hl
  have hl' := (mem_ints.1 hl).2
  have hs : sdim fd A B l = match fdim fd l with
    | some d => d
    | none => if l ∈ B.2 then min (ldim A l) (ldim B l) else ldim A l := by unfold sdim; exact if_neg (by simp [hl'])
  rw [hs]
  cases fdim fd l with
  | some d => rfl
  | none =>
    dsimp only
    rw [hA.split.2.2, dimIn_map _ hl]
    by_cases hb : l ∈ ints B.2
    · rw [if_pos hb, if_pos (mem_ints.1 hb).1, hB.split.2.2, dimIn_map _ hb]
    · rw [if_neg hb, if_neg (fun h => hb (mem_ints.2 ⟨h, hl'⟩))]

theorem reduce_lab {fd : ℕ → Option ℕ} {A B : Arr × List Lab} (hA : LWF A) (hB : LWF B) {a' : Arr}
    (h : A.1.reduce (getShape fd A.1 B.1 A.2 B.2) = some a') :
    LWF (a', A.2) ∧ (∀ l ∈ A.2, dimIn A.2 a'.shape l = sdim fd A B l) ∧
    ∀ τ : Lab → ℕ, a'.entry (A.2.map τ) = if ∀ l ∈ A.2, l.isStr = false → τ l < sdim fd A B l then A.1.entry (A.2.map τ) else 0 := by
  rw [getShape_eq hA hB] at h
  obtain ⟨hwf, hb, hc⟩ := hA.split
  obtain ⟨r1, r2, r3, r4⟩ := Arr.C29_reduce _ _ hwf _ h
  have hbs : A.1.batch = (strs A.2).map (sdim fd A B) := by
    rw [hb]
    apply List.map_congr_left
    intro l hl
    unfold sdim; rw [if_pos (mem_strs.1 hl).2]
  have hsh : a'.shape = A.2.map (sdim fd A B) := by
    rw [a'.shape_eq, r2, r3, hbs, ← List.map_append]; exact congrArg _ hA.std
  refine ⟨⟨hA.nodup, by rw [hsh, List.length_map], r1.trans hA.bd, hA.std⟩, fun l hl => by rw [hsh, dimIn_map _ hl], fun τ => ?_⟩
  have hin : InB a'.shape (A.2.map τ) ↔ ∀ l ∈ A.2, τ l < sdim fd A B l := by rw [hsh, inB_map]
  by_cases h1 : InB a'.shape (A.2.map τ)
  · rw [Arr.entry_of_inB h1, if_pos fun l hl _ => hin.1 h1 l hl, r4 _ (by rw [← r2, ← r3, ← a'.shape_eq]; exact h1)]
    unfold Arr.entry
    rw [← A.1.shape_eq]
    simp only [inb_iff]
  · rw [Arr.entry_of_not h1]
    split_ifs with h2
    · symm
      apply Arr.entry_of_not
      intro h3
      rw [inB_lab hA.nodup hA.len] at h3
      apply h1
      rw [hin]
      intro l hl
      cases hs : l.isStr with
      | false => exact h2 l hl hs
      | true => unfold sdim; rw [if_pos hs]; exact h3 l hl
    · rfl

/-- The size of a label in the result of one step. -/
theorem cdim_step {fd : ℕ → Option ℕ} {A B : Arr × List Lab} {a' b' : Arr}
    (ha : ∀ l ∈ A.2, dimIn A.2 a'.shape l = sdim fd A B l) (hb : ∀ l ∈ B.2, dimIn B.2 b'.shape l = sdim fd B A l) {l : Lab} (hl : l ∈ A.2 ∨ l ∈ B.2) :
    cdim a' b' A.2 B.2 l = match fdim fd l with
      | some d => d
      | none => if l ∈ A.2 then (if l ∈ B.2 then min (ldim A l) (ldim B l) else ldim A l) else ldim B l := by
  have hstr : l.isStr = true → fdim fd l = none := by cases l <;> simp [Lab.isStr, fdim]
  unfold cdim
  by_cases h1 : l ∈ A.2 <;> by_cases h2 : l ∈ B.2
  · rw [if_pos h1, if_pos h2, ha l h1, hb l h2]
    unfold sdim
    cases hs : l.isStr with
    | true => simp [hstr hs, h1, h2]
    | false => cases fdim fd l <;> simp [h1, h2, min_comm]
  · rw [if_pos h1, if_neg h2, ha l h1]
    unfold sdim
    cases hs : l.isStr with
    | true => simp [hstr hs, h1, h2]
    | false => cases fdim fd l <;> simp [h1, h2]
  · rw [if_neg h1, hb l h2]
    unfold sdim
    cases hs : l.isStr with
    | true => simp [hstr hs, h1]
    | false => cases fdim fd l <;> simp [h1]
  · rcases hl with h | h <;> contradiction

theorem contract_data {a b r : Arr} {i1 i2 out : List Lab} (h : contract a b i1 i2 out = some r) :
    r.batchDims = (strs out).length ∧ r.shape = out.map (cdim a b i1 i2) ∧ out.Nodup := by
  unfold contract at h
  split_ifs at h with h1 h2 h3
  cases h
  exact ⟨rfl, rfl, h3.2.2⟩

/-- The labels occurring in a state. -/
def labels (st : List (Arr × List Lab)) : List Lab := (st.map Prod.snd).flatten

theorem mem_labels {st : List (Arr × List Lab)} {l : Lab} : l ∈ labels st ↔ ∃ p ∈ st, l ∈ p.2 := by
  simp only [labels, List.mem_flatten, List.mem_map]
  constructor
  · rintro ⟨_, ⟨p, hp, rfl⟩, hl⟩; exact ⟨p, hp, hl⟩
  · rintro ⟨p, hp, hl⟩; exact ⟨_, ⟨p, hp, rfl⟩, hl⟩

/-- Specification: the product of all arrays (continued by zero) at an assignment of values to labels. -/
noncomputable def prodAt (st : List (Arr × List Lab)) (τ : Lab → ℕ) : ℂ := (st.map fun p => p.1.entry (p.2.map τ)).prod

/-- The labels to be summed. -/
def openLabels (st : List (Arr × List Lab)) (output : List Lab) : List Lab := (labels st).dedup.filter (· ∉ output)

theorem nodup_open (st : List (Arr × List Lab)) (output : List Lab) : (openLabels st output).Nodup := (List.nodup_dedup _).filter _
theorem mem_open {st : List (Arr × List Lab)} {output : List Lab} {l : Lab} : l ∈ openLabels st output ↔ l ∈ labels st ∧ l ∉ output := by
  simp [openLabels]

theorem prodAt_perm {st st' : List (Arr × List Lab)} (h : st.Perm st') (τ : Lab → ℕ) : prodAt st τ = prodAt st' τ :=
  (h.map _).prod_eq

theorem labels_perm {st st' : List (Arr × List Lab)} (h : st.Perm st') (l : Lab) : l ∈ labels st ↔ l ∈ labels st' := by
  simp only [mem_labels, h.mem_iff]

theorem prodAt_congr {st : List (Arr × List Lab)} {τ τ' : Lab → ℕ} (h : ∀ l ∈ labels st, τ l = τ' l) : prodAt st τ = prodAt st τ' := by
  unfold prodAt
  congr 1
  apply List.map_congr_left
  intro p hp
  rw [map_congr_mem fun l hl => h l (mem_labels.2 ⟨p, hp, hl⟩)]

/-- Everything one step preserves.  `M` bounds the sizes of all labels, being the Fock dimension where that is given. -/
structure StepOut (fd : ℕ → Option ℕ) (output : List Lab) (M : Lab → ℕ) (st st' : List (Arr × List Lab)) : Prop where
  lwf : ∀ p ∈ st', LWF p
  lab : ∀ l ∈ labels st', l ∈ labels st
  keep : ∀ l ∈ output, l ∈ labels st → l ∈ labels st'
  bound : ∀ l, fdim fd l = none → ∀ p ∈ st', l ∈ p.2 → ldim p l ≤ M l
  least : ∀ l ∈ labels st', fdim fd l = none → ∀ d, IsLeast {d | ∃ p ∈ st, l ∈ p.2 ∧ d = ldim p l} d → IsLeast {d | ∃ p ∈ st', l ∈ p.2 ∧ d = ldim p l} d
  val : ∀ σ, (∀ l ∈ output, l ∈ labels st → σ l < M l) → sumOver M (openLabels st' output) (prodAt st') σ = sumOver M (openLabels st output) (prodAt st) σ
  last : ∃ others q, st' = others ++ [q] ∧ (∀ l ∈ q.2, l ∈ output ∨ l ∈ labels others) ∧ ∀ l ∈ q.2, ∀ d, fdim fd l = some d → ldim q l = d

theorem step_out {fd : ℕ → Option ℕ} {output : List Lab} {M : Lab → ℕ} {st st' : List (Arr × List Lab)} {p : ℕ × ℕ}
    (hst : ∀ q ∈ st, LWF q) (hM1 : ∀ l d, fdim fd l = some d → M l = d) (hM2 : ∀ l, fdim fd l = none → ∀ q ∈ st, l ∈ q.2 → ldim q l ≤ M l)
    (h : step fd output st p = some st') : StepOut fd output M st st' := by
  obtain ⟨A, B, a', b', r, others, hperm, hra, hrb, hr, rfl⟩ := step_data h
  have hmA : A ∈ st := hperm.mem_iff.2 (by simp)
  have hmB : B ∈ st := hperm.mem_iff.2 (by simp)
  have hmo : ∀ q ∈ others, q ∈ st := fun q hq => hperm.mem_iff.2 (by simp [hq])
  have hA := hst A hmA
  have hB := hst B hmB
  obtain ⟨la, da, ea⟩ := reduce_lab hA hB hra
  obtain ⟨lb, db, eb⟩ := reduce_lab hB hA hrb
  obtain ⟨on, om, os⟩ := prepare_spec (others.map Prod.snd) A.2 B.2 output
  set out := prepareIdxOut (others.map Prod.snd) A.2 B.2 output with hout
  change ∀ x, x ∈ out ↔ (x ∈ A.2 ∨ x ∈ B.2) ∧ (x ∈ labels others ∨ x ∈ output) at om
  obtain ⟨c1, c2, c3⟩ := contract_data hr
  have hlab : ∀ l, l ∈ labels st ↔ l ∈ A.2 ∨ l ∈ B.2 ∨ l ∈ labels others := by
    intro l
    rw [labels_perm hperm]
    simp [labels]
  have hlab' : ∀ l, l ∈ labels (others ++ [(r, out)]) ↔ l ∈ labels others ∨ l ∈ out := by
    intro l; simp [labels]
  have hrd : ∀ l ∈ out, ldim (r, out) l = match fdim fd l with
      | some d => d
      | none => if l ∈ A.2 then (if l ∈ B.2 then min (ldim A l) (ldim B l) else ldim A l) else ldim B l := by
    intro l hl
    unfold ldim
    simp only
    rw [c2, dimIn_map _ hl, cdim_step da db ((om l).1 hl).1]
    rfl
  refine ⟨?_, ?_, ?_, ?_, ?_, ?_, ?_⟩
  · intro q hq
    rcases List.mem_append.1 hq with hq | hq
    · exact hst q (hmo q hq)
    · rw [List.mem_singleton] at hq; subst hq
      exact ⟨c3, by simp only; rw [c2, List.length_map], c1, os⟩
  · intro l hl
    rw [hlab]
    rcases (hlab' l).1 hl with h | h
    · exact Or.inr (Or.inr h)
    · rcases ((om l).1 h).1 with h | h
      · exact Or.inl h
      · exact Or.inr (Or.inl h)
  · intro l hl hl2
    rw [hlab']
    rcases (hlab l).1 hl2 with h | h | h
    · exact Or.inr ((om l).2 ⟨Or.inl h, Or.inr hl⟩)
    · exact Or.inr ((om l).2 ⟨Or.inr h, Or.inr hl⟩)
    · exact Or.inl h
  · intro l hn q hq hl
    rcases List.mem_append.1 hq with hq | hq
    · exact hM2 l hn q (hmo q hq) hl
    · rw [List.mem_singleton] at hq; subst hq
      rw [hrd l hl, hn]
      dsimp only
      have hab := ((om l).1 hl).1
      split_ifs with h1 h2
      · exact (min_le_left _ _).trans (hM2 l hn A hmA h1)
      · exact hM2 l hn A hmA h1
      · exact hM2 l hn B hmB (hab.resolve_left h1)
  · intro l hl hn d hd
    -- the label survives, so if it is in `A` or `B` it is in the result
    have hin : l ∈ A.2 ∨ l ∈ B.2 → l ∈ out := by
      intro h
      refine (om l).2 ⟨h, ?_⟩
      rcases (hlab' l).1 hl with h' | h'
      · exact Or.inl h'
      · exact ((om l).1 h').2
    constructor
    · obtain ⟨q, hq, hlq, rfl⟩ := hd.1
      rcases List.mem_cons.1 (hperm.mem_iff.1 hq) with rfl | hq'
      · -- the minimum is in A
        refine ⟨(r, out), by simp, hin (Or.inl hlq), ?_⟩
        rw [hrd l (hin (Or.inl hlq)), hn]
        dsimp only
        rw [if_pos hlq]
        split_ifs with hb
        · exact (min_eq_left (hd.2 ⟨B, hmB, hb, rfl⟩)).symm
        · rfl
      rcases List.mem_cons.1 hq' with rfl | hq'
      · refine ⟨(r, out), by simp, hin (Or.inr hlq), ?_⟩
        rw [hrd l (hin (Or.inr hlq)), hn]
        dsimp only
        split_ifs with ha
        · exact (min_eq_right (hd.2 ⟨A, hmA, ha, rfl⟩)).symm
        · rfl
      · exact ⟨q, List.mem_append_left _ hq', hlq, rfl⟩
    · rintro x ⟨q, hq, hlq, rfl⟩
      rcases List.mem_append.1 hq with hq | hq
      · exact hd.2 ⟨q, hmo q hq, hlq, rfl⟩
      · rw [List.mem_singleton] at hq; subst hq
        rw [hrd l hlq, hn]
        dsimp only
        have hab := ((om l).1 hlq).1
        split_ifs with h1 h2
        · exact le_min (hd.2 ⟨A, hmA, h1, rfl⟩) (hd.2 ⟨B, hmB, h2, rfl⟩)
        · exact hd.2 ⟨A, hmA, h1, rfl⟩
        · exact hd.2 ⟨B, hmB, hab.resolve_left h1, rfl⟩
  · intro σ hσ
    set T := summed A.2 B.2 out with hT
    have hTn : T.Nodup := nodup_summed hA.nodup hB.nodup
    have hTm : ∀ l, l ∈ T ↔ (l ∈ A.2 ∨ l ∈ B.2) ∧ l ∉ labels others ∧ l ∉ output := by
      intro l
      rw [hT, mem_summed, om]
      constructor
      · rintro ⟨h1, h2⟩
        exact ⟨h1, fun h => h2 ⟨h1, Or.inl h⟩, fun h => h2 ⟨h1, Or.inr h⟩⟩
      · rintro ⟨h1, h2, h3⟩
        exact ⟨h1, fun h => h.2.elim h2 h3⟩
    have hST : (openLabels st output).Perm (openLabels (others ++ [(r, out)]) output ++ T) := by
      rw [List.perm_ext_iff_of_nodup (nodup_open _ _)]
      · intro l
        rw [mem_open, List.mem_append, mem_open, hlab, hlab', hTm, om]
        tauto
      · rw [List.nodup_append]
        refine ⟨nodup_open _ _, hTn, ?_⟩
        rintro l hl m hm rfl
        have h1 := (mem_open.1 hl).1
        have h2 := (hTm l).1 hm
        rcases (hlab' l).1 h1 with h | h
        · exact h2.2.1 h
        · rcases ((om l).1 h).2 with h | h
          · exact h2.2.1 h
          · exact h2.2.2 h
    rw [sumOver_perm hST (nodup_open _ _), sumOver_append]
    refine sumOver_congr (nodup_open _ _) fun τ t1 t2 => ?_
    -- below `M` on all labels that are not summed in this step
    have htM : ∀ l, l ∈ A.2 ∨ l ∈ B.2 → l ∉ T → τ l < M l := by
      intro l hl hlT
      have hlo : l ∈ labels others ∨ l ∈ output := by
        by_contra hcon
        push Not at hcon
        exact hlT ((hTm l).2 ⟨hl, hcon⟩)
      by_cases ho : l ∈ output
      · rw [t1 l (fun h' => (mem_open.1 h').2 ho)]
        exact hσ l ho ((hlab l).2 (by tauto))
      · exact t2 l (mem_open.2 ⟨(hlab' l).2 (Or.inl (hlo.resolve_right ho)), ho⟩)
    have e1 : prodAt (others ++ [(r, out)]) τ = r.entry (out.map τ) * prodAt others τ := by
      unfold prodAt; rw [List.map_append, List.prod_append]; simp [mul_comm]
    have e2 : ∀ τ', prodAt st τ' = (A.1.entry (A.2.map τ') * B.1.entry (B.2.map τ')) * prodAt others τ' := by
      intro τ'; rw [prodAt_perm hperm]; unfold prodAt; simp [mul_assoc]
    rw [e1, show prodAt st = fun τ' => (A.1.entry (A.2.map τ') * B.1.entry (B.2.map τ')) * prodAt others τ' from funext e2]
    rw [sumOver_mul hTn fun τ' h' => prodAt_congr fun l hl => h' l fun hlT => ((hTm l).1 hlT).2.1 hl]
    congr 1
    have hMd : ∀ l ∈ T, cdim a' b' A.2 B.2 l ≤ M l := by
      intro l hl
      have hab := ((hTm l).1 hl).1
      rw [cdim_step da db hab]
      cases hf : fdim fd l with
      | some d => exact (hM1 l d hf).ge
      | none =>
        dsimp only
        split_ifs with h1 h2
        · exact (min_le_left _ _).trans (hM2 l hf A hmA h1)
        · exact hM2 l hf A hmA h1
        · exact hM2 l hf B hmB (hab.resolve_left h1)
    rw [contract_val hr M hMd τ]
    refine sumOver_congr hTn fun τ' s1 s2 => ?_
    have hlt : ∀ l, l ∈ A.2 ∨ l ∈ B.2 → τ' l < M l := by
      intro l hl
      by_cases hlT : l ∈ T
      · exact s2 l hlT
      · rw [s1 l hlT]; exact htM l hl hlT
    rw [ea, eb]
    by_cases hz : A.1.entry (A.2.map τ') * B.1.entry (B.2.map τ') = 0
    · rw [hz]
      rcases mul_eq_zero.1 hz with h0 | h0 <;> rw [h0] <;> simp
    · have iA : ∀ l ∈ A.2, τ' l < ldim A l := by
        refine (inB_lab hA.nodup hA.len τ').1 ?_
        by_contra h'; exact hz (by rw [Arr.entry_of_not h', zero_mul])
      have iB : ∀ l ∈ B.2, τ' l < ldim B l := by
        refine (inB_lab hB.nodup hB.len τ').1 ?_
        by_contra h'; exact hz (by rw [Arr.entry_of_not h', mul_zero])
      rw [if_pos, if_pos]
      · intro l hl hs
        unfold sdim
        rw [if_neg (by simp [hs])]
        cases hf : fdim fd l with
        | some d => dsimp only; rw [← hM1 l d hf]; exact hlt l (Or.inr hl)
        | none => dsimp only; split_ifs with h'
                  · exact lt_min (iB l hl) (iA l h')
                  · exact iB l hl
      · intro l hl hs
        unfold sdim
        rw [if_neg (by simp [hs])]
        cases hf : fdim fd l with
        | some d => dsimp only; rw [← hM1 l d hf]; exact hlt l (Or.inl hl)
        | none => dsimp only; split_ifs with h'
                  · exact lt_min (iA l hl) (iB l h')
                  · exact iA l hl
  · refine ⟨others, (r, out), rfl, fun l hl => (((om l).1 hl).2).symm, fun l hl d hd => ?_⟩
    rw [hrd l hl, hd]

end Verif.Arr
