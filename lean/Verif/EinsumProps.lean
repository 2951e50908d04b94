import Verif.Einsum

/-!
# `mm_einsum` on Fock arrays does not depend on the path (C15)
-/

namespace Verif.Arr

open Verif.Fock Verif.PolyExp

/-- A labelled array: distinct labels, one per axis. -/
structure LWF (p : Arr × List Lab) : Prop where
  nodup : p.2.Nodup
  len : p.2.length = p.1.shape.length
  bd : p.1.batchDims = (strs p.2).length
  std : norm p.2 = p.2

theorem dimIn_map {idx : List Lab} (D : Lab → ℕ) {l : Lab} (h : l ∈ idx) : dimIn idx (idx.map D) l = D l := by
  have := List.idxOf_lt_length_of_mem h
  unfold dimIn
  rw [List.getD_eq_getElem?_getD, List.getElem?_map, List.getElem?_eq_getElem this]
  simp

theorem shape_eq_map {idx : List Lab} {s : List ℕ} (hn : idx.Nodup) (h : idx.length = s.length) : s = idx.map (dimIn idx s) := by
  apply List.ext_getElem (by simp [h])
  intro i h1 h2
  simp only [List.length_map] at h2
  rw [List.getElem_map]
  unfold dimIn
  rw [hn.idxOf_getElem i h2, List.getD_eq_getElem?_getD, List.getElem?_eq_getElem h1]
  rfl

theorem inB_map {idx : List Lab} {D σ : Lab → ℕ} : InB (idx.map D) (idx.map σ) ↔ ∀ l ∈ idx, σ l < D l := by
  induction idx with
  | nil => simp [InB]
  | cons l idx ih => rw [List.map_cons, List.map_cons, InB, List.forall₂_cons]; simp only [List.forall_mem_cons]; exact and_congr Iff.rfl ih

theorem inB_lab {a : Arr} {idx : List Lab} (hn : idx.Nodup) (h : idx.length = a.shape.length) (σ : Lab → ℕ) :
    InB a.shape (idx.map σ) ↔ ∀ l ∈ idx, σ l < dimIn idx a.shape l := by
  conv_lhs => rw [shape_eq_map hn h]
  exact inB_map

theorem assign_map {out : List Lab} {σ : Lab → ℕ} {l : Lab} (h : l ∈ out) : assign out (out.map σ) l = σ l := by
  have := List.idxOf_lt_length_of_mem h
  unfold assign
  rw [List.getD_eq_getElem?_getD, List.getElem?_map, List.getElem?_eq_getElem this]
  simp

theorem mem_summed {i1 i2 out : List Lab} {l : Lab} : l ∈ summed i1 i2 out ↔ (l ∈ i1 ∨ l ∈ i2) ∧ l ∉ out := by
  simp only [summed, List.mem_filter, List.mem_append, decide_eq_true_eq]
  by_cases h : l ∈ i1 <;> simp [h]

theorem nodup_summed {i1 i2 out : List Lab} (h1 : i1.Nodup) (h2 : i2.Nodup) : (summed i1 i2 out).Nodup := by
  refine List.Nodup.filter _ ?_
  rw [List.nodup_append]
  refine ⟨h1, h2.filter _, ?_⟩
  rintro l hl m hm rfl
  simp at hm
  exact hm.2 hl

theorem map_congr_mem {idx : List Lab} {τ τ' : Lab → ℕ} (h : ∀ l ∈ idx, τ l = τ' l) : idx.map τ = idx.map τ' := List.map_congr_left h

/-- The value of a contraction: the sum over the labels that disappear, of the product of the arrays continued by zero. -/
theorem contract_val {a b r : Arr} {i1 i2 out : List Lab} (h : contract a b i1 i2 out = some r) (M : Lab → ℕ)
    (hM : ∀ l ∈ summed i1 i2 out, cdim a b i1 i2 l ≤ M l) (σ : Lab → ℕ) :
    r.entry (out.map σ) = sumOver M (summed i1 i2 out) (fun τ => a.entry (i1.map τ) * b.entry (i2.map τ)) σ := by
  unfold contract at h
  split_ifs at h with h1 h2 h3
  push Not at h1
  obtain ⟨n1, n2, n3⟩ := h3
  cases h
  set D := cdim a b i1 i2 with hD
  have hS := nodup_summed (out := out) n1 n2
  -- outside the common range the product vanishes
  have hz : ∀ τ : Lab → ℕ, (∃ l, (l ∈ i1 ∨ l ∈ i2) ∧ D l ≤ τ l) → a.entry (i1.map τ) * b.entry (i2.map τ) = 0 := by
    rintro τ ⟨l, hl, hle⟩
    by_contra hne
    have ha : InB a.shape (i1.map τ) := by
      by_contra h'; exact hne (by rw [Arr.entry_of_not h', zero_mul])
    have hb : InB b.shape (i2.map τ) := by
      by_contra h'; exact hne (by rw [Arr.entry_of_not h', mul_zero])
    rw [inB_lab n1 h1.1] at ha
    rw [inB_lab n2 h1.2] at hb
    simp only [hD, cdim] at hle
    split_ifs at hle with c1 c2
    · have := ha l c1; have := hb l c2; omega
    · have := ha l c1; omega
    · have := hb l (hl.resolve_left c1); omega
  -- inside it, the entries are the entries
  have hin : ∀ τ : Lab → ℕ, (∀ l, l ∈ i1 ∨ l ∈ i2 → τ l < D l) → a.get (i1.map τ) * b.get (i2.map τ) = a.entry (i1.map τ) * b.entry (i2.map τ) := by
    intro τ hτ
    have ha : InB a.shape (i1.map τ) := by
      rw [inB_lab n1 h1.1]
      intro l hl
      have := hτ l (Or.inl hl)
      simp only [hD, cdim, if_pos hl] at this
      split_ifs at this <;> omega
    have hb : InB b.shape (i2.map τ) := by
      rw [inB_lab n2 h1.2]
      intro l hl
      have := hτ l (Or.inr hl)
      simp only [hD, cdim, if_pos hl] at this
      split_ifs at this <;> omega
    rw [Arr.entry_of_inB ha, Arr.entry_of_inB hb]
  rw [Arr.entry_mk]
  split_ifs with hb <;> rw [inB_map] at hb
  · rw [sumOver_base (σ' := σ) (fun l => l ∈ i1 ∨ l ∈ i2)]
    · rw [sumOver_congr (G := fun τ => a.entry (i1.map τ) * b.entry (i2.map τ)) hS]
      · refine sumOver_mono hS hM fun τ _ _ hl => hz τ ?_
        obtain ⟨l, hl, hle⟩ := hl
        exact ⟨l, (mem_summed.1 hl).1, hle⟩
      · intro τ t1 t2
        refine hin τ fun l hl => ?_
        by_cases ho : l ∈ out
        · rw [t1 l (fun h' => (mem_summed.1 h').2 ho)]; exact hb l ho
        · exact t2 l (mem_summed.2 ⟨hl, ho⟩)
    · intro τ τ' h'
      rw [map_congr_mem fun l hl => h' l (Or.inl hl), map_congr_mem fun l hl => h' l (Or.inr hl)]
    · intro l hl hs
      have : l ∈ out := by
        by_contra ho; exact hs (mem_summed.2 ⟨hl, ho⟩)
      exact assign_map this
  · push Not at hb
    obtain ⟨l, hl, hle⟩ := hb
    symm
    refine sumOver_zero hS fun τ t1 _ => hz τ ⟨l, ?_, ?_⟩
    · simpa using h2 l hl
    · rw [t1 l (fun h' => (mem_summed.1 h').2 hl)]; exact hle

/-! ### `prepare_idx_out` -/

theorem foldl_keep {P : Lab → Prop} [DecidablePred P] : ∀ (L acc : List Lab),
    let r := L.foldl (fun acc x => if P x ∧ x ∉ acc then acc ++ [x] else acc) acc
    (acc.Nodup → r.Nodup) ∧ (∀ x, x ∈ r ↔ x ∈ acc ∨ (x ∈ L ∧ P x)) ∧ ∃ t, r = acc ++ t ∧ t.Sublist L
  | [], acc => ⟨id, by simp, [], by simp⟩
  | y :: L, acc => by
    dsimp only [List.foldl_cons]
    by_cases h : P y ∧ y ∉ acc
    · rw [if_pos h]
      obtain ⟨i1, i2, t, i3, i4⟩ := foldl_keep (P := P) L (acc ++ [y])
      refine ⟨fun hn => i1 ?_, fun x => ?_, y :: t, by rw [i3]; simp, i4.cons_cons y⟩
      · rw [List.nodup_append]
        refine ⟨hn, by simp, ?_⟩
        rintro a ha b hb rfl
        simp at hb; subst hb; exact h.2 ha
      · rw [i2]
        simp only [List.mem_append, List.mem_cons, List.not_mem_nil, or_false]
        constructor
        · rintro ((h1 | rfl) | ⟨h1, h2⟩)
          · exact Or.inl h1
          · exact Or.inr ⟨Or.inl rfl, h.1⟩
          · exact Or.inr ⟨Or.inr h1, h2⟩
        · rintro (h1 | ⟨rfl | h1, h2⟩)
          · exact Or.inl (Or.inl h1)
          · exact Or.inl (Or.inr rfl)
          · exact Or.inr ⟨h1, h2⟩
    · rw [if_neg h]
      obtain ⟨i1, i2, t, i3, i4⟩ := foldl_keep (P := P) L acc
      refine ⟨i1, fun x => ?_, t, i3, i4.cons y⟩
      rw [i2]
      simp only [List.mem_cons]
      constructor
      · rintro (h1 | ⟨h1, h2⟩)
        · exact Or.inl h1
        · exact Or.inr ⟨Or.inr h1, h2⟩
      · rintro (h1 | ⟨rfl | h1, h2⟩)
        · exact Or.inl h1
        · left; by_contra h'; exact h ⟨h2, h'⟩
        · exact Or.inr ⟨h1, h2⟩

theorem prepare_spec (others : List (List Lab)) (ia ib output : List Lab) :
    (prepareIdxOut others ia ib output).Nodup ∧
    (∀ x, x ∈ prepareIdxOut others ia ib output ↔ (x ∈ ia ∨ x ∈ ib) ∧ (x ∈ others.flatten ∨ x ∈ output)) ∧
    norm (prepareIdxOut others ia ib output) = prepareIdxOut others ia ib output := by
  obtain ⟨h1, h2, t, h3, h4⟩ := foldl_keep (P := fun x => x ∈ others.flatten ∨ x ∈ output) (strs ia ++ strs ib ++ (ints ia ++ ints ib)) []
  refine ⟨h1 List.nodup_nil, fun x => ?_, ?_⟩
  · unfold prepareIdxOut
    rw [h2]
    have : x ∈ strs ia ++ strs ib ++ (ints ia ++ ints ib) ↔ x ∈ ia ∨ x ∈ ib := by
      simp only [strs, ints, List.mem_append, List.mem_filter]
      cases x.isStr <;> simp
    rw [this]; simp
  · have e : prepareIdxOut others ia ib output = t := by unfold prepareIdxOut; rw [h3]; rfl
    rw [e]
    obtain ⟨t1, t2, rfl, s1, s2⟩ := List.sublist_append_iff.1 h4
    have a1 : ∀ x ∈ t1, x.isStr = true := by
      intro x hx
      have := s1.subset hx
      simp only [strs, List.mem_append, List.mem_filter] at this
      rcases this with h | h <;> exact h.2
    have a2 : ∀ x ∈ t2, x.isStr = false := by
      intro x hx
      have := s2.subset hx
      simp only [ints, List.mem_append, List.mem_filter, Bool.not_eq_true'] at this
      rcases this with h | h <;> exact h.2
    unfold norm strs ints
    rw [List.filter_append, List.filter_append, List.filter_eq_self.2 a1, List.filter_eq_nil_iff.2 (by simpa using a2),
      List.filter_eq_nil_iff.2 (by simpa using a1), List.filter_eq_self.2 (by simpa using a2)]
    simp

end Verif.Arr
