import Verif.FastDiag
import Mathlib.Data.List.Forall2
import Mathlib.Tactic.Linarith

/-!
# The fast diagonal strategy: which coordinates are enumerated
-/

namespace Verif.FastDiag
open Verif.Fock

/-- The coordinates the strategy works with: pairs within the cutoffs, whose entries differ by at most
two, and by two in at most one pair. -/
structure Diag (m k : List ℕ) : Prop where
  len : k.length = 2 * m.length
  bound : ∀ i, i < m.length → k.getD (2 * i) 0 ≤ m.getD i 0 ∧ k.getD (2 * i + 1) 0 ≤ m.getD i 0
  close : ∀ i, i < m.length → dl k i ≤ 2
  once : ∀ i j, i < m.length → j < m.length → dl k i = 2 → dl k j = 2 → i = j

theorem mem_genPart (m : List ℕ) (hm : m ≠ []) (w : ℕ) (p : List ℕ) :
    p ∈ genPart w m ↔ List.Forall₂ (· ≤ ·) p m ∧ p.sum = w := by
  induction m generalizing w p with
  | nil => exact absurd rfl hm
  | cons a m ih =>
    cases m with
    | nil =>
      simp only [genPart]
      constructor
      · intro h
        split_ifs at h with hw
        · simp only [List.mem_singleton] at h
          subst h
          simpa using hw
        · simp at h
      · rintro ⟨h, hs⟩
        cases h with
        | cons h1 h2 =>
          cases h2
          simp only [List.sum_cons, List.sum_nil, add_zero] at hs
          subst hs
          simp [h1]
    | cons a' m =>
      simp only [genPart, List.mem_flatMap, List.mem_reverse, List.mem_range, List.mem_map]
      constructor
      · rintro ⟨x, hx, q, hq, rfl⟩
        rw [ih (by simp)] at hq
        refine ⟨List.Forall₂.cons (by omega) hq.1, ?_⟩
        rw [List.sum_cons, hq.2]
        omega
      · rintro ⟨h, hs⟩
        cases h with
        | @cons x _ q _ h1 h2 =>
          rw [List.sum_cons] at hs
          refine ⟨x, by omega, q, ?_, rfl⟩
          rw [ih (by simp)]
          exact ⟨h2, by omega⟩

theorem mem_prodL {α : Type} (ls : List (List α)) (p : List α) :
    p ∈ prodL ls ↔ List.Forall₂ (· ∈ ·) p ls := by
  induction ls generalizing p with
  | nil => simp [prodL]
  | cons l ls ih =>
    simp only [prodL, List.mem_flatMap, List.mem_map]
    constructor
    · rintro ⟨x, hx, q, hq, rfl⟩
      exact List.Forall₂.cons hx ((ih q).mp hq)
    · intro h
      cases h with
      | @cons x _ q _ h1 h2 => exact ⟨x, h1, q, (ih q).mpr h2, rfl⟩

theorem length_flat (ps : List (ℕ × ℕ)) : (flat ps).length = 2 * ps.length := by
  induction ps with
  | nil => rfl
  | cons p ps ih =>
    have : flat (p :: ps) = p.1 :: p.2 :: flat ps := rfl
    rw [this, List.length_cons, List.length_cons, List.length_cons, ih]
    omega

theorem flat_getD (ps : List (ℕ × ℕ)) (i : ℕ) :
    (flat ps).getD (2 * i) 0 = (ps.getD i (0, 0)).1 ∧ (flat ps).getD (2 * i + 1) 0 = (ps.getD i (0, 0)).2 := by
  induction ps generalizing i with
  | nil => simp [flat]
  | cons p ps ih =>
    have : flat (p :: ps) = p.1 :: p.2 :: flat ps := rfl
    rw [this]
    cases i with
    | zero => simp
    | succ i =>
      rw [show 2 * (i + 1) = 2 * i + 1 + 1 by ring]
      simp only [List.getD_cons_succ]
      exact ih i

theorem flat_sum (ps : List (ℕ × ℕ)) : (flat ps).sum = (ps.map fun p => p.1 + p.2).sum := by
  induction ps with
  | nil => rfl
  | cons p ps ih =>
    have : flat (p :: ps) = p.1 :: p.2 :: flat ps := rfl
    rw [this, List.sum_cons, List.sum_cons, List.map_cons, List.sum_cons, ih]
    omega

/-- Every list of even length is a flattened list of pairs. -/
theorem exists_flat (n : ℕ) (k : List ℕ) (h : k.length = 2 * n) : ∃ ps : List (ℕ × ℕ), ps.length = n ∧ flat ps = k := by
  induction n generalizing k with
  | zero => exact ⟨[], rfl, by rw [List.length_eq_zero_iff.mp h]; rfl⟩
  | succ n ih =>
    match k, h with
    | a :: b :: k, h =>
      simp only [List.length_cons] at h
      obtain ⟨ps, h1, h2⟩ := ih k (by omega)
      exact ⟨(a, b) :: ps, by simp [h1], by rw [← h2]; rfl⟩

/-- The same condition on pairs. -/
structure PDiag (m : List ℕ) (ps : List (ℕ × ℕ)) : Prop where
  len : ps.length = m.length
  bound : ∀ i, i < m.length → (ps.getD i (0, 0)).1 ≤ m.getD i 0 ∧ (ps.getD i (0, 0)).2 ≤ m.getD i 0
  close : ∀ i, i < m.length → (((ps.getD i (0, 0)).1 : ℤ) - ((ps.getD i (0, 0)).2 : ℤ)).natAbs ≤ 2
  once : ∀ i j, i < m.length → j < m.length →
    (((ps.getD i (0, 0)).1 : ℤ) - ((ps.getD i (0, 0)).2 : ℤ)).natAbs = 2 →
    (((ps.getD j (0, 0)).1 : ℤ) - ((ps.getD j (0, 0)).2 : ℤ)).natAbs = 2 → i = j

theorem dl_flat (ps : List (ℕ × ℕ)) (i : ℕ) :
    dl (flat ps) i = (((ps.getD i (0, 0)).1 : ℤ) - ((ps.getD i (0, 0)).2 : ℤ)).natAbs := by
  unfold dl
  rw [(flat_getD ps i).1, (flat_getD ps i).2]

theorem diag_flat (m : List ℕ) (ps : List (ℕ × ℕ)) : Diag m (flat ps) ↔ PDiag m ps := by
  constructor
  · intro h
    have hl := h.len
    rw [length_flat] at hl
    refine ⟨by omega, ?_, ?_, ?_⟩
    · intro i hi
      have := h.bound i hi
      rwa [(flat_getD ps i).1, (flat_getD ps i).2] at this
    · intro i hi
      have := h.close i hi
      rwa [dl_flat] at this
    · intro i j hi hj
      have := h.once i j hi hj
      rwa [dl_flat, dl_flat] at this
  · intro h
    refine ⟨by rw [length_flat, h.len], ?_, ?_, ?_⟩
    · intro i hi
      rw [(flat_getD ps i).1, (flat_getD ps i).2]
      exact h.bound i hi
    · intro i hi
      rw [dl_flat]
      exact h.close i hi
    · intro i j hi hj
      rw [dl_flat, dl_flat]
      exact h.once i j hi hj

theorem mem_nonDelta2 (s M : ℕ) (p : ℕ × ℕ) :
    p ∈ nonDelta2 s M ↔ p.1 + p.2 = s ∧ p.1 ≤ M ∧ p.2 ≤ M ∧ ((p.1 : ℤ) - (p.2 : ℤ)).natAbs ≤ 1 := by
  obtain ⟨x, y⟩ := p
  unfold nonDelta2
  split_ifs with h1 h2 h2
  · simp only [List.mem_singleton, Prod.mk.injEq]; omega
  · simp only [List.not_mem_nil, false_iff]; omega
  · simp only [List.mem_cons, Prod.mk.injEq, List.not_mem_nil, or_false]; omega
  · simp only [List.not_mem_nil, false_iff]; omega

theorem mem_delta2 (s M : ℕ) (p : ℕ × ℕ) :
    p ∈ delta2 s M ↔ p.1 + p.2 = s ∧ p.1 ≤ M ∧ p.2 ≤ M ∧ ((p.1 : ℤ) - (p.2 : ℤ)).natAbs = 2 := by
  obtain ⟨x, y⟩ := p
  unfold delta2
  split_ifs with h1 h2
  · simp only [List.mem_cons, Prod.mk.injEq, List.not_mem_nil, or_false]; omega
  · simp only [List.not_mem_nil, false_iff]; omega
  · simp only [List.not_mem_nil, false_iff]; omega

theorem forall2_getD {α β : Type} {R : α → β → Prop} {l : List α} {l' : List β} (da : α) (db : β) :
    List.Forall₂ R l l' ↔ l.length = l'.length ∧ ∀ i, i < l'.length → R (l.getD i da) (l'.getD i db) := by
  rw [List.forall₂_iff_get]
  constructor
  · rintro ⟨h, h'⟩
    refine ⟨h, fun i hi => ?_⟩
    have := h' i (by omega) hi
    rw [List.getD_eq_getElem _ _ (by omega), List.getD_eq_getElem _ _ hi]
    exact this
  · rintro ⟨h, h'⟩
    refine ⟨h, fun i hi hi' => ?_⟩
    have := h' i hi'
    rwa [List.getD_eq_getElem _ _ hi, List.getD_eq_getElem _ _ hi'] at this

theorem zipWith_getD (f : ℕ → ℕ → List (ℕ × ℕ)) (p m : List ℕ) (h : p.length = m.length) (i : ℕ)
    (hi : i < m.length) : (List.zipWith f p m).getD i [] = f (p.getD i 0) (m.getD i 0) := by
  rw [List.getD_eq_getElem _ _ (by simp; omega), List.getElem_zipWith, List.getD_eq_getElem _ _ (by omega),
    List.getD_eq_getElem _ _ hi]

theorem options_getD (l : List (List (ℕ × ℕ))) (d : List (ℕ × ℕ)) (i : ℕ) (hi : i < l.length) :
    (l.take i ++ [d] ++ l.drop (i + 1)).length = l.length ∧
    ∀ j, j < l.length → (l.take i ++ [d] ++ l.drop (i + 1)).getD j [] = if j = i then d else l.getD j [] := by
  have : l.take i ++ [d] ++ l.drop (i + 1) = l.set i d := by
    rw [List.set_eq_take_append_cons_drop, if_pos hi]
    simp
  rw [this]
  refine ⟨by simp, fun j hj => ?_⟩
  rw [List.getD_eq_getElem _ _ (by simpa using hj), List.getElem_set, List.getD_eq_getElem _ _ hj]
  by_cases h : j = i
  · rw [if_pos h.symm, if_pos h]
  · rw [if_neg (Ne.symm h), if_neg h]

/-- `enumerate_diagonal_coords` enumerates exactly the coordinates described in its docstring that lie
within the cutoffs. -/
theorem mem_enumCoords (m : List ℕ) (hm : m ≠ []) (w : ℕ) (k : List ℕ) :
    k ∈ enumCoords w m ↔ Diag m k ∧ k.sum = w := by
  have hm2 : m.map (2 * ·) ≠ [] := by simpa using hm
  have hg2 : ∀ i, (m.map (2 * ·)).getD i 0 = 2 * m.getD i 0 := fun i => by
    by_cases hi : i < m.length
    · rw [List.getD_eq_getElem _ _ (by simpa using hi), List.getElem_map, List.getD_eq_getElem _ _ hi]
    · rw [List.getD_eq_default _ _ (by simpa using hi), List.getD_eq_default _ _ (by omega)]
  unfold enumCoords
  simp only [List.mem_flatMap, mem_genPart _ hm2, List.mem_append, List.mem_range, List.mem_map, mem_prodL]
  constructor
  · rintro ⟨part, ⟨hp, hs⟩, h⟩
    rw [forall2_getD 0 0, List.length_map] at hp
    obtain ⟨hpl, hpb⟩ := hp
    -- a chosen pair list with the right sums, at most one of them differing by two
    have key : ∀ ps : List (ℕ × ℕ), ps.length = m.length →
        (∀ i, i < m.length → (ps.getD i (0, 0)).1 + (ps.getD i (0, 0)).2 = part.getD i 0) →
        (flat ps).sum = w := by
      intro ps hl hsum
      rw [flat_sum, ← hs]
      congr 1
      apply List.ext_getElem
      · simp [hl, hpl]
      · intro i h1 h2
        have hi : i < m.length := by omega
        have := hsum i hi
        rw [List.getD_eq_getElem _ _ (by omega), List.getD_eq_getElem _ _ (by omega)] at this
        rw [List.getElem_map]
        exact this
    rcases h with ⟨i, hi, ps, hps, rfl⟩ | ⟨ps, hps, rfl⟩
    · have hlz : (List.zipWith nonDelta2 part m).length = m.length := by simp; omega
      obtain ⟨ho1, ho2⟩ := options_getD (List.zipWith nonDelta2 part m)
        ((List.zipWith delta2 part m).getD i []) i (by omega)
      rw [forall2_getD (0, 0) [], ho1, hlz] at hps
      obtain ⟨hl, hps⟩ := hps
      have hP : ∀ j, j < m.length → (ps.getD j (0, 0)).1 + (ps.getD j (0, 0)).2 = part.getD j 0 ∧
          (ps.getD j (0, 0)).1 ≤ m.getD j 0 ∧ (ps.getD j (0, 0)).2 ≤ m.getD j 0 ∧
          (((ps.getD j (0, 0)).1 : ℤ) - ((ps.getD j (0, 0)).2 : ℤ)).natAbs ≤ (if j = i then 2 else 1) := by
        intro j hj
        have := hps j hj
        rw [ho2 j (by omega)] at this
        split_ifs at this ⊢ with hji
        · subst hji
          rw [zipWith_getD _ _ _ hpl _ hj, mem_delta2] at this
          omega
        · rw [zipWith_getD _ _ _ hpl _ hj, mem_nonDelta2] at this
          exact this
      refine ⟨(diag_flat m ps).mpr ⟨hl, fun j hj => ⟨(hP j hj).2.1, (hP j hj).2.2.1⟩, ?_, ?_⟩,
        key ps hl fun j hj => (hP j hj).1⟩
      · intro j hj
        have := (hP j hj).2.2.2
        split_ifs at this <;> omega
      · intro a b ha hb h1 h2
        have ha' := (hP a ha).2.2.2
        have hb' := (hP b hb).2.2.2
        split_ifs at ha' hb' <;> omega
    · rw [forall2_getD (0, 0) []] at hps
      obtain ⟨hl, hps⟩ := hps
      have hlz : (List.zipWith nonDelta2 part m).length = m.length := by simp; omega
      rw [hlz] at hl hps
      have hP := fun j (hj : j < m.length) => by
        have := hps j hj
        rwa [zipWith_getD _ _ _ hpl _ hj, mem_nonDelta2] at this
      refine ⟨(diag_flat m ps).mpr ⟨hl, fun j hj => ⟨(hP j hj).2.1, (hP j hj).2.2.1⟩, ?_, ?_⟩,
        key ps hl fun j hj => (hP j hj).1⟩
      · intro j hj
        have := (hP j hj).2.2.2
        omega
      · intro a b ha hb h1 h2
        have ha' := (hP a ha).2.2.2
        omega
  · rintro ⟨hd, hs⟩
    obtain ⟨ps, hl, rfl⟩ := exists_flat m.length k hd.len
    rw [diag_flat] at hd
    have hpl : (ps.map fun p => p.1 + p.2).length = m.length := by simp [hl]
    have hpg : ∀ i, i < m.length →
        (ps.map fun p => p.1 + p.2).getD i 0 = (ps.getD i (0, 0)).1 + (ps.getD i (0, 0)).2 := fun i hi => by
      rw [List.getD_eq_getElem _ _ (by omega), List.getElem_map, List.getD_eq_getElem _ _ (by omega)]
    refine ⟨ps.map fun p => p.1 + p.2, ⟨?_, by rw [← flat_sum, hs]⟩, ?_⟩
    · rw [forall2_getD 0 0]
      refine ⟨by simpa using hpl, fun i hi => ?_⟩
      rw [List.length_map] at hi
      rw [hg2, hpg i hi]
      have := hd.bound i hi
      omega
    · by_cases hex : ∃ i, i < m.length ∧ (((ps.getD i (0, 0)).1 : ℤ) - ((ps.getD i (0, 0)).2 : ℤ)).natAbs = 2
      · obtain ⟨i, hi, h2⟩ := hex
        left
        refine ⟨i, hi, ps, ?_, rfl⟩
        have hlz : (List.zipWith nonDelta2 (ps.map fun p => p.1 + p.2) m).length = m.length := by simp [hl]
        obtain ⟨ho1, ho2⟩ := options_getD (List.zipWith nonDelta2 (ps.map fun p => p.1 + p.2) m)
          ((List.zipWith delta2 (ps.map fun p => p.1 + p.2) m).getD i []) i (by omega)
        rw [forall2_getD (0, 0) [], ho1, hlz]
        refine ⟨hl, fun j hj => ?_⟩
        rw [ho2 j (by omega)]
        have hb := hd.bound j hj
        have hc := hd.close j hj
        split_ifs with hji
        · subst hji
          rw [zipWith_getD _ _ _ hpl _ hj, mem_delta2, hpg j hj]
          exact ⟨rfl, hb.1, hb.2, h2⟩
        · rw [zipWith_getD _ _ _ hpl _ hj, mem_nonDelta2, hpg j hj]
          refine ⟨rfl, hb.1, hb.2, ?_⟩
          exact Nat.lt_succ_iff.mp (lt_of_le_of_ne hc fun h => hji (hd.once j i hj hi h h2))
      · right
        refine ⟨ps, ?_, rfl⟩
        rw [forall2_getD (0, 0) []]
        have hlz : (List.zipWith nonDelta2 (ps.map fun p => p.1 + p.2) m).length = m.length := by simp [hl]
        rw [hlz]
        refine ⟨hl, fun j hj => ?_⟩
        have hb := hd.bound j hj
        have hc := hd.close j hj
        rw [zipWith_getD _ _ _ hpl _ hj, mem_nonDelta2, hpg j hj]
        refine ⟨rfl, hb.1, hb.2, ?_⟩
        exact Nat.lt_succ_iff.mp (lt_of_le_of_ne hc fun h => hex ⟨j, hj, h⟩)

end Verif.FastDiag
