import Verif.MixedAmp
import Verif.MixedStages

/-!
# Labels of a contraction of a Fock array with a Gaussian (for C111)
-/

namespace Verif.Mixed
open Verif.Fock Verif.Batch Verif.PolyExp PolyExp

/-- The labels of the core variables of the result, followed by those of the axes of the array. -/
def lab (co c1 : List ℕ) (v : ℕ) : ℕ := (co ++ c1).getD v 0

/-- The other variable with the same label. -/
def partner (co c1 : List ℕ) (v : ℕ) : ℕ := if v < co.length then co.length + c1.idxOf (co.getD v 0) else co.idxOf (c1.getD (v - co.length) 0)

/-- The labels of a pairwise contraction. -/
structure Labels (c1 c2 co : List ℕ) : Prop where
  n1 : c1.Nodup
  n2 : c2.Nodup
  out : co.Perm (c1.filter (· ∉ c2) ++ c2.filter (· ∉ c1))

variable {c1 c2 co : List ℕ}

theorem Labels.mem (H : Labels c1 c2 co) {l : ℕ} : l ∈ co ↔ (l ∈ c1 ∧ l ∉ c2) ∨ (l ∈ c2 ∧ l ∉ c1) := by
  rw [H.out.mem_iff, List.mem_append, List.mem_filter, List.mem_filter, decide_eq_true_eq, decide_eq_true_eq]

theorem Labels.n0 (H : Labels c1 c2 co) : co.Nodup := by
  refine H.out.nodup_iff.2 (List.nodup_append.2 ⟨H.n1.filter _, H.n2.filter _, ?_⟩)
  intro a ha b hb e
  rw [List.mem_filter, decide_eq_true_eq] at ha hb
  exact ha.2 (e ▸ hb.1)

theorem lab_lt {v : ℕ} (h : v < co.length) : lab co c1 v = co.getD v 0 := by
  unfold lab
  rw [List.getD_append _ _ _ _ h]

theorem lab_ge {j : ℕ} : lab co c1 (co.length + j) = c1.getD j 0 := by
  unfold lab
  rw [List.getD_append_right _ _ _ _ (by omega), Nat.add_sub_cancel_left]

theorem getD_mem' {l : List ℕ} {p : ℕ} (h : p < l.length) : l.getD p 0 ∈ l := by
  rw [List.getD_eq_getElem _ _ h]
  exact List.getElem_mem h

theorem layout (H : Labels c1 c2 co) : Layout (co.length + c1.length) c2.length (fun v => lab co c1 v ∈ c2) (fun v => c2.idxOf (lab co c1 v))
    (fun i => (co ++ c1).idxOf (c2.getD i 0)) (partner co c1) := by
  have hcase : ∀ v < co.length + c1.length, v < co.length ∨ ∃ j < c1.length, v = co.length + j := by
    intro v hv
    by_cases h : v < co.length
    · exact Or.inl h
    · exact Or.inr ⟨v - co.length, by omega, by omega⟩
  have hin : ∀ i < c2.length, c2.getD i 0 ∈ co ++ c1 := by
    intro i hi
    rw [List.mem_append, H.mem]
    have := getD_mem' hi
    tauto
  have hlab : ∀ i < c2.length, lab co c1 ((co ++ c1).idxOf (c2.getD i 0)) = c2.getD i 0 := fun i hi => PolyExp.getD_idxOf (hin i hi)
  have hpl : ∀ v < co.length, co.getD v 0 ∉ c2 → partner co c1 v = co.length + c1.idxOf (co.getD v 0) ∧ co.getD v 0 ∈ c1 := by
    intro v hv h
    refine ⟨if_pos hv, ?_⟩
    have := H.mem.1 (getD_mem' hv)
    tauto
  have hpr : ∀ j < c1.length, c1.getD j 0 ∉ c2 → partner co c1 (co.length + j) = co.idxOf (c1.getD j 0) ∧ c1.getD j 0 ∈ co := by
    intro j hj h
    refine ⟨?_, H.mem.2 (Or.inl ⟨getD_mem' hj, h⟩)⟩
    unfold partner
    rw [if_neg (by omega), Nat.add_sub_cancel_left]
  refine ⟨?_, ?_, ?_, ?_, ?_, ?_, ?_, ?_, ?_⟩
  · intro i hi
    have := List.idxOf_lt_length_of_mem (hin i hi)
    rwa [List.length_append] at this
  · intro i hi
    rw [hlab i hi]
    exact getD_mem' hi
  · intro i hi
    rw [hlab i hi]
    exact PolyExp.idxOf_getD H.n2 hi
  · intro v _ hG
    exact List.idxOf_lt_length_of_mem hG
  · intro v hv hG
    rw [PolyExp.getD_idxOf hG]
    rcases hcase v hv with h | ⟨j, hj, rfl⟩
    · rw [lab_lt h, List.idxOf_append_of_mem (getD_mem' h), PolyExp.idxOf_getD H.n0 h]
    · rw [lab_ge] at hG ⊢
      rw [List.idxOf_append_of_notMem (fun h => by
        have := H.mem.1 h
        have := getD_mem' hj
        tauto), PolyExp.idxOf_getD H.n1 hj]
  · intro v hv hG
    rcases hcase v hv with h | ⟨j, hj, rfl⟩
    · rw [lab_lt h] at hG
      obtain ⟨e, hm⟩ := hpl v h hG
      rw [e]
      have := List.idxOf_lt_length_of_mem hm
      omega
    · rw [lab_ge] at hG
      obtain ⟨e, hm⟩ := hpr j hj hG
      rw [e]
      have := List.idxOf_lt_length_of_mem hm
      omega
  · intro v hv hG
    rcases hcase v hv with h | ⟨j, hj, rfl⟩
    · rw [lab_lt h] at hG
      obtain ⟨e, hm⟩ := hpl v h hG
      rw [e, lab_ge, PolyExp.getD_idxOf hm]
      exact hG
    · rw [lab_ge] at hG
      obtain ⟨e, hm⟩ := hpr j hj hG
      rw [e, lab_lt (List.idxOf_lt_length_of_mem hm), PolyExp.getD_idxOf hm]
      exact hG
  · intro v hv hG
    rcases hcase v hv with h | ⟨j, hj, rfl⟩
    · rw [lab_lt h] at hG
      obtain ⟨e, hm⟩ := hpl v h hG
      rw [e]
      omega
    · rw [lab_ge] at hG
      obtain ⟨e, hm⟩ := hpr j hj hG
      rw [e]
      have := List.idxOf_lt_length_of_mem hm
      omega
  · intro v hv hG
    rcases hcase v hv with h | ⟨j, hj, rfl⟩
    · rw [lab_lt h] at hG
      obtain ⟨e, hm⟩ := hpl v h hG
      rw [e, (hpr _ (List.idxOf_lt_length_of_mem hm) (by rw [PolyExp.getD_idxOf hm]; exact hG)).1, PolyExp.getD_idxOf hm, PolyExp.idxOf_getD H.n0 h]
    · rw [lab_ge] at hG
      obtain ⟨e, hm⟩ := hpr j hj hG
      rw [e, (hpl _ (List.idxOf_lt_length_of_mem hm) (by rw [PolyExp.getD_idxOf hm]; exact hG)).1, PolyExp.getD_idxOf hm, PolyExp.idxOf_getD H.n1 hj]

/-- The quadratic form of the result, on the core variables and the axes of the array. -/
noncomputable def mixA (c1 c2 co : List ℕ) (A : ℕ → ℕ → ℂ) : ℕ → ℕ → ℂ :=
  matG (fun v => lab co c1 v ∈ c2) (fun v => c2.idxOf (lab co c1 v)) (partner co c1) A

/-- The linear form of the result. -/
noncomputable def mixB (c1 c2 co : List ℕ) (b : ℕ → ℂ) : ℕ → ℂ := vecG (fun v => lab co c1 v ∈ c2) (fun v => c2.idxOf (lab co c1 v)) b

open scoped Classical in
/-- The entries between core variables. -/
theorem mixA_core (H : Labels c1 c2 co) (A : ℕ → ℕ → ℂ) {a b : ℕ} (ha : a < co.length) (hb : b < co.length) :
    mixA c1 c2 co A a b = if co.getD a 0 ∈ c2 ∧ co.getD b 0 ∈ c2 then A (c2.idxOf (co.getD a 0)) (c2.idxOf (co.getD b 0)) else 0 := by
  unfold mixA matG
  beta_reduce
  rw [lab_lt ha, lab_lt hb]
  have hz : ¬(co.getD a 0 ∉ c2 ∧ co.getD b 0 ∉ c2 ∧ b = partner co c1 a) := by
    rintro ⟨h1, h2, h3⟩
    unfold partner at h3
    rw [if_pos ha] at h3
    omega
  by_cases h : co.getD a 0 ∈ c2 ∧ co.getD b 0 ∈ c2
  · rw [if_pos h, if_pos h]
  · rw [if_neg h, if_neg h, if_neg hz]

open scoped Classical in
/-- The entries between a core variable and an axis. -/
theorem mixA_cross (H : Labels c1 c2 co) (A : ℕ → ℕ → ℂ) {a j : ℕ} (ha : a < co.length) (hj : j < c1.length) :
    mixA c1 c2 co A a (co.length + j) = if co.getD a 0 ∈ c2 then (if c1.getD j 0 ∈ c2 then A (c2.idxOf (co.getD a 0)) (c2.idxOf (c1.getD j 0)) else 0)
      else if c1.idxOf (co.getD a 0) = j then 1 else 0 := by
  unfold mixA matG
  beta_reduce
  rw [lab_lt ha, lab_ge]
  by_cases h1 : co.getD a 0 ∈ c2
  · rw [if_pos h1]
    by_cases h2 : c1.getD j 0 ∈ c2
    · rw [if_pos ⟨h1, h2⟩, if_pos h2]
    · rw [if_neg (fun h => h2 h.2), if_neg (fun h => h.1 h1), if_neg h2]
  · rw [if_neg (fun h => h1 h.1), if_neg h1]
    have hi : (co.getD a 0 ∉ c2 ∧ c1.getD j 0 ∉ c2 ∧ co.length + j = partner co c1 a) ↔ c1.idxOf (co.getD a 0) = j := by
      unfold partner
      rw [if_pos ha]
      constructor
      · rintro ⟨_, _, h⟩
        omega
      intro h
      refine ⟨h1, ?_, by omega⟩
      have hm : co.getD a 0 ∈ c1 := by
        have := H.mem.1 (getD_mem' ha)
        tauto
      rw [← h, PolyExp.getD_idxOf hm]
      exact h1
    by_cases h : c1.idxOf (co.getD a 0) = j
    · rw [if_pos h, if_pos (hi.2 h)]
    · rw [if_neg h, if_neg (fun h' => h (hi.1 h'))]

open scoped Classical in
/-- The entries between two axes. -/
theorem mixA_axes (H : Labels c1 c2 co) (A : ℕ → ℕ → ℂ) {i j : ℕ} (hi : i < c1.length) (hj : j < c1.length) :
    mixA c1 c2 co A (co.length + i) (co.length + j) = if c1.getD i 0 ∈ c2 ∧ c1.getD j 0 ∈ c2 then A (c2.idxOf (c1.getD i 0)) (c2.idxOf (c1.getD j 0)) else 0 := by
  unfold mixA matG
  beta_reduce
  rw [lab_ge, lab_ge]
  have hz : ¬(c1.getD i 0 ∉ c2 ∧ c1.getD j 0 ∉ c2 ∧ co.length + j = partner co c1 (co.length + i)) := by
    rintro ⟨h1, h2, h3⟩
    unfold partner at h3
    rw [if_neg (by omega), Nat.add_sub_cancel_left] at h3
    have hm : c1.getD i 0 ∈ co := H.mem.2 (Or.inl ⟨getD_mem' hi, h1⟩)
    have := List.idxOf_lt_length_of_mem hm
    omega
  by_cases h : c1.getD i 0 ∈ c2 ∧ c1.getD j 0 ∈ c2
  · rw [if_pos h, if_pos h]
  · rw [if_neg h, if_neg h, if_neg hz]

theorem mixA_symm (H : Labels c1 c2 co) {A : ℕ → ℕ → ℂ} {m : ℕ} (hm : c2.length ≤ m) (hA : ∀ i < m, ∀ j < m, A i j = A j i) :
    Symm (co.length + c1.length) (mixA c1 c2 co A) := by
  have L := layout H
  intro u hu v hv
  unfold mixA matG
  beta_reduce
  by_cases h1 : lab co c1 u ∈ c2 <;> by_cases h2 : lab co c1 v ∈ c2
  · rw [if_pos ⟨h1, h2⟩, if_pos ⟨h2, h1⟩]
    exact hA _ (lt_of_lt_of_le (L.kl u hu h1) hm) _ (lt_of_lt_of_le (L.kl v hv h2) hm)
  · rw [if_neg (fun h => h2 h.2), if_neg (fun h => h.1 h1), if_neg (fun h => h2 h.1), if_neg (fun h => h.2.1 h1)]
  · rw [if_neg (fun h => h1 h.1), if_neg (fun h => h.2.1 h2), if_neg (fun h => h1 h.2), if_neg (fun h => h.1 h2)]
  · have e1 : ¬(lab co c1 u ∈ c2 ∧ lab co c1 v ∈ c2) := fun h => h1 h.1
    have e2 : ¬(lab co c1 v ∈ c2 ∧ lab co c1 u ∈ c2) := fun h => h2 h.1
    rw [if_neg e1, if_neg e2]
    by_cases h : v = partner co c1 u
    · rw [if_pos ⟨h1, h2, h⟩, if_pos ⟨h2, h1, by rw [h, L.pp u hu h1]⟩]
    · rw [if_neg (fun h' => h h'.2.2), if_neg (fun h' => h (by rw [h'.2.2, L.pp v hv h2]))]

end Verif.Mixed
