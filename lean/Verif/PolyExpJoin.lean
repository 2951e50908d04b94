import Verif.PolyExpEval

/-!
# Tensor product of `PolyExpAnsatz` (C27: `&`)
-/

namespace Verif.PolyExp
open Verif.Fock Verif.Batch PolyExp

/-- The arrays returned by `join_Abc`. -/
structure Joined where
  batch : List ℕ
  N : ℕ
  A : List ℕ → ℕ → ℕ → ℂ
  b : List ℕ → ℕ → ℂ
  cshape : List ℕ
  c : List ℕ → ℂ

/-- physics/gaussian_integrals.py:295-303: block-diagonal matrix. -/
noncomputable def dsumA (N1 : ℕ) (A1 A2 : ℕ → ℕ → ℂ) (i j : ℕ) : ℂ :=
  if i < N1 ∧ j < N1 then A1 i j else if N1 ≤ i ∧ N1 ≤ j then A2 (i - N1) (j - N1) else 0

/-- physics/gaussian_integrals.py:327: concatenation of the vectors. -/
noncomputable def dsumB (N1 : ℕ) (b1 b2 : ℕ → ℂ) (i : ℕ) : ℂ := if i < N1 then b1 i else b2 (i - N1)

/-- physics/gaussian_integrals.py:305-325 and 328-336: the order in which the rows/columns are regrouped: core variables
of both, then derived variables of both. -/
def joinPerm (n1 m1 n2 m2 : ℕ) : List ℕ :=
  List.range n1 ++ List.range' (n1 + m1) n2 ++ List.range' n1 m1 ++ List.range' (n1 + m1 + n2) m2

/-- physics/gaussian_integrals.py:159-350 `join_Abc`, for the batch string `in1,in2->out`. -/
noncomputable def joinAbc (f g : PolyExp) (in1 in2 out : List ℕ) : Option Joined :=
  match joinBatch in1 f.batch in2 g.batch out with
  | none => none
  | some shape =>
    let π := joinPerm f.numCV f.derived.length g.numCV g.derived.length
    some
      { batch := shape
        N := f.N + g.N
        A := fun o i j => dsumA f.N (f.A (bread in1 f.batch out o)) (g.A (bread in2 g.batch out o)) (π.getD i 0) (π.getD j 0)
        b := fun o i => dsumB f.N (f.b (bread in1 f.batch out o)) (g.b (bread in2 g.batch out o)) (π.getD i 0)
        cshape := shape ++ (f.derived ++ g.derived)
        c := fun idx =>
          f.c (bread in1 f.batch out (idx.take shape.length)) ((idx.drop shape.length).take f.derived.length) *
          g.c (bread in2 g.batch out (idx.take shape.length)) ((idx.drop shape.length).drop f.derived.length) }

/-- Merge the last two axes of a shape. -/
def mergeLast (s : List ℕ) : List ℕ := s.dropLast.dropLast ++ [s.dropLast.getLastD 1 * s.getLastD 1]

/-- physics/ansatz/polyexp_ansatz.py:894-919 `__and__`.  When both operands are superpositions the last two *batch* axes
of `A` and `b` are merged, but for `c` the last two axes of the whole array are merged. -/
noncomputable def PolyExp.and (f g : PolyExp) : Option PolyExp :=
  let ls := (if f.linSup then [0] else []) ++ (if g.linSup then [1] else [])
  match outerStr [f.batch.length, g.batch.length] (some ls) with
  | none => none
  | some (ins, out) =>
    match joinAbc f g (ins.getD 0 []) (ins.getD 1 []) out with
    | none => none
    | some J =>
      if f.linSup ∧ g.linSup then
        init (mergeLast J.batch) true J.N
          (fun β => J.A (unravel J.batch (ravel (mergeLast J.batch) β)))
          (fun β => J.b (unravel J.batch (ravel (mergeLast J.batch) β)))
          (mergeLast J.cshape)
          (fun idx => J.c (unravel J.cshape (ravel (mergeLast J.cshape) idx)))
      else init J.batch (f.linSup || g.linSup) J.N J.A J.b J.cshape J.c

/-- The combined point `(z₀ … z_{n-1}, w₀, w₁, …)`. -/
def joinPt (n : ℕ) (z w : ℕ → ℂ) (i : ℕ) : ℂ := if i < n then z i else w (i - n)

/-! ## The value of a joined term -/

theorem joinPerm_get (n1 m1 n2 m2 : ℕ) :
    (∀ i < n1, (joinPerm n1 m1 n2 m2).getD i 0 = i) ∧
    (∀ i < n2, (joinPerm n1 m1 n2 m2).getD (n1 + i) 0 = n1 + m1 + i) ∧
    (∀ i < m1, (joinPerm n1 m1 n2 m2).getD (n1 + n2 + i) 0 = n1 + i) ∧
    (∀ i < m2, (joinPerm n1 m1 n2 m2).getD (n1 + n2 + (m1 + i)) 0 = n1 + m1 + (n2 + i)) := by
  unfold joinPerm
  refine ⟨?_, ?_, ?_, ?_⟩ <;> intro i hi <;> rw [List.getD_eq_getElem?_getD]
  · rw [List.append_assoc, List.append_assoc, List.getElem?_append_left (by simpa), List.getElem?_range hi]; rfl
  · rw [List.append_assoc, List.append_assoc, List.getElem?_append_right (by simp),
      List.getElem?_append_left (by simp; omega), List.getElem?_range' (by simp; omega)]
    simp
  · rw [List.append_assoc, List.append_assoc, List.getElem?_append_right (by simp; omega),
      List.getElem?_append_right (by simp; omega), List.getElem?_append_left (by simp; omega),
      List.getElem?_range' (by simp; omega)]
    simp; omega
  · rw [List.append_assoc, List.append_assoc, List.getElem?_append_right (by simp; omega),
      List.getElem?_append_right (by simp; omega), List.getElem?_append_right (by simp; omega),
      List.getElem?_range' (by simp; omega)]
    simp; omega

theorem termVal_join {n1 n2 : ℕ} {d1 d2 : List ℕ} {A1 A2 : ℕ → ℕ → ℂ} {b1 b2 : ℕ → ℂ} {c1 c2 : List ℕ → ℂ} (z w : ℕ → ℂ) :
    termVal (n1 + n2) (d1 ++ d2)
      (fun i j => dsumA (n1 + d1.length) A1 A2 ((joinPerm n1 d1.length n2 d2.length).getD i 0)
        ((joinPerm n1 d1.length n2 d2.length).getD j 0))
      (fun i => dsumB (n1 + d1.length) b1 b2 ((joinPerm n1 d1.length n2 d2.length).getD i 0))
      (fun k => c1 (k.take d1.length) * c2 (k.drop d1.length)) (joinPt n1 z w) =
    termVal n1 d1 A1 b1 c1 z * termVal n2 d2 A2 b2 c2 w := by
  obtain ⟨p1, p2, p3, p4⟩ := joinPerm_get n1 d1.length n2 d2.length
  set π := joinPerm n1 d1.length n2 d2.length with hπ
  set N1 := n1 + d1.length with hN1
  have z1 : ∀ i < n1, joinPt n1 z w i = z i := fun i hi => by simp [joinPt, hi]
  have z2 : ∀ i, joinPt n1 z w (n1 + i) = w i := fun i => by simp [joinPt]
  -- entries of the regrouped block matrix
  have lowlow : ∀ i j, i < N1 → j < N1 → dsumA N1 A1 A2 i j = A1 i j := fun i j hi hj => by simp [dsumA, hi, hj]
  have hihi : ∀ i j, dsumA N1 A1 A2 (N1 + i) (N1 + j) = A2 i j := fun i j => by simp [dsumA]
  have lowhi : ∀ i j, i < N1 → dsumA N1 A1 A2 i (N1 + j) = 0 := fun i j hi => by
    simp only [dsumA]; rw [if_neg (by omega), if_neg (by omega)]
  have hilow : ∀ i j, j < N1 → dsumA N1 A1 A2 (N1 + i) j = 0 := fun i j hj => by
    simp only [dsumA]; rw [if_neg (by omega), if_neg (by omega)]
  have e1 : ∑ i ∈ Finset.range (n1 + n2), ∑ j ∈ Finset.range (n1 + n2),
        joinPt n1 z w i * joinPt n1 z w j * dsumA N1 A1 A2 (π.getD i 0) (π.getD j 0) =
      ∑ i ∈ Finset.range n1, ∑ j ∈ Finset.range n1, z i * z j * A1 i j +
      ∑ i ∈ Finset.range n2, ∑ j ∈ Finset.range n2, w i * w j * A2 i j := by
    rw [Finset.sum_range_add]
    congr 1
    · apply Finset.sum_congr rfl
      intro i hi
      have hi := Finset.mem_range.1 hi
      rw [Finset.sum_range_add]
      rw [Finset.sum_eq_zero (s := Finset.range n2), add_zero]
      · apply Finset.sum_congr rfl
        intro j hj
        have hj := Finset.mem_range.1 hj
        rw [z1 i hi, z1 j hj, p1 i hi, p1 j hj, lowlow i j (by omega) (by omega)]
      · intro j hj
        have hj := Finset.mem_range.1 hj
        rw [p1 i hi, p2 j hj, lowhi i j (by omega), mul_zero]
    · apply Finset.sum_congr rfl
      intro i hi
      have hi := Finset.mem_range.1 hi
      rw [Finset.sum_range_add]
      rw [Finset.sum_eq_zero (s := Finset.range n1), zero_add]
      · apply Finset.sum_congr rfl
        intro j hj
        have hj := Finset.mem_range.1 hj
        rw [z2, z2, p2 i hi, p2 j hj, hihi]
      · intro j hj
        have hj := Finset.mem_range.1 hj
        rw [p1 j hj, p2 i hi, hilow i j (by omega), mul_zero]
  have e2 : ∑ i ∈ Finset.range (n1 + n2), joinPt n1 z w i * dsumB N1 b1 b2 (π.getD i 0) =
      ∑ i ∈ Finset.range n1, z i * b1 i + ∑ i ∈ Finset.range n2, w i * b2 i := by
    rw [Finset.sum_range_add]
    congr 1
    · apply Finset.sum_congr rfl
      intro i hi
      have hi := Finset.mem_range.1 hi
      rw [z1 i hi, p1 i hi, dsumB, if_pos (by omega)]
    · apply Finset.sum_congr rfl
      intro i hi
      have hi := Finset.mem_range.1 hi
      rw [z2, p2 i hi, dsumB, if_neg (by omega), Nat.add_sub_cancel_left]
  unfold termVal
  rw [e1, e2, nsum_append]
  have e3 : ∀ k, InB d1 k → ∀ l, InB d2 l →
      c1 ((k ++ l).take d1.length) * c2 ((k ++ l).drop d1.length) *
        amp (d1 ++ d2).length (fun i j => dsumA N1 A1 A2 (π.getD (n1 + n2 + i) 0) (π.getD (n1 + n2 + j) 0))
          (fun j => ∑ a ∈ Finset.range (n1 + n2), dsumA N1 A1 A2 (π.getD a 0) (π.getD (n1 + n2 + j) 0) * joinPt n1 z w a +
            dsumB N1 b1 b2 (π.getD (n1 + n2 + j) 0)) 1 (toF (k ++ l)) =
      (c1 k * amp d1.length (fun i j => A1 (n1 + i) (n1 + j))
        (fun j => ∑ a ∈ Finset.range n1, A1 a (n1 + j) * z a + b1 (n1 + j)) 1 (toF k)) *
      (c2 l * amp d2.length (fun i j => A2 (n2 + i) (n2 + j))
        (fun j => ∑ a ∈ Finset.range n2, A2 a (n2 + j) * w a + b2 (n2 + j)) 1 (toF l)) := by
    intro k hk l hl
    have lk : k.length = d1.length := List.Forall₂.length_eq hk
    have ll : l.length = d2.length := List.Forall₂.length_eq hl
    rw [← lk, List.take_left, List.drop_left, List.length_append, lk]
    rw [amp_block (A1 := fun i j => A1 (n1 + i) (n1 + j)) (A2 := fun i j => A2 (n2 + i) (n2 + j))
      (b1 := fun j => ∑ a ∈ Finset.range n1, A1 a (n1 + j) * z a + b1 (n1 + j))
      (b2 := fun j => ∑ a ∈ Finset.range n2, A2 a (n2 + j) * w a + b2 (n2 + j))]
    · rw [← lk, lowPart_toF, highPart_toF]; ring
    · intro i hi j hj
      by_cases h1 : i < d1.length <;> by_cases h2 : j < d1.length
      · rw [if_pos ⟨h1, h2⟩, p3 i h1, p3 j h2, lowlow _ _ (by omega) (by omega)]
      · obtain ⟨j', rfl⟩ : ∃ j', j = d1.length + j' := ⟨j - d1.length, by omega⟩
        rw [if_neg (by omega), if_neg (by omega), p3 i h1, p4 j' (by omega), lowhi _ _ (by omega)]
      · obtain ⟨i', rfl⟩ : ∃ i', i = d1.length + i' := ⟨i - d1.length, by omega⟩
        rw [if_neg (by omega), if_neg (by omega), p3 j h2, p4 i' (by omega), hilow _ _ (by omega)]
      · obtain ⟨i', rfl⟩ : ∃ i', i = d1.length + i' := ⟨i - d1.length, by omega⟩
        obtain ⟨j', rfl⟩ : ∃ j', j = d1.length + j' := ⟨j - d1.length, by omega⟩
        rw [if_neg (by omega), if_pos (by omega), p4 i' (by omega), p4 j' (by omega), hihi,
          Nat.add_sub_cancel_left, Nat.add_sub_cancel_left]
    · intro j hj
      rw [Finset.sum_range_add]
      by_cases h1 : j < d1.length
      · rw [if_pos h1, p3 j h1, dsumB, if_pos (by omega), Finset.sum_eq_zero (s := Finset.range n2), add_zero]
        · congr 1
          apply Finset.sum_congr rfl
          intro a ha
          have ha := Finset.mem_range.1 ha
          rw [p1 a ha, z1 a ha, lowlow _ _ (by omega) (by omega)]
        · intro a ha
          have ha := Finset.mem_range.1 ha
          rw [p2 a ha, hilow _ _ (by omega), zero_mul]
      · obtain ⟨j', rfl⟩ : ∃ j', j = d1.length + j' := ⟨j - d1.length, by omega⟩
        rw [if_neg h1, p4 j' (by omega), dsumB, if_neg (by omega), Finset.sum_eq_zero (s := Finset.range n1), zero_add,
          Nat.add_sub_cancel_left, Nat.add_sub_cancel_left]
        · congr 1
          apply Finset.sum_congr rfl
          intro a ha
          have ha := Finset.mem_range.1 ha
          rw [p2 a ha, z2, hihi]
        · intro a ha
          have ha := Finset.mem_range.1 ha
          rw [p1 a ha, lowhi _ _ (by omega), zero_mul]
    · exact toF_below _ (by simp [lk, ll])
  have e4 : (nsum d1 fun k => nsum d2 fun l => c1 ((k ++ l).take d1.length) * c2 ((k ++ l).drop d1.length) *
        amp (d1 ++ d2).length (fun i j => dsumA N1 A1 A2 (π.getD (n1 + n2 + i) 0) (π.getD (n1 + n2 + j) 0))
          (fun j => ∑ a ∈ Finset.range (n1 + n2), dsumA N1 A1 A2 (π.getD a 0) (π.getD (n1 + n2 + j) 0) * joinPt n1 z w a +
            dsumB N1 b1 b2 (π.getD (n1 + n2 + j) 0)) 1 (toF (k ++ l))) =
      (nsum d1 fun k => c1 k * amp d1.length (fun i j => A1 (n1 + i) (n1 + j))
        (fun j => ∑ a ∈ Finset.range n1, A1 a (n1 + j) * z a + b1 (n1 + j)) 1 (toF k)) *
      (nsum d2 fun l => c2 l * amp d2.length (fun i j => A2 (n2 + i) (n2 + j))
        (fun j => ∑ a ∈ Finset.range n2, A2 a (n2 + j) * w a + b2 (n2 + j)) 1 (toF l)) := by
    rw [← nsum_mul_right]
    apply nsum_congr
    intro k hk
    rw [← nsum_mul_left]
    apply nsum_congr
    intro l hl
    exact e3 k hk l hl
  rw [e4, mul_add, add_add_add_comm, Complex.exp_add]
  ring

end Verif.PolyExp
