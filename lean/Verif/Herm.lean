import Verif.Vanilla
import Mathlib.Algebra.BigOperators.Finprod
import Mathlib.Analysis.Complex.Basic

/-!
# Structural facts about renormalised Hermite arrays

`amp D A b c` (FockSpec) is what `math.hermite_renormalized(A, b, c, shape)` returns (C19/C20).  Here: it only
depends on the symmetric part of `A`, it is determined by its recursion, it factorises over block-diagonal
`A`, and it commutes with complex conjugation.
-/

namespace Verif.Fock
open MvPolynomial

/-- Symmetric part. -/
noncomputable def symA (A : ℕ → ℕ → ℂ) (i j : ℕ) : ℂ := (A i j + A j i) / 2

theorem symA_symm (D A) : Symm D (symA A) := by
  intro i _ j _; unfold symA; rw [add_comm]

theorem symA_of_symm {D A} (h : Symm D A) {i j} (hi : i < D) (hj : j < D) : symA A i j = A i j := by
  unfold symA; rw [h j hj i hi]; ring

theorem expo_symA (D A b) : expo D (symA A) b = expo D A b := by
  unfold expo symA
  congr 2
  have : ∑ i ∈ Finset.range D, ∑ j ∈ Finset.range D, C (A j i) * (X i * X j : MvPolynomial ℕ ℂ) =
      ∑ i ∈ Finset.range D, ∑ j ∈ Finset.range D, C (A i j) * (X i * X j) := by
    rw [Finset.sum_comm]
    refine Finset.sum_congr rfl fun i _ => Finset.sum_congr rfl fun j _ => ?_
    rw [mul_comm (X j)]
  have e : ∀ i j, (C ((A i j + A j i) / 2) : MvPolynomial ℕ ℂ) * (X i * X j) =
      C (1/2) * (C (A i j) * (X i * X j)) + C (1/2) * (C (A j i) * (X i * X j)) := by
    intro i j
    rw [show (A i j + A j i) / 2 = 1/2 * A i j + 1/2 * A j i by ring, map_add, map_mul, map_mul]; ring
  simp only [e, Finset.sum_add_distrib, ← Finset.mul_sum]
  rw [this, ← two_mul, ← mul_assoc, show (2 : MvPolynomial ℕ ℂ) = C 2 from (map_ofNat C 2).symm, ← C_mul]
  norm_num

theorem amp_symA (D A b c k) : amp D (symA A) b c k = amp D A b c k := by
  unfold amp; rw [expo_symA]

/-- The recursion with a possibly non-symmetric `A`. -/
theorem amp_up' {D A b} (c : ℂ) {i : ℕ} (hi : i < D) (k : ℕ →₀ ℕ) :
    sq (k i + 1) * amp D A b c (up k i) =
      b i * amp D A b c k + ∑ j ∈ Finset.range D, symA A i j * sq (k j) * amp D A b c (dn k j) := by
  have := amp_up (b := b) c (symA_symm D A) hi k
  simpa only [amp_symA] using this

/-- Multi-indices that only use the first `D` variables. -/
def Below (D : ℕ) (k : ℕ →₀ ℕ) : Prop := ∀ i, D ≤ i → k i = 0

theorem Below.dn {D k} (h : Below D k) (j) : Below D (dn k j) := by
  intro i hi
  unfold Fock.dn
  simp [h i hi]

/-- The recursion determines the array. -/
theorem amp_unique {D A b} {c : ℂ} (g : (ℕ →₀ ℕ) → ℂ) (h0 : g 0 = c)
    (hrec : ∀ i < D, ∀ k, Below D k → sq (k i + 1) * g (up k i) =
      b i * g k + ∑ j ∈ Finset.range D, symA A i j * sq (k j) * g (dn k j)) :
    ∀ k, Below D k → g k = amp D A b c k := by
  have main : ∀ n, ∀ k : ℕ →₀ ℕ, k.degree = n → Below D k → g k = amp D A b c k := by
    intro n
    induction n using Nat.strong_induction_on with
    | _ n ih =>
    intro k hk hB
    by_cases hz : k = 0
    · subst hz; rw [h0, amp_zero]
    · obtain ⟨i, hi⟩ := Finsupp.ne_iff.1 hz
      simp only [Finsupp.coe_zero, Pi.zero_apply] at hi
      have hiD : i < D := by
        by_contra h
        exact hi (hB i (by omega))
      set p := dn k i with hp
      have hup : up p i = k := up_dn hi
      have hdeg : p.degree + 1 = n := by rw [← hk, ← hup, degree_up]
      have hpB : Below D p := hB.dn i
      have r1 := hrec i hiD p hpB
      have r2 := amp_up' (A := A) (b := b) c hiD p
      rw [hup] at r1 r2
      have hs : sq (p i + 1) ≠ 0 := sq_ne_zero (Nat.succ_ne_zero _)
      apply mul_left_cancel₀ hs
      rw [r1, r2, ih p.degree (by omega) p rfl hpB]
      congr 1
      apply Finset.sum_congr rfl
      intro j _
      have := degree_dn p j
      rw [ih (dn p j).degree (by omega) (dn p j) rfl (hpB.dn j)]
  intro k; exact main _ k rfl

/-- Scaling of the constant. -/
theorem amp_smul (D A b c k) : amp D A b c k = c * amp D A b 1 k := by
  unfold amp; ring

/-- Only the first `D` entries of `A` and `b` matter. -/
theorem amp_congr {D A A' b b'} (c : ℂ) (hA : ∀ i < D, ∀ j < D, A i j = A' i j) (hb : ∀ i < D, b i = b' i) (k) :
    amp D A b c k = amp D A' b' c k := by
  have : expo D A b = expo D A' b' := by
    have h1 : ∑ i ∈ Finset.range D, (C (b i) * X i : MvPolynomial ℕ ℂ) =
        ∑ i ∈ Finset.range D, C (b' i) * X i :=
      Finset.sum_congr rfl fun i hi => by rw [hb i (Finset.mem_range.1 hi)]
    have h2 : ∑ i ∈ Finset.range D, ∑ j ∈ Finset.range D, (C (A i j) * (X i * X j) : MvPolynomial ℕ ℂ) =
        ∑ i ∈ Finset.range D, ∑ j ∈ Finset.range D, C (A' i j) * (X i * X j) :=
      Finset.sum_congr rfl fun i hi => Finset.sum_congr rfl fun j hj => by
        rw [hA i (Finset.mem_range.1 hi) j (Finset.mem_range.1 hj)]
    unfold expo; rw [h1, h2]
  unfold amp; rw [this]

/-- Complex conjugation. -/
theorem amp_conj {D A b} {k : ℕ →₀ ℕ} (hk : Below D k) :
    (starRingEnd ℂ) (amp D A b 1 k) = amp D (fun i j => (starRingEnd ℂ) (A i j)) (fun i => (starRingEnd ℂ) (b i)) 1 k := by
  have hsq : ∀ n, (starRingEnd ℂ) (sq n) = sq n := fun n => Complex.conj_ofReal _
  refine amp_unique (fun k => (starRingEnd ℂ) (amp D A b 1 k)) ?_ ?_ k hk
  · simp [amp_zero]
  · intro i hi k _
    have := congrArg (starRingEnd ℂ) (amp_up' (A := A) (b := b) 1 hi k)
    simp only [map_mul, map_add, map_sum, hsq] at this
    rw [this]
    congr 1
    apply Finset.sum_congr rfl
    intro j _
    rw [show (starRingEnd ℂ) (symA A i j) = symA (fun i j => (starRingEnd ℂ) (A i j)) i j by
      unfold symA; rw [map_div₀, map_add, Complex.conj_ofNat]]

theorem toF_below (k : List ℕ) {D} (h : k.length ≤ D) : Below D (toF k) := by
  intro i hi
  simp only [toF_apply]
  rw [List.getD_eq_getElem?_getD, List.getElem?_eq_none (by omega)]
  rfl

/-- First `m` entries of a multi-index. -/
noncomputable def lowPart (m : ℕ) (k : ℕ →₀ ℕ) : ℕ →₀ ℕ :=
  k.filter (· < m)
/-- Entries from `m` on, shifted to start at `0`. -/
noncomputable def highPart (m : ℕ) (k : ℕ →₀ ℕ) : ℕ →₀ ℕ :=
  k.comapDomain (· + m) (fun _ _ _ _ h => Nat.add_right_cancel h)

@[simp] theorem lowPart_apply (m k i) : lowPart m k i = if i < m then k i else 0 := by
  unfold lowPart; rw [Finsupp.filter_apply]
@[simp] theorem highPart_apply (m k i) : highPart m k i = k (i + m) := rfl
@[simp] theorem up_apply (k j i) : up k j i = if i = j then k i + 1 else k i := by
  unfold up; simp only [Finsupp.add_apply, Finsupp.single_apply]; split_ifs <;> first | omega | rfl
@[simp] theorem dn_apply (k j i) : dn k j i = if i = j then k i - 1 else k i := by
  unfold dn
  rw [Finsupp.tsub_apply, Finsupp.single_apply]
  split_ifs <;> first | omega | rfl

/-- **Block factorisation**: a direct sum of quadratic forms gives the product of the arrays. -/
theorem amp_block {m1 m2 : ℕ} {A1 A2 A : ℕ → ℕ → ℂ} {b1 b2 b : ℕ → ℂ}
    (hA : ∀ i < m1 + m2, ∀ j < m1 + m2, A i j =
      if i < m1 ∧ j < m1 then A1 i j else if m1 ≤ i ∧ m1 ≤ j then A2 (i - m1) (j - m1) else 0)
    (hb : ∀ i < m1 + m2, b i = if i < m1 then b1 i else b2 (i - m1))
    (k : ℕ →₀ ℕ) (hk : Below (m1 + m2) k) :
    amp (m1 + m2) A b 1 k = amp m1 A1 b1 1 (lowPart m1 k) * amp m2 A2 b2 1 (highPart m1 k) := by
  symm
  refine amp_unique (fun k => amp m1 A1 b1 1 (lowPart m1 k) * amp m2 A2 b2 1 (highPart m1 k)) ?_ ?_ k hk
  · have e1 : lowPart m1 0 = 0 := by ext; simp
    have e2 : highPart m1 0 = 0 := by ext; simp
    simp [e1, e2, amp_zero]
  · intro i hi k hB
    rw [Finset.sum_range_add]
    by_cases h : i < m1
    · have e1 : lowPart m1 (up k i) = up (lowPart m1 k) i := by
        ext j; simp; split_ifs <;> first | omega | rfl
      have e2 : highPart m1 (up k i) = highPart m1 k := by
        ext j; simp; omega
      have r := amp_up' (A := A1) (b := b1) 1 h (lowPart m1 k)
      simp only [e1, e2]
      rw [lowPart_apply, if_pos h] at r
      rw [← mul_assoc, r, hb i hi, if_pos h, add_mul, mul_assoc]
      congr 1
      have z : ∑ j ∈ Finset.range m2, symA A i (m1 + j) * sq (k (m1 + j)) *
          (amp m1 A1 b1 1 (lowPart m1 (dn k (m1 + j))) * amp m2 A2 b2 1 (highPart m1 (dn k (m1 + j)))) = 0 := by
        apply Finset.sum_eq_zero
        intro j hj
        have hj := Finset.mem_range.1 hj
        have : symA A i (m1 + j) = 0 := by
          unfold symA
          rw [hA i hi (m1 + j) (by omega), hA (m1 + j) (by omega) i hi]
          rw [if_neg (by omega), if_neg (by omega), if_neg (by omega), if_neg (by omega)]; simp
        rw [this]; ring
      rw [z, add_zero, Finset.sum_mul]
      apply Finset.sum_congr rfl
      intro j hj
      have hj := Finset.mem_range.1 hj
      have e3 : lowPart m1 (dn k j) = dn (lowPart m1 k) j := by
        ext x; simp; split_ifs <;> first | omega | rfl
      have e4 : highPart m1 (dn k j) = highPart m1 k := by
        ext x; simp; omega
      have e5 : symA A i j = symA A1 i j := by
        unfold symA
        rw [hA i hi j (by omega), hA j (by omega) i hi, if_pos ⟨h, hj⟩, if_pos ⟨hj, h⟩]
      rw [e3, e4, e5, lowPart_apply, if_pos hj]; ring
    · have e1 : highPart m1 (up k i) = up (highPart m1 k) (i - m1) := by
        ext j; simp only [highPart_apply, up_apply]
        by_cases hj : j + m1 = i
        · rw [if_pos hj, if_pos (by omega)]
        · rw [if_neg hj, if_neg (by omega)]
      have e2 : lowPart m1 (up k i) = lowPart m1 k := by
        ext j; simp; split_ifs <;> first | omega | rfl
      have r := amp_up' (A := A2) (b := b2) 1 (show i - m1 < m2 by omega) (highPart m1 k)
      simp only [e1, e2]
      rw [highPart_apply, Nat.sub_add_cancel (by omega)] at r
      rw [mul_left_comm, r, hb i hi, if_neg h, mul_add, mul_left_comm]
      congr 1
      have z : ∑ j ∈ Finset.range m1, symA A i j * sq (k j) *
          (amp m1 A1 b1 1 (lowPart m1 (dn k j)) * amp m2 A2 b2 1 (highPart m1 (dn k j))) = 0 := by
        apply Finset.sum_eq_zero
        intro j hj
        have hj := Finset.mem_range.1 hj
        have : symA A i j = 0 := by
          unfold symA
          rw [hA i hi j (by omega), hA j (by omega) i hi]
          rw [if_neg (by omega), if_neg (by omega), if_neg (by omega), if_neg (by omega)]; simp
        rw [this]; ring
      rw [z, zero_add, Finset.mul_sum]
      apply Finset.sum_congr rfl
      intro j hj
      have hj := Finset.mem_range.1 hj
      have e3 : highPart m1 (dn k (m1 + j)) = dn (highPart m1 k) j := by
        ext x; simp only [highPart_apply, dn_apply]
        by_cases hx : x = j
        · rw [if_pos hx, if_pos (by omega)]
        · rw [if_neg hx, if_neg (by omega)]
      have e4 : lowPart m1 (dn k (m1 + j)) = lowPart m1 k := by
        ext x; simp; split_ifs <;> first | omega | rfl
      have e5 : symA A i (m1 + j) = symA A2 (i - m1) j := by
        unfold symA
        have q1 : ¬ (i < m1 ∧ m1 + j < m1) := by omega
        have q2 : m1 ≤ i ∧ m1 ≤ m1 + j := by omega
        have q3 : ¬ (m1 + j < m1 ∧ i < m1) := by omega
        have q4 : m1 ≤ m1 + j ∧ m1 ≤ i := by omega
        rw [hA i hi (m1 + j) (by omega), hA (m1 + j) (by omega) i hi, if_neg q1, if_pos q2, if_neg q3,
          if_pos q4, Nat.add_sub_cancel_left]
      rw [e3, e4, e5, highPart_apply, add_comm j m1]; ring

theorem lowPart_toF (k1 k2 : List ℕ) : lowPart k1.length (toF (k1 ++ k2)) = toF k1 := by
  ext i
  simp only [lowPart_apply, toF_apply, List.getD_eq_getElem?_getD]
  by_cases h : i < k1.length
  · rw [if_pos h, List.getElem?_append_left h]
  · rw [if_neg h, List.getElem?_eq_none (l := k1) (by omega)]; rfl

theorem highPart_toF (k1 k2 : List ℕ) : highPart k1.length (toF (k1 ++ k2)) = toF k2 := by
  ext i
  simp only [highPart_apply, toF_apply, List.getD_eq_getElem?_getD]
  rw [List.getElem?_append_right (by omega), Nat.add_sub_cancel]

end Verif.Fock
