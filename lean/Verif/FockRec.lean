import Verif.FockSpec
import Mathlib.Algebra.BigOperators.Field

/-! # The recursion satisfied by the Fock amplitudes (derived from the specification) -/

namespace Verif.Fock
open MvPolynomial

/-- Square roots of integers, as complex numbers. -/
noncomputable def sq (n : ℕ) : ℂ := (Real.sqrt (n : ℝ) : ℂ)

theorem sq_mul_self (n : ℕ) : sq n * sq n = (n : ℂ) := by
  unfold sq
  rw [← Complex.ofReal_mul, Real.mul_self_sqrt (Nat.cast_nonneg n)]
  simp

@[simp] theorem sq_zero : sq 0 = 0 := by simp [sq]

theorem sq_ne_zero {n : ℕ} (h : n ≠ 0) : sq n ≠ 0 := by
  intro e
  have := sq_mul_self n
  rw [e] at this
  simp at this
  exact h (by exact_mod_cast this.symm)

theorem coeff_pow_eq_zero {q : MvPolynomial ℕ ℂ} (h0 : coeff 0 q = 0) :
    ∀ (n : ℕ) (k : ℕ →₀ ℕ), k.degree < n → coeff k (q ^ n) = 0 := by
  intro n
  induction n with
  | zero => intro k h; omega
  | succ n ih =>
    intro k h
    rw [pow_succ, coeff_mul]
    apply Finset.sum_eq_zero
    rintro ⟨x, y⟩ hxy
    have e : x + y = k := Finset.mem_antidiagonal.1 hxy
    by_cases hy : y = 0
    · subst hy; simp [h0]
    · have : x.degree < n := by
        have h1 : k.degree = x.degree + y.degree := by rw [← e]; exact map_add _ _ _
        have h2 : y.degree ≠ 0 := by
          intro h; exact hy ((Finsupp.degree_eq_zero_iff y).1 h)
        omega
      simp [ih x this]

theorem taylor_eq {q : MvPolynomial ℕ ℂ} (h0 : coeff 0 q = 0) (k : ℕ →₀ ℕ) {N : ℕ}
    (hN : k.degree + 1 ≤ N) :
    taylor q k = ∑ n ∈ Finset.range N, coeff k (q ^ n) / (n.factorial : ℂ) := by
  unfold taylor
  apply Finset.sum_subset
  · intro x; simp; omega
  · intro n _ hn
    simp at hn
    rw [coeff_pow_eq_zero h0 n k (by omega)]; simp

theorem coeff_pderiv (p : MvPolynomial ℕ ℂ) (i : ℕ) (k : ℕ →₀ ℕ) :
    coeff k (pderiv i p) = ((k i : ℂ) + 1) * coeff (k + Finsupp.single i 1) p := by
  induction p using MvPolynomial.induction_on' with
  | monomial u a =>
    rw [pderiv_monomial, coeff_monomial, coeff_monomial]
    by_cases h : u = k + Finsupp.single i 1
    · subst h
      simp [mul_comm]
    · rw [if_neg h]
      by_cases h' : u - Finsupp.single i 1 = k
      · rw [if_pos h']
        have : u i = 0 := by
          by_contra hu
          apply h
          rw [← h']
          ext j
          by_cases hj : j = i
          · subst hj; simp; omega
          · simp [Finsupp.single_apply, Ne.symm hj]
        simp [this]
      · rw [if_neg h']; simp
  | add p q hp hq => rw [map_add, coeff_add, coeff_add, hp, hq]; ring

theorem expo_coeff_zero (D A b) : coeff 0 (expo D A b) = 0 := by
  unfold expo
  simp [coeff_sum, coeff_zero_X, ← constantCoeff_eq]

theorem pderiv_expo {D A b} (hA : Symm D A) {i : ℕ} (hi : i < D) :
    pderiv i (expo D A b) = C (b i) + ∑ j ∈ Finset.range D, C (A i j) * X j := by
  unfold expo
  have hi' : i ∈ Finset.range D := Finset.mem_range.2 hi
  simp only [map_add, map_sum, Derivation.leibniz, pderiv_C, smul_eq_mul, mul_zero, add_zero, pderiv_X,
    zero_add]
  congr 1
  · rw [Finset.sum_eq_single i]
    · simp
    · intro j _ hj; simp [Pi.single_apply, hj]
    · intro h; exact absurd hi' h
  · have : ∑ x ∈ Finset.range D, ∑ y ∈ Finset.range D,
        C (A x y) * (X x * Pi.single (M := fun _ => MvPolynomial ℕ ℂ) i 1 y +
          X y * Pi.single (M := fun _ => MvPolynomial ℕ ℂ) i 1 x) =
        ∑ j ∈ Finset.range D, C (A j i) * X j + ∑ j ∈ Finset.range D, C (A i j) * X j := by
      simp only [mul_add, Finset.sum_add_distrib]
      congr 1
      · apply Finset.sum_congr rfl
        intro x _
        rw [Finset.sum_eq_single i]
        · simp
        · intro j _ hj; simp [Pi.single_apply, Ne.symm hj]
        · intro h; exact absurd hi' h
      · rw [Finset.sum_eq_single i]
        · simp
        · intro j _ hj; simp [Pi.single_apply, Ne.symm hj]
        · intro h; exact absurd hi' h
    have h2 : ∑ j ∈ Finset.range D, C (A j i) * X j =
        ∑ j ∈ Finset.range D, (C (A i j) * X j : MvPolynomial ℕ ℂ) := by
      apply Finset.sum_congr rfl
      intro j hj
      rw [hA i hi j (Finset.mem_range.1 hj)]
    rw [h2] at this
    rw [this, ← two_mul, ← mul_assoc]
    have : (C (1 / 2) * 2 : MvPolynomial ℕ ℂ) = 1 := by
      rw [show (2 : MvPolynomial ℕ ℂ) = C 2 from rfl, ← C_mul]; simp
    rw [this, one_mul]

/-- `k - e_j` in the lattice of multi-indices. -/
noncomputable def dn (k : ℕ →₀ ℕ) (j : ℕ) : ℕ →₀ ℕ := k - Finsupp.single j 1
/-- `k + e_j`. -/
noncomputable def up (k : ℕ →₀ ℕ) (j : ℕ) : ℕ →₀ ℕ := k + Finsupp.single j 1

theorem degree_up (k i) : (up k i).degree = k.degree + 1 := by
  unfold up; rw [map_add]; simp

theorem degree_dn (k : ℕ →₀ ℕ) (i) : (dn k i).degree ≤ k.degree := by
  unfold dn
  apply Finsupp.degree_mono
  exact tsub_le_self

theorem taylor_rec {D A b} (hA : Symm D A) {i : ℕ} (hi : i < D) (k : ℕ →₀ ℕ) :
    ((k i : ℂ) + 1) * taylor (expo D A b) (up k i) =
      b i * taylor (expo D A b) k +
        ∑ j ∈ Finset.range D, if k j = 0 then 0 else A i j * taylor (expo D A b) (dn k j) := by
  set q := expo D A b with hq
  have h0 : coeff 0 q = 0 := expo_coeff_zero D A b
  have hd : pderiv i q = C (b i) + ∑ j ∈ Finset.range D, C (A i j) * X j := pderiv_expo hA hi
  rw [taylor_eq h0 (up k i) (N := k.degree + 2) (by rw [degree_up])]
  have hz : coeff (up k i) (q ^ 0) = 0 := by
    rw [pow_zero, coeff_one, if_neg]
    intro e
    have := degree_up k i
    rw [← e] at this; simp at this
  have step : ∀ n, ((k i : ℂ) + 1) * (coeff (up k i) (q ^ (n + 1)) / ((n + 1).factorial : ℂ)) =
      b i * (coeff k (q ^ n) / (n.factorial : ℂ)) +
        ∑ j ∈ Finset.range D, if k j = 0 then 0 else A i j * (coeff (dn k j) (q ^ n) / (n.factorial : ℂ)) := by
    intro n
    have h1 : ((k i : ℂ) + 1) * coeff (up k i) (q ^ (n + 1)) = coeff k (pderiv i (q ^ (n + 1))) :=
      (coeff_pderiv _ _ _).symm
    have h2 : pderiv i (q ^ (n + 1)) = C ((n : ℂ) + 1) * (q ^ n * pderiv i q) := by
      rw [Derivation.leibniz_pow]
      simp only [Nat.add_sub_cancel, smul_eq_mul, nsmul_eq_mul, map_add, map_natCast, map_one]
      push_cast; ring
    have h3 : coeff k (q ^ n * pderiv i q) = b i * coeff k (q ^ n) +
        ∑ j ∈ Finset.range D, if k j = 0 then 0 else A i j * coeff (dn k j) (q ^ n) := by
      rw [hd, mul_add, coeff_add, mul_comm (q ^ n) (C (b i)), coeff_C_mul, Finset.mul_sum, coeff_sum]
      congr 1
      apply Finset.sum_congr rfl
      intro j _
      rw [show q ^ n * (C (A i j) * X j) = C (A i j) * (q ^ n * X j) by ring, coeff_C_mul, coeff_mul_X']
      by_cases h : k j = 0
      · simp [h]
      · simp [h, dn]
    have hn : ((n : ℂ) + 1) ≠ 0 := by exact_mod_cast Nat.succ_ne_zero n
    have hf : (n.factorial : ℂ) ≠ 0 := by exact_mod_cast n.factorial_ne_zero
    rw [mul_div_assoc', h1, h2, coeff_C_mul, h3, Nat.factorial_succ]
    push_cast
    rw [mul_div_mul_left _ _ hn, add_div, Finset.sum_div, mul_div_assoc]
    congr 1
    apply Finset.sum_congr rfl
    intro j _
    split_ifs
    · simp
    · rw [mul_div_assoc]
  rw [Finset.sum_range_succ', hz, zero_div, add_zero, Finset.mul_sum]
  simp only [step]
  rw [Finset.sum_add_distrib, ← Finset.mul_sum, ← taylor_eq h0 k le_rfl, Finset.sum_comm]
  congr 1
  apply Finset.sum_congr rfl
  intro j _
  split_ifs
  · simp
  · rw [← Finset.mul_sum, ← taylor_eq h0 (dn k j) (by have := degree_dn k j; omega)]

theorem sqrtFact_eq (k : ℕ →₀ ℕ) {s : Finset ℕ} (h : k.support ⊆ s) :
    sqrtFact k = ∏ i ∈ s, (Real.sqrt ((k i).factorial : ℝ) : ℂ) := by
  unfold sqrtFact
  apply Finset.prod_subset h
  intro x _ hx
  simp at hx; simp [hx]

theorem sqrtFact_up (k : ℕ →₀ ℕ) (i : ℕ) : sqrtFact (up k i) = sq (k i + 1) * sqrtFact k := by
  have h1 : (up k i).support ⊆ insert i k.support := by
    intro x hx
    simp only [up, Finsupp.mem_support_iff, Finsupp.add_apply] at hx
    simp only [Finset.mem_insert, Finsupp.mem_support_iff]
    by_cases h : x = i
    · exact Or.inl h
    · right; simpa [Finsupp.single_apply, Ne.symm h] using hx
  have h2 : k.support ⊆ insert i k.support := Finset.subset_insert _ _
  rw [sqrtFact_eq _ h1, sqrtFact_eq _ h2, ← Finset.mul_prod_erase _ _ (Finset.mem_insert_self i _),
    ← Finset.mul_prod_erase (insert i k.support) (fun i => (Real.sqrt ((k i).factorial : ℝ) : ℂ))
      (Finset.mem_insert_self i _), ← mul_assoc]
  congr 1
  · simp only [up, Finsupp.add_apply, Finsupp.single_eq_same, sq, Nat.factorial_succ]
    rw [← Complex.ofReal_mul, ← Real.sqrt_mul (Nat.cast_nonneg _)]
    push_cast; rfl
  · apply Finset.prod_congr rfl
    intro x hx
    have : x ≠ i := (Finset.mem_erase.1 hx).1
    simp [up, Finsupp.single_apply, Ne.symm this]

theorem up_dn {k : ℕ →₀ ℕ} {i : ℕ} (h : k i ≠ 0) : up (dn k i) i = k := by
  ext j
  unfold up dn
  by_cases hj : i = j
  · subst hj; simp; omega
  · simp [Finsupp.single_apply, hj]

/-- The recursion: for every direction `i` that can be lowered. -/
theorem amp_up {D A b} (c : ℂ) (hA : Symm D A) {i : ℕ} (hi : i < D) (k : ℕ →₀ ℕ) :
    sq (k i + 1) * amp D A b c (up k i) =
      b i * amp D A b c k + ∑ j ∈ Finset.range D, A i j * sq (k j) * amp D A b c (dn k j) := by
  have h := taylor_rec (b := b) hA hi k
  have hs := sq_mul_self (k i + 1)
  push_cast at hs
  have : sq (k i + 1) * amp D A b c (up k i) = c * sqrtFact k *
      (((k i : ℂ) + 1) * taylor (expo D A b) (up k i)) := by
    unfold amp
    rw [sqrtFact_up, ← hs]; ring
  rw [this, h, mul_add, Finset.mul_sum]
  congr 1
  · unfold amp; ring
  · apply Finset.sum_congr rfl
    intro j _
    by_cases hj : k j = 0
    · simp [hj]
    · rw [if_neg hj]
      have h1 : sqrtFact k = sq (k j) * sqrtFact (dn k j) := by
        conv_lhs => rw [← up_dn hj]
        rw [sqrtFact_up]
        congr 2
        simp [dn]; omega
      unfold amp
      rw [h1]; ring

/-- The recursion in the form used by the code (`G_k` from a pivot `k - e_i`). -/
theorem amp_rec {D A b} (c : ℂ) (hA : Symm D A) {i : ℕ} (hi : i < D) (k : ℕ →₀ ℕ) (hk : k i ≠ 0) :
    amp D A b c k = (b i * amp D A b c (dn k i) +
      ∑ j ∈ Finset.range D, A i j * sq (dn k i j) * amp D A b c (dn (dn k i) j)) / sq (k i) := by
  rw [eq_div_iff (sq_ne_zero hk), ← amp_up c hA hi, up_dn hk, mul_comm]
  congr 2
  simp [dn]; omega

theorem amp_zero {D A b} (c : ℂ) : amp D A b c 0 = c := by
  simp [amp, sqrtFact, taylor]

end Verif.Fock
