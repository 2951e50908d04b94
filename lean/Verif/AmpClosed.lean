import Verif.FockArray
import Mathlib.Tactic.IntervalCases
import Mathlib.Tactic.LinearCombination
import Mathlib.Tactic.FieldSimp

/-!
# Closed forms of Fock amplitudes

A function of the multi-index that starts with `c` and satisfies, for one positive entry of each index, the recursion of the Taylor coefficients is the
Taylor coefficient.
-/

namespace Verif.Fock
open Verif.Batch

/-- `f (m - 1)`, and 0 for `m = 0`. -/
def pr (f : ℕ → ℂ) : ℕ → ℂ
  | 0 => 0
  | m + 1 => f m

theorem amp_taylor {D : ℕ} {A : ℕ → ℕ → ℂ} {b : ℕ → ℂ} {c : ℂ} (hA : Symm D A) (T : (ℕ →₀ ℕ) → ℂ) (h0 : T 0 = c)
    (hrec : ∀ k, Below D k → k ≠ 0 → ∃ i < D, k i ≠ 0 ∧ (k i : ℂ) * T k = b i * T (dn k i) +
      ∑ j ∈ Finset.range D, A i j * if dn k i j = 0 then 0 else T (dn (dn k i) j)) :
    ∀ k, Below D k → amp D A b c k = sqrtFact k * T k := by
  have main : ∀ n, ∀ k : ℕ →₀ ℕ, k.degree = n → Below D k → amp D A b c k = sqrtFact k * T k := by
    intro n
    induction n using Nat.strong_induction_on with
    | _ n ih =>
    intro k hk hB
    by_cases hz : k = 0
    · subst hz; rw [h0, amp_zero]; simp [sqrtFact]
    · obtain ⟨i, hiD, hi, r1⟩ := hrec k hB hz
      set p := dn k i with hp
      have hup : up p i = k := up_dn hi
      have hdeg : p.degree + 1 = n := by rw [← hk, ← hup, degree_up]
      have hpB : Below D p := hB.dn i
      have r2 := amp_up (b := b) c hA hiD p
      rw [hup] at r2
      have hki : p i + 1 = k i := by rw [hp, dn_apply, if_pos rfl]; omega
      have hs : Fock.sq (p i + 1) ≠ 0 := sq_ne_zero (Nat.succ_ne_zero _)
      apply mul_left_cancel₀ hs
      rw [r2, ih p.degree (by omega) p rfl hpB]
      have e : ∀ j ∈ Finset.range D, A i j * Fock.sq (p j) * amp D A b c (dn p j) = sqrtFact p * (A i j * if p j = 0 then 0 else T (dn p j)) := by
        intro j _
        split_ifs with hj
        · rw [hj]; simp
        · have h1 : sqrtFact p = Fock.sq (p j) * sqrtFact (dn p j) := by
            conv_lhs => rw [← up_dn hj]
            rw [sqrtFact_up, dn_apply, if_pos rfl, Nat.sub_add_cancel (Nat.one_le_iff_ne_zero.2 hj)]
          have := degree_dn p j
          rw [ih (dn p j).degree (by omega) (dn p j) rfl (hpB.dn j), h1]
          ring
      rw [Finset.sum_congr rfl e, ← Finset.mul_sum]
      have hs2 : sqrtFact k = Fock.sq (p i + 1) * sqrtFact p := by rw [← hup, sqrtFact_up]
      rw [hs2]
      have := sq_mul_self (p i + 1)
      rw [hki] at this ⊢
      linear_combination (-sqrtFact p) * r1 - sqrtFact p * T k * this
  intro k; exact main _ k rfl

/-- `√m!`. -/
noncomputable def sf (m : ℕ) : ℂ := (Real.sqrt (m.factorial : ℝ) : ℂ)

theorem sf_ne (m : ℕ) : sf m ≠ 0 := sqrt_fact_ne m
theorem sf_sq (m : ℕ) : sf m * sf m = (m.factorial : ℂ) := by
  unfold sf
  rw [← Complex.ofReal_mul, Real.mul_self_sqrt (by positivity)]
  norm_num

theorem toF_support {l : List ℕ} {D : ℕ} (h : l.length ≤ D) : (toF l).support ⊆ Finset.range D := by
  intro i hi
  rw [Finsupp.mem_support_iff] at hi
  rw [Finset.mem_range]
  by_contra hc
  exact hi (toF_below l h i (by omega))

theorem sqrtFact1 (m : ℕ) : sqrtFact (toF [m]) = sf m := by
  rw [sqrtFact_eq _ (toF_support (D := 1) (by simp))]
  simp [toF_apply, sf]
theorem sqrtFact2 (m n : ℕ) : sqrtFact (toF [m, n]) = sf m * sf n := by
  rw [sqrtFact_eq _ (toF_support (D := 2) (by simp))]
  simp [toF_apply, sf, Finset.prod_range_succ]
theorem sqrtFact4 (m n p q : ℕ) : sqrtFact (toF [m, n, p, q]) = sf m * sf n * sf p * sf q := by
  rw [sqrtFact_eq _ (toF_support (D := 4) (by simp))]
  simp [toF_apply, sf, Finset.prod_range_succ]

theorem ite_pr (f : ℕ → ℂ) (m : ℕ) : (if m = 0 then 0 else f (m - 1)) = pr f m := by cases m <;> simp [pr]

theorem amp1_of {A : ℕ → ℕ → ℂ} {b : ℕ → ℂ} {c : ℂ} (T : ℕ → ℂ) (h0 : T 0 = c)
    (h : ∀ m : ℕ, ((m : ℂ) + 1) * T (m + 1) = b 0 * T m + A 0 0 * pr T m) (m : ℕ) : amp 1 A b c (toF [m]) = sf m * T m := by
  rw [amp_taylor (fun i hi j hj => by interval_cases i; interval_cases j; rfl) (fun k => T (k 0)) h0 ?_ _ (toF_below _ (by simp)), sqrtFact1]
  · simp [toF_apply]
  intro k hk hz
  have h1 : k 0 ≠ 0 := fun hc => hz (by
    ext i
    by_cases hi : i = 0
    · rw [hi, hc]; rfl
    · rw [hk i (by omega)]; rfl)
  refine ⟨0, by omega, h1, ?_⟩
  rw [Finset.sum_range_one, dn_apply, if_pos rfl, dn_apply, dn_apply, if_pos rfl, if_pos rfl, ite_pr]
  obtain ⟨m, hm⟩ := Nat.exists_eq_succ_of_ne_zero h1
  rw [hm]
  have := h m
  push_cast
  exact this

theorem amp2_of {A : ℕ → ℕ → ℂ} {b : ℕ → ℂ} {c : ℂ} (hA : A 0 1 = A 1 0) (T : ℕ → ℕ → ℂ) (h0 : T 0 0 = c)
    (h : ∀ m n : ℕ, ((m : ℂ) + 1) * T (m + 1) n = b 0 * T m n + A 0 0 * pr (fun m => T m n) m + A 0 1 * pr (fun n => T m n) n)
    (h' : ∀ n : ℕ, ((n : ℂ) + 1) * T 0 (n + 1) = b 1 * T 0 n + A 1 1 * pr (fun n => T 0 n) n) (m n : ℕ) : amp 2 A b c (toF [m, n]) = sf m * sf n * T m n := by
  have hs : Symm 2 A := fun i hi j hj => by
    interval_cases i <;> interval_cases j
    · rfl
    · exact hA
    · exact hA.symm
    · rfl
  rw [amp_taylor hs (fun k => T (k 0) (k 1)) h0 ?_ _ (toF_below _ (by simp)), sqrtFact2]
  · simp [toF_apply]
  intro k hk hz
  by_cases h1 : k 0 = 0
  · have h2 : k 1 ≠ 0 := fun hc => hz (by
      ext i
      by_cases hi : i = 0
      · rw [hi, h1]; rfl
      · by_cases hi' : i = 1
        · rw [hi', hc]; rfl
        · rw [hk i (by omega)]; rfl)
    refine ⟨1, by omega, h2, ?_⟩
    obtain ⟨n, hn⟩ := Nat.exists_eq_succ_of_ne_zero h2
    have := h' n
    simp only [Finset.sum_range_succ, Finset.sum_range_zero, dn_apply]
    simp [h1, hn, ite_pr (fun n => T 0 n)]
    exact this
  · refine ⟨0, by omega, h1, ?_⟩
    obtain ⟨m, hm⟩ := Nat.exists_eq_succ_of_ne_zero h1
    have := h m (k 1)
    simp only [Finset.sum_range_succ, Finset.sum_range_zero, dn_apply]
    simp [hm, ite_pr (fun m => T m (k 1)), ite_pr (fun n => T m n)]
    rw [← add_assoc]
    exact this

/-! ### One variable -/

theorem amp1_linear {A : ℕ → ℕ → ℂ} {b : ℕ → ℂ} {c : ℂ} (hA : A 0 0 = 0) (m : ℕ) : amp 1 A b c (toF [m]) = c * b 0 ^ m / sf m := by
  rw [amp1_of (fun m => c * b 0 ^ m / (m.factorial : ℂ)) (by simp) (fun m => ?_) m]
  · have := sf_sq m
    have h1 := sf_ne m
    rw [← this]
    field_simp
  · have : ((m : ℂ) + 1) ≠ 0 := by exact_mod_cast Nat.succ_ne_zero m
    have h2 : (m.factorial : ℂ) ≠ 0 := by exact_mod_cast m.factorial_ne_zero
    rw [hA, zero_mul, add_zero, Nat.factorial_succ]
    push_cast
    field_simp
    ring

theorem amp1_even {A : ℕ → ℕ → ℂ} {b : ℕ → ℂ} {c : ℂ} (hb : b 0 = 0) (n : ℕ) :
    amp 1 A b c (toF [2 * n]) = c * sf (2 * n) * (A 0 0 / 2) ^ n / (n.factorial : ℂ) ∧ amp 1 A b c (toF [2 * n + 1]) = 0 := by
  have h : ∀ m, amp 1 A b c (toF [m]) = sf m * if m % 2 = 0 then c * (A 0 0 / 2) ^ (m / 2) / ((m / 2).factorial : ℂ) else 0 := by
    refine amp1_of (fun m => if m % 2 = 0 then c * (A 0 0 / 2) ^ (m / 2) / ((m / 2).factorial : ℂ) else 0) (by simp) fun m => ?_
    rw [hb, zero_mul, zero_add]
    cases m with
    | zero => simp [pr]
    | succ m =>
      simp only [pr]
      by_cases hm : m % 2 = 0
      · rw [if_pos (by omega : (m + 1 + 1) % 2 = 0), if_pos hm, show (m + 1 + 1) / 2 = m / 2 + 1 by omega, Nat.factorial_succ]
        obtain ⟨q, rfl⟩ : ∃ q, m = 2 * q := ⟨m / 2, by omega⟩
        rw [Nat.mul_div_cancel_left _ (by omega)]
        have : ((q : ℂ) + 1) ≠ 0 := by exact_mod_cast Nat.succ_ne_zero q
        have h2 : (q.factorial : ℂ) ≠ 0 := by exact_mod_cast q.factorial_ne_zero
        push_cast
        field_simp
        ring
      · rw [if_neg (by omega : ¬ (m + 1 + 1) % 2 = 0), if_neg hm]; simp
  constructor
  · rw [h, if_pos (by omega), Nat.mul_div_cancel_left _ (by omega)]; ring
  · rw [h, if_neg (by omega), mul_zero]

/-! ### Two variables coupled by `a z₀ z₁` -/

/-- `∑_j C(m,j) C(n,j) j! a^j x^(m-j) y^(n-j)`. -/
noncomputable def S2 (a x y : ℂ) (m n : ℕ) : ℂ :=
  ∑ j ∈ Finset.range (m + 1), (m.choose j : ℂ) * (n.choose j : ℂ) * (j.factorial : ℂ) * a ^ j * x ^ (m - j) * y ^ (n - j)

theorem S2_succ (a x y : ℂ) (m n : ℕ) : S2 a x y (m + 1) n = x * S2 a x y m n + a * (n : ℂ) * S2 a x y m (n - 1) := by
  unfold S2
  rw [Finset.sum_range_succ', Finset.mul_sum, Finset.mul_sum]
  have e : ∀ j ∈ Finset.range (m + 1), ((m + 1).choose (j + 1) : ℂ) * (n.choose (j + 1) : ℂ) * ((j + 1).factorial : ℂ) * a ^ (j + 1) * x ^ (m + 1 - (j + 1)) *
      y ^ (n - (j + 1)) = x * ((m.choose (j + 1) : ℂ) * (n.choose (j + 1) : ℂ) * ((j + 1).factorial : ℂ) * a ^ (j + 1) * x ^ (m - (j + 1)) * y ^ (n - (j + 1))) +
      a * (n : ℂ) * ((m.choose j : ℂ) * ((n - 1).choose j : ℂ) * (j.factorial : ℂ) * a ^ j * x ^ (m - j) * y ^ (n - 1 - j)) := by
    intro j hj
    rw [Nat.choose_succ_succ m j, Nat.add_sub_add_right, show n - 1 - j = n - (j + 1) by omega]
    have h1 : (n.choose (j + 1) : ℂ) * ((j : ℂ) + 1) = n * ((n - 1).choose j : ℂ) := by
      cases n with
      | zero => simp
      | succ n =>
        have := Nat.add_one_mul_choose_eq n j
        rw [Nat.add_sub_cancel]
        exact_mod_cast this.symm
    have h2 : (m.choose (j + 1) : ℂ) * x ^ (m - j) = (m.choose (j + 1) : ℂ) * (x * x ^ (m - (j + 1))) := by
      by_cases h : j + 1 ≤ m
      · rw [← pow_succ', show m - (j + 1) + 1 = m - j by omega]
      · rw [Nat.choose_eq_zero_of_lt (by omega)]; simp
    rw [Nat.factorial_succ]
    push_cast
    linear_combination ((n.choose (j + 1) : ℂ) * (((j : ℂ) + 1) * (j.factorial : ℂ)) * a ^ (j + 1) * y ^ (n - (j + 1))) * h2 +
      ((m.choose j : ℂ) * (j.factorial : ℂ) * a ^ (j + 1) * x ^ (m - j) * y ^ (n - (j + 1))) * h1
  rw [Finset.sum_congr rfl e, Finset.sum_add_distrib, ← Finset.mul_sum, ← Finset.mul_sum, ← Finset.mul_sum]
  have e2 : ∑ j ∈ Finset.range (m + 1), (m.choose j : ℂ) * (n.choose j : ℂ) * (j.factorial : ℂ) * a ^ j * x ^ (m - j) * y ^ (n - j) =
      ∑ j ∈ Finset.range (m + 1), (m.choose (j + 1) : ℂ) * (n.choose (j + 1) : ℂ) * ((j + 1).factorial : ℂ) * a ^ (j + 1) * x ^ (m - (j + 1)) * y ^ (n - (j + 1)) +
      x ^ m * y ^ n := by
    rw [Finset.sum_range_succ', Finset.sum_range_succ _ m, Nat.choose_eq_zero_of_lt (by omega : m < m + 1)]
    simp
  rw [e2]
  simp only [Nat.choose_zero_right, Nat.factorial_zero, pow_zero, Nat.sub_zero, Nat.cast_one]
  ring

theorem amp2_offdiag {A : ℕ → ℕ → ℂ} {b : ℕ → ℂ} {c : ℂ} (hA : A 0 1 = A 1 0) (h00 : A 0 0 = 0) (h11 : A 1 1 = 0) (m n : ℕ) :
    amp 2 A b c (toF [m, n]) = c * S2 (A 0 1) (b 0) (b 1) m n / (sf m * sf n) := by
  rw [amp2_of hA (fun m n => c * S2 (A 0 1) (b 0) (b 1) m n / ((m.factorial : ℂ) * (n.factorial : ℂ))) (by simp [S2]) (fun m n => ?_) (fun n => ?_) m n]
  · rw [← sf_sq, ← sf_sq]
    have h1 := sf_ne m
    have h2 := sf_ne n
    field_simp
  · have h1 : ((m : ℂ) + 1) ≠ 0 := by exact_mod_cast Nat.succ_ne_zero m
    have h2 : (m.factorial : ℂ) ≠ 0 := by exact_mod_cast m.factorial_ne_zero
    have h3 : (n.factorial : ℂ) ≠ 0 := by exact_mod_cast n.factorial_ne_zero
    rw [S2_succ, h00, zero_mul, add_zero, Nat.factorial_succ]
    cases n with
    | zero =>
      simp only [pr]
      push_cast
      field_simp
      ring
    | succ n =>
      have h4 : ((n : ℂ) + 1) ≠ 0 := by exact_mod_cast Nat.succ_ne_zero n
      have h5 : (n.factorial : ℂ) ≠ 0 := by exact_mod_cast n.factorial_ne_zero
      simp only [pr, Nat.add_sub_cancel]
      rw [Nat.factorial_succ n]
      push_cast
      field_simp
  · have h1 : ((n : ℂ) + 1) ≠ 0 := by exact_mod_cast Nat.succ_ne_zero n
    have h2 : (n.factorial : ℂ) ≠ 0 := by exact_mod_cast n.factorial_ne_zero
    rw [h11, zero_mul, add_zero, Nat.factorial_succ]
    simp only [S2, Finset.sum_range_one, zero_add, Nat.choose_zero_right, Nat.factorial_zero, pow_zero, Nat.sub_zero, Nat.cast_one]
    push_cast
    field_simp
    ring

theorem S2_zero (a : ℂ) (m n : ℕ) : S2 a 0 0 m n = if m = n then (m.factorial : ℂ) * a ^ m else 0 := by
  unfold S2
  rw [Finset.sum_range_succ, Finset.sum_eq_zero]
  · by_cases h : m = n
    · subst h; simp
    · rw [if_neg h]
      by_cases h2 : n < m
      · rw [Nat.choose_eq_zero_of_lt h2]; simp
      · rw [zero_pow (by omega : n - m ≠ 0)]; simp
  · intro j hj
    rw [Finset.mem_range] at hj
    rw [zero_pow (by omega : m - j ≠ 0)]; simp

theorem amp2_diag {A : ℕ → ℕ → ℂ} {b : ℕ → ℂ} {c : ℂ} (hA : A 0 1 = A 1 0) (h00 : A 0 0 = 0) (h11 : A 1 1 = 0) (hb0 : b 0 = 0) (hb1 : b 1 = 0) (m n : ℕ) :
    amp 2 A b c (toF [m, n]) = if m = n then c * A 0 1 ^ m else 0 := by
  rw [amp2_offdiag hA h00 h11, hb0, hb1, S2_zero]
  split_ifs with h
  · subst h
    rw [sf_sq]
    have h2 : (m.factorial : ℂ) ≠ 0 := by exact_mod_cast m.factorial_ne_zero
    field_simp
  · simp

/-! ### Two variables, general form -/

/-- `∑_j s^j/j! u(m-j) v(n-j)` over `j ≤ min m n`. -/
noncomputable def conv (s : ℂ) (u v : ℕ → ℂ) (m n : ℕ) : ℂ :=
  ∑ j ∈ Finset.range (m + 1), if j ≤ n then s ^ j / (j.factorial : ℂ) * u (m - j) * v (n - j) else 0

theorem conv_succ {a b s : ℂ} {u v : ℕ → ℂ} (hu : ∀ m : ℕ, ((m : ℂ) + 1) * u (m + 1) = b * u m + a * pr u m) (m n : ℕ) :
    ((m : ℂ) + 1) * conv s u v (m + 1) n = b * conv s u v m n + a * pr (fun m => conv s u v m n) m + s * pr (fun n => conv s u v m n) n := by
  have e1 : ∀ j ∈ Finset.range (m + 1), ((m : ℂ) + 1) * (if j ≤ n then s ^ j / (j.factorial : ℂ) * u (m + 1 - j) * v (n - j) else 0) =
      (b * (if j ≤ n then s ^ j / (j.factorial : ℂ) * u (m - j) * v (n - j) else 0) +
        a * (if j ≤ n then s ^ j / (j.factorial : ℂ) * pr u (m - j) * v (n - j) else 0)) +
      (j : ℂ) * (if j ≤ n then s ^ j / (j.factorial : ℂ) * u (m + 1 - j) * v (n - j) else 0) := by
    intro j hj
    rw [Finset.mem_range] at hj
    split_ifs with h
    · have := hu (m - j)
      rw [show m - j + 1 = m + 1 - j by omega, Nat.cast_sub (by omega)] at this
      linear_combination (s ^ j / (j.factorial : ℂ) * v (n - j)) * this
    · simp
  have e2 : ∑ j ∈ Finset.range (m + 1), (if j ≤ n then s ^ j / (j.factorial : ℂ) * pr u (m - j) * v (n - j) else 0) = pr (fun m => conv s u v m n) m := by
    cases m with
    | zero => simp [pr]
    | succ m =>
      rw [Finset.sum_range_succ]
      simp only [Nat.sub_self, pr, mul_zero, zero_mul, ite_self, add_zero]
      unfold conv
      refine Finset.sum_congr rfl fun j hj => ?_
      rw [Finset.mem_range] at hj
      rw [show m + 1 - j = (m - j) + 1 by omega]
  have e3 : ∑ j ∈ Finset.range (m + 2), (j : ℂ) * (if j ≤ n then s ^ j / (j.factorial : ℂ) * u (m + 1 - j) * v (n - j) else 0) =
      s * pr (fun n => conv s u v m n) n := by
    rw [Finset.sum_range_succ']
    simp only [Nat.cast_zero, zero_mul, add_zero]
    cases n with
    | zero => simp [pr]
    | succ n =>
      simp only [pr, conv, Finset.mul_sum, Nat.add_le_add_iff_right, Nat.add_sub_add_right]
      refine Finset.sum_congr rfl fun j _ => ?_
      split_ifs
      · have h1 : ((j : ℂ) + 1) ≠ 0 := by exact_mod_cast Nat.succ_ne_zero j
        have h2 : (j.factorial : ℂ) ≠ 0 := by exact_mod_cast j.factorial_ne_zero
        rw [Nat.factorial_succ]
        push_cast
        field_simp
        ring
      · simp
  rw [← e3, ← e2]
  unfold conv
  rw [Finset.mul_sum, Finset.sum_range_succ, Finset.sum_congr rfl e1, Finset.sum_add_distrib, Finset.sum_add_distrib, ← Finset.mul_sum, ← Finset.mul_sum,
    Finset.sum_range_succ _ (m + 1)]
  push_cast
  ring

theorem amp2_conv {A : ℕ → ℕ → ℂ} {b : ℕ → ℂ} {c : ℂ} (hA : A 0 1 = A 1 0) {u v : ℕ → ℂ} (u0 : u 0 = 1) (v0 : v 0 = 1)
    (hu : ∀ m : ℕ, ((m : ℂ) + 1) * u (m + 1) = b 0 * u m + A 0 0 * pr u m) (hv : ∀ m : ℕ, ((m : ℂ) + 1) * v (m + 1) = b 1 * v m + A 1 1 * pr v m) (m n : ℕ) :
    amp 2 A b c (toF [m, n]) = c * (sf m * sf n) * conv (A 0 1) u v m n := by
  rw [amp_smul, amp2_of hA (fun m n => conv (A 0 1) u v m n) (by simp [conv, u0, v0]) (fun m n => conv_succ hu m n) (fun n => ?_) m n]
  · ring
  · have e : ∀ n, conv (A 0 1) u v 0 n = v n := fun n => by simp [conv, u0]
    simp only [e]
    exact hv n

/-- `(a/2)^{i/2} / (i/2)!` for even `i`, 0 for odd. -/
noncomputable def hev (a : ℂ) (i : ℕ) : ℂ := if i % 2 = 0 then (a / 2) ^ (i / 2) / ((i / 2).factorial : ℂ) else 0

theorem hev_succ (a : ℂ) (m : ℕ) : ((m : ℂ) + 1) * hev a (m + 1) = 0 * hev a m + a * pr (hev a) m := by
  rw [zero_mul, zero_add]
  unfold hev
  cases m with
  | zero => simp [pr]
  | succ m =>
    simp only [pr]
    by_cases hm : m % 2 = 0
    · rw [if_pos (by omega : (m + 1 + 1) % 2 = 0), if_pos hm, show (m + 1 + 1) / 2 = m / 2 + 1 by omega, Nat.factorial_succ]
      obtain ⟨q, rfl⟩ : ∃ q, m = 2 * q := ⟨m / 2, by omega⟩
      rw [Nat.mul_div_cancel_left _ (by omega)]
      have : ((q : ℂ) + 1) ≠ 0 := by exact_mod_cast Nat.succ_ne_zero q
      have h2 : (q.factorial : ℂ) ≠ 0 := by exact_mod_cast q.factorial_ne_zero
      push_cast
      field_simp
      ring
    · rw [if_neg (by omega : ¬ (m + 1 + 1) % 2 = 0), if_neg hm]; simp

/-! ### Loss and gain -/

/-- Taylor coefficients of `exp(e x₀ x₁ + e x₂ x₃ + f x₁ x₃)`. -/
noncomputable def TL (e f : ℂ) (m k n l : ℕ) : ℂ :=
  if m ≤ k ∧ n ≤ l ∧ k - m = l - n then e ^ (m + n) * f ^ (k - m) / ((m.factorial : ℂ) * (n.factorial : ℂ) * ((k - m).factorial : ℂ)) else 0

theorem TL_0 (e f : ℂ) (m k n l : ℕ) : ((m : ℂ) + 1) * TL e f (m + 1) k n l = e * pr (fun k => TL e f m k n l) k := by
  cases k with
  | zero => simp [TL, pr]
  | succ k =>
    simp only [pr, TL, Nat.add_sub_add_right, Nat.add_le_add_iff_right]
    split_ifs
    · have h1 : ((m : ℂ) + 1) ≠ 0 := by exact_mod_cast Nat.succ_ne_zero m
      have h2 : (m.factorial : ℂ) ≠ 0 := by exact_mod_cast m.factorial_ne_zero
      rw [Nat.factorial_succ]
      push_cast
      field_simp
      ring
    · simp

theorem TL_2 (e f : ℂ) (m k n l : ℕ) : ((n : ℂ) + 1) * TL e f m k (n + 1) l = e * pr (fun l => TL e f m k n l) l := by
  cases l with
  | zero => simp [TL, pr]
  | succ l =>
    simp only [pr, TL, Nat.add_sub_add_right, Nat.add_le_add_iff_right]
    split_ifs
    · have h1 : ((n : ℂ) + 1) ≠ 0 := by exact_mod_cast Nat.succ_ne_zero n
      have h2 : (n.factorial : ℂ) ≠ 0 := by exact_mod_cast n.factorial_ne_zero
      rw [Nat.factorial_succ]
      push_cast
      field_simp
      ring
    · simp

theorem TL_1 (e f : ℂ) (k l : ℕ) : ((k : ℂ) + 1) * TL e f 0 (k + 1) 0 l = f * pr (fun l => TL e f 0 k 0 l) l := by
  cases l with
  | zero => simp [TL, pr]
  | succ l =>
    simp only [pr, TL, Nat.zero_le, Nat.sub_zero, true_and, Nat.add_right_cancel_iff]
    split_ifs
    · have h1 : ((k : ℂ) + 1) ≠ 0 := by exact_mod_cast Nat.succ_ne_zero k
      have h2 : (k.factorial : ℂ) ≠ 0 := by exact_mod_cast k.factorial_ne_zero
      rw [Nat.factorial_succ k]
      push_cast
      field_simp
      ring
    · simp

theorem TL_3 (e f : ℂ) (l : ℕ) : TL e f 0 0 0 (l + 1) = 0 := by simp [TL]

/-- `√(m! k! n! l!)` times the Taylor coefficient. -/
theorem TL_amp (e f : ℂ) (m k n l : ℕ) : sf m * sf k * sf n * sf l * TL e f m k n l =
    if m ≤ k ∧ n ≤ l ∧ k - m = l - n then e ^ (m + n) * f ^ (k - m) * ((Real.sqrt (k.choose m * l.choose n) : ℝ) : ℂ) else 0 := by
  unfold TL
  split_ifs with h
  · obtain ⟨h1, h2, h3⟩ := h
    have e1 : sf k * sf l = sf m * sf n * ((k - m).factorial : ℂ) * ((Real.sqrt (k.choose m * l.choose n) : ℝ) : ℂ) := by
      unfold sf
      have : Real.sqrt (k.factorial : ℝ) * Real.sqrt (l.factorial : ℝ) =
          Real.sqrt (m.factorial : ℝ) * Real.sqrt (n.factorial : ℝ) * ((k - m).factorial : ℝ) * Real.sqrt (k.choose m * l.choose n) := by
        rw [← Nat.choose_mul_factorial_mul_factorial h1, ← Nat.choose_mul_factorial_mul_factorial h2, ← h3]
        push_cast
        have p1 : (0 : ℝ) ≤ k.choose m := by positivity
        have p2 : (0 : ℝ) ≤ l.choose n := by positivity
        have p3 : (0 : ℝ) ≤ m.factorial := by positivity
        have p4 : (0 : ℝ) ≤ n.factorial := by positivity
        have p5 : (0 : ℝ) ≤ (k - m).factorial := by positivity
        rw [Real.sqrt_mul (by positivity), Real.sqrt_mul p1, Real.sqrt_mul (by positivity), Real.sqrt_mul p2, Real.sqrt_mul p1]
        have := Real.mul_self_sqrt p5
        linear_combination (Real.sqrt (k.choose m) * Real.sqrt (m.factorial) * Real.sqrt (l.choose n) * Real.sqrt n.factorial) * this
      exact_mod_cast this
    have h4 := sf_sq m
    have h5 := sf_sq n
    have n1 : (m.factorial : ℂ) ≠ 0 := by exact_mod_cast m.factorial_ne_zero
    have n2 : (n.factorial : ℂ) ≠ 0 := by exact_mod_cast n.factorial_ne_zero
    have n3 : ((k - m).factorial : ℂ) ≠ 0 := by exact_mod_cast (k - m).factorial_ne_zero
    rw [← mul_div_assoc, div_eq_iff (by positivity)]
    rw [← h4, ← h5]
    linear_combination (sf m * sf n * (e ^ (m + n) * f ^ (k - m))) * e1
  · rw [mul_zero]

theorem below4_ne {k : ℕ →₀ ℕ} (hk : Below 4 k) (hz : k ≠ 0) (h0 : k 0 = 0) (h1 : k 1 = 0) (h2 : k 2 = 0) : k 3 ≠ 0 := fun h3 => hz (by
  ext i
  by_cases hi : i < 4
  · interval_cases i <;> simp [*]
  · rw [hk i (by omega)]; rfl)

theorem amp4_loss {A : ℕ → ℕ → ℂ} {b : ℕ → ℂ} {e f : ℂ} (hA : Symm 4 A) (hb : ∀ i < 4, b i = 0) (h00 : A 0 0 = 0) (h01 : A 0 1 = e) (h02 : A 0 2 = 0) (h03 : A 0 3 = 0)
    (h11 : A 1 1 = 0) (h12 : A 1 2 = 0) (h13 : A 1 3 = f) (h22 : A 2 2 = 0) (h23 : A 2 3 = e) (h33 : A 3 3 = 0) (m k n l : ℕ) :
    amp 4 A b 1 (toF [m, k, n, l]) =
      if m ≤ k ∧ n ≤ l ∧ k - m = l - n then e ^ (m + n) * f ^ (k - m) * ((Real.sqrt (k.choose m * l.choose n) : ℝ) : ℂ) else 0 := by
  rw [← TL_amp, amp_taylor hA (fun k => TL e f (k 0) (k 1) (k 2) (k 3)) (by simp [TL]) ?_ _ (toF_below _ (by simp)), sqrtFact4]
  · simp [toF_apply]
  have s10 : A 1 0 = e := by rw [← h01]; exact hA _ (by omega) _ (by omega)
  have s20 : A 2 0 = 0 := by rw [← h02]; exact hA _ (by omega) _ (by omega)
  have s30 : A 3 0 = 0 := by rw [← h03]; exact hA _ (by omega) _ (by omega)
  have s21 : A 2 1 = 0 := by rw [← h12]; exact hA _ (by omega) _ (by omega)
  have s31 : A 3 1 = f := by rw [← h13]; exact hA _ (by omega) _ (by omega)
  have s32 : A 3 2 = e := by rw [← h23]; exact hA _ (by omega) _ (by omega)
  intro k hk hz
  have hb0 := hb 0 (by omega)
  have hb1 := hb 1 (by omega)
  have hb2 := hb 2 (by omega)
  have hb3 := hb 3 (by omega)
  by_cases k0 : k 0 = 0
  · by_cases k2 : k 2 = 0
    · by_cases k1 : k 1 = 0
      · have k3 := below4_ne hk hz k0 k1 k2
        refine ⟨3, by omega, k3, ?_⟩
        obtain ⟨n, hn⟩ := Nat.exists_eq_succ_of_ne_zero k3
        simp only [Finset.sum_range_succ, Finset.sum_range_zero, dn_apply]
        simp [*, TL_3]
      · refine ⟨1, by omega, k1, ?_⟩
        obtain ⟨n, hn⟩ := Nat.exists_eq_succ_of_ne_zero k1
        simp only [Finset.sum_range_succ, Finset.sum_range_zero, dn_apply]
        simp [*, TL_1, ite_pr (fun l => TL e f 0 n 0 l)]
    · refine ⟨2, by omega, k2, ?_⟩
      obtain ⟨n, hn⟩ := Nat.exists_eq_succ_of_ne_zero k2
      simp only [Finset.sum_range_succ, Finset.sum_range_zero, dn_apply]
      simp [*, TL_2, ite_pr (fun l => TL e f 0 (k 1) n l)]
  · refine ⟨0, by omega, k0, ?_⟩
    obtain ⟨n, hn⟩ := Nat.exists_eq_succ_of_ne_zero k0
    simp only [Finset.sum_range_succ, Finset.sum_range_zero, dn_apply]
    simp [*, TL_0, ite_pr (fun p => TL e f n p (k 2) (k 3))]

theorem amp4_gain {A : ℕ → ℕ → ℂ} {b : ℕ → ℂ} {e f : ℂ} (hA : Symm 4 A) (hb : ∀ i < 4, b i = 0) (h00 : A 0 0 = 0) (h01 : A 0 1 = e) (h02 : A 0 2 = f) (h03 : A 0 3 = 0)
    (h11 : A 1 1 = 0) (h12 : A 1 2 = 0) (h13 : A 1 3 = 0) (h22 : A 2 2 = 0) (h23 : A 2 3 = e) (h33 : A 3 3 = 0) (m k n l : ℕ) :
    amp 4 A b 1 (toF [m, k, n, l]) =
      if k ≤ m ∧ l ≤ n ∧ m - k = n - l then e ^ (k + l) * f ^ (m - k) * ((Real.sqrt (m.choose k * n.choose l) : ℝ) : ℂ) else 0 := by
  rw [← TL_amp, amp_taylor hA (fun k => TL e f (k 1) (k 0) (k 3) (k 2)) (by simp [TL]) ?_ _ (toF_below _ (by simp)), sqrtFact4]
  · simp [toF_apply]; left; ring
  have s10 : A 1 0 = e := by rw [← h01]; exact hA _ (by omega) _ (by omega)
  have s20 : A 2 0 = f := by rw [← h02]; exact hA _ (by omega) _ (by omega)
  have s30 : A 3 0 = 0 := by rw [← h03]; exact hA _ (by omega) _ (by omega)
  have s21 : A 2 1 = 0 := by rw [← h12]; exact hA _ (by omega) _ (by omega)
  have s31 : A 3 1 = 0 := by rw [← h13]; exact hA _ (by omega) _ (by omega)
  have s32 : A 3 2 = e := by rw [← h23]; exact hA _ (by omega) _ (by omega)
  intro k hk hz
  have hb0 := hb 0 (by omega)
  have hb1 := hb 1 (by omega)
  have hb2 := hb 2 (by omega)
  have hb3 := hb 3 (by omega)
  by_cases k1 : k 1 = 0
  · by_cases k3 : k 3 = 0
    · by_cases k0 : k 0 = 0
      · have k2 : k 2 ≠ 0 := fun k2 => below4_ne hk hz k0 k1 k2 k3
        refine ⟨2, by omega, k2, ?_⟩
        obtain ⟨n, hn⟩ := Nat.exists_eq_succ_of_ne_zero k2
        simp only [Finset.sum_range_succ, Finset.sum_range_zero, dn_apply]
        simp [*, TL_3]
      · refine ⟨0, by omega, k0, ?_⟩
        obtain ⟨n, hn⟩ := Nat.exists_eq_succ_of_ne_zero k0
        simp only [Finset.sum_range_succ, Finset.sum_range_zero, dn_apply]
        simp [*, TL_1, ite_pr (fun l => TL e f 0 n 0 l)]
    · refine ⟨3, by omega, k3, ?_⟩
      obtain ⟨n, hn⟩ := Nat.exists_eq_succ_of_ne_zero k3
      simp only [Finset.sum_range_succ, Finset.sum_range_zero, dn_apply]
      simp [*, TL_2, ite_pr (fun l => TL e f 0 (k 0) n l)]
  · refine ⟨1, by omega, k1, ?_⟩
    obtain ⟨n, hn⟩ := Nat.exists_eq_succ_of_ne_zero k1
    simp only [Finset.sum_range_succ, Finset.sum_range_zero, dn_apply]
    simp [*, TL_0, ite_pr (fun p => TL e f n p (k 3) (k 2))]

/-! ### Beam splitters -/

/-- `x^{k-j} / (k-j)!`, and 0 for `j > k`. -/
noncomputable def pe (x : ℂ) (k j : ℕ) : ℂ := if j ≤ k then x ^ (k - j) / ((k - j).factorial : ℂ) else 0

theorem pe_succ (x : ℂ) (k j : ℕ) : pe x (k + 1) (j + 1) = pe x k j := by simp [pe]
theorem pe_zero (x : ℂ) (j : ℕ) : pe x 0 (j + 1) = 0 := by simp [pe]

/-- Taylor coefficients of `exp(C x₀ x₂ + x x₀ x₃ + y x₁ x₂ + D x₁ x₃)` with `m` fewer than the total in the second variable. -/
noncomputable def TB (C x y D : ℂ) (m p q : ℕ) : ℂ :=
  ∑ a ∈ Finset.antidiagonal m, C ^ a.1 / (a.1.factorial : ℂ) * (x ^ a.2 / (a.2.factorial : ℂ)) * pe y p a.1 * pe D q a.2

theorem div_fact_succ (x : ℂ) (n : ℕ) : ((n : ℂ) + 1) * (x ^ (n + 1) / ((n + 1).factorial : ℂ)) = x * (x ^ n / (n.factorial : ℂ)) := by
  have h1 : ((n : ℂ) + 1) ≠ 0 := by exact_mod_cast Nat.succ_ne_zero n
  have h2 : (n.factorial : ℂ) ≠ 0 := by exact_mod_cast n.factorial_ne_zero
  rw [Nat.factorial_succ]
  push_cast
  field_simp
  ring

theorem TB_succ (C x y D : ℂ) (m p q : ℕ) :
    ((m : ℂ) + 1) * TB C x y D (m + 1) p q = C * pr (fun p => TB C x y D m p q) p + x * pr (fun q => TB C x y D m p q) q := by
  have h1 : ∑ a ∈ Finset.antidiagonal (m + 1), (a.1 : ℂ) * (C ^ a.1 / (a.1.factorial : ℂ) * (x ^ a.2 / (a.2.factorial : ℂ)) * pe y p a.1 * pe D q a.2) =
      C * pr (fun p => TB C x y D m p q) p := by
    rw [Finset.Nat.sum_antidiagonal_succ]
    simp only [Nat.cast_zero, zero_mul, zero_add]
    cases p with
    | zero => simp [pr, pe_zero]
    | succ p =>
      simp only [pr, TB, Finset.mul_sum, pe_succ]
      refine Finset.sum_congr rfl fun a _ => ?_
      have := div_fact_succ C a.1
      push_cast
      linear_combination (x ^ a.2 / (a.2.factorial : ℂ) * pe y p a.1 * pe D q a.2) * this
  have h2 : ∑ a ∈ Finset.antidiagonal (m + 1), (a.2 : ℂ) * (C ^ a.1 / (a.1.factorial : ℂ) * (x ^ a.2 / (a.2.factorial : ℂ)) * pe y p a.1 * pe D q a.2) =
      x * pr (fun q => TB C x y D m p q) q := by
    rw [Finset.Nat.sum_antidiagonal_succ']
    simp only [Nat.cast_zero, zero_mul, zero_add]
    cases q with
    | zero => simp [pr, pe_zero]
    | succ q =>
      simp only [pr, TB, Finset.mul_sum, pe_succ]
      refine Finset.sum_congr rfl fun a _ => ?_
      have := div_fact_succ x a.2
      push_cast
      linear_combination (C ^ a.1 / (a.1.factorial : ℂ) * pe y p a.1 * pe D q a.2) * this
  rw [← h1, ← h2, ← Finset.sum_add_distrib]
  unfold TB
  rw [Finset.mul_sum]
  refine Finset.sum_congr rfl fun a ha => ?_
  have : (m : ℂ) + 1 = a.1 + a.2 := by rw [Finset.mem_antidiagonal] at ha; exact_mod_cast ha.symm
  rw [this]
  ring

theorem TB_zero (C x y D : ℂ) (p q : ℕ) : TB C x y D 0 p q = y ^ p / (p.factorial : ℂ) * (D ^ q / (q.factorial : ℂ)) := by simp [TB, pe]

theorem pr_mul (x : ℂ) (p : ℕ) (g : ℂ) : x * pr (fun p => x ^ p / (p.factorial : ℂ) * g) p = p * (x ^ p / (p.factorial : ℂ) * g) := by
  cases p with
  | zero => simp [pr]
  | succ p =>
    have := div_fact_succ x p
    simp only [pr]
    push_cast
    linear_combination (-g) * this

/-- The same, for indices of the whole array. -/
noncomputable def TB4 (C x y D : ℂ) (m n p q : ℕ) : ℂ := if m + n = p + q then TB C x y D m p q else 0

theorem TB4_0 (C x y D : ℂ) (m n p q : ℕ) :
    ((m : ℂ) + 1) * TB4 C x y D (m + 1) n p q = C * pr (fun p => TB4 C x y D m n p q) p + x * pr (fun q => TB4 C x y D m n p q) q := by
  unfold TB4
  by_cases h : m + 1 + n = p + q
  · rw [if_pos h, TB_succ]
    congr 2
    · cases p with
      | zero => rfl
      | succ p => simp only [pr]; rw [if_pos (by omega)]
    · cases q with
      | zero => rfl
      | succ q => simp only [pr]; rw [if_pos (by omega)]
  · rw [if_neg h, mul_zero]
    have e1 : pr (fun p => if m + n = p + q then TB C x y D m p q else 0) p = 0 := by
      cases p with
      | zero => rfl
      | succ p => simp only [pr]; rw [if_neg (by omega)]
    have e2 : pr (fun q => if m + n = p + q then TB C x y D m p q else 0) q = 0 := by
      cases q with
      | zero => rfl
      | succ q => simp only [pr]; rw [if_neg (by omega)]
    rw [e1, e2]; simp

theorem TB4_1 (C x y D : ℂ) (n p q : ℕ) :
    ((n : ℂ) + 1) * TB4 C x y D 0 (n + 1) p q = y * pr (fun p => TB4 C x y D 0 n p q) p + D * pr (fun q => TB4 C x y D 0 n p q) q := by
  unfold TB4
  simp only [TB_zero, zero_add]
  by_cases h : n + 1 = p + q
  · rw [if_pos h]
    have e1 : pr (fun p => if n = p + q then y ^ p / (p.factorial : ℂ) * (D ^ q / (q.factorial : ℂ)) else 0) p =
        pr (fun p => y ^ p / (p.factorial : ℂ) * (D ^ q / (q.factorial : ℂ))) p := by
      cases p with
      | zero => rfl
      | succ p => simp only [pr]; rw [if_pos (by omega)]
    have e2 : pr (fun q => if n = p + q then y ^ p / (p.factorial : ℂ) * (D ^ q / (q.factorial : ℂ)) else 0) q =
        pr (fun q => D ^ q / (q.factorial : ℂ) * (y ^ p / (p.factorial : ℂ))) q := by
      cases q with
      | zero => rfl
      | succ q => simp only [pr]; rw [if_pos (by omega), mul_comm]
    rw [e1, e2, pr_mul, pr_mul]
    have : (n : ℂ) + 1 = p + q := by exact_mod_cast h
    rw [this]
    ring
  · rw [if_neg h, mul_zero]
    have e1 : pr (fun p => if n = p + q then y ^ p / (p.factorial : ℂ) * (D ^ q / (q.factorial : ℂ)) else 0) p = 0 := by
      cases p with
      | zero => rfl
      | succ p => simp only [pr]; rw [if_neg (by omega)]
    have e2 : pr (fun q => if n = p + q then y ^ p / (p.factorial : ℂ) * (D ^ q / (q.factorial : ℂ)) else 0) q = 0 := by
      cases q with
      | zero => rfl
      | succ q => simp only [pr]; rw [if_neg (by omega)]
    rw [e1, e2]; simp

theorem amp4_bs {A : ℕ → ℕ → ℂ} {b : ℕ → ℂ} {C x y D : ℂ} (hA : Symm 4 A) (hb : ∀ i < 4, b i = 0) (h00 : A 0 0 = 0) (h01 : A 0 1 = 0) (h02 : A 0 2 = C) (h03 : A 0 3 = x)
    (h11 : A 1 1 = 0) (h12 : A 1 2 = y) (h13 : A 1 3 = D) (h22 : A 2 2 = 0) (h23 : A 2 3 = 0) (h33 : A 3 3 = 0) (m n p q : ℕ) :
    amp 4 A b 1 (toF [m, n, p, q]) = sf m * sf n * sf p * sf q * TB4 C x y D m n p q := by
  rw [amp_taylor hA (fun k => TB4 C x y D (k 0) (k 1) (k 2) (k 3)) (by simp [TB4, TB_zero]) ?_ _ (toF_below _ (by simp)), sqrtFact4]
  · simp [toF_apply]
  have s10 : A 1 0 = 0 := by rw [← h01]; exact hA _ (by omega) _ (by omega)
  have s20 : A 2 0 = C := by rw [← h02]; exact hA _ (by omega) _ (by omega)
  have s30 : A 3 0 = x := by rw [← h03]; exact hA _ (by omega) _ (by omega)
  have s21 : A 2 1 = y := by rw [← h12]; exact hA _ (by omega) _ (by omega)
  have s31 : A 3 1 = D := by rw [← h13]; exact hA _ (by omega) _ (by omega)
  have s32 : A 3 2 = 0 := by rw [← h23]; exact hA _ (by omega) _ (by omega)
  intro k hk hz
  have hb0 := hb 0 (by omega)
  have hb1 := hb 1 (by omega)
  have hb2 := hb 2 (by omega)
  have hb3 := hb 3 (by omega)
  by_cases k0 : k 0 = 0
  · by_cases k1 : k 1 = 0
    · by_cases k2 : k 2 = 0
      · have k3 := below4_ne hk hz k0 k1 k2
        refine ⟨3, by omega, k3, ?_⟩
        obtain ⟨n, hn⟩ := Nat.exists_eq_succ_of_ne_zero k3
        simp only [Finset.sum_range_succ, Finset.sum_range_zero, dn_apply]
        simp [*, TB4]
      · refine ⟨2, by omega, k2, ?_⟩
        obtain ⟨n, hn⟩ := Nat.exists_eq_succ_of_ne_zero k2
        have h0 : ¬ (0 = n + 1 + k 3) := by omega
        simp only [Finset.sum_range_succ, Finset.sum_range_zero, dn_apply]
        simp [*, TB4]
    · refine ⟨1, by omega, k1, ?_⟩
      obtain ⟨n, hn⟩ := Nat.exists_eq_succ_of_ne_zero k1
      simp only [Finset.sum_range_succ, Finset.sum_range_zero, dn_apply]
      simp [*, TB4_1, ite_pr (fun p => TB4 C x y D 0 n p (k 3)), ite_pr (fun q => TB4 C x y D 0 n (k 2) q)]
  · refine ⟨0, by omega, k0, ?_⟩
    obtain ⟨n, hn⟩ := Nat.exists_eq_succ_of_ne_zero k0
    simp only [Finset.sum_range_succ, Finset.sum_range_zero, dn_apply]
    simp [*, TB4_0, ite_pr (fun p => TB4 C x y D n (k 1) p (k 3)), ite_pr (fun q => TB4 C x y D n (k 1) (k 2) q)]

end Verif.Fock
