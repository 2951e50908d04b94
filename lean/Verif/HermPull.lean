import Verif.Herm
import Mathlib.Algebra.Order.Antidiag.Finsupp

/-!
# Pulling the continuous variables out of a Hermite polynomial

`exp(½ βᵀ Q β + βᵀ (Pᵀ z + d))`, expanded in `β`, is a polynomial in `z` whose coefficients are read off the
expansion of `exp(½ βᵀ Q β + βᵀ d + zᵀ P β)` in `(z, β)`.  This is the identity behind
`PolyExpAnsatz.decompose_ansatz`.
-/

namespace Verif.Fock

/-- Concatenation of a multi-index on the first `n` variables with one on the later variables. -/
noncomputable def cat (n : ℕ) (l k : ℕ →₀ ℕ) : ℕ →₀ ℕ := lowPart n l + k.mapDomain (· + n)

theorem cat_apply (n l k i) : cat n l k i = if i < n then l i else k (i - n) := by
  unfold cat
  rw [Finsupp.add_apply, lowPart_apply]
  by_cases h : i < n
  · rw [if_pos h, if_pos h, Finsupp.mapDomain_notin_range]
    · rfl
    · rintro ⟨x, hx⟩; simp only at hx; omega
  · rw [if_neg h, if_neg h]
    have e : i = (fun x => x + n) (i - n) := by simp only; omega
    conv_lhs => rw [e]
    rw [Finsupp.mapDomain_apply (fun _ _ h => Nat.add_right_cancel h)]
    simp

theorem cat_dn_low {n l k p} (hp : p < n) : dn (cat n l k) p = cat n (dn l p) k := by
  ext i; simp only [dn_apply, cat_apply]; split_ifs <;> first | omega | rfl

theorem cat_up_low {n l k p} (hp : p < n) : up (cat n l k) p = cat n (up l p) k := by
  ext i; simp only [up_apply, cat_apply]; split_ifs <;> first | omega | rfl

theorem cat_dn_high {n l k j} : dn (cat n l k) (n + j) = cat n l (dn k j) := by
  ext i; simp only [dn_apply, cat_apply]
  by_cases h : i = n + j
  · subst h; simp
  · rw [if_neg h]; split_ifs with h1 h2 <;> first | omega | rfl

theorem cat_up_high {n l k j} : up (cat n l k) (n + j) = cat n l (up k j) := by
  ext i; simp only [up_apply, cat_apply]
  by_cases h : i = n + j
  · subst h; simp
  · rw [if_neg h]; split_ifs with h1 h2 <;> first | omega | rfl

/-- Multi-indices on `n` variables of degree at most `d`. -/
noncomputable def upTo (n d : ℕ) : Finset (ℕ →₀ ℕ) :=
  (Finset.range (d + 1)).biUnion fun e => (Finset.range n).finsuppAntidiag e

theorem mem_upTo {n d l} : l ∈ upTo n d ↔ Below n l ∧ l.degree ≤ d := by
  unfold upTo
  simp only [Finset.mem_biUnion, Finset.mem_range, Finset.mem_finsuppAntidiag]
  have hs : l.support ⊆ Finset.range n ↔ Below n l := by
    constructor
    · intro h i hi
      by_contra hne
      have := h (Finsupp.mem_support_iff.2 hne)
      simp at this; omega
    · intro h i hi
      rw [Finsupp.mem_support_iff] at hi
      rw [Finset.mem_range]
      by_contra hc
      exact hi (h i (by omega))
  have hd : l.support ⊆ Finset.range n → (Finset.range n).sum l = l.degree := by
    intro h
    rw [Finsupp.degree_apply]
    exact (Finset.sum_subset h (by intro x _ hx; simpa using hx)).symm
  constructor
  · rintro ⟨e, he, h1, h2⟩
    refine ⟨hs.1 h2, ?_⟩
    rw [hd h2] at h1; omega
  · rintro ⟨h1, h2⟩
    exact ⟨l.degree, by omega, hd (hs.2 h1), hs.2 h1⟩

/-- `∏ z_p^{l_p} / √l!`. -/
noncomputable def mono (n : ℕ) (z : ℕ → ℂ) (l : ℕ →₀ ℕ) : ℂ :=
  (∏ p ∈ Finset.range n, z p ^ l p) / sqrtFact l

theorem sqrtFact_ne_zero (k) : sqrtFact k ≠ 0 := by
  unfold sqrtFact
  apply Finset.prod_ne_zero_iff.2
  intro i _
  have : (0 : ℝ) < Real.sqrt ((k i).factorial : ℝ) := Real.sqrt_pos.2 (by exact_mod_cast (k i).factorial_pos)
  exact_mod_cast this.ne'

theorem mono_up {n z l p} (hp : p < n) : sq (l p + 1) * mono n z (up l p) = z p * mono n z l := by
  unfold mono
  rw [sqrtFact_up]
  have h1 : ∏ q ∈ Finset.range n, z q ^ (up l p) q = z p * ∏ q ∈ Finset.range n, z q ^ l q := by
    rw [← Finset.mul_prod_erase _ _ (Finset.mem_range.2 hp),
      ← Finset.mul_prod_erase (Finset.range n) (fun q => z q ^ l q) (Finset.mem_range.2 hp), up_apply, if_pos rfl,
      pow_succ]
    have : ∏ x ∈ (Finset.range n).erase p, z x ^ (up l p) x = ∏ x ∈ (Finset.range n).erase p, z x ^ l x := by
      apply Finset.prod_congr rfl
      intro x hx
      rw [up_apply, if_neg (Finset.ne_of_mem_erase hx)]
    rw [this]; ring
  rw [h1]
  have := sq_ne_zero (Nat.succ_ne_zero (l p))
  have h2 := sqrtFact_ne_zero l
  field_simp

/-- The Hermite array of a purely linear exponent. -/
theorem amp_linear {n z l} (hl : Below n l) : amp n (fun _ _ => 0) z 1 l = mono n z l := by
  symm
  refine amp_unique (fun l => mono n z l) ?_ ?_ l hl
  · simp [mono, sqrtFact]
  · intro i hi k _
    rw [mono_up hi, Finset.sum_eq_zero, add_zero]
    intro j _
    simp [symA]

section
variable {n m : ℕ} {A : ℕ → ℕ → ℂ} {b : ℕ → ℂ}

theorem symA_zero_of {i j} (h1 : A i j = 0) (h2 : A j i = 0) : symA A i j = 0 := by
  unfold symA; rw [h1, h2]; simp

/-- No coefficient of degree larger in `z` than in `β`. -/
theorem amp_cat_zero (hzz : ∀ i < n, ∀ j < n, A i j = 0) (hbz : ∀ i < n, b i = 0) :
    ∀ d, ∀ l k : ℕ →₀ ℕ, k.degree = d → Below n l → k.degree < l.degree → amp (n + m) A b 1 (cat n l k) = 0 := by
  intro d
  induction d with
  | zero =>
    intro l k hk hl hlt
    have hl0 : l ≠ 0 := by rintro rfl; simp at hlt
    obtain ⟨p, hp⟩ := Finsupp.ne_iff.1 hl0
    simp only [Finsupp.coe_zero, Pi.zero_apply] at hp
    have hpn : p < n := by by_contra h; exact hp (hl p (by omega))
    have hk0 : k = 0 := (Finsupp.degree_eq_zero_iff k).1 hk
    have r := amp_up' (A := A) (b := b) 1 (show p < n + m by omega) (cat n (dn l p) k)
    rw [cat_up_low hpn, up_dn hp, hbz p hpn, zero_mul, zero_add, Finset.sum_range_add] at r
    have hs : sq ((cat n (dn l p) k) p + 1) ≠ 0 := sq_ne_zero (Nat.succ_ne_zero _)
    have s1 : ∀ x ∈ Finset.range n, symA A p x * sq ((cat n (dn l p) k) x) *
        amp (n + m) A b 1 (dn (cat n (dn l p) k) x) = 0 := by
      intro x hx
      have hx := Finset.mem_range.1 hx
      rw [symA_zero_of (hzz p hpn x hx) (hzz x hx p hpn)]; ring
    have s2 : ∀ x ∈ Finset.range m, symA A p (n + x) * sq ((cat n (dn l p) k) (n + x)) *
        amp (n + m) A b 1 (dn (cat n (dn l p) k) (n + x)) = 0 := by
      intro x hx
      rw [cat_apply, if_neg (by omega), hk0]
      simp [sq]
    rw [Finset.sum_eq_zero s1, Finset.sum_eq_zero s2, add_zero] at r
    exact (mul_eq_zero.1 r).resolve_left hs
  | succ d ih =>
    intro l k hk hl hlt
    have hl0 : l ≠ 0 := by rintro rfl; simp at hlt
    obtain ⟨p, hp⟩ := Finsupp.ne_iff.1 hl0
    simp only [Finsupp.coe_zero, Pi.zero_apply] at hp
    have hpn : p < n := by by_contra h; exact hp (hl p (by omega))
    have r := amp_up' (A := A) (b := b) 1 (show p < n + m by omega) (cat n (dn l p) k)
    rw [cat_up_low hpn, up_dn hp, hbz p hpn, zero_mul, zero_add, Finset.sum_range_add] at r
    have hs : sq ((cat n (dn l p) k) p + 1) ≠ 0 := sq_ne_zero (Nat.succ_ne_zero _)
    have s1 : ∀ x ∈ Finset.range n, symA A p x * sq ((cat n (dn l p) k) x) *
        amp (n + m) A b 1 (dn (cat n (dn l p) k) x) = 0 := by
      intro x hx
      have hx := Finset.mem_range.1 hx
      rw [symA_zero_of (hzz p hpn x hx) (hzz x hx p hpn)]; ring
    have hld : (dn l p).degree + 1 = l.degree := by
      conv_rhs => rw [← up_dn hp]
      rw [degree_up]
    have s2 : ∀ x ∈ Finset.range m, symA A p (n + x) * sq ((cat n (dn l p) k) (n + x)) *
        amp (n + m) A b 1 (dn (cat n (dn l p) k) (n + x)) = 0 := by
      intro x hx
      rw [cat_dn_high, cat_apply, if_neg (by omega), Nat.add_sub_cancel_left]
      by_cases hkx : k x = 0
      · rw [hkx]; simp [sq]
      · have hkd : (dn k x).degree + 1 = k.degree := by
          conv_rhs => rw [← up_dn hkx]
          rw [degree_up]
        rw [ih (dn l p) (dn k x) (by omega) (hl.dn p) (by omega)]; ring
    rw [Finset.sum_eq_zero s1, Finset.sum_eq_zero s2, add_zero] at r
    exact (mul_eq_zero.1 r).resolve_left hs

/-- The polynomial in `z` obtained by summing the coefficients up to degree `d`. -/
noncomputable def pulled (n m : ℕ) (A : ℕ → ℕ → ℂ) (b : ℕ → ℂ) (z : ℕ → ℂ) (d : ℕ) (k : ℕ →₀ ℕ) : ℂ :=
  ∑ l ∈ upTo n d, amp (n + m) A b 1 (cat n l k) * mono n z l

theorem sum_upTo_mono {n d d'} (h : d ≤ d') (F : (ℕ →₀ ℕ) → ℂ)
    (hz : ∀ l, Below n l → d < l.degree → F l = 0) : ∑ l ∈ upTo n d, F l = ∑ l ∈ upTo n d', F l := by
  apply Finset.sum_subset
  · intro l hl; rw [mem_upTo] at hl ⊢; exact ⟨hl.1, hl.2.trans h⟩
  · intro l hl hn
    rw [mem_upTo] at hl hn
    exact hz l hl.1 (by by_contra hc; exact hn ⟨hl.1, by omega⟩)

theorem pulled_mono (hzz : ∀ i < n, ∀ j < n, A i j = 0) (hbz : ∀ i < n, b i = 0) {z : ℕ → ℂ} {d d' : ℕ}
    {k : ℕ →₀ ℕ} (h1 : k.degree ≤ d) (h2 : d ≤ d') : pulled n m A b z d k = pulled n m A b z d' k := by
  unfold pulled
  apply sum_upTo_mono h2
  intro l hl hd
  rw [amp_cat_zero hzz hbz _ l k rfl hl (by omega), zero_mul]

/-- Shifting one unit of `z_p` into the coefficient. -/
theorem shift_sum {p d : ℕ} (hp : p < n) {z : ℕ → ℂ} (G : (ℕ →₀ ℕ) → ℂ) :
    ∑ l ∈ upTo n (d + 1), sq (l p) * G (dn l p) * mono n z l = z p * ∑ l ∈ upTo n d, G l * mono n z l := by
  have h1 : ∑ l ∈ upTo n (d + 1), sq (l p) * G (dn l p) * mono n z l =
      ∑ l ∈ (upTo n (d + 1)).filter (fun l => l p ≠ 0), sq (l p) * G (dn l p) * mono n z l := by
    rw [Finset.sum_filter]
    apply Finset.sum_congr rfl
    intro l _
    split_ifs with h
    · rfl
    · push Not at h; rw [h]; simp [sq]
  rw [h1, Finset.mul_sum]
  symm
  apply Finset.sum_nbij' (fun l => up l p) (fun l => dn l p)
  · intro l hl
    rw [mem_upTo] at hl
    rw [Finset.mem_filter, mem_upTo]
    refine ⟨⟨?_, by rw [degree_up]; omega⟩, by simp⟩
    intro i hi
    rw [up_apply, if_neg (by omega)]; exact hl.1 i hi
  · intro l hl
    rw [Finset.mem_filter, mem_upTo] at hl
    rw [mem_upTo]
    refine ⟨hl.1.1.dn p, ?_⟩
    have := up_dn hl.2
    have h2 := degree_up (dn l p) p
    rw [this] at h2; omega
  · intro l _
    ext i; simp only [dn_apply, up_apply]; split_ifs <;> omega
  · intro l hl
    rw [Finset.mem_filter] at hl
    exact up_dn hl.2
  · intro l _
    have e : dn (up l p) p = l := by
      ext i; simp only [dn_apply, up_apply]; split_ifs <;> omega
    rw [e, up_apply, if_pos rfl, mul_right_comm, mono_up hp]; ring

/-- **Pulling out.**  For a symmetric `A`, the Hermite array of the derived block, with the continuous
variables substituted, is a polynomial in `z` with coefficients from the array of the full form. -/
theorem pull_out (hzz : ∀ i < n, ∀ j < n, A i j = 0) (hbz : ∀ i < n, b i = 0)
    (hx : ∀ i < n, ∀ j < m, A i (n + j) = A (n + j) i) (z : ℕ → ℂ) {k : ℕ →₀ ℕ} (hk : Below m k) {d : ℕ}
    (hd : k.degree ≤ d) :
    amp m (fun i j => A (n + i) (n + j)) (fun j => ∑ a ∈ Finset.range n, A a (n + j) * z a + b (n + j)) 1 k =
      ∑ l ∈ upTo n d, amp (n + m) A b 1 (cat n l k) * mono n z l := by
  change _ = pulled n m A b z d k
  rw [← pulled_mono hzz hbz le_rfl hd]
  symm
  refine amp_unique (fun k => pulled n m A b z k.degree k) ?_ ?_ k hk
  · have : upTo n 0 = {0} := by
      ext l; rw [mem_upTo, Finset.mem_singleton]
      constructor
      · rintro ⟨_, h⟩; exact (Finsupp.degree_eq_zero_iff l).1 (by omega)
      · rintro rfl; exact ⟨fun _ _ => rfl, by simp⟩
    have hc : cat n 0 0 = 0 := by ext i; rw [cat_apply]; simp
    simp only [map_zero, pulled, this, Finset.sum_singleton, hc, amp_zero, mono]
    simp [sqrtFact]
  · intro i hi k hB
    rw [degree_up]
    have step : ∀ l, sq (k i + 1) * (amp (n + m) A b 1 (cat n l (up k i)) * mono n z l) =
        b (n + i) * (amp (n + m) A b 1 (cat n l k) * mono n z l) +
        ∑ p ∈ Finset.range n, A p (n + i) * (sq (l p) * amp (n + m) A b 1 (cat n (dn l p) k) * mono n z l) +
        ∑ j ∈ Finset.range m, symA A (n + i) (n + j) * sq (k j) *
          (amp (n + m) A b 1 (cat n l (dn k j)) * mono n z l) := by
      intro l
      have r := amp_up' (A := A) (b := b) 1 (show n + i < n + m by omega) (cat n l k)
      rw [cat_up_high, Finset.sum_range_add] at r
      rw [cat_apply, if_neg (by omega), Nat.add_sub_cancel_left] at r
      rw [← mul_assoc, r, add_mul, add_mul, mul_assoc, Finset.sum_mul, Finset.sum_mul, ← add_assoc]
      congr 1
      · congr 1
        apply Finset.sum_congr rfl
        intro p hp
        have hp := Finset.mem_range.1 hp
        rw [cat_dn_low hp, cat_apply, if_pos hp]
        have : symA A (n + i) p = A p (n + i) := by unfold symA; rw [hx p hp i hi]; ring
        rw [this]; ring
      · apply Finset.sum_congr rfl
        intro j _
        rw [cat_dn_high, cat_apply, if_neg (by omega), Nat.add_sub_cancel_left]; ring
    unfold pulled
    rw [Finset.mul_sum]
    simp only [step]
    rw [Finset.sum_add_distrib, Finset.sum_add_distrib, ← Finset.mul_sum]
    have t1 : ∑ l ∈ upTo n (k.degree + 1), amp (n + m) A b 1 (cat n l k) * mono n z l =
        ∑ l ∈ upTo n k.degree, amp (n + m) A b 1 (cat n l k) * mono n z l :=
      (pulled_mono (m := m) hzz hbz (le_refl k.degree) (Nat.le_succ _)).symm
    have t2 : ∑ l ∈ upTo n (k.degree + 1), ∑ p ∈ Finset.range n,
          A p (n + i) * (sq (l p) * amp (n + m) A b 1 (cat n (dn l p) k) * mono n z l) =
        (∑ a ∈ Finset.range n, A a (n + i) * z a) *
          ∑ l ∈ upTo n k.degree, amp (n + m) A b 1 (cat n l k) * mono n z l := by
      rw [Finset.sum_comm, Finset.sum_mul]
      apply Finset.sum_congr rfl
      intro p hp
      have hp := Finset.mem_range.1 hp
      rw [← Finset.mul_sum, shift_sum hp (fun l => amp (n + m) A b 1 (cat n l k)), mul_assoc]
    have t3 : ∑ l ∈ upTo n (k.degree + 1), ∑ j ∈ Finset.range m, symA A (n + i) (n + j) * sq (k j) *
          (amp (n + m) A b 1 (cat n l (dn k j)) * mono n z l) =
        ∑ j ∈ Finset.range m, symA (fun i j => A (n + i) (n + j)) i j * sq (k j) *
          ∑ l ∈ upTo n (dn k j).degree, amp (n + m) A b 1 (cat n l (dn k j)) * mono n z l := by
      rw [Finset.sum_comm]
      apply Finset.sum_congr rfl
      intro j _
      rw [← Finset.mul_sum]
      have hdj := degree_dn k j
      have := pulled_mono (z := z) (m := m) hzz hbz (le_refl (dn k j).degree)
        (show (dn k j).degree ≤ k.degree + 1 by omega)
      unfold pulled at this
      rw [this]; rfl
    rw [t1, t2, t3]; ring

end

end Verif.Fock
