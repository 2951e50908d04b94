import Mathlib.Analysis.SpecialFunctions.Pow.Real
import Mathlib.Data.Nat.Choose.Sum
import Mathlib.Algebra.BigOperators.NatAntidiagonal
import Mathlib.Algebra.BigOperators.Intervals
import Mathlib.Tactic.Ring
import Mathlib.Tactic.FieldSimp
import Mathlib.Tactic.LinearCombination

/-!
# The polynomial of an ansatz in phase space variables: `c_in_PS` (C101)
-/

namespace Verif.PhaseC

open Finset

/-! ## The code -/

/-- `c_ps_matrix` (physics/fock_utils.py 277-283). -/
noncomputable def cps (m n α : ℕ) : ℂ :=
  ((List.range' (α - n) (min m α + 1 - (α - n))).map fun μ =>
    (m.choose μ : ℂ) * (n.choose (α - μ)) * Complex.I ^ ((m : ℤ) - n - 2 * μ + α)).sum

/-- The assignments of `gamma_matrix` in order: row, column, value (physics/fock_utils.py 295-304), for `c` with `r` rows and `s` columns; `M = r + s - 1`. -/
noncomputable def writes (ħ : ℝ) (r s : ℕ) : List ((ℕ × ℕ) × ℂ) :=
  (List.range r).flatMap fun m => (List.range s).flatMap fun n => (List.range (m + n + 1)).map fun α =>
    ((α * (r + s - 1) + (m + n - α), m * r + n),
      cps m n α * (Real.sqrt (ħ / 2) : ℂ) ^ (m + n) /
        (Real.sqrt ((m.factorial : ℝ) * n.factorial / (α.factorial * (m + n - α).factorial)) : ℂ))

/-- `gamma_matrix` (physics/fock_utils.py 286-305): zeros, then the assignments; an assignment outside the array raises `IndexError`. -/
noncomputable def gamma (ħ : ℝ) (r s : ℕ) : Option (ℕ × ℕ → ℂ) :=
  if ∃ w ∈ writes ħ r s, (r + s - 1) ^ 2 ≤ w.1.1 ∨ r * s ≤ w.1.2 then none
  else some ((writes ħ r s).foldl (fun G w => Function.update G w.1 w.2) fun _ => 0)

/-- `c_in_PS` (physics/fock_utils.py 308-317): `c` is flattened row by row, multiplied, and the result is reshaped. -/
noncomputable def cInPS (ħ : ℝ) (r s : ℕ) (c : ℕ → ℕ → ℂ) : Option (ℕ → ℕ → ℂ) :=
  (gamma ħ r s).map fun G a b => ∑ k ∈ range (r * s), G (a * (r + s - 1) + b, k) * c (k / s) (k % s)

/-! ## Specification -/

/-- The polynomial in the derivatives that an `r × s` array stands for. -/
noncomputable def poly (r s : ℕ) (c : ℕ → ℕ → ℂ) (x y : ℂ) : ℂ :=
  ∑ m ∈ range r, ∑ n ∈ range s, c m n * x ^ m * y ^ n / ((Real.sqrt m.factorial : ℂ) * (Real.sqrt n.factorial : ℂ))

/-! ## Proofs -/

theorem foldl_update {κ : Type*} [DecidableEq κ] (L : List (κ × ℂ)) (G : κ → ℂ) (h : (L.map Prod.fst).Nodup) (k : κ) :
    L.foldl (fun G w => Function.update G w.1 w.2) G k = if k ∈ L.map Prod.fst then (L.map fun w => if w.1 = k then w.2 else (0 : ℂ)).sum else G k := by
  induction L generalizing G with
  | nil => rfl
  | cons w L ih =>
    rw [List.map_cons, List.nodup_cons] at h
    rw [List.foldl_cons, ih _ h.2, List.map_cons, List.map_cons, List.sum_cons]
    by_cases hk : w.1 = k
    · subst hk
      rw [if_neg h.1, if_pos List.mem_cons_self, if_pos rfl, Function.update_self]
      have : (L.map fun w' => if w'.1 = w.1 then w'.2 else (0 : ℂ)).sum = 0 := by
        refine List.sum_eq_zero fun x hx => ?_
        obtain ⟨w', hw', rfl⟩ := List.mem_map.1 hx
        refine if_neg fun e => h.1 ?_
        rw [← e]
        exact List.mem_map_of_mem hw'
      rw [this, add_zero]
    · rw [Function.update_of_ne (Ne.symm hk), if_neg hk, zero_add]
      refine if_congr ?_ rfl rfl
      rw [List.mem_cons]
      exact ⟨Or.inr, fun h0 => h0.resolve_left fun e => hk e.symm⟩

theorem foldl_update_zero {κ : Type*} [DecidableEq κ] (L : List (κ × ℂ)) (h : (L.map Prod.fst).Nodup) (k : κ) :
    L.foldl (fun G w => Function.update G w.1 w.2) (fun _ => (0 : ℂ)) k = (L.map fun w => if w.1 = k then w.2 else (0 : ℂ)).sum := by
  rw [foldl_update L _ h]
  split_ifs with hk
  · rfl
  · refine (List.sum_eq_zero fun x hx => ?_).symm
    obtain ⟨w', hw', rfl⟩ := List.mem_map.1 hx
    refine if_neg fun e => hk ?_
    rw [← e]
    exact List.mem_map_of_mem hw'

theorem list_range_sum {N : Type*} [AddCommMonoid N] (k : ℕ) (f : ℕ → N) : ((List.range k).map f).sum = ∑ i ∈ range k, f i := by
  induction k with
  | zero => rfl
  | succ k ih => rw [List.range_succ, List.map_append, List.sum_append, ih, Finset.sum_range_succ, List.map_singleton, List.sum_singleton]

/-- Sums over the assignments. -/
theorem writes_sum {N : Type*} [AddCommMonoid N] (ħ : ℝ) (r s : ℕ) (F : (ℕ × ℕ) × ℂ → N) : ((writes ħ r s).map F).sum =
    ∑ m ∈ range r, ∑ n ∈ range s, ∑ α ∈ range (m + n + 1), F ((α * (r + s - 1) + (m + n - α), m * r + n),
      cps m n α * (Real.sqrt (ħ / 2) : ℂ) ^ (m + n) /
        (Real.sqrt ((m.factorial : ℝ) * n.factorial / (α.factorial * (m + n - α).factorial)) : ℂ)) := by
  have key : ∀ {α : Type} (k : ℕ) (f : ℕ → List α) (g : α → N), (((List.range k).flatMap f).map g).sum = ∑ i ∈ range k, ((f i).map g).sum := by
    intro α k f g
    induction k with
    | zero => rfl
    | succ k ih => rw [List.range_succ, List.flatMap_append, List.map_append, List.sum_append, ih, Finset.sum_range_succ, List.flatMap_singleton]
  unfold writes
  rw [key]
  refine Finset.sum_congr rfl fun m _ => ?_
  rw [key]
  refine Finset.sum_congr rfl fun n _ => ?_
  rw [List.map_map, list_range_sum]
  rfl

/-- The binomial expansion. -/
theorem cps_sum (m n : ℕ) (x y : ℂ) : ∑ α ∈ range (m + n + 1), cps m n α * x ^ α * y ^ (m + n - α) = (x + Complex.I * y) ^ m * (x - Complex.I * y) ^ n := by
  have h1 : ∀ α ∈ range (m + n + 1), cps m n α * x ^ α * y ^ (m + n - α) =
      ∑ μ ∈ Finset.Ico (α - n) (min m α + 1), (m.choose μ : ℂ) * (n.choose (α - μ)) * Complex.I ^ ((m : ℤ) - n - 2 * μ + α) * x ^ α * y ^ (m + n - α) := by
    intro α _
    unfold cps
    rw [← Finset.sum_mul, ← Finset.sum_mul]
    refine congrArg (fun t => t * x ^ α * y ^ (m + n - α)) ?_
    rw [Finset.sum_Ico_eq_sum_range, List.range'_eq_map_range, List.map_map, list_range_sum]
    rfl
  rw [Finset.sum_congr rfl h1, show (x - Complex.I * y) ^ n = (x + -(Complex.I * y)) ^ n by rw [sub_eq_add_neg], add_pow, add_pow, Finset.sum_mul_sum, ← Finset.sum_product', Finset.sum_sigma']
  refine Finset.sum_nbij' (fun a => (a.2, a.1 - a.2)) (fun b => ⟨b.1 + b.2, b.1⟩) ?_ ?_ ?_ ?_ ?_
  · rintro ⟨α, μ⟩ h
    simp only [Finset.mem_sigma, Finset.mem_range, Finset.mem_Ico, Finset.mem_product] at h ⊢
    omega
  · rintro ⟨μ, ν⟩ h
    simp only [Finset.mem_sigma, Finset.mem_range, Finset.mem_Ico, Finset.mem_product] at h ⊢
    omega
  · rintro ⟨α, μ⟩ h
    simp only [Finset.mem_sigma, Finset.mem_range, Finset.mem_Ico] at h
    simp only [Sigma.mk.injEq, heq_eq_eq, and_true]
    omega
  · rintro ⟨μ, ν⟩ h
    simp
  · rintro ⟨α, μ⟩ h
    simp only [Finset.mem_sigma, Finset.mem_range, Finset.mem_Ico] at h
    dsimp only
    obtain ⟨ν, rfl⟩ : ∃ ν, α = μ + ν := ⟨α - μ, by omega⟩
    obtain ⟨k, rfl⟩ : ∃ k, m = μ + k := ⟨m - μ, by omega⟩
    obtain ⟨l, rfl⟩ : ∃ l, n = ν + l := ⟨n - ν, by omega⟩
    have e1 : μ + ν - μ = ν := by omega
    have e2 : μ + k + (ν + l) - (μ + ν) = k + l := by omega
    have e3 : μ + k - μ = k := by omega
    have e4 : ν + l - ν = l := by omega
    have e5 : Complex.I ^ (((μ + k : ℕ) : ℤ) - ((ν + l : ℕ) : ℤ) - 2 * μ + ((μ + ν : ℕ) : ℤ)) = Complex.I ^ k * (-Complex.I) ^ l := by
      rw [show (((μ + k : ℕ) : ℤ) - ((ν + l : ℕ) : ℤ) - 2 * μ + ((μ + ν : ℕ) : ℤ)) = (k : ℤ) + -(l : ℤ) by push_cast; ring, zpow_add₀ Complex.I_ne_zero, zpow_natCast, zpow_neg,
        zpow_natCast, ← inv_pow, Complex.inv_I]
    rw [e1, e2, e3, e4, e5, mul_pow, neg_mul_eq_neg_mul, mul_pow, pow_add, pow_add]
    ring

/-- The keys are all different. -/
theorem writes_nodup (ħ : ℝ) (r s : ℕ) : ((writes ħ r s).map Prod.fst).Nodup := by
  unfold writes
  rw [List.map_flatMap, List.nodup_flatMap]
  simp only [List.map_flatMap, List.map_map, Function.comp_def]
  have hM : ∀ {a b M a' b' : ℕ}, b < M → b' < M → a * M + b = a' * M + b' → a = a' ∧ b = b' := by
    intro a b M a' b' h h' e
    have h1 : (a * M + b) / M = a := by
      rw [add_comm, Nat.add_mul_div_right _ _ (by omega), Nat.div_eq_of_lt h, zero_add]
    have h2 : (a' * M + b') / M = a' := by
      rw [add_comm, Nat.add_mul_div_right _ _ (by omega), Nat.div_eq_of_lt h', zero_add]
    have h3 : a = a' := by rw [← h1, ← h2, e]
    subst h3
    exact ⟨rfl, by omega⟩
  have hkey : ∀ m < r, ∀ n < s, ∀ α < m + n + 1, ∀ m' < r, ∀ n' < s, ∀ α' < m' + n' + 1,
      (α * (r + s - 1) + (m + n - α), m * r + n) = (α' * (r + s - 1) + (m' + n' - α'), m' * r + n') → m = m' ∧ n = n' ∧ α = α' := by
    intro m hm n hn α hα m' hm' n' hn' α' hα' e
    obtain ⟨e1, e2⟩ := Prod.mk.inj e
    obtain ⟨h1, h2⟩ := hM (by omega) (by omega) e1
    have h3 : m + n = m' + n' := by omega
    have h4 : m = m' := by
      obtain ⟨q, rfl⟩ : ∃ q, r = q + 1 := ⟨r - 1, by omega⟩
      have : m * q = m' * q := by
        rw [Nat.mul_succ, Nat.mul_succ] at e2
        omega
      rcases Nat.eq_zero_or_pos q with rfl | hq
      · omega
      · exact Nat.eq_of_mul_eq_mul_right hq this
    exact ⟨h4, by omega, h1⟩
  constructor
  · intro m hm
    rw [List.nodup_flatMap]
    constructor
    · intro n hn
      refine (List.nodup_map_iff_inj_on List.nodup_range).2 fun α hα α' hα' e => ?_
      exact (hkey m (List.mem_range.1 hm) n (List.mem_range.1 hn) α (List.mem_range.1 hα) m (List.mem_range.1 hm) n (List.mem_range.1 hn) α' (List.mem_range.1 hα') e).2.2
    · refine List.nodup_range.imp_of_mem fun hn hn' hne => ?_
      rw [Function.onFun, List.disjoint_left]
      intro k h1 h2
      obtain ⟨α, hα, rfl⟩ := List.mem_map.1 h1
      obtain ⟨α', hα', e⟩ := List.mem_map.1 h2
      exact hne (hkey m (List.mem_range.1 hm) _ (List.mem_range.1 hn) α (List.mem_range.1 hα) m (List.mem_range.1 hm) _ (List.mem_range.1 hn') α' (List.mem_range.1 hα') e.symm).2.1
  · refine List.nodup_range.imp_of_mem fun hm hm' hne => ?_
    rw [Function.onFun, List.disjoint_left]
    intro k h1 h2
    obtain ⟨n, hn, h1⟩ := List.mem_flatMap.1 h1
    obtain ⟨n', hn', h2⟩ := List.mem_flatMap.1 h2
    obtain ⟨α, hα, rfl⟩ := List.mem_map.1 h1
    obtain ⟨α', hα', e⟩ := List.mem_map.1 h2
    exact hne (hkey _ (List.mem_range.1 hm) _ (List.mem_range.1 hn) α (List.mem_range.1 hα) _ (List.mem_range.1 hm') _ (List.mem_range.1 hn') α' (List.mem_range.1 hα') e.symm).1

theorem key_inj {a b M a' b' : ℕ} (h : b < M) (h' : b' < M) (e : a * M + b = a' * M + b') : a = a' ∧ b = b' := by
  have h1 : (a * M + b) / M = a := by
    rw [add_comm, Nat.add_mul_div_right _ _ (by omega), Nat.div_eq_of_lt h, zero_add]
  have h2 : (a' * M + b') / M = a' := by
    rw [add_comm, Nat.add_mul_div_right _ _ (by omega), Nat.div_eq_of_lt h', zero_add]
  have h3 : a = a' := by rw [← h1, ← h2, e]
  subst h3
  exact ⟨rfl, by omega⟩

theorem lin {ι κ : Type*} (L : List κ) (S : Finset ι) (f : ι → κ → ℂ) (g : ι → ℂ) :
    ∑ i ∈ S, (L.map fun w => f i w).sum * g i = (L.map fun w => ∑ i ∈ S, f i w * g i).sum := by
  induction L with
  | nil => simp
  | cons w L ih =>
    simp only [List.map_cons, List.sum_cons, add_mul, Finset.sum_add_distrib]
    rw [← ih]

/-- **C101 (exception)** `c_in_PS` raises `IndexError` exactly if `c` has at least two rows and more rows than columns. -/
theorem C101_raises (ħ : ℝ) {r s : ℕ} (hr : 1 ≤ r) (hs : 1 ≤ s) (c : ℕ → ℕ → ℂ) : cInPS ħ r s c = none ↔ 2 ≤ r ∧ s < r := by
  have hmem : ∀ w ∈ writes ħ r s, ∃ m < r, ∃ n < s, ∃ α < m + n + 1, w.1 = (α * (r + s - 1) + (m + n - α), m * r + n) := by
    intro w hw
    unfold writes at hw
    obtain ⟨m, hm, hw⟩ := List.mem_flatMap.1 hw
    obtain ⟨n, hn, hw⟩ := List.mem_flatMap.1 hw
    obtain ⟨α, hα, rfl⟩ := List.mem_map.1 hw
    exact ⟨m, List.mem_range.1 hm, n, List.mem_range.1 hn, α, List.mem_range.1 hα, rfl⟩
  have hrow : ∀ m < r, ∀ n < s, ∀ α < m + n + 1, α * (r + s - 1) + (m + n - α) < (r + s - 1) ^ 2 := by
    intro m hm n hn α hα
    obtain ⟨M, hM⟩ : ∃ M, r + s - 1 = M + 1 := ⟨r + s - 2, by omega⟩
    have h1 : α * (M + 1) + (m + n - α) ≤ M * (M + 1) + 0 + (M + 1 - 1) := by
      refine Nat.add_le_add (Nat.mul_le_mul_right _ (by omega)) (by omega)
    rw [hM]
    have h2 : (M + 1) ^ 2 = M * (M + 1) + (M + 1) := by ring
    omega
  unfold cInPS gamma
  rw [Option.map_eq_none_iff]
  have key : (∃ w ∈ writes ħ r s, (r + s - 1) ^ 2 ≤ w.1.1 ∨ r * s ≤ w.1.2) ↔ 2 ≤ r ∧ s < r := by
    constructor
    · rintro ⟨w, hw, h⟩
      obtain ⟨m, hm, n, hn, α, hα, e⟩ := hmem w hw
      rw [e] at h
      rcases h with h | h
      · exact absurd (hrow m hm n hn α hα) (not_lt.2 h)
      · by_contra h0
        have h1 : r * s ≤ m * r + n := h
        by_cases h2 : r = 1
        · subst h2
          omega
        · have h3 : r ≤ s := by omega
          have h4 : m * r ≤ (r - 1) * s := Nat.mul_le_mul (by omega) h3
          have h5 : (r - 1) * s + s = r * s := by
            obtain ⟨q, rfl⟩ : ∃ q, r = q + 1 := ⟨r - 1, by omega⟩
            simp [Nat.add_mul]
          omega
    · rintro ⟨h2, hlt⟩
      refine ⟨((0 * (r + s - 1) + (r - 1 + 0 - 0), (r - 1) * r + 0), _), List.mem_flatMap.2 ⟨r - 1, List.mem_range.2 (by omega), List.mem_flatMap.2 ⟨0, List.mem_range.2 hs,
        List.mem_map.2 ⟨0, List.mem_range.2 (by omega), rfl⟩⟩⟩, Or.inr ?_⟩
      show r * s ≤ (r - 1) * r + 0
      rw [add_zero, Nat.mul_comm]
      exact Nat.mul_le_mul_right _ (by omega)
  split_ifs with h
  · exact ⟨fun _ => key.1 h, fun _ => rfl⟩
  · exact ⟨fun h0 => absurd h0 (by simp), fun h0 => absurd (key.2 h0) h⟩

/-- **C101 (exact behaviour)** When it returns, the result is an array of size `r + s - 1` whose polynomial is that of `c` read with row length `r` instead of `s`, in the rotated variables. -/
theorem C101_exact {ħ : ℝ} {r s : ℕ} (hr : 1 ≤ r) (hs : 1 ≤ s) (c c' : ℕ → ℕ → ℂ) (h : cInPS ħ r s c = some c') (x y : ℂ) :
    poly (r + s - 1) (r + s - 1) c' x y =
      poly r s (fun m n => c ((m * r + n) / s) ((m * r + n) % s)) ((Real.sqrt (ħ / 2) : ℂ) * (x + Complex.I * y)) ((Real.sqrt (ħ / 2) : ℂ) * (x - Complex.I * y)) := by
  unfold cInPS gamma at h
  split_ifs at h with hb
  · exact absurd h (by simp)
  rw [Option.map_some, Option.some.injEq] at h
  subst h
  obtain ⟨M, hM⟩ : ∃ M, M = r + s - 1 := ⟨_, rfl⟩
  obtain ⟨flat, hflat⟩ : ∃ flat : ℕ → ℂ, flat = fun k => c (k / s) (k % s) := ⟨_, rfl⟩
  have hfl : ∀ k, c (k / s) (k % s) = flat k := fun k => by rw [hflat]
  have e1 : ∀ a b : ℕ, ∑ k ∈ range (r * s), (writes ħ r s).foldl (fun G w => Function.update G w.1 w.2) (fun _ => (0 : ℂ)) (a * (r + s - 1) + b, k) * c (k / s) (k % s) =
      ((writes ħ r s).map fun w => ∑ k ∈ range (r * s), (if w.1 = (a * M + b, k) then w.2 else (0 : ℂ)) * flat k).sum := by
    intro a b
    rw [← lin, ← hM]
    refine Finset.sum_congr rfl fun k _ => ?_
    rw [foldl_update_zero _ (writes_nodup ħ r s), hfl]
  unfold poly
  simp only [e1]
  rw [← hM]
  have e2 : ∀ a b : ℕ, ((writes ħ r s).map fun w => ∑ k ∈ range (r * s), (if w.1 = (a * M + b, k) then w.2 else (0 : ℂ)) * flat k).sum * x ^ a * y ^ b /
      ((Real.sqrt a.factorial : ℂ) * (Real.sqrt b.factorial : ℂ)) =
      ((writes ħ r s).map fun w => ∑ k ∈ range (r * s), (if w.1 = (a * M + b, k) then w.2 else (0 : ℂ)) * flat k).sum * (x ^ a * y ^ b /
      ((Real.sqrt a.factorial : ℂ) * (Real.sqrt b.factorial : ℂ))) := fun a b => by ring
  simp only [e2, lin]
  have e3 : ∀ (f : ℕ → (ℕ × ℕ) × ℂ → ℂ), ∑ a ∈ range M, ((writes ħ r s).map fun w => f a w).sum = ((writes ħ r s).map fun w => ∑ a ∈ range M, f a w).sum := by
    intro f
    have := lin (writes ħ r s) (range M) f fun _ => 1
    simpa only [mul_one] using this
  rw [e3, writes_sum]
  refine Finset.sum_congr rfl fun m hm => Finset.sum_congr rfl fun n hn => ?_
  rw [Finset.mem_range] at hm hn
  have hk : m * r + n < r * s := by
    by_contra h0
    exact hb ⟨((0 * (r + s - 1) + (m + n - 0), m * r + n), _), List.mem_flatMap.2 ⟨m, List.mem_range.2 hm, List.mem_flatMap.2 ⟨n, List.mem_range.2 hn,
        List.mem_map.2 ⟨0, List.mem_range.2 (by omega), rfl⟩⟩⟩, Or.inr (not_lt.1 h0)⟩
  have e4 : ∀ α ∈ range (m + n + 1), ∀ v : ℂ, ∑ a ∈ range M, ∑ b ∈ range M, (∑ k ∈ range (r * s), (if ((α * (r + s - 1) + (m + n - α), m * r + n) : ℕ × ℕ) = (a * M + b, k) then v else (0 : ℂ)) * flat k) *
      (x ^ a * y ^ b / ((Real.sqrt a.factorial : ℂ) * (Real.sqrt b.factorial : ℂ))) =
      v * flat (m * r + n) * (x ^ α * y ^ (m + n - α) / ((Real.sqrt α.factorial : ℂ) * (Real.sqrt (m + n - α).factorial : ℂ))) := by
    intro α hα v
    rw [Finset.mem_range] at hα
    rw [← hM]
    rw [Finset.sum_eq_single_of_mem α (Finset.mem_range.2 (by omega)), Finset.sum_eq_single_of_mem (m + n - α) (Finset.mem_range.2 (by omega)),
      Finset.sum_eq_single_of_mem (m * r + n) (Finset.mem_range.2 hk), if_pos rfl]
    · intro k _ hk
      rw [if_neg, zero_mul]
      intro e
      exact hk (Prod.mk.inj e).2.symm
    · intro b hb hne
      rw [Finset.sum_eq_zero, zero_mul]
      intro k _
      rw [if_neg, zero_mul]
      intro e
      exact hne ((key_inj (Finset.mem_range.1 hb) (by omega) (Prod.mk.inj e).1.symm).2)
    · intro a _ hne
      refine Finset.sum_eq_zero fun b hb => ?_
      rw [Finset.sum_eq_zero, zero_mul]
      intro k _
      rw [if_neg, zero_mul]
      intro e
      exact hne ((key_inj (Finset.mem_range.1 hb) (by omega) (Prod.mk.inj e).1.symm).1)
  rw [Finset.sum_congr rfl fun α hα => e4 α hα _]
  have hsq : ∀ k : ℕ, (Real.sqrt k.factorial : ℂ) ≠ 0 := fun k => by
    rw [Complex.ofReal_ne_zero, Real.sqrt_ne_zero (by positivity)]
    positivity
  have e5 : ∀ α ∈ range (m + n + 1), cps m n α * (Real.sqrt (ħ / 2) : ℂ) ^ (m + n) /
        (Real.sqrt ((m.factorial : ℝ) * n.factorial / (α.factorial * (m + n - α).factorial)) : ℂ) * flat (m * r + n) *
        (x ^ α * y ^ (m + n - α) / ((Real.sqrt α.factorial : ℂ) * (Real.sqrt (m + n - α).factorial : ℂ))) =
      (flat (m * r + n) * (Real.sqrt (ħ / 2) : ℂ) ^ (m + n) / ((Real.sqrt m.factorial : ℂ) * (Real.sqrt n.factorial : ℂ))) * (cps m n α * x ^ α * y ^ (m + n - α)) := by
    intro α _
    rw [Real.sqrt_div' ((m.factorial : ℝ) * n.factorial) (by positivity), Real.sqrt_mul (x := (m.factorial : ℝ)) (by positivity), Real.sqrt_mul (x := (α.factorial : ℝ)) (by positivity)]
    push_cast
    have h1 := hsq m
    have h2 := hsq n
    have h3 := hsq α
    have h4 := hsq (m + n - α)
    field_simp
  rw [Finset.sum_congr rfl e5, ← Finset.mul_sum, cps_sum, hfl, mul_pow, mul_pow, pow_add]
  ring

/-- **C101 (square)** For a square `c`, and for one with a single row, `c_in_PS` returns the coefficients of the same polynomial in the rotated variables. -/
theorem C101_square {ħ : ℝ} {r s : ℕ} (hr : 1 ≤ r) (hs : 1 ≤ s) (hsq : r = s ∨ r = 1) (c : ℕ → ℕ → ℂ) : ∃ c', cInPS ħ r s c = some c' ∧ ∀ x y : ℂ,
    poly (r + s - 1) (r + s - 1) c' x y = poly r s c ((Real.sqrt (ħ / 2) : ℂ) * (x + Complex.I * y)) ((Real.sqrt (ħ / 2) : ℂ) * (x - Complex.I * y)) := by
  cases h : cInPS ħ r s c with
  | none =>
    have := (C101_raises ħ hr hs c).1 h
    omega
  | some c' =>
    refine ⟨c', rfl, fun x y => ?_⟩
    rw [C101_exact hr hs c c' h]
    unfold poly
    refine Finset.sum_congr rfl fun m hm => Finset.sum_congr rfl fun n hn => ?_
    rw [Finset.mem_range] at hm hn
    have e : m * r + n = m * s + n := by
      rcases hsq with h1 | h1
      · rw [h1]
      · have : m = 0 := by omega
        subst this
        omega
    dsimp only
    rw [e, add_comm (m * s), Nat.add_mul_div_right _ _ (by omega), Nat.add_mul_mod_self_right, Nat.div_eq_of_lt hn, Nat.mod_eq_of_lt hn, zero_add]

/-- **C101 (finding)** For two rows and three columns the result is silently wrong: the entry of row `1`, column `2` (the term `X Y²/√2`) is dropped. -/
theorem C101_not_rectangular : ∃ (c c' : ℕ → ℕ → ℂ), cInPS 2 2 3 c = some c' ∧
    poly 4 4 c' 1 0 ≠ poly 2 3 c ((Real.sqrt (2 / 2) : ℂ) * (1 + Complex.I * 0)) ((Real.sqrt (2 / 2) : ℂ) * (1 - Complex.I * 0)) := by
  cases h : cInPS 2 2 3 (fun m n => if m = 1 ∧ n = 2 then 1 else 0) with
  | none =>
    have := (C101_raises 2 (by norm_num) (by norm_num) _).1 h
    omega
  | some c' =>
    refine ⟨_, c', h, ?_⟩
    rw [show (4 : ℕ) = 2 + 3 - 1 by norm_num, C101_exact (by norm_num) (by norm_num) _ c' h]
    simp [poly, Finset.sum_range_succ]
    intro h0
    have h1 : Real.sqrt 2 = 0 := by exact_mod_cast h0.symm
    norm_num at h1

/-- The annihilation-creation polynomial `1 + X Y` on a square array: `X Y = (ħ/2)(x² + y²)`. -/
example : ∃ c', cInPS 2 2 2 (fun m n => if m = n then 1 else 0) = some c' ∧ ∀ x y : ℂ, poly 3 3 c' x y = 1 + (x ^ 2 + y ^ 2) := by
  obtain ⟨c', h, h'⟩ := C101_square (ħ := 2) (r := 2) (s := 2) (by norm_num) (by norm_num) (Or.inl rfl) fun m n => if m = n then 1 else 0
  refine ⟨c', h, fun x y => ?_⟩
  rw [show (3 : ℕ) = 2 + 2 - 1 by norm_num, h']
  simp [poly, Finset.sum_range_succ]
  linear_combination (-y ^ 2) * Complex.I_sq

end Verif.PhaseC
