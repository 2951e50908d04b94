import Mathlib.Data.Real.Basic
import Mathlib.Algebra.BigOperators.Intervals
import Mathlib.Algebra.BigOperators.Group.Finset.Basic
import Mathlib.Algebra.Order.BigOperators.Group.Finset
import Mathlib.Algebra.BigOperators.Fin
import Mathlib.Data.Finset.Range
import Mathlib.Tactic.Ring
import Mathlib.Tactic.NormNum

/-!
# Model of the optimisation loop (C38)

Losses are real numbers (simplification: floating-point NaN, for which the loss never counts as stable, is not modelled).
-/

namespace Verif.Opt
open Finset

/-- Python's `h[-i]` (only used with `1 ≤ i ≤ len(h)`). -/
noncomputable def back (h : List ℝ) (i : ℕ) : ℝ := h.getD (h.length - i) 0

/-- training/optimizer.py:150-172 `should_stop`, on the history list `opt_history`. -/
noncomputable def shouldStop (thr : ℝ) (maxSteps : ℤ) (h : List ℝ) : Bool :=
  if maxSteps ≠ 0 ∧ (h.length : ℤ) > maxSteps then true
  else if h.length > 20 ∧
      ((List.range' 1 19).map (fun i => |back h (i + 1) - back h i|)).sum < thr then true
  else false

/-- training/optimizer.py:210-222: the `while` loop, with at most `fuel` iterations; `none` means it has not
stopped yet.  `step` is `make_step` followed by appending the loss to `opt_history`. -/
noncomputable def loop {σ : Type} (step : σ → σ × ℝ) (thr : ℝ) (maxSteps : ℤ) : ℕ → σ → List ℝ → Option (σ × List ℝ)
  | 0, s, h => if shouldStop thr maxSteps h then some (s, h) else none
  | fuel + 1, s, h =>
    if shouldStop thr maxSteps h then some (s, h)
    else loop step thr maxSteps fuel (step s).1 (h ++ [(step s).2])

/-- training/optimizer.py:109-148 `minimize`: resets the history to `[0]` and runs the loop. -/
noncomputable def minimize {σ : Type} (step : σ → σ × ℝ) (thr : ℝ) (maxSteps : ℤ) (fuel : ℕ) (s : σ) :
    Option (σ × List ℝ) :=
  loop step thr maxSteps fuel s [0]

/-! ## Specification -/

/-- The parameters after `k` optimisation steps. -/
def after {σ : Type} (step : σ → σ × ℝ) (s : σ) : ℕ → σ
  | 0 => s
  | k + 1 => (step (after step s k)).1

/-- The loss reported by step number `k` (counting from 0). -/
def loss {σ : Type} (step : σ → σ × ℝ) (s : σ) (k : ℕ) : ℝ := (step (after step s k)).2

/-- The loss is stable after `k` steps: at least 20 steps were made and the last 20 losses vary by less than the
threshold in total. -/
def Stable {σ : Type} (step : σ → σ × ℝ) (s : σ) (thr : ℝ) (k : ℕ) : Prop :=
  20 ≤ k ∧ ∑ j ∈ Finset.range 19, |loss step s (k - 20 + j) - loss step s (k - 20 + j + 1)| < thr

/-- The loop has to stop after `k` steps. -/
def Done {σ : Type} (step : σ → σ × ℝ) (s : σ) (thr : ℝ) (maxSteps : ℤ) (k : ℕ) : Prop :=
  (maxSteps ≠ 0 ∧ maxSteps ≤ k) ∨ Stable step s thr k

/-! ## Proofs -/

/-- The history after `k` steps. -/
noncomputable def hist {σ : Type} (step : σ → σ × ℝ) (s : σ) (k : ℕ) : List ℝ :=
  0 :: (List.range k).map (loss step s)

theorem hist_succ {σ : Type} (step : σ → σ × ℝ) (s : σ) (k : ℕ) :
    hist step s k ++ [loss step s k] = hist step s (k + 1) := by
  simp [hist, List.range_succ]

theorem back_hist {σ : Type} (step : σ → σ × ℝ) (s : σ) (k i : ℕ) (hi : 1 ≤ i) (hk : i ≤ k) :
    back (hist step s k) i = loss step s (k - i) := by
  unfold back hist
  have e : (0 :: (List.range k).map (loss step s)).length - i = (k - i) + 1 := by simp; omega
  rw [e, List.getD_cons_succ, List.getD_eq_getElem?_getD, List.getElem?_map, List.getElem?_range (by omega)]
  rfl

theorem window_sum {σ : Type} (step : σ → σ × ℝ) (s : σ) (k : ℕ) (hk : 20 ≤ k) :
    ((List.range' 1 19).map (fun i => |back (hist step s k) (i + 1) - back (hist step s k) i|)).sum =
      ∑ j ∈ Finset.range 19, |loss step s (k - 20 + j) - loss step s (k - 20 + j + 1)| := by
  have h1 : ((List.range' 1 19).map (fun i => |back (hist step s k) (i + 1) - back (hist step s k) i|)) =
      (List.range' 1 19).map (fun i => |loss step s (k - (i + 1)) - loss step s (k - i)|) := by
    apply List.map_congr_left
    intro i hi
    rw [List.mem_range'_1] at hi
    rw [back_hist _ _ _ _ (by omega) (by omega), back_hist _ _ _ _ (by omega) (by omega)]
  rw [h1, List.range'_eq_map_range, List.map_map]
  have h2 : ((List.range 19).map ((fun i => |loss step s (k - (i + 1)) - loss step s (k - i)|) ∘ fun x => 1 + x)).sum =
      ∑ j ∈ Finset.range 19, |loss step s (k - (1 + j + 1)) - loss step s (k - (1 + j))| := by
    rw [Finset.sum_range, ← List.sum_ofFn]
    rfl
  rw [h2, ← Finset.sum_range_reflect]
  apply Finset.sum_congr rfl
  intro j hj
  rw [Finset.mem_range] at hj
  have e1 : k - (1 + (19 - 1 - j) + 1) = k - 20 + j := by omega
  have e2 : k - (1 + (19 - 1 - j)) = k - 20 + j + 1 := by omega
  rw [e1, e2]

theorem shouldStop_iff {σ : Type} (step : σ → σ × ℝ) (s : σ) (thr : ℝ) (maxSteps : ℤ) (k : ℕ) :
    shouldStop thr maxSteps (hist step s k) = true ↔ Done step s thr maxSteps k := by
  have hl : (hist step s k).length = k + 1 := by simp [hist]
  unfold shouldStop Done Stable
  rw [hl]
  by_cases h1 : maxSteps ≠ 0 ∧ ((k + 1 : ℕ) : ℤ) > maxSteps
  · rw [if_pos h1]
    simp only [true_iff]
    left
    exact ⟨h1.1, by have := h1.2; push_cast at this; omega⟩
  · rw [if_neg h1]
    have h1' : ¬ (maxSteps ≠ 0 ∧ maxSteps ≤ k) := by
      rintro ⟨a, b⟩; apply h1; refine ⟨a, ?_⟩; push_cast; omega
    by_cases hk : 20 ≤ k
    · rw [window_sum step s k hk]
      simp only [h1', false_or, hk, true_and]
      have : k + 1 > 20 := by omega
      simp [this]
    · have : ¬ (k + 1 > 20) := by omega
      simp [h1', hk, this]

theorem loop_spec {σ : Type} (step : σ → σ × ℝ) (s : σ) (thr : ℝ) (maxSteps : ℤ) (fuel k : ℕ) :
    (∀ n, k ≤ n → n ≤ k + fuel → Done step s thr maxSteps n → (∀ m, k ≤ m → m < n → ¬ Done step s thr maxSteps m) →
      loop step thr maxSteps fuel (after step s k) (hist step s k) = some (after step s n, hist step s n)) ∧
    ((∀ n, k ≤ n → n ≤ k + fuel → ¬ Done step s thr maxSteps n) →
      loop step thr maxSteps fuel (after step s k) (hist step s k) = none) := by
  induction fuel generalizing k with
  | zero =>
    constructor
    · intro n h1 h2 hd _
      obtain rfl : n = k := by omega
      unfold loop
      rw [if_pos ((shouldStop_iff step s thr maxSteps n).2 hd)]
    · intro h
      unfold loop
      rw [if_neg]
      intro hc
      exact h k le_rfl le_rfl ((shouldStop_iff step s thr maxSteps k).1 hc)
  | succ fuel ih =>
    by_cases hd : Done step s thr maxSteps k
    · constructor
      · intro n h1 _ _ hm
        have : n = k := by
          by_contra hne
          exact hm k le_rfl (by omega) hd
        subst this
        unfold loop
        rw [if_pos ((shouldStop_iff step s thr maxSteps n).2 hd)]
      · intro h
        exact absurd hd (h k le_rfl (by omega))
    · have e : loop step thr maxSteps (fuel + 1) (after step s k) (hist step s k) =
          loop step thr maxSteps fuel (after step s (k + 1)) (hist step s (k + 1)) := by
        rw [loop, if_neg (fun hc => hd ((shouldStop_iff step s thr maxSteps k).1 hc)), ← hist_succ]
        rfl
      rw [e]
      constructor
      · intro n h1 h2 hdn hm
        have : n ≠ k := by rintro rfl; exact hd hdn
        exact (ih (k + 1)).1 n (by omega) (by omega) hdn (fun m a b => hm m (by omega) b)
      · intro h
        exact (ih (k + 1)).2 (fun n a b => h n (by omega) (by omega))

/-- **C38.** The loop returns after exactly `n` steps, where `n` is the first number of steps at which it has to stop
(the step limit is reached, or the last 20 losses vary by less than the threshold), with the parameters after these
`n` steps and the full list of losses; if no such `n` exists within the fuel it is still running. -/
theorem C38_stops_exactly {σ : Type} (step : σ → σ × ℝ) (thr : ℝ) (maxSteps : ℤ) (s : σ) (fuel : ℕ) :
    (∀ n ≤ fuel, Done step s thr maxSteps n → (∀ m < n, ¬ Done step s thr maxSteps m) →
      minimize step thr maxSteps fuel s = some (after step s n, 0 :: (List.range n).map (loss step s))) ∧
    ((∀ n ≤ fuel, ¬ Done step s thr maxSteps n) → minimize step thr maxSteps fuel s = none) := by
  obtain ⟨h1, h2⟩ := loop_spec step s thr maxSteps fuel 0
  constructor
  · intro n hn hd hm
    exact h1 n (Nat.zero_le _) (by omega) hd (fun m _ hlt => hm m hlt)
  · intro h
    exact h2 (fun n _ hn => h n (by omega))

/-- **C38 (step limit).** With `max_steps = n > 0` the optimiser terminates, after at most `n` steps. -/
theorem C38_max_steps {σ : Type} (step : σ → σ × ℝ) (thr : ℝ) (n : ℕ) (hn : 0 < n) (s : σ) :
    ∃ k ≤ n, minimize step thr n n s = some (after step s k, 0 :: (List.range k).map (loss step s)) ∧
      (k < n → Stable step s thr k) := by
  classical
  have hex : ∃ k, Done step s thr (n : ℤ) k := ⟨n, Or.inl ⟨by omega, le_rfl⟩⟩
  set k := Nat.find hex with hk
  have hkd : Done step s thr (n : ℤ) k := Nat.find_spec hex
  have hle : k ≤ n := Nat.find_min' hex (Or.inl ⟨by omega, le_rfl⟩)
  refine ⟨k, hle, (C38_stops_exactly step thr n s n).1 k hle hkd (fun m hm => Nat.find_min hex hm), ?_⟩
  intro hlt
  rcases hkd with ⟨_, h⟩ | h
  · exfalso; push_cast at h; omega
  · exact h

/-- **C38 (no step limit).** With `max_steps = 0` the optimiser stops only when the loss is stable, and it does so at
the first such step; if the loss never becomes stable it never stops. -/
theorem C38_unlimited {σ : Type} (step : σ → σ × ℝ) (thr : ℝ) (s : σ) :
    (∀ fuel r, minimize step thr 0 fuel s = some r →
      ∃ k ≤ fuel, Stable step s thr k ∧ (∀ m < k, ¬ Stable step s thr m) ∧
        r = (after step s k, 0 :: (List.range k).map (loss step s))) ∧
    ((∀ k, ¬ Stable step s thr k) → ∀ fuel, minimize step thr 0 fuel s = none) := by
  classical
  have hdone : ∀ k, Done step s thr 0 k ↔ Stable step s thr k := by intro k; simp [Done]
  constructor
  · intro fuel r hr
    by_cases hex : ∃ k ≤ fuel, Stable step s thr k
    · have hex' : ∃ k, Stable step s thr k := ⟨hex.choose, hex.choose_spec.2⟩
      set k := Nat.find hex' with hk
      have hks : Stable step s thr k := Nat.find_spec hex'
      have hle : k ≤ fuel := (Nat.find_min' hex' hex.choose_spec.2).trans hex.choose_spec.1
      have hmin : ∀ m < k, ¬ Stable step s thr m := fun m hm => Nat.find_min hex' hm
      refine ⟨k, hle, hks, hmin, ?_⟩
      have := (C38_stops_exactly step thr 0 s fuel).1 k hle ((hdone k).2 hks) (fun m hm => by rw [hdone]; exact hmin m hm)
      rw [this] at hr
      exact (Option.some.inj hr).symm
    · exfalso
      have := (C38_stops_exactly step thr 0 s fuel).2 (by
        intro n hn; rw [hdone]; intro h; exact hex ⟨n, hn, h⟩)
      rw [this] at hr
      simp at hr
  · intro h fuel
    exact (C38_stops_exactly step thr 0 s fuel).2 (fun n _ => by rw [hdone]; exact h n)

/-- Both outcomes occur: a constant loss is stable after 20 steps, a loss growing by one per step never is. -/
example : Stable (fun s : ℕ => (s + 1, (1 : ℝ))) 0 (1 / 1000) 20 := by
  refine ⟨le_rfl, ?_⟩
  simp [loss]

example : ∀ k, ¬ Stable (fun s : ℕ => (s + 1, (s : ℝ))) 0 (1 / 1000) k := by
  have ha : ∀ k, after (fun s : ℕ => (s + 1, (s : ℝ))) 0 k = k := by
    intro k
    induction k with
    | zero => rfl
    | succ k ih => simp only [after, ih]
  rintro k ⟨_, h⟩
  simp only [loss, ha] at h
  have e : ∀ j ∈ Finset.range 19, |((k - 20 + j : ℕ) : ℝ) - ((k - 20 + j + 1 : ℕ) : ℝ)| = 1 := by
    intro j _
    push_cast
    rw [show ∀ x : ℝ, x - (x + 1) = -1 by intro x; ring]
    simp
  rw [Finset.sum_congr rfl e] at h
  norm_num at h

end Verif.Opt
