import Mathlib.Data.Real.Basic
import Mathlib.Algebra.BigOperators.Ring.Finset
import Mathlib.Tactic.SplitIfs
import Mathlib.Tactic.Linarith

/-!
# Number states (C106)
-/

namespace Verif.NumState

/-! ## The code -/

/-- `math.eye(c)[i]`: a row of the identity. -/
def eyeRow (c i : ℕ) : List ℝ := (List.range c).map fun j => if j = i then 1 else 0

/-- Indexing an axis of length `c` by `x` (numpy): negative numbers count from the end; `none` is IndexError. -/
def npIndex (c x : ℤ) : Option ℕ := if x < -c ∨ c ≤ x then none else some (if x < 0 then x + c else x).toNat

/-- `fock_state` (physics/fock_utils.py 41-69) with the numpy backend, for the list of photon numbers of the batch (one for an unbatched state); the rows of the result in the order of the batch; `none` if it raises. -/
def fockState (n : List ℤ) (cutoff : Option ℤ) : Option (List (List ℝ)) :=
  (match cutoff with
    | some c => some c
    | none => n.max?.map (· + 1)).bind fun c =>
  if n.any fun x => decide (c ≤ x) then none
  else if c < 0 then none
  else n.mapM fun x => (npIndex c x).map (eyeRow c.toNat)

/-! ## Proofs -/

theorem mapM_some {β γ : Type*} (f : β → Option γ) (g : β → γ) (d : List β) (h : ∀ p ∈ d, f p = some (g p)) : d.mapM f = some (d.map g) := by
  induction d with
  | nil => rfl
  | cons p d ih =>
    rw [List.mapM_cons, h p List.mem_cons_self, ih fun q hq => h q (List.mem_cons_of_mem _ hq)]
    rfl

theorem mapM_none {β γ : Type*} (f : β → Option γ) (d : List β) {p : β} (hp : p ∈ d) (h : f p = none) : d.mapM f = none := by
  induction d with
  | nil => exact absurd hp (by simp)
  | cons q d ih =>
    rw [List.mapM_cons]
    rcases List.mem_cons.1 hp with e | hp
    · rw [← e, h]
      rfl
    · rw [ih hp]
      rcases f q with _ | x <;> rfl

/-- **C106 (what is returned)** With an explicit cutoff `c` the call returns exactly if `c ≥ 0` and every photon number is in `-c ≤ n < c`; the row of `n` is then the basis vector number `n`, or `n + c` for negative `n`. -/
theorem C106_state (n : List ℤ) (c : ℤ) :
    ((fockState n (some c)).isSome ↔ 0 ≤ c ∧ ∀ x ∈ n, -c ≤ x ∧ x < c) ∧
    ∀ L, fockState n (some c) = some L → L.length = n.length ∧ ∀ k < n.length, (L.getD k []).length = c.toNat ∧
      ∀ j < c.toNat, (L.getD k []).getD j 0 = if (j : ℤ) = n.getD k 0 ∨ (j : ℤ) = n.getD k 0 + c then 1 else 0 := by
  have hnone : ¬ (0 ≤ c ∧ ∀ x ∈ n, -c ≤ x ∧ x < c) → fockState n (some c) = none := by
    intro h
    unfold fockState
    dsimp only
    rw [Option.bind_some]
    split_ifs with h1 h2
    · rfl
    · rfl
    · have hc : 0 ≤ c := not_lt.1 h2
      have : ∃ x ∈ n, ¬ (-c ≤ x ∧ x < c) := by
        by_contra hcon
        push Not at hcon
        exact h ⟨hc, hcon⟩
      obtain ⟨x, hx, hb⟩ := this
      refine mapM_none _ _ hx ?_
      unfold npIndex
      rw [if_pos (by omega)]
      rfl
  have hsome : (0 ≤ c ∧ ∀ x ∈ n, -c ≤ x ∧ x < c) → fockState n (some c) = some (n.map fun x => eyeRow c.toNat (if x < 0 then x + c else x).toNat) := by
    rintro ⟨hc, h⟩
    unfold fockState
    dsimp only
    rw [Option.bind_some, if_neg (by
      rw [List.any_eq_true]
      rintro ⟨x, hx, e⟩
      have := (h x hx).2
      have := of_decide_eq_true e
      omega), if_neg (by omega)]
    refine mapM_some _ _ _ fun x hx => ?_
    have := h x hx
    unfold npIndex
    rw [if_neg (by omega)]
    rfl
  by_cases hc : 0 ≤ c ∧ ∀ x ∈ n, -c ≤ x ∧ x < c
  · refine ⟨by rw [hsome hc]; exact ⟨fun _ => hc, fun _ => rfl⟩, fun L hL => ?_⟩
    rw [hsome hc] at hL
    obtain rfl := Option.some.inj hL
    refine ⟨List.length_map _, fun k hk => ?_⟩
    have hx := hc.2 _ (List.getElem_mem hk)
    have e1 : (n.map fun x => eyeRow c.toNat (if x < 0 then x + c else x).toNat).getD k [] = eyeRow c.toNat (if n[k] < 0 then n[k] + c else n[k]).toNat := by
      rw [List.getD_eq_getElem?_getD, List.getElem?_map, List.getElem?_eq_getElem hk]
      rfl
    have e2 : n.getD k 0 = n[k] := by
      rw [List.getD_eq_getElem?_getD, List.getElem?_eq_getElem hk]
      rfl
    rw [e1, e2]
    unfold eyeRow
    refine ⟨by rw [List.length_map, List.length_range], fun j hj => ?_⟩
    rw [List.getD_eq_getElem?_getD, List.getElem?_map, List.getElem?_range hj, Option.map_some, Option.getD_some]
    refine if_congr ?_ rfl rfl
    split_ifs with hneg
    · omega
    · omega
  · rw [hnone hc]
    exact ⟨⟨fun h => absurd h (by simp), fun h => absurd h hc⟩, fun L hL => absurd hL (by simp)⟩

/-- **C106 (default cutoff)** For a non-empty batch of non-negative photon numbers the default cutoff is the largest one plus 1, and every row is the basis vector of its photon number. -/
theorem C106_default (n : List ℤ) (h0 : n ≠ []) (hn : ∀ x ∈ n, 0 ≤ x) :
    ∃ m ∈ n, (∀ x ∈ n, x ≤ m) ∧ fockState n none = fockState n (some (m + 1)) ∧ ∃ L, fockState n none = some L ∧
      ∀ k < n.length, ∀ j < (m + 1).toNat, (L.getD k []).getD j 0 = if (j : ℤ) = n.getD k 0 then 1 else 0 := by
  obtain ⟨m, hm⟩ : ∃ m, n.max? = some m := Option.ne_none_iff_exists'.1 (by rwa [Ne, List.max?_eq_none_iff])
  obtain ⟨h1, h2⟩ := List.max?_eq_some_iff.1 hm
  have e : fockState n none = fockState n (some (m + 1)) := by
    unfold fockState
    dsimp only
    rw [hm]
    rfl
  have hs := (C106_state n (m + 1)).1.2 ⟨by have := hn m h1; omega, fun x hx => by
    have := hn x hx
    have := h2 x hx
    omega⟩
  obtain ⟨L, hL⟩ := Option.isSome_iff_exists.1 hs
  refine ⟨m, h1, h2, e, L, e.trans hL, fun k hk j hj => ?_⟩
  rw [(((C106_state n (m + 1)).2 L hL).2 k hk).2 j hj]
  refine if_congr ?_ rfl rfl
  have hx : 0 ≤ n.getD k 0 := by
    rw [List.getD_eq_getElem?_getD, List.getElem?_eq_getElem hk]
    exact hn _ (List.getElem_mem hk)
  omega

/-- **C106 (orthonormality and photon number)** For photon numbers below the cutoff: the inner product of two rows is 1 if the photon numbers agree and 0 otherwise, and the mean photon number of a row is its photon number. -/
theorem C106_orthonormal (n : List ℤ) (c : ℤ) (hn : ∀ x ∈ n, 0 ≤ x ∧ x < c) (hc : 0 ≤ c) (L : List (List ℝ)) (hL : fockState n (some c) = some L) (k k' : ℕ) (hk : k < n.length) (hk' : k' < n.length) :
    ∑ j ∈ Finset.range c.toNat, (L.getD k []).getD j 0 * (L.getD k' []).getD j 0 = (if n.getD k 0 = n.getD k' 0 then 1 else 0) ∧
    ∑ j ∈ Finset.range c.toNat, (j : ℝ) * (L.getD k []).getD j 0 ^ 2 = ((n.getD k 0 : ℤ) : ℝ) := by
  have _ := hc
  have hx : ∀ k < n.length, 0 ≤ n.getD k 0 ∧ n.getD k 0 < c := fun k hk => by
    rw [List.getD_eq_getElem?_getD, List.getElem?_eq_getElem hk]
    exact hn _ (List.getElem_mem hk)
  have hrow : ∀ k < n.length, ∀ j ∈ Finset.range c.toNat, (L.getD k []).getD j 0 = if j = (n.getD k 0).toNat then 1 else 0 := fun k hk j hj => by
    have hj' := Finset.mem_range.1 hj
    rw [(((C106_state n c).2 L hL).2 k hk).2 j hj']
    refine if_congr ?_ rfl rfl
    have := hx k hk
    omega
  have a1 := hx k hk
  have a2 := hx k' hk'
  constructor
  · rw [Finset.sum_congr rfl fun j hj => by rw [hrow k hk j hj, hrow k' hk' j hj, ite_mul, one_mul, zero_mul]]
    rw [Finset.sum_ite_eq' (Finset.range c.toNat) (n.getD k 0).toNat, if_pos (Finset.mem_range.2 (by omega))]
    refine if_congr ?_ rfl rfl
    omega
  · rw [Finset.sum_congr rfl fun j hj => by rw [hrow k hk j hj, ite_pow, one_pow, zero_pow two_ne_zero, mul_ite, mul_one, mul_zero]]
    rw [Finset.sum_ite_eq' (Finset.range c.toNat) (n.getD k 0).toNat, if_pos (Finset.mem_range.2 (by omega))]
    exact_mod_cast Int.toNat_of_nonneg a1.1

/-- **C106 (negative photon numbers)** are accepted: `-1` with cutoff 4 is the state with 3 photons. -/
theorem C106_negative : fockState [-1] (some 4) = fockState [3] (some 4) ∧ (fockState [-1] (some 4)).isSome :=
  ⟨rfl, rfl⟩

example : ∃ L, fockState [2, 0, 2] none = some L ∧ (L.getD 2 []).getD 2 0 = 1 := by
  obtain ⟨m, hm, hmax, -, L, hL, h⟩ := C106_default [2, 0, 2] (by simp) (by simp)
  have h2 : (2 : ℤ) ≤ m := hmax 2 (by simp)
  exact ⟨L, hL, (h 2 (by decide) 2 (by omega)).trans (if_pos rfl)⟩

end Verif.NumState
