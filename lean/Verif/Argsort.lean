import Mathlib.Data.List.Sort
import Mathlib.Data.List.Dedup
import Mathlib.Order.WithBot
import Mathlib.Data.List.Nodup

/-!
# `argsort_gen`: sorting generators lexicographically
-/

namespace Verif.Argsort

variable {α : Type*} [LinearOrder α]

/-- utils/argsort.py:23-66 `argsort_gen`: the generators are lists, an exhausted generator yields infinity (`⊤`).  The pools are
the values of the dictionary sorted by key; pools with more than one member are sorted recursively by the *following* values.
The first argument bounds the recursion depth (each level consumes one value of every generator). -/
def argsortGen : ℕ → List (List α) → List ℕ
  | 0, gens => List.range gens.length
  | fuel + 1, gens =>
    let vals : List (WithTop α) := gens.map fun g => match g with
      | [] => ⊤
      | x :: _ => (x : WithTop α)
    if ∀ v ∈ vals, v = ⊤ then List.range gens.length
    else
      (vals.dedup.insertionSort (· ≤ ·)).flatMap fun v =>
        let pool := (List.range gens.length).filter fun i => vals.getD i ⊤ = v
        if 1 < pool.length then (argsortGen fuel (pool.map fun i => (gens.getD i []).tail)).map (pool.getD · 0)
        else pool

/-- Lexicographic order. -/
def lexLe : List α → List α → Prop
  | [], _ => True
  | _ :: _, [] => False
  | x :: xs, y :: ys => x < y ∨ (x = y ∧ lexLe xs ys)

theorem lexLe_refl (l : List α) : lexLe l l := by
  induction l with
  | nil => trivial
  | cons x l ih => exact Or.inr ⟨rfl, ih⟩

theorem lexLe_antisymm : ∀ {a b : List α}, lexLe a b → lexLe b a → a = b
  | [], [], _, _ => rfl
  | [], _ :: _, _, h => absurd h (by simp [lexLe])
  | _ :: _, [], h, _ => absurd h (by simp [lexLe])
  | x :: xs, y :: ys, h1, h2 => by
    rcases h1 with h1 | ⟨rfl, h1⟩
    · rcases h2 with h2 | ⟨rfl, _⟩
      · exact absurd (h1.trans h2) (lt_irrefl _)
      · exact absurd h1 (lt_irrefl _)
    · rcases h2 with h2 | ⟨_, h2⟩
      · exact absurd h2 (lt_irrefl _)
      · rw [lexLe_antisymm h1 h2]

theorem lexLe_trans : ∀ {a b c : List α}, lexLe a b → lexLe b c → lexLe a c
  | [], _, _, _, _ => trivial
  | _ :: _, [], _, h, _ => absurd h (by simp [lexLe])
  | _ :: _, _ :: _, [], _, h => absurd h (by simp [lexLe])
  | x :: xs, y :: ys, z :: zs, h1, h2 => by
    rcases h1 with h1 | ⟨rfl, h1⟩
    · rcases h2 with h2 | ⟨rfl, _⟩
      · exact Or.inl (h1.trans h2)
      · exact Or.inl h1
    · rcases h2 with h2 | ⟨rfl, h2⟩
      · exact Or.inl h2
      · exact Or.inr ⟨rfl, lexLe_trans h1 h2⟩

theorem lexLe_total : ∀ (a b : List α), lexLe a b ∨ lexLe b a
  | [], _ => Or.inl trivial
  | _ :: _, [] => Or.inr trivial
  | x :: xs, y :: ys => by
    rcases lt_trichotomy x y with h | h | h
    · exact Or.inl (Or.inl h)
    · rcases lexLe_total xs ys with h' | h'
      · exact Or.inl (Or.inr ⟨h, h'⟩)
      · exact Or.inr (Or.inr ⟨h.symm, h'⟩)
    · exact Or.inr (Or.inl h)

/-- The order of two lists with prefixes of equal length is first decided by the prefixes. -/
theorem lexLe_prefix : ∀ {p q s t : List α}, p.length = q.length → lexLe (p ++ s) (q ++ t) → lexLe p q
  | [], [], _, _, _, _ => trivial
  | x :: p, y :: q, s, t, hl, h => by
    rcases h with h | ⟨rfl, h⟩
    · exact Or.inl h
    · exact Or.inr ⟨rfl, lexLe_prefix (by simpa using hl) h⟩

/-- `argsort_gen` returns every index exactly once, and the generators, read in that order, are sorted lexicographically. -/
theorem argsortGen_spec (m : ℕ) : ∀ (fuel : ℕ) (gens : List (List α)), m < fuel → (∀ g ∈ gens, g.length = m) →
    (argsortGen fuel gens).Perm (List.range gens.length) ∧
    ((argsortGen fuel gens).map fun i => gens.getD i []).Pairwise lexLe := by
  induction m with
  | zero =>
    intro fuel gens hf hlen
    obtain ⟨f, rfl⟩ : ∃ f, fuel = f + 1 := ⟨fuel - 1, by omega⟩
    have hnil : ∀ g ∈ gens, g = [] := fun g hg => List.length_eq_zero_iff.1 (hlen g hg)
    have : argsortGen (f + 1) gens = List.range gens.length := by
      unfold argsortGen
      rw [if_pos]
      intro v hv
      obtain ⟨g, hg, rfl⟩ := List.mem_map.1 hv
      rw [hnil g hg]
    rw [this]
    refine ⟨List.Perm.refl _, ?_⟩
    rw [List.pairwise_map]
    refine List.pairwise_of_forall fun {i j} => ?_
    have : gens.getD i [] = [] := by
      rw [List.getD_eq_getElem?_getD]
      cases h : gens[i]? with
      | none => rfl
      | some g => exact hnil g (List.mem_of_getElem? h)
    rw [this]; trivial
  | succ m ih =>
    intro fuel gens hf hlen
    obtain ⟨f, rfl⟩ : ∃ f, fuel = f + 1 := ⟨fuel - 1, by omega⟩
    unfold argsortGen
    set vals : List (WithTop α) := gens.map (fun g => match g with
      | [] => ⊤
      | x :: _ => (x : WithTop α)) with hvals
    have hvl : vals.length = gens.length := by simp [hvals]
    dsimp only
    split_ifs with hall
    · -- impossible unless there are no generators
      have : gens = [] := by
        cases hg : gens with
        | nil => rfl
        | cons g gs =>
          have h1 := hlen g (by simp [hg])
          obtain ⟨x, xs, hx⟩ : ∃ x xs, g = x :: xs := by
            cases g with
            | nil => simp at h1
            | cons x xs => exact ⟨x, xs, rfl⟩
          have := hall (x : WithTop α) (by rw [hvals, hg, hx]; simp)
          exact absurd this (WithTop.coe_ne_top)
      subst this; simp
    · set pool : WithTop α → List ℕ := fun v => (List.range gens.length).filter fun i => vals.getD i ⊤ = v with hpool
      set out : WithTop α → List ℕ := fun v =>
        if 1 < (pool v).length then (argsortGen f ((pool v).map fun i => (gens.getD i []).tail)).map ((pool v).getD · 0)
        else pool v with hout
      have mem_pool : ∀ v i, i ∈ pool v ↔ i < gens.length ∧ vals.getD i ⊤ = v := by
        intro v i; simp [hpool]
      have nodup_pool : ∀ v, (pool v).Nodup := fun v => List.Nodup.filter _ List.nodup_range
      have htail : ∀ v, ∀ g ∈ (pool v).map (fun i => (gens.getD i []).tail), g.length = m := by
        intro v g hg
        obtain ⟨i, hi, rfl⟩ := List.mem_map.1 hg
        have hlt := ((mem_pool v i).1 hi).1
        have : gens.getD i [] ∈ gens := by
          rw [List.getD_eq_getElem?_getD, List.getElem?_eq_getElem hlt]; exact List.getElem_mem hlt
        rw [List.length_tail, hlen _ this]; rfl
      have head : ∀ v i, i ∈ pool v → ∃ x xs, gens.getD i [] = x :: xs ∧ v = (x : WithTop α) := by
        intro v i hi
        obtain ⟨hlt, hv⟩ := (mem_pool v i).1 hi
        have hmem : gens[i] ∈ gens := List.getElem_mem hlt
        have h1 := hlen _ hmem
        have hg : gens.getD i [] = gens[i] := by rw [List.getD_eq_getElem?_getD, List.getElem?_eq_getElem hlt]; rfl
        cases hgi : gens[i] with
        | nil => rw [hgi] at h1; simp at h1
        | cons x xs =>
          refine ⟨x, xs, hg.trans hgi, ?_⟩
          rw [← hv, List.getD_eq_getElem?_getD, List.getElem?_eq_getElem (by omega)]
          simp [hvals, hgi]
      -- each sorted pool
      have hp : ∀ v, (out v).Perm (pool v) ∧ ((out v).map fun i => gens.getD i []).Pairwise lexLe := by
        intro v
        simp only [hout]
        split_ifs with h1
        · obtain ⟨p, s⟩ := ih f ((pool v).map fun i => (gens.getD i []).tail) (by omega) (htail v)
          rw [List.length_map] at p
          refine ⟨?_, ?_⟩
          · refine (p.map _).trans ?_
            have : (List.range (pool v).length).map ((pool v).getD · 0) = pool v := by
              apply List.ext_getElem
              · simp
              · intro i h1 h2
                simp [h2]
            rw [this]
          · rw [List.map_map, List.pairwise_map]
            rw [List.pairwise_map] at s
            refine s.imp_of_mem ?_
            intro a b ha hb hab
            have la : a < (pool v).length := by simpa using p.mem_iff.1 ha
            have lb : b < (pool v).length := by simpa using p.mem_iff.1 hb
            simp only [Function.comp]
            have ea : (pool v).getD a 0 = (pool v)[a] := by rw [List.getD_eq_getElem?_getD, List.getElem?_eq_getElem la]; rfl
            have eb : (pool v).getD b 0 = (pool v)[b] := by rw [List.getD_eq_getElem?_getD, List.getElem?_eq_getElem lb]; rfl
            obtain ⟨x, xs, hx, hvx⟩ := head v _ (List.getElem_mem la)
            obtain ⟨y, ys, hy, hvy⟩ := head v _ (List.getElem_mem lb)
            rw [ea, eb, hx, hy]
            refine Or.inr ⟨by rw [hvx] at hvy; exact WithTop.coe_injective hvy, ?_⟩
            have ga : ((pool v).map fun i => (gens.getD i []).tail).getD a [] = xs := by
              rw [List.getD_eq_getElem?_getD, List.getElem?_map, List.getElem?_eq_getElem la]
              simp only [Option.map_some, Option.getD_some, hx, List.tail_cons]
            have gb : ((pool v).map fun i => (gens.getD i []).tail).getD b [] = ys := by
              rw [List.getD_eq_getElem?_getD, List.getElem?_map, List.getElem?_eq_getElem lb]
              simp only [Option.map_some, Option.getD_some, hy, List.tail_cons]
            rw [ga, gb] at hab
            exact hab
        · refine ⟨List.Perm.refl _, ?_⟩
          have : (pool v).length ≤ 1 := by omega
          rcases hpv : pool v with _ | ⟨a, _ | ⟨b, l⟩⟩
          · simp
          · simp
          · rw [hpv] at this; simp at this
      have hkeys : (vals.dedup.insertionSort (· ≤ ·)).Perm vals.dedup := List.perm_insertionSort _ _
      have hsorted : (vals.dedup.insertionSort (· ≤ ·)).Pairwise (· ≤ ·) := List.pairwise_insertionSort _ _
      have hnd : (vals.dedup.insertionSort (· ≤ ·)).Nodup := hkeys.nodup_iff.2 (List.nodup_dedup _)
      have hstrict : (vals.dedup.insertionSort (· ≤ ·)).Pairwise (· < ·) :=
        (hsorted.and hnd).imp fun h => lt_of_le_of_ne h.1 h.2
      refine ⟨?_, ?_⟩
      · rw [List.perm_ext_iff_of_nodup]
        · intro i
          rw [List.mem_flatMap, List.mem_range]
          constructor
          · rintro ⟨v, _, hi⟩
            exact ((mem_pool v i).1 ((hp v).1.mem_iff.1 hi)).1
          · intro hi
            refine ⟨vals.getD i ⊤, ?_, (hp _).1.mem_iff.2 ((mem_pool _ i).2 ⟨hi, rfl⟩)⟩
            rw [hkeys.mem_iff, List.mem_dedup, List.getD_eq_getElem?_getD, List.getElem?_eq_getElem (by omega)]
            exact List.getElem_mem _
        · rw [List.nodup_flatMap]
          refine ⟨fun v _ => (hp v).1.nodup_iff.2 (nodup_pool v), hnd.imp ?_⟩
          intro v w hvw i hi hj
          apply hvw
          rw [← ((mem_pool v i).1 ((hp v).1.mem_iff.1 hi)).2]
          exact ((mem_pool w i).1 ((hp w).1.mem_iff.1 hj)).2
        · exact List.nodup_range
      · rw [List.map_flatMap, List.pairwise_flatMap]
        refine ⟨fun v _ => (hp v).2, hstrict.imp ?_⟩
        intro v w hvw a ha b hb
        obtain ⟨i, hi, rfl⟩ := List.mem_map.1 ha
        obtain ⟨j, hj, rfl⟩ := List.mem_map.1 hb
        obtain ⟨x, xs, hx, hvx⟩ := head v i ((hp v).1.mem_iff.1 hi)
        obtain ⟨y, ys, hy, hvy⟩ := head w j ((hp w).1.mem_iff.1 hj)
        rw [hx, hy]
        left
        rw [hvx, hvy] at hvw
        exact WithTop.coe_lt_coe.1 hvw

/-- A non-trivial run: ties on the first value are resolved by the following ones. -/
example : argsortGen 4 [[2, 1, 5], [1, 9, 0], [2, 1, 4], [2, 0, 7]] = [1, 3, 2, 0] := by decide

end Verif.Argsort
