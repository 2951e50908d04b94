import Verif.EinsumMain

/-!
# `mm_einsum` on Fock arrays (C15): when it returns, and an example
-/

namespace Verif.Arr

open Verif.Fock Verif.PolyExp

/-- Specification: what a contraction path does to the lists of labels alone.  `none` if a step does not name two different operands or the
operands share no core label. -/
def labelStep (output : List Lab) (st : List (List Lab)) (p : ℕ × ℕ) : Option (List (List Lab)) :=
  if p.1 = p.2 then none
  else do
    let A ← st[p.1]?
    let B ← st[p.2]?
    if ∃ l ∈ ints A, l ∈ ints B then
      let others := (st.eraseIdx (max p.1 p.2)).eraseIdx (min p.1 p.2)
      some (others ++ [prepareIdxOut others A B output])
    else none

theorem reduce_le {a : Arr} {s : List ℕ} (h : List.Forall₂ (· ≤ ·) s a.core) : ∃ r, a.reduce s = some r := by
  apply Option.ne_none_iff_exists'.1
  rw [Ne, Arr.C29_error]
  rintro (h' | ⟨⟨i, hi, h'⟩, _⟩)
  · exact h' (Arr.le_facts h).1
  · exact (Arr.le_facts h).2 i hi h'

theorem forall₂_map {f g : Lab → ℕ} {l : List Lab} (h : ∀ x ∈ l, f x ≤ g x) : List.Forall₂ (· ≤ ·) (l.map f) (l.map g) := by
  induction l with
  | nil => exact List.Forall₂.nil
  | cons x l ih => exact List.Forall₂.cons (h x (by simp)) (ih fun y hy => h y (by simp [hy]))

theorem map_eraseIdx {α β : Type*} (f : α → β) (l : List α) (i : ℕ) : (l.map f).eraseIdx i = (l.eraseIdx i).map f := by
  induction l generalizing i with
  | nil => rfl
  | cons x l ih => cases i with
    | zero => rfl
    | succ i => simp [ih]

/-- Positive sizes of all core labels. -/
def Pos (st : List (Arr × List Lab)) : Prop := ∀ p ∈ st, ∀ l ∈ ints p.2, 0 < ldim p l

theorem step_defined {output : List Lab} {st : List (Arr × List Lab)} {p : ℕ × ℕ} {L' : List (List Lab)} (hst : ∀ q ∈ st, LWF q) (hp : Pos st)
    (h : labelStep output (st.map Prod.snd) p = some L') :
    ∃ st', step (fun _ => none) output st p = some st' ∧ st'.map Prod.snd = L' ∧ (∀ q ∈ st', LWF q) ∧ Pos st' := by
  have fdn : ∀ l, fdim (fun _ => none) l = none := by intro l; cases l <;> rfl
  unfold labelStep at h
  split_ifs at h with hne
  simp only [Option.bind_eq_bind, Option.bind_eq_some_iff, List.getElem?_map, Option.map_eq_some_iff] at h
  obtain ⟨_, ⟨A, hA, rfl⟩, _, ⟨B, hB, rfl⟩, h⟩ := h
  split_ifs at h with hsh
  cases h
  have mA : A ∈ st := List.mem_of_getElem? hA
  have mB : B ∈ st := List.mem_of_getElem? hB
  have lA := hst A mA
  have lB := hst B mB
  have sle : ∀ {A B : Arr × List Lab}, LWF A → LWF B → List.Forall₂ (· ≤ ·) (getShape (fun _ => none) A.1 B.1 A.2 B.2) A.1.core := by
    intro A B lA lB
    rw [getShape_eq lA lB, lA.split.2.2]
    apply forall₂_map
    intro l _
    unfold sdim
    simp only [fdn]
    split_ifs
    · exact le_rfl
    · exact min_le_left _ _
    · exact le_rfl
  have spos : ∀ {A B : Arr × List Lab}, LWF A → LWF B → A ∈ st → B ∈ st → 0 ∉ getShape (fun _ => none) A.1 B.1 A.2 B.2 := by
    intro A B lA lB mA mB h0
    rw [getShape_eq lA lB, List.mem_map] at h0
    obtain ⟨l, hl, e⟩ := h0
    have h1 := hp A mA l hl
    unfold sdim at e
    simp only [fdn, (mem_ints.1 hl).2] at e
    simp only [Bool.false_eq_true, if_false] at e
    split_ifs at e with h2
    · have h3 := hp B mB l (mem_ints.2 ⟨h2, (mem_ints.1 hl).2⟩); omega
    · omega
  obtain ⟨a', ha'⟩ := reduce_le (sle lA lB)
  obtain ⟨b', hb'⟩ := reduce_le (sle lB lA)
  obtain ⟨la, da, _⟩ := reduce_lab lA lB ha'
  obtain ⟨lb, db, _⟩ := reduce_lab lB lA hb'
  set others := (st.eraseIdx (max p.1 p.2)).eraseIdx (min p.1 p.2) with hoth
  have hom : ((st.map Prod.snd).eraseIdx (max p.1 p.2)).eraseIdx (min p.1 p.2) = others.map Prod.snd := by
    rw [map_eraseIdx, map_eraseIdx]
  rw [hom]
  obtain ⟨on, om, os⟩ := prepare_spec (others.map Prod.snd) A.2 B.2 output
  set out := prepareIdxOut (others.map Prod.snd) A.2 B.2 output with hout
  obtain ⟨r, hr⟩ : ∃ r, contract a' b' A.2 B.2 out = some r := by
    unfold contract
    rw [if_neg (by push Not; exact ⟨la.len, lb.len⟩), if_neg (by
      rw [not_not]; intro l hl; simpa using ((om l).1 hl).1), if_neg (by rw [not_not]; exact ⟨lA.nodup, lB.nodup, on⟩)]
    exact ⟨_, rfl⟩
  have hstep : step (fun _ => none) output st p = some (others ++ [(r, out)]) := by
    unfold step
    rw [if_neg hne, hA, hB]
    simp only [Option.bind_eq_bind, Option.bind_some, fdn]
    obtain ⟨l, l1, l2⟩ := hsh
    rw [if_neg, if_neg, if_neg, ha', hb']
    · simp only [Option.bind_some]
      rw [hr]; rfl
    · rintro (h | h)
      · exact spos lA lB mA mB h
      · exact spos lB lA mB mA h
    · simp
    · intro hcon
      have := hcon l (by simp [l1, l2])
      simp at this
  refine ⟨_, hstep, by simp, ?_, ?_⟩
  · obtain ⟨c1, c2, c3⟩ := contract_data hr
    intro q hq
    rcases List.mem_append.1 hq with hq | hq
    · exact hst q (List.eraseIdx_subset (List.eraseIdx_subset hq))
    · rw [List.mem_singleton] at hq; subst hq
      exact ⟨c3, by simp only; rw [c2, List.length_map], c1, os⟩
  · obtain ⟨c1, c2, c3⟩ := contract_data hr
    intro q hq l hl
    rcases List.mem_append.1 hq with hq | hq
    · exact hp q (List.eraseIdx_subset (List.eraseIdx_subset hq)) l hl
    · rw [List.mem_singleton] at hq; subst hq
      have hl1 := (mem_ints.1 hl).1
      simp only at hl1
      have hab := ((om l).1 hl1).1
      unfold ldim
      simp only
      rw [c2, dimIn_map _ hl1, cdim_step da db hab, fdn]
      dsimp only
      have hs := (mem_ints.1 hl).2
      split_ifs with h1 h2
      · exact lt_min (hp A mA l (mem_ints.2 ⟨h1, hs⟩)) (hp B mB l (mem_ints.2 ⟨h2, hs⟩))
      · exact hp A mA l (mem_ints.2 ⟨h1, hs⟩)
      · exact hp B mB l (mem_ints.2 ⟨hab.resolve_left h1, hs⟩)

theorem path_defined {output : List Lab} : ∀ (path : List (ℕ × ℕ)) {st : List (Arr × List Lab)} {L' : List (List Lab)}, (∀ q ∈ st, LWF q) → Pos st →
    path.foldlM (labelStep output) (st.map Prod.snd) = some L' →
    ∃ st', path.foldlM (step (fun _ => none) output) st = some st' ∧ st'.map Prod.snd = L'
  | [], st, L', _, _, h => ⟨st, rfl, by cases h; rfl⟩
  | p :: path, st, L', hst, hp, h => by
    rw [List.foldlM_cons] at h
    obtain ⟨t, ht, h⟩ := Option.bind_eq_some_iff.1 h
    obtain ⟨s1, h1, rfl, h3, h4⟩ := step_defined hst hp ht
    obtain ⟨s2, h5, h6⟩ := path_defined path h3 h4 h
    exact ⟨s2, by rw [List.foldlM_cons, h1]; exact h5, h6⟩

theorem idxOf_perm {xs ys : List Lab} (h : xs.Perm ys) (hn : xs.Nodup) : (ys.map xs.idxOf).Perm (List.range xs.length) := by
  have e : xs.map xs.idxOf = List.range xs.length := by
    apply List.ext_getElem (by simp)
    intro i h1 h2
    simp only [List.length_map] at h1
    rw [List.getElem_map, hn.idxOf_getElem i h1, List.getElem_range]
  rw [← e]
  exact (h.map _).symm

/-- **C15** with no Fock dimensions prescribed and at least one level on every core axis, `mm_einsum` returns for every path that contracts
everything and each of whose steps joins two operands sharing a core label. -/
theorem C15_defined (args : List (Arr × List Lab)) (output : List Lab) (path : List (ℕ × ℕ)) (idx : List Lab)
    (hargs : ∀ p ∈ args, LWF p) (hpos : Pos args) (hnd : output.Nodup) (hstd : norm output = output) (hout : ∀ l ∈ output, l ∈ labels args)
    (hpath : path ≠ []) (h : path.foldlM (labelStep output) (args.map Prod.snd) = some [idx]) :
    ∃ r, mmEinsum args output (fun _ => none) path = some r := by
  have fdn : ∀ l, fdim (fun _ => none) l = none := by intro l; cases l <;> rfl
  obtain ⟨st, hst, hlab⟩ := path_defined path hargs hpos h
  obtain ⟨⟨q, i⟩, rfl, rfl⟩ : ∃ q, st = [q] ∧ q.2 = idx := by
    match st, hlab with
    | [q], h => exact ⟨q, rfl, by simpa using h⟩
  set M : Lab → ℕ := fun _ => (args.map fun p => p.1.shape.sum).sum with hM
  have hM2 : ∀ l, fdim (fun _ => none) l = none → ∀ q ∈ args, l ∈ q.2 → ldim q l ≤ M l := by
    intro l _ p hp _
    have h1 : ldim p l ≤ p.1.shape.sum := by
      unfold ldim dimIn
      rw [List.getD_eq_getElem?_getD]
      cases e : p.1.shape[p.2.idxOf l]? with
      | none => exact Nat.zero_le _
      | some x => exact List.le_sum_of_mem (List.mem_of_getElem? e)
    exact h1.trans (List.le_sum_of_mem (List.mem_map.2 ⟨p, hp, rfl⟩))
  have so := path_out (M := M) (by intro l d hd; rw [fdn] at hd; cases hd) path hpath hargs hM2 hst
  obtain ⟨others, q', e, hq1, _⟩ := so.last
  obtain ⟨rfl, rfl⟩ : others = [] ∧ q' = (q, i) := by
    cases others with
    | nil => simpa [eq_comm] using e
    | cons x xs => cases xs <;> simp at e
  have lq : LWF (q, i) := so.lwf _ (by simp)
  have hlq : ∀ l, l ∈ labels [(q, i)] ↔ l ∈ i := by intro l; simp [labels]
  have hperm : i.Perm output := by
    rw [List.perm_ext_iff_of_nodup lq.nodup hnd]
    intro l
    constructor
    · intro hl
      rcases hq1 l hl with h' | h'
      · exact h'
      · simp [labels] at h'
    · intro hl
      exact (hlq l).1 (so.keep l hl (hout l hl))
  have ps : (strs i).Perm (strs output) := hperm.filter _
  have pi : (ints i).Perm (ints output) := hperm.filter _
  obtain ⟨w, hb, hc⟩ := lq.split
  simp only at w hb hc
  have hbd : q.batchDims = (strs i).length := lq.bd
  obtain ⟨r1, h1, w1, c1⟩ : ∃ r1, finishBatch output q i = some r1 ∧ r1.WF ∧ r1.core.length = (ints i).length := by
    unfold finishBatch
    split_ifs with hs
    · have hia : indexAll (strs i) (strs output) = some ((strs output).map (strs i).idxOf) := if_pos fun l hl => ps.mem_iff.2 hl
      have hA := Arr.C30_array_batch q w ((strs output).map (strs i).idxOf)
      obtain ⟨r1, hr1⟩ : ∃ r1, q.reorderBatch ((strs output).map (strs i).idxOf) = some r1 := by
        apply Option.ne_none_iff_exists'.1
        rw [Ne, hA.1, not_not, hbd]
        exact idxOf_perm ps (nodup_strs lq.nodup)
      obtain ⟨e1, e2, e3, _⟩ := hA.2 r1 hr1
      refine ⟨r1, by rw [hia]; exact hr1, ?_, by rw [e3, hc, List.length_map]⟩
      unfold Arr.WF
      rw [r1.shape_eq, List.length_append, e2, e1, List.length_map, List.length_map, hbd, ps.length_eq]; omega
    · exact ⟨q, rfl, w, by rw [hc, List.length_map]⟩
  obtain ⟨r2, h2⟩ : ∃ r2, finishCore output r1 i = some r2 := by
    unfold finishCore
    split_ifs with hs
    · have hia : indexAll (ints i) (ints output) = some ((ints output).map (ints i).idxOf) := if_pos fun l hl => pi.mem_iff.2 hl
      rw [hia]
      apply Option.ne_none_iff_exists'.1
      simp only [Option.bind_some]
      rw [Ne, (Arr.C30_array_eval r1 w1 _).1, not_not, c1]
      exact idxOf_perm pi (nodup_ints lq.nodup)
    · exact ⟨r1, rfl⟩
  refine ⟨r2, ?_⟩
  unfold mmEinsum
  have hargs' : (args.map fun p => (p.1, norm p.2)) = args := by
    conv_rhs => rw [← List.map_id args]
    exact List.map_congr_left fun p hp => by rw [(hargs p hp).std]; rfl
  rw [hstd, hargs', hst]
  simp only [Option.bind_eq_bind, Option.bind_some]
  unfold finish
  rw [if_neg, h1]
  · exact h2
  · rintro ⟨hne, hall⟩
    obtain ⟨l, hl⟩ := List.exists_mem_of_ne_nil _ hne
    have := hall l hl
    rw [fdn] at this; cases this

/-! ### A concrete case -/

/-- Three arrays in a chain, `A[b, 0, 1]`, `B[1, 2]`, `C[2, 3]`, with different cutoffs on the shared labels and one batch label. -/
noncomputable def exNet : List (Arr × List Lab) :=
  [(⟨1, [2, 2, 3], fun k => (k.sum : ℂ)⟩, [.str 0, .int 0, .int 1]), (⟨0, [4, 2], fun k => (k.sum : ℂ) + 1⟩, [.int 1, .int 2]),
   (⟨0, [3, 2], fun k => (k.sum : ℂ) + 2⟩, [.int 2, .int 3])]

/-- Both contraction orders of the chain meet the hypotheses, so they return, and return the same array. -/
theorem exNet_paths : ∃ r r', mmEinsum exNet [.str 0, .int 3, .int 0] (fun _ => none) [(0, 1), (0, 1)] = some r ∧
    mmEinsum exNet [.str 0, .int 3, .int 0] (fun _ => none) [(1, 2), (1, 0)] = some r' ∧ Arr.Same r r' := by
  have hL : ∀ p ∈ exNet, LWF p := by
    intro p hp
    simp only [exNet, List.mem_cons, List.not_mem_nil, or_false] at hp
    rcases hp with rfl | rfl | rfl <;> exact ⟨by decide, by decide, by decide, by decide⟩
  have hP : Pos exNet := by
    intro p hp l hl
    simp only [exNet, List.mem_cons, List.not_mem_nil, or_false] at hp
    rcases hp with rfl | rfl | rfl
    · have : l = .int 0 ∨ l = .int 1 := by simpa [ints, Lab.isStr] using hl
      rcases this with rfl | rfl <;> simp [ldim, dimIn] <;> decide
    · have : l = .int 1 ∨ l = .int 2 := by simpa [ints, Lab.isStr] using hl
      rcases this with rfl | rfl <;> simp [ldim, dimIn] <;> decide
    · have : l = .int 2 ∨ l = .int 3 := by simpa [ints, Lab.isStr] using hl
      rcases this with rfl | rfl <;> simp [ldim, dimIn] <;> decide
  have hO : ∀ l ∈ [Lab.str 0, .int 3, .int 0], l ∈ labels exNet := by simp [labels, exNet]
  have hS : exNet.map Prod.snd = [[.str 0, .int 0, .int 1], [.int 1, .int 2], [.int 2, .int 3]] := rfl
  obtain ⟨r, hr⟩ := C15_defined exNet [.str 0, .int 3, .int 0] [(0, 1), (0, 1)] [.str 0, .int 3, .int 0] hL hP (by decide) (by decide) hO (by simp)
    (by rw [hS]; decide)
  obtain ⟨r', hr'⟩ := C15_defined exNet [.str 0, .int 3, .int 0] [(1, 2), (1, 0)] [.str 0, .int 3, .int 0] hL hP (by decide) (by decide) hO (by simp)
    (by rw [hS]; decide)
  exact ⟨r, r', hr, hr', C15_path_independent exNet _ _ _ _ r r' hL (by decide) (by decide) hO (by simp) (by simp) hr hr'⟩

end Verif.Arr
