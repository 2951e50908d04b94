import Verif.PathOptimal
import Mathlib.Algebra.BigOperators.Group.List.Basic
import Mathlib.Algebra.Order.BigOperators.Group.List

/-!
# Fock-shape optimisation (C13)

`mrmustard/path/branch_and_bound.py:232-276`.  Shapes are kept in a function from nodes to shapes beside the (unchanged) graph.
-/

namespace Verif.Path
open Verif.WireModel Verif.Circuits

abbrev Shapes := ℕ → List ℕ

/-! ## Model -/

/-- The shapes stored in the nodes of the graph. -/
def Graph.shapes (g : Graph) : Shapes := fun n => ((dget g.nodes n).map GC.shape).getD []

/-- `graph.nodes[n]["component"].shape[i] = v`. -/
def setAt (s : Shapes) (n i v : ℕ) : Shapes := fun m => if m = n then (s n).set i v else s m

/-- branch_and_bound.py:243-246 the pairs `zip(idx_A, idx_B)` of an edge. -/
def edgePairs (g : Graph) (e : ℕ × ℕ) : List (ℕ × ℕ) :=
  match dget g.nodes e.1, dget g.nodes e.2 with
  | some A, some B => (A.wires.contractedIndices B.wires).1.zip (A.wires.contractedIndices B.wires).2
  | _, _ => []

/-- branch_and_bound.py:248-254: both dimensions become the smaller one. -/
def pairStep (s : Shapes) (x : (ℕ × ℕ) × (ℕ × ℕ)) : Shapes :=
  let v := min ((s x.1.1).getD x.2.1 0) ((s x.1.2).getD x.2.2 0)
  setAt (setAt s x.1.1 x.2.1 v) x.1.2 x.2.2 v

/-- branch_and_bound.py:258-269 for one beamsplitter (a shape without four entries raises `ValueError` in the code; not modelled). -/
def bs4 : List ℕ → List ℕ
  | [a, b, c, d] =>
    let a' := if c ≠ 0 ∧ d ≠ 0 ∧ (a = 0 ∨ a > c + d) then c + d else a
    let b' := if c ≠ 0 ∧ d ≠ 0 ∧ (b = 0 ∨ b > c + d) then c + d else b
    let c' := if a' ≠ 0 ∧ b' ≠ 0 ∧ (c = 0 ∨ c > a' + b') then a' + b' else c
    let d' := if a' ≠ 0 ∧ b' ≠ 0 ∧ (d = 0 ∨ d > a' + b') then a' + b' else d
    [a', b', c', d']
  | l => l

def bsStep (s : Shapes) (n : ℕ) : Shapes := fun m => if m = n then bs4 (s n) else s m

/-- The nodes holding a beamsplitter. -/
def Graph.bsNodes (g : Graph) : List ℕ := (g.nodes.filter fun p => p.2.isBS).map (·.1)

/-- One call of `optimize_fock_shapes` up to the comparison of the hashes (branch_and_bound.py:241-269). -/
def pass (g : Graph) (s : Shapes) : Shapes :=
  g.bsNodes.foldl bsStep ((g.edges.flatMap fun e => (edgePairs g e).map fun p => (e, p)).foldl pairStep s)

/-- branch_and_bound.py:232-276 `optimize_fock_shapes`: repeat until nothing changes.  (Equality of hashes is taken for equality of the shapes; Python's
recursion limit is not modelled.) -/
inductive Optimized (g : Graph) : Shapes → Shapes → Prop
  | done (s : Shapes) : pass g s = s → Optimized g s s
  | again (s r : Shapes) : pass g s ≠ s → Optimized g (pass g s) r → Optimized g s r

/-! ## Specification -/

/-- Entrywise comparison (with the same lengths). -/
def Below (s t : Shapes) : Prop := ∀ n, List.Forall₂ (· ≤ ·) (s n) (t n)

/-- Connected wires have the same dimension and each leg of a beamsplitter is at most the sum of the two opposite legs. -/
structure Consistent (g : Graph) (s : Shapes) : Prop where
  equal : ∀ e ∈ g.edges, ∀ p ∈ edgePairs g e, (s e.1).getD p.1 0 = (s e.2).getD p.2 0
  bs : ∀ n ∈ g.bsNodes, ∀ a b c d, s n = [a, b, c, d] → a ≤ c + d ∧ b ≤ c + d ∧ c ≤ a + b ∧ d ≤ a + b

/-- Shapes as they occur: positive, long enough for the wires, four entries for a beamsplitter. -/
structure OkShapes (g : Graph) (s : Shapes) : Prop where
  pos : ∀ n, ∀ x ∈ s n, 0 < x
  rng : ∀ e ∈ g.edges, ∀ p ∈ edgePairs g e, p.1 < (s e.1).length ∧ p.2 < (s e.2).length
  four : ∀ n ∈ g.bsNodes, (s n).length = 4
  off : ∀ n, n ∉ g.nodes.map (·.1) → s n = []

/-! ## Lemmas -/

theorem Below.refl (s : Shapes) : Below s s := fun n => by
  induction s n with
  | nil => exact .nil
  | cons a l ih => exact .cons le_rfl ih

theorem forall₂_trans {a b c : List ℕ} (h1 : List.Forall₂ (· ≤ ·) a b) (h2 : List.Forall₂ (· ≤ ·) b c) : List.Forall₂ (· ≤ ·) a c := by
  induction h1 generalizing c with
  | nil => exact h2
  | cons h _ ih => cases h2 with | cons h' t' => exact .cons (h.trans h') (ih t')

theorem Below.trans {s t u : Shapes} (h1 : Below s t) (h2 : Below t u) : Below s u := fun n => forall₂_trans (h1 n) (h2 n)

theorem forall₂_antisymm {a b : List ℕ} (h1 : List.Forall₂ (· ≤ ·) a b) (h2 : List.Forall₂ (· ≤ ·) b a) : a = b := by
  induction h1 with
  | nil => rfl
  | cons h _ ih => cases h2 with | cons h' t' => rw [le_antisymm h h', ih t']

theorem Below.antisymm {s t : Shapes} (h1 : Below s t) (h2 : Below t s) : s = t := funext fun n => forall₂_antisymm (h1 n) (h2 n)

theorem Below.length {s t : Shapes} (h : Below s t) (n : ℕ) : (s n).length = (t n).length := (h n).length_eq

theorem forall₂_set {l t : List ℕ} {i v : ℕ} (h : List.Forall₂ (· ≤ ·) t l) (hv : t.getD i 0 ≤ v) : List.Forall₂ (· ≤ ·) t (l.set i v) := by
  induction h generalizing i with
  | nil => simp
  | cons h ht ih => cases i with
    | zero => exact .cons (by simpa using hv) ht
    | succ i => exact .cons h (ih (by simpa using hv))

theorem set_forall₂ {l : List ℕ} {i v : ℕ} (hv : i < l.length → v ≤ l.getD i 0) : List.Forall₂ (· ≤ ·) (l.set i v) l := by
  induction l generalizing i with
  | nil => simp
  | cons a l ih => cases i with
    | zero => exact .cons (by simpa using hv) (Below.refl (fun _ => l) 0)
    | succ i => exact .cons le_rfl (ih (by simpa using hv))

theorem forall₂_getD {t l : List ℕ} (h : List.Forall₂ (· ≤ ·) t l) (i : ℕ) : t.getD i 0 ≤ l.getD i 0 := by
  induction h generalizing i with
  | nil => simp
  | cons h _ ih => cases i with
    | zero => simpa using h
    | succ i => simpa using ih i

theorem set_pos {l : List ℕ} {i v : ℕ} (h : ∀ x ∈ l, 0 < x) (hv : 0 < v) : ∀ x ∈ l.set i v, 0 < x := by
  intro x hx
  rcases List.mem_or_eq_of_mem_set hx with h' | rfl
  · exact h x h'
  · exact hv

theorem getD_pos {l : List ℕ} {i : ℕ} (h : ∀ x ∈ l, 0 < x) (hi : i < l.length) : 0 < l.getD i 0 := by
  rw [List.getD_eq_getElem?_getD, List.getElem?_eq_getElem hi]
  exact h _ (List.getElem_mem hi)

/-- A step that shrinks, keeps shapes usable and never goes below a consistent assignment. -/
structure GoodStep (g : Graph) (f : Shapes → Shapes) : Prop where
  shrink : ∀ s, OkShapes g s → Below (f s) s ∧ OkShapes g (f s)
  above : ∀ s t, OkShapes g s → Consistent g t → Below t s → Below t (f s)

theorem pairs_mem {g : Graph} {x} (h : x ∈ g.edges.flatMap fun e => (edgePairs g e).map fun p => (e, p)) : x.1 ∈ g.edges ∧ x.2 ∈ edgePairs g x.1 := by
  rw [List.mem_flatMap] at h
  obtain ⟨e, he, h⟩ := h
  rw [List.mem_map] at h
  obtain ⟨p, hp, rfl⟩ := h
  exact ⟨he, hp⟩

theorem below_setAt {s : Shapes} {n i v : ℕ} (hv : v ≤ (s n).getD i 0) : Below (setAt s n i v) s := by
  intro m
  unfold setAt
  split
  · rename_i h; subst h; exact set_forall₂ fun _ => hv
  · exact Below.refl s m

theorem above_setAt {s t : Shapes} {n i v : ℕ} (h : Below t s) (hv : (t n).getD i 0 ≤ v) : Below t (setAt s n i v) := by
  intro m
  unfold setAt
  split
  · rename_i h'; subst h'; exact forall₂_set (h m) hv
  · exact h m

theorem pos_setAt {s : Shapes} {n i v : ℕ} (h : ∀ n, ∀ x ∈ s n, 0 < x) (hv : 0 < v) : ∀ m, ∀ x ∈ setAt s n i v m, 0 < x := by
  intro m
  unfold setAt
  split
  · exact set_pos (h n) hv
  · exact h m

theorem OkShapes.of_below {g : Graph} {s t : Shapes} (hs : OkShapes g s) (h : Below t s) (hpos : ∀ n, ∀ x ∈ t n, 0 < x) : OkShapes g t := by
  refine ⟨hpos, ?_, ?_, ?_⟩
  · intro e he p hp; rw [h.length, h.length]; exact hs.rng e he p hp
  · intro n hn; rw [h.length]; exact hs.four n hn
  · intro n hn
    have := h.length n
    rw [hs.off n hn] at this
    exact List.length_eq_zero_iff.1 this

theorem pairStep_good {g : Graph} {x : (ℕ × ℕ) × (ℕ × ℕ)} (hx : x.1 ∈ g.edges ∧ x.2 ∈ edgePairs g x.1) : GoodStep g (pairStep · x) := by
  constructor
  · intro s hs
    obtain ⟨r1, r2⟩ := hs.rng _ hx.1 _ hx.2
    have p1 := getD_pos (hs.pos x.1.1) r1
    have p2 := getD_pos (hs.pos x.1.2) r2
    have hb : Below (pairStep s x) s := by
      unfold pairStep
      set v := min ((s x.1.1).getD x.2.1 0) ((s x.1.2).getD x.2.2 0) with hv
      have h1 : Below (setAt s x.1.1 x.2.1 v) s := below_setAt (min_le_left _ _)
      refine Below.trans (below_setAt ?_) h1
      unfold setAt
      split
      · rename_i h
        rw [List.getD_eq_getElem?_getD, List.getElem?_set]
        split
        · simp
        · rw [← List.getD_eq_getElem?_getD, ← h]
          exact min_le_right _ _
      · exact min_le_right _ _
    refine ⟨hb, hs.of_below hb ?_⟩
    unfold pairStep
    have hv : 0 < min ((s x.1.1).getD x.2.1 0) ((s x.1.2).getD x.2.2 0) := lt_min p1 p2
    exact pos_setAt (pos_setAt hs.pos hv) hv
  · intro s t _ ht h
    have h1 := forall₂_getD (h x.1.1) x.2.1
    have h2 := forall₂_getD (h x.1.2) x.2.2
    have he := ht.equal _ hx.1 _ hx.2
    unfold pairStep
    exact above_setAt (above_setAt h (le_min h1 (he ▸ h2))) (le_min (he ▸ h1) h2)

theorem bs4_facts {l t : List ℕ} (hl : l.length = 4) (hp : ∀ x ∈ l, 0 < x) (h : List.Forall₂ (· ≤ ·) t l)
    (ht : ∀ a b c d, t = [a, b, c, d] → a ≤ c + d ∧ b ≤ c + d ∧ c ≤ a + b ∧ d ≤ a + b) :
    List.Forall₂ (· ≤ ·) (bs4 l) l ∧ (∀ x ∈ bs4 l, 0 < x) ∧ List.Forall₂ (· ≤ ·) t (bs4 l) := by
  match l, hl with
  | [a, b, c, d], _ =>
    have hlen := h.length_eq
    match t, hlen with
    | [a1, b1, c1, d1], _ =>
      obtain ⟨t1, t2, t3, t4⟩ := ht a1 b1 c1 d1 rfl
      simp only [List.forall₂_cons, List.forall₂_nil_left_iff, and_true] at h
      obtain ⟨h1, h2, h3, h4⟩ := h
      simp only [List.mem_cons, List.not_mem_nil, or_false, forall_eq_or_imp, forall_eq] at hp
      obtain ⟨p1, p2, p3, p4⟩ := hp
      simp only [bs4, List.forall₂_cons, List.forall₂_nil_left_iff, and_true, List.mem_cons, List.not_mem_nil, or_false, forall_eq_or_imp, forall_eq]
      generalize hA : (if c ≠ 0 ∧ d ≠ 0 ∧ (a = 0 ∨ a > c + d) then c + d else a) = A
      generalize hB : (if c ≠ 0 ∧ d ≠ 0 ∧ (b = 0 ∨ b > c + d) then c + d else b) = B
      have eA : A = min a (c + d) := by rw [← hA]; split <;> omega
      have eB : B = min b (c + d) := by rw [← hB]; split <;> omega
      generalize hC : (if A ≠ 0 ∧ B ≠ 0 ∧ (c = 0 ∨ c > A + B) then A + B else c) = C
      generalize hD : (if A ≠ 0 ∧ B ≠ 0 ∧ (d = 0 ∨ d > A + B) then A + B else d) = D
      have eC : C = min c (A + B) := by rw [← hC]; split <;> omega
      have eD : D = min d (A + B) := by rw [← hD]; split <;> omega
      omega

theorem bs4_fixed {a b c d : ℕ} (hp : ∀ x ∈ [a, b, c, d], 0 < x) (h : bs4 [a, b, c, d] = [a, b, c, d]) :
    a ≤ c + d ∧ b ≤ c + d ∧ c ≤ a + b ∧ d ≤ a + b := by
  simp only [List.mem_cons, List.not_mem_nil, or_false, forall_eq_or_imp, forall_eq] at hp
  obtain ⟨p1, p2, p3, p4⟩ := hp
  simp only [bs4, List.cons.injEq, and_true] at h
  obtain ⟨h1, h2, h3, h4⟩ := h
  rw [h1, h2] at h3 h4
  split at h1 <;> split at h2 <;> split at h3 <;> split at h4 <;> omega

theorem bsStep_good {g : Graph} {n : ℕ} (hn : n ∈ g.bsNodes) : GoodStep g (bsStep · n) := by
  constructor
  · intro s hs
    have hb : Below (bsStep s n) s := by
      intro m
      unfold bsStep
      split
      · rename_i h
        subst h
        refine (bs4_facts (t := [0, 0, 0, 0]) (hs.four _ hn) (hs.pos _) ?_ (by intro a b c d h; cases h; omega)).1
        obtain ⟨a, b, c, d, h4⟩ : ∃ a b c d, s m = [a, b, c, d] := by
          have := hs.four _ hn
          match s m, this with
          | [a, b, c, d], _ => exact ⟨a, b, c, d, rfl⟩
        rw [h4]; simp
      · exact Below.refl s m
    refine ⟨hb, hs.of_below hb ?_⟩
    intro m x hx
    unfold bsStep at hx
    split at hx
    · refine (bs4_facts (t := [0, 0, 0, 0]) (hs.four _ hn) (hs.pos _) ?_ (by intro a b c d h; cases h; omega)).2.1 x hx
      obtain ⟨a, b, c, d, h4⟩ : ∃ a b c d, s n = [a, b, c, d] := by
        have := hs.four _ hn
        match s n, this with
        | [a, b, c, d], _ => exact ⟨a, b, c, d, rfl⟩
      rw [h4]; simp
    · exact hs.pos m x hx
  · intro s t hs ht h m
    unfold bsStep
    split
    · rename_i h'
      subst h'
      exact (bs4_facts (hs.four _ hn) (hs.pos _) (h m) (ht.bs _ hn)).2.2
    · exact h m

theorem fold_good {g : Graph} {β : Type*} (f : Shapes → β → Shapes) (l : List β) (h : ∀ x ∈ l, GoodStep g (f · x)) : GoodStep g (fun s => l.foldl f s) := by
  induction l with
  | nil => exact ⟨fun s hs => ⟨Below.refl s, hs⟩, fun s t _ _ h => h⟩
  | cons x l ih =>
    have hx := h x (by simp)
    have hl := ih fun y hy => h y (by simp [hy])
    constructor
    · intro s hs
      obtain ⟨h1, h2⟩ := hx.shrink s hs
      obtain ⟨h3, h4⟩ := hl.shrink _ h2
      exact ⟨h3.trans h1, h4⟩
    · intro s t hs ht hts
      exact hl.above _ t (hx.shrink s hs).2 ht (hx.above s t hs ht hts)

theorem fold_fixed {g : Graph} {β : Type*} (f : Shapes → β → Shapes) (l : List β) (h : ∀ x ∈ l, GoodStep g (f · x)) (s : Shapes) (hs : OkShapes g s)
    (hfix : l.foldl f s = s) : ∀ x ∈ l, f s x = s := by
  induction l with
  | nil => simp
  | cons y l ih =>
    have hy := h y (by simp)
    have hl := fold_good f l fun z hz => h z (by simp [hz])
    obtain ⟨h1, h2⟩ := hy.shrink s hs
    obtain ⟨h3, h4⟩ := hl.shrink _ h2
    have hfy : f s y = s := by
      refine h1.antisymm ?_
      simp only [List.foldl_cons] at hfix
      have h5 : Below (List.foldl f (f s y) l) (f s y) := h3
      rwa [hfix] at h5
    intro x hx
    rcases List.mem_cons.1 hx with rfl | hx
    · exact hfy
    · refine ih (fun z hz => h z (by simp [hz])) ?_ x hx
      rw [List.foldl_cons, hfy] at hfix
      exact hfix

theorem pass_good (g : Graph) : GoodStep g (pass g) := by
  have h1 := fold_good (g := g) pairStep (g.edges.flatMap fun e => (edgePairs g e).map fun p => (e, p)) fun x hx => pairStep_good (pairs_mem hx)
  have h2 := fold_good (g := g) bsStep g.bsNodes fun n hn => bsStep_good hn
  constructor
  · intro s hs
    obtain ⟨a1, a2⟩ := h1.shrink s hs
    obtain ⟨b1, b2⟩ := h2.shrink _ a2
    exact ⟨b1.trans a1, b2⟩
  · intro s t hs ht hts
    exact h2.above _ t (h1.shrink s hs).2 ht (h1.above s t hs ht hts)

theorem pass_fixed {g : Graph} {s : Shapes} (hs : OkShapes g s) (h : pass g s = s) : Consistent g s := by
  have g1 : ∀ x ∈ (g.edges.flatMap fun e => (edgePairs g e).map fun p => (e, p)), GoodStep g (pairStep · x) := fun x hx => pairStep_good (pairs_mem hx)
  have g2 : ∀ n ∈ g.bsNodes, GoodStep g (bsStep · n) := fun n hn => bsStep_good hn
  have h1 := fold_good pairStep _ g1
  have h2 := fold_good bsStep _ g2
  obtain ⟨a1, a2⟩ := h1.shrink s hs
  obtain ⟨b1, b2⟩ := h2.shrink _ a2
  have e1 : (g.edges.flatMap fun e => (edgePairs g e).map fun p => (e, p)).foldl pairStep s = s := by
    refine a1.antisymm ?_
    have b1' : Below (pass g s) _ := b1
    rwa [h] at b1'
  have e2 : g.bsNodes.foldl bsStep s = s := by
    have : pass g s = s := h
    unfold pass at this
    rwa [e1] at this
  have f1 := fold_fixed pairStep _ g1 s hs e1
  have f2 := fold_fixed bsStep _ g2 s hs e2
  constructor
  · intro e he p hp
    have := f1 (e, p) (List.mem_flatMap.2 ⟨e, he, List.mem_map.2 ⟨p, hp, rfl⟩⟩)
    obtain ⟨r1, r2⟩ := hs.rng e he p hp
    unfold pairStep at this
    simp only at this
    set v := min ((s e.1).getD p.1 0) ((s e.2).getD p.2 0) with hv
    -- the entry of `e.2`
    have q2 := congrFun this e.2
    simp only [setAt, if_true] at q2
    have q2' := congrArg (fun l => l.getD p.2 0) q2
    have len2 : p.2 < (if e.2 = e.1 then (s e.1).set p.1 v else s e.2).length := by
      split
      · rename_i h; rw [List.length_set, ← h]; exact r2
      · exact r2
    rw [List.getD_eq_getElem?_getD, List.getElem?_set_self len2, Option.getD_some] at q2'
    -- the entry of `e.1`
    have q1 := congrFun this e.1
    have q1' := congrArg (fun l => l.getD p.1 0) q1
    simp only [setAt] at q1'
    by_cases h12 : e.1 = e.2
    · simp only [h12, if_true] at q1'
      rw [List.getD_eq_getElem?_getD, List.getElem?_set] at q1'
      split at q1'
      · rename_i h
        rw [h12, h]
      · rw [List.getElem?_set_self (by rw [← h12]; exact r1), Option.getD_some] at q1'
        rw [← h12] at q1'
        omega
    · simp only [if_neg h12, if_true] at q1'
      rw [List.getD_eq_getElem?_getD, List.getElem?_set_self r1, Option.getD_some] at q1'
      omega
  · intro n hn a b c d h4
    have := congrFun (f2 n hn) n
    simp only [bsStep, if_true] at this
    rw [h4] at this
    exact bs4_fixed (by rw [← h4]; exact hs.pos n) this

/-! ## Termination -/

theorem forall₂_sum {a b : List ℕ} (h : List.Forall₂ (· ≤ ·) a b) : a.sum ≤ b.sum := by
  induction h with
  | nil => simp
  | cons h _ ih => simp only [List.sum_cons]; omega

theorem forall₂_sum_lt {a b : List ℕ} (h : List.Forall₂ (· ≤ ·) a b) (hne : a ≠ b) : a.sum < b.sum := by
  induction h with
  | nil => simp at hne
  | @cons x y l l' h ht ih =>
    simp only [List.sum_cons]
    by_cases hl : l = l'
    · subst hl
      have : x ≠ y := fun e => hne (by rw [e])
      omega
    · have := ih hl; omega

def total (g : Graph) (s : Shapes) : ℕ := ((g.nodes.map (·.1)).map fun n => (s n).sum).sum

theorem total_lt {g : Graph} {s t : Shapes} (hs : OkShapes g s) (h : Below t s) (hne : t ≠ s) : total g t < total g s := by
  unfold total
  refine List.sum_lt_sum _ _ (fun n _ => forall₂_sum (h n)) ?_
  have : ∃ n, t n ≠ s n := by
    by_contra hc
    exact hne (funext fun n => by by_contra h'; exact hc ⟨n, h'⟩)
  obtain ⟨n, hn⟩ := this
  refine ⟨n, ?_, forall₂_sum_lt (h n) hn⟩
  by_contra hmem
  have h1 := hs.off n hmem
  have h2 := (hs.of_below h (fun m x hx => by
    by_contra h0
    exact absurd hx (by
      intro hx
      exact (h0 (by
        have := h n
        rw [h1] at this
        have e : t n = [] := List.forall₂_nil_right_iff.1 this
        exact absurd (e.trans h1.symm) hn))))).off n hmem
  exact hn (h2.trans h1.symm)

theorem optimized_facts {g : Graph} {s r : Shapes} (h : Optimized g s r) (hs : OkShapes g s) :
    Below r s ∧ OkShapes g r ∧ Consistent g r ∧ pass g r = r ∧ ∀ t, Consistent g t → Below t s → Below t r := by
  induction h with
  | done s hp => exact ⟨Below.refl s, hs, pass_fixed hs hp, hp, fun t _ ht => ht⟩
  | again s r hne _ ih =>
    obtain ⟨h1, h2⟩ := (pass_good g).shrink s hs
    obtain ⟨i1, i2, i3, i4, i5⟩ := ih h2
    exact ⟨i1.trans h1, i2, i3, i4, fun t ht hts => i5 t ht ((pass_good g).above s t hs ht hts)⟩

theorem optimized_total (g : Graph) (s : Shapes) (hs : OkShapes g s) : ∃ r, Optimized g s r := by
  induction hk : total g s using Nat.strong_induction_on generalizing s with
  | _ k ih =>
    by_cases h : pass g s = s
    · exact ⟨s, .done s h⟩
    · obtain ⟨h1, h2⟩ := (pass_good g).shrink s hs
      obtain ⟨r, hr⟩ := ih _ (hk ▸ total_lt hs h1 h) (pass g s) h2 rfl
      exact ⟨r, .again s r h hr⟩

theorem optimized_unique {g : Graph} {s r r' : Shapes} (h : Optimized g s r) (h' : Optimized g s r') : r = r' := by
  induction h with
  | done s hp => cases h' with
    | done => rfl
    | again _ _ hne => exact absurd hp hne
  | again s r hne _ ih => cases h' with
    | done _ hp => exact absurd hp hne
    | again _ _ _ hr => exact ih hr

/-! ## C13 -/

/-- **C13** For positive shapes the shape optimisation terminates with exactly one result; it never increases a dimension, keeps all dimensions positive and
all ranks, connected wires end with equal dimension, every beamsplitter leg is at most the sum of the opposite legs, optimising again changes nothing,
and the result is the largest such assignment: no dimension is cut more than these conditions force. -/
theorem C13_shapes (g : Graph) (s : Shapes) (hs : OkShapes g s) :
    ∃ r, Optimized g s r ∧ (∀ r', Optimized g s r' → r' = r) ∧ Below r s ∧ OkShapes g r ∧ Consistent g r ∧ pass g r = r ∧
      ∀ t, Consistent g t → Below t s → Below t r := by
  obtain ⟨r, hr⟩ := optimized_total g s hs
  obtain ⟨h1, h2, h3, h4, h5⟩ := optimized_facts hr hs
  exact ⟨r, hr, fun r' hr' => optimized_unique hr' hr, h1, h2, h3, h4, h5⟩

/-- **C13 (nothing is lost)** A photon-number assignment to all wires that lies within the initial shapes, agrees on connected wires and conserves photons in
every beamsplitter (all others have amplitude zero) lies within the optimised shapes. -/
theorem C13_lossless (g : Graph) (s r : Shapes) (hs : OkShapes g s) (h : Optimized g s r) (k : Shapes)
    (hlt : ∀ n, List.Forall₂ (· < ·) (k n) (s n))
    (heq : ∀ e ∈ g.edges, ∀ p ∈ edgePairs g e, (k e.1).getD p.1 0 = (k e.2).getD p.2 0)
    (hbs : ∀ n ∈ g.bsNodes, ∀ a b c d, k n = [a, b, c, d] → a + b = c + d) :
    ∀ n, List.Forall₂ (· < ·) (k n) (r n) := by
  -- the assignment plus one is consistent
  have hC : Consistent g (fun n => (k n).map (· + 1)) := by
    constructor
    · intro e he p hp
      have h1 := (hs.rng e he p hp).1
      have h2 := (hs.rng e he p hp).2
      rw [← (hlt e.1).length_eq] at h1
      rw [← (hlt e.2).length_eq] at h2
      have := heq e he p hp
      simp only [List.getD_eq_getElem?_getD, List.getElem?_map, List.getElem?_eq_getElem h1, List.getElem?_eq_getElem h2, Option.map_some,
        Option.getD_some] at this ⊢
      rw [this]
    · intro n hn a b c d h4
      match hk : k n, h4 with
      | [a', b', c', d'], h4 =>
        have := hbs n hn a' b' c' d' hk
        simp only [List.map_cons, List.map_nil, List.cons.injEq, and_true] at h4
        omega
  have hb : Below (fun n => (k n).map (· + 1)) s := by
    intro n
    rw [List.forall₂_map_left_iff]
    exact (hlt n).imp fun _ _ h => h
  have := (optimized_facts h hs).2.2.2.2 _ hC hb
  intro n
  have h' := this n
  rw [List.forall₂_map_left_iff] at h'
  exact h'.imp fun _ _ h => h

/-! ## Together with the search -/

theorem dget_mem {α} {d : List (ℕ × α)} {k : ℕ} {v : α} (h : dget d k = some v) : (k, v) ∈ d := by
  induction d with
  | nil => simp [dget] at h
  | cons p d ih =>
    obtain ⟨k', v'⟩ := p
    simp only [dget] at h
    split at h
    · cases h; rename_i h'; subst h'; simp
    · exact List.mem_cons_of_mem _ (ih h)

/-- The initial shapes of a circuit of components with positive shapes are as required. -/
theorem parse_okShapes {comps : List GC} {g : Graph} (hp : parse comps = .ok g) (hc : ∀ c ∈ comps, OkComp c)
    (hbs : ∀ c ∈ comps, c.isBS = true → c.shape.length = 4) : OkShapes g g.shapes := by
  have hg := parse_fields hp
  subst hg
  have hd : ∀ n, dget (Graph.mk (enumFrom comps) (allEdges 0 comps) [] []).nodes n = comps[n]? := fun n => dget_enum comps n
  refine ⟨?_, ?_, ?_, ?_⟩
  · intro n x hx
    unfold Graph.shapes at hx
    rw [hd] at hx
    cases h : comps[n]? with
    | none => rw [h] at hx; simp at hx
    | some c =>
      rw [h] at hx
      exact (hc c (List.mem_of_getElem? h)).pos x hx
  · intro e he p hpair
    unfold edgePairs at hpair
    rw [hd, hd] at hpair
    unfold Graph.shapes
    rw [hd, hd]
    cases h1 : comps[e.1]? with
    | none => rw [h1] at hpair; simp at hpair
    | some A =>
      cases h2 : comps[e.2]? with
      | none => rw [h1, h2] at hpair; simp at hpair
      | some B =>
        rw [h1, h2] at hpair
        simp only at hpair
        have hA := hc A (List.mem_of_getElem? h1)
        have hB := hc B (List.mem_of_getElem? h2)
        obtain ⟨-, -, -, h3⟩ := C03_contracted_indices A.wires B.wires hA.good hB.good
        obtain ⟨a, b, ha, hb, -⟩ := (h3 p.1 p.2).1 hpair
        have l1 := (List.getElem?_eq_some_iff.1 ha).1
        have l2 := (List.getElem?_eq_some_iff.1 hb).1
        rw [sortedWires_len, ← hA.len] at l1
        rw [sortedWires_len, ← hB.len] at l2
        exact ⟨l1, l2⟩
  · intro n hn
    unfold Graph.bsNodes at hn
    rw [List.mem_map] at hn
    obtain ⟨⟨m, c⟩, hm, rfl⟩ := hn
    rw [List.mem_filter] at hm
    have hm1 : (m, c) ∈ enumFrom comps := hm.1
    unfold enumFrom at hm1
    rw [List.mem_map] at hm1
    obtain ⟨⟨c', i⟩, hi, heq⟩ := hm1
    cases heq
    rw [List.mk_mem_zipIdx_iff_getElem?] at hi
    unfold Graph.shapes
    rw [hd, hi]
    exact hbs _ (List.mem_of_getElem? hi) hm.2
  · intro n hn
    unfold Graph.shapes
    rw [hd]
    have : ¬ n < comps.length := by
      intro h
      apply hn
      show n ∈ (enumFrom comps).map (·.1)
      rw [keys_enum]; simpa using h
    rw [List.getElem?_eq_none (by omega)]
    rfl

/-- **C12/C13** `optimal_path` with the real shape optimisation: for components with positive shapes (four entries for beamsplitters) the returned path is
complete, proper and of minimal cost for the optimised shapes. -/
theorem C12_optimal_path_shapes (comps : List GC) (n : ℕ) (bf : Bool) (reshape : Graph → Shapes)
    (hres : ∀ g, parse comps = .ok g → Optimized g g.shapes (reshape g)) (hc : ∀ c ∈ comps, OkComp c)
    (hbs : ∀ c ∈ comps, c.isBS = true → c.shape.length = 4) (p : List (ℕ × ℕ)) (h : OptimalPath comps n bf reshape (.ok p)) :
    p.length + 1 = comps.length ∧ ProperPath (List.range comps.length) p ∧
      ∃ g best, parse comps = .ok g ∧ g.Connected ∧ Complete (g.withShapes (reshape g)) best ∧ best.solution = p ∧
        ∀ h', Complete (g.withShapes (reshape g)) h' → best.cost ≤ h'.cost := by
  refine C12_optimal_path comps n bf reshape hc ?_ p h
  intro g hp i c hi
  obtain ⟨h1, h2, -⟩ := optimized_facts (hres g hp) (parse_okShapes hp hc hbs)
  have hcc := hc c (List.mem_of_getElem? hi)
  refine ⟨hcc.good, ?_, h2.pos i⟩
  rw [h1.length i]
  show (((dget g.nodes i).map GC.shape).getD []).length = _
  rw [parse_fields hp]
  show (((dget (enumFrom comps) i).map GC.shape).getD []).length = _
  rw [dget_enum, hi]
  exact hcc.len

/-! ## A concrete circuit: two kets entering a beamsplitter -/

def exBS : GC := ⟨.poly, Wires.mk6 [] [] [0, 1] [0, 1] [] [] (fun n => n + 200), [9, 9, 9, 9], true, 0⟩
def exKet0 : GC := ⟨.poly, Wires.mk6 [] [] [0] [] [] [] id, [2], false, 0⟩
def exKet1 : GC := ⟨.poly, Wires.mk6 [] [] [1] [] [] [] (fun n => n + 100), [3], false, 0⟩

example : (∀ c ∈ [exKet0, exKet1, exBS], OkComp c) ∧ (∀ c ∈ [exKet0, exKet1, exBS], c.isBS = true → c.shape.length = 4) ∧
    ∃ g, parse [exKet0, exKet1, exBS] = .ok g ∧ pass g g.shapes 2 = [5, 5, 2, 3] ∧ pass g g.shapes ≠ g.shapes := by
  refine ⟨?_, by decide, ⟨enumFrom [exKet0, exKet1, exBS], [(0, 2), (1, 2)], [], []⟩, by rfl, by rfl, ?_⟩
  · intro c hc
    simp only [List.mem_cons, List.not_mem_nil, or_false] at hc
    rcases hc with rfl | rfl | rfl <;> exact ⟨⟨by decide, by decide, by decide⟩, rfl, by decide⟩
  · intro h
    have := congrFun h 2
    revert this
    decide

end Verif.Path
