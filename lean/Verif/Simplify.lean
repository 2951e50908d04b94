import Verif.Argsort
import Verif.PolyExpAnd
import Mathlib.Data.Prod.Lex

/-!
# C26: `simplify`, and C47: `==` of `PolyExpAnsatz`

Comparison within tolerance (`allclose`) is modelled as equality.
-/

namespace Verif.PolyExp
open Verif.Fock Verif.Batch Verif.Argsort PolyExp

/-- numpy orders complex scalars lexicographically by real and imaginary part. -/
def lexC (x : ℂ) : ℝ ×ₗ ℝ := toLex (x.re, x.im)

theorem lexC_inj {x y : ℂ} (h : lexC x = lexC y) : x = y := by
  have := (toLex_inj.1 h)
  simp only [Prod.mk.injEq] at this
  exact Complex.ext this.1 this.2

/-- The flattened `b` followed by the flattened `A` of a term. -/
def flatAB (N : ℕ) (A : ℕ → ℕ → ℂ) (b : ℕ → ℂ) : List ℂ :=
  (List.range N).map b ++ (List.range N).flatMap fun i => (List.range N).map (A i)

/-- physics/ansatz/polyexp_ansatz.py:736-744: what one generator yields: `b`, `A`, `c` of the term, flattened. -/
noncomputable def termKey (f : PolyExp) (d : ℕ) : List (ℝ ×ₗ ℝ) :=
  (flatAB f.N (f.A (unravel f.batch d)) (f.b (unravel f.batch d))).map lexC ++
    ((ndindex f.derived).map (f.c (unravel f.batch d))).map lexC

/-- physics/ansatz/polyexp_ansatz.py:719-748 `_order_batch`: the flat batch positions in sorted order.  (The fuel is the number of
values a generator yields, plus one.) -/
noncomputable def orderBatch (f : PolyExp) : List ℕ :=
  argsortGen (f.N + f.N * f.N + f.derived.prod + 1) ((List.range f.batch.prod).map (termKey f))

/-- Equality of the exponential parts of two terms (allclose of `A` and of `b`, 682-685). -/
def SameAB (N : ℕ) (A A' : ℕ → ℕ → ℂ) (b b' : ℕ → ℂ) : Prop :=
  (∀ i < N, ∀ j < N, A i j = A' i j) ∧ ∀ i < N, b i = b' i

/-- Loop state of `_find_unique_terms_sorted`: `to_keep`, `d0`, and the array `c` being updated. -/
structure FU where
  keep : List ℕ
  d0 : ℕ
  c : ℕ → List ℕ → ℂ

open Classical in
/-- physics/ansatz/polyexp_ansatz.py:681-691: one iteration. -/
noncomputable def fuStep (N : ℕ) (A : ℕ → ℕ → ℕ → ℂ) (b : ℕ → ℕ → ℂ) (s : FU) (d : ℕ) : FU :=
  if SameAB N (A s.d0) (A d) (b s.d0) (b d) then
    { s with c := fun i => if i = s.d0 then fun k => s.c s.d0 k + s.c d k else s.c i }
  else { s with keep := s.keep ++ [d], d0 := d }

/-- physics/ansatz/polyexp_ansatz.py:667-692 `_find_unique_terms_sorted` on the sorted arrays with `K` terms. -/
noncomputable def findUnique (N K : ℕ) (A : ℕ → ℕ → ℕ → ℂ) (b : ℕ → ℕ → ℂ) (c : ℕ → List ℕ → ℂ) : FU :=
  (List.range' 1 (K - 1)).foldl (fuStep N A b) ⟨[0], 0, c⟩

/-- physics/ansatz/polyexp_ansatz.py:554-580 `simplify`; `simplified` is the flag `_simplified` of the ansatz, and the result comes with
its own flag.  `none`: NotImplementedError for a batch besides the superposition axis, or IndexError for an empty superposition. -/
noncomputable def simplify (f : PolyExp) (simplified : Bool) : Option (PolyExp × Bool) :=
  if simplified ∨ ¬ f.linSup then some (f, simplified)
  else if f.batch.dropLast ≠ [] then none
  else if f.batch.prod = 0 then none
  else
    let σ := orderBatch f
    let idx (d : ℕ) : List ℕ := unravel f.batch (σ.getD d 0)
    let r := findUnique f.N f.batch.prod (fun d => f.A (idx d)) (fun d => f.b (idx d)) (fun d => f.c (idx d))
    some
      ({ batch := [r.keep.length]
         linSup := true
         N := f.N
         A := fun β => f.A (idx (r.keep.getD (β.getD 0 0) 0))
         b := fun β => f.b (idx (r.keep.getD (β.getD 0 0) 0))
         derived := f.derived
         c := fun β => r.c (r.keep.getD (β.getD 0 0) 0) }, true)

/-! ## Lemmas -/

theorem flatAB_length (N A b) : (flatAB N A b).length = N + N * N := by
  unfold flatAB
  rw [List.length_append, List.length_map, List.length_range, List.length_flatMap]
  simp

theorem flatAB_eq {N A b A' b'} : flatAB N A b = flatAB N A' b' ↔ SameAB N A A' b b' := by
  unfold flatAB SameAB
  constructor
  · intro h
    obtain ⟨h1, h2⟩ := List.append_inj h (by simp)
    constructor
    · intro i hi j hj
      have key : ∀ M, (List.range M).flatMap (fun i => (List.range N).map (A i)) =
          (List.range M).flatMap (fun i => (List.range N).map (A' i)) → ∀ i < M, (List.range N).map (A i) = (List.range N).map (A' i) := by
        intro M
        induction M with
        | zero => intro _ i hi; omega
        | succ M ih =>
          intro h i hi
          rw [List.range_succ, List.flatMap_append, List.flatMap_append] at h
          obtain ⟨g1, g2⟩ := List.append_inj h (by simp [List.length_flatMap])
          rcases Nat.lt_succ_iff_lt_or_eq.1 hi with hlt | rfl
          · exact ih g1 i hlt
          · simpa using g2
      have := key N h2 i hi
      exact List.map_inj_left.1 this j (List.mem_range.2 hj)
    · intro i hi
      exact List.map_inj_left.1 h1 i (List.mem_range.2 hi)
  · rintro ⟨hA, hb⟩
    congr 1
    · exact List.map_congr_left fun i hi => hb i (List.mem_range.1 hi)
    · exact List.flatMap_congr fun i hi => List.map_congr_left fun j hj => hA i (List.mem_range.1 hi) j (List.mem_range.1 hj)

theorem ndindex_length (s : List ℕ) : (ndindex s).length = s.prod := by rw [ndindex_eq]; simp

theorem termKey_length (f : PolyExp) (d : ℕ) : (termKey f d).length = f.N + f.N * f.N + f.derived.prod := by
  unfold termKey
  simp [flatAB_length, ndindex_length]

theorem orderBatch_spec (f : PolyExp) : (orderBatch f).Perm (List.range f.batch.prod) ∧
    ((orderBatch f).map (termKey f)).Pairwise lexLe := by
  have := argsortGen_spec (f.N + f.N * f.N + f.derived.prod) (f.N + f.N * f.N + f.derived.prod + 1)
    ((List.range f.batch.prod).map (termKey f)) (by omega) (by
      intro g hg
      obtain ⟨d, _, rfl⟩ := List.mem_map.1 hg
      exact termKey_length f d)
  rw [List.length_map, List.length_range] at this
  refine ⟨this.1, ?_⟩
  have h2 := this.2
  have hp : (orderBatch f).Perm (List.range f.batch.prod) := this.1
  change ((orderBatch f).map fun i => ((List.range f.batch.prod).map (termKey f)).getD i []).Pairwise lexLe at h2
  convert h2 using 1
  apply List.map_congr_left
  intro i hi
  have hlt := List.mem_range.1 (hp.mem_iff.1 hi)
  rw [List.getD_eq_getElem?_getD, List.getElem?_map, List.getElem?_range hlt]
  rfl

theorem SameAB.refl (N A b) : SameAB N A A b b := ⟨fun _ _ _ _ => rfl, fun _ _ => rfl⟩
theorem SameAB.symm {N A A' b b'} (h : SameAB N A A' b b') : SameAB N A' A b' b :=
  ⟨fun i hi j hj => (h.1 i hi j hj).symm, fun i hi => (h.2 i hi).symm⟩
theorem SameAB.trans {N A A' A'' b b' b''} (h : SameAB N A A' b b') (h' : SameAB N A' A'' b' b'') : SameAB N A A'' b b'' :=
  ⟨fun i hi j hj => (h.1 i hi j hj).trans (h'.1 i hi j hj), fun i hi => (h.2 i hi).trans (h'.2 i hi)⟩

theorem termVal_add (n d A b c c' z) : termVal n d A b (fun k => c k + c' k) z = termVal n d A b c z + termVal n d A b c' z := by
  unfold termVal
  rw [← mul_add]
  refine congrArg (HMul.hMul _) ?_
  unfold nsum
  rw [← List.sum_map_add]
  refine congrArg List.sum (List.map_congr_left fun k _ => ?_)
  ring

/-- What the merging loop computes, after the positions below `d` have been processed. -/
structure FUInv (N : ℕ) (A : ℕ → ℕ → ℕ → ℂ) (b : ℕ → ℕ → ℂ) (c : ℕ → List ℕ → ℂ) (V : ℕ → (List ℕ → ℂ) → ℂ) (d : ℕ) (s : FU) : Prop where
  last : ∃ pre, s.keep = pre ++ [s.d0]
  lt : s.d0 < d
  below : ∀ i ∈ s.keep, i ≤ s.d0
  incr : s.keep.Pairwise (· < ·)
  fresh : ∀ j ≥ d, s.c j = c j
  total : (s.keep.map fun i => V i (s.c i)).sum = ∑ i ∈ Finset.range d, V i (c i)
  distinct : s.keep.Pairwise fun i j => ¬ SameAB N (A i) (A j) (b i) (b j)

theorem fuStep_inv {N K A b c V d s} (hd : d < K)
    (hV : ∀ i j x y, SameAB N (A i) (A j) (b i) (b j) → V i (fun k => x k + y k) = V i x + V j y)
    (hsort : ∀ i j l, i ≤ j → j ≤ l → l < K → SameAB N (A i) (A l) (b i) (b l) → SameAB N (A j) (A l) (b j) (b l))
    (h : FUInv N A b c V d s) : FUInv N A b c V (d + 1) (fuStep N A b s d) := by
  obtain ⟨⟨pre, hpre⟩, hlt, hbel, hinc, hfr, htot, hdis⟩ := h
  unfold fuStep
  by_cases hs : SameAB N (A s.d0) (A d) (b s.d0) (b d)
  · rw [if_pos hs]
    refine ⟨⟨pre, hpre⟩, by dsimp only; omega, hbel, hinc, ?_, ?_, hdis⟩
    · intro j hj
      dsimp only
      rw [if_neg (by omega)]
      exact hfr j (by omega)
    · dsimp only
      rw [hpre, List.map_append, List.sum_append] at htot ⊢
      rw [Finset.sum_range_succ, ← htot]
      have hpre' : pre.map (fun i => V i (if i = s.d0 then fun k => s.c s.d0 k + s.c d k else s.c i)) = pre.map fun i => V i (s.c i) := by
        apply List.map_congr_left
        intro i hi
        rw [hpre, List.pairwise_append] at hinc
        have := hinc.2.2 i hi s.d0 (by simp)
        rw [if_neg (by omega)]
      rw [hpre']
      simp only [List.map_cons, List.map_nil, List.sum_cons, List.sum_nil, add_zero, if_true]
      rw [hV _ d _ _ hs, hfr d le_rfl]; ring
  · rw [if_neg hs]
    refine ⟨⟨s.keep, rfl⟩, by dsimp only; omega, ?_, ?_, ?_, ?_, ?_⟩
    · intro i hi
      dsimp only at hi ⊢
      rcases List.mem_append.1 hi with h | h
      · have := hbel i h; omega
      · simp at h; omega
    · dsimp only
      rw [List.pairwise_append]
      refine ⟨hinc, by simp, ?_⟩
      intro i hi j hj
      simp at hj; subst hj
      have := hbel i hi; omega
    · intro j hj; exact hfr j (by omega)
    · dsimp only
      rw [List.map_append, List.sum_append, htot, Finset.sum_range_succ]
      simp [hfr d le_rfl]
    · dsimp only
      rw [List.pairwise_append]
      refine ⟨hdis, by simp, ?_⟩
      intro i hi j hj
      simp at hj; subst hj
      intro hsame
      exact hs (hsort i s.d0 j (hbel i hi) (by omega) hd hsame)

theorem findUnique_inv {N K A b c V} (hK : 0 < K)
    (hV : ∀ i j x y, SameAB N (A i) (A j) (b i) (b j) → V i (fun k => x k + y k) = V i x + V j y)
    (hsort : ∀ i j l, i ≤ j → j ≤ l → l < K → SameAB N (A i) (A l) (b i) (b l) → SameAB N (A j) (A l) (b j) (b l)) :
    FUInv N A b c V K (findUnique N K A b c) := by
  have key : ∀ M, M + 1 ≤ K → FUInv N A b c V (M + 1) ((List.range' 1 M).foldl (fuStep N A b) ⟨[0], 0, c⟩) := by
    intro M
    induction M with
    | zero =>
      intro _
      exact ⟨⟨[], rfl⟩, by simp, by simp, by simp, fun _ _ => rfl, by simp, by simp⟩
    | succ M ih =>
      intro hM
      rw [List.range'_1_concat, List.foldl_append, List.foldl_cons, List.foldl_nil, Nat.add_comm 1 M]
      exact fuStep_inv (by omega) hV hsort (ih (by omega))
  have := key (K - 1) (by omega)
  rwa [Nat.sub_add_cancel hK] at this

/-! ## C26 -/

theorem unravel_one (K d : ℕ) : unravel [K] d = [d] := by simp [unravel]

/-- Positions in sorted order. -/
theorem sorted_AB {f : PolyExp} {K : ℕ} (hb : f.batch = [K]) {i j l : ℕ} (hij : i ≤ j) (hjl : j ≤ l) (hl : l < K)
    (h : SameAB f.N (f.A [(orderBatch f).getD i 0]) (f.A [(orderBatch f).getD l 0])
      (f.b [(orderBatch f).getD i 0]) (f.b [(orderBatch f).getD l 0])) :
    SameAB f.N (f.A [(orderBatch f).getD j 0]) (f.A [(orderBatch f).getD l 0])
      (f.b [(orderBatch f).getD j 0]) (f.b [(orderBatch f).getD l 0]) := by
  obtain ⟨hp, hs⟩ := orderBatch_spec f
  have hlen : (orderBatch f).length = K := by rw [hp.length_eq, hb]; simp
  have le : ∀ a c, a ≤ c → c < K → lexLe (termKey f ((orderBatch f).getD a 0)) (termKey f ((orderBatch f).getD c 0)) := by
    intro a c hac hc
    rcases Nat.eq_or_lt_of_le hac with rfl | hac
    · exact lexLe_refl _
    · rw [List.pairwise_map, List.pairwise_iff_getElem] at hs
      have := hs a c (by omega) (by omega) hac
      rwa [List.getD_eq_getElem?_getD, List.getElem?_eq_getElem (by omega), List.getD_eq_getElem?_getD,
        List.getElem?_eq_getElem (by omega)]
  have pre : ∀ a c, a ≤ c → c < K →
      lexLe ((flatAB f.N (f.A [(orderBatch f).getD a 0]) (f.b [(orderBatch f).getD a 0])).map lexC)
        ((flatAB f.N (f.A [(orderBatch f).getD c 0]) (f.b [(orderBatch f).getD c 0])).map lexC) := by
    intro a c hac hc
    have := le a c hac hc
    unfold termKey at this
    rw [hb, unravel_one, unravel_one] at this
    exact lexLe_prefix (by simp [flatAB_length]) this
  have e := flatAB_eq.2 h
  have h1 := pre i j hij (by omega)
  have h2 := pre j l hjl hl
  rw [e] at h1
  have := lexLe_antisymm h2 h1
  rw [← flatAB_eq]
  exact List.map_injective_iff.2 (fun _ _ => lexC_inj) this

/-- Unpacking a successful non-trivial run. -/
theorem simplify_run {f g : PolyExp} {fl : Bool} (hf : f.WF) (h1 : f.linSup = true) (h : simplify f false = some (g, fl)) :
    ∃ K r, f.batch = [K] ∧ 0 < K ∧ fl = true ∧ g.batch = [r.keep.length] ∧ g.linSup = true ∧ g.N = f.N ∧ g.derived = f.derived ∧
      (∀ l, g.A [l] = f.A [(orderBatch f).getD (r.keep.getD l 0) 0]) ∧
      (∀ l, g.b [l] = f.b [(orderBatch f).getD (r.keep.getD l 0) 0]) ∧
      (∀ l, g.c [l] = r.c (r.keep.getD l 0)) ∧
      ∀ z, FUInv f.N (fun d => f.A [(orderBatch f).getD d 0]) (fun d => f.b [(orderBatch f).getD d 0])
        (fun d => f.c [(orderBatch f).getD d 0])
        (fun d x => termVal f.numCV f.derived (f.A [(orderBatch f).getD d 0]) (f.b [(orderBatch f).getD d 0]) x z) K r := by
  unfold simplify at h
  rw [if_neg (by simp [h1])] at h
  by_cases hb : f.batch.dropLast ≠ []
  · rw [if_pos hb] at h; simp at h
  rw [if_neg hb] at h
  by_cases hK : f.batch.prod = 0
  · rw [if_pos hK] at h; simp at h
  rw [if_neg hK] at h
  obtain ⟨K, hK'⟩ : ∃ K, f.batch = [K] := by
    have hne := hf.ls h1
    rcases hx : f.batch with _ | ⟨a, _ | ⟨b, l⟩⟩
    · exact absurd hx hne
    · exact ⟨a, rfl⟩
    · rw [hx] at hb; simp at hb
  have hpos : 0 < K := by rw [hK'] at hK; simp at hK; omega
  simp only [Option.some.injEq, Prod.mk.injEq] at h
  obtain ⟨rfl, rfl⟩ := h
  refine ⟨K, _, hK', hpos, rfl, rfl, rfl, rfl, rfl, ?_, ?_, ?_, ?_⟩
  · intro l
    rw [hK']
    simp only [unravel_one, List.getD_cons_zero]
  · intro l
    rw [hK']
    simp only [unravel_one, List.getD_cons_zero]
  · intro l; rfl
  · intro z
    rw [hK']
    simp only [unravel_one, List.prod_cons, List.prod_nil, mul_one]
    apply findUnique_inv hpos
    · intro i j x y hs
      rw [termVal_add]
      congr 1
      have hd : f.numCV + f.derived.length = f.N := by unfold numCV; have := hf.der; omega
      exact termVal_congr (fun a ha b hb => hs.1 a (by omega) b (by omega)) (fun a ha => hs.2 a (by omega))
        (fun _ _ => rfl) (fun _ _ => rfl)
    · intro i j l hij hjl hl hs
      exact sorted_AB hK' hij hjl hl hs

/-- **C26** `simplify` does not change the function. -/
theorem C26_eval (f g : PolyExp) (hf : f.WF) (simplified fl : Bool) (h : simplify f simplified = some (g, fl)) :
    g.WF ∧ g.numCV = f.numCV ∧ g.outBatch = f.outBatch ∧ ∀ β z, InB f.outBatch β → g.call β z = f.call β z := by
  by_cases h0 : simplified = true ∨ ¬ f.linSup = true
  · unfold simplify at h
    rw [if_pos h0] at h
    simp only [Option.some.injEq, Prod.mk.injEq] at h
    obtain ⟨rfl, _⟩ := h
    exact ⟨hf, rfl, rfl, fun _ _ _ => rfl⟩
  · push Not at h0
    obtain ⟨h0, h1⟩ := h0
    have h0 : simplified = false := by simpa using h0
    subst h0
    obtain ⟨K, r, hb, hK, _, gb, gl, gN, gd, gA, gB, gC, hinv⟩ := simplify_run hf h1 h
    refine ⟨⟨by rw [gN, gd]; exact hf.der, by rw [gb]; simp⟩, by unfold numCV; rw [gN, gd], ?_, ?_⟩
    · unfold outBatch; rw [gl, gb, h1, hb]; simp
    · intro β z hβ
      have hβ0 : β = [] := by
        unfold outBatch at hβ
        rw [h1, hb] at hβ
        cases hβ; rfl
      subst hβ0
      have ht := (hinv z).total
      rw [call_ls gl, call_ls h1, gb, hb]
      simp only [List.getLastD_cons, List.getLastD_nil, List.nil_append]
      have hp := (orderBatch_spec f).1
      rw [hb] at hp
      simp only [List.prod_cons, List.prod_nil, mul_one] at hp
      have e1 : ∑ l ∈ Finset.range r.keep.length, g.termAt [l] z =
          (r.keep.map fun i => termVal f.numCV f.derived (f.A [(orderBatch f).getD i 0]) (f.b [(orderBatch f).getD i 0]) (r.c i) z).sum := by
        rw [← sum_getD]
        refine Finset.sum_congr rfl fun l _ => ?_
        unfold termAt
        have : g.numCV = f.numCV := by unfold numCV; rw [gN, gd]
        rw [this, gd, gA, gB, gC]
      rw [e1, ht]
      have e2 := sum_perm hp (fun i => f.termAt [i] z)
      have e3 : ∑ i ∈ Finset.range K, f.termAt [(orderBatch f).getD i 0] z =
          ((orderBatch f).map fun i => f.termAt [i] z).sum := by
        have hl : (orderBatch f).length = K := by rw [hp.length_eq]; simp
        rw [← hl]
        exact sum_getD (orderBatch f) (fun i => f.termAt [i] z)
      rw [← e2, ← e3]
      rfl

/-- **C26** after `simplify` no two terms have the same `(A, b)`, and at least one term remains. -/
theorem C26_distinct (f g : PolyExp) (hf : f.WF) (h1 : f.linSup = true) (fl : Bool) (h : simplify f false = some (g, fl)) :
    ∃ K', g.batch = [K'] ∧ 0 < K' ∧ ∀ i j, i < j → j < K' →
      ¬ ((∀ a < f.N, ∀ b < f.N, g.A [i] a b = g.A [j] a b) ∧ ∀ a < f.N, g.b [i] a = g.b [j] a) := by
  obtain ⟨K, r, hb, hK, _, gb, gl, gN, gd, gA, gB, gC, hinv⟩ := simplify_run hf h1 h
  have hi := hinv 0
  refine ⟨_, gb, ?_, ?_⟩
  · obtain ⟨pre, hpre⟩ := hi.last
    rw [hpre]; simp
  · intro i j hij hj hs
    have := (List.pairwise_iff_getElem.1 hi.distinct) i j (by omega) hj hij
    apply this
    rw [gA, gA, gB, gB] at hs
    simp only [List.getD_eq_getElem?_getD, List.getElem?_eq_getElem (show i < r.keep.length by omega),
      List.getElem?_eq_getElem hj, Option.getD_some] at hs
    simpa [SameAB, List.getD_eq_getElem?_getD] using hs

/-- **C26** when `simplify` succeeds: always for an ansatz that is flagged as simplified or is not a superposition, and otherwise exactly for
non-empty superpositions without further batch axes. -/
theorem C26_defined (f : PolyExp) (hf : f.WF) (simplified : Bool) :
    (∃ r, simplify f simplified = some r) ↔ (simplified = true ∨ f.linSup = false ∨ ∃ K, 0 < K ∧ f.batch = [K]) := by
  unfold simplify
  by_cases h0 : simplified = true ∨ ¬ f.linSup = true
  · rw [if_pos h0]
    refine ⟨fun _ => ?_, fun _ => ⟨_, rfl⟩⟩
    rcases h0 with h | h
    · exact Or.inl h
    · exact Or.inr (Or.inl (by simpa using h))
  · rw [if_neg h0]
    push Not at h0
    have hs : simplified = false := by simpa using h0.1
    rcases hx : f.batch with _ | ⟨a, _ | ⟨b, l⟩⟩
    · exact absurd hx (hf.ls h0.2)
    · by_cases ha : a = 0
      · subst ha; simp [hs, h0.2]
      · simp [hs, h0.2, ha]; omega
    · simp [hs, h0.2]

end Verif.PolyExp
