import Verif.Simplify
import Verif.PolyExpProps

/-!
# C26: repeated simplification; C47: equality of `PolyExpAnsatz`
-/

namespace Verif.PolyExp
open Verif.Fock Verif.Batch Verif.Argsort PolyExp

/-- A sorted permutation of positions whose keys are already strictly increasing is the identity. -/
theorem perm_sorted_eq {β : Type*} {K : ℕ} {σ : List ℕ} (key : ℕ → β) (le : β → β → Prop) (anti : ∀ a b, le a b → le b a → a = b)
    (hp : σ.Perm (List.range K)) (hs : (σ.map key).Pairwise le)
    (hstrict : ∀ i j, i < j → j < K → le (key i) (key j) ∧ key i ≠ key j) : σ = List.range K := by
  apply hp.eq_of_pairwise (le := fun i j => le (key i) (key j))
  · intro a b ha hb h1 h2
    have ha := List.mem_range.1 (hp.mem_iff.1 ha)
    have hb := List.mem_range.1 hb
    have e := anti _ _ h1 h2
    rcases lt_trichotomy a b with h | h | h
    · exact absurd e (hstrict a b h hb).2
    · exact h
    · exact absurd e.symm (hstrict b a h ha).2
  · exact List.pairwise_map.1 hs
  · rw [List.pairwise_iff_getElem]
    intro i j hi hj hij
    simp only [List.getElem_range]
    exact (hstrict i j hij (by simpa using hj)).1

theorem findUnique_distinct {N K A b c} (hK : 0 < K) (h : ∀ i j, i < j → j < K → ¬ SameAB N (A i) (A j) (b i) (b j)) :
    (findUnique N K A b c).keep = List.range K ∧ (findUnique N K A b c).c = c := by
  have key : ∀ M, M + 1 ≤ K → (List.range' 1 M).foldl (fuStep N A b) ⟨[0], 0, c⟩ = ⟨List.range (M + 1), M, c⟩ := by
    intro M
    induction M with
    | zero => intro _; rfl
    | succ M ih =>
      intro hM
      rw [List.range'_1_concat, List.foldl_append, List.foldl_cons, List.foldl_nil, Nat.add_comm 1 M, ih (by omega)]
      unfold fuStep
      rw [if_neg (h M (M + 1) (by omega) (by omega)), List.range_succ (n := M + 1)]
  unfold findUnique
  rw [key (K - 1) (by omega), Nat.sub_add_cancel hK]
  exact ⟨rfl, rfl⟩

/-- **C26** simplification is idempotent: running it again returns the very same ansatz because of the flag, and even with the flag
cleared (as on a reconstructed ansatz) it returns the same terms in the same order. -/
theorem C26_idempotent (f g : PolyExp) (hf : f.WF) (h1 : f.linSup = true) (fl : Bool) (h : simplify f false = some (g, fl)) :
    simplify g fl = some (g, fl) ∧
    ∃ g', simplify g false = some (g', true) ∧ g'.batch = g.batch ∧ g'.linSup = true ∧ g'.N = g.N ∧ g'.derived = g.derived ∧
      ∀ l < g.batch.prod, g'.A [l] = g.A [l] ∧ g'.b [l] = g.b [l] ∧ g'.c [l] = g.c [l] := by
  obtain ⟨K, r, hb, hK, hfl, gb, gl, gN, gd, gA, gB, gC, hinv⟩ := simplify_run hf h1 h
  obtain ⟨K', gb', hK', hdis⟩ := C26_distinct f g hf h1 fl h
  have hi := hinv 0
  have hk : r.keep.length = K' := by rw [gb] at gb'; simpa using gb'
  refine ⟨by rw [hfl]; unfold simplify; rw [if_pos (Or.inl rfl)], ?_⟩
  have hlt : ∀ l < K', r.keep.getD l 0 < K := by
    intro l hl
    have : r.keep.getD l 0 ∈ r.keep := by
      rw [List.getD_eq_getElem?_getD, List.getElem?_eq_getElem (by omega)]; exact List.getElem_mem _
    have := hi.below _ this
    have := hi.lt
    omega
  obtain ⟨hp, hs⟩ := orderBatch_spec f
  have hlen : (orderBatch f).length = K := by rw [hp.length_eq, hb]; simp
  have hord : orderBatch g = List.range K' := by
    obtain ⟨gp, gs⟩ := orderBatch_spec g
    have e : g.batch.prod = K' := by rw [gb']; simp
    rw [e] at gp
    apply perm_sorted_eq (termKey g) lexLe (fun a b => lexLe_antisymm) gp gs
    intro i j hij hj
    have hne : (flatAB g.N (g.A [i]) (g.b [i])).map lexC ≠ (flatAB g.N (g.A [j]) (g.b [j])).map lexC := by
      intro he
      have := flatAB_eq.1 (List.map_injective_iff.2 (fun _ _ => lexC_inj) he)
      rw [gN] at this
      exact hdis i j hij hj this
    have hle : lexLe ((flatAB g.N (g.A [i]) (g.b [i])).map lexC) ((flatAB g.N (g.A [j]) (g.b [j])).map lexC) := by
      have hincr : r.keep.getD i 0 < r.keep.getD j 0 := by
        have := (List.pairwise_iff_getElem.1 hi.incr) i j (by omega) (by omega) hij
        rwa [List.getD_eq_getElem?_getD, List.getElem?_eq_getElem (by omega), List.getD_eq_getElem?_getD,
          List.getElem?_eq_getElem (by omega)]
      have hjK := hlt j hj
      rw [List.pairwise_map, List.pairwise_iff_getElem] at hs
      have := hs _ _ (by omega) (by omega) hincr
      have g1 : (orderBatch f)[r.keep.getD i 0] = (orderBatch f).getD (r.keep.getD i 0) 0 := by
        rw [List.getD_eq_getElem?_getD (l := orderBatch f), List.getElem?_eq_getElem (by omega)]; rfl
      have g2 : (orderBatch f)[r.keep.getD j 0] = (orderBatch f).getD (r.keep.getD j 0) 0 := by
        rw [List.getD_eq_getElem?_getD (l := orderBatch f), List.getElem?_eq_getElem (by omega)]; rfl
      rw [g1, g2] at this
      unfold termKey at this
      rw [hb, unravel_one, unravel_one, ← gA, ← gB, ← gA, ← gB, ← gN] at this
      exact lexLe_prefix (by simp [flatAB_length]) this
    have key : ∀ d, termKey g d = (flatAB g.N (g.A [d]) (g.b [d])).map lexC ++ ((ndindex g.derived).map (g.c [d])).map lexC := by
      intro d; unfold termKey; rw [gb', unravel_one]
    rw [key, key]
    refine ⟨?_, fun he => hne (List.append_inj he (by simp [flatAB_length])).1⟩
    have strict : ∀ {p q s t : List (ℝ ×ₗ ℝ)}, p.length = q.length → lexLe p q → p ≠ q → lexLe (p ++ s) (q ++ t) := by
      intro p
      induction p with
      | nil => intro q s t hl _ hn; cases q with
        | nil => exact absurd rfl hn
        | cons => simp at hl
      | cons x p ih =>
        intro q s t hl h hn
        cases q with
        | nil => simp at hl
        | cons y q =>
          rcases h with h | ⟨rfl, h⟩
          · exact Or.inl h
          · exact Or.inr ⟨rfl, ih (by simpa using hl) h (fun e => hn (by rw [e]))⟩
    exact strict (by simp [flatAB_length]) hle hne
  unfold simplify
  rw [if_neg (by simp [gl]), gb', if_neg (by simp), if_neg (by simp; omega)]
  have hget : ∀ d < K', (orderBatch g).getD d 0 = d := by
    intro d hd; rw [hord, List.getD_eq_getElem?_getD, List.getElem?_range hd]; rfl
  refine ⟨_, rfl, ?_, rfl, rfl, rfl, ?_⟩
  all_goals
    simp only [unravel_one, List.prod_cons, List.prod_nil, mul_one]
    have hfu := findUnique_distinct (N := g.N) (A := fun d => g.A [(orderBatch g).getD d 0]) (b := fun d => g.b [(orderBatch g).getD d 0])
      (c := fun d => g.c [(orderBatch g).getD d 0]) hK' (by
        intro i j hij hj hsame
        rw [hget i (by omega), hget j hj, gN] at hsame
        exact hdis i j hij hj hsame)
  · rw [hfu.1]; simp
  · intro l hl
    rw [hfu.1, hfu.2]
    have : (List.range K').getD l 0 = l := by rw [List.getD_eq_getElem?_getD, List.getElem?_range hl]; rfl
    simp only [List.getD_cons_zero]
    rw [this, hget l hl]
    exact ⟨rfl, rfl, rfl⟩

/-! ## Equality -/

/-- The data of the term at flat batch position `d`: the flattened `b`, `A`, and the flattened `c`. -/
def termData (f : PolyExp) (d : ℕ) : List ℂ × List ℂ :=
  (flatAB f.N (f.A (unravel f.batch d)) (f.b (unravel f.batch d)), (ndindex f.derived).map (f.c (unravel f.batch d)))

open Classical in
/-- physics/ansatz/polyexp_ansatz.py:975-984 `__eq__` with math/backend_numpy.py:62-63 `np.allclose` (which broadcasts), for two ansätze
with the same number of variables and the same derived shape (otherwise not modelled).  `none`: the numbers of terms
cannot be broadcast (ValueError). -/
noncomputable def polyEq (f g : PolyExp) : Option Bool :=
  let K1 := f.batch.prod
  let K2 := g.batch.prod
  if K1 = K2 ∨ K1 = 1 ∨ K2 = 1 then
    some (decide (∀ d < (if K1 = 1 then K2 else K1),
      termData f ((orderBatch f).getD (if K1 = 1 then 0 else d) 0) = termData g ((orderBatch g).getD (if K2 = 1 then 0 else d) 0)))
  else none

theorem termKey_eq {f g : PolyExp} (hN : f.N = g.N) {d e : ℕ} :
    termKey f d = termKey g e ↔ termData f d = termData g e := by
  unfold termKey termData
  constructor
  · intro h
    obtain ⟨h1, h2⟩ := List.append_inj h (by simp [flatAB_length, hN])
    rw [List.map_injective_iff.2 (fun _ _ => lexC_inj) h1, List.map_injective_iff.2 (fun _ _ => lexC_inj) h2]
  · intro h
    rw [Prod.mk.injEq] at h
    rw [h.1, h.2]

/-- **C47** Two ansätze with equally many terms compare equal exactly if their terms agree up to order — for superpositions
(where the order does not matter) but also for plain batches. -/
theorem C47_eq_multiset (f g : PolyExp) (hN : f.N = g.N) (hK : f.batch.prod = g.batch.prod) :
    polyEq f g = some true ↔
      ((List.range f.batch.prod).map (termData f)).Perm ((List.range g.batch.prod).map (termData g)) := by
  obtain ⟨fp, fs⟩ := orderBatch_spec f
  obtain ⟨gp, gs⟩ := orderBatch_spec g
  have lf : (orderBatch f).length = f.batch.prod := by rw [fp.length_eq]; simp
  have lg : (orderBatch g).length = f.batch.prod := by rw [gp.length_eq, hK]; simp
  have e1 : polyEq f g = some true ↔ (orderBatch f).map (termData f) = (orderBatch g).map (termData g) := by
    unfold polyEq
    dsimp only
    rw [if_pos (Or.inl hK), Option.some.injEq, decide_eq_true_iff]
    rw [List.ext_getElem_iff]
    simp only [List.length_map, lf, lg, List.getElem_map, true_and]
    have hd : ∀ d < (if f.batch.prod = 1 then g.batch.prod else f.batch.prod),
        (if f.batch.prod = 1 then 0 else d) = d ∧ (if g.batch.prod = 1 then 0 else d) = d ∧ d < f.batch.prod := by
      intro d hd
      rw [← hK] at hd ⊢
      rw [ite_self] at hd
      by_cases h1 : f.batch.prod = 1
      · have : d = 0 := by omega
        subst this; simp [h1]
      · simp [h1, hd]
    constructor
    · intro h d h1 h2
      have := h d (by rw [← hK, ite_self]; exact h1)
      rw [(hd d (by rw [← hK, ite_self]; exact h1)).1, (hd d (by rw [← hK, ite_self]; exact h1)).2.1] at this
      rwa [List.getD_eq_getElem?_getD, List.getElem?_eq_getElem (by omega), List.getD_eq_getElem?_getD,
        List.getElem?_eq_getElem (by omega)] at this
    · intro h d h1
      obtain ⟨a, b, c⟩ := hd d h1
      rw [a, b, List.getD_eq_getElem?_getD, List.getElem?_eq_getElem (by omega), List.getD_eq_getElem?_getD,
        List.getElem?_eq_getElem (by omega)]
      exact h d c c
  rw [e1]
  constructor
  · intro h
    exact ((fp.map (termData f)).symm.trans (h ▸ List.Perm.refl _)).trans (gp.map (termData g))
  · intro h
    have hp : ((orderBatch f).map (termData f)).Perm ((orderBatch g).map (termData g)) :=
      (fp.map _).trans (h.trans (gp.map _).symm)
    apply hp.eq_of_pairwise (le := fun x y => lexLe (x.1.map lexC ++ x.2.map lexC) (y.1.map lexC ++ y.2.map lexC))
    · intro x y hx hy h1 h2
      have e := lexLe_antisymm h1 h2
      obtain ⟨i, _, rfl⟩ := List.mem_map.1 hx
      obtain ⟨j, _, rfl⟩ := List.mem_map.1 hy
      exact (termKey_eq hN).1 e
    · rw [List.pairwise_map] at fs ⊢; exact fs
    · rw [List.pairwise_map] at gs ⊢; exact gs

/-- **C47** (disagreement).  For every ansatz `f` without batch, `f == f + f` is true (the comparison broadcasts the single term over
the two terms), although `f + f` evaluates to twice `f`. -/
theorem C47_doubling (f : PolyExp) (hf : f.WF) (hb : f.batch = []) :
    ∃ h, f.add f = some h ∧ polyEq f h = some true ∧ ∀ z, h.call [] z = 2 * f.call [] z := by
  have hl : f.lead = 1 := by simp [lead, hb]
  have hls : f.linSup = false := by
    cases h : f.linSup with
    | false => rfl
    | true => exact absurd hb (hf.ls h)
  obtain ⟨h, hadd⟩ := (C27_add_defined f f rfl (by simp [hb]) (by simp [hb]) (by simp [hb]) (by simp [hb])).2 ⟨by simp, by simp⟩
  have hval := C27_add f f h hf hf hadd (Or.inl rfl)
  refine ⟨h, hadd, ?_, fun z => by rw [(hval z).2.2.2]; ring⟩
  -- the fields of the sum
  have hcs : f.cShape f.derived.length = 1 :: f.derived := by simp [cShape, atleastNd, hl]
  have hun : ∀ l, f.unlead l = [] := fun l => by simp [unlead, hb]
  unfold add at hadd
  rw [if_neg (by simp), if_neg (by simp [hb]), if_neg (by simp [hb])] at hadd
  simp only [init, max_self, hcs, hl, List.getD_cons_zero, List.tail_cons] at hadd
  have hzip : List.zipWith max f.derived f.derived = f.derived := by
    rw [List.zipWith_self]; simp
  rw [if_pos (by simp), Option.some.injEq, hzip] at hadd
  have hbatch : h.batch = [2] := by rw [← hadd]
  have hN : h.N = f.N := by rw [← hadd]
  have hder : h.derived = f.derived := by rw [← hadd]; simp
  have hd0 : ∀ d, termData f d = (flatAB f.N (f.A []) (f.b []), (ndindex f.derived).map (f.c [])) := by
    intro d; unfold termData; rw [hb]; rfl
  have hdat : ∀ d < 2, termData h d = (flatAB f.N (f.A []) (f.b []), (ndindex f.derived).map (f.c [])) := by
    intro d hd
    unfold termData
    rw [hbatch, unravel_one, hN, hder, Prod.mk.injEq]
    constructor
    · rw [flatAB_eq]
      have hd' : d = 0 ∨ d = 1 := by omega
      constructor
      · intro i hi j hj
        rw [← hadd]
        dsimp only
        rcases hd' with rfl | rfl <;> simp [padA, hi, hj, hun]
      · intro i hi
        rw [← hadd]
        dsimp only
        rcases hd' with rfl | rfl <;> simp [padB, hi, hun]
    · apply List.map_congr_left
      intro k hk
      have hin : inb k f.derived = true := inb_iff.2 (mem_ndindex.1 hk)
      have hd' : d = 0 ∨ d = 1 := by omega
      rw [← hadd]
      dsimp only
      rcases hd' with rfl | rfl <;> simp [padC, hcs, hin, hun]
  unfold polyEq
  have hf1 : f.batch.prod = 1 := by rw [hb]; rfl
  have hh2 : h.batch.prod = 2 := by rw [hbatch]; rfl
  dsimp only
  rw [if_pos (Or.inr (Or.inl hf1)), Option.some.injEq, decide_eq_true_iff]
  intro d hd
  rw [if_pos hf1, hh2] at hd
  rw [hd0, if_neg (by omega)]
  symm
  apply hdat
  obtain ⟨hp, _⟩ := orderBatch_spec h
  have hlen : (orderBatch h).length = 2 := by rw [hp.length_eq, hh2]; rfl
  have : (orderBatch h).getD d 0 ∈ orderBatch h := by
    rw [List.getD_eq_getElem?_getD, List.getElem?_eq_getElem (by omega)]; exact List.getElem_mem _
  simpa [hh2] using hp.mem_iff.1 this

/-- **C47** (disagreement).  The order of a plain batch is ignored: the batches `(1, 2)` and `(2, 1)` of constants compare equal but have different
values at batch index 0. -/
theorem C47_batch_order : ∃ f g : PolyExp, f.WF ∧ g.WF ∧ f.linSup = false ∧ g.linSup = false ∧ polyEq f g = some true ∧
    ∀ z, f.call [0] z = 1 ∧ g.call [0] z = 2 := by
  refine ⟨⟨[2], false, 0, fun _ _ _ => 0, fun _ _ => 0, [], fun β _ => if β = [0] then 1 else 2⟩,
    ⟨[2], false, 0, fun _ _ _ => 0, fun _ _ => 0, [], fun β _ => if β = [0] then 2 else 1⟩,
    ⟨by simp, by simp⟩, ⟨by simp, by simp⟩, rfl, rfl, ?_, ?_⟩
  · refine (C47_eq_multiset _ _ ?_ ?_).2 ?_
    · rfl
    · rfl
    have : List.range ([2] : List ℕ).prod = [0, 1] := rfl
    dsimp only
    rw [this]
    simp only [List.map_cons, List.map_nil, termData, unravel_one]
    simp [ndindex]
    exact List.Perm.swap _ _ _
  · intro z
    constructor <;> rw [call_nls rfl] <;>
      simp [termAt, termVal, numCV, nsum, ndindex, amp_linear (n := 0) (z := fun _ => 0) (toF_below [] (by simp)), mono, sqrtFact]

/-- Hypotheses met by a non-trivial superposition: three terms, two of which share `(A, b)`; `simplify` succeeds on it. -/
example : ∃ f : PolyExp, f.WF ∧ f.linSup = true ∧ f.batch = [3] ∧ f.numCV = 1 ∧ (∃ r, simplify f false = some r) ∧
    SameAB f.N (f.A [0]) (f.A [2]) (f.b [0]) (f.b [2]) ∧ ¬ SameAB f.N (f.A [0]) (f.A [1]) (f.b [0]) (f.b [1]) := by
  refine ⟨⟨[3], true, 1, fun _ _ _ => 0, fun β _ => if β = [1] then 1 else 0, [], fun _ _ => 1⟩, ⟨by simp, by simp⟩, rfl, rfl, rfl, ?_, ?_, ?_⟩
  · exact (C26_defined _ ⟨by simp, by simp⟩ false).2 (Or.inr (Or.inr ⟨3, by omega, rfl⟩))
  · simp [SameAB]
  · simp [SameAB]

end Verif.PolyExp
