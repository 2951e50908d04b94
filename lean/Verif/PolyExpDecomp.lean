import Verif.PolyExpAnd

/-!
# C46: `decompose_ansatz` preserves the function
-/

namespace Verif.PolyExp
open Verif.Fock Verif.Batch PolyExp

/-- physics/ansatz/polyexp_ansatz.py:437-442: `A_core`, with the block of the continuous variables zeroed. -/
noncomputable def coreA (n : ℕ) (A : ℕ → ℕ → ℂ) (i j : ℕ) : ℂ := if i < n ∧ j < n then 0 else A i j
/-- physics/ansatz/polyexp_ansatz.py:443: `b_core`, with the continuous part zeroed. -/
noncomputable def coreB (n : ℕ) (b : ℕ → ℂ) (i : ℕ) : ℂ := if i < n then 0 else b i

/-- physics/ansatz/polyexp_ansatz.py:415-469 `decompose_ansatz`.  `poly_core` is `amp` by C19; the flattened dot product over
the derived axes (452-463) is the sum over the multi-index. -/
noncomputable def PolyExp.decompose (f : PolyExp) : PolyExp :=
  if f.derived.length < f.numCV then f
  else
    { batch := f.batch
      linSup := f.linSup
      N := f.numCV + f.numCV
      A := fun β i j =>
        if i < f.numCV ∧ j < f.numCV then f.A β i j
        else if j = f.numCV + i ∨ i = f.numCV + j then 1 else 0
      b := fun β i => if i < f.numCV then f.b β i else 0
      derived := List.replicate f.numCV f.derived.sum
      c := fun β l => nsum f.derived fun k =>
        amp (f.numCV + f.derived.length) (coreA f.numCV (f.A β)) (coreB f.numCV (f.b β)) 1 (toF (l ++ k)) * f.c β k }

theorem toF_append {n : ℕ} {l : List ℕ} (hl : l.length = n) (k : List ℕ) : toF (l ++ k) = cat n (toF l) (toF k) := by
  ext i
  rw [cat_apply]
  simp only [toF_apply, List.getD_eq_getElem?_getD]
  subst hl
  by_cases h : i < l.length
  · rw [if_pos h, List.getElem?_append_left h]
  · rw [if_neg h, List.getElem?_append_right (by omega)]

theorem degree_toF (k : List ℕ) : (toF k).degree = k.sum := by
  have h1 : (toF k).degree = ∑ i ∈ Finset.range k.length, toF k i := by
    rw [Finsupp.degree_apply]
    apply Finset.sum_subset
    · intro i hi
      rw [Finsupp.mem_support_iff] at hi
      rw [Finset.mem_range]
      by_contra h
      apply hi
      rw [toF_apply, List.getD_eq_getElem?_getD, List.getElem?_eq_none (by omega)]; rfl
    · intro i _ h
      rwa [Finsupp.notMem_support_iff] at h
  rw [h1]
  clear h1
  induction k with
  | nil => rfl
  | cons a k ih =>
    rw [List.length_cons, Finset.sum_range_succ', List.sum_cons, ← ih]
    simp [add_comm]

theorem sum_lt_of_inB {d k : List ℕ} (h : InB d k) (hne : d ≠ []) : k.sum < d.sum := by
  induction h with
  | nil => exact absurd rfl hne
  | @cons x n ks s hx ht ih =>
    rw [List.sum_cons, List.sum_cons]
    by_cases hs : s = []
    · subst hs
      cases ht
      simpa using hx
    · have := ih hs; omega

theorem nodup_ndindex (s : List ℕ) : (ndindex s).Nodup := by
  rw [ndindex_eq]
  apply List.Nodup.map_on _ List.nodup_range
  intro x hx y hy h
  rw [List.mem_range] at hx hy
  have hr : ∀ f < s.prod, ravel s (unravel s f) = f := by
    clear hx hy h x y
    induction s with
    | nil => intro f hf; simp at hf; simp [hf, unravel, ravel]
    | cons n s ih =>
      intro f hf
      simp only [unravel, ravel]
      have hp : 0 < s.prod := by
        rcases Nat.eq_zero_or_pos s.prod with h | h
        · rw [List.prod_cons, h] at hf; simp at hf
        · exact h
      rw [ih _ (Nat.mod_lt _ hp)]
      rw [mul_comm]; exact Nat.div_add_mod f s.prod
  rw [← hr x hx, ← hr y hy, h]

/-- A sum over the box of multi-indices is the sum over the low-degree multi-indices, if only those contribute. -/
theorem nsum_box {n S d : ℕ} (hd : d < S ∨ n = 0) (F : (ℕ →₀ ℕ) → ℂ) (hz : ∀ l, Below n l → d < l.degree → F l = 0) :
    nsum (List.replicate n S) (fun l => F (toF l)) = ∑ l ∈ upTo n d, F l := by
  have hlen : ∀ l ∈ ndindex (List.replicate n S), l.length = n := fun l hl => by
    have := List.Forall₂.length_eq (mem_ndindex.1 hl); simpa using this
  have hinj : Set.InjOn toF (↑((ndindex (List.replicate n S)).toFinset) : Set (List ℕ)) := by
    intro a ha b hb hab
    simp only [List.coe_toFinset, Set.mem_setOf_eq] at ha hb
    have la := hlen a ha
    have lb := hlen b hb
    apply List.ext_getElem (by omega)
    intro i h1 h2
    have := DFunLike.congr_fun hab i
    simpa [toF_apply, List.getD_eq_getElem?_getD, h1, h2] using this
  unfold nsum
  rw [← List.sum_toFinset _ (nodup_ndindex _), ← Finset.sum_image hinj]
  symm
  apply Finset.sum_subset
  · intro l hl
    rw [mem_upTo] at hl
    rw [Finset.mem_image]
    refine ⟨(List.range n).map l, ?_, ?_⟩
    · rw [List.mem_toFinset, mem_ndindex, InB, List.forall₂_iff_get]
      refine ⟨by simp, ?_⟩
      intro i h1 h2
      have hi : i < n := by simpa using h1
      simp only [List.get_eq_getElem, List.getElem_map, List.getElem_range, List.getElem_replicate]
      have : l i ≤ l.degree := Finsupp.le_degree i l
      omega
    · ext i
      rw [toF_apply, List.getD_eq_getElem?_getD]
      by_cases hi : i < n
      · simp [hi]
      · rw [List.getElem?_eq_none (by simp; omega)]
        exact (hl.1 i (by omega)).symm
  · intro l hl hn
    rw [Finset.mem_image] at hl
    obtain ⟨k, hk, rfl⟩ := hl
    have hb : Below n (toF k) := toF_below _ (by rw [hlen k (List.mem_toFinset.1 hk)])
    apply hz _ hb
    by_contra hc
    exact hn (mem_upTo.2 ⟨hb, by omega⟩)

/-- The blocks of `A` coupling continuous and derived variables are transposes of each other. -/
def CrossSym (f : PolyExp) : Prop :=
  ∀ β, ∀ i < f.numCV, ∀ j < f.derived.length, f.A β i (f.numCV + j) = f.A β (f.numCV + j) i

theorem decompose_term {f : PolyExp} (hs : CrossSym f) (hm : ¬ f.derived.length < f.numCV) (β z) :
    f.decompose.termAt β z = f.termAt β z := by
  have hnum : f.decompose.numCV = f.numCV := by
    unfold decompose; rw [if_neg hm]; simp only [numCV, List.length_replicate]; omega
  unfold termAt
  rw [hnum]
  unfold decompose
  rw [if_neg hm]
  dsimp only
  set n := f.numCV with hn
  set m := f.derived.length
  set A := f.A β
  set b := f.b β
  set c := f.c β
  unfold termVal
  have e1 : ∑ i ∈ Finset.range n, ∑ j ∈ Finset.range n, z i * z j *
      (if i < n ∧ j < n then A i j else if j = n + i ∨ i = n + j then 1 else 0) =
      ∑ i ∈ Finset.range n, ∑ j ∈ Finset.range n, z i * z j * A i j := by
    refine Finset.sum_congr rfl fun i hi => Finset.sum_congr rfl fun j hj => ?_
    rw [if_pos ⟨Finset.mem_range.1 hi, Finset.mem_range.1 hj⟩]
  have e2 : ∑ i ∈ Finset.range n, z i * (if i < n then b i else 0) = ∑ i ∈ Finset.range n, z i * b i := by
    refine Finset.sum_congr rfl fun i hi => ?_
    rw [if_pos (Finset.mem_range.1 hi)]
  rw [e1, e2]
  refine congrArg (HMul.hMul _) ?_
  -- the derived polynomial of the decomposed ansatz is a monomial
  have e3 : ∀ l, InB (List.replicate n f.derived.sum) l →
      amp (List.replicate n f.derived.sum).length
        (fun i j => if n + i < n ∧ n + j < n then A (n + i) (n + j) else if n + j = n + (n + i) ∨ n + i = n + (n + j) then 1 else 0)
        (fun j => ∑ a ∈ Finset.range n, (if a < n ∧ n + j < n then A a (n + j)
            else if n + j = n + a ∨ a = n + (n + j) then 1 else 0) * z a + (if n + j < n then b (n + j) else 0)) 1 (toF l) =
      mono n z (toF l) := by
    intro l hl
    have hlen : l.length = n := by have := List.Forall₂.length_eq hl; simpa using this
    have hB : Below n (toF l) := toF_below _ (by rw [hlen])
    rw [List.length_replicate, ← amp_linear hB]
    refine amp_congr _ ?_ ?_ _
    · intro i hi j hj
      rw [if_neg (by omega), if_neg (by omega)]
    · intro j hj
      rw [if_neg (by omega), add_zero, Finset.sum_eq_single j]
      · rw [if_neg (by omega), if_pos (by omega), one_mul]
      · intro a ha hne
        have ha := Finset.mem_range.1 ha
        rw [if_neg (by omega), if_neg (by omega), zero_mul]
      · intro h; exact absurd (Finset.mem_range.2 hj) h
  have e4 : ∀ k, InB f.derived k →
      amp m (fun i j => A (n + i) (n + j)) (fun j => ∑ a ∈ Finset.range n, A a (n + j) * z a + b (n + j)) 1 (toF k) =
      nsum (List.replicate n f.derived.sum) fun l =>
        amp (n + m) (coreA n A) (coreB n b) 1 (toF (l ++ k)) * mono n z (toF l) := by
    intro k hk
    have hlk : k.length = m := List.Forall₂.length_eq hk
    have hB : Below m (toF k) := toF_below _ (by rw [hlk])
    have hzz : ∀ i < n, ∀ j < n, coreA n A i j = 0 := fun i hi j hj => by simp [coreA, hi, hj]
    have hbz : ∀ i < n, coreB n b i = 0 := fun i hi => by simp [coreB, hi]
    have p := pull_out (m := m) (A := coreA n A) (b := coreB n b) hzz hbz (by
      intro i hi j hj
      unfold coreA
      rw [if_neg (by omega), if_neg (by omega)]
      exact hs β i hi j hj) z hB (d := (toF k).degree) le_rfl
    have e5 : (nsum (List.replicate n f.derived.sum) fun l =>
        amp (n + m) (coreA n A) (coreB n b) 1 (toF (l ++ k)) * mono n z (toF l)) =
        nsum (List.replicate n f.derived.sum) fun l =>
          (fun L => amp (n + m) (coreA n A) (coreB n b) 1 (cat n L (toF k)) * mono n z L) (toF l) := by
      apply nsum_congr
      intro l hl
      have hlen : l.length = n := by have := List.Forall₂.length_eq hl; simpa using this
      rw [toF_append hlen]
    rw [e5, nsum_box (d := (toF k).degree)
      (F := fun L => amp (n + m) (coreA n A) (coreB n b) 1 (cat n L (toF k)) * mono n z L), ← p]
    · refine amp_congr _ ?_ ?_ _
      · intro i hi j hj; unfold coreA; rw [if_neg (by omega)]
      · intro j hj
        unfold coreB
        rw [if_neg (by omega)]
        congr 1
        refine Finset.sum_congr rfl fun a ha => ?_
        unfold coreA; rw [if_neg (by omega)]
    · rw [degree_toF]
      by_cases hne : f.derived = []
      · right
        have : m = 0 := by simp [m, hne]
        omega
      · left; exact sum_lt_of_inB hk hne
    · intro L hL hdeg
      rw [amp_cat_zero hzz hbz _ L (toF k) rfl hL hdeg, zero_mul]
  have e6 : (nsum (List.replicate n f.derived.sum) fun l =>
      (nsum f.derived fun k => amp (n + m) (coreA n A) (coreB n b) 1 (toF (l ++ k)) * c k) *
      amp (List.replicate n f.derived.sum).length
        (fun i j => if n + i < n ∧ n + j < n then A (n + i) (n + j) else if n + j = n + (n + i) ∨ n + i = n + (n + j) then 1 else 0)
        (fun j => ∑ a ∈ Finset.range n, (if a < n ∧ n + j < n then A a (n + j)
            else if n + j = n + a ∨ a = n + (n + j) then 1 else 0) * z a + (if n + j < n then b (n + j) else 0)) 1 (toF l)) =
      nsum (List.replicate n f.derived.sum) fun l => nsum f.derived fun k =>
        amp (n + m) (coreA n A) (coreB n b) 1 (toF (l ++ k)) * c k * mono n z (toF l) := by
    apply nsum_congr
    intro l hl
    rw [e3 l hl, ← nsum_mul_right]
  rw [e6]
  have swap : ∀ (s t : List ℕ) (G : List ℕ → List ℕ → ℂ),
      (nsum s fun l => nsum t fun k => G l k) = nsum t fun k => nsum s fun l => G l k := by
    intro s t G
    simp only [nsum, ← List.sum_toFinset _ (nodup_ndindex _)]
    exact Finset.sum_comm
  rw [swap]
  apply nsum_congr
  intro k hk
  rw [e4 k hk, ← nsum_mul_left]
  apply nsum_congr
  intro l _
  ring

/-- **C46** `decompose_ansatz` never changes the function: same batch, same variables, same value at every batch index and point
(for ansätze whose blocks coupling the continuous and the derived variables are transposes of each other, as for every symmetric `A`). -/
theorem C46_decompose (f : PolyExp) (hf : f.WF) (hs : CrossSym f) :
    f.decompose.WF ∧ f.decompose.outBatch = f.outBatch ∧ f.decompose.numCV = f.numCV ∧
    ∀ β z, f.decompose.call β z = f.call β z := by
  by_cases hm : f.derived.length < f.numCV
  · have : f.decompose = f := by unfold decompose; rw [if_pos hm]
    rw [this]; exact ⟨hf, rfl, rfl, fun _ _ => rfl⟩
  · have hl : f.decompose.linSup = f.linSup := by unfold decompose; rw [if_neg hm]
    have hb : f.decompose.batch = f.batch := by unfold decompose; rw [if_neg hm]
    refine ⟨⟨?_, ?_⟩, ?_, ?_, fun β z => ?_⟩
    · unfold decompose; rw [if_neg hm]; simp
    · rw [hl, hb]; exact hf.ls
    · unfold outBatch; rw [hl, hb]
    · unfold decompose; rw [if_neg hm]; simp only [numCV, List.length_replicate]; omega
    · rw [call_eq_nsum, call_eq_nsum]
      have : f.decompose.lsBatch = f.lsBatch := by unfold lsBatch; rw [hl, hb]
      rw [this]
      exact nsum_congr fun τ _ => decompose_term hs hm _ _

/-- **C46** (size).  When it decomposes, the result has as many derived variables as continuous ones, and each of them is as long as
the sum of the original ones. -/
theorem C46_size (f : PolyExp) (hm : f.numCV ≤ f.derived.length) :
    f.decompose.derived = List.replicate f.numCV f.derived.sum := by
  unfold decompose; rw [if_neg (by omega)]

/-- The hypotheses are met by ansätze with genuine coupling: one continuous and two derived variables. -/
example : ∃ f : PolyExp, f.WF ∧ CrossSym f ∧ f.numCV = 1 ∧ f.derived = [2, 3] ∧ f.A [] 0 1 = 5 ∧
    f.decompose.derived = [5] := by
  refine ⟨⟨[], false, 3, fun _ i j => if i = j then 1 else 5, fun _ _ => 1, [2, 3], fun _ _ => 1⟩,
    ⟨by simp, by simp⟩, ?_, rfl, rfl, by simp, ?_⟩
  · intro β i hi j hj
    simp [numCV] at hi hj ⊢
    subst hi
    rw [if_neg (by omega), if_neg (by omega)]
  · rw [C46_size _ (by simp [numCV])]; rfl

end Verif.PolyExp
