import Verif.ArrayAnsatz

/-!
# Algebra of `ArrayAnsatz`: `+`, `&`, `==`, `trace` (C49)
-/

namespace Verif.Arr

open Verif.Fock Verif.PolyExp

theorem ravel_unravel : ∀ (s : List ℕ) (f : ℕ), f < s.prod → InB s (unravel s f) ∧ ravel s (unravel s f) = f
  | [], f, h => by simp at h; subst h; exact ⟨List.Forall₂.nil, rfl⟩
  | n :: s, f, h => by
    rw [List.prod_cons] at h
    have hp : 0 < s.prod := Nat.pos_of_ne_zero fun h0 => by simp [h0] at h
    obtain ⟨h1, h2⟩ := ravel_unravel s (f % s.prod) (Nat.mod_lt _ hp)
    refine ⟨List.Forall₂.cons (Nat.div_lt_of_lt_mul (by rwa [mul_comm] at h)) h1, ?_⟩
    simp only [unravel, ravel, h2]
    exact Nat.div_add_mod' f s.prod

theorem unravel_append {s t : List ℕ} {i j : ℕ} (hi : i < s.prod) (hj : j < t.prod) :
    unravel (s ++ t) (i * t.prod + j) = unravel s i ++ unravel t j := by
  obtain ⟨a1, a2⟩ := ravel_unravel s i hi
  obtain ⟨b1, b2⟩ := ravel_unravel t j hj
  have := (unravel_ravel (InB.append a1 b1)).2
  rw [ravel_append _ _ (inB_length a1).symm, a2, b2] at this
  exact this

namespace Arr

theorem entry_mk (d : ℕ) (s : List ℕ) (g : List ℕ → ℂ) (k : List ℕ) : (Arr.mk d s g).entry k = if InB s k then g k else 0 := by
  unfold entry; simp only [inb_iff]

theorem sum_map_range (n : ℕ) (f : ℕ → ℂ) : ((List.range n).map f).sum = ∑ i ∈ Finset.range n, f i := by
  induction n with
  | zero => simp
  | succ n ih => rw [List.range_succ, Finset.sum_range_succ, ← ih]; simp

theorem map_getD_idxOf {l κ : List ℕ} (hn : l.Nodup) (h : κ.length = l.length) : l.map (fun i => κ.getD (l.idxOf i) 0) = κ := by
  apply List.ext_getElem (by simp [h])
  intro i h1 h2
  simp only [List.length_map] at h1
  rw [List.getElem_map, hn.idxOf_getElem i h1, List.getD_eq_getElem?_getD, List.getElem?_eq_getElem h2]
  rfl

/-! ## Addition -/

theorem le_facts {x y : List ℕ} (h : List.Forall₂ (· ≤ ·) x y) : x.length = y.length ∧ ∀ i < x.length, ¬ y.getD i 0 < x.getD i 0 := by
  rw [List.forall₂_iff_get] at h
  refine ⟨h.1, fun i hi => ?_⟩
  have := h.2 i hi (h.1 ▸ hi)
  simpa [List.getD_eq_getElem?_getD, hi, h.1 ▸ hi] using this

theorem prod_le {x y : List ℕ} (h : List.Forall₂ (· ≤ ·) x y) : x.prod ≤ y.prod := by
  induction h with
  | nil => exact le_rfl
  | cons h _ ih => simpa using Nat.mul_le_mul h ih

theorem prod_pos_of_inB {s k : List ℕ} (h : InB s k) : 0 < s.prod := lt_of_le_of_lt (Nat.zero_le _) (unravel_ravel h).1

theorem prod_lt {x y : List ℕ} (h : List.Forall₂ (· ≤ ·) x y) (hne : x ≠ y) (hp : 0 < x.prod) : x.prod < y.prod := by
  induction h with
  | nil => exact absurd rfl hne
  | @cons a b s t hab hst ih =>
    rw [List.prod_cons] at hp ⊢
    rw [List.prod_cons]
    have ha : 0 < a := Nat.pos_of_mul_pos_right hp
    have hs : 0 < s.prod := Nat.pos_of_mul_pos_left hp
    have hle := prod_le hst
    rcases Nat.lt_or_ge a b with h | h
    · calc a * s.prod < b * s.prod := Nat.mul_lt_mul_of_pos_right h hs
        _ ≤ b * t.prod := Nat.mul_le_mul_left _ hle
    · obtain rfl : a = b := le_antisymm hab h
      have : s ≠ t := fun h => hne (by rw [h])
      exact Nat.mul_lt_mul_of_pos_left (ih this hs) ha

theorem inB_mono {B x y k : List ℕ} (h : List.Forall₂ (· ≤ ·) x y) (hk : InB (B ++ x) k) : InB (B ++ y) k := by
  rw [inB_append_iff] at hk ⊢
  refine ⟨hk.1, ?_⟩
  rw [inB_iff_getD]
  have := inB_iff_getD.1 hk.2
  refine ⟨by rw [this.1, (le_facts h).1], fun i hi => ?_⟩
  have := this.2 i ((le_facts h).1 ▸ hi)
  have := (le_facts h).2 i ((le_facts h).1 ▸ hi)
  omega

theorem reduce_entry {a r : Arr} (ha : a.WF) {s : List ℕ} (h : a.reduce s = some r) (hle : List.Forall₂ (· ≤ ·) a.core s) (k : List ℕ) :
    r.entry k = a.entry k ∧ (InB (a.batch ++ s) k → r.get k = a.entry k) := by
  obtain ⟨_, r2, r3, r4⟩ := C29_reduce a r ha s h
  have key : InB (a.batch ++ s) k → r.get k = a.entry k := by
    intro hk
    rw [r4 k hk]
    unfold entry
    rw [a.shape_eq]
    simp only [inb_iff]
  refine ⟨?_, key⟩
  by_cases hk : InB (a.batch ++ s) k
  · rw [entry_of_inB (by rw [r.shape_eq, r2, r3]; exact hk), key hk]
  · rw [entry_of_not (by rw [r.shape_eq, r2, r3]; exact hk), entry_of_not]
    rw [a.shape_eq]
    exact fun h' => hk (inB_mono hle h')

/-- **C49** the sum of two arrays whose cutoffs are comparable (one array is at least as large as the other on every axis) is defined, has the
larger cutoffs, and each of its entries is the sum of the entries, an entry missing in the smaller array counting as zero. -/
theorem C49_add (a b : Arr) (ha : a.WF) (hb : b.WF) (hd : a.batchDims = b.batchDims) (hB : a.batch = b.batch)
    (hpos : 0 < a.core.prod) (hpos' : 0 < b.core.prod)
    (hle : List.Forall₂ (· ≤ ·) a.core b.core ∨ List.Forall₂ (· ≤ ·) b.core a.core) :
    ∃ r, a.add b = some r ∧ r.batchDims = a.batchDims ∧ r.batch = a.batch ∧ r.core = List.zipWith max a.core b.core ∧
      ∀ k, r.entry k = a.entry k + b.entry k := by
  have mx : ∀ {x y : List ℕ}, List.Forall₂ (· ≤ ·) x y → List.zipWith max x y = y := by
    intro x y h
    induction h with
    | nil => rfl
    | cons h _ ih => simp only [List.zipWith_cons_cons, ih, max_eq_right h]
  have mx' : ∀ {x y : List ℕ}, List.Forall₂ (· ≤ ·) x y → List.zipWith max y x = y := by
    intro x y h
    induction h with
    | nil => rfl
    | cons h _ ih => simp only [List.zipWith_cons_cons, ih, max_eq_left h]
  have ok : ∀ {c : Arr} {s : List ℕ}, List.Forall₂ (· ≤ ·) c.core s → ∃ r, c.reduce s = some r := by
    intro c s h
    apply Option.ne_none_iff_exists'.1
    rw [Ne, C29_error]
    rintro (h' | ⟨_, ⟨i, hi, h'⟩⟩)
    · exact h' (le_facts h).1.symm
    · exact (le_facts h).2 i ((le_facts h).1 ▸ hi) h'
  unfold add
  rw [if_neg (by simpa using hd), if_neg (by simpa using hB)]
  by_cases hc : a.core = b.core
  · rw [if_neg (by simpa using hc)]
    refine ⟨_, rfl, rfl, rfl, ?_, ?_⟩
    · have : List.Forall₂ (· ≤ ·) a.core b.core := by rw [hc]; exact List.forall₂_same.2 (fun _ _ => le_rfl)
      rw [mx this]; exact hc
    · intro k
      have hsh : a.shape = b.shape := by rw [a.shape_eq, b.shape_eq, hc, hB]
      unfold entry
      rw [← hsh]
      split_ifs <;> simp
  · rw [if_pos hc]
    by_cases hgt : a.core.prod > b.core.prod
    · rw [if_pos hgt]
      have hle' : List.Forall₂ (· ≤ ·) b.core a.core := hle.resolve_left fun h => by have := prod_le h; omega
      obtain ⟨b', hb'⟩ := ok hle'
      rw [hb']
      refine ⟨_, rfl, rfl, rfl, (mx' hle').symm, fun k => ?_⟩
      by_cases hk : InB a.shape k
      · rw [entry_mk, if_pos hk, entry_of_inB hk, (reduce_entry hb hb' hle' k).2 (by rw [← hB, ← a.shape_eq]; exact hk)]
      · rw [entry_mk, if_neg hk, entry_of_not hk, entry_of_not, add_zero]
        intro h'
        rw [b.shape_eq, ← hB] at h'
        exact hk (by rw [a.shape_eq]; exact inB_mono hle' h')
    · rw [if_neg hgt]
      have hle' : List.Forall₂ (· ≤ ·) a.core b.core := by
        refine hle.resolve_right fun h => ?_
        have := prod_lt h (fun h => hc h.symm) hpos'
        omega
      obtain ⟨a', ha'⟩ := ok hle'
      rw [ha']
      refine ⟨_, rfl, hd.symm, hB.symm, (mx hle').symm, fun k => ?_⟩
      by_cases hk : InB b.shape k
      · rw [entry_mk, if_pos hk, entry_of_inB hk, (reduce_entry ha ha' hle' k).2 (by rw [hB, ← b.shape_eq]; exact hk)]
      · rw [entry_mk, if_neg hk, entry_of_not hk, entry_of_not, add_zero]
        intro h'
        rw [a.shape_eq, hB] at h'
        exact hk (by rw [b.shape_eq]; exact inB_mono hle' h')

/-- **C49** arrays whose cutoffs are not comparable cannot be added. -/
theorem C49_add_error (a b : Arr) (hl : a.core.length = b.core.length) (h1 : ∃ i < a.core.length, a.core.getD i 0 < b.core.getD i 0)
    (h2 : ∃ i < a.core.length, b.core.getD i 0 < a.core.getD i 0) : a.add b = none := by
  have hne : a.core ≠ b.core := by
    intro h; obtain ⟨i, _, hi⟩ := h1; rw [h] at hi; omega
  have e1 : a.reduce b.core = none := (C29_error a _).2 (Or.inr ⟨hl ▸ h1, hl ▸ h2⟩)
  have e2 : b.reduce a.core = none := (C29_error b _).2 (Or.inr ⟨h2, h1⟩)
  unfold add
  rw [if_pos hne, e1, e2]
  simp

/-! ## Outer product -/

/-- **C49** the outer product multiplies the entries, batch element by batch element. -/
theorem C49_and (a b : Arr) (ha : a.WF) (hb : b.WF) (hB : a.batch = b.batch) :
    ∃ r, a.and b = some r ∧ r.batchDims = a.batchDims ∧ r.batch = a.batch ∧ r.core = a.core ++ b.core ∧
      ∀ β k l, InB a.batch β → InB a.core k → InB b.core l → r.get (β ++ k ++ l) = a.get (β ++ k) * b.get (β ++ l) := by
  unfold and
  rw [if_neg (by simpa using hB)]
  have hbl := batch_length ha
  refine ⟨_, rfl, rfl, ?_, ?_, ?_⟩
  · simp only [batch] at hbl ⊢
    rw [List.append_assoc, List.take_left' hbl]
  · simp only [core, List.append_assoc]
    rw [List.drop_left' hbl]
  · intro β k l hβ hk hl
    dsimp only
    have pk := prod_pos_of_inB hk
    have pl := prod_pos_of_inB hl
    obtain ⟨bk, uk⟩ := unravel_ravel hk
    obtain ⟨bl, ul⟩ := unravel_ravel hl
    obtain ⟨bβ, uβ⟩ := unravel_ravel hβ
    have e : ravel (a.batch ++ a.core ++ b.core) (β ++ k ++ l) =
        ravel a.batch β * (a.core.prod * b.core.prod) + (ravel a.core k * b.core.prod + ravel b.core l) := by
      rw [ravel_append _ _ (by simp [inB_length hβ, inB_length hk]), ravel_append _ _ (inB_length hβ).symm]; ring
    set x := ravel a.batch β
    set y := ravel a.core k
    set z := ravel b.core l
    have hyz : y * b.core.prod + z < a.core.prod * b.core.prod := by
      calc y * b.core.prod + z < y * b.core.prod + b.core.prod := by omega
        _ = (y + 1) * b.core.prod := by ring
        _ ≤ _ := Nat.mul_le_mul_right _ bk
    have e1 : (x * (a.core.prod * b.core.prod) + (y * b.core.prod + z)) / (a.core.prod * b.core.prod) = x := by
      rw [mul_comm x, Nat.mul_add_div (by positivity), Nat.div_eq_of_lt hyz, add_zero]
    have e2 : (x * (a.core.prod * b.core.prod) + (y * b.core.prod + z)) % (a.core.prod * b.core.prod) / b.core.prod = y := by
      rw [mul_comm x, Nat.mul_add_mod, Nat.mod_eq_of_lt hyz, mul_comm y, Nat.mul_add_div pl, Nat.div_eq_of_lt bl, add_zero]
    have e3 : (x * (a.core.prod * b.core.prod) + (y * b.core.prod + z)) % b.core.prod = z := by
      rw [show x * (a.core.prod * b.core.prod) + (y * b.core.prod + z) = b.core.prod * (x * a.core.prod + y) + z by ring, Nat.mul_add_mod,
        Nat.mod_eq_of_lt bl]
    rw [e, e1, e2, e3]
    congr 1
    · rw [a.shape_eq, unravel_append bβ bk, uβ, uk]
    · rw [b.shape_eq, ← hB, unravel_append bβ bl, uβ, ul]

/-- **C49** arrays with different batch shapes have no outer product. -/
theorem C49_and_error (a b : Arr) (h : a.batch ≠ b.batch) : a.and b = none := if_pos h

/-! ## Equality -/

theorem zipWith_min_comm (x y : List ℕ) : List.zipWith min x y = List.zipWith min y x := List.zipWith_comm_of_comm min_comm

/-- **C49** `==` is reflexive and symmetric, and for arrays of the same shape it is equality of all entries. -/
theorem C49_eq (a b : Arr) : a.Eq a ∧ (a.Eq b ↔ b.Eq a) ∧
    (a.shape = b.shape → a.batchDims = b.batchDims → (a.Eq b ↔ ∀ k, InB a.shape k → a.get k = b.get k)) := by
  refine ⟨⟨rfl, fun _ _ => rfl⟩, ?_, ?_⟩
  · constructor <;> rintro ⟨h1, h2⟩ <;> refine ⟨h1.symm, fun k hk => (h2 k ?_).symm⟩ <;> rw [h1, zipWith_min_comm] <;> exact hk
  · intro hs hd
    have hb : a.batch = b.batch := by unfold batch; rw [hs, hd]
    have hc : a.core = b.core := by unfold core; rw [hs, hd]
    have : List.zipWith min b.core b.core = b.core := by
      induction b.core with
      | nil => rfl
      | cons x s ih => simp [ih]
    constructor
    · intro h k hk
      refine h.2 k ?_
      rw [hc, this, ← hc, ← a.shape_eq]; exact hk
    · intro h
      refine ⟨hb, fun k hk => h k ?_⟩
      rw [hc, this, ← hc, ← a.shape_eq] at hk; exact hk

/-- **C49** (disagreement) `==` compares only the part present in both arrays, so it is not transitive: `[1, 2] == [1] == [1, 3]`, but
`[1, 2] != [1, 3]`. -/
theorem C49_eq_not_transitive : ∃ a b c : Arr, a.WF ∧ b.WF ∧ c.WF ∧ a.Eq b ∧ b.Eq c ∧ ¬ a.Eq c := by
  refine ⟨⟨0, [2], fun k => if k = [0] then 1 else 2⟩, ⟨0, [1], fun _ => 1⟩, ⟨0, [2], fun k => if k = [0] then 1 else 3⟩, Nat.zero_le _,
    Nat.zero_le _, Nat.zero_le _, ⟨rfl, ?_⟩, ⟨rfl, ?_⟩, ?_⟩
  · intro k hk
    have : k = [0] := by
      have := inB_iff_getD.1 hk
      simp [batch, core] at this
      obtain ⟨h1, h2⟩ := this
      match k, h1 with
      | [x], _ => simp at h2; simp [h2]
    simp [this]
  · intro k hk
    have : k = [0] := by
      have := inB_iff_getD.1 hk
      simp [batch, core] at this
      obtain ⟨h1, h2⟩ := this
      match k, h1 with
      | [x], _ => simp at h2; simp [h2]
    simp [this]
  · intro h
    have := h.2 [1] (by simp [batch, core, InB])
    norm_num at this

/-! ## Trace -/

/-- The axes that are kept. -/
def rest (a : Arr) (z zc : List ℕ) : List ℕ := (List.range a.core.length).filter (· ∉ z ++ zc)

/-- Specification: the core index with `m` on the axes `z` and on the axes `zc`, and `κ` on the others. -/
def place (a : Arr) (z zc m κ : List ℕ) : List ℕ :=
  (List.range a.core.length).map fun i =>
    if i ∈ z then m.getD (z.idxOf i) 0 else if i ∈ zc then m.getD (zc.idxOf i) 0 else κ.getD ((a.rest z zc).idxOf i) 0

/-- **C49** tracing pairs of axes: the result keeps the other axes, in order, and each entry is the sum of the entries with equal index on
both axes of each pair, up to the smaller of the two cutoffs. -/
theorem C49_trace (a : Arr) (ha : a.WF) (z zc : List ℕ) (hl : z.length = zc.length) (hne : z ≠ []) (hn : (z ++ zc).Nodup)
    (hlt : ∀ i ∈ z ++ zc, i < a.core.length) :
    ∃ r, a.trace z zc = some r ∧ r.batchDims = a.batchDims ∧ r.batch = a.batch ∧ r.core = (a.rest z zc).map (a.core.getD · 0) ∧
      ∀ β κ, β.length = a.batchDims → κ.length = (a.rest z zc).length →
        r.get (β ++ κ) = nsum (List.zipWith (fun i j => min (a.core.getD i 0) (a.core.getD j 0)) z zc)
          (fun m => a.get (β ++ a.place z zc m κ)) := by
  have hd : ∀ i ∈ z, i ∉ zc := fun i hi hi' => (List.nodup_append.1 hn).2.2 i hi i hi' rfl
  have hzn : z.Nodup := (List.nodup_append.1 hn).1
  have hzcn : zc.Nodup := (List.nodup_append.1 hn).2.1
  set R := a.rest z zc with hR
  have hRn : R.Nodup := (List.nodup_range).filter _
  have hRm : ∀ i, i ∈ R ↔ i < a.core.length ∧ i ∉ z ∧ i ∉ zc := by
    intro i; simp [hR, rest, List.mem_filter]
  set o := R ++ z ++ zc with ho
  have hop : o.Perm (List.range a.core.length) := by
    rw [List.perm_ext_iff_of_nodup _ List.nodup_range]
    · intro i
      simp only [ho, List.mem_append, hRm, List.mem_range]
      constructor
      · rintro ((h | h) | h)
        · exact h.1
        · exact hlt i (List.mem_append_left _ h)
        · exact hlt i (List.mem_append_right _ h)
      · intro h; by_cases h1 : i ∈ z <;> by_cases h2 : i ∈ zc <;> simp [h, h1, h2]
    · rw [ho, List.append_assoc, List.nodup_append]
      refine ⟨hRn, hn, ?_⟩
      rintro i hi j hj rfl
      have := (hRm i).1 hi
      rcases List.mem_append.1 hj with h | h
      · exact this.2.1 h
      · exact this.2.2 h
  have hord : List.range a.batchDims ++ R.map (a.batchDims + ·) ++ z.map (a.batchDims + ·) ++ zc.map (a.batchDims + ·) =
      List.range a.batchDims ++ o.map (· + a.batchDims) := by
    simp only [ho, List.map_append, List.append_assoc]
    simp only [add_comm]
  obtain ⟨hnone, hsome⟩ := C30_array_eval a ha o
  obtain ⟨t, ht⟩ : ∃ t, a.reorder o = some t := by
    apply Option.ne_none_iff_exists'.1
    rw [Ne, hnone]; exact fun h => h hop
  obtain ⟨t1, t2, t3, t4⟩ := hsome t ht
  have ht' : a.transpose (List.range a.batchDims ++ R.map (a.batchDims + ·) ++ z.map (a.batchDims + ·) ++ zc.map (a.batchDims + ·)) = some t := by
    rw [hord]; exact ht
  have hbl := batch_length ha
  have tsh : t.shape = (a.batch ++ R.map (a.core.getD · 0)) ++ (z.map (a.core.getD · 0) ++ zc.map (a.core.getD · 0)) := by
    rw [t.shape_eq, t2, t3, ho]; simp
  have hkeep : t.shape.length - 2 * z.length = (a.batch ++ R.map (a.core.getD · 0)).length := by
    rw [tsh]
    simp only [List.length_append, List.length_map]
    omega
  unfold trace
  rw [if_neg (by push Not; exact ⟨hl, hd⟩)]
  simp only [show (List.range a.core.length).filter (fun x => decide (x ∉ z ++ zc)) = R from rfl]
  rw [ht']
  simp only [Option.bind_eq_bind, Option.bind_some, if_neg hne, hkeep]
  have d1 : (t.shape.drop (a.batch ++ R.map (a.core.getD · 0)).length).take z.length = z.map (a.core.getD · 0) := by
    rw [tsh, List.drop_left, List.take_left' (by simp)]
  have d2 : (t.shape.drop (a.batch ++ R.map (a.core.getD · 0)).length).drop z.length = zc.map (a.core.getD · 0) := by
    rw [tsh, List.drop_left, List.drop_left' (by simp)]
  have d3 : t.shape.take (a.batch ++ R.map (a.core.getD · 0)).length = a.batch ++ R.map (a.core.getD · 0) := by
    rw [tsh, List.take_left]
  rw [d1, d2, d3]
  have dd : List.zipWith min (z.map (a.core.getD · 0)) (zc.map (a.core.getD · 0)) =
      List.zipWith (fun i j => min (a.core.getD i 0) (a.core.getD j 0)) z zc := by
    rw [List.zipWith_map]
  rw [dd]
  set dims := List.zipWith (fun i j => min (a.core.getD i 0) (a.core.getD j 0)) z zc with hdims
  refine ⟨_, rfl, rfl, ?_, ?_, ?_⟩
  · unfold batch at hbl ⊢; simp only [List.take_left' hbl]
  · unfold core; simp only [List.drop_left' hbl]
  · intro β κ hβ hκ
    dsimp only
    unfold nsum
    rw [ndindex_eq, List.map_map, sum_map_range]
    apply Finset.sum_congr rfl
    intro i hi
    have hi := Finset.mem_range.1 hi
    rw [unravel_append hi hi, Function.comp]
    set u := unravel dims i
    have hu : u.length = z.length := by
      rw [length_unravel, hdims, List.length_zipWith, ← hl, min_self]
    rw [← t4 β _ hβ (by simp [place]), List.append_assoc]
    congr 2
    have hp : ∀ i < a.core.length, (a.place z zc u κ).getD i 0 =
        if i ∈ z then u.getD (z.idxOf i) 0 else if i ∈ zc then u.getD (zc.idxOf i) 0 else κ.getD (R.idxOf i) 0 := by
      intro i hi
      simp only [place, List.getD_eq_getElem?_getD, List.getElem?_map, List.getElem?_range hi]
      rfl
    rw [ho, List.map_append, List.map_append, List.append_assoc]
    congr 1
    · rw [← map_getD_idxOf hRn hκ]
      apply List.map_congr_left
      intro j hj
      have := (hRm j).1 hj
      rw [map_getD_idxOf hRn hκ, hp j this.1, if_neg this.2.1, if_neg this.2.2]
    congr 1
    · rw [← map_getD_idxOf hzn hu]
      apply List.map_congr_left
      intro j hj
      rw [map_getD_idxOf hzn hu, hp j (hlt j (List.mem_append_left _ hj)), if_pos hj]
    · rw [← map_getD_idxOf hzcn (hu.trans hl)]
      apply List.map_congr_left
      intro j hj
      rw [map_getD_idxOf hzcn (hu.trans hl), hp j (hlt j (List.mem_append_right _ hj)), if_neg (fun h => hd j h hj), if_pos hj]

/-- **C49** (disagreement) tracing over no axes at all is an error instead of the identity, for every array with more than one entry. -/
theorem C49_trace_empty (a : Arr) (ha : a.WF) (hp : 1 < a.shape.prod) : a.trace [] [] = none := by
  unfold trace
  rw [if_neg (by simp)]
  have hr : (List.range a.core.length).filter (fun x => decide (x ∉ ([] : List ℕ))) = List.range a.core.length := by simp
  simp only [List.map_nil, List.append_nil, hr]
  have hp' : (List.range a.batchDims ++ (List.range a.core.length).map (a.batchDims + ·)) = List.range a.shape.length := by
    rw [← core_length ha, List.range_add]
  have : a.transpose (List.range a.shape.length) = some
      { a with shape := (List.range a.shape.length).map (a.shape.getD · 0),
               get := fun k => a.get ((List.range a.shape.length).map fun j => k.getD ((List.range a.shape.length).idxOf j) 0) } :=
    if_pos (List.Perm.refl _)
  rw [hp', this]
  simp only [Option.bind_eq_bind, Option.bind_some, if_true]
  rw [range_map_getD _ rfl, if_neg (by omega)]

/-! ## Scalars and conjugation -/

/-- **C49**: multiplication and division by a number, negation and conjugation act on every entry and keep batch and core shape. -/
theorem C49_entrywise (a : Arr) (x : ℂ) (k : List ℕ) :
    (a.mul x).entry k = a.entry k * x ∧ (a.neg).entry k = -a.entry k ∧ (a.div x).entry k = a.entry k / x ∧
    (a.conj).entry k = (starRingEnd ℂ) (a.entry k) ∧
    (∀ r ∈ [a.mul x, a.neg, a.div x, a.conj], r.batch = a.batch ∧ r.core = a.core ∧ r.batchDims = a.batchDims) := by
  refine ⟨?_, ?_, ?_, ?_, ?_⟩
  · unfold entry mul; dsimp only; split_ifs <;> simp
  · unfold entry neg; dsimp only; split_ifs <;> simp
  · unfold entry div; dsimp only; split_ifs <;> simp
  · unfold entry conj; dsimp only; split_ifs <;> simp
  · intro r hr
    simp only [List.mem_cons, List.not_mem_nil, or_false] at hr
    rcases hr with rfl | rfl | rfl | rfl <;> exact ⟨rfl, rfl, rfl⟩

/-- **C49**: conjugation is an involution, is compatible with the outer product, and the product of an array with its conjugate has the squared
moduli of the entries as its diagonal. -/
theorem C49_conj (a b : Arr) (ha : a.WF) (hb : b.WF) (hB : a.batch = b.batch) :
    Same a.conj.conj a ∧
    (∃ r r', a.and b = some r ∧ a.conj.and b.conj = some r' ∧ r'.shape = r.shape ∧ r'.batchDims = r.batchDims ∧
      ∀ β k l, InB a.batch β → InB a.core k → InB b.core l → r'.get (β ++ k ++ l) = (starRingEnd ℂ) (r.get (β ++ k ++ l))) ∧
    ∃ r, a.and a.conj = some r ∧ ∀ β k, InB a.batch β → InB a.core k → r.get (β ++ k ++ k) = ((‖a.get (β ++ k)‖ ^ 2 : ℝ) : ℂ) := by
  refine ⟨⟨rfl, rfl, fun k _ => Complex.conj_conj _⟩, ?_, ?_⟩
  · obtain ⟨r, h1, d1, e1, f1, g1⟩ := C49_and a b ha hb hB
    obtain ⟨r', h2, d2, e2, f2, g2⟩ := C49_and a.conj b.conj ha hb hB
    refine ⟨r, r', h1, h2, ?_, by rw [d1, d2]; rfl, fun β k l hβ hk hl => ?_⟩
    · have s : ∀ x : Arr, x.shape = x.batch ++ x.core := fun x => (List.take_append_drop _ _).symm
      rw [s, s, e1, e2, f1, f2]; rfl
    · rw [g1 β k l hβ hk hl, g2 β k l hβ hk hl, map_mul]; rfl
  · obtain ⟨r, h1, _, _, _, g1⟩ := C49_and a a.conj ha ha rfl
    refine ⟨r, h1, fun β k hβ hk => ?_⟩
    rw [g1 β k k hβ hk hk]
    show a.get (β ++ k) * (starRingEnd ℂ) (a.get (β ++ k)) = _
    rw [Complex.mul_conj, Complex.normSq_eq_norm_sq]

/-! ## A concrete case -/

/-- Two batch elements of a `3 × 2` array with entries `100 β + 10 i + j`. -/
noncomputable def exA : Arr := ⟨1, [2, 3, 2], fun k => 100 * (k.getD 0 0 : ℂ) + 10 * (k.getD 1 0 : ℂ) + (k.getD 2 0 : ℂ)⟩

theorem exA_wf : exA.WF := by simp [exA, WF]

/-- Hypotheses of the theorems above are met by `exA`: it can be cut, cut again, reordered, traced and added to its cut version. -/
theorem exA_ok : (∃ r, exA.reduce [2, 2] = some r) ∧ exA.reduce [4, 1] = none ∧ (∃ r, exA.reorder [1, 0] = some r) ∧
    List.Forall₂ (· ≤ ·) [1, 2] [2, 2] ∧ List.Forall₂ (· ≤ ·) [2, 2] exA.core ∧
    ∃ r, exA.trace [0] [1] = some r ∧ r.get [1] = 211 := by
  refine ⟨?_, ?_, ?_, by simp, by simp [exA, core], ?_⟩
  · apply Option.ne_none_iff_exists'.1
    rw [Ne, C29_error]
    rintro (h | ⟨⟨i, hi, h⟩, _⟩)
    · simp [exA, core] at h
    · match i, hi with
      | 0, _ => simp [exA, core] at h
      | 1, _ => simp [exA, core] at h
  · rw [C29_error]
    exact Or.inr ⟨⟨0, by simp, by simp [exA, core]⟩, ⟨1, by simp, by simp [exA, core]⟩⟩
  · apply Option.ne_none_iff_exists'.1
    rw [Ne, (C30_array_eval exA exA_wf _).1]
    have : exA.core.length = 2 := by simp [exA, core]
    rw [this]
    decide
  · obtain ⟨r, hr, _, _, _, h⟩ := C49_trace exA exA_wf [0] [1] rfl (by simp) (by simp) (by simp [exA, core])
    refine ⟨r, hr, ?_⟩
    have := h [1] [] (by simp [exA]) (by simp [exA, core, rest]; decide)
    rw [show [1] ++ [] = [1] from rfl] at this
    rw [this, show List.zipWith (fun i j => min (exA.core.getD i 0) (exA.core.getD j 0)) [0] [1] = [2] by simp [exA, core], nsum_cons]
    simp only [nsum_nil]
    rw [Finset.sum_range_succ, Finset.sum_range_one]
    have e : exA.core.length = 2 := by simp [exA, core]
    have p0 : exA.place [0] [1] [0] [] = [0, 0] := by simp only [place, e]; decide
    have p1 : exA.place [0] [1] [1] [] = [1, 1] := by simp only [place, e]; decide
    rw [p0, p1]
    simp [exA]
    norm_num

end Arr

end Verif.Arr
