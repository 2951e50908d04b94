import Verif.PolyExpProps

/-!
# Partial evaluation and reordering of `PolyExpAnsatz` (C28, C30)
-/

namespace Verif.PolyExp
open Verif.Fock Verif.Batch PolyExp

theorem sum_getD (p : List ℕ) (F : ℕ → ℂ) : ∑ i ∈ Finset.range p.length, F (p.getD i 0) = (p.map F).sum := by
  induction p with
  | nil => simp
  | cons a p ih => rw [List.length_cons, Finset.sum_range_succ', List.map_cons, List.sum_cons, ← ih]; simp [add_comm]

theorem sum_perm {p : List ℕ} {n : ℕ} (hp : p.Perm (List.range n)) (F : ℕ → ℂ) :
    (p.map F).sum = ∑ i ∈ Finset.range n, F i := by
  rw [(hp.map F).sum_eq]
  have := sum_getD (List.range n) F
  rw [← this, List.length_range]
  apply Finset.sum_congr rfl
  intro i hi
  have hi := Finset.mem_range.1 hi
  simp [List.getD_eq_getElem?_getD, hi]

/-- A symmetric quadratic form (on the continuous variables). -/
def SymCV (f : PolyExp) : Prop := ∀ β, ∀ i < f.numCV, ∀ j < f.numCV, f.A β i j = f.A β j i

/-- Same ansatz: same shapes and same entries. -/
structure Same (f g : PolyExp) : Prop where
  batch : f.batch = g.batch
  ls : f.linSup = g.linSup
  N : f.N = g.N
  der : f.derived = g.derived
  A : ∀ β, ∀ i < f.N, ∀ j < f.N, f.A β i j = g.A β i j
  b : ∀ β, ∀ i < f.N, f.b β i = g.b β i
  c : ∀ β k, f.c β k = g.c β k

theorem Same.call {f g : PolyExp} (h : Same f g) (hf : f.WF) (β z) : f.call β z = g.call β z := by
  have hd := hf.der
  have hN : f.numCV + f.derived.length = f.N := by unfold numCV; omega
  have ht : ∀ γ, f.termAt γ z = g.termAt γ z := by
    intro γ
    unfold termAt
    have hn : f.numCV = g.numCV := by unfold numCV; rw [h.N, h.der]
    rw [← hn, ← h.der]
    apply termVal_congr
    · intro i hi j hj; exact h.A γ i (by omega) j (by omega)
    · intro i hi; exact h.b γ i (by omega)
    · intro k _; exact h.c γ k
    · intro i _; rfl
  cases hl : f.linSup with
  | true => rw [call_ls hl, call_ls (h.ls ▸ hl), h.batch]; exact Finset.sum_congr rfl fun l _ => ht _
  | false => rw [call_nls hl, call_nls (h.ls ▸ hl)]; exact ht _

/-- The permutation of all variables used by `reorder`. -/
theorem full_getD {p : List ℕ} {n m i : ℕ} (hp : p.length = n) (hi : i < n + m) :
    (p ++ List.range' n m).getD i 0 = if i < n then p.getD i 0 else i := by
  rw [List.getD_eq_getElem?_getD, List.getD_eq_getElem?_getD]
  by_cases h : i < n
  · rw [if_pos h, List.getElem?_append_left (by omega)]
  · rw [if_neg h, List.getElem?_append_right (by omega), List.getElem?_range' ]
    · simp; omega
    · omega

/-- **C30** reordering composes: reordering by `p` and then by `q` is reordering by `[p[i] for i in q]`. -/
theorem C30_compose (f g h : PolyExp) (hf : f.WF) (p q : List ℕ) (hq : ∀ i ∈ q, i < f.numCV)
    (h1 : f.reorder p = some g) (h2 : g.reorder q = some h) :
    ∃ h', f.reorder (q.map fun i => p.getD i 0) = some h' ∧ Same h h' := by
  unfold reorder at h1 h2
  split_ifs at h1 with hp
  push Not at hp
  cases h1
  split_ifs at h2 with hql
  push Not at hql
  cases h2
  simp only [numCV] at hql hp hq
  have hd := hf.der
  refine ⟨_, by unfold reorder; rw [if_neg (by simp [numCV, hql])], ?_⟩
  have key : ∀ i < f.N, (p ++ List.range' (f.N - f.derived.length) f.derived.length).getD
      ((q ++ List.range' (f.N - f.derived.length) f.derived.length).getD i 0) 0 =
      ((q.map fun i => p.getD i 0) ++ List.range' (f.N - f.derived.length) f.derived.length).getD i 0 := by
    intro i hi
    have hi' : i < (f.N - f.derived.length) + f.derived.length := by omega
    rw [full_getD hql hi', full_getD (by simpa using hql) hi']
    split_ifs with hc
    · have hiq : i < q.length := by omega
      have hmem : q.getD i 0 ∈ q := by
        rw [List.getD_eq_getElem?_getD, List.getElem?_eq_getElem hiq]; exact List.getElem_mem hiq
      have := hq _ hmem
      rw [full_getD hp (by omega), if_pos this]
      simp [List.getD_eq_getElem?_getD, List.getElem?_map, List.getElem?_eq_getElem hiq]
    · rw [full_getD hp hi', if_neg hc]
  constructor <;> try rfl
  · intro β i hi j hj
    simp only [numCV] at hi hj ⊢
    rw [key i hi, key j hj]
  · intro β i hi
    simp only [numCV] at hi ⊢
    rw [key i hi]
  · intro β k; rfl

/-- **C30** reordering by a permutation and by its inverse restores the ansatz. -/
theorem C30_inverse (f g h : PolyExp) (hf : f.WF) (p q : List ℕ)
    (hinv : ∀ i < f.numCV, q.getD i 0 < f.numCV ∧ p.getD (q.getD i 0) 0 = i)
    (h1 : f.reorder p = some g) (h2 : g.reorder q = some h) : Same h f := by
  unfold reorder at h1 h2
  split_ifs at h1 with hp
  push Not at hp
  cases h1
  split_ifs at h2 with hql
  push Not at hql
  cases h2
  simp only [numCV] at hql hp hinv
  have hd := hf.der
  have key : ∀ i < f.N, (p ++ List.range' (f.N - f.derived.length) f.derived.length).getD
      ((q ++ List.range' (f.N - f.derived.length) f.derived.length).getD i 0) 0 = i := by
    intro i hi
    have hi' : i < (f.N - f.derived.length) + f.derived.length := by omega
    rw [full_getD hql hi']
    split_ifs with hc
    · obtain ⟨a, b⟩ := hinv i hc
      rw [full_getD hp (by omega), if_pos a, b]
    · rw [full_getD hp hi', if_neg hc]
  constructor <;> try rfl
  · intro β i hi j hj
    simp only [numCV] at hi hj ⊢
    rw [key i hi, key j hj]
  · intro β i hi
    simp only [numCV] at hi ⊢
    rw [key i hi]
  · intro β k; rfl

theorem call_cat {f g : PolyExp} (zb : List ℕ) (hf : f.WF) (hb : g.batch = zb ++ f.batch) (hl : g.linSup = f.linSup)
    (ζ β : List ℕ) (y w : ℕ → ℂ) (ht : ∀ γ, g.termAt (ζ ++ γ) y = f.termAt γ w) :
    g.call (ζ ++ β) y = f.call β w := by
  cases h : f.linSup with
  | true =>
    rw [call_ls h, call_ls (hl ▸ h), hb]
    have : (zb ++ f.batch).getLastD 0 = f.batch.getLastD 0 := by
      have := hf.ls h
      rw [List.getLastD_eq_getLast?, List.getLastD_eq_getLast?, List.getLast?_append_of_ne_nil _ this]
    rw [this]
    refine Finset.sum_congr rfl fun l _ => ?_
    rw [List.append_assoc]; exact ht _
  | false => rw [call_nls h, call_nls (hl ▸ h)]; exact ht _

/-- **C30** meaning of reordering: for a permutation `p`, variable `i` of the result is variable `p[i]` of the original,
i.e. `f.reorder(p)(z) = f(w)` whenever `w[p[i]] = z[i]` for all `i`. -/
theorem C30_eval (f g : PolyExp) (hf : f.WF) (p : List ℕ) (hp : p.Perm (List.range f.numCV))
    (h1 : f.reorder p = some g) (β : List ℕ) (z w : ℕ → ℂ) (hw : ∀ i < f.numCV, w (p.getD i 0) = z i) :
    g.numCV = f.numCV ∧ g.outBatch = f.outBatch ∧ g.call β z = f.call β w := by
  have hlen : p.length = f.numCV := by simpa using hp.length_eq
  unfold reorder at h1
  rw [if_neg (by simp [hlen])] at h1
  cases h1
  refine ⟨rfl, rfl, ?_⟩
  have ht : ∀ γ, PolyExp.termAt { f with A := fun β i j => f.A β ((p ++ List.range' f.numCV f.derived.length).getD i 0) ((p ++ List.range' f.numCV f.derived.length).getD j 0), b := fun β i => f.b β ((p ++ List.range' f.numCV f.derived.length).getD i 0) } γ z = f.termAt γ w := by
    intro γ
    change termVal f.numCV f.derived _ _ _ z = _
    unfold termAt termVal
    set n := f.numCV with hn
    have fg : ∀ i < n, (p ++ List.range' n f.derived.length).getD i 0 = p.getD i 0 := by
      intro i hi; rw [full_getD hlen (by omega), if_pos hi]
    have fd : ∀ i < f.derived.length, (p ++ List.range' n f.derived.length).getD (n + i) 0 = n + i := by
      intro i hi; rw [full_getD hlen (by omega), if_neg (by omega)]
    have sum1 : ∀ F : ℕ → ℂ, ∑ i ∈ Finset.range n, F (p.getD i 0) = ∑ i ∈ Finset.range n, F i := by
      intro F
      have := sum_getD p F
      rw [hlen] at this
      rw [this, sum_perm hp]
    have e1 : ∑ i ∈ Finset.range n, ∑ j ∈ Finset.range n, z i * z j *
          f.A γ ((p ++ List.range' n f.derived.length).getD i 0) ((p ++ List.range' n f.derived.length).getD j 0) =
        ∑ i ∈ Finset.range n, ∑ j ∈ Finset.range n, w i * w j * f.A γ i j := by
      rw [← sum1 (fun i => ∑ j ∈ Finset.range n, w i * w j * f.A γ i j)]
      apply Finset.sum_congr rfl
      intro i hi
      have hi := Finset.mem_range.1 hi
      rw [← sum1 (fun j => w (p.getD i 0) * w j * f.A γ (p.getD i 0) j)]
      apply Finset.sum_congr rfl
      intro j hj
      have hj := Finset.mem_range.1 hj
      rw [fg i hi, fg j hj, hw i hi, hw j hj]
    have e2 : ∑ i ∈ Finset.range n, z i * f.b γ ((p ++ List.range' n f.derived.length).getD i 0) =
        ∑ i ∈ Finset.range n, w i * f.b γ i := by
      rw [← sum1 (fun i => w i * f.b γ i)]
      apply Finset.sum_congr rfl
      intro i hi
      have hi := Finset.mem_range.1 hi
      rw [fg i hi, hw i hi]
    dsimp only
    rw [e1, e2]
    refine congrArg (HMul.hMul _) ?_
    apply nsum_congr
    intro k _
    refine congrArg (HMul.hMul _) ?_
    apply amp_congr
    · intro i hi j hj
      rw [fd i hi, fd j hj]
    · intro j hj
      rw [fd j hj, ← sum1 (fun i => f.A γ i (n + j) * w i)]
      congr 1
      apply Finset.sum_congr rfl
      intro i hi
      have hi := Finset.mem_range.1 hi
      rw [fg i hi, hw i hi]
  refine call_cat (f := f) [] hf ?_ ?_ [] β z w ?_
  · rfl
  · rfl
  · exact ht

/-! ## C28 -/

theorem perm_split {n : ℕ} {e : List ℕ} (he : e.Nodup) (hlt : ∀ i ∈ e, i < n) :
    (e ++ (List.range n).filter (· ∉ e)).Perm (List.range n) := by
  have h1 : ((List.range n).filter (· ∈ e)).Perm e := by
    apply (List.perm_ext_iff_of_nodup (List.nodup_range.filter _) he).2
    intro a
    simp only [List.mem_filter, List.mem_range, decide_eq_true_eq]
    exact ⟨fun h => h.2, fun h => ⟨hlt a h, h⟩⟩
  have h2 := List.filter_append_perm (fun i => decide (i ∈ e)) (List.range n)
  refine List.Perm.trans ?_ h2
  have : (fun i => decide (i ∉ e)) = (fun i => !decide (i ∈ e)) := by funext i; simp
  rw [this]
  exact (h1.symm).append_right _

/-- **C28** partial evaluation.  Fixing the distinct variables `e` to the values `z` (a batch of points, indexed by `ζ`) gives an
ansatz in the remaining variables, in their original order, whose value at `y` is the value of the original ansatz at
the combined point `w`.  The result is again symmetric and well-formed, so the statement can be iterated. -/
theorem C28_partial_eval (f g : PolyExp) (hf : f.WF) (hs : SymCV f) (zb : List ℕ) (z : List ℕ → ℕ → ℂ) (e : List ℕ)
    (he : e.Nodup) (hlt : ∀ i ∈ e, i < f.numCV) (hg : f.partialEval zb z e = some g) :
    g.outBatch = zb ++ f.outBatch ∧ g.numCV + e.length = f.numCV ∧ g.WF ∧ SymCV g ∧
    ∀ (ζ β : List ℕ) (y w : ℕ → ℂ), ζ.length = zb.length → (∀ x < e.length, w (e.getD x 0) = z ζ x) →
      (∀ x < g.numCV, w (((List.range f.numCV).filter (· ∉ e)).getD x 0) = y x) →
      g.call (ζ ++ β) y = f.call β w := by
  unfold partialEval at hg
  split_ifs at hg with hlen
  set n := f.numCV with hn
  set r := (List.range n).filter (· ∉ e) with hr
  have hd := hf.der
  have hpe := perm_split he hlt
  rw [← hr] at hpe
  have hlr : e.length + r.length = n := by simpa using hpe.length_eq
  cases hg
  have hcv : (r ++ List.range' n f.derived.length).length - f.derived.length = r.length := by simp
  have rg : ∀ i < r.length, (r ++ List.range' n f.derived.length).getD i 0 = r.getD i 0 := by
    intro i hi
    rw [List.getD_eq_getElem?_getD, List.getD_eq_getElem?_getD, List.getElem?_append_left hi]
  have rdd : ∀ i < f.derived.length, (r ++ List.range' n f.derived.length).getD (r.length + i) 0 = n + i := by
    intro i hi
    rw [List.getD_eq_getElem?_getD, List.getElem?_append_right (by omega), List.getElem?_range' (by omega)]
    simp
  have sumS : ∀ F : ℕ → ℂ, ∑ i ∈ Finset.range n, F i =
      ∑ x ∈ Finset.range e.length, F (e.getD x 0) + ∑ x ∈ Finset.range r.length, F (r.getD x 0) := by
    intro F
    rw [sum_getD, sum_getD, ← List.sum_append, ← List.map_append, sum_perm hpe]
  refine ⟨?_, ?_, ⟨?_, ?_⟩, ?_, ?_⟩
  · unfold outBatch
    cases h : f.linSup with
    | true => simp [List.dropLast_append_of_ne_nil (hf.ls h)]
    | false => simp
  · simp only [numCV]; omega
  · simp
  · intro h
    have := hf.ls h
    simp [this]
  · intro β i hi j hj
    simp only [numCV, hcv] at hi hj ⊢
    rw [rg i hi, rg j hj]
    have hmem : ∀ x < r.length, r.getD x 0 < n := by
      intro x hx
      have : r.getD x 0 ∈ r := by
        rw [List.getD_eq_getElem?_getD, List.getElem?_eq_getElem hx]; exact List.getElem_mem hx
      rw [hr, List.mem_filter, List.mem_range] at this
      exact this.1
    exact hs _ _ (hmem i hi) _ (hmem j hj)
  · intro ζ β y w hζ hz hy
    simp only [numCV, hcv] at hy
    refine call_cat (f := f) zb hf ?_ ?_ ζ β y w ?_
    · rfl
    · rfl
    intro γ
    unfold termAt termVal
    simp only [numCV, hcv]
    rw [show f.N - f.derived.length = n from rfl]
    have ht : (ζ ++ γ).take zb.length = ζ := by rw [← hζ]; exact List.take_left
    have hdr : (ζ ++ γ).drop zb.length = γ := by rw [← hζ]; exact List.drop_left
    simp only [ht, hdr]
    have hcv' : (r ++ List.range' n f.derived.length).length - f.derived.length = r.length := hcv
    simp only [hcv', mul_assoc (Complex.exp _)]
    have he' : ∀ x ∈ e, x < n := hlt
    have memr : ∀ x < r.length, r.getD x 0 < n := by
      intro x hx
      have : r.getD x 0 ∈ r := by
        rw [List.getD_eq_getElem?_getD, List.getElem?_eq_getElem hx]; exact List.getElem_mem hx
      rw [hr, List.mem_filter, List.mem_range] at this
      exact this.1
    have meme : ∀ x < e.length, e.getD x 0 < n := by
      intro x hx
      apply hlt
      rw [List.getD_eq_getElem?_getD, List.getElem?_eq_getElem hx]; exact List.getElem_mem hx
    rw [nsum_mul_left, ← mul_assoc, ← Complex.exp_add]
    refine congrArg₂ (· * ·) ?_ ?_
    · refine congrArg Complex.exp ?_
      -- normalise all the finite sums
      have q1 : ∑ i ∈ Finset.range n, ∑ j ∈ Finset.range n, w i * w j * f.A γ i j =
          ∑ x ∈ Finset.range e.length, ∑ u ∈ Finset.range e.length, z ζ x * z ζ u * f.A γ (e.getD x 0) (e.getD u 0) +
          2 * ∑ x ∈ Finset.range r.length, ∑ u ∈ Finset.range e.length, y x * (f.A γ (e.getD u 0) (r.getD x 0) * z ζ u) +
          ∑ x ∈ Finset.range r.length, ∑ u ∈ Finset.range r.length, y x * y u * f.A γ (r.getD x 0) (r.getD u 0) := by
        rw [sumS]
        simp only [sumS, Finset.sum_add_distrib]
        have a1 : ∑ x ∈ Finset.range e.length, ∑ u ∈ Finset.range e.length,
              w (e.getD x 0) * w (e.getD u 0) * f.A γ (e.getD x 0) (e.getD u 0) =
            ∑ x ∈ Finset.range e.length, ∑ u ∈ Finset.range e.length, z ζ x * z ζ u * f.A γ (e.getD x 0) (e.getD u 0) := by
          refine Finset.sum_congr rfl fun x hx => Finset.sum_congr rfl fun u hu => ?_
          rw [hz x (Finset.mem_range.1 hx), hz u (Finset.mem_range.1 hu)]
        have a2 : ∑ x ∈ Finset.range e.length, ∑ u ∈ Finset.range r.length,
              w (e.getD x 0) * w (r.getD u 0) * f.A γ (e.getD x 0) (r.getD u 0) =
            ∑ x ∈ Finset.range r.length, ∑ u ∈ Finset.range e.length, y x * (f.A γ (e.getD u 0) (r.getD x 0) * z ζ u) := by
          rw [Finset.sum_comm]
          refine Finset.sum_congr rfl fun x hx => Finset.sum_congr rfl fun u hu => ?_
          rw [hy x (Finset.mem_range.1 hx), hz u (Finset.mem_range.1 hu)]; ring
        have a3 : ∑ x ∈ Finset.range r.length, ∑ u ∈ Finset.range e.length,
              w (r.getD x 0) * w (e.getD u 0) * f.A γ (r.getD x 0) (e.getD u 0) =
            ∑ x ∈ Finset.range r.length, ∑ u ∈ Finset.range e.length, y x * (f.A γ (e.getD u 0) (r.getD x 0) * z ζ u) := by
          refine Finset.sum_congr rfl fun x hx => Finset.sum_congr rfl fun u hu => ?_
          have hx := Finset.mem_range.1 hx
          have hu := Finset.mem_range.1 hu
          rw [hy x hx, hz u hu, hs γ _ (memr x hx) _ (meme u hu)]; ring
        have a4 : ∑ x ∈ Finset.range r.length, ∑ u ∈ Finset.range r.length,
              w (r.getD x 0) * w (r.getD u 0) * f.A γ (r.getD x 0) (r.getD u 0) =
            ∑ x ∈ Finset.range r.length, ∑ u ∈ Finset.range r.length, y x * y u * f.A γ (r.getD x 0) (r.getD u 0) := by
          refine Finset.sum_congr rfl fun x hx => Finset.sum_congr rfl fun u hu => ?_
          rw [hy x (Finset.mem_range.1 hx), hy u (Finset.mem_range.1 hu)]
        rw [a1, a2, a3, a4]; ring
      have q2 : ∑ i ∈ Finset.range n, w i * f.b γ i =
          ∑ x ∈ Finset.range e.length, z ζ x * f.b γ (e.getD x 0) +
          ∑ x ∈ Finset.range r.length, y x * f.b γ (r.getD x 0) := by
        rw [sumS]
        congr 1
        · refine Finset.sum_congr rfl fun x hx => ?_
          rw [hz x (Finset.mem_range.1 hx)]
        · refine Finset.sum_congr rfl fun x hx => ?_
          rw [hy x (Finset.mem_range.1 hx)]
      have p1 : ∑ i ∈ Finset.range r.length, ∑ j ∈ Finset.range r.length,
            y i * y j * f.A γ ((r ++ List.range' n f.derived.length).getD i 0) ((r ++ List.range' n f.derived.length).getD j 0) =
          ∑ x ∈ Finset.range r.length, ∑ u ∈ Finset.range r.length, y x * y u * f.A γ (r.getD x 0) (r.getD u 0) := by
        refine Finset.sum_congr rfl fun x hx => Finset.sum_congr rfl fun u hu => ?_
        rw [rg x (Finset.mem_range.1 hx), rg u (Finset.mem_range.1 hu)]
      have p2 : ∑ i ∈ Finset.range r.length, y i * (f.b γ ((r ++ List.range' n f.derived.length).getD i 0) +
            ∑ x ∈ Finset.range e.length, f.A γ (e.getD x 0) ((r ++ List.range' n f.derived.length).getD i 0) * z ζ x) =
          ∑ x ∈ Finset.range r.length, y x * f.b γ (r.getD x 0) +
          ∑ x ∈ Finset.range r.length, ∑ u ∈ Finset.range e.length, y x * (f.A γ (e.getD u 0) (r.getD x 0) * z ζ u) := by
        rw [← Finset.sum_add_distrib]
        refine Finset.sum_congr rfl fun x hx => ?_
        rw [rg x (Finset.mem_range.1 hx), mul_add, Finset.mul_sum]
      rw [p1, p2, q1, q2]; ring
    · apply nsum_congr
      intro k _
      refine congrArg (HMul.hMul _) ?_
      apply amp_congr
      · intro i hi j hj
        rw [rdd i hi, rdd j hj]
      · intro j hj
        rw [rdd j hj, sumS]
        have b1 : ∑ a ∈ Finset.range r.length, f.A γ ((r ++ List.range' n f.derived.length).getD a 0) (n + j) * y a =
            ∑ x ∈ Finset.range r.length, f.A γ (r.getD x 0) (n + j) * w (r.getD x 0) := by
          refine Finset.sum_congr rfl fun x hx => ?_
          rw [rg x (Finset.mem_range.1 hx), hy x (Finset.mem_range.1 hx)]
        have b2 : ∑ x ∈ Finset.range e.length, f.A γ (e.getD x 0) (n + j) * z ζ x =
            ∑ x ∈ Finset.range e.length, f.A γ (e.getD x 0) (n + j) * w (e.getD x 0) := by
          refine Finset.sum_congr rfl fun x hx => ?_
          rw [hz x (Finset.mem_range.1 hx)]
        rw [b1, b2]; ring

/-- A concrete superposition meeting all hypotheses of C28 and C30: three continuous variables and one derived variable, two terms. -/
noncomputable def exR : PolyExp :=
  ⟨[2], true, 4, fun _ i j => i * j, fun β i => β.length + i, [3], fun _ k => k.length⟩

example : exR.WF ∧ SymCV exR ∧ exR.numCV = 3 ∧ [2, 0, 1].Perm (List.range exR.numCV) ∧
    (∃ g, exR.reorder [2, 0, 1] = some g) ∧ ∃ g, exR.partialEval [5] (fun _ x => x) [2, 0] = some g := by
  refine ⟨⟨by simp [exR], by simp [exR]⟩, ?_, rfl, by decide, ⟨_, if_neg (by decide)⟩, ⟨_, if_neg (by decide)⟩⟩
  intro β i _ j _
  simp [exR, mul_comm]

end Verif.PolyExp
