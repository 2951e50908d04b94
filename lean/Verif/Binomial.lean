import Verif.Paths
import Mathlib.Analysis.Complex.Norm

/-!
# Model of the binomial Fock strategies (C22)

A dense tensor is a function on multi-indices; reading a coordinate `-1` wraps around.  The `prange` loop over
a weight sector may run in any order, so the model takes the order in which each sector is processed as
a parameter (an arbitrary permutation of the sector).
-/

namespace Verif.Fock

/-- Wrap-around of negative coordinates in numpy/numba indexing. -/
def wrapIdx (shape : List ℕ) (q : List ℤ) : List ℕ :=
  List.zipWith (fun (n : ℕ) (x : ℤ) => if x < 0 then (x + n).toNat else x.toNat) shape q

/-- math/lattice/steps.py:36-67 `vanilla_step` on a dense tensor.  At the zero index the code raises; the
model returns 0 there (never used). -/
noncomputable def vanillaStepT (shape : List ℕ) (G : List ℕ → ℂ) (A : ℕ → ℕ → ℂ) (b : ℕ → ℂ)
    (index : List ℕ) : ℂ :=
  match firstAvailablePivot index with
  | none => 0
  | some (i, pivot) =>
    let v0 := b i * G pivot
    let v := (lowerNeighbors (pivot.map (fun n : ℕ => (n : ℤ)))).foldl
      (fun v jn => v + A i jn.1 * sq (pivot.getD jn.1 0) * G (wrapIdx shape jn.2)) v0
    v / sq (index.getD i 0)

/-- math/lattice/steps.py:207-235 `binomial_step`. -/
noncomputable def binomialStep (shape : List ℕ) (A : ℕ → ℕ → ℂ) (b : ℕ → ℂ) (indices : List (List ℕ))
    (G : List ℕ → ℂ) : (List ℕ → ℂ) × ℝ :=
  indices.foldl (fun s ix =>
    let value := vanillaStepT shape s.1 A b ix
    (Function.update s.1 ix value, s.2 + ‖value‖ ^ 2)) (G, 0)

/-- math/lattice/strategies/binomial.py:59-71 (and 150-159): the loop over weights with early stopping.
`sched w` is the sector of weight `w` in the order in which it is processed. -/
noncomputable def binomialLoop (shape : List ℕ) (A : ℕ → ℕ → ℂ) (b : ℕ → ℂ) (maxL2 : Option ℝ)
    (sched : ℕ → List (List ℕ)) : List ℕ → (List ℕ → ℂ) × ℝ → (List ℕ → ℂ) × ℝ
  | [], s => s
  | w :: ws, s =>
    let r := binomialStep shape A b (sched w) s.1
    let norm := s.2 + r.2
    open Classical in
    if ∃ m, maxL2 = some m ∧ norm > m then (r.1, norm)
    else binomialLoop shape A b maxL2 sched ws (r.1, norm)

/-- math/lattice/strategies/binomial.py:30-72 `binomial`. -/
noncomputable def binomial (shape : List ℕ) (A : ℕ → ℕ → ℂ) (b : ℕ → ℂ) (c : ℂ) (maxL2 : Option ℝ)
    (globalCutoff : ℕ) (sched : ℕ → List (List ℕ)) : (List ℕ → ℂ) × ℝ :=
  binomialLoop shape A b maxL2 sched (List.range' 1 (globalCutoff - 1))
    (Function.update (fun _ => 0) (List.replicate shape.length 0) c, ‖c‖ ^ 2)

/-! ## Specification -/

/-- Probability of all multi-indices of weight below `w`. -/
noncomputable def probBelow (shape : List ℕ) (A : ℕ → ℕ → ℂ) (b : ℕ → ℂ) (c : ℂ) (w : ℕ) : ℝ :=
  (((ndindex shape).filter (fun t => t.sum < w)).map
    (fun t => ‖amp shape.length A b c t.toFinsupp‖ ^ 2)).sum

/-- The tensor holds the amplitudes of all indices of weight below `w` and zeros elsewhere. -/
def FilledBelow (shape : List ℕ) (A : ℕ → ℕ → ℂ) (b : ℕ → ℂ) (c : ℂ) (w : ℕ) (G : List ℕ → ℂ) : Prop :=
  ∀ idx, InB shape idx → G idx = if idx.sum < w then amp shape.length A b c idx.toFinsupp else 0

/-! ## Proofs -/

theorem stepDown_toF {i : ℕ} {idx p : List ℕ} (h : StepDown i idx p) : toF p = dn (toF idx) i := by
  ext j
  have := h.2.2 j
  simp only [dn, Finsupp.tsub_apply, toF_apply, Finsupp.single_apply]
  by_cases e : j = i
  · subst e; simp at this ⊢; omega
  · simp [e, Ne.symm e] at this ⊢; omega

theorem inB_iff {shape idx : List ℕ} : InB shape idx ↔ idx.length = shape.length ∧
    ∀ i, i < shape.length → idx.getD i 0 < shape.getD i 0 := by
  unfold InB
  rw [List.forall₂_iff_get]
  constructor
  · rintro ⟨h1, h2⟩
    refine ⟨h1, fun i hi => ?_⟩
    have := h2 i (by omega) hi
    simpa [List.getD_eq_getElem?_getD, hi, h1] using this
  · rintro ⟨h1, h2⟩
    refine ⟨h1, fun i hi hi' => ?_⟩
    have := h2 i hi'
    simpa [List.getD_eq_getElem?_getD, hi', h1] using this

theorem stepDown_inB {shape idx p : List ℕ} {i : ℕ} (h : StepDown i idx p) (hb : InB shape idx) :
    InB shape p := by
  rw [inB_iff] at hb ⊢
  refine ⟨by rw [h.1, hb.1], fun j hj => ?_⟩
  have := h.2.2 j
  have := hb.2 j hj
  omega

theorem stepDown_sum {idx p : List ℕ} {i : ℕ} (h : StepDown i idx p) : p.sum + 1 = idx.sum := by
  obtain ⟨hl, hi, h⟩ := h
  induction idx generalizing p i with
  | nil => simp at hi
  | cons x idx ih =>
    cases p with
    | nil => simp at hl
    | cons y p =>
      cases i with
      | zero =>
        have e : p = idx := by
          apply List.ext_getElem (by simpa using hl)
          intro j h1 h2
          have := h (j + 1)
          simpa [List.getD_eq_getElem?_getD, h1, h2] using this
        have := h 0
        simp at this
        subst e; simp; omega
      | succ i =>
        have h0 := h 0
        simp at h0
        have := ih (p := p) (i := i) (by simpa using hl) (by simpa using hi) (by
          intro j
          have := h (j + 1)
          simpa using this)
        simp; omega

theorem exists_stepDown {idx : List ℕ} {i : ℕ} (h : idx.getD i 0 ≠ 0) :
    StepDown i idx (idx.set i (idx.getD i 0 - 1)) := by
  have hl := lt_of_getD_ne h
  apply stepDown_set
  · rw [List.getElem?_eq_getElem hl, List.getD_eq_getElem?_getD, List.getElem?_eq_getElem hl]; rfl
  · omega

theorem wrap_lower {shape p : List ℕ} {j : ℕ} (hl : p.length = shape.length) (h : p.getD j 0 ≠ 0) :
    wrapIdx shape ((p.map (fun n : ℕ => (n : ℤ))).set j ((p.map (fun n : ℕ => (n : ℤ))).getD j 0 - 1)) =
      p.set j (p.getD j 0 - 1) := by
  have hj := lt_of_getD_ne h
  apply List.ext_getElem
  · simp [wrapIdx, hl]
  · intro i h1 h2
    simp only [List.length_set] at h2
    simp only [wrapIdx, List.getElem_zipWith, List.getElem_set]
    by_cases e : j = i
    · subst e
      have e1 : (p.map (fun n : ℕ => (n : ℤ))).getD j 0 = (p.getD j 0 : ℤ) := by
        simp [List.getD_eq_getElem?_getD, h2]
      simp only [if_true, e1]
      have : ¬ ((p.getD j 0 : ℤ) - 1 < 0) := by omega
      rw [if_neg this]; omega
    · simp only [e, if_false, List.getElem_map]
      rw [if_neg (by omega)]; simp

/-- One step of the recursion computes the amplitude from correct lower-weight entries. -/
theorem vanillaStepT_eq {shape A b c} (hA : Symm shape.length A) {G : List ℕ → ℂ} {ix : List ℕ}
    (hb : InB shape ix) (hpos : 0 < ix.sum)
    (hG : ∀ t, InB shape t → t.sum < ix.sum → G t = amp shape.length A b c (toF t)) :
    vanillaStepT shape G A b ix = amp shape.length A b c (toF ix) := by
  unfold vanillaStepT
  rcases hp : firstAvailablePivot ix with _ | ⟨i, pivot⟩
  · exfalso
    have hz := (C25_first_pivot ix).1.1 hp
    have : ix.sum = 0 := by
      rw [List.sum_eq_zero_iff]
      intro x hx
      obtain ⟨k, hk, rfl⟩ := List.getElem_of_mem hx
      simpa [List.getD_eq_getElem?_getD, hk] using hz k
    omega
  · obtain ⟨sd, _⟩ := (C25_first_pivot ix).2 i pivot hp
    have hil : i < shape.length := by rw [← (inB_iff.1 hb).1]; exact sd.2.1
    have hi : toF ix i ≠ 0 := by
      have := sd.2.2 i
      simp at this; rw [toF_apply, List.getD_eq_getElem?_getD, ← this]; omega
    have hpl : pivot.length = shape.length := by rw [sd.1, (inB_iff.1 hb).1]
    have hsum := stepDown_sum sd
    have hpb := stepDown_inB sd hb
    rw [amp_rec c hA hil _ hi]
    simp only [toF_apply]
    congr 1
    unfold lowerNeighbors
    rw [List.foldl_map, foldl_add_eq, List.length_map, hpl, hG pivot hpb (by omega), stepDown_toF sd,
      List.range_eq_range', range'_sum]
    congr 1
    rw [Nat.zero_add, ← Finset.range_eq_Ico]
    apply Finset.sum_congr rfl
    intro j _
    have e : dn (toF ix) i j = pivot.getD j 0 := by rw [← stepDown_toF sd, toF_apply]
    rw [e]
    by_cases hz : pivot.getD j 0 = 0
    · rw [hz]; simp
    · have sd2 := exists_stepDown hz
      have hsum2 := stepDown_sum sd2
      rw [wrap_lower hpl hz, hG _ (stepDown_inB sd2 hpb) (by omega), stepDown_toF sd2, stepDown_toF sd]

theorem binomialStep_spec {shape A b c} (hA : Symm shape.length A) {w : ℕ} (hw : 0 < w)
    (l : List (List ℕ)) (hl : ∀ t ∈ l, InB shape t ∧ t.sum = w) (hn : l.Nodup) (G : List ℕ → ℂ)
    (done : List (List ℕ)) (a : ℝ)
    (hG : ∀ t, InB shape t → G t = if t.sum < w ∨ t ∈ done then amp shape.length A b c (toF t) else 0) :
    let r := l.foldl (fun s ix =>
      let value := vanillaStepT shape s.1 A b ix
      (Function.update s.1 ix value, s.2 + ‖value‖ ^ 2)) (G, a)
    (∀ t, InB shape t → r.1 t = if t.sum < w ∨ t ∈ done ++ l then amp shape.length A b c (toF t) else 0) ∧
    r.2 = a + (l.map (fun t => ‖amp shape.length A b c (toF t)‖ ^ 2)).sum := by
  induction l generalizing G done a with
  | nil => exact ⟨by simpa using hG, by simp⟩
  | cons x l ih =>
    obtain ⟨hxb, hxw⟩ := hl x (by simp)
    have hv : vanillaStepT shape G A b x = amp shape.length A b c (toF x) := by
      apply vanillaStepT_eq hA hxb (by omega)
      intro t ht hlt
      rw [hG t ht, if_pos (Or.inl (by omega))]
    have := ih (fun t ht => hl t (by simp [ht])) (List.nodup_cons.1 hn).2
      (Function.update G x (vanillaStepT shape G A b x)) (done ++ [x])
      (a + ‖vanillaStepT shape G A b x‖ ^ 2) (by
        intro t ht
        by_cases e : t = x
        · subst e; rw [Function.update_self, hv]; simp
        · rw [Function.update_of_ne e, hG t ht]; simp [e])
    simp only [List.foldl_cons]
    refine ⟨?_, ?_⟩
    · intro t ht
      rw [this.1 t ht]; simp
    · rw [this.2, hv]; simp [add_assoc]

theorem probBelow_succ (shape A b c) (w : ℕ) (l : List (List ℕ))
    (hl : l.Perm (binomialSubspaceBasis shape w)) :
    probBelow shape A b c (w + 1) = probBelow shape A b c w +
      (l.map (fun t => ‖amp shape.length A b c (toF t)‖ ^ 2)).sum := by
  rw [(hl.map _).sum_eq, (C21_subspace_basis shape w).1]
  unfold probBelow
  generalize ndindex shape = L
  induction L with
  | nil => simp
  | cons t L ih =>
    simp only [List.filter_cons, decide_eq_true_eq]
    by_cases h1 : t.sum < w
    · rw [if_pos h1, if_pos (by omega), if_neg (by omega)]
      simp only [List.map_cons, List.sum_cons, ih]; ring
    · by_cases h2 : t.sum = w
      · rw [if_neg h1, if_pos (by omega), if_pos h2]
        simp only [List.map_cons, List.sum_cons, ih]
        show _ + _ = _ + (_ + _)
        rw [show toF t = t.toFinsupp from rfl]; ring
      · rw [if_neg h1, if_neg (by omega), if_neg h2]; exact ih

theorem binomialLoop_spec {shape A b c} (hA : Symm shape.length A) (maxL2 : Option ℝ)
    (sched : ℕ → List (List ℕ)) (hs : ∀ w, (sched w).Perm (binomialSubspaceBasis shape w))
    (n w : ℕ) (hw : 0 < w) (s : (List ℕ → ℂ) × ℝ) (hG : FilledBelow shape A b c w s.1)
    (hnorm : s.2 = probBelow shape A b c w) :
    ∃ W, w ≤ W ∧ W ≤ w + n ∧
      FilledBelow shape A b c W (binomialLoop shape A b maxL2 sched (List.range' w n) s).1 ∧
      (binomialLoop shape A b maxL2 sched (List.range' w n) s).2 = probBelow shape A b c W ∧
      (∀ v, w < v → v < W → ∀ m, maxL2 = some m → probBelow shape A b c v ≤ m) ∧
      (W = w + n ∨ (w < W ∧ ∃ m, maxL2 = some m ∧ probBelow shape A b c W > m)) := by
  induction n generalizing w s with
  | zero =>
    refine ⟨w, le_rfl, le_rfl, hG, hnorm, ?_, Or.inl rfl⟩
    intro v h1 h2; omega
  | succ n ih =>
    simp only [List.range'_succ, binomialLoop]
    have hmem : ∀ t ∈ sched w, InB shape t ∧ t.sum = w := by
      intro t ht
      exact (C21_subspace_basis shape w).2.2 t |>.1 ((hs w).mem_iff.1 ht)
    have hnd : (sched w).Nodup := ((hs w).nodup_iff).2 (C21_subspace_basis shape w).2.1
    have step := binomialStep_spec (c := c) (b := b) hA hw (sched w) hmem hnd s.1 [] 0 (by
      intro t ht; rw [hG t ht]; simp [toF])
    have hfill : FilledBelow shape A b c (w + 1) (binomialStep shape A b (sched w) s.1).1 := by
      intro t ht
      have h1 := step.1 t ht
      unfold binomialStep
      rw [h1]
      have : t ∈ sched w ↔ t.sum = w := by
        rw [(hs w).mem_iff, (C21_subspace_basis shape w).2.2 t]; tauto
      simp only [List.nil_append, this]
      have e : (t.sum < w ∨ t.sum = w) ↔ t.sum < w + 1 := by omega
      simp only [e]; rfl
    have hnorm' : s.2 + (binomialStep shape A b (sched w) s.1).2 = probBelow shape A b c (w + 1) := by
      rw [probBelow_succ shape A b c w _ (hs w), hnorm]
      congr 1
      have h2 := step.2
      rw [zero_add] at h2
      exact h2
    split_ifs with hstop
    · refine ⟨w + 1, by omega, by omega, hfill, hnorm', ?_, Or.inr ⟨by omega, ?_⟩⟩
      · intro v h1 h2; omega
      · obtain ⟨m, h1, h2⟩ := hstop
        exact ⟨m, h1, by rw [← hnorm']; exact h2⟩
    · obtain ⟨W, h1, h2, h3, h4, h5, h6⟩ := ih (w + 1) (by omega)
        ((binomialStep shape A b (sched w) s.1).1, s.2 + (binomialStep shape A b (sched w) s.1).2) hfill hnorm'
      refine ⟨W, by omega, by omega, h3, h4, ?_, ?_⟩
      · intro v hv1 hv2 m hm
        by_cases e : v = w + 1
        · subst e
          rw [← hnorm']
          by_contra hc
          exact hstop ⟨m, hm, by linarith⟩
        · exact h5 v (by omega) hv2 m hm
      · rcases h6 with h | ⟨h, h'⟩
        · left; omega
        · right; exact ⟨by omega, h'⟩

theorem inB_zero {shape : List ℕ} (hp : ∀ n ∈ shape, 0 < n) : InB shape (List.replicate shape.length 0) := by
  induction shape with
  | nil => exact List.Forall₂.nil
  | cons n s ih =>
    exact List.Forall₂.cons (hp n (by simp)) (ih (fun m hm => hp m (by simp [hm])))

theorem sum_eq_zero_iff_replicate {idx : List ℕ} : idx.sum = 0 ↔ idx = List.replicate idx.length 0 := by
  rw [List.sum_eq_zero_iff, List.eq_replicate_iff]; simp

theorem toF_replicate (n : ℕ) : toF (List.replicate n 0) = 0 := by
  ext i
  simp only [toF_apply, List.getD_eq_getElem?_getD, List.getElem?_replicate]
  split_ifs <;> simp

theorem filter_sum_zero {shape : List ℕ} (hp : ∀ n ∈ shape, 0 < n) :
    (ndindex shape).filter (fun t => t.sum < 1) = [List.replicate shape.length 0] := by
  have e : (ndindex shape).filter (fun t => t.sum < 1) = binomialSubspaceBasis shape 0 := by
    rw [(C21_subspace_basis shape 0).1]
    apply List.filter_congr; intro t _; congr 1; apply propext; omega
  have hmem : ∀ t, t ∈ (ndindex shape).filter (fun t => t.sum < 1) ↔ t ∈ [List.replicate shape.length 0] := by
    intro t
    rw [e, (C21_subspace_basis shape 0).2.2 t]
    simp only [List.mem_singleton]
    constructor
    · rintro ⟨h1, h2⟩
      rw [sum_eq_zero_iff_replicate, (inB_iff.1 h1).1] at h2; exact h2
    · rintro rfl
      exact ⟨inB_zero hp, by simp⟩
  have hn : ((ndindex shape).filter (fun t => t.sum < 1)).Nodup := (nodup_ndindex _).filter _
  exact List.perm_singleton.1 ((List.perm_ext_iff_of_nodup hn (by simp)).2 hmem)

/-- **C22** `binomial`: there is a weight `W` such that the returned tensor holds the exact amplitude of
every multi-index of total photon number below `W` and zero elsewhere, the returned norm is their total
probability, and `W` is the global cutoff unless the requested norm was exceeded — at the first weight at
which this happens.  The result does not depend on the order in which the parallel loop processes
a sector. -/
theorem C22_binomial (shape : List ℕ) (hp : ∀ n ∈ shape, 0 < n) (A : ℕ → ℕ → ℂ) (b : ℕ → ℂ) (c : ℂ)
    (hA : Symm shape.length A) (maxL2 : Option ℝ) (globalCutoff : ℕ) (hg : 0 < globalCutoff)
    (sched : ℕ → List (List ℕ)) (hs : ∀ w, (sched w).Perm (binomialSubspaceBasis shape w)) :
    ∃ W, 1 ≤ W ∧ W ≤ globalCutoff ∧
      FilledBelow shape A b c W (binomial shape A b c maxL2 globalCutoff sched).1 ∧
      (binomial shape A b c maxL2 globalCutoff sched).2 = probBelow shape A b c W ∧
      (∀ v, 1 < v → v < W → ∀ m, maxL2 = some m → probBelow shape A b c v ≤ m) ∧
      (W = globalCutoff ∨ (1 < W ∧ ∃ m, maxL2 = some m ∧ probBelow shape A b c W > m)) := by
  have h0 : FilledBelow shape A b c 1 (Function.update (fun _ => 0) (List.replicate shape.length 0) c) := by
    intro t ht
    by_cases e : t = List.replicate shape.length 0
    · subst e
      rw [Function.update_self, if_pos (by simp)]
      rw [show (List.replicate shape.length 0).toFinsupp = 0 from toF_replicate _, amp_zero]
    · rw [Function.update_of_ne e, if_neg]
      intro h
      apply e
      have : t.sum = 0 := by omega
      rw [sum_eq_zero_iff_replicate, (inB_iff.1 ht).1] at this; exact this
  have hn : ‖c‖ ^ 2 = probBelow shape A b c 1 := by
    unfold probBelow
    rw [filter_sum_zero hp]
    simp only [List.map_cons, List.map_nil, List.sum_cons, List.sum_nil, add_zero]
    rw [show (List.replicate shape.length 0).toFinsupp = 0 from toF_replicate _, amp_zero]
  obtain ⟨W, h1, h2, h3⟩ := binomialLoop_spec hA maxL2 sched hs (globalCutoff - 1) 1 (by omega)
    (Function.update (fun _ => 0) (List.replicate shape.length 0) c, ‖c‖ ^ 2) h0 hn
  refine ⟨W, h1, by omega, h3.1, h3.2.1, h3.2.2.1, ?_⟩
  rcases h3.2.2.2 with h | h
  · left; omega
  · exact Or.inr h

/-! ## The dictionary variant -/

/-- Multi-index as a dictionary key. -/
def key (idx : List ℕ) : List ℤ := idx.map (fun n : ℕ => (n : ℤ))

/-- math/lattice/steps.py:174-204 `vanilla_step_dict`; `none` is the `KeyError` of `data[pivot]`
(or the `ValueError` at the zero index). -/
noncomputable def vanillaStepDict (data : List ℤ → Option ℂ) (A : ℕ → ℕ → ℂ) (b : ℕ → ℂ)
    (index : List ℕ) : Option ℂ :=
  match firstAvailablePivot index with
  | none => none
  | some (i, pivot) =>
    let denom := sq (pivot.getD i 0 + 1)
    (data (key pivot)).map fun g =>
      (lowerNeighbors (key pivot)).foldl
        (fun v jn => v + A i jn.1 / denom * sq (pivot.getD jn.1 0) * (data jn.2).getD 0) (b i / denom * g)

/-- math/lattice/steps.py:238-266 `binomial_step_dict`. -/
noncomputable def binomialStepDict (A : ℕ → ℕ → ℂ) (b : ℕ → ℂ) :
    List (List ℕ) → (List ℤ → Option ℂ) × ℝ → Option ((List ℤ → Option ℂ) × ℝ)
  | [], s => some s
  | ix :: l, s => (vanillaStepDict s.1 A b ix).bind fun value =>
      binomialStepDict A b l (Function.update s.1 (key ix) (some value), s.2 + ‖value‖ ^ 2)

/-- math/lattice/strategies/binomial.py:112-124: the loop over weights. -/
noncomputable def binomialLoopDict (A : ℕ → ℕ → ℂ) (b : ℕ → ℂ) (maxProb : Option ℝ)
    (sched : ℕ → List (List ℕ)) : List ℕ → (List ℤ → Option ℂ) × ℝ → Option ((List ℤ → Option ℂ) × ℝ)
  | [], s => some s
  | w :: ws, s => (binomialStepDict A b (sched w) (s.1, 0)).bind fun r =>
    open Classical in
    if ∃ m, maxProb = some m ∧ s.2 + r.2 > m then some (r.1, s.2 + r.2)
    else binomialLoopDict A b maxProb sched ws (r.1, s.2 + r.2)

/-- math/lattice/strategies/binomial.py:75-125 `binomial_dict`, with the default
`global_cutoff = sum(local_cutoffs) - len(local_cutoffs)`. -/
noncomputable def binomialDict (shape : List ℕ) (A : ℕ → ℕ → ℂ) (b : ℕ → ℂ) (c : ℂ) (maxProb : Option ℝ)
    (globalCutoff : Option ℕ) (sched : ℕ → List (List ℕ)) : Option (List ℤ → Option ℂ) :=
  let g := globalCutoff.getD (shape.sum - shape.length)
  (binomialLoopDict A b maxProb sched (List.range' 1 (g - 1))
    (Function.update (fun _ => none) (key (List.replicate shape.length 0)) (some c), ‖c‖ ^ 2)).map Prod.fst

/-- The dictionary has exactly the keys of weight below `w`, with the exact amplitudes. -/
def DictBelow (shape : List ℕ) (A : ℕ → ℕ → ℂ) (b : ℕ → ℂ) (c : ℂ) (w : ℕ) (G : List ℤ → Option ℂ) : Prop :=
  (∀ idx, InB shape idx → G (key idx) =
    if idx.sum < w then some (amp shape.length A b c idx.toFinsupp) else none) ∧
  ∀ k, (∀ idx, InB shape idx → k ≠ key idx) → G k = none

theorem key_inj : Function.Injective key := by
  intro a b h
  exact List.map_injective_iff.2 Nat.cast_injective h

theorem key_lower {p : List ℕ} {j : ℕ} (h : p.getD j 0 ≠ 0) :
    (key p).set j ((key p).getD j 0 - 1) = key (p.set j (p.getD j 0 - 1)) := by
  have hj := lt_of_getD_ne h
  unfold key
  rw [List.map_set]
  congr 1
  simp only [List.getD_eq_getElem?_getD, List.getElem?_map, List.getElem?_eq_getElem hj, Option.map_some,
    Option.getD_some] at h ⊢
  omega

theorem vanillaStepDict_eq {shape A b c} (hA : Symm shape.length A) {G : List ℤ → Option ℂ} {ix : List ℕ}
    (hb : InB shape ix) (hpos : 0 < ix.sum)
    (hG : ∀ t, InB shape t → t.sum < ix.sum → G (key t) = some (amp shape.length A b c (toF t))) :
    vanillaStepDict G A b ix = some (amp shape.length A b c (toF ix)) := by
  unfold vanillaStepDict
  rcases hp : firstAvailablePivot ix with _ | ⟨i, pivot⟩
  · exfalso
    have hz := (C25_first_pivot ix).1.1 hp
    have : ix.sum = 0 := by
      rw [List.sum_eq_zero_iff]
      intro x hx
      obtain ⟨k, hk, rfl⟩ := List.getElem_of_mem hx
      simpa [List.getD_eq_getElem?_getD, hk] using hz k
    omega
  · obtain ⟨sd, _⟩ := (C25_first_pivot ix).2 i pivot hp
    have hil : i < shape.length := by rw [← (inB_iff.1 hb).1]; exact sd.2.1
    have hpi : pivot.getD i 0 + 1 = ix.getD i 0 := by have := sd.2.2 i; simpa using this
    have hi : toF ix i ≠ 0 := by rw [toF_apply, ← hpi]; omega
    have hpl : pivot.length = shape.length := by rw [sd.1, (inB_iff.1 hb).1]
    have hsum := stepDown_sum sd
    have hpb := stepDown_inB sd hb
    simp only
    rw [hG pivot hpb (by omega), Option.map_some]
    congr 1
    rw [amp_rec c hA hil _ hi, toF_apply, ← hpi]
    unfold lowerNeighbors
    rw [List.foldl_map, foldl_add_eq, add_div, Finset.sum_div, stepDown_toF sd, List.range_eq_range', range'_sum]
    have hkl : (key pivot).length = shape.length := by simp [key, hpl]
    rw [hkl, Nat.zero_add, ← Finset.range_eq_Ico]
    congr 1
    · rw [mul_div_right_comm]
    apply Finset.sum_congr rfl
    intro j _
    have e : dn (toF ix) i j = pivot.getD j 0 := by rw [← stepDown_toF sd, toF_apply]
    rw [e]
    by_cases hz : pivot.getD j 0 = 0
    · rw [hz]; simp
    · have sd2 := exists_stepDown hz
      have hsum2 := stepDown_sum sd2
      rw [key_lower hz, hG _ (stepDown_inB sd2 hpb) (by omega), stepDown_toF sd2, stepDown_toF sd,
        Option.getD_some]
      ring

theorem binomialStepDict_spec {shape A b c} (hA : Symm shape.length A) {w : ℕ} (hw : 0 < w)
    (l : List (List ℕ)) (hl : ∀ t ∈ l, InB shape t ∧ t.sum = w) (G : List ℤ → Option ℂ)
    (done : List (List ℕ)) (a : ℝ)
    (hG : ∀ t, InB shape t → G (key t) =
      if t.sum < w ∨ t ∈ done then some (amp shape.length A b c (toF t)) else none)
    (hG' : ∀ k, (∀ idx, InB shape idx → k ≠ key idx) → G k = none) :
    ∃ r, binomialStepDict A b l (G, a) = some r ∧
      (∀ t, InB shape t → r.1 (key t) =
        if t.sum < w ∨ t ∈ done ++ l then some (amp shape.length A b c (toF t)) else none) ∧
      (∀ k, (∀ idx, InB shape idx → k ≠ key idx) → r.1 k = none) ∧
      r.2 = a + (l.map (fun t => ‖amp shape.length A b c (toF t)‖ ^ 2)).sum := by
  induction l generalizing G done a with
  | nil => exact ⟨_, rfl, by simpa using hG, hG', by simp⟩
  | cons x l ih =>
    obtain ⟨hxb, hxw⟩ := hl x (by simp)
    have hv : vanillaStepDict G A b x = some (amp shape.length A b c (toF x)) := by
      apply vanillaStepDict_eq hA hxb (by omega)
      intro t ht hlt
      rw [hG t ht, if_pos (Or.inl (by omega))]
    obtain ⟨r, h1, h2, h3, h4⟩ := ih (fun t ht => hl t (by simp [ht]))
      (Function.update G (key x) (some (amp shape.length A b c (toF x)))) (done ++ [x])
      (a + ‖amp shape.length A b c (toF x)‖ ^ 2) (by
        intro t ht
        by_cases e : t = x
        · subst e; rw [Function.update_self]; simp
        · rw [Function.update_of_ne (fun h => e (key_inj h)), hG t ht]; simp [e]) (by
        intro k hk
        rw [Function.update_of_ne (hk x hxb), hG' k hk])
    refine ⟨r, ?_, ?_, h3, ?_⟩
    · simp only [binomialStepDict, hv, Option.bind_some]; exact h1
    · intro t ht
      rw [h2 t ht]; simp
    · rw [h4]; simp [add_assoc]

theorem binomialLoopDict_spec {shape A b c} (hA : Symm shape.length A) (maxL2 : Option ℝ)
    (sched : ℕ → List (List ℕ)) (hs : ∀ w, (sched w).Perm (binomialSubspaceBasis shape w))
    (n w : ℕ) (hw : 0 < w) (s : (List ℤ → Option ℂ) × ℝ) (hG : DictBelow shape A b c w s.1)
    (hnorm : s.2 = probBelow shape A b c w) :
    ∃ W r, binomialLoopDict A b maxL2 sched (List.range' w n) s = some r ∧ w ≤ W ∧ W ≤ w + n ∧
      DictBelow shape A b c W r.1 ∧
      (∀ v, w < v → v < W → ∀ m, maxL2 = some m → probBelow shape A b c v ≤ m) ∧
      (W = w + n ∨ (w < W ∧ ∃ m, maxL2 = some m ∧ probBelow shape A b c W > m)) := by
  induction n generalizing w s with
  | zero =>
    refine ⟨w, s, rfl, le_rfl, le_rfl, hG, ?_, Or.inl rfl⟩
    intro v h1 h2; omega
  | succ n ih =>
    simp only [List.range'_succ, binomialLoopDict]
    have hmem : ∀ t ∈ sched w, InB shape t ∧ t.sum = w := by
      intro t ht
      exact (C21_subspace_basis shape w).2.2 t |>.1 ((hs w).mem_iff.1 ht)
    obtain ⟨r, e1, e2, e3, e4⟩ := binomialStepDict_spec (c := c) (b := b) hA hw (sched w) hmem s.1 [] 0 (by
      intro t ht; rw [hG.1 t ht]; simp [toF]) hG.2
    have hfill : DictBelow shape A b c (w + 1) r.1 := by
      refine ⟨?_, e3⟩
      intro t ht
      rw [e2 t ht]
      have : t ∈ sched w ↔ t.sum = w := by
        rw [(hs w).mem_iff, (C21_subspace_basis shape w).2.2 t]; tauto
      simp only [List.nil_append, this]
      have e : (t.sum < w ∨ t.sum = w) ↔ t.sum < w + 1 := by omega
      simp only [e]; rfl
    have hnorm' : s.2 + r.2 = probBelow shape A b c (w + 1) := by
      rw [probBelow_succ shape A b c w _ (hs w), hnorm, e4, zero_add]
    simp only [e1, Option.bind_some]
    split_ifs with hstop
    · refine ⟨w + 1, _, rfl, by omega, by omega, hfill, ?_, Or.inr ⟨by omega, ?_⟩⟩
      · intro v h1 h2; omega
      · obtain ⟨m, h1, h2⟩ := hstop
        exact ⟨m, h1, by rw [← hnorm']; exact h2⟩
    · obtain ⟨W, r', h0, h1, h2, h3, h5, h6⟩ := ih (w + 1) (by omega) (r.1, s.2 + r.2) hfill hnorm'
      refine ⟨W, r', h0, by omega, by omega, h3, ?_, ?_⟩
      · intro v hv1 hv2 m hm
        by_cases e : v = w + 1
        · subst e
          rw [← hnorm']
          by_contra hc
          exact hstop ⟨m, hm, by linarith⟩
        · exact h5 v (by omega) hv2 m hm
      · rcases h6 with h | ⟨h, h'⟩
        · left; omega
        · right; exact ⟨by omega, h'⟩

/-- **C22** `binomial_dict`: never raises a `KeyError`; the returned dictionary has exactly the keys of total
photon number below some `W`, with exact amplitudes; `W` is `max(1, global_cutoff)` unless the requested
probability was exceeded, at the first such weight.  So a key of weight equal to the global cutoff,
documented as the "max total photon number considered", is never present. -/
theorem C22_binomial_dict (shape : List ℕ) (hp : ∀ n ∈ shape, 0 < n) (A : ℕ → ℕ → ℂ) (b : ℕ → ℂ) (c : ℂ)
    (hA : Symm shape.length A) (maxProb : Option ℝ) (globalCutoff : Option ℕ)
    (sched : ℕ → List (List ℕ)) (hs : ∀ w, (sched w).Perm (binomialSubspaceBasis shape w)) :
    ∃ W G, binomialDict shape A b c maxProb globalCutoff sched = some G ∧
      DictBelow shape A b c W G ∧ 1 ≤ W ∧ W ≤ max 1 (globalCutoff.getD (shape.sum - shape.length)) ∧
      (∀ v, 1 < v → v < W → ∀ m, maxProb = some m → probBelow shape A b c v ≤ m) ∧
      (W = max 1 (globalCutoff.getD (shape.sum - shape.length)) ∨
        (1 < W ∧ ∃ m, maxProb = some m ∧ probBelow shape A b c W > m)) := by
  have h0 : DictBelow shape A b c 1
      (Function.update (fun _ => none) (key (List.replicate shape.length 0)) (some c)) := by
    constructor
    · intro t ht
      by_cases e : t = List.replicate shape.length 0
      · subst e
        rw [Function.update_self, if_pos (by simp)]
        rw [show (List.replicate shape.length 0).toFinsupp = 0 from toF_replicate _, amp_zero]
      · rw [Function.update_of_ne (fun h => e (key_inj h)), if_neg]
        intro h
        apply e
        have : t.sum = 0 := by omega
        rw [sum_eq_zero_iff_replicate, (inB_iff.1 ht).1] at this; exact this
    · intro k hk
      rw [Function.update_of_ne (hk _ (inB_zero hp))]
  have hn : ‖c‖ ^ 2 = probBelow shape A b c 1 := by
    unfold probBelow
    rw [filter_sum_zero hp]
    simp only [List.map_cons, List.map_nil, List.sum_cons, List.sum_nil, add_zero]
    rw [show (List.replicate shape.length 0).toFinsupp = 0 from toF_replicate _, amp_zero]
  obtain ⟨W, r, e, h1, h2, h3⟩ := binomialLoopDict_spec hA maxProb sched hs
    (globalCutoff.getD (shape.sum - shape.length) - 1) 1 (by omega)
    (Function.update (fun _ => none) (key (List.replicate shape.length 0)) (some c), ‖c‖ ^ 2) h0 hn
  refine ⟨W, r.1, ?_, h3.1, h1, ?_, h3.2.1, ?_⟩
  · unfold binomialDict; simp only [e, Option.map_some]
  · omega
  · rcases h3.2.2 with h | h
    · left; omega
    · exact Or.inr h

theorem top_inB {shape : List ℕ} (hp : ∀ n ∈ shape, 0 < n) :
    InB shape (shape.map (· - 1)) ∧ (shape.map (· - 1)).sum = shape.sum - shape.length := by
  induction shape with
  | nil => exact ⟨List.Forall₂.nil, rfl⟩
  | cons n s ih =>
    have hn := hp n (by simp)
    obtain ⟨h1, h2⟩ := ih (fun m hm => hp m (by simp [hm]))
    refine ⟨List.Forall₂.cons (show n - 1 < n by omega) h1, ?_⟩
    have : s.length ≤ s.sum := by
      clear ih h1 h2
      induction s with
      | nil => simp
      | cons m s ih =>
        have := hp m (by simp)
        have := ih (fun x hx => hp x (by
          rcases List.mem_cons.1 hx with rfl | hx
          · simp
          · simp [hx]))
        simp; omega
    simp only [List.map_cons, List.sum_cons, List.length_cons, h2]; omega

/-- **C22 is false for `binomial_dict` with its default global cutoff** ("calculated from the local
cutoffs"): for any local cutoffs allowing at least one photon, the amplitude at the corner
`(n₁-1, …, n_k-1)` — a valid index below the local cutoffs — is missing from the dictionary, even without
early stopping. -/
theorem C22_dict_default_misses_corner (shape : List ℕ) (hp : ∀ n ∈ shape, 0 < n)
    (h1 : 0 < shape.sum - shape.length) (A : ℕ → ℕ → ℂ) (b : ℕ → ℂ) (c : ℂ)
    (hA : Symm shape.length A) (sched : ℕ → List (List ℕ))
    (hs : ∀ w, (sched w).Perm (binomialSubspaceBasis shape w)) :
    InB shape (shape.map (· - 1)) ∧
    ∃ G, binomialDict shape A b c none none sched = some G ∧ G (key (shape.map (· - 1))) = none := by
  obtain ⟨hb, hsum⟩ := top_inB hp
  obtain ⟨W, G, e, hd, _, hW, _⟩ := C22_binomial_dict shape hp A b c hA none none sched hs
  refine ⟨hb, G, e, ?_⟩
  rw [hd.1 _ hb, if_neg]
  rw [hsum]
  simp only [Option.getD_none] at hW
  omega

/-- Hypotheses are met, e.g. by two modes with cutoffs 3 and 2. -/
example : (∀ n ∈ [3, 2], 0 < n) ∧ 0 < [3, 2].sum - [3, 2].length ∧
    (∀ w, (binomialSubspaceBasis [3, 2] w).Perm (binomialSubspaceBasis [3, 2] w)) :=
  ⟨by decide, by decide, fun _ => List.Perm.refl _⟩

end Verif.Fock
