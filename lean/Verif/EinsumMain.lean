import Verif.EinsumPath

/-!
# `mm_einsum` on Fock arrays does not depend on the path (C15), main theorem
-/

namespace Verif.Arr

open Verif.Fock Verif.PolyExp

/-! ### All steps -/

theorem StepOut.trans {fd : ℕ → Option ℕ} {output : List Lab} {M : Lab → ℕ} {s t u : List (Arr × List Lab)}
    (h1 : StepOut fd output M s t) (h2 : StepOut fd output M t u) : StepOut fd output M s u where
  lwf := h2.lwf
  lab := fun l hl => h1.lab l (h2.lab l hl)
  keep := fun l hl hs => h2.keep l hl (h1.keep l hl hs)
  bound := h2.bound
  least := fun l hl hn d hd => h2.least l hl hn d (h1.least l (h2.lab l hl) hn d hd)
  val := fun σ hσ => (h2.val σ fun l hl hlt => hσ l hl (h1.lab l hlt)).trans (h1.val σ hσ)
  last := h2.last

theorem path_out {fd : ℕ → Option ℕ} {output : List Lab} {M : Lab → ℕ} (hM1 : ∀ l d, fdim fd l = some d → M l = d) :
    ∀ (path : List (ℕ × ℕ)) {st st' : List (Arr × List Lab)}, path ≠ [] → (∀ q ∈ st, LWF q) →
      (∀ l, fdim fd l = none → ∀ q ∈ st, l ∈ q.2 → ldim q l ≤ M l) → path.foldlM (step fd output) st = some st' → StepOut fd output M st st'
  | [], _, _, h, _, _, _ => absurd rfl h
  | p :: path, st, st', _, hst, hM2, h => by
    rw [List.foldlM_cons] at h
    obtain ⟨t, ht, h⟩ := Option.bind_eq_some_iff.1 h
    have h1 := step_out hst hM1 hM2 ht
    cases path with
    | nil => cases h; exact h1
    | cons q path => exact h1.trans (path_out hM1 (q :: path) (by simp) h1.lwf h1.bound h)

theorem perm_le_one {α : Type*} {l m : List α} (h : l.Perm m) (hl : ¬ m.length > 1) : l = m := by
  have := h.length_eq
  match l, m, this, hl with
  | [], [], _, _ => rfl
  | [a], [b], _, _ => simpa using h
  | _ :: _ :: _, _ :: _ :: _, _, hl => simp at hl

theorem getD_map_lab {xs : List Lab} (D : Lab → ℕ) {l : Lab} (h : l ∈ xs) : (xs.map D).getD (xs.idxOf l) 0 = D l := dimIn_map D h

/-- The final reordering puts the axes in the order of `output`. -/
theorem finish_spec {fd : ℕ → Option ℕ} {output idx : List Lab} {r q : Arr} {D : Lab → ℕ} (hq : LWF (q, idx)) (hD : ∀ l ∈ idx, ldim (q, idx) l = D l)
    (hp : idx.Perm output) (hstd : norm output = output) (h : finish fd output q idx = some r) :
    r.batchDims = (strs output).length ∧ r.shape = output.map D ∧ ∀ σ : Lab → ℕ, r.get (output.map σ) = q.get (idx.map σ) := by
  have ps : (strs idx).Perm (strs output) := hp.filter _
  have pi : (ints idx).Perm (ints output) := hp.filter _
  obtain ⟨w, hb, hc⟩ := hq.split
  simp only at w hb hc
  have hbD : q.batch = (strs idx).map D := by
    rw [hb]; exact List.map_congr_left fun l hl => hD l (mem_strs.1 hl).1
  have hcD : q.core = (ints idx).map D := by
    rw [hc]; exact List.map_congr_left fun l hl => hD l (mem_ints.1 hl).1
  have hbd : q.batchDims = (strs idx).length := hq.bd
  unfold finish at h
  split_ifs at h
  obtain ⟨r1, h1, h2⟩ := Option.bind_eq_some_iff.1 h
  unfold finishBatch at h1
  unfold finishCore at h2
  -- the batch axes
  have f1 : r1.batchDims = (strs output).length ∧ r1.batch = (strs output).map D ∧ r1.core = (ints idx).map D ∧
      ∀ σ : Lab → ℕ, r1.get ((strs output).map σ ++ (ints idx).map σ) = q.get (idx.map σ) := by
    have hidx : ∀ σ : Lab → ℕ, idx.map σ = (strs idx).map σ ++ (ints idx).map σ := fun σ => by
      rw [← List.map_append]; exact congrArg _ hq.std.symm
    split_ifs at h1 with hs
    · obtain ⟨o, ho, h1⟩ := Option.bind_eq_some_iff.1 h1
      unfold indexAll at ho
      split_ifs at ho with hall
      cases ho
      obtain ⟨e1, e2, e3, e4⟩ := (Arr.C30_array_batch q w _).2 r1 h1
      have key : ∀ σ : Lab → ℕ, ((strs output).map (strs idx).idxOf).map (((strs idx).map σ).getD · 0) = (strs output).map σ := by
        intro σ
        rw [List.map_map]
        exact List.map_congr_left fun l hl => getD_map_lab σ (hall l hl)
      refine ⟨by rw [e1, hbd, ps.length_eq], by rw [e2, hbD, key], by rw [e3, hcD], fun σ => ?_⟩
      have := e4 ((strs idx).map σ) ((ints idx).map σ) (by rw [List.length_map, hbd]) (by rw [List.length_map, hcD, List.length_map])
      rw [key] at this
      rw [this, hidx]
    · cases h1
      rw [← perm_le_one ps hs]
      exact ⟨hbd, hbD, hcD, fun σ => by rw [hidx]⟩
  obtain ⟨g1, g2, g3, g4⟩ := f1
  have hout : ∀ σ : Lab → ℕ, output.map σ = (strs output).map σ ++ (ints output).map σ := fun σ => by
    rw [← List.map_append]; exact congrArg _ hstd.symm
  have w1 : r1.WF := by
    unfold Arr.WF
    rw [r1.shape_eq, List.length_append, g2, List.length_map, g1]; omega
  split_ifs at h2 with hs
  · obtain ⟨o, ho, h2⟩ := Option.bind_eq_some_iff.1 h2
    unfold indexAll at ho
    split_ifs at ho with hall
    cases ho
    obtain ⟨e1, e2, e3, e4⟩ := (Arr.C30_array_eval r1 w1 _).2 r h2
    have key : ∀ σ : Lab → ℕ, ((ints output).map (ints idx).idxOf).map (((ints idx).map σ).getD · 0) = (ints output).map σ := by
      intro σ
      rw [List.map_map]
      exact List.map_congr_left fun l hl => getD_map_lab σ (hall l hl)
    refine ⟨by rw [e1, g1], by rw [r.shape_eq, e2, e3, g2, g3, key, hout], fun σ => ?_⟩
    have := e4 ((strs output).map σ) ((ints idx).map σ) (by rw [List.length_map, g1]) (by rw [List.length_map, g3, List.length_map])
    rw [key] at this
    rw [hout, this, g4]
  · cases h2
    have e := perm_le_one pi hs
    refine ⟨g1, by rw [r.shape_eq, g2, g3, e, hout], fun σ => ?_⟩
    rw [hout, ← e, g4]

/-- **C15** `mm_einsum` on labelled arrays: whenever it returns, for whatever contraction path, the result has the axes `output` with, for each
label, the requested Fock dimension or else the smallest size of the axes with that label, and each entry is the sum over all values of the other
labels of the product of the entries of all inputs (entries missing in an input count as zero).  The right hand side does not mention the path. -/
theorem C15_mm_einsum (args : List (Arr × List Lab)) (output : List Lab) (fd : ℕ → Option ℕ) (path : List (ℕ × ℕ)) (r : Arr)
    (hargs : ∀ p ∈ args, LWF p) (hnd : output.Nodup) (hstd : norm output = output) (hout : ∀ l ∈ output, l ∈ labels args) (hpath : path ≠ [])
    (D : Lab → ℕ) (hD1 : ∀ l d, fdim fd l = some d → D l = d)
    (hD2 : ∀ l ∈ labels args, fdim fd l = none → IsLeast {d | ∃ p ∈ args, l ∈ p.2 ∧ d = ldim p l} (D l))
    (h : mmEinsum args output fd path = some r) :
    r.batchDims = (strs output).length ∧ r.shape = output.map D ∧
    ∀ σ : Lab → ℕ, (∀ l ∈ output, σ l < D l) → r.get (output.map σ) = sumOver D (openLabels args output) (prodAt args) σ := by
  unfold mmEinsum at h
  rw [hstd] at h
  have hargs' : (args.map fun p => (p.1, norm p.2)) = args := by
    conv_rhs => rw [← List.map_id args]
    exact List.map_congr_left fun p hp => by rw [(hargs p hp).std]; rfl
  rw [hargs'] at h
  simp only [Option.bind_eq_bind] at h
  obtain ⟨st, hst, h⟩ := Option.bind_eq_some_iff.1 h
  -- a bound on all sizes
  set Bd := (args.map fun p => p.1.shape.sum).sum with hBd
  have hBdle : ∀ p ∈ args, ∀ l, ldim p l ≤ Bd := by
    intro p hp l
    have h1 : ldim p l ≤ p.1.shape.sum := by
      unfold ldim dimIn
      rw [List.getD_eq_getElem?_getD]
      cases e : p.1.shape[p.2.idxOf l]? with
      | none => exact Nat.zero_le _
      | some x => exact List.le_sum_of_mem (List.mem_of_getElem? e)
    exact h1.trans (List.le_sum_of_mem (List.mem_map.2 ⟨p, hp, rfl⟩))
  set M : Lab → ℕ := fun l => (fdim fd l).getD Bd with hMdef
  have hM1 : ∀ l d, fdim fd l = some d → M l = d := by intro l d hd; simp [hMdef, hd]
  have hM2 : ∀ l, fdim fd l = none → ∀ q ∈ args, l ∈ q.2 → ldim q l ≤ M l := by
    intro l hn q hq _; simp only [hMdef, hn, Option.getD_none]; exact hBdle q hq l
  have so := path_out hM1 path hpath hargs hM2 hst
  obtain ⟨others, q, rfl, hq1, hq2⟩ := so.last
  have ho : others = [] := by
    cases others with
    | nil => rfl
    | cons x xs => cases xs <;> simp at h
  subst ho
  simp only [List.nil_append] at h so
  obtain ⟨qa, idx⟩ := q
  simp only at h
  have hlq : ∀ l, l ∈ labels [(qa, idx)] ↔ l ∈ idx := by intro l; simp [labels]
  have lq : LWF (qa, idx) := so.lwf _ (by simp)
  have hperm : idx.Perm output := by
    rw [List.perm_ext_iff_of_nodup lq.nodup hnd]
    intro l
    constructor
    · intro hl
      rcases hq1 l hl with h' | h'
      · exact h'
      · simp [labels] at h'
    · intro hl
      exact (hlq l).1 (so.keep l hl (hout l hl))
  have hdim : ∀ l ∈ idx, ldim (qa, idx) l = D l := by
    intro l hl
    cases hf : fdim fd l with
    | some d => rw [hq2 l hl d hf, hD1 l d hf]
    | none =>
      have := so.least l ((hlq l).2 hl) hf _ (hD2 l (so.lab l ((hlq l).2 hl)) hf)
      obtain ⟨p, hp, _, e⟩ := this.1
      rw [List.mem_singleton] at hp; subst hp
      exact e.symm
  obtain ⟨e1, e2, e3⟩ := finish_spec lq hdim hperm hstd h
  refine ⟨e1, e2, fun σ hσ => ?_⟩
  rw [e3]
  have hDM : ∀ l ∈ labels args, D l ≤ M l := by
    intro l hl
    cases hf : fdim fd l with
    | some d => rw [hD1 l d hf, hM1 l d hf]
    | none =>
      obtain ⟨p, hp, hlp, e⟩ := (hD2 l hl hf).1
      rw [e]; exact hM2 l hf p hp hlp
  have hv := so.val σ fun l hl hla => (hσ l hl).trans_le (hDM l hla)
  have hopen : openLabels [(qa, idx)] output = [] := by
    apply List.eq_nil_iff_forall_not_mem.2
    intro l hl
    have := mem_open.1 hl
    exact this.2 (hperm.mem_iff.1 ((hlq l).1 this.1))
  rw [hopen] at hv
  have hin : InB qa.shape (idx.map σ) := by
    rw [inB_lab lq.nodup lq.len]
    intro l hl
    have := hdim l hl
    unfold ldim at this
    simp only at this
    rw [this]; exact hσ l (hperm.mem_iff.1 hl)
  have hL : sumOver M [] (prodAt [(qa, idx)]) σ = qa.get (idx.map σ) := by
    simp only [sumOver, prodAt, List.map_cons, List.map_nil, List.prod_cons, List.prod_nil, mul_one]
    exact Arr.entry_of_inB hin
  rw [← hL, hv]
  symm
  refine sumOver_mono (nodup_open _ _) (fun l hl => hDM l (mem_open.1 hl).1) fun τ _ hτM hτ => ?_
  obtain ⟨l, hl, hle⟩ := hτ
  have hlM := hτM l hl
  cases hf : fdim fd l with
  | some d => rw [hM1 l d hf] at hlM; rw [hD1 l d hf] at hle; omega
  | none =>
    obtain ⟨p, hp, hlp, e⟩ := (hD2 l (mem_open.1 hl).1 hf).1
    unfold prodAt
    apply List.prod_eq_zero
    rw [List.mem_map]
    refine ⟨p, hp, Arr.entry_of_not ?_⟩
    rw [inB_lab (hargs p hp).nodup (hargs p hp).len]
    intro hcon
    have := hcon l hlp
    have e' : D l = dimIn p.2 p.1.shape l := e
    omega

/-- **C15** any two paths give the same array. -/
theorem C15_path_independent (args : List (Arr × List Lab)) (output : List Lab) (fd : ℕ → Option ℕ) (path path' : List (ℕ × ℕ)) (r r' : Arr)
    (hargs : ∀ p ∈ args, LWF p) (hnd : output.Nodup) (hstd : norm output = output) (hout : ∀ l ∈ output, l ∈ labels args)
    (hpath : path ≠ []) (hpath' : path' ≠ []) (h : mmEinsum args output fd path = some r) (h' : mmEinsum args output fd path' = some r') :
    Arr.Same r r' := by
  classical
  have hex : ∀ l, ∃ d, (∀ d', fdim fd l = some d' → d = d') ∧
      (l ∈ labels args → fdim fd l = none → IsLeast {d | ∃ p ∈ args, l ∈ p.2 ∧ d = ldim p l} d) := by
    intro l
    cases hf : fdim fd l with
    | some d => exact ⟨d, fun d' e => (Option.some.inj e), fun _ e => by cases e⟩
    | none =>
      by_cases hl : l ∈ labels args
      · obtain ⟨p, hp, hlp⟩ := mem_labels.1 hl
        have hne : ∃ d, d ∈ {d | ∃ p ∈ args, l ∈ p.2 ∧ d = ldim p l} := ⟨_, p, hp, hlp, rfl⟩
        refine ⟨Nat.find hne, fun d' e => (by cases e), fun _ _ => ⟨Nat.find_spec hne, fun x hx => Nat.find_min' hne hx⟩⟩
      · exact ⟨0, fun d' e => (by cases e), fun h => absurd h hl⟩
  choose D hD1 hD2 using hex
  obtain ⟨a1, a2, a3⟩ := C15_mm_einsum args output fd path r hargs hnd hstd hout hpath D (fun l d => hD1 l d) hD2 h
  obtain ⟨b1, b2, b3⟩ := C15_mm_einsum args output fd path' r' hargs hnd hstd hout hpath' D (fun l d => hD1 l d) hD2 h'
  refine ⟨a1.trans b1.symm, a2.trans b2.symm, fun k hk => ?_⟩
  rw [a2] at hk
  have hkl : k.length = output.length := by rw [inB_length hk, List.length_map]
  have e : output.map (assign output k) = k := by
    apply List.ext_getElem (by simp [hkl])
    intro i i1 i2
    simp only [List.length_map] at i1
    rw [List.getElem_map]
    unfold assign
    rw [hnd.idxOf_getElem i i1, List.getD_eq_getElem?_getD, List.getElem?_eq_getElem i2]
    rfl
  rw [← e] at hk ⊢
  rw [inB_map] at hk
  rw [a3 _ hk, b3 _ hk]

end Verif.Arr
