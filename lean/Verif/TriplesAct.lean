import Verif.Triples

/-!
# What the built-in gates do to an arbitrary ansatz (property C52)

`f` is any ansatz: any number of variables, any batch, any superposition, any derived variables.  No convergence hypothesis.
-/

namespace Verif.Triples
open Verif.Fock Verif.Batch Verif.Gauss Verif.PolyExp

/-- The value of `f` when the variable with label `l` has the value `v l`; `c` lists the labels of the variables. -/
noncomputable def ev (f : PolyExp) (β c : List ℕ) (v : ℕ → ℂ) : ℂ := f.call β fun p => v (c.getD p 0)

/-- `contract` succeeds (no error and no infinite arrays), and the value of the result is `F o v` at the batch index `o` and at
the values `v` of the labels. -/
def ContractsTo (f g : PolyExp) (b1 c1 b2 c2 bo co : List ℕ) (F : List ℕ → (ℕ → ℂ) → ℂ) : Prop :=
  ∃ h, f.contract g b1 c1 b2 c2 bo co = some (.finite h) ∧ h.WF ∧ h.numCV = co.length ∧
    h.outBatch = (bo.map fun d => if d ∈ b1 then Batch.sizeOf b1 f.outBatch d else Batch.sizeOf b2 g.outBatch d) ∧
    ∀ o, InB h.outBatch o → ∀ v, ev h o co v = F o v

theorem call_congr {f : PolyExp} {β : List ℕ} {z z' : ℕ → ℂ} (h : ∀ i < f.numCV, z i = z' i) : f.call β z = f.call β z' := by
  rw [call_eq_nsum, call_eq_nsum]
  apply nsum_congr
  intro τ _
  unfold PolyExp.termAt
  exact termVal_congr (fun _ _ _ _ => rfl) (fun _ _ => rfl) (fun _ _ => rfl) h

theorem ev_congr {f : PolyExp} {β c : List ℕ} {v v' : ℕ → ℂ} (hc : c.length = f.numCV) (h : ∀ l ∈ c, v l = v' l) : ev f β c v = ev f β c v' := by
  unfold ev
  apply call_congr
  intro i hi
  apply h
  rw [List.getD_eq_getElem _ _ (by rw [hc]; exact hi)]
  exact List.getElem_mem _

theorem mem_co {f g : PolyExp} {b1 c1 b2 c2 bo co : List ℕ} (H : Compat f g b1 c1 b2 c2 bo co) {l : ℕ} :
    l ∈ co ↔ (l ∈ c1 ∧ l ∉ c2) ∨ (l ∈ c2 ∧ l ∉ c1) := by
  rw [H.out.mem_iff]
  simp

theorem idx_co {co : List ℕ} {l : ℕ} (h : l ∈ co) (v : ℕ → ℂ) : (fun p => v (co.getD p 0)) (co.idxOf l) = v l := by
  dsimp only
  rw [getD_idxOf h]

variable {f : PolyExp} {b1 c1 b2 c2 bo co : List ℕ} {B : List ℕ} {N : ℕ} {A : List ℕ → ℕ → ℕ → ℂ} {b : List ℕ → ℕ → ℂ} {c : List ℕ → ℂ}

theorem kernel_right (hf : f.WF) (sf : SymAll f) (sA : ∀ β, ∀ i < N, ∀ j < N, A β i j = A β j i)
    (H : Compat f (mk B N A b c) b1 c1 b2 c2 bo co)
    (hz : ∀ β, ∀ i < N, ∀ j < N, c2.getD i 0 ∈ c1 → c2.getD j 0 ∈ c1 → A β i j = 0) :
    ContractsTo f (mk B N A b c) b1 c1 b2 c2 bo co fun o v =>
      ev f (restrict (· ∈ b1) bo o) c1 (fun l => if l ∈ c2 then b (restrict (· ∈ b2) bo o) (c2.idxOf l) +
        ∑ j ∈ Finset.range N, A (restrict (· ∈ b2) bo o) j (c2.idxOf l) * (if c2.getD j 0 ∈ c1 then 0 else v (c2.getD j 0)) else v l) *
      (Complex.exp (1 / 2 * ∑ i ∈ Finset.range N, ∑ j ∈ Finset.range N, (if c2.getD i 0 ∈ c1 then 0 else v (c2.getD i 0)) *
          (if c2.getD j 0 ∈ c1 then 0 else v (c2.getD j 0)) * A (restrict (· ∈ b2) bo o) i j +
        ∑ i ∈ Finset.range N, (if c2.getD i 0 ∈ c1 then 0 else v (c2.getD i 0)) * b (restrict (· ∈ b2) bo o) i) * c (restrict (· ∈ b2) bo o)) := by
  have hzb : ZeroBlock (mk B N A b c) c2 (c1.filter (· ∈ c2)) := by
    intro β i hi j hj h1 h2
    rw [mk_numCV] at hi hj
    exact hz β i hi j hj (mem_sharedL.1 h1).1 (mem_sharedL.1 h2).1
  obtain ⟨h, h1, h2, h3, h4, h5⟩ := contract_kernel_right hf mk_wf sf (mk_symm sA) H mk_derived hzb
  refine ⟨h, h1, h2, h3, h4, ?_⟩
  intro o ho v
  rw [h4] at ho
  unfold ev
  rw [h5 o ho, mk_lsBatch, nsum_nil, List.append_nil]
  have hw : ∀ j < N, atLabel c2 (c1.filter (· ∈ c2)) 0 co (fun p => v (co.getD p 0)) j = if c2.getD j 0 ∈ c1 then 0 else v (c2.getD j 0) := by
    intro j hj
    have hm : c2.getD j 0 ∈ c2 := by
      rw [List.getD_eq_getElem _ _ (by rw [H.lc2, mk_numCV]; exact hj)]; exact List.getElem_mem _
    unfold atLabel
    by_cases hc : c2.getD j 0 ∈ c1
    · rw [if_pos (mem_sharedL.2 ⟨hc, hm⟩), if_pos hc]; rfl
    · rw [if_neg (fun h => hc (mem_sharedL.1 h).1), if_neg hc, idx_co ((mem_co H).2 (Or.inr ⟨hm, hc⟩)) v]
  refine congr (congrArg HMul.hMul ?_) ?_
  · apply call_congr
    intro i hi
    have hm : c1.getD i 0 ∈ c1 := by
      rw [List.getD_eq_getElem _ _ (by rw [H.lc1]; exact hi)]; exact List.getElem_mem _
    unfold atLabel
    by_cases hc : c1.getD i 0 ∈ c2
    · have hS : c1.getD i 0 ∈ c1.filter (· ∈ c2) := mem_sharedL.2 ⟨hm, hc⟩
      rw [if_pos hS]
      show _ = if c1.getD i 0 ∈ c2 then _ else _
      rw [if_pos hc]
      unfold kernelPt
      rw [getD_idxOf hS, mk_numCV]
      refine congrArg (HAdd.hAdd _) ?_
      refine Finset.sum_congr rfl fun j hj => ?_
      rw [hw j (Finset.mem_range.1 hj)]; rfl
    · show _ = if c1.getD i 0 ∈ c2 then _ else _
      rw [if_neg (fun h => hc (mem_sharedL.1 h).2), if_neg hc, idx_co ((mem_co H).2 (Or.inl ⟨hm, hc⟩)) v]
  · rw [mk_term]
    have e1 : ∑ i ∈ Finset.range N, ∑ j ∈ Finset.range N, atLabel c2 (c1.filter (· ∈ c2)) 0 co (fun p => v (co.getD p 0)) i *
        atLabel c2 (c1.filter (· ∈ c2)) 0 co (fun p => v (co.getD p 0)) j * A (restrict (· ∈ b2) bo o) i j =
        ∑ i ∈ Finset.range N, ∑ j ∈ Finset.range N, (if c2.getD i 0 ∈ c1 then 0 else v (c2.getD i 0)) *
          (if c2.getD j 0 ∈ c1 then 0 else v (c2.getD j 0)) * A (restrict (· ∈ b2) bo o) i j := by
      refine Finset.sum_congr rfl fun i hi => Finset.sum_congr rfl fun j hj => ?_
      rw [hw i (Finset.mem_range.1 hi), hw j (Finset.mem_range.1 hj)]
    have e2 : ∑ i ∈ Finset.range N, atLabel c2 (c1.filter (· ∈ c2)) 0 co (fun p => v (co.getD p 0)) i * b (restrict (· ∈ b2) bo o) i =
        ∑ i ∈ Finset.range N, (if c2.getD i 0 ∈ c1 then 0 else v (c2.getD i 0)) * b (restrict (· ∈ b2) bo o) i := by
      refine Finset.sum_congr rfl fun i hi => ?_
      rw [hw i (Finset.mem_range.1 hi)]
    rw [e1, e2]

theorem kernel_left {g : PolyExp} (hg : g.WF) (sg : SymAll g) (sA : ∀ β, ∀ i < N, ∀ j < N, A β i j = A β j i)
    (H : Compat (mk B N A b c) g b1 c1 b2 c2 bo co)
    (hz : ∀ β, ∀ i < N, ∀ j < N, c1.getD i 0 ∈ c2 → c1.getD j 0 ∈ c2 → A β i j = 0) :
    ContractsTo (mk B N A b c) g b1 c1 b2 c2 bo co fun o v =>
      (Complex.exp (1 / 2 * ∑ i ∈ Finset.range N, ∑ j ∈ Finset.range N, (if c1.getD i 0 ∈ c2 then 0 else v (c1.getD i 0)) *
          (if c1.getD j 0 ∈ c2 then 0 else v (c1.getD j 0)) * A (restrict (· ∈ b1) bo o) i j +
        ∑ i ∈ Finset.range N, (if c1.getD i 0 ∈ c2 then 0 else v (c1.getD i 0)) * b (restrict (· ∈ b1) bo o) i) * c (restrict (· ∈ b1) bo o)) *
      ev g (restrict (· ∈ b2) bo o) c2 (fun l => if l ∈ c1 then b (restrict (· ∈ b1) bo o) (c1.idxOf l) +
        ∑ j ∈ Finset.range N, A (restrict (· ∈ b1) bo o) j (c1.idxOf l) * (if c1.getD j 0 ∈ c2 then 0 else v (c1.getD j 0)) else v l) := by
  have hzb : ZeroBlock (mk B N A b c) c1 (c1.filter (· ∈ c2)) := by
    intro β i hi j hj h1 h2
    rw [mk_numCV] at hi hj
    exact hz β i hi j hj (mem_sharedL.1 h1).2 (mem_sharedL.1 h2).2
  obtain ⟨h, h1, h2, h3, h4, h5⟩ := contract_kernel_left mk_wf hg (mk_symm sA) sg H mk_derived hzb
  refine ⟨h, h1, h2, h3, h4, ?_⟩
  intro o ho v
  rw [h4] at ho
  unfold ev
  rw [h5 o ho, mk_lsBatch, nsum_nil, List.append_nil]
  have hw : ∀ j < N, atLabel c1 (c1.filter (· ∈ c2)) 0 co (fun p => v (co.getD p 0)) j = if c1.getD j 0 ∈ c2 then 0 else v (c1.getD j 0) := by
    intro j hj
    have hm : c1.getD j 0 ∈ c1 := by
      rw [List.getD_eq_getElem _ _ (by rw [H.lc1, mk_numCV]; exact hj)]; exact List.getElem_mem _
    unfold atLabel
    by_cases hc : c1.getD j 0 ∈ c2
    · rw [if_pos (mem_sharedL.2 ⟨hm, hc⟩), if_pos hc]; rfl
    · rw [if_neg (fun h => hc (mem_sharedL.1 h).2), if_neg hc, idx_co ((mem_co H).2 (Or.inl ⟨hm, hc⟩)) v]
  refine congr (congrArg HMul.hMul ?_) ?_
  · rw [mk_term]
    have e1 : ∑ i ∈ Finset.range N, ∑ j ∈ Finset.range N, atLabel c1 (c1.filter (· ∈ c2)) 0 co (fun p => v (co.getD p 0)) i *
        atLabel c1 (c1.filter (· ∈ c2)) 0 co (fun p => v (co.getD p 0)) j * A (restrict (· ∈ b1) bo o) i j =
        ∑ i ∈ Finset.range N, ∑ j ∈ Finset.range N, (if c1.getD i 0 ∈ c2 then 0 else v (c1.getD i 0)) *
          (if c1.getD j 0 ∈ c2 then 0 else v (c1.getD j 0)) * A (restrict (· ∈ b1) bo o) i j := by
      refine Finset.sum_congr rfl fun i hi => Finset.sum_congr rfl fun j hj => ?_
      rw [hw i (Finset.mem_range.1 hi), hw j (Finset.mem_range.1 hj)]
    have e2 : ∑ i ∈ Finset.range N, atLabel c1 (c1.filter (· ∈ c2)) 0 co (fun p => v (co.getD p 0)) i * b (restrict (· ∈ b1) bo o) i =
        ∑ i ∈ Finset.range N, (if c1.getD i 0 ∈ c2 then 0 else v (c1.getD i 0)) * b (restrict (· ∈ b1) bo o) i := by
      refine Finset.sum_congr rfl fun i hi => ?_
      rw [hw i (Finset.mem_range.1 hi)]
    rw [e1, e2]
  · apply call_congr
    intro i hi
    have hm : c2.getD i 0 ∈ c2 := by
      rw [List.getD_eq_getElem _ _ (by rw [H.lc2]; exact hi)]; exact List.getElem_mem _
    unfold atLabel
    show _ = if c2.getD i 0 ∈ c1 then _ else _
    by_cases hc : c2.getD i 0 ∈ c1
    · have hS : c2.getD i 0 ∈ c1.filter (· ∈ c2) := mem_sharedL.2 ⟨hc, hm⟩
      rw [if_pos hS, if_pos hc]
      unfold kernelPt
      rw [getD_idxOf hS, mk_numCV]
      refine congrArg (HAdd.hAdd _) ?_
      refine Finset.sum_congr rfl fun j hj => ?_
      rw [hw j (Finset.mem_range.1 hj)]; rfl
    · rw [if_neg (fun h => hc (mem_sharedL.1 h).1), if_neg hc, idx_co ((mem_co H).2 (Or.inr ⟨hm, hc⟩)) v]

theorem ContractsTo.congr {f g : PolyExp} {F G : List ℕ → (ℕ → ℂ) → ℂ} (h : ContractsTo f g b1 c1 b2 c2 bo co F)
    (e : ∀ o v, InB (bo.map fun d => if d ∈ b1 then Batch.sizeOf b1 f.outBatch d else Batch.sizeOf b2 g.outBatch d) o → F o v = G o v) :
    ContractsTo f g b1 c1 b2 c2 bo co G := by
  obtain ⟨h, h1, h2, h3, h4, h5⟩ := h
  exact ⟨h, h1, h2, h3, h4, fun o ho v => by rw [h5 o ho v, e o v (h4 ▸ ho)]⟩

/-- A one-mode gate whose input-input entry vanishes: output label `x`, input label `l`. -/
theorem gate1 (hf : f.WF) (sf : SymAll f) {x l : ℕ} (hA : ∀ β, A β 1 1 = 0) (sA : ∀ β, A β 1 0 = A β 0 1)
    (H : Compat f (mk B 2 A b c) b1 c1 b2 [x, l] bo co) (hl : l ∈ c1) (hx : x ∉ c1) :
    ContractsTo f (mk B 2 A b c) b1 c1 b2 [x, l] bo co fun o v =>
      Complex.exp (1 / 2 * A (restrict (· ∈ b2) bo o) 0 0 * v x ^ 2 + b (restrict (· ∈ b2) bo o) 0 * v x) * c (restrict (· ∈ b2) bo o) *
        ev f (restrict (· ∈ b1) bo o) c1
          (Function.update v l (b (restrict (· ∈ b2) bo o) 1 + A (restrict (· ∈ b2) bo o) 0 1 * v x)) := by
  have hxl : x ≠ l := fun e => hx (e ▸ hl)
  have key := kernel_right hf sf (N := 2) (A := A) (b := b) (c := c) (c2 := [x, l]) (by
    intro β i hi j hj
    interval_cases i <;> interval_cases j <;> simp [sA]) H (by
    intro β i hi j hj h1 h2
    interval_cases i <;> interval_cases j <;> simp_all)
  refine key.congr ?_
  intro o v _
  rw [mul_comm]
  refine congr (congrArg HMul.hMul ?_) ?_
  · simp only [Finset.sum_range_succ, Finset.sum_range_zero, List.getD_cons_zero, List.getD_cons_succ, if_neg hx, if_pos hl]
    refine congrArg (· * _) (congrArg Complex.exp ?_)
    ring
  · apply ev_congr H.lc1
    intro m hm
    by_cases e : m = l
    · subst e
      rw [if_pos (by simp), Function.update_self]
      have : List.idxOf m [x, m] = 1 := by
        rw [List.idxOf_cons_ne _ hxl]; simp
      rw [this]
      simp only [Finset.sum_range_succ, Finset.sum_range_zero, List.getD_cons_zero, List.getD_cons_succ, if_neg hx, if_pos hl, mul_zero, zero_add, add_zero]
    · rw [Function.update_of_ne e, if_neg]
      simp only [List.mem_cons, List.not_mem_nil, or_false, not_or]
      exact ⟨fun h => hx (h ▸ hm), e⟩

/-- A two-mode gate without input-input entries: output labels `x0, x1`, input labels `l0, l1`. -/
theorem gate2 (hf : f.WF) (sf : SymAll f) {x0 x1 l0 l1 : ℕ} (sA : ∀ β, ∀ i < 4, ∀ j < 4, A β i j = A β j i)
    (hA : ∀ β, ∀ i < 2, ∀ j < 2, A β (2 + i) (2 + j) = 0)
    (H : Compat f (mk B 4 A b c) b1 c1 b2 [x0, x1, l0, l1] bo co) (h0 : l0 ∈ c1) (h1 : l1 ∈ c1) (hx0 : x0 ∉ c1) (hx1 : x1 ∉ c1) :
    ContractsTo f (mk B 4 A b c) b1 c1 b2 [x0, x1, l0, l1] bo co fun o v =>
      let β := restrict (· ∈ b2) bo o
      Complex.exp (1 / 2 * A β 0 0 * v x0 ^ 2 + A β 0 1 * v x0 * v x1 + 1 / 2 * A β 1 1 * v x1 ^ 2 + b β 0 * v x0 + b β 1 * v x1) * c β *
        ev f (restrict (· ∈ b1) bo o) c1
          (Function.update (Function.update v l0 (b β 2 + A β 0 2 * v x0 + A β 1 2 * v x1)) l1 (b β 3 + A β 0 3 * v x0 + A β 1 3 * v x1)) := by
  have n2 := H.nc2
  have a0 : x0 ≠ l0 := fun e => hx0 (e ▸ h0)
  have a1 : x0 ≠ l1 := fun e => hx0 (e ▸ h1)
  have a2 : x1 ≠ l0 := fun e => hx1 (e ▸ h0)
  have a3 : x1 ≠ l1 := fun e => hx1 (e ▸ h1)
  have a4 : l0 ≠ l1 := by simp at n2; tauto
  have key := kernel_right hf sf (N := 4) (A := A) (b := b) (c := c) (c2 := [x0, x1, l0, l1]) sA H (by
    intro β i hi j hj h1 h2
    rcases Nat.lt_or_ge i 2 with hi2 | hi2
    · interval_cases i <;> simp_all
    rcases Nat.lt_or_ge j 2 with hj2 | hj2
    · interval_cases j <;> simp_all
    obtain ⟨i', rfl⟩ := Nat.exists_eq_add_of_le hi2
    obtain ⟨j', rfl⟩ := Nat.exists_eq_add_of_le hj2
    exact hA β i' (by omega) j' (by omega))
  refine key.congr ?_
  intro o v _
  rw [mul_comm]
  dsimp only
  refine congr (congrArg HMul.hMul ?_) ?_
  · simp only [Finset.sum_range_succ, Finset.sum_range_zero, List.getD_cons_zero, List.getD_cons_succ, if_neg hx0, if_neg hx1, if_pos h0, if_pos h1]
    refine congrArg (· * _) (congrArg Complex.exp ?_)
    rw [sA _ 1 (by omega) 0 (by omega)]
    ring
  · apply ev_congr H.lc1
    intro m hm
    by_cases e1 : m = l1
    · subst e1
      rw [if_pos (by simp), Function.update_self]
      have : List.idxOf m [x0, x1, l0, m] = 3 := by
        rw [List.idxOf_cons_ne _ a1, List.idxOf_cons_ne _ a3, List.idxOf_cons_ne _ a4]; simp
      rw [this]
      simp only [Finset.sum_range_succ, Finset.sum_range_zero, List.getD_cons_zero, List.getD_cons_succ, if_neg hx0, if_neg hx1, if_pos h0, if_pos h1,
        mul_zero, zero_add, add_zero, add_assoc]
    rw [Function.update_of_ne e1]
    by_cases e0 : m = l0
    · subst e0
      rw [if_pos (by simp), Function.update_self]
      have : List.idxOf m [x0, x1, m, l1] = 2 := by
        rw [List.idxOf_cons_ne _ a0, List.idxOf_cons_ne _ a2]; simp
      rw [this]
      simp only [Finset.sum_range_succ, Finset.sum_range_zero, List.getD_cons_zero, List.getD_cons_succ, if_neg hx0, if_neg hx1, if_pos h0, if_pos h1,
        mul_zero, zero_add, add_zero, add_assoc]
    · rw [Function.update_of_ne e0, if_neg]
      simp only [List.mem_cons, List.not_mem_nil, or_false, not_or]
      exact ⟨fun h => hx0 (h ▸ hm), fun h => hx1 (h ▸ hm), e0, e1⟩

/-- A one-mode channel without input-input entries: labels `xb` (output bra), `lb` (input bra), `xk` (output ket), `lk` (input ket). -/
theorem chan1 (hf : f.WF) (sf : SymAll f) {xb lb xk lk : ℕ} (sA : ∀ β, ∀ i < 4, ∀ j < 4, A β i j = A β j i)
    (hA : ∀ β, A β 1 1 = 0 ∧ A β 1 3 = 0 ∧ A β 3 3 = 0)
    (H : Compat f (mk B 4 A b c) b1 c1 b2 [xb, lb, xk, lk] bo co) (h0 : lb ∈ c1) (h1 : lk ∈ c1) (hx0 : xb ∉ c1) (hx1 : xk ∉ c1) :
    ContractsTo f (mk B 4 A b c) b1 c1 b2 [xb, lb, xk, lk] bo co fun o v =>
      let β := restrict (· ∈ b2) bo o
      Complex.exp (1 / 2 * A β 0 0 * v xb ^ 2 + A β 0 2 * v xb * v xk + 1 / 2 * A β 2 2 * v xk ^ 2 + b β 0 * v xb + b β 2 * v xk) * c β *
        ev f (restrict (· ∈ b1) bo o) c1
          (Function.update (Function.update v lb (b β 1 + A β 0 1 * v xb + A β 2 1 * v xk)) lk (b β 3 + A β 0 3 * v xb + A β 2 3 * v xk)) := by
  have n2 := H.nc2
  have a0 : xb ≠ lb := fun e => hx0 (e ▸ h0)
  have a1 : xb ≠ lk := fun e => hx0 (e ▸ h1)
  have a2 : xk ≠ lb := fun e => hx1 (e ▸ h0)
  have a3 : xk ≠ lk := fun e => hx1 (e ▸ h1)
  have a4 : lb ≠ lk := by simp at n2; tauto
  have key := kernel_right hf sf (N := 4) (A := A) (b := b) (c := c) (c2 := [xb, lb, xk, lk]) sA H (by
    intro β i hi j hj h1 h2
    obtain ⟨k1, k2, k3⟩ := hA β
    have k4 : A β 3 1 = 0 := by rw [sA β 3 (by omega) 1 (by omega), k2]
    interval_cases i <;> interval_cases j <;> simp_all)
  refine key.congr ?_
  intro o v _
  rw [mul_comm]
  dsimp only
  refine congr (congrArg HMul.hMul ?_) ?_
  · simp only [Finset.sum_range_succ, Finset.sum_range_zero, List.getD_cons_zero, List.getD_cons_succ, if_neg hx0, if_neg hx1, if_pos h0, if_pos h1]
    refine congrArg (· * _) (congrArg Complex.exp ?_)
    rw [sA _ 2 (by omega) 0 (by omega)]
    ring
  · apply ev_congr H.lc1
    intro m hm
    by_cases e1 : m = lk
    · subst e1
      rw [if_pos (by simp), Function.update_self]
      have : List.idxOf m [xb, lb, xk, m] = 3 := by
        rw [List.idxOf_cons_ne _ a1, List.idxOf_cons_ne _ a4, List.idxOf_cons_ne _ a3]; simp
      rw [this]
      simp only [Finset.sum_range_succ, Finset.sum_range_zero, List.getD_cons_zero, List.getD_cons_succ, if_neg hx0, if_neg hx1, if_pos h0, if_pos h1,
        mul_zero, zero_add, add_zero, add_assoc]
    rw [Function.update_of_ne e1]
    by_cases e0 : m = lb
    · subst e0
      rw [if_pos (by simp), Function.update_self]
      have : List.idxOf m [xb, m, xk, lk] = 1 := by
        rw [List.idxOf_cons_ne _ a0]; simp
      rw [this]
      simp only [Finset.sum_range_succ, Finset.sum_range_zero, List.getD_cons_zero, List.getD_cons_succ, if_neg hx0, if_neg hx1, if_pos h0, if_pos h1,
        mul_zero, zero_add, add_zero, add_assoc]
    · rw [Function.update_of_ne e0, if_neg]
      simp only [List.mem_cons, List.not_mem_nil, or_false, not_or]
      exact ⟨fun h => hx0 (h ▸ hm), e0, fun h => hx1 (h ▸ hm), e1⟩

section left
variable {g : PolyExp}

/-- A state with one variable and no quadratic part, absorbed by an arbitrary ansatz. -/
theorem state1_left (hg : g.WF) (sg : SymAll g) {l : ℕ} (hA : ∀ β, A β 0 0 = 0)
    (H : Compat (mk B 1 A b c) g b1 [l] b2 c2 bo co) (hl : l ∈ c2) :
    ContractsTo (mk B 1 A b c) g b1 [l] b2 c2 bo co fun o v =>
      c (restrict (· ∈ b1) bo o) * ev g (restrict (· ∈ b2) bo o) c2 (Function.update v l (b (restrict (· ∈ b1) bo o) 0)) := by
  have key := kernel_left hg sg (N := 1) (A := A) (b := b) (c := c) (c1 := [l]) (by
    intro β i hi j hj
    interval_cases i; interval_cases j; rfl) H (by
    intro β i hi j hj h1 h2
    interval_cases i; interval_cases j; exact hA β)
  refine key.congr ?_
  intro o v _
  refine congr (congrArg HMul.hMul ?_) ?_
  · simp only [Finset.sum_range_succ, Finset.sum_range_zero, List.getD_cons_zero, if_pos hl]
    simp
  · apply ev_congr H.lc2
    intro m hm
    by_cases e : m = l
    · subst e
      rw [if_pos (by simp), Function.update_self]
      simp only [List.idxOf_cons_self, Finset.sum_range_succ, Finset.sum_range_zero, List.getD_cons_zero, if_pos hl, mul_zero, zero_add, add_zero]
    · rw [Function.update_of_ne e, if_neg (by simpa using e)]

/-- A state with two variables and no quadratic part. -/
theorem state2_left (hg : g.WF) (sg : SymAll g) {l0 l1 : ℕ} (hA : ∀ β, ∀ i < 2, ∀ j < 2, A β i j = 0)
    (H : Compat (mk B 2 A b c) g b1 [l0, l1] b2 c2 bo co) (h0 : l0 ∈ c2) (h1 : l1 ∈ c2) :
    ContractsTo (mk B 2 A b c) g b1 [l0, l1] b2 c2 bo co fun o v =>
      c (restrict (· ∈ b1) bo o) * ev g (restrict (· ∈ b2) bo o) c2
        (Function.update (Function.update v l0 (b (restrict (· ∈ b1) bo o) 0)) l1 (b (restrict (· ∈ b1) bo o) 1)) := by
  have n1 := H.nc1
  have a : l0 ≠ l1 := by simpa using n1
  have key := kernel_left hg sg (N := 2) (A := A) (b := b) (c := c) (c1 := [l0, l1]) (by
    intro β i hi j hj
    rw [hA β i hi j hj, hA β j hj i hi]) H (by
    intro β i hi j hj _ _
    exact hA β i hi j hj)
  refine key.congr ?_
  intro o v _
  refine congr (congrArg HMul.hMul ?_) ?_
  · simp only [Finset.sum_range_succ, Finset.sum_range_zero, List.getD_cons_zero, List.getD_cons_succ, if_pos h0, if_pos h1]
    simp
  · apply ev_congr H.lc2
    intro m hm
    by_cases e1 : m = l1
    · subst e1
      rw [if_pos (by simp), Function.update_self]
      have : List.idxOf m [l0, m] = 1 := by rw [List.idxOf_cons_ne _ a]; simp
      simp only [this, Finset.sum_range_succ, Finset.sum_range_zero, List.getD_cons_zero, List.getD_cons_succ, if_pos h0, if_pos h1, mul_zero,
        zero_add, add_zero]
    rw [Function.update_of_ne e1]
    by_cases e0 : m = l0
    · subst e0
      rw [if_pos (by simp), Function.update_self]
      simp only [List.idxOf_cons_self, Finset.sum_range_succ, Finset.sum_range_zero, List.getD_cons_zero, List.getD_cons_succ, if_pos h0, if_pos h1,
        mul_zero, zero_add, add_zero]
    · rw [Function.update_of_ne e0, if_neg (by simp [e0, e1])]

/-- A one-mode channel without output-output entries, absorbed by an arbitrary ansatz: labels `mb` (output bra), `lb` (input bra),
`mk'` (output ket), `lk` (input ket). -/
theorem chan1_left (hg : g.WF) (sg : SymAll g) {mb lb mk' lk : ℕ} (sA : ∀ β, ∀ i < 4, ∀ j < 4, A β i j = A β j i)
    (hA : ∀ β, A β 0 0 = 0 ∧ A β 0 2 = 0 ∧ A β 2 2 = 0)
    (H : Compat (mk B 4 A b c) g b1 [mb, lb, mk', lk] b2 c2 bo co) (h0 : mb ∈ c2) (h1 : mk' ∈ c2) (hx0 : lb ∉ c2) (hx1 : lk ∉ c2) :
    ContractsTo (mk B 4 A b c) g b1 [mb, lb, mk', lk] b2 c2 bo co fun o v =>
      let β := restrict (· ∈ b1) bo o
      Complex.exp (1 / 2 * A β 1 1 * v lb ^ 2 + A β 1 3 * v lb * v lk + 1 / 2 * A β 3 3 * v lk ^ 2 + b β 1 * v lb + b β 3 * v lk) * c β *
        ev g (restrict (· ∈ b2) bo o) c2
          (Function.update (Function.update v mb (b β 0 + A β 1 0 * v lb + A β 3 0 * v lk)) mk' (b β 2 + A β 1 2 * v lb + A β 3 2 * v lk)) := by
  have n1 := H.nc1
  have a0 : lb ≠ mb := fun e => hx0 (e ▸ h0)
  have a1 : lb ≠ mk' := fun e => hx0 (e ▸ h1)
  have a2 : lk ≠ mb := fun e => hx1 (e ▸ h0)
  have a3 : lk ≠ mk' := fun e => hx1 (e ▸ h1)
  have a4 : mb ≠ mk' := by simp at n1; tauto
  have key := kernel_left hg sg (N := 4) (A := A) (b := b) (c := c) (c1 := [mb, lb, mk', lk]) sA H (by
    intro β i hi j hj h1 h2
    obtain ⟨k1, k2, k3⟩ := hA β
    have k4 : A β 2 0 = 0 := by rw [sA β 2 (by omega) 0 (by omega), k2]
    interval_cases i <;> interval_cases j <;> simp_all)
  refine key.congr ?_
  intro o v _
  dsimp only
  refine congr (congrArg HMul.hMul ?_) ?_
  · simp only [Finset.sum_range_succ, Finset.sum_range_zero, List.getD_cons_zero, List.getD_cons_succ, if_neg hx0, if_neg hx1, if_pos h0, if_pos h1]
    refine congrArg (· * _) (congrArg Complex.exp ?_)
    rw [sA _ 3 (by omega) 1 (by omega)]
    ring
  · apply ev_congr H.lc2
    intro m hm
    by_cases e1 : m = mk'
    · subst e1
      rw [if_pos (by simp), Function.update_self]
      have : List.idxOf m [mb, lb, m, lk] = 2 := by
        rw [List.idxOf_cons_ne _ a4, List.idxOf_cons_ne _ a1]; simp
      rw [this]
      simp only [Finset.sum_range_succ, Finset.sum_range_zero, List.getD_cons_zero, List.getD_cons_succ, if_neg hx0, if_neg hx1, if_pos h0, if_pos h1,
        mul_zero, zero_add, add_zero, add_assoc]
    rw [Function.update_of_ne e1]
    by_cases e0 : m = mb
    · subst e0
      rw [if_pos (by simp), Function.update_self]
      rw [List.idxOf_cons_self]
      simp only [Finset.sum_range_succ, Finset.sum_range_zero, List.getD_cons_zero, List.getD_cons_succ, if_neg hx0, if_neg hx1, if_pos h0, if_pos h1,
        mul_zero, zero_add, add_zero, add_assoc]
    · rw [Function.update_of_ne e0, if_neg]
      simp only [List.mem_cons, List.not_mem_nil, or_false, not_or]
      exact ⟨e0, fun h => hx0 (h ▸ hm), e1, fun h => hx1 (h ▸ hm)⟩

end left

end Verif.Triples
