import Verif.ArrayAlg

/-!
# `ArrayAnsatz.contract` and `mm_einsum` on Fock arrays (C15)
-/

namespace Verif.Arr

open Verif.Fock Verif.PolyExp

/-- An axis label: batch labels are strings, core labels are integers. -/
inductive Lab
  | str (n : ℕ)
  | int (n : ℕ)
  deriving DecidableEq

namespace Lab
/-- `isinstance(label, str)`. -/
def isStr : Lab → Bool
  | str _ => true
  | int _ => false
end Lab

/-- physics/mm_einsum.py:34-35 `_strings`. -/
def strs (l : List Lab) : List Lab := l.filter Lab.isStr
/-- physics/mm_einsum.py:30-31 `_ints`. -/
def ints (l : List Lab) : List Lab := l.filter fun x => !x.isStr

/-- `∑_{v₁ < D l₁} ∑_{v₂ < D l₂} … F (σ[l₁ ↦ v₁, l₂ ↦ v₂, …])`: the sum over all values of the labels in the list. -/
noncomputable def sumOver (D : Lab → ℕ) : List Lab → ((Lab → ℕ) → ℂ) → (Lab → ℕ) → ℂ
  | [], F, σ => F σ
  | l :: ls, F, σ => ∑ v ∈ Finset.range (D l), sumOver D ls F (Function.update σ l v)

/-- The values of the labels `ls` given by the multi-index `k`. -/
def assign (ls : List Lab) (k : List ℕ) : Lab → ℕ := fun l => k.getD (ls.idxOf l) 0

/-- The size of the axis with label `l`. -/
def dimIn (idx : List Lab) (shape : List ℕ) (l : Lab) : ℕ := shape.getD (idx.idxOf l) 0

/-- physics/ansatz/array_ansatz.py:210-219: the size of a label after cutting shared labels to the smaller size. -/
def cdim (a b : Arr) (i1 i2 : List Lab) (l : Lab) : ℕ :=
  if l ∈ i1 then (if l ∈ i2 then min (dimIn i1 a.shape l) (dimIn i2 b.shape l) else dimIn i1 a.shape l) else dimIn i2 b.shape l

/-- The labels summed by einsum: those of the inputs that are not in the output. -/
def summed (i1 i2 out : List Lab) : List Lab := (i1 ++ i2.filter (· ∉ i1)).filter (· ∉ out)

/-- physics/ansatz/array_ansatz.py:159-226 `contract`, with `einsum` as the sum over all labels that are not in the output.
Simplifications: labels repeated within one operand are not modelled (`none`); einsum's limit on the number of letters is ignored. -/
noncomputable def contract (a b : Arr) (i1 i2 out : List Lab) : Option Arr :=
  if i1.length ≠ a.shape.length ∨ i2.length ≠ b.shape.length then none
  else if ¬ (∀ l ∈ out, l ∈ i1 ++ i2) then none
  else if ¬ (i1.Nodup ∧ i2.Nodup ∧ out.Nodup) then none
  else
    some { batchDims := (strs out).length
           shape := out.map (cdim a b i1 i2)
           get := fun o => sumOver (cdim a b i1 i2) (summed i1 i2 out) (fun τ => a.get (i1.map τ) * b.get (i2.map τ)) (assign out o) }

/-- physics/mm_einsum.py:240-269 `prepare_idx_out`: `others` are the index lists of the remaining ansatze. -/
def prepareIdxOut (others : List (List Lab)) (ia ib output : List Lab) : List Lab :=
  (strs ia ++ strs ib ++ (ints ia ++ ints ib)).foldl
    (fun acc x => if (x ∈ others.flatten ∨ x ∈ output) ∧ x ∉ acc then acc ++ [x] else acc) []

/-- `fock_dims.get` on labels (only core labels have Fock dimensions). -/
def fdim (fd : ℕ → Option ℕ) : Lab → Option ℕ
  | .str _ => none
  | .int n => fd n

/-- physics/mm_einsum.py:168-237 `get_shapes` for two arrays: the shape of the first one (the second is symmetric). -/
def getShape (fd : ℕ → Option ℕ) (a b : Arr) (ia ib : List Lab) : List ℕ :=
  (ints ia).map fun l =>
    match fdim fd l with
    | some d => d
    | none =>
      if l ∈ ints ib then min (dimIn (ints ia) a.core l) (dimIn (ints ib) b.core l) else dimIn (ints ia) a.core l

/-- physics/mm_einsum.py:127-146: one step of the contraction loop, for arrays.  `none` is an exception or a case that is not modelled: a step
that contracts no core label, or only labels with Fock dimension 0, continues in the Bargmann representation (132-134). -/
noncomputable def step (fd : ℕ → Option ℕ) (output : List Lab) (st : List (Arr × List Lab)) (p : ℕ × ℕ) : Option (List (Arr × List Lab)) :=
  if p.1 = p.2 then none
  else do
    let A ← st[p.1]?
    let B ← st[p.2]?
    let common := (ints A.2).filter (· ∈ ints B.2)
    if ∀ l ∈ common, fdim fd l = some 0 then none
    else if ¬ (∀ l ∈ common, fdim fd l ≠ some 0) then none
    else
      let sA := getShape fd A.1 B.1 A.2 B.2
      let sB := getShape fd B.1 A.1 B.2 A.2
      if 0 ∈ sA ∨ 0 ∈ sB then none
      else do
        let a' ← A.1.reduce sA
        let b' ← B.1.reduce sB
        let others := (st.eraseIdx (max p.1 p.2)).eraseIdx (min p.1 p.2)
        let out := prepareIdxOut (others.map Prod.snd) A.2 B.2 output
        let r ← contract a' b' A.2 B.2 out
        some (others ++ [(r, out)])

/-- physics/mm_einsum.py:116-120: batch labels first.  (The renaming of batch labels to letters is injective and left out.) -/
def norm (l : List Lab) : List Lab := strs l ++ ints l

/-- `[xs.index(i) for i in ys]`. -/
def indexAll (xs ys : List Lab) : Option (List ℕ) := if ∀ y ∈ ys, y ∈ xs then some (ys.map xs.idxOf) else none

/-- physics/mm_einsum.py:156-157: put the batch axes in the order of the output. -/
def finishBatch (output : List Lab) (r : Arr) (idx : List Lab) : Option Arr :=
  if (strs output).length > 1 then (indexAll (strs idx) (strs output)).bind r.reorderBatch else some r

/-- physics/mm_einsum.py:158-159: put the core axes in the order of the output. -/
def finishCore (output : List Lab) (r : Arr) (idx : List Lab) : Option Arr :=
  if (ints output).length > 1 then (indexAll (ints idx) (ints output)).bind r.reorder else some r

/-- physics/mm_einsum.py:152-162: the final reordering (and conversion to Bargmann, which is not modelled: `none`). -/
def finish (fd : ℕ → Option ℕ) (output : List Lab) (r : Arr) (idx : List Lab) : Option Arr :=
  if ints idx ≠ [] ∧ ∀ l ∈ ints idx, fdim fd l = some 0 then none
  else (finishBatch output r idx).bind fun r1 => finishCore output r1 idx

/-- physics/mm_einsum.py:51-162 `mm_einsum` on arrays, `path_type = "LA"`. -/
noncomputable def mmEinsum (args : List (Arr × List Lab)) (output : List Lab) (fd : ℕ → Option ℕ) (path : List (ℕ × ℕ)) : Option Arr := do
  let st ← path.foldlM (step fd (norm output)) (args.map fun p => (p.1, norm p.2))
  match st with
  | [(r, idx)] => finish fd (norm output) r idx
  | _ => none

/-! ## Sums over labels -/

theorem sumOver_congr {D : Lab → ℕ} {S : List Lab} {F G : (Lab → ℕ) → ℂ} {σ : Lab → ℕ} (hS : S.Nodup)
    (h : ∀ τ, (∀ l, l ∉ S → τ l = σ l) → (∀ l ∈ S, τ l < D l) → F τ = G τ) : sumOver D S F σ = sumOver D S G σ := by
  induction S generalizing σ with
  | nil => exact h σ (fun _ _ => rfl) (by simp)
  | cons l S ih =>
    rw [List.nodup_cons] at hS
    refine Finset.sum_congr rfl fun v hv => ih hS.2 fun τ h1 h2 => h τ ?_ ?_
    · intro m hm
      rw [List.mem_cons, not_or] at hm
      rw [h1 m hm.2, Function.update_of_ne hm.1]
    · intro m hm
      rcases List.mem_cons.1 hm with rfl | hm
      · rw [h1 m hS.1, Function.update_self]; exact Finset.mem_range.1 hv
      · exact h2 m hm

theorem sumOver_zero {D : Lab → ℕ} {S : List Lab} {F : (Lab → ℕ) → ℂ} {σ : Lab → ℕ} (hS : S.Nodup)
    (h : ∀ τ, (∀ l, l ∉ S → τ l = σ l) → (∀ l ∈ S, τ l < D l) → F τ = 0) : sumOver D S F σ = 0 := by
  rw [sumOver_congr (G := fun _ => 0) hS h]
  clear h hS
  induction S generalizing σ with
  | nil => rfl
  | cons l S ih => exact Finset.sum_eq_zero fun v _ => ih

theorem sumOver_mul {D : Lab → ℕ} {S : List Lab} {F C : (Lab → ℕ) → ℂ} {σ : Lab → ℕ} (hS : S.Nodup)
    (h : ∀ τ, (∀ l, l ∉ S → τ l = σ l) → C τ = C σ) : sumOver D S (fun τ => F τ * C τ) σ = sumOver D S F σ * C σ := by
  rw [sumOver_congr (G := fun τ => F τ * C σ) hS fun τ h1 _ => by rw [h τ h1]]
  generalize C σ = c
  clear h hS
  induction S generalizing σ with
  | nil => rfl
  | cons l S ih => simp only [sumOver]; rw [Finset.sum_mul]; exact Finset.sum_congr rfl fun v _ => ih

theorem sumOver_append (D : Lab → ℕ) (S T : List Lab) (F : (Lab → ℕ) → ℂ) (σ : Lab → ℕ) :
    sumOver D (S ++ T) F σ = sumOver D S (sumOver D T F) σ := by
  induction S generalizing σ with
  | nil => rfl
  | cons l S ih => exact Finset.sum_congr rfl fun v _ => ih _

theorem sumOver_perm {D : Lab → ℕ} {S T : List Lab} (h : S.Perm T) (hS : S.Nodup) (F : (Lab → ℕ) → ℂ) (σ : Lab → ℕ) :
    sumOver D S F σ = sumOver D T F σ := by
  induction h generalizing σ with
  | nil => rfl
  | cons l _ ih => exact Finset.sum_congr rfl fun v _ => ih (List.nodup_cons.1 hS).2 _
  | swap l m S =>
    simp only [sumOver]
    rw [Finset.sum_comm]
    refine Finset.sum_congr rfl fun v _ => Finset.sum_congr rfl fun w _ => ?_
    rw [Function.update_comm]
    intro h
    subst h
    simp at hS
  | trans h1 _ ih1 ih2 => rw [ih1 hS, ih2 (h1.nodup_iff.1 hS)]

theorem sumOver_mono {D M : Lab → ℕ} {S : List Lab} {F : (Lab → ℕ) → ℂ} {σ : Lab → ℕ} (hS : S.Nodup) (hDM : ∀ l ∈ S, D l ≤ M l)
    (h : ∀ τ, (∀ l, l ∉ S → τ l = σ l) → (∀ l ∈ S, τ l < M l) → (∃ l ∈ S, D l ≤ τ l) → F τ = 0) : sumOver D S F σ = sumOver M S F σ := by
  induction S generalizing σ with
  | nil => rfl
  | cons l S ih =>
    rw [List.nodup_cons] at hS
    simp only [sumOver]
    have hag : ∀ (v : ℕ) (τ : Lab → ℕ), (∀ m, m ∉ S → τ m = Function.update σ l v m) → ∀ m, m ∉ l :: S → τ m = σ m := by
      intro v τ h1 m hm
      rw [List.mem_cons, not_or] at hm
      rw [h1 m hm.2, Function.update_of_ne hm.1]
    rw [← Finset.sum_subset (Finset.range_subset_range.2 (hDM l List.mem_cons_self))]
    · refine Finset.sum_congr rfl fun v hv => ih hS.2 (fun m hm => hDM m (List.mem_cons_of_mem _ hm)) fun τ h1 h1' h2 => ?_
      obtain ⟨m, hm, h2⟩ := h2
      refine h τ (hag v τ h1) ?_ ⟨m, List.mem_cons_of_mem _ hm, h2⟩
      intro m hm
      rcases List.mem_cons.1 hm with rfl | hm
      · rw [h1 m hS.1, Function.update_self]; exact (Finset.mem_range.1 hv).trans_le (hDM m List.mem_cons_self)
      · exact h1' m hm
    · intro v hvM hv
      rw [Finset.mem_range, not_lt] at hv
      refine sumOver_zero hS.2 fun τ h1 h1' => h τ (hag v τ h1) ?_ ⟨l, List.mem_cons_self, ?_⟩
      · intro m hm
        rcases List.mem_cons.1 hm with rfl | hm
        · rw [h1 m hS.1, Function.update_self]; exact Finset.mem_range.1 hvM
        · exact h1' m hm
      rw [h1 l hS.1, Function.update_self]; exact hv

/-- The sum does not depend on the values of summed or irrelevant labels. -/
theorem sumOver_base {D : Lab → ℕ} {S : List Lab} {F : (Lab → ℕ) → ℂ} {σ σ' : Lab → ℕ} (L : Lab → Prop)
    (hF : ∀ τ τ', (∀ l, L l → τ l = τ' l) → F τ = F τ') (h : ∀ l, L l → l ∉ S → σ l = σ' l) : sumOver D S F σ = sumOver D S F σ' := by
  induction S generalizing σ σ' with
  | nil => exact hF _ _ fun l hl => h l hl (by simp)
  | cons m S ih =>
    refine Finset.sum_congr rfl fun v _ => ih fun l hl hm => ?_
    by_cases e : l = m
    · subst e; rw [Function.update_self, Function.update_self]
    · rw [Function.update_of_ne e, Function.update_of_ne e]; exact h l hl (by simp [e, hm])

end Verif.Arr
