import Verif.Vanilla
import Mathlib.Data.List.Nodup
import Mathlib.Data.List.Perm.Basic
import Mathlib.Algebra.Order.BigOperators.Group.List

/-!
# Batch strings and batch broadcasting (C43)

An einsum-like string `"ab,c->abc"` is modelled as the list of its operand words and its output word; a
character is its code point (`'a'` is 97).  Multi-indices and shapes are lists of naturals, and a reshaped
array is read through C-order flat positions (`ravel`/`unravel` from `Vanilla`).
-/

namespace Verif.Batch
open Verif.Fock

/-- physics/utils.py:31-42 `generate_batch_str`. -/
def genBatch (d off : ℕ) : List ℕ := (List.range' off d).map (97 + ·)

/-- physics/utils.py:53-57: the operand words, with a running offset. -/
def words : ℕ → List ℕ → List (List ℕ)
  | _, [] => []
  | off, d :: ds => genBatch d off :: words (off + d) ds

/-- physics/utils.py:61-66: pop the last character of each listed operand (`strs[idx][-1]` raises on an
unknown operand or an empty word); returns the shortened words and the popped characters in order. -/
def popAll : List (List ℕ) → List ℕ → Option (List (List ℕ) × List ℕ)
  | strs, [] => some (strs, [])
  | strs, i :: is =>
    match strs[i]? with
    | none => none
    | some w =>
      match w.getLast? with
      | none => none
      | some ch => (popAll (strs.set i w.dropLast) is).map fun r => (r.1, ch :: r.2)

/-- physics/utils.py:45-70 `outer_product_batch_str`. -/
def outerStr (dims : List ℕ) (linSup : Option (List ℕ)) : Option (List (List ℕ) × List ℕ) :=
  let strs := words 0 dims
  match linSup with
  | none => some (strs, strs.flatten)
  | some ls => (popAll strs ls).map fun r => (strs, r.1.flatten ++ r.2)

/-- physics/utils.py:137-142 `zip_batch_strings` (`max` of an empty tuple raises). -/
def zipStr (dims : List ℕ) : Option (List (List ℕ) × List ℕ) :=
  match dims.max? with
  | none => none
  | some m => some (dims.map fun d => genBatch d 0, genBatch m 0)

/-- physics/utils.py:145-161 `lin_sup_batch_str`.  The maximum runs over the whole string, including the
characters `,` (44), `-` (45) and `>` (62) of the separators. -/
def linSupStr (ins : List (List ℕ)) (out : List ℕ) : List (List ℕ) × List ℕ :=
  let mx := (ins.flatten ++ out ++ [44, 45, 62]).foldl max 0
  let ls := (List.range' 1 ins.length).map (mx + ·)
  (List.zipWith (fun w l => w ++ [l]) ins ls, out ++ ls)

/-- The size an operand with word `inp` and batch shape `batch` gives to a label
(`batch1[in1.index(dim)]`). -/
def sizeOf (inp batch : List ℕ) (d : ℕ) : ℕ := batch.getD (inp.idxOf d) 1

/-- physics/gaussian_integrals.py:243-256 (and physics/utils.py:101-104): the shape an operand is reshaped to,
one axis per output label, of size 1 for the labels it does not have. -/
def bshape (inp batch out : List ℕ) : List ℕ := out.map fun d => if d ∈ inp then sizeOf inp batch d else 1

/-- physics/gaussian_integrals.py:270-293: `reshape` to `bshape` followed by `broadcast_to` the output shape, as a map
from output batch indices to the index of the operand that is read (an axis of size 1 is read at 0). -/
def bread (inp batch out : List ℕ) (o : List ℕ) : List ℕ :=
  unravel batch (ravel (bshape inp batch out)
    (List.zipWith (fun i n => if n = 1 then 0 else i) o (bshape inp batch out)))

/-- physics/gaussian_integrals.py:225-240: the sizes of the labels, the second operand overriding the first. -/
def dimOf (in1 batch1 in2 batch2 : List ℕ) (d : ℕ) : ℕ :=
  if d ∈ in2 then sizeOf in2 batch2 d else sizeOf in1 batch1 d

/-- physics/gaussian_integrals.py:225-293: checks and broadcasting of the batch axes in `join_Abc`.  `none` is an
exception: sizes disagree on a shared label, an output label is unknown, or `reshape`/`broadcast_to` fails.
Simplification: the labels within one operand are assumed distinct (as all callers make them). -/
def joinBatch (in1 batch1 in2 batch2 out : List ℕ) : Option (List ℕ) :=
  if ∃ d ∈ in1, d ∈ in2 ∧ sizeOf in1 batch1 d ≠ sizeOf in2 batch2 d then none
  else if ∃ d ∈ out, d ∉ in1 ∧ d ∉ in2 then none
  else if (bshape in1 batch1 out).prod ≠ batch1.prod ∨ (bshape in2 batch2 out).prod ≠ batch2.prod then none
  else some (out.map (dimOf in1 batch1 in2 batch2))

/-! ## Reading through a reshape -/

/-- The part of an output index that belongs to the labels satisfying `P`. -/
def restrict (P : ℕ → Bool) : List ℕ → List ℕ → List ℕ
  | d :: ds, i :: is => if P d then i :: restrict P ds is else restrict P ds is
  | _, _ => []

theorem prod_bs (P : ℕ → Bool) (size : ℕ → ℕ) (out : List ℕ) :
    (out.map fun d => if P d then size d else 1).prod = ((out.filter P).map size).prod := by
  induction out with
  | nil => rfl
  | cons d ds ih =>
    by_cases h : P d
    · simp [h, ih]
    · simp [h, ih]

theorem ravel_bs (P : ℕ → Bool) (size : ℕ → ℕ) (out o : List ℕ)
    (ho : List.Forall₂ (fun i d => P d = true → i < size d) o out) :
    ravel (out.map fun d => if P d then size d else 1)
      (List.zipWith (fun i n => if n = 1 then 0 else i) o (out.map fun d => if P d then size d else 1)) =
    ravel ((out.filter P).map size) (restrict P out o) := by
  induction ho with
  | nil => rfl
  | @cons i d is ds h _ ih =>
    by_cases hP : P d
    · simp only [List.map_cons, hP, if_true, List.zipWith_cons_cons, ravel, List.filter_cons_of_pos, restrict, ih,
        prod_bs]
      have := h hP
      split_ifs with h1
      · have : i = 0 := by omega
        subst this; rfl
      · rfl
    · simp only [List.map_cons, hP, List.zipWith_cons_cons, ravel, restrict]
      rw [List.filter_cons_of_neg (by simpa using hP)]
      simp [ih]

theorem restrict_inB (P : ℕ → Bool) (size : ℕ → ℕ) (out o : List ℕ)
    (ho : List.Forall₂ (fun i d => P d = true → i < size d) o out) :
    InB ((out.filter P).map size) (restrict P out o) := by
  induction ho with
  | nil => exact List.Forall₂.nil
  | @cons i d is ds h _ ih =>
    by_cases hP : P d
    · simp only [List.filter_cons_of_pos hP, List.map_cons, restrict, hP, if_true]
      exact List.Forall₂.cons (h hP) ih
    · rw [List.filter_cons_of_neg (by simpa using hP)]
      simpa [restrict, hP] using ih

theorem map_sizeOf {inp batch : List ℕ} (hn : inp.Nodup) (hl : batch.length = inp.length) :
    inp.map (sizeOf inp batch) = batch := by
  apply List.ext_getElem
  · simp [hl]
  · intro i h1 h2
    simp only [List.getElem_map, sizeOf]
    have hi : i < inp.length := by simpa using h1
    rw [hn.idxOf_getElem i hi, List.getD_eq_getElem?_getD, List.getElem?_eq_getElem h2]
    rfl

/-- Reading an operand through reshape-and-broadcast gives the operand's own axes, **provided the output lists
the operand's labels in the operand's order**. -/
theorem bread_eq {inp batch out o : List ℕ} (hn : inp.Nodup) (hl : batch.length = inp.length)
    (hord : out.filter (· ∈ inp) = inp)
    (ho : List.Forall₂ (fun i d => d ∈ inp → i < sizeOf inp batch d) o out) :
    bread inp batch out o = restrict (· ∈ inp) out o ∧ InB batch (restrict (· ∈ inp) out o) := by
  have hb := map_sizeOf hn hl
  have ho' : List.Forall₂ (fun i d => decide (d ∈ inp) = true → i < sizeOf inp batch d) o out := by
    simpa using ho
  have key := ravel_bs (· ∈ inp) (sizeOf inp batch) out o ho'
  have key2 := restrict_inB (· ∈ inp) (sizeOf inp batch) out o ho'
  rw [hord, hb] at key key2
  refine ⟨?_, key2⟩
  have e : bshape inp batch out = out.map fun d => if (decide (d ∈ inp)) = true then sizeOf inp batch d else 1 := by
    unfold bshape; simp
  unfold bread
  rw [e, key]
  exact (unravel_ravel key2).2

theorem bshape_prod {inp batch out : List ℕ} (hn : inp.Nodup) (hl : batch.length = inp.length)
    (hord : out.filter (· ∈ inp) = inp) : (bshape inp batch out).prod = batch.prod := by
  have := prod_bs (· ∈ inp) (sizeOf inp batch) out
  rw [hord, map_sizeOf hn hl] at this
  rw [← this]; unfold bshape; simp

/-! ## C43 -/

theorem mem_genBatch {d off x} : x ∈ genBatch d off ↔ 97 + off ≤ x ∧ x < 97 + off + d := by
  unfold genBatch
  simp only [List.mem_map, List.mem_range'_1]
  constructor
  · rintro ⟨a, ⟨h1, h2⟩, rfl⟩; omega
  · rintro ⟨h1, h2⟩; exact ⟨x - 97, by omega, by omega⟩

theorem nodup_genBatch (d off) : (genBatch d off).Nodup :=
  (List.nodup_range' (s := off) (n := d)).map (fun _ _ h => by simpa using h)

theorem length_genBatch (d off) : (genBatch d off).length = d := by simp [genBatch]

theorem mem_words {off dims w} (h : w ∈ words off dims) : ∀ x ∈ w, 97 + off ≤ x := by
  induction dims generalizing off with
  | nil => simp [words] at h
  | cons d ds ih =>
    simp only [words, List.mem_cons] at h
    rcases h with rfl | h
    · intro x hx; exact (mem_genBatch.1 hx).1
    · intro x hx; have := ih h x hx; omega

theorem length_words (off dims) : (words off dims).map List.length = dims := by
  induction dims generalizing off with
  | nil => rfl
  | cons d ds ih => simp [words, ih, length_genBatch]

theorem words_flatten (off dims) : (words off dims).flatten = genBatch dims.sum off := by
  induction dims generalizing off with
  | nil => rfl
  | cons d ds ih =>
    simp only [words, List.flatten_cons, ih, List.sum_cons, genBatch, ← List.map_append]
    rw [List.range'_append_1]

/-- **C43** (outer product, no superposition).  Operand `i` gets a word of length `dims[i]`, no letter is used
twice anywhere, and the output is the concatenation of the words in operand order. -/
theorem C43_outer (dims : List ℕ) : ∃ ins out, outerStr dims none = some (ins, out) ∧
    ins.map List.length = dims ∧ out = ins.flatten ∧ out.Nodup ∧ ∀ x ∈ out, 97 ≤ x ∧ x < 97 + dims.sum := by
  refine ⟨_, _, rfl, length_words 0 dims, rfl, ?_, ?_⟩
  · rw [words_flatten]; exact nodup_genBatch _ _
  · intro x hx
    rw [words_flatten, mem_genBatch] at hx; omega

/-- Shorten the words of the operands in `ls`. -/
def shorten (strs : List (List ℕ)) (ls : List ℕ) : List (List ℕ) :=
  strs.mapIdx fun i w => if i ∈ ls then w.dropLast else w

theorem popAll_spec (ls : List ℕ) : ∀ (strs : List (List ℕ)), ls.Nodup →
    (∀ i ∈ ls, ∃ w, strs[i]? = some w ∧ w ≠ []) →
    popAll strs ls = some (shorten strs ls, ls.map fun i => (strs.getD i []).getLastD 0) := by
  induction ls with
  | nil =>
    intro strs _ _
    have : shorten strs [] = strs := by
      unfold shorten; apply List.ext_getElem?; intro j; simp [List.getElem?_mapIdx]
    simp [popAll, this]
  | cons i is ih =>
    intro strs hn h
    obtain ⟨w, hw, hne⟩ := h i (List.mem_cons_self ..)
    rw [List.nodup_cons] at hn
    simp only [popAll, hw, List.getLast?_eq_getLast_of_ne_nil hne]
    rw [ih (strs.set i w.dropLast) hn.2]
    · simp only [Option.map_some, List.map_cons, Option.some.injEq, Prod.mk.injEq, List.cons.injEq]
      refine ⟨?_, ?_, ?_⟩
      · unfold shorten
        apply List.ext_getElem?
        intro j
        simp only [List.getElem?_mapIdx, List.mem_cons]
        by_cases hj : i = j
        · subst hj
          have hlt : i < strs.length := (List.getElem?_eq_some_iff.1 hw).1
          rw [List.getElem?_set_self hlt, hw]
          simp [hn.1]
        · rw [List.getElem?_set_ne hj]
          have : ¬ j = i := fun e => hj e.symm
          simp [this]
      · rw [List.getD_eq_getElem?_getD, hw]
        simp only [Option.getD_some]
        rw [List.getLastD_eq_getLast?, List.getLast?_eq_getLast_of_ne_nil hne]; rfl
      · apply List.map_congr_left
        intro j hj
        have : i ≠ j := fun e => hn.1 (e ▸ hj)
        rw [List.getD_eq_getElem?_getD, List.getElem?_set_ne this, List.getD_eq_getElem?_getD]
    · intro j hj
      have hij : i ≠ j := fun e => hn.1 (e ▸ hj)
      rw [List.getElem?_set_ne hij]
      exact h j (List.mem_cons_of_mem _ hj)

theorem popAll_perm (ls : List ℕ) : ∀ (strs s' : List (List ℕ)) (cs : List ℕ), popAll strs ls = some (s', cs) →
    strs.flatten.Perm (s'.flatten ++ cs) := by
  induction ls with
  | nil =>
    intro strs s' cs h
    simp only [popAll, Option.some.injEq, Prod.mk.injEq] at h
    obtain ⟨rfl, rfl⟩ := h; simp
  | cons i is ih =>
    intro strs s' cs h
    simp only [popAll] at h
    split at h
    · simp at h
    · rename_i w hw
      split at h
      · simp at h
      · rename_i ch hch
        cases hp : popAll (strs.set i w.dropLast) is with
        | none => simp [hp] at h
        | some r =>
          simp only [hp, Option.map_some, Option.some.injEq, Prod.mk.injEq] at h
          obtain ⟨rfl, rfl⟩ := h
          have ihh := ih _ r.1 r.2 hp
          obtain ⟨hlt, hwe⟩ := List.getElem?_eq_some_iff.1 hw
          have hws : w = w.dropLast ++ [ch] := by
            have hne : w ≠ [] := by rintro rfl; simp at hch
            rw [List.getLast?_eq_getLast_of_ne_nil hne, Option.some.injEq] at hch
            rw [← hch]; exact (List.dropLast_append_getLast hne).symm
          have e1 : strs = strs.take i ++ w :: strs.drop (i + 1) := by
            conv_lhs => rw [← List.take_append_drop i strs, List.drop_eq_getElem_cons hlt, hwe]
          have e2 : strs.set i w.dropLast = strs.take i ++ w.dropLast :: strs.drop (i + 1) :=
            List.set_eq_take_append_cons_drop .. |>.trans (if_pos hlt)
          have p1 : strs.flatten.Perm (ch :: (strs.set i w.dropLast).flatten) := by
            rw [e2]
            conv_lhs => rw [e1, hws]
            simp only [List.flatten_append, List.flatten_cons, List.append_assoc]
            have : ((strs.take i).flatten ++ (w.dropLast ++ ([ch] ++ (strs.drop (i + 1)).flatten))).Perm
                (ch :: ((strs.take i).flatten ++ w.dropLast ++ (strs.drop (i + 1)).flatten)) := by
              rw [← List.append_assoc]
              exact List.perm_middle
            simpa [List.append_assoc] using this
          exact p1.trans ((ihh.cons ch).trans List.perm_middle.symm)

/-- **C43** (outer product with superposition axes).  If the listed operands exist, are distinct and have at
least one batch axis, the output lists first the words of all operands in order, without the last letter of
the listed operands, and then those last letters in the listed order; every letter of every operand occurs
exactly once. -/
theorem C43_outer_linsup (dims ls : List ℕ) (hn : ls.Nodup) (h : ∀ i ∈ ls, ∃ d, dims[i]? = some d ∧ 0 < d) :
    ∃ ins out, outerStr dims (some ls) = some (ins, out) ∧ ins.map List.length = dims ∧ ins.flatten.Nodup ∧
      out = (ins.mapIdx fun i w => if i ∈ ls then w.dropLast else w).flatten ++
        ls.map (fun i => (ins.getD i []).getLastD 0) ∧
      out.Perm ins.flatten := by
  have hw : ∀ i ∈ ls, ∃ w, (words 0 dims)[i]? = some w ∧ w ≠ [] := by
    intro i hi
    obtain ⟨d, hd, hpos⟩ := h i hi
    have hl := length_words 0 dims
    have : ((words 0 dims).map List.length)[i]? = some d := by rw [hl, hd]
    rw [List.getElem?_map] at this
    cases hx : (words 0 dims)[i]? with
    | none => rw [hx] at this; simp at this
    | some w =>
      rw [hx] at this
      simp only [Option.map_some, Option.some.injEq] at this
      exact ⟨w, rfl, by rintro rfl; simp at this; omega⟩
  have hp := popAll_spec ls (words 0 dims) hn hw
  refine ⟨words 0 dims, _, by simp only [outerStr, hp, Option.map_some]; rfl, length_words 0 dims, ?_, rfl, ?_⟩
  · rw [words_flatten]; exact nodup_genBatch _ _
  · exact (popAll_perm ls _ _ _ hp).symm

/-- Error behaviour: naming an operand without batch axes as a superposition is rejected. -/
theorem C43_outer_linsup_error (dims : List ℕ) (i : ℕ) (ls : List ℕ) (h : dims[i]? = some 0) :
    outerStr dims (some (i :: ls)) = none := by
  have : (words 0 dims)[i]? = some [] := by
    have hl := length_words 0 dims
    have : ((words 0 dims).map List.length)[i]? = some 0 := by rw [hl, h]
    rw [List.getElem?_map] at this
    cases hx : (words 0 dims)[i]? with
    | none => rw [hx] at this; simp at this
    | some w =>
      rw [hx] at this
      simp only [Option.map_some, Option.some.injEq, List.length_eq_zero_iff] at this
      rw [this]
  simp [outerStr, popAll, this]

/-- **C43** (zip).  The output has as many letters as the largest operand, all distinct, and operand `i` is
labelled by the first `dims[i]` of them. -/
theorem C43_zip (dims : List ℕ) (hne : dims ≠ []) : ∃ ins out, zipStr dims = some (ins, out) ∧
    out.Nodup ∧ (∀ d ∈ dims, d ≤ out.length) ∧ out.length ∈ dims ∧ ins = dims.map (fun d => out.take d) := by
  cases hm : dims.max? with
  | none => rw [List.max?_eq_none_iff] at hm; exact absurd hm hne
  | some m =>
    have hmx := List.max?_eq_some_iff.1 hm
    refine ⟨_, _, by simp only [zipStr, hm]; rfl, nodup_genBatch _ _, ?_, ?_, ?_⟩
    · rw [length_genBatch]; exact hmx.2
    · rw [length_genBatch]; exact hmx.1
    · apply List.map_congr_left
      intro d hd
      have := hmx.2 d hd
      unfold genBatch
      rw [← List.map_take]
      congr 1
      rw [show m = d + (m - d) by omega, ← List.range'_append_1, List.take_left' (by simp)]

theorem le_foldl_max (l : List ℕ) : ∀ a, a ≤ l.foldl max a ∧ ∀ x ∈ l, x ≤ l.foldl max a := by
  induction l with
  | nil => intro a; simp
  | cons y l ih =>
    intro a
    have := ih (max a y)
    simp only [List.foldl_cons, List.mem_cons, forall_eq_or_imp]
    exact ⟨(le_max_left a y).trans this.1, (le_max_right a y).trans this.1, this.2⟩

/-- **C43** (superposition labels).  Every operand gets one new letter at its end; the new letters are distinct,
occur nowhere in the original string, and are appended to the output in operand order. -/
theorem C43_linsup (ins : List (List ℕ)) (out : List ℕ) :
    ∃ ls : List ℕ, ls.length = ins.length ∧ ls.Nodup ∧ (∀ l ∈ ls, l ∉ out ∧ ∀ w ∈ ins, l ∉ w) ∧
      (linSupStr ins out).2 = out ++ ls ∧
      ∀ i, (linSupStr ins out).1[i]? = (ins[i]?).map (fun w => w ++ [ls.getD i 0]) := by
  set mx := (ins.flatten ++ out ++ [44, 45, 62]).foldl max 0 with hmx
  refine ⟨(List.range' 1 ins.length).map (mx + ·), by simp, ?_, ?_, rfl, ?_⟩
  · exact (List.nodup_range').map (fun _ _ h => by simpa using h)
  · intro l hl
    simp only [List.mem_map, List.mem_range'_1] at hl
    obtain ⟨a, ⟨ha, _⟩, rfl⟩ := hl
    have hle := (le_foldl_max (ins.flatten ++ out ++ [44, 45, 62]) 0).2
    rw [← hmx] at hle
    constructor
    · intro hin
      have := hle (mx + a) (by simp [hin]); omega
    · intro w hw hin
      have := hle (mx + a) (by simp only [List.mem_append, List.mem_flatten]; exact Or.inl (Or.inl ⟨w, hw, hin⟩))
      omega
  · intro i
    simp only [linSupStr, ← hmx]
    rw [List.getElem?_zipWith]
    cases hi : ins[i]? with
    | none => simp
    | some w =>
      have hlt := (List.getElem?_eq_some_iff.1 hi).1
      simp [List.getElem?_range', hlt, List.getD_eq_getElem?_getD]

/-- **C43** (broadcasting).  `join_Abc` on batch shapes `batch1`, `batch2` with a string whose output lists every
label of each operand, in the operand's order: it succeeds when shared labels agree in size, and the entry at an
output index is built from the operands' entries at the corresponding labels. -/
theorem C43_broadcast {in1 batch1 in2 batch2 out : List ℕ} (h1 : in1.Nodup) (h2 : in2.Nodup)
    (l1 : batch1.length = in1.length) (l2 : batch2.length = in2.length)
    (o1 : out.filter (· ∈ in1) = in1) (o2 : out.filter (· ∈ in2) = in2)
    (hout : ∀ d ∈ out, d ∈ in1 ∨ d ∈ in2)
    (hsz : ∀ d ∈ in1, d ∈ in2 → sizeOf in1 batch1 d = sizeOf in2 batch2 d) :
    ∃ shape, joinBatch in1 batch1 in2 batch2 out = some shape ∧
      (∀ (i : ℕ) (d : ℕ), out[i]? = some d → shape[i]? = some (if d ∈ in1 then sizeOf in1 batch1 d else sizeOf in2 batch2 d)) ∧
      ∀ o, InB shape o →
        bread in1 batch1 out o = restrict (· ∈ in1) out o ∧ InB batch1 (restrict (· ∈ in1) out o) ∧
        bread in2 batch2 out o = restrict (· ∈ in2) out o ∧ InB batch2 (restrict (· ∈ in2) out o) := by
  refine ⟨out.map (dimOf in1 batch1 in2 batch2), ?_, ?_, ?_⟩
  · unfold joinBatch
    rw [if_neg, if_neg, if_neg]
    · rw [bshape_prod h1 l1 o1, bshape_prod h2 l2 o2]; simp
    · rintro ⟨d, hd, hx, hy⟩; rcases hout d hd with h | h <;> contradiction
    · rintro ⟨d, hd, hx, hy⟩; exact hy (hsz d hd hx)
  · intro i d hd
    rw [List.getElem?_map, hd]
    simp only [Option.map_some, dimOf, Option.some.injEq]
    by_cases h : d ∈ in2
    · rw [if_pos h]
      split_ifs with h'
      · rw [hsz d h' h]
      · rfl
    · rw [if_neg h, if_pos]
      exact (hout d (List.mem_of_getElem? hd)).resolve_right h
  · intro o ho
    have ho' : List.Forall₂ (fun i d => i < dimOf in1 batch1 in2 batch2 d) o out := by
      unfold InB at ho; rwa [List.forall₂_map_right_iff] at ho
    have f1 := bread_eq h1 l1 o1 (ho'.imp (by
      intro i d hi hd
      unfold dimOf at hi
      split_ifs at hi with h
      · rw [hsz d hd h]; exact hi
      · exact hi))
    have f2 := bread_eq h2 l2 o2 (ho'.imp (by
      intro i d hi hd
      unfold dimOf at hi
      rw [if_pos hd] at hi; exact hi))
    exact ⟨f1.1, f1.2, f2.1, f2.2⟩

/-- The order condition is needed: for the string `"ab,ab->ba"` on batches of shape `(2, 3)` the code reshapes
`(2, 3)` to `(3, 2)` without transposing, so output index `(0, 1)` (that is `b = 0`, `a = 1`) is built from the
operands' entry `(0, 1)` (`a = 0`, `b = 1`) instead of `(1, 0)`; no error is raised. -/
theorem C43_broadcast_transposed :
    joinBatch [97, 98] [2, 3] [97, 98] [2, 3] [98, 97] = some [3, 2] ∧
    InB [3, 2] [0, 1] ∧ bread [97, 98] [2, 3] [98, 97] [0, 1] = [0, 1] := by
  refine ⟨by decide, ?_, by decide⟩
  exact List.Forall₂.cons (by decide) (List.Forall₂.cons (by decide) List.Forall₂.nil)

/-- The documented example of `reshape_args_to_batch_string`, `"ab,cb->abc"` on arrays of shape `(2, 7)` and
`(3, 7)`: the second array is reshaped to `(1, 7, 3)`, so the output entry `(a, b, c) = (0, 0, 1)` reads the
second array at `(c, b) = (0, 1)` instead of `(1, 0)`. -/
theorem C43_documented_example :
    joinBatch [97, 98] [2, 7] [99, 98] [3, 7] [97, 98, 99] = some [2, 7, 3] ∧
    bshape [99, 98] [3, 7] [97, 98, 99] = [1, 7, 3] ∧
    bread [99, 98] [3, 7] [97, 98, 99] [0, 0, 1] = [0, 1] := by decide

/-- Non-trivial instances: `ab,c,def->adefbc` (the docstring's example) and a broadcast `"ab,cb->abc"`. -/
example : outerStr [2, 1, 3] (some [0, 1]) =
    some ([[97, 98], [99], [100, 101, 102]], [97, 100, 101, 102, 98, 99]) := by decide
example : linSupStr [[97], [97, 98]] [97, 98] = ([[97, 99], [97, 98, 100]], [97, 98, 99, 100]) := by decide
example : joinBatch [97, 98] [2, 7] [99, 98] [3, 7] [97, 98, 99] = some [2, 7, 3] ∧
    bread [97, 98] [2, 7] [97, 98, 99] [1, 5, 2] = [1, 5] := by decide

end Verif.Batch
