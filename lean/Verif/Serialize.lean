import Mathlib.Logic.Function.Basic
import Mathlib.Tactic.Common
import Mathlib.Data.List.Basic

/-!
# Model of `mrmustard/utils/serialize.py` (C34)

`save` and `load` are modelled as programs over a file system, so that crashes (also in the middle of a write) and
interleavings with other processes can be expressed.
-/

namespace Verif.Serialize
open Function

/-- The three kinds of files used; a path is a file stem in the cache directory and a suffix (`with_suffix` changes the
suffix only).  Simplification: stems are non-empty and the cache directory is fixed. -/
inductive Ext
  | json | npz | zip
  deriving DecidableEq

abbrev Path := String × Ext

/-- JSON values and arrays.  `other` stands for user data that `json.dump`/`json.load` reproduce. -/
inductive Val
  | str (s : String)
  | bool (b : Bool)
  | other (n : ℕ)
  | array (n : ℕ)
  deriving DecidableEq

/-- Python dictionaries, up to the order of their keys. -/
abbrev Dict := String → Option Val

/-- File contents; `zip` is an archive holding `stem.json` and `stem.npz`; `torn` is a file whose writing was interrupted. -/
inductive File
  | json (d : Dict)
  | npz (a : Dict)
  | zip (stem : String) (d a : Dict)
  | torn

inductive Err
  | valueError | typeError | fileNotFound | badFile | keyError | user
  deriving DecidableEq

abbrev FS := Path → Option File

/-- Programs over the file system. -/
inductive Prog (α : Type)
  | ret (a : α)
  | fail (e : Err)
  | write (p : Path) (f : File) (k : Prog α)
  | unlink (p : Path) (k : Prog α)
  | read (p : Path) (k : File → Prog α)

/-- Running a program to its end. -/
def Prog.run {α} : Prog α → FS → Except Err α × FS
  | .ret a, fs => (.ok a, fs)
  | .fail e, fs => (.error e, fs)
  | .write p f k, fs => k.run (update fs p (some f))
  | .unlink p k, fs => match fs p with
    | some _ => k.run (update fs p none)
    | none => (.error .fileNotFound, fs)
  | .read p k, fs => match fs p with
    | some f => (k f).run fs
    | none => (.error .fileNotFound, fs)

/-- `Crash g fs fs'`: a crash while `g` runs from `fs` can leave the file system `fs'`; an interrupted write leaves a torn
file. -/
inductive Crash {α} : Prog α → FS → FS → Prop
  | here (g : Prog α) (fs : FS) : Crash g fs fs
  | torn (p : Path) (f : File) (k : Prog α) (fs : FS) : Crash (.write p f k) fs (update fs p (some .torn))
  | write (p : Path) (f : File) (k : Prog α) (fs fs' : FS) (h : Crash k (update fs p (some f)) fs') :
      Crash (.write p f k) fs fs'
  | unlink (p : Path) (k : Prog α) (fs fs' : FS) (h : Crash k (update fs p none) fs') (hp : (fs p).isSome) :
      Crash (.unlink p k) fs fs'
  | read (p : Path) (k : File → Prog α) (f : File) (fs fs' : FS) (hp : fs p = some f) (h : Crash (k f) fs fs') :
      Crash (.read p k) fs fs'

/-- What is handed to `save`: the qualified class name, the library version, the name of the active backend, the file stem,
`do_zip`, the arrays and the other data. -/
structure Request where
  cls : String
  version : String
  backend : String
  stem : String
  doZip : Bool
  arrays : Dict
  data : Dict

/-- Keyword parameters of `np.savez` that an array cannot be named after. -/
def savezReserved : List String := ["file"]

open Classical in
/-- utils/serialize.py:29-88 `save` (the generation of default file names is not modelled: the stem is given).
The arguments of `np.savez` are bound before anything is written. -/
noncomputable def save (r : Request) : Prog Path :=
  let data := update (update r.data "class" (some (.str r.cls))) "version" (some (.str r.version))
  if ∃ k, (r.arrays k).isSome then
    if ∃ k, (r.arrays k).isSome ∧ (data k).isSome then .fail .valueError
    else if ∃ k ∈ savezReserved, (r.arrays k).isSome then .fail .typeError
    else
      let data := update (update data "arrays" (some (.bool true))) "backend" (some (.str r.backend))
      .write (r.stem, .npz) (.npz r.arrays) <|
      .write (r.stem, .json) (.json data) <|
      if r.doZip then
        .read (r.stem, .json) fun j => .read (r.stem, .npz) fun a =>
          match j, a with
          | .json d, .npz a => .write (r.stem, .zip) (.zip r.stem d a) <|
              .unlink (r.stem, .json) <| .unlink (r.stem, .npz) <| .ret (r.stem, .zip)
          | _, _ => .fail .badFile
      else .ret (r.stem, .json)
  else
    let data := update data "arrays" (some (.bool false))
    .write (r.stem, .json) (.json data) <| .ret (r.stem, .json)

/-- `data.pop(k)`. -/
def pop {α} (d : Dict) (k : String) (f : Val → Dict → Prog α) : Prog α :=
  match d k with
  | some v => f v (update d k none)
  | none => .fail .keyError

/-- `dict.update`. -/
def merge (d a : Dict) : Dict := fun k => (a k).or (d k)

/-- Run `g` if `b`, then continue. -/
def Prog.unlinkIf {α} (b : Bool) (p : Path) (k : Prog α) : Prog α := if b then .unlink p k else k

/-- utils/serialize.py:105-132 `load`, after a possible zip has been extracted.  `deser cls` is the located class's
`deserialize`, which may raise. -/
def loadJson {Obj} (deser : String → Dict → Except Err Obj) (active : String) (removeAfter wasZipped : Bool)
    (stem : String) : Prog Obj :=
  .read (stem, .json) fun f => match f with
  | .json d =>
    pop d "class" fun c d => pop d "version" fun _ d => pop d "arrays" fun hasArrays d =>
      let cleanup (d : Dict) : Prog Obj :=
        .unlinkIf (removeAfter || wasZipped) (stem, .json) <|
        .unlinkIf ((removeAfter || wasZipped) && (removeAfter && wasZipped)) (stem, .zip) <|
        match c with
        | .str c => match deser c d with
          | .ok o => .ret o
          | .error e => .fail e
        | _ => .fail .badFile
      if hasArrays = .bool true then
        pop d "backend" fun b d =>
          if b ≠ .str active then
            .unlinkIf wasZipped (stem, .npz) <| .unlinkIf wasZipped (stem, .json) <| .fail .typeError
          else .read (stem, .npz) fun f => match f with
            | .npz a => .unlinkIf (removeAfter || wasZipped) (stem, .npz) (cleanup (merge d a))
            | _ => .fail .badFile
      else cleanup d
  | _ => .fail .badFile

/-- utils/serialize.py:91-132 `load`. -/
def load {Obj} (deser : String → Dict → Except Err Obj) (active : String) (removeAfter : Bool) (p : Path) : Prog Obj :=
  match p.2 with
  | .zip => .read p fun f => match f with
    | .zip stem d a =>
        .write (stem, .json) (.json d) <| .write (stem, .npz) (.npz a) <| loadJson deser active removeAfter true p.1
    | _ => .fail .badFile
  | _ => loadJson deser active removeAfter false p.1

/-! ## Specification -/

/-- A request that `save` can represent faithfully: arrays and data have different names, no data is called `class`,
`version` (or `backend`, if there are arrays; the parameter names of `save` cannot occur), and no array `class`, `version` or `file`. -/
structure Savable (r : Request) : Prop where
  disjoint : ∀ k, (r.arrays k).isSome → (r.data k) = none
  data_ok : r.data "class" = none ∧ r.data "version" = none ∧ r.data "arrays" = none ∧ r.data "backend" = none
  arrays_ok : r.arrays "class" = none ∧ r.arrays "version" = none ∧ r.arrays "file" = none

/-- What `deserialize` must receive: every array and every datum under its own name. -/
def content (r : Request) : Dict := fun k => (r.arrays k).or (r.data k)

def hasArrays (r : Request) : Prop := ∃ k, (r.arrays k).isSome

/-- Two file systems agree on all files of other stems. -/
def SameElsewhere (stem : String) (fs fs' : FS) : Prop := ∀ s e, s ≠ stem → fs' (s, e) = fs (s, e)

/-- The suffix of the file that `save` returns. -/
noncomputable def savedExt (r : Request) : Ext := by
  classical exact if hasArrays r ∧ r.doZip then .zip else .json

/-! ## Proofs -/

/-- The JSON dictionary that `save` writes. -/
noncomputable def jsonOf (r : Request) : Dict := by
  classical exact
    let data := update (update r.data "class" (some (.str r.cls))) "version" (some (.str r.version))
    if hasArrays r then update (update data "arrays" (some (.bool true))) "backend" (some (.str r.backend))
    else update data "arrays" (some (.bool false))

theorem no_overlap {r : Request} (h : Savable r) :
    ¬ ∃ k, (r.arrays k).isSome ∧
      (update (update r.data "class" (some (.str r.cls))) "version" (some (.str r.version)) k).isSome := by
  rintro ⟨k, h1, h2⟩
  have hd := h.disjoint k h1
  rw [update_apply, update_apply] at h2
  split_ifs at h2 with ha hb
  · subst ha; rw [h.arrays_ok.2.1] at h1; simp at h1
  · subst hb; rw [h.arrays_ok.1] at h1; simp at h1
  · rw [hd] at h2; simp at h2

theorem no_reserved {r : Request} (h : Savable r) : ¬ ∃ k ∈ savezReserved, (r.arrays k).isSome := by
  rintro ⟨k, h1, h2⟩
  simp only [savezReserved, List.mem_singleton] at h1
  subst h1; rw [h.arrays_ok.2.2] at h2; simp at h2

/-- The file system after a successful `save`. -/
noncomputable def saved (r : Request) (fs : FS) : FS := by
  classical exact
    if hasArrays r then
      if r.doZip then
        update (update (update fs (r.stem, .zip) (some (.zip r.stem (jsonOf r) r.arrays))) (r.stem, .json) none) (r.stem, .npz) none
      else update (update fs (r.stem, .npz) (some (.npz r.arrays))) (r.stem, .json) (some (.json (jsonOf r)))
    else update fs (r.stem, .json) (some (.json (jsonOf r)))

theorem save_run {r : Request} (h : Savable r) (fs : FS) :
    (save r).run fs = (.ok (r.stem, savedExt r), saved r fs) := by
  classical
  have h1 := no_overlap h
  have h2 := no_reserved h
  by_cases ha : hasArrays r
  · have ha' : ∃ k, (r.arrays k).isSome := ha
    have hj : jsonOf r = update (update (update (update r.data "class" (some (.str r.cls))) "version"
        (some (.str r.version))) "arrays" (some (.bool true))) "backend" (some (.str r.backend)) := by
      unfold jsonOf; rw [if_pos ha]
    unfold save saved savedExt
    simp only [if_pos ha', if_neg h1, if_neg h2, ha, if_true, true_and, ← hj]
    by_cases hz : r.doZip = true
    · simp only [hz, if_true, Prog.run, update_apply, Prod.mk.injEq, true_and, reduceCtorEq, if_false]
      funext p
      simp only [update_apply]
      by_cases q1 : p = (r.stem, Ext.npz) <;> by_cases q2 : p = (r.stem, Ext.json) <;>
        by_cases q3 : p = (r.stem, Ext.zip) <;> simp_all
    · simp [hz, Prog.run]
  · have ha' : ¬ ∃ k, (r.arrays k).isSome := ha
    have hj : jsonOf r = update (update (update r.data "class" (some (.str r.cls))) "version"
        (some (.str r.version))) "arrays" (some (.bool false)) := by
      unfold jsonOf; rw [if_neg ha]
    unfold save saved savedExt
    simp only [if_neg ha', ha, false_and, if_false, ← hj, Prog.run]

/-- The JSON dictionary without the bookkeeping keys, merged with the arrays, is the content. -/
theorem merge_content {r : Request} (h : Savable r) (ha : hasArrays r) :
    merge (update (update (update (update (jsonOf r) "class" none) "version" none) "arrays" none) "backend" none) r.arrays
      = content r := by
  classical
  funext k
  obtain ⟨d1, d2, d3, d4⟩ := h.data_ok
  unfold merge content jsonOf
  rw [if_pos ha]
  simp only [update_apply]
  split_ifs <;> simp_all

theorem plain_content {r : Request} (h : Savable r) (ha : ¬ hasArrays r) :
    update (update (update (jsonOf r) "class" none) "version" none) "arrays" none = content r := by
  classical
  funext k
  obtain ⟨d1, d2, d3, d4⟩ := h.data_ok
  have hn : r.arrays k = none := by
    by_contra hc
    exact ha ⟨k, Option.ne_none_iff_isSome.1 hc⟩
  unfold content jsonOf
  rw [if_neg ha, hn]
  simp only [update_apply, Option.none_or]
  split_ifs <;> simp_all

theorem jsonOf_keys (r : Request) : jsonOf r "class" = some (.str r.cls) ∧ jsonOf r "version" = some (.str r.version) ∧
    (hasArrays r → jsonOf r "arrays" = some (.bool true) ∧ jsonOf r "backend" = some (.str r.backend)) ∧
    (¬ hasArrays r → jsonOf r "arrays" = some (.bool false)) := by
  classical
  unfold jsonOf
  by_cases ha : hasArrays r <;> simp [ha, update_apply]

/-- Delete a file if `b`. -/
def delIf (b : Bool) (p : Path) (fs : FS) : FS := if b then update fs p none else fs

theorem unlinkIf_run {α} (b : Bool) (p : Path) (k : Prog α) (fs : FS) (h : b = true → (fs p).isSome) :
    (Prog.unlinkIf b p k).run fs = k.run (delIf b p fs) := by
  unfold Prog.unlinkIf delIf
  cases b with
  | false => rfl
  | true =>
    obtain ⟨f, hf⟩ := Option.isSome_iff_exists.1 (h rfl)
    simp [Prog.run, hf]

/-- The deserialisation result as an outcome. -/
theorem deser_run {Obj} (o : Except Err Obj) (fs : FS) :
    (match o with | .ok o => (Prog.ret o : Prog Obj) | .error e => .fail e).run fs = (o, fs) := by
  cases o <;> rfl

open Classical in
theorem loadJson_run {Obj} {r : Request} (h : Savable r) (deser : String → Dict → Except Err Obj) (rm z : Bool) (fs : FS)
    (hj : fs (r.stem, .json) = some (.json (jsonOf r))) (hn : hasArrays r → fs (r.stem, .npz) = some (.npz r.arrays))
    (hz : rm && z → (fs (r.stem, .zip)).isSome) :
    (loadJson deser r.backend rm z r.stem).run fs =
      (deser r.cls (content r),
        delIf (rm && z) (r.stem, .zip) (delIf (rm || z) (r.stem, .json) (if hasArrays r then delIf (rm || z) (r.stem, .npz) fs else fs))) := by
  classical
  obtain ⟨k1, k2, k3, k4⟩ := jsonOf_keys r
  have bb : ((rm || z) && (rm && z)) = (rm && z) := by cases rm <;> cases z <;> rfl
  unfold loadJson
  simp only [Prog.run, hj, pop, k1, update_apply, k2, String.reduceEq, if_false]
  by_cases ha : hasArrays r
  · obtain ⟨k5, k6⟩ := k3 ha
    simp only [k5, k6, if_true, ne_eq, not_true_eq_false, if_false, Prog.run, hn ha, ha]
    rw [unlinkIf_run _ _ _ _ (by simp [hn ha]), unlinkIf_run, unlinkIf_run]
    · rw [merge_content h ha, deser_run, bb]
    · intro hb
      rw [bb] at hb
      have := hz hb
      unfold delIf
      split_ifs <;> simp [update_apply, this]
    · intro _
      unfold delIf
      split_ifs <;> simp [update_apply, hj]
  · simp only [k4 ha, ha, if_false, Val.bool.injEq, Bool.false_eq_true]
    rw [unlinkIf_run _ _ _ _ (by simp [hj]), unlinkIf_run]
    · rw [plain_content h ha, deser_run, bb]
    · intro hb
      rw [bb] at hb
      have := hz hb
      unfold delIf
      split_ifs <;> simp [update_apply, this]

open Classical in
/-- The file system after loading the saved request. -/
noncomputable def loaded (r : Request) (rm : Bool) (fs : FS) : FS :=
    if hasArrays r ∧ r.doZip then
      delIf rm (r.stem, .zip) (update (update fs (r.stem, .json) none) (r.stem, .npz) none)
    else delIf rm (r.stem, .json) (if hasArrays r then delIf rm (r.stem, .npz) fs else fs)

/-- Loading what is stored gives the content. -/
theorem load_run {Obj} {r : Request} (h : Savable r) (deser : String → Dict → Except Err Obj) (rm : Bool) (fs : FS)
    (hs : hasArrays r ∧ r.doZip → fs (r.stem, .zip) = some (.zip r.stem (jsonOf r) r.arrays))
    (hj : ¬ (hasArrays r ∧ r.doZip) → fs (r.stem, .json) = some (.json (jsonOf r)) ∧
      (hasArrays r → fs (r.stem, .npz) = some (.npz r.arrays))) :
    (load deser r.backend rm (r.stem, savedExt r)).run fs = (deser r.cls (content r), loaded r rm fs) := by
  classical
  by_cases hc : hasArrays r ∧ r.doZip
  · have e : savedExt r = .zip := by unfold savedExt; rw [if_pos hc]
    unfold load
    simp only [e, Prog.run, hs hc]
    rw [loadJson_run h]
    · unfold loaded delIf
      rw [if_pos hc, if_pos hc.1]
      simp only [Bool.or_true, Bool.and_true, if_true]
      refine Prod.ext rfl ?_
      funext p
      cases rm <;> simp only [update_apply, if_true, if_false, Bool.false_eq_true] <;>
        by_cases q1 : p = (r.stem, Ext.npz) <;> by_cases q2 : p = (r.stem, Ext.json) <;>
        by_cases q3 : p = (r.stem, Ext.zip) <;> simp_all
    · simp [update_apply]
    · simp [update_apply]
    · simp [update_apply, hs hc]
  · have e : savedExt r = .json := by unfold savedExt; rw [if_neg hc]
    unfold load
    simp only [e]
    rw [loadJson_run h _ _ _ _ (hj hc).1 (hj hc).2 (by simp)]
    unfold loaded
    rw [if_neg hc]
    simp [delIf]

/-- **C34 (round trip).** For every file system and every savable request, `save` succeeds, and `load` with the same backend
calls the class's `deserialize` with exactly the saved data and arrays and returns its outcome; the only files left
behind are the saved ones, and none of them if `remove_after` is set; files of other stems are untouched. -/
theorem C34_roundtrip {Obj} (r : Request) (h : Savable r) (deser : String → Dict → Except Err Obj) (rm : Bool) (fs : FS) :
    ∃ path fs1 fs2, (save r).run fs = (.ok path, fs1) ∧ path.1 = r.stem ∧
      (load deser r.backend rm path).run fs1 = (deser r.cls (content r), fs2) ∧
      SameElsewhere r.stem fs fs1 ∧ SameElsewhere r.stem fs fs2 ∧
      (rm = true → fs2 path = none) ∧ (rm = false → fs2 = fs1) ∧
      (hasArrays r → r.doZip = true → ∀ e, e ≠ .zip → fs1 (r.stem, e) = none ∧ fs2 (r.stem, e) = none) := by
  classical
  have hl := load_run (Obj := Obj) h deser rm (saved r fs) (by
      intro hc; unfold saved; rw [if_pos hc.1, if_pos hc.2]; simp [update_apply]) (by
      intro hc
      unfold saved
      by_cases ha : hasArrays r
      · have hz : ¬ r.doZip = true := fun hz => hc ⟨ha, hz⟩
        rw [if_pos ha, if_neg hz]; simp [update_apply]
      · rw [if_neg ha]; simp [update_apply, ha])
  refine ⟨_, _, _, save_run h fs, rfl, hl, ?_, ?_, ?_, ?_, ?_⟩
  · intro s e hs
    unfold saved
    split_ifs <;> simp [update_apply, hs]
  · intro s e hs
    unfold loaded delIf saved
    split_ifs <;> simp [update_apply, hs]
  · rintro rfl
    unfold loaded savedExt delIf
    by_cases hc : hasArrays r ∧ r.doZip
    · simp [hc]
    · simp [hc]
  · rintro rfl
    unfold loaded delIf saved
    by_cases ha : hasArrays r
    · by_cases hz : r.doZip = true
      · funext p
        simp only [ha, hz, and_self, if_true, Bool.false_eq_true, if_false, update_apply]
        by_cases q1 : p = (r.stem, Ext.npz) <;> by_cases q2 : p = (r.stem, Ext.json) <;> simp_all
      · simp [ha, hz]
    · simp [ha]
  · intro ha hz e he
    unfold loaded delIf saved
    cases rm <;> cases e <;> simp_all [update_apply]

/-! ### Rejections -/

/-- **C34 (name clash).** If an array has the name of a datum (or `class`, `version`), `save` raises `ValueError`, and neither
it nor a crash during it changes the file system. -/
theorem C34_overlap_rejected (r : Request)
    (h : ∃ k, (r.arrays k).isSome ∧ (r.data k ≠ none ∨ k = "class" ∨ k = "version")) (fs : FS) :
    (save r).run fs = (.error .valueError, fs) ∧ ∀ fs', Crash (save r) fs fs' → fs' = fs := by
  classical
  obtain ⟨k, hk, ho⟩ := h
  have h1 : ∃ k, (r.arrays k).isSome := ⟨k, hk⟩
  have h2 : ∃ k, (r.arrays k).isSome ∧
      (update (update r.data "class" (some (.str r.cls))) "version" (some (.str r.version)) k).isSome := by
    refine ⟨k, hk, ?_⟩
    simp only [update_apply]
    split_ifs
    · rfl
    · rfl
    · rcases ho with ho | ho | ho
      · exact Option.ne_none_iff_isSome.1 ho
      · contradiction
      · contradiction
  have e : save r = .fail .valueError := by
    unfold save
    simp only [if_pos h1, if_pos h2]
  rw [e]
  refine ⟨rfl, ?_⟩
  intro fs' hc
  cases hc
  rfl

/-- **C34 (backend).** Loading arrays saved under another backend raises `TypeError`; no temporary file remains and the
saved file is kept, whatever `remove_after` says. -/
theorem C34_backend_mismatch {Obj} (r : Request) (h : Savable r) (ha : hasArrays r) (active : String)
    (hb : active ≠ r.backend) (deser : String → Dict → Except Err Obj) (rm : Bool) (fs : FS) :
    ∃ path fs1, (save r).run fs = (.ok path, fs1) ∧
      (load deser active rm path).run fs1 = (.error .typeError, fs1) := by
  classical
  refine ⟨_, _, save_run h fs, ?_⟩
  obtain ⟨k1, k2, k3, k4⟩ := jsonOf_keys r
  obtain ⟨k5, k6⟩ := k3 ha
  have hb' : r.backend ≠ active := Ne.symm hb
  by_cases hz : r.doZip = true
  · have e : savedExt r = .zip := by unfold savedExt; rw [if_pos ⟨ha, hz⟩]
    have es : saved r fs (r.stem, .zip) = some (.zip r.stem (jsonOf r) r.arrays) := by
      unfold saved; rw [if_pos ha, if_pos hz]; simp [update_apply]
    unfold load
    simp only [e, Prog.run, es, loadJson, update_apply, Prod.mk.injEq, reduceCtorEq, and_false, if_false, pop, k1, k2,
      String.reduceEq, k5, k6, if_true, Prog.unlinkIf]
    rw [if_pos (by simp [hb'])]
    simp only [Prog.run, update_apply, Prod.mk.injEq, reduceCtorEq, and_false, if_false, if_true, true_and]
    funext p
    unfold saved
    rw [if_pos ha, if_pos hz]
    simp only [update_apply]
    by_cases q1 : p = (r.stem, Ext.npz) <;> by_cases q2 : p = (r.stem, Ext.json) <;> simp_all
  · have e : savedExt r = .json := by unfold savedExt; rw [if_neg (fun hc => hz hc.2)]
    have es : saved r fs (r.stem, .json) = some (.json (jsonOf r)) := by
      unfold saved; rw [if_pos ha, if_neg hz]; simp [update_apply]
    unfold load
    simp only [e, Prog.run, es, loadJson, update_apply, if_false, pop, k1, k2,
      String.reduceEq, k5, k6, if_true, Prog.unlinkIf]
    rw [if_pos (by simp [hb'])]
    simp [Prog.run]

/-! ### Crashes -/

/-- All files that a program may write, delete or read satisfy `P`. -/
def Prog.Only {α} (P : Path → Prop) : Prog α → Prop
  | .ret _ => True
  | .fail _ => True
  | .write p _ k => P p ∧ k.Only P
  | .unlink p k => P p ∧ k.Only P
  | .read p k => P p ∧ ∀ f, (k f).Only P

theorem Crash.frame {α} {P : Path → Prop} {g : Prog α} {fs fs' : FS} (h : Crash g fs fs') (ho : g.Only P) :
    ∀ p, ¬ P p → fs' p = fs p := by
  induction h with
  | here => intro p _; rfl
  | torn q f k fs =>
    intro p hp
    rw [update_apply, if_neg]
    rintro rfl
    exact hp ho.1
  | write q f k fs fs' _ ih =>
    intro p hp
    rw [ih ho.2 p hp, update_apply, if_neg]
    rintro rfl
    exact hp ho.1
  | unlink q k fs fs' _ _ ih =>
    intro p hp
    rw [ih ho.2 p hp, update_apply, if_neg]
    rintro rfl
    exact hp ho.1
  | read q k f fs fs' _ _ ih => exact ih (ho.2 f)

theorem save_only (r : Request) : (save r).Only (fun p => p.1 = r.stem) := by
  classical
  unfold save
  dsimp only
  split_ifs
  · trivial
  · trivial
  · refine ⟨rfl, rfl, rfl, fun j => ⟨rfl, fun a => ?_⟩⟩
    cases j <;> cases a <;> simp [Prog.Only]
  · exact ⟨rfl, rfl, trivial⟩
  · exact ⟨rfl, trivial⟩

/-- **C34 (crash during `save`).** At every crash point of a `save` with arrays and zipping, files of other stems are
untouched, and the archive is the previous one, or one whose writing was interrupted, or the complete new one, which
then loads. -/
theorem C34_crash_save {Obj} (r : Request) (h : Savable r) (ha : hasArrays r) (hz : r.doZip = true)
    (deser : String → Dict → Except Err Obj) (rm : Bool) (fs fs' : FS) (hc : Crash (save r) fs fs') :
    SameElsewhere r.stem fs fs' ∧
    (fs' (r.stem, .zip) = fs (r.stem, .zip) ∨ fs' (r.stem, .zip) = some .torn ∨
      ((load deser r.backend rm (r.stem, .zip)).run fs').1 = deser r.cls (content r)) := by
  classical
  refine ⟨fun s e hs => hc.frame (save_only r) (s, e) (by simpa using hs), ?_⟩
  have e : savedExt r = .zip := by unfold savedExt; rw [if_pos ⟨ha, hz⟩]
  have key : fs' (r.stem, .zip) = some (.zip r.stem (jsonOf r) r.arrays) →
      ((load deser r.backend rm (r.stem, .zip)).run fs').1 = deser r.cls (content r) := by
    intro hs
    have := load_run (Obj := Obj) h deser rm fs' (fun _ => hs) (fun hn => absurd ⟨ha, hz⟩ hn)
    rw [e] at this
    rw [this]
  have ha' : ∃ k, (r.arrays k).isSome := ha
  have hj : jsonOf r = update (update (update (update r.data "class" (some (.str r.cls))) "version"
      (some (.str r.version))) "arrays" (some (.bool true))) "backend" (some (.str r.backend)) := by
    unfold jsonOf; rw [if_pos ha]
  unfold save at hc
  simp only [if_pos ha', if_neg (no_overlap h), if_neg (no_reserved h), hz, if_true, ← hj] at hc
  cases hc with
  | here => left; rfl
  | torn => left; simp [update_apply]
  | write _ _ _ _ _ hc => cases hc with
    | here => left; simp [update_apply]
    | torn => left; simp [update_apply]
    | write _ _ _ _ _ hc => cases hc with
      | here => left; simp [update_apply]
      | read _ _ f _ _ hp hc =>
        obtain rfl : f = .json (jsonOf r) := by simpa [update_apply] using hp.symm
        cases hc with
        | here => left; simp [update_apply]
        | read _ _ f _ _ hp hc =>
          obtain rfl : f = .npz r.arrays := by simpa [update_apply] using hp.symm
          cases hc with
          | here => left; simp [update_apply]
          | torn => right; left; simp [update_apply]
          | write _ _ _ _ _ hc =>
            right; right
            apply key
            cases hc with
            | here => simp [update_apply]
            | unlink _ _ _ _ hc _ => cases hc with
              | here => simp [update_apply]
              | unlink _ _ _ _ hc _ => cases hc with
                | here => simp [update_apply]

theorem Crash.of_unlinkIf {α} {b : Bool} {p : Path} {k : Prog α} {fs fs' : FS} (h : Crash (Prog.unlinkIf b p k) fs fs') :
    fs' = fs ∨ Crash k (delIf b p fs) fs' := by
  unfold Prog.unlinkIf at h
  unfold delIf
  cases b with
  | false => right; simpa using h
  | true =>
    simp only [if_true] at h
    cases h with
    | here => left; rfl
    | unlink _ _ _ _ h _ => right; simpa using h

/-- **C34 (crash during `load`).** A crash while a zipped save is being loaded leaves the archive as it was, so that loading
can be repeated with the same outcome; with `remove_after` the archive may be gone only because removing it was the last
thing `load` did to the file system. -/
theorem C34_crash_load {Obj} (r : Request) (h : Savable r) (ha : hasArrays r) (hz : r.doZip = true)
    (deser : String → Dict → Except Err Obj) (rm rm' : Bool) (fs fs' : FS)
    (hs : fs (r.stem, .zip) = some (.zip r.stem (jsonOf r) r.arrays))
    (hc : Crash (load deser r.backend rm (r.stem, .zip)) fs fs') :
    ((load deser r.backend rm' (r.stem, .zip)).run fs').1 = deser r.cls (content r) ∨
    (rm = true ∧ fs' = ((load deser r.backend rm (r.stem, .zip)).run fs).2) := by
  classical
  have e : savedExt r = .zip := by unfold savedExt; rw [if_pos ⟨ha, hz⟩]
  have key : fs' (r.stem, .zip) = some (.zip r.stem (jsonOf r) r.arrays) →
      ((load deser r.backend rm' (r.stem, .zip)).run fs').1 = deser r.cls (content r) := by
    intro hs
    have := load_run (Obj := Obj) h deser rm' fs' (fun _ => hs) (fun hn => absurd ⟨ha, hz⟩ hn)
    rw [e] at this
    rw [this]
  have hfin := load_run (Obj := Obj) h deser rm fs (fun _ => hs) (fun hn => absurd ⟨ha, hz⟩ hn)
  rw [e] at hfin
  rw [hfin]
  obtain ⟨k1, k2, k3, k4⟩ := jsonOf_keys r
  obtain ⟨k5, k6⟩ := k3 ha
  unfold load at hc
  simp only at hc
  cases hc with
  | here => left; exact key hs
  | read _ _ f _ _ hp hc =>
    obtain rfl : f = .zip r.stem (jsonOf r) r.arrays := by rw [hs] at hp; simpa using hp.symm
    cases hc with
    | here => left; exact key hs
    | torn => left; exact key (by simp [update_apply, hs])
    | write _ _ _ _ _ hc => cases hc with
      | here => left; exact key (by simp [update_apply, hs])
      | torn => left; exact key (by simp [update_apply, hs])
      | write _ _ _ _ _ hc =>
        generalize hfs2 : update (update fs (r.stem, Ext.json) (some (File.json (jsonOf r)))) (r.stem, Ext.npz)
          (some (File.npz r.arrays)) = fs2 at hc
        have z2 : fs2 (r.stem, .zip) = some (.zip r.stem (jsonOf r) r.arrays) := by simp [← hfs2, update_apply, hs]
        have j2 : fs2 (r.stem, .json) = some (.json (jsonOf r)) := by simp [← hfs2, update_apply]
        have n2 : fs2 (r.stem, .npz) = some (.npz r.arrays) := by simp [← hfs2, update_apply]
        unfold loadJson at hc
        cases hc with
        | here => left; exact key z2
        | read _ _ f _ _ hp hc =>
          obtain rfl : f = .json (jsonOf r) := by rw [j2] at hp; simpa using hp.symm
          simp only [pop, k1, update_apply, k2, String.reduceEq, if_false, k5, k6, if_true, ne_eq, not_true_eq_false] at hc
          cases hc with
          | here => left; exact key z2
          | read _ _ f _ _ hp hc =>
            obtain rfl : f = .npz r.arrays := by rw [n2] at hp; simpa using hp.symm
            simp only at hc
            rcases hc.of_unlinkIf with rfl | hc
            · left; exact key z2
            · rcases hc.of_unlinkIf with rfl | hc
              · left; exact key (by unfold delIf; split_ifs <;> simp [update_apply, z2])
              · have z3 : (delIf (rm || true) (r.stem, Ext.json) (delIf (rm || true) (r.stem, Ext.npz) fs2)) (r.stem, .zip)
                    = some (.zip r.stem (jsonOf r) r.arrays) := by unfold delIf; simp [update_apply, z2]
                rcases hc.of_unlinkIf with rfl | hc
                · left; exact key z3
                · have he : fs' = delIf ((rm || true) && (rm && true)) (r.stem, Ext.zip)
                      (delIf (rm || true) (r.stem, Ext.json) (delIf (rm || true) (r.stem, Ext.npz) fs2)) := by
                    split at hc
                    · cases hc; rfl
                    · cases hc; rfl
                  cases rm with
                  | false =>
                    left; apply key; rw [he]
                    simpa [delIf] using z3
                  | true =>
                    right
                    refine ⟨rfl, ?_⟩
                    rw [he]
                    unfold loaded delIf
                    rw [if_pos (show hasArrays r ∧ r.doZip = true from ⟨ha, hz⟩)]
                    funext p
                    simp only [← hfs2, Bool.or_true, Bool.and_true, if_true, update_apply]
                    by_cases q1 : p = (r.stem, Ext.npz) <;> by_cases q2 : p = (r.stem, Ext.json) <;>
                      by_cases q3 : p = (r.stem, Ext.zip) <;> simp_all

/-! ### Concurrent processes -/

/-- An archive stored under a stem holds files of that stem (true of every archive written by `save`; it fails for
archives renamed by hand). -/
def Compat (p : Path) (f : File) : Prop := ∀ s d a, f = .zip s d a → s = p.1

/-- A program that only uses the files of one stem, on file systems with compatible archives. -/
def Prog.Confined {α} (stem : String) : Prog α → Prop
  | .ret _ => True
  | .fail _ => True
  | .write p f k => p.1 = stem ∧ Compat p f ∧ k.Confined stem
  | .unlink p k => p.1 = stem ∧ k.Confined stem
  | .read p k => p.1 = stem ∧ ∀ f, Compat p f → (k f).Confined stem

/-- One step of a process. -/
def Prog.step {α} : Prog α → FS → Prog α × FS
  | .ret a, fs => (.ret a, fs)
  | .fail e, fs => (.fail e, fs)
  | .write p f k, fs => (k, update fs p (some f))
  | .unlink p k, fs => match fs p with
    | some _ => (k, update fs p none)
    | none => (.fail .fileNotFound, fs)
  | .read p k, fs => match fs p with
    | some f => (k f, fs)
    | none => (.fail .fileNotFound, fs)

/-- A system of processes run by an arbitrary scheduler. -/
def schedule {ι α : Type} [DecidableEq ι] : List ι → (ι → Prog α) × FS → (ι → Prog α) × FS
  | [], c => c
  | i :: l, c => schedule l (update c.1 i ((c.1 i).step c.2).1, ((c.1 i).step c.2).2)

/-- The outcome of a finished process. -/
def Prog.outcome {α} : Prog α → Option (Except Err α)
  | .ret a => some (.ok a)
  | .fail e => some (.error e)
  | _ => none

def CompatFS (fs : FS) : Prop := ∀ p f, fs p = some f → Compat p f

theorem step_confined {α} {stem : String} {g : Prog α} {fs : FS} (h : g.Confined stem) (hc : CompatFS fs) :
    (g.step fs).1.Confined stem ∧ CompatFS (g.step fs).2 ∧ ∀ p, p.1 ≠ stem → (g.step fs).2 p = fs p := by
  cases g with
  | ret a => exact ⟨trivial, hc, fun _ _ => rfl⟩
  | fail e => exact ⟨trivial, hc, fun _ _ => rfl⟩
  | write p f k =>
    refine ⟨h.2.2, ?_, ?_⟩
    · intro q f' hq
      simp only [Prog.step, update_apply] at hq
      split_ifs at hq with e
      · subst e; obtain rfl := Option.some.inj hq; exact h.2.1
      · exact hc q f' hq
    · intro q hq
      simp only [Prog.step, update_apply]
      rw [if_neg]
      rintro rfl
      exact hq h.1
  | unlink p k =>
    simp only [Prog.step]
    cases hf : fs p with
    | none => exact ⟨trivial, hc, fun _ _ => rfl⟩
    | some f =>
      refine ⟨h.2, ?_, ?_⟩
      · intro q f' hq
        simp only [update_apply] at hq
        split_ifs at hq
        exact hc q f' hq
      · intro q hq
        simp only [update_apply]
        rw [if_neg]
        rintro rfl
        exact hq h.1
  | read p k =>
    simp only [Prog.step]
    cases hf : fs p with
    | none => exact ⟨trivial, hc, fun _ _ => rfl⟩
    | some f => exact ⟨h.2 f (hc p f hf), hc, fun _ _ => rfl⟩

theorem step_run {α} (g : Prog α) (fs : FS) : (g.step fs).1.run (g.step fs).2 = g.run fs := by
  cases g with
  | ret a => rfl
  | fail e => rfl
  | write p f k => rfl
  | unlink p k => unfold Prog.step; cases h : fs p <;> simp [Prog.run, h]
  | read p k => unfold Prog.step; cases h : fs p <;> simp [Prog.run, h]

theorem run_local {α} {stem : String} (g : Prog α) (fs fs' : FS) (h : g.Confined stem) (hc : CompatFS fs)
    (he : ∀ p, p.1 = stem → fs' p = fs p) :
    (g.run fs').1 = (g.run fs).1 ∧ ∀ p, p.1 = stem → (g.run fs').2 p = (g.run fs).2 p := by
  induction g generalizing fs fs' with
  | ret a => exact ⟨rfl, he⟩
  | fail e => exact ⟨rfl, he⟩
  | write p f k ih =>
    have := (step_confined (fs := fs) (g := .write p f k) h hc).2.1
    refine ih _ _ h.2.2 this ?_
    intro q hq
    simp only [update_apply]
    split_ifs
    · rfl
    · exact he q hq
  | unlink p k ih =>
    have e := he p h.1
    have hs := step_confined (fs := fs) (g := .unlink p k) h hc
    unfold Prog.step at hs
    simp only [Prog.run, e]
    cases hf : fs p with
    | none => exact ⟨rfl, he⟩
    | some f =>
      simp only [hf] at hs
      refine ih _ _ h.2 hs.2.1 ?_
      intro q hq
      simp only [update_apply]
      split_ifs
      · rfl
      · exact he q hq
  | read p k ih =>
    have e := he p h.1
    simp only [Prog.run, e]
    cases hf : fs p with
    | none => exact ⟨rfl, he⟩
    | some f => exact ih f _ _ (h.2 f (hc p f hf)) hc he

theorem schedule_inv {ι α : Type} [DecidableEq ι] (stem : ι → String) (hinj : Injective stem) (l : List ι)
    (c : (ι → Prog α) × FS) (hg : ∀ i, (c.1 i).Confined (stem i)) (hc : CompatFS c.2) (i : ι) :
    (((schedule l c).1 i).run (schedule l c).2).1 = ((c.1 i).run c.2).1 ∧
    ∀ p, p.1 = stem i → (((schedule l c).1 i).run (schedule l c).2).2 p = ((c.1 i).run c.2).2 p := by
  induction l generalizing c with
  | nil => exact ⟨rfl, fun _ _ => rfl⟩
  | cons j l ih =>
    obtain ⟨s1, s2, s3⟩ := step_confined (hg j) hc
    have hg' : ∀ i, (update c.1 j ((c.1 j).step c.2).1 i).Confined (stem i) := by
      intro i
      rw [update_apply]
      split_ifs with e
      · subst e; exact s1
      · exact hg i
    obtain ⟨r1, r2⟩ := ih (update c.1 j ((c.1 j).step c.2).1, ((c.1 j).step c.2).2) hg' s2
    show (((schedule l _).1 i).run _).1 = _ ∧ _
    by_cases e : i = j
    · subst e
      simp only [update_self, step_run] at r1 r2
      exact ⟨r1, r2⟩
    · simp only [update_of_ne e] at r1 r2
      have hl := run_local (c.1 i) c.2 ((c.1 j).step c.2).2 (hg i) hc (by
        intro p hp
        apply s3
        rw [hp]
        exact fun h => e (hinj h))
      exact ⟨r1.trans hl.1, fun p hp => (r2 p hp).trans (hl.2 p hp)⟩

theorem save_confined (r : Request) : (save r).Confined r.stem := by
  classical
  unfold save
  dsimp only
  split_ifs
  · trivial
  · trivial
  · refine ⟨rfl, by rintro s d a ⟨⟩, rfl, by rintro s d a ⟨⟩, rfl, fun j _ => ⟨rfl, fun a _ => ?_⟩⟩
    cases j <;> cases a <;> simp [Prog.Confined, Compat]
  · exact ⟨rfl, by rintro s d a ⟨⟩, rfl, by rintro s d a ⟨⟩, trivial⟩
  · exact ⟨rfl, by rintro s d a ⟨⟩, trivial⟩

theorem pop_confined {α} {stem : String} (d : Dict) (k : String) (f : Val → Dict → Prog α)
    (h : ∀ v d, (f v d).Confined stem) : (pop d k f).Confined stem := by
  unfold pop
  split
  · exact h _ _
  · trivial

theorem unlinkIf_confined {α} {stem : String} (b : Bool) (p : Path) (k : Prog α) (hp : p.1 = stem) (h : k.Confined stem) :
    (Prog.unlinkIf b p k).Confined stem := by
  unfold Prog.unlinkIf
  split_ifs
  · exact ⟨hp, h⟩
  · exact h

theorem loadJson_confined {Obj} (deser : String → Dict → Except Err Obj) (active : String) (rm z : Bool) (stem : String) :
    (loadJson deser active rm z stem).Confined stem := by
  unfold loadJson
  refine ⟨rfl, fun f _ => ?_⟩
  have hclean : ∀ (c : Val) (d : Dict),
      ((Prog.unlinkIf (rm || z) (stem, .json) <| .unlinkIf ((rm || z) && (rm && z)) (stem, .zip) <|
        match c with
        | .str c => match deser c d with
          | .ok o => .ret o
          | .error e => .fail e
        | _ => .fail .badFile : Prog Obj)).Confined stem := by
    intro c d
    refine unlinkIf_confined _ _ _ rfl (unlinkIf_confined _ _ _ rfl ?_)
    split
    · split <;> trivial
    · trivial
  cases f with
  | json d =>
    refine pop_confined _ _ _ fun c d => pop_confined _ _ _ fun _ d => pop_confined _ _ _ fun a d => ?_
    dsimp only
    split_ifs
    · refine pop_confined _ _ _ fun b d => ?_
      split_ifs
      · exact unlinkIf_confined _ _ _ rfl (unlinkIf_confined _ _ _ rfl trivial)
      · refine ⟨rfl, fun f _ => ?_⟩
        cases f with
        | npz a => exact unlinkIf_confined _ _ _ rfl (hclean _ _)
        | json d => trivial
        | zip s d a => trivial
        | torn => trivial
    · exact hclean _ _
  | npz d => trivial
  | zip s d a => trivial
  | torn => trivial

theorem load_confined {Obj} (deser : String → Dict → Except Err Obj) (active : String) (rm : Bool) (p : Path) :
    (load deser active rm p).Confined p.1 := by
  unfold load
  rcases p with ⟨s, e⟩
  cases e with
  | json => exact loadJson_confined _ _ _ _ _
  | npz => exact loadJson_confined _ _ _ _ _
  | zip =>
    refine ⟨rfl, fun f hf => ?_⟩
    cases f with
    | zip s' d a =>
      obtain rfl : s' = s := hf s' d a rfl
      exact ⟨rfl, by rintro s d a ⟨⟩, rfl, by rintro s d a ⟨⟩, loadJson_confined _ _ _ _ _⟩
    | json d => trivial
    | npz d => trivial
    | torn => trivial

/-- A process of the library: it saves a request or loads a file. -/
inductive Job (Obj : Type)
  | save (r : Request)
  | load (deser : String → Dict → Except Err Obj) (active : String) (rm : Bool) (p : Path)

/-- The stem a job works on. -/
def Job.stem {Obj} : Job Obj → String
  | .save r => r.stem
  | .load _ _ _ p => p.1

/-- The program of a job; the result of a save is the path, that of a load the object. -/
noncomputable def Job.prog {Obj} : Job Obj → Prog (Path ⊕ Obj)
  | .save r => (mapP Sum.inl (Serialize.save r))
  | .load deser active rm p => mapP Sum.inr (Serialize.load deser active rm p)
where
  /-- Post-compose the result of a program. -/
  mapP {α β} (f : α → β) : Prog α → Prog β
    | .ret a => .ret (f a)
    | .fail e => .fail e
    | .write p x k => .write p x (mapP f k)
    | .unlink p k => .unlink p (mapP f k)
    | .read p k => .read p (fun x => mapP f (k x))

theorem mapP_confined {α β} (f : α → β) (stem : String) (g : Prog α) (h : g.Confined stem) :
    (Job.prog.mapP f g).Confined stem := by
  induction g with
  | ret a => trivial
  | fail e => trivial
  | write p x k ih => exact ⟨h.1, h.2.1, ih h.2.2⟩
  | unlink p k ih => exact ⟨h.1, ih h.2⟩
  | read p k ih => exact ⟨h.1, fun x hx => ih x (h.2 x hx)⟩

theorem mapP_run {α β} (f : α → β) (g : Prog α) (fs : FS) :
    (Job.prog.mapP f g).run fs = (match (g.run fs).1 with | .ok a => .ok (f a) | .error e => .error e, (g.run fs).2) := by
  induction g generalizing fs with
  | ret a => rfl
  | fail e => rfl
  | write p x k ih => exact ih _
  | unlink p k ih =>
    simp only [Job.prog.mapP, Prog.run]
    cases fs p with
    | none => rfl
    | some _ => exact ih _
  | read p k ih =>
    simp only [Job.prog.mapP, Prog.run]
    cases fs p with
    | none => rfl
    | some x => exact ih x _

/-- **C34 (concurrency).** Any number of processes, each saving or loading under its own stem (default file names contain a
random identifier), under any interleaving of their file operations: a process that has finished has the outcome, and its stem has
the files, that it would have had running alone. -/
theorem C34_interleaving {ι Obj : Type} [DecidableEq ι] (job : ι → Job Obj) (hinj : Injective fun i => (job i).stem)
    (fs : FS) (hc : CompatFS fs) (sched : List ι) (i : ι) (o : Except Err (Path ⊕ Obj)) :
    let c := schedule sched (fun i => (job i).prog, fs)
    (c.1 i).outcome = some o →
      o = ((job i).prog.run fs).1 ∧ ∀ e, c.2 ((job i).stem, e) = ((job i).prog.run fs).2 ((job i).stem, e) := by
  intro c ho
  have hg : ∀ i, ((job i).prog).Confined (job i).stem := by
    intro i
    cases h : job i with
    | save r => exact mapP_confined _ _ _ (save_confined r)
    | load d a rm p => exact mapP_confined _ _ _ (load_confined d a rm p)
  obtain ⟨h1, h2⟩ := schedule_inv (fun i => (job i).stem) hinj sched (fun i => (job i).prog, fs) hg hc i
  change ((c.1 i).run c.2).1 = _ at h1
  change ∀ p, p.1 = _ → ((c.1 i).run c.2).2 p = _ at h2
  cases hci : c.1 i with
  | ret a =>
    rw [hci] at ho h1 h2
    simp only [Prog.outcome, Option.some.injEq] at ho
    subst ho
    exact ⟨h1, fun e => h2 (_, e) rfl⟩
  | fail a =>
    rw [hci] at ho h1 h2
    simp only [Prog.outcome, Option.some.injEq] at ho
    subst ho
    exact ⟨h1, fun e => h2 (_, e) rfl⟩
  | write p f k => rw [hci] at ho; simp [Prog.outcome] at ho
  | unlink p k => rw [hci] at ho; simp [Prog.outcome] at ho
  | read p k => rw [hci] at ho; simp [Prog.outcome] at ho

/-! ### What does not hold -/

/-- A request with one datum and one array, used as a concrete case. -/
def demo (stem : String) (doZip : Bool) (x a : ℕ) : Request :=
  { cls := "C", version := "1", backend := "numpy", stem := stem, doZip := doZip,
    arrays := update (fun _ => none) "a" (some (.array a)), data := update (fun _ => none) "x" (some (.other x)) }

theorem demo_savable (stem : String) (doZip : Bool) (x a : ℕ) : Savable (demo stem doZip x a) := by
  refine ⟨?_, ?_, ?_⟩
  · intro k hk
    simp only [demo, update_apply] at hk ⊢
    split_ifs at hk with h1
    · subst h1; simp
    · simp at hk
  · simp [demo, update_apply]
  · simp [demo, update_apply]

theorem demo_arrays (stem : String) (doZip : Bool) (x a : ℕ) : hasArrays (demo stem doZip x a) :=
  ⟨"a", by simp [demo]⟩

/-- **C34 fails under crashes without zipping**: overwriting an unzipped save can be interrupted between its two files, and
`load` then succeeds, combining the old data with the new arrays. -/
theorem C34_crash_mixes {Obj} (deser : String → Dict → Except Err Obj) (x y a b : ℕ) :
    ∃ fs1 fs', ((save (demo "s" false x a)).run (fun _ => none)).2 = fs1 ∧ Crash (save (demo "s" false y b)) fs1 fs' ∧
      ((load deser "numpy" false ("s", .json)).run fs').1 = deser "C" (content (demo "s" false x b)) := by
  classical
  refine ⟨_, update ((save (demo "s" false x a)).run (fun _ => none)).2 ("s", .npz)
    (some (.npz (demo "s" false y b).arrays)), rfl, ?_, ?_⟩
  · have h := demo_savable "s" false y b
    have ha : ∃ k, ((demo "s" false y b).arrays k).isSome := demo_arrays "s" false y b
    generalize ((save (demo "s" false x a)).run (fun _ => none)).2 = fs1
    unfold save
    simp only [if_pos ha, if_neg (no_overlap h), if_neg (no_reserved h)]
    exact Crash.write _ _ _ _ _ (Crash.here _ _)
  · rw [save_run (demo_savable _ _ _ _)]
    have hb : savedExt (demo "s" false x b) = .json := by unfold savedExt; rw [if_neg]; simp [demo]
    have := load_run (Obj := Obj) (demo_savable "s" false x b) deser false
      (update (saved (demo "s" false x a) (fun _ => none)) ("s", .npz) (some (.npz (demo "s" false y b).arrays)))
      (by rintro ⟨_, h⟩; simp [demo] at h)
      (by
        intro _
        have e : jsonOf (demo "s" false x a) = jsonOf (demo "s" false x b) := by
          unfold jsonOf
          simp only [if_pos (demo_arrays _ _ _ _)]
          rfl
        unfold saved
        rw [if_pos (demo_arrays _ _ _ _)]
        constructor
        · rw [← e]; simp [update_apply, demo]
        · intro _; simp [update_apply, demo])
    rw [hb] at this
    exact congrArg Prod.fst this

/-- **C34: `remove_after` deletes before deserialising**: if `deserialize` raises, the saved file is gone. -/
theorem C34_remove_after_loses {Obj} (r : Request) (h : Savable r) (deser : String → Dict → Except Err Obj) (e : Err)
    (he : deser r.cls (content r) = .error e) (fs : FS) :
    ∃ path fs1 fs2, (save r).run fs = (.ok path, fs1) ∧ (load deser r.backend true path).run fs1 = (.error e, fs2) ∧
      fs2 path = none := by
  obtain ⟨path, fs1, fs2, h1, _, h3, _, _, h6, _⟩ := C34_roundtrip r h deser true fs
  exact ⟨path, fs1, fs2, h1, by rw [h3, he], h6 rfl⟩

/-- **C34: a zipped save deletes an earlier unzipped save of the same name.** -/
theorem C34_zip_deletes_plain (r : Request) (h : Savable r) (ha : hasArrays r) (hz : r.doZip = true) (fs : FS) :
    ((save r).run fs).2 (r.stem, .json) = none ∧ ((save r).run fs).2 (r.stem, .npz) = none := by
  classical
  rw [save_run h]
  unfold saved
  rw [if_pos ha, if_pos hz]
  simp [update_apply]

/-- Non-vacuity: a savable request with arrays, and a request with a name clash. -/
example : Savable (demo "s" true 1 2) ∧ hasArrays (demo "s" true 1 2) := ⟨demo_savable _ _ _ _, demo_arrays _ _ _ _⟩

example : ∃ r : Request, ∃ k, (r.arrays k).isSome ∧ (r.data k ≠ none ∨ k = "class" ∨ k = "version") :=
  ⟨{ demo "s" true 1 2 with data := (demo "s" true 1 2).arrays }, "a", by simp [demo], Or.inl (by simp [demo])⟩

end Verif.Serialize
