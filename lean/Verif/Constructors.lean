import Verif.TraceOut

/-!
# Building components from modes and data: `from_ansatz`, `from_bargmann`, `from_fock` (C98)
-/

namespace Verif.CompV

open Verif.WireModel Verif.Arr Verif.Fock Verif.PolyExp

/-! ## The code -/

/-- The `modes` argument of a constructor: a Python `set` or a sequence. -/
structure ModesArg where
  isSet : Bool
  l : List Int

/-- `isinstance(modes, set) or sorted(modes) == list(modes)` (lab/transformations/base.py 207-210, lab/states/ket.py 139-140). -/
def ModesArg.accepted (m : ModesArg) : Bool := m.isSet || m.l.insertionSort (· ≤ ·) == m.l

/-- `set(modes)`, each element once. -/
def ModesArg.set (m : ModesArg) : List Int := m.l.dedup

/-- The exceptions of the constructors. -/
inductive CErr | valueError | indexError
deriving DecidableEq

/-- The classes returned by `from_ansatz`. -/
inductive Cls | operation | unitary | map | channel | ket | dm
deriving DecidableEq

/-- A component with an ansatz of any kind. -/
structure Built (α : Type*) where
  cls : Cls
  wires : Wires
  ansatz : α

/-- The wires of a transformation: `Operation`, `Unitary` lab/transformations/base.py 213, 246; `Map`, `Channel` 363, 491. -/
def transWires (c : Cls) (out inn : List Int) (ids : Nat → Nat) : Wires :=
  match c with
  | .map | .channel => Wires.mk6 out inn out inn [] [] ids
  | _ => Wires.mk6 [] [] out inn [] [] ids

/-- `from_ansatz` of the four classes of transformations (lab/transformations/base.py 200-215, 233-248, 350-365, 478-493); `init` is
`CircuitComponent.__init__` for the given kind of ansatz. -/
def transFromAnsatz {α : Type*} (init : α → Wires → Except CErr Wires) (c : Cls) (out inn : ModesArg) (a : α) (ids : Nat → Nat) : Except CErr (Built α) :=
  if !out.accepted then .error .valueError
  else if !inn.accepted then .error .valueError
  else (init a (transWires c out.set inn.set ids)).map fun W => ⟨c, W, a⟩

/-- The wires of a state: lab/states/ket.py 146, lab/states/dm.py 140. -/
def stateWires (c : Cls) (ms : List Int) (ids : Nat → Nat) : Wires :=
  match c with
  | .dm => Wires.mk6 ms [] ms [] [] [] ids
  | _ => Wires.mk6 [] [] ms [] [] [] ids

/-- `from_ansatz` of kets and density matrices (lab/states/ket.py 133-147, lab/states/dm.py 127-141); `dims` is `ansatz.core_dims`. -/
def stateFromAnsatz {α : Type*} (init : α → Wires → Except CErr Wires) (dims : α → ℕ) (c : Cls) (ms : ModesArg) (a : α) (ids : Nat → Nat) : Except CErr (Built α) :=
  if !ms.accepted then .error .valueError
  else if dims a ≠ (if c = .dm then 2 * ms.set.length else ms.set.length) then .error .valueError
  else (init a (stateWires c ms.set ids)).map fun W => ⟨c, W, a⟩

/-- `CircuitComponent.__init__` with a Bargmann ansatz (lab/circuit_components.py 67-76): the wires are kept. -/
def initPoly {α : Type*} (_ : α) (W : Wires) : Except CErr Wires := .ok W

/-- `CircuitComponent.__init__` with an array (lab/circuit_components.py 67-81): every wire becomes a Fock wire; `core_shape[w.index]` raises
`IndexError` if the array has too few axes.  The cutoffs are those of the array. -/
def initArr (a : Arr) (W : Wires) : Except CErr Wires :=
  if W.quantum.ws.any (fun w => decide (a.core.length ≤ w.index)) then .error .indexError
  else .ok ⟨W.ws.map fun w => if w.side == .classical then w else { w with repr := .fock }⟩

/-- `Transformation.from_bargmann` (lab/transformations/base.py 70-82). -/
def transFromBargmann {α : Type*} (c : Cls) (out inn : ModesArg) (triple : α) (ids : Nat → Nat) : Except CErr (Built α) :=
  transFromAnsatz initPoly c out inn triple ids

/-- `Transformation.from_fock` (lab/transformations/base.py 85-107). -/
def transFromFock (c : Cls) (out inn : ModesArg) (a : Arr) (ids : Nat → Nat) : Except CErr (Built Arr) :=
  transFromAnsatz initArr c inn out a ids

/-- `State.from_bargmann` (lab/states/base.py 197-234). -/
def stateFromBargmann {α : Type*} (dims : α → ℕ) (c : Cls) (ms : ModesArg) (triple : α) (ids : Nat → Nat) : Except CErr (Built α) :=
  stateFromAnsatz initPoly dims c ms triple ids

/-- `State.from_fock` (lab/states/base.py 237-273). -/
def stateFromFock (c : Cls) (ms : ModesArg) (a : Arr) (ids : Nat → Nat) : Except CErr (Built Arr) :=
  stateFromAnsatz initArr (fun a => a.core.length) c ms a ids

/-- The component as wires and array. -/
def Built.fcomp (X : Built Arr) : FComp := ⟨X.wires, X.ansatz⟩

/-! ## Specification -/

/-- The modes in increasing order. -/
def ModesArg.modes (m : ModesArg) : List Int := m.l.dedup.insertionSort (· ≤ ·)

/-- The documented order of the variables of a component: output bra, input bra, output ket, input ket, each by mode. -/
def docSlots (c : Cls) (out inn : List Int) : List (Side × Bool × Int) :=
  match c with
  | .operation | .unitary => out.map (fun m => (.ket, true, m)) ++ inn.map (fun m => (.ket, false, m))
  | .map | .channel => out.map (fun m => (.bra, true, m)) ++ inn.map (fun m => (.bra, false, m)) ++ out.map (fun m => (.ket, true, m)) ++ inn.map (fun m => (.ket, false, m))
  | .ket => out.map (fun m => (.ket, true, m))
  | .dm => out.map (fun m => (.bra, true, m)) ++ out.map (fun m => (.ket, true, m))

/-- A kernel given by an array whose axes are the wires `sl`. -/
noncomputable def kerOf (sl : List (Side × Bool × Int)) (a : Arr) : Ker Chan where
  outs := ((sl.filter fun s => s.2.1).map fun s => (s.1, s.2.2)).toFinset
  ins := ((sl.filter fun s => !s.2.1).map fun s => (s.1, s.2.2)).toFinset
  fn := fun o i => a.entry (sl.map fun s => if s.2.1 then o (s.1, s.2.2) else i (s.1, s.2.2))

/-! ## Proofs -/

theorem modesArg_sorted (m : ModesArg) : m.modes.Pairwise (· < ·) := by
  have h1 : m.modes.Pairwise (· ≤ ·) := List.pairwise_insertionSort _ _
  have h2 : m.modes.Nodup := (List.perm_insertionSort _ _).nodup_iff.2 (List.nodup_dedup _)
  exact (List.pairwise_and_iff.2 ⟨h1, h2⟩).imp fun h => lt_of_le_of_ne h.1 h.2

theorem modes_perm (m : ModesArg) : m.modes.Perm m.set := List.perm_insertionSort _ _

theorem mkBlock_perm (s o n r ids) {l l' : List Int} (h : l.Perm l') : mkBlock s o n l r ids = mkBlock s o n l' r ids := by
  unfold mkBlock
  rw [show l.insertionSort (· ≤ ·) = l'.insertionSort (· ≤ ·) from
    List.Perm.eq_of_pairwise (fun a b _ _ h1 h2 => le_antisymm h1 h2) (List.pairwise_insertionSort _ _) (List.pairwise_insertionSort _ _)
      ((List.perm_insertionSort _ _).trans (h.trans (List.perm_insertionSort _ _).symm))]

theorem mk6_perm {a a' b b' c c' d d' : List Int} (ids) (h1 : a.Perm a') (h2 : b.Perm b') (h3 : c.Perm c') (h4 : d.Perm d') :
    Wires.mk6 a b c d [] [] ids = Wires.mk6 a' b' c' d' [] [] ids := by
  unfold Wires.mk6
  rw [mkBlock_perm _ _ _ _ _ h1, mkBlock_perm _ _ _ _ _ h2, mkBlock_perm _ _ _ _ _ h3, mkBlock_perm _ _ _ _ _ h4, h1.length_eq, h2.length_eq, h3.length_eq, h4.length_eq]

/-- The wires of a class. -/
theorem wires_slots (c : Cls) (out inn : ModesArg) (ids : Nat → Nat) (hr : ∀ m ∈ out.l ++ inn.l, 0 ≤ m ∧ m < 20000) :
    ((match c with | .ket | .dm => stateWires c out.set ids | _ => transWires c out.set inn.set ids).sortedWires.map Wire.slot) = docSlots c out.modes inn.modes ∧
    Good (match c with | .ket | .dm => stateWires c out.set ids | _ => transWires c out.set inn.set ids) := by
  have p1 := (modes_perm out).symm
  have p2 := (modes_perm inn).symm
  have r1 : ∀ m ∈ out.modes, 0 ≤ m ∧ m < 20000 := fun m hm => hr m (List.mem_append_left _ (List.mem_dedup.1 ((modes_perm out).mem_iff.1 hm)))
  have r2 : ∀ m ∈ inn.modes, 0 ≤ m ∧ m < 20000 := fun m hm => hr m (List.mem_append_right _ (List.mem_dedup.1 ((modes_perm inn).mem_iff.1 hm)))
  have n1 := (modesArg_sorted out).imp ne_of_lt
  have n2 := (modesArg_sorted inn).imp ne_of_lt
  have key : ∀ a b c d : List Int, a.Pairwise (· < ·) → b.Pairwise (· < ·) → c.Pairwise (· < ·) → d.Pairwise (· < ·) → (∀ m ∈ a ++ b ++ c ++ d, 0 ≤ m ∧ m < 20000) →
      (Wires.mk6 a b c d [] [] ids).sortedWires.map Wire.slot = a.map (fun m => (Side.bra, true, m)) ++ b.map (fun m => (Side.bra, false, m)) ++
      c.map (fun m => (Side.ket, true, m)) ++ d.map (fun m => (Side.ket, false, m)) ∧ Good (Wires.mk6 a b c d [] [] ids) := fun a b c d h1 h2 h3 h4 h5 =>
    ⟨mk6_slots ids h1 h2 h3 h4 h5, (C01_constructor a b c d [] [] ids (h1.imp ne_of_lt) (h2.imp ne_of_lt) (h3.imp ne_of_lt) (h4.imp ne_of_lt) List.nodup_nil
      List.nodup_nil (by simpa using h5)).1⟩
  have nil : ([] : List Int).Perm [] := List.Perm.refl _
  have s0 : ([] : List Int).Pairwise (· < ·) := List.Pairwise.nil
  have s1 := modesArg_sorted out
  have s2 := modesArg_sorted inn
  cases c <;> simp only [transWires, stateWires, docSlots]
  · rw [mk6_perm ids nil nil p1 p2]
    simpa using key [] [] _ _ s0 s0 s1 s2 (by simpa using fun m h => h.elim (r1 m) (r2 m))
  · rw [mk6_perm ids nil nil p1 p2]
    simpa using key [] [] _ _ s0 s0 s1 s2 (by simpa using fun m h => h.elim (r1 m) (r2 m))
  · rw [mk6_perm ids p1 p2 p1 p2]
    simpa using key _ _ _ _ s1 s2 s1 s2 (by simpa using fun m h => h.elim (r1 m) (fun h => h.elim (r2 m) (fun h => h.elim (r1 m) (r2 m))))
  · rw [mk6_perm ids p1 p2 p1 p2]
    simpa using key _ _ _ _ s1 s2 s1 s2 (by simpa using fun m h => h.elim (r1 m) (fun h => h.elim (r2 m) (fun h => h.elim (r1 m) (r2 m))))
  · rw [mk6_perm ids nil nil p1 nil]
    simpa using key [] [] _ [] s0 s0 s1 s0 (by simpa using r1)
  · rw [mk6_perm ids p1 nil p1 nil]
    simpa using key _ [] _ [] s1 s0 s1 s0 (by simpa using r1)

theorem ker_of_slots {X : FComp} {L : List (Side × Bool × Int)} (h : X.wires.sortedWires.map Wire.slot = L) : X.ker = kerOf L X.arr := by
  have hf : ∀ w ∈ X.wires.ws, w.slot ∈ L := fun w hw => by rw [← h]; exact List.mem_map_of_mem (mem_sortedWires.2 hw)
  have hb : ∀ s ∈ L, ∃ w ∈ X.wires.ws, w.slot = s := fun s hs => by
    rw [← h] at hs
    obtain ⟨w, hw, e⟩ := List.mem_map.1 hs
    exact ⟨w, mem_sortedWires.1 hw, e⟩
  unfold FComp.ker kerOf
  congr 1
  · ext c
    simp only [List.mem_toFinset, List.mem_map, List.mem_filter]
    constructor
    · rintro ⟨w, ⟨hw, ho⟩, rfl⟩
      exact ⟨w.slot, ⟨hf w hw, ho⟩, rfl⟩
    · rintro ⟨s, ⟨hs, ho⟩, rfl⟩
      obtain ⟨w, hw, rfl⟩ := hb s hs
      exact ⟨w, ⟨hw, ho⟩, rfl⟩
  · ext c
    simp only [List.mem_toFinset, List.mem_map, List.mem_filter]
    constructor
    · rintro ⟨w, ⟨hw, ho⟩, rfl⟩
      exact ⟨w.slot, ⟨hf w hw, ho⟩, rfl⟩
    · rintro ⟨s, ⟨hs, ho⟩, rfl⟩
      obtain ⟨w, hw, rfl⟩ := hb s hs
      exact ⟨w, ⟨hw, ho⟩, rfl⟩
  · funext o i
    rw [← h, List.map_map]
    rfl

/-- The wires as Fock wires. -/
def setFock (w : Wire) : Wire := if w.side == .classical then w else { w with repr := .fock }

theorem setFock_slot (w : Wire) : (setFock w).slot = w.slot ∧ (setFock w).index = w.index ∧ (setFock w).order = w.order := by
  unfold setFock
  split_ifs
  · exact ⟨rfl, rfl, rfl⟩
  · exact ⟨rfl, rfl, rfl⟩

theorem fock_sorted (W : Wires) : (⟨W.ws.map setFock⟩ : Wires).sortedWires = W.sortedWires.map setFock := by
  unfold Wires.sortedWires
  refine (List.map_insertionSort (r := fun a b : Wire => a.order ≤ b.order) (s := fun a b : Wire => a.order ≤ b.order) setFock W.ws ?_).symm
  intro a _ b _
  rw [(setFock_slot a).2.2, (setFock_slot b).2.2]

theorem fock_slots (W : Wires) : (⟨W.ws.map setFock⟩ : Wires).sortedWires.map Wire.slot = W.sortedWires.map Wire.slot := by
  rw [fock_sorted, List.map_map]
  exact List.map_congr_left fun w _ => (setFock_slot w).1

theorem fock_good {W : Wires} (g : Good W) : Good ⟨W.ws.map setFock⟩ := by
  have e : (W.ws.map setFock).map Wire.slot = W.ws.map Wire.slot := by
    rw [List.map_map]
    exact List.map_congr_left fun w _ => (setFock_slot w).1
  refine ⟨?_, ?_, ?_⟩
  · unfold Distinct
    exact e ▸ g.distinct
  · rw [inRange_iff_slot]
    exact e ▸ (inRange_iff_slot W).1 g.inRange
  · have := g.indexed
    unfold Indexed Wires.indices Wires.len at *
    rw [fock_sorted, List.map_map, List.length_map, ← this]
    exact List.map_congr_left fun w _ => (setFock_slot w).2.1

theorem initArr_eq {W : Wires} (g : Good W) (hq : ∀ w ∈ W.ws, w.side ≠ .classical) (a : Arr) :
    initArr a W = if a.core.length < W.len then .error .indexError else .ok ⟨W.ws.map setFock⟩ := by
  unfold initArr
  refine if_congr ?_ rfl rfl
  rw [List.any_eq_true]
  constructor
  · rintro ⟨w, hw, h⟩
    have hw : w ∈ W.ws := List.mem_of_mem_filter hw
    have h1 : w.index ∈ W.indices := List.mem_map_of_mem (mem_sortedWires.2 hw)
    rw [g.indexed, List.mem_range] at h1
    exact lt_of_le_of_lt (of_decide_eq_true h) h1
  · intro h
    have h1 : a.core.length ∈ W.indices := by rw [g.indexed, List.mem_range]; exact h
    obtain ⟨w, hw, e⟩ := List.mem_map.1 h1
    have hw := mem_sortedWires.1 hw
    refine ⟨w, List.mem_filter.2 ⟨hw, by simpa using hq w hw⟩, ?_⟩
    exact decide_eq_true e.symm.le

theorem docSlots_quantum (c : Cls) (out inn : List Int) : ∀ s ∈ docSlots c out inn, s.1 ≠ .classical := by
  intro s hs
  cases c <;> simp only [docSlots, List.mem_append, List.mem_map] at hs <;> grind

theorem docSlots_len (c : Cls) (out inn : List Int) : (docSlots c out inn).length =
    match c with | .operation | .unitary => out.length + inn.length | .map | .channel => 2 * (out.length + inn.length) | .ket => out.length | .dm => 2 * out.length := by
  cases c <;> simp only [docSlots, List.length_append, List.length_map] <;> omega

theorem accepted_iff (m : ModesArg) : m.accepted = true ↔ (m.isSet = true ∨ m.l.Pairwise (· ≤ ·)) := by
  unfold ModesArg.accepted
  rw [Bool.or_eq_true, beq_iff_eq]
  refine or_congr Iff.rfl ⟨fun h => ?_, fun h => h.insertionSort_eq⟩
  rw [← h]
  exact List.pairwise_insertionSort _ _

/-- For a strictly increasing sequence the modes are the given ones. -/
theorem modes_eq {m : ModesArg} (h : m.l.Pairwise (· < ·)) : m.modes = m.l := by
  unfold ModesArg.modes
  rw [List.dedup_eq_self.2 (h.imp ne_of_lt), (h.imp le_of_lt).insertionSort_eq]

theorem slots_quantum {W : Wires} {c : Cls} {out inn : List Int} (h : W.sortedWires.map Wire.slot = docSlots c out inn) : ∀ w ∈ W.ws, w.side ≠ .classical := fun w hw =>
  docSlots_quantum c out inn w.slot (by rw [← h]; exact List.mem_map_of_mem (mem_sortedWires.2 hw))

theorem slots_len {W : Wires} {L : List (Side × Bool × Int)} (h : W.sortedWires.map Wire.slot = L) : W.len = L.length := by
  rw [← h, List.length_map, length_sortedWires]

/-- Which transformations and which states. -/
def Cls.isTrans : Cls → Bool | .operation | .unitary | .map | .channel => true | _ => false

/-- **C98 (transformations)** `from_ansatz` of a transformation with an array: `ValueError` exactly if one of the two mode arguments is a
sequence that is not sorted, otherwise `IndexError` exactly if the array has fewer axes than the component has wires, otherwise a component of the
class whose kernel is the array with its axes in the documented order. -/
theorem C98_transformation (c : Cls) (hc : c.isTrans = true) (out inn : ModesArg) (a : Arr) (ids : Nat → Nat) (hr : ∀ m ∈ out.l ++ inn.l, 0 ≤ m ∧ m < 20000) :
    (transFromAnsatz initArr c out inn a ids = .error .valueError ↔ ¬((out.isSet ∨ out.l.Pairwise (· ≤ ·)) ∧ (inn.isSet ∨ inn.l.Pairwise (· ≤ ·)))) ∧
    (((out.isSet ∨ out.l.Pairwise (· ≤ ·)) ∧ (inn.isSet ∨ inn.l.Pairwise (· ≤ ·))) →
      (transFromAnsatz initArr c out inn a ids = .error .indexError ↔ a.core.length < (docSlots c out.modes inn.modes).length) ∧
      ((docSlots c out.modes inn.modes).length ≤ a.core.length →
        ∃ X, transFromAnsatz initArr c out inn a ids = .ok X ∧ X.cls = c ∧ X.ansatz = a ∧ Good X.wires ∧ Uniform X.wires .fock ∧
          X.wires.sortedWires.map Wire.slot = docSlots c out.modes inn.modes ∧ X.fcomp.ker = kerOf (docSlots c out.modes inn.modes) a)) := by
  have hw : (transWires c out.set inn.set ids).sortedWires.map Wire.slot = docSlots c out.modes inn.modes ∧ Good (transWires c out.set inn.set ids) := by
    have := wires_slots c out inn ids hr
    cases c <;> first | exact this | exact absurd hc (by decide)
  obtain ⟨hs, hg⟩ := hw
  have hi := initArr_eq hg (slots_quantum hs) a
  rw [slots_len hs] at hi
  rw [← accepted_iff, ← accepted_iff]
  unfold transFromAnsatz
  by_cases h1 : out.accepted = true
  · by_cases h2 : inn.accepted = true
    · simp only [h1, h2, Bool.not_true, Bool.false_eq_true, if_false]
      rw [hi]
      by_cases h3 : a.core.length < (docSlots c out.modes inn.modes).length
      · rw [if_pos h3]
        exact ⟨by simp [Except.map], fun _ => ⟨by simp [Except.map, h3], fun h4 => absurd h3 (not_lt.2 h4)⟩⟩
      · rw [if_neg h3]
        refine ⟨by simp [Except.map], fun _ => ⟨by simp [Except.map, h3], fun _ => ⟨_, rfl, rfl, rfl, fock_good hg, ?_, (fock_slots _).trans hs, ?_⟩⟩⟩
        · intro w hw
          obtain ⟨v, hv, rfl⟩ := List.mem_map.1 hw
          unfold setFock
          rw [if_neg (by simpa using slots_quantum hs v hv)]
        · exact ker_of_slots ((fock_slots _).trans hs)
    · simp only [h1, h2, Bool.not_true, Bool.false_eq_true, if_false]
      simp
  · simp only [h1]
    simp

/-- **C98 (states)** `from_ansatz` and `from_fock` of a ket or density matrix with an array: `ValueError` exactly if the modes are an unsorted
sequence or the number of axes is not that of the wires; otherwise the component whose amplitudes are the array, axes in the documented order. -/
theorem C98_state (c : Cls) (hc : c.isTrans = false) (ms : ModesArg) (a : Arr) (ids : Nat → Nat) (hr : ∀ m ∈ ms.l, 0 ≤ m ∧ m < 20000) :
    (((ms.isSet ∨ ms.l.Pairwise (· ≤ ·)) ∧ a.core.length = (docSlots c ms.modes []).length) →
      ∃ X, stateFromFock c ms a ids = .ok X ∧ X.cls = c ∧ X.ansatz = a ∧ Good X.wires ∧ Uniform X.wires .fock ∧
          X.wires.sortedWires.map Wire.slot = docSlots c ms.modes [] ∧ X.fcomp.ker = kerOf (docSlots c ms.modes []) a) ∧
    (¬((ms.isSet ∨ ms.l.Pairwise (· ≤ ·)) ∧ a.core.length = (docSlots c ms.modes []).length) → stateFromFock c ms a ids = .error .valueError) := by
  have hw : (stateWires c ms.set ids).sortedWires.map Wire.slot = docSlots c ms.modes [] ∧ Good (stateWires c ms.set ids) := by
    have := wires_slots c ms ⟨false, []⟩ ids (by simpa using hr)
    cases c <;> first | exact this | exact absurd hc (by decide)
  obtain ⟨hs, hg⟩ := hw
  have hi := initArr_eq hg (slots_quantum hs) a
  rw [slots_len hs] at hi
  have hlen : (if c = .dm then 2 * ms.set.length else ms.set.length) = (docSlots c ms.modes []).length := by
    rw [docSlots_len, (modes_perm ms).length_eq]
    cases c <;> first | rfl | exact absurd hc (by decide)
  rw [← accepted_iff]
  unfold stateFromFock stateFromAnsatz
  rw [hlen, hi]
  by_cases h1 : ms.accepted = true
  · by_cases h2 : a.core.length = (docSlots c ms.modes []).length
    · simp only [h1, h2, Bool.not_true, Bool.false_eq_true, if_false, ne_eq, not_true_eq_false, lt_irrefl]
      refine ⟨fun _ => ⟨_, rfl, rfl, rfl, fock_good hg, ?_, (fock_slots _).trans hs, ker_of_slots ((fock_slots _).trans hs)⟩, fun h => absurd h (by simp)⟩
      intro w hw
      obtain ⟨v, hv, rfl⟩ := List.mem_map.1 hw
      unfold setFock
      rw [if_neg (by simpa using slots_quantum hs v hv)]
    · simp only [h1, h2, ne_eq, not_false_eq_true, if_true, Bool.not_true, Bool.false_eq_true, if_false]
      simp
  · simp only [h1]
    simp

/-- **C98 (Bargmann)** `from_bargmann` puts the variables of the triple on the wires in the documented order: transformations need sorted
modes and nothing else; states need in addition the right number of variables. -/
theorem C98_bargmann {α : Type*} (triple : α) (dims : α → ℕ) (ids : Nat → Nat) (c : Cls) (out inn : ModesArg) (hr : ∀ m ∈ out.l ++ inn.l, 0 ≤ m ∧ m < 20000) :
    (c.isTrans = true → (((out.isSet ∨ out.l.Pairwise (· ≤ ·)) ∧ (inn.isSet ∨ inn.l.Pairwise (· ≤ ·))) →
      ∃ X, transFromBargmann c out inn triple ids = .ok X ∧ X.cls = c ∧ X.ansatz = triple ∧ Good X.wires ∧ X.wires.sortedWires.map Wire.slot = docSlots c out.modes inn.modes) ∧
      (¬((out.isSet ∨ out.l.Pairwise (· ≤ ·)) ∧ (inn.isSet ∨ inn.l.Pairwise (· ≤ ·))) → transFromBargmann c out inn triple ids = .error .valueError)) ∧
    (c.isTrans = false → (((out.isSet ∨ out.l.Pairwise (· ≤ ·)) ∧ dims triple = (docSlots c out.modes []).length) →
      ∃ X, stateFromBargmann dims c out triple ids = .ok X ∧ X.cls = c ∧ X.ansatz = triple ∧ Good X.wires ∧ X.wires.sortedWires.map Wire.slot = docSlots c out.modes []) ∧
      (¬((out.isSet ∨ out.l.Pairwise (· ≤ ·)) ∧ dims triple = (docSlots c out.modes []).length) → stateFromBargmann dims c out triple ids = .error .valueError)) := by
  rw [← accepted_iff, ← accepted_iff]
  constructor
  · intro hc
    have hw : (transWires c out.set inn.set ids).sortedWires.map Wire.slot = docSlots c out.modes inn.modes ∧ Good (transWires c out.set inn.set ids) := by
      have := wires_slots c out inn ids hr
      cases c <;> first | exact this | exact absurd hc (by decide)
    obtain ⟨hs, hg⟩ := hw
    unfold transFromBargmann transFromAnsatz initPoly
    by_cases h1 : out.accepted = true
    · by_cases h2 : inn.accepted = true
      · simp only [h1, h2, Bool.not_true, Bool.false_eq_true, if_false]
        exact ⟨fun _ => ⟨_, rfl, rfl, rfl, hg, hs⟩, fun h => absurd h (by simp)⟩
      · simp only [h1, h2, Bool.not_true, Bool.false_eq_true, if_false]
        simp
    · simp only [h1]
      simp
  · intro hc
    have hw : (stateWires c out.set ids).sortedWires.map Wire.slot = docSlots c out.modes [] ∧ Good (stateWires c out.set ids) := by
      have := wires_slots c out ⟨false, []⟩ ids (by simpa using fun m hm => hr m (List.mem_append_left _ hm))
      cases c <;> first | exact this | exact absurd hc (by decide)
    obtain ⟨hs, hg⟩ := hw
    have hlen : (if c = .dm then 2 * out.set.length else out.set.length) = (docSlots c out.modes []).length := by
      rw [docSlots_len, (modes_perm out).length_eq]
      cases c <;> first | rfl | exact absurd hc (by decide)
    unfold stateFromBargmann stateFromAnsatz initPoly
    rw [hlen]
    by_cases h1 : out.accepted = true
    · by_cases h2 : dims triple = (docSlots c out.modes []).length
      · simp only [h1, h2, Bool.not_true, Bool.false_eq_true, if_false, ne_eq, not_true_eq_false]
        exact ⟨fun _ => ⟨_, rfl, rfl, rfl, hg, hs⟩, fun h => absurd h (by simp)⟩
      · simp only [h1, h2, ne_eq, not_false_eq_true, if_true, Bool.not_true, Bool.false_eq_true, if_false]
        simp
    · simp only [h1]
      simp

theorem mem_modes (ms : ModesArg) (m : Int) : m ∈ ms.modes ↔ m ∈ ms.l := by
  rw [(modes_perm ms).mem_iff]
  exact List.mem_dedup

theorem modes_ext {a b : ModesArg} (h : ∀ m, m ∈ a.l ↔ m ∈ b.l) : a.modes = b.modes := by
  refine List.Perm.eq_of_pairwise (fun a b _ _ h1 h2 => absurd (h1.trans h2) (lt_irrefl _)) (modesArg_sorted a) (modesArg_sorted b) ?_
  rw [List.perm_ext_iff_of_nodup ((modesArg_sorted a).imp ne_of_lt) ((modesArg_sorted b).imp ne_of_lt)]
  intro m
  rw [mem_modes, mem_modes, h]

/-- **C98 (disagreement)** `from_fock` of a transformation exchanges the two mode arguments: the outputs of the result are the given input modes and
its inputs the given output modes.  Its output modes are the given output modes exactly if the two arguments name the same modes. -/
theorem C98_from_fock (c : Cls) (hc : c.isTrans = true) (out inn : ModesArg) (a : Arr) (ids : Nat → Nat) (hr : ∀ m ∈ out.l ++ inn.l, 0 ≤ m ∧ m < 20000)
    (ho : out.isSet ∨ out.l.Pairwise (· ≤ ·)) (hi : inn.isSet ∨ inn.l.Pairwise (· ≤ ·)) (hl : (docSlots c out.modes inn.modes).length ≤ a.core.length) :
    ∃ X, transFromFock c out inn a ids = .ok X ∧ X.fcomp.ker = kerOf (docSlots c inn.modes out.modes) a ∧
      (∀ m, Has X.wires .ket true m ↔ m ∈ inn.l) ∧ (∀ m, Has X.wires .ket false m ↔ m ∈ out.l) ∧
      ((∀ m, Has X.wires .ket true m ↔ m ∈ out.l) ↔ ∀ m, m ∈ out.l ↔ m ∈ inn.l) ∧
      ((∀ m, m ∈ out.l ↔ m ∈ inn.l) → X.fcomp.ker = kerOf (docSlots c out.modes inn.modes) a) := by
  have hl' : (docSlots c inn.modes out.modes).length ≤ a.core.length := by
    refine le_trans (le_of_eq ?_) hl
    rw [docSlots_len, docSlots_len]
    cases c <;> first | exact absurd hc (by decide) | (simp only; omega)
  obtain ⟨X, h1, -, -, -, -, h2, h3⟩ := ((C98_transformation c hc inn out a ids (by
    intro m hm
    refine hr m ?_
    rw [List.mem_append] at hm ⊢
    exact hm.symm)).2 ⟨hi, ho⟩).2 hl'
  have hh : ∀ o m, Has X.wires .ket o m ↔ (Side.ket, o, m) ∈ docSlots c inn.modes out.modes := fun o m => by
    rw [has_iff_mem_slot, ← h2, ((sortedWires_perm _).map _).mem_iff]
  have ht : ∀ m, Has X.wires .ket true m ↔ m ∈ inn.l := fun m => by
    rw [hh, ← mem_modes inn]
    cases c <;> first | exact absurd hc (by decide) | simp [docSlots]
  have hf : ∀ m, Has X.wires .ket false m ↔ m ∈ out.l := fun m => by
    rw [hh, ← mem_modes out]
    cases c <;> first | exact absurd hc (by decide) | simp [docSlots]
  refine ⟨X, h1, h3, ht, hf, ?_, fun h => ?_⟩
  · constructor
    · exact fun h m => (h m).symm.trans (ht m)
    · exact fun h m => (ht m).trans (h m).symm
  · rw [h3, modes_ext h]

/-! ## Concrete cases -/

/-- An array with one output and one input axis. -/
noncomputable def exArr : Arr := ⟨0, [3, 2], fun k => k.headD 0 + 10 * k.getD 1 0⟩

/-- `Operation.from_ansatz([0], [1], a)` maps mode 1 to mode 0; `Operation.from_fock([0], [1], a)` maps mode 0 to mode 1. -/
theorem C98_example : (∃ X, transFromAnsatz initArr .operation ⟨false, [0]⟩ ⟨false, [1]⟩ exArr id = .ok X ∧ Has X.wires .ket true 0 ∧ ¬ Has X.wires .ket true 1) ∧
    ∃ X, transFromFock .operation ⟨false, [0]⟩ ⟨false, [1]⟩ exArr id = .ok X ∧ Has X.wires .ket true 1 ∧ ¬ Has X.wires .ket true 0 := by
  have hm : ∀ (m : Int) (b : Bool), (⟨b, [m]⟩ : ModesArg).modes = [m] := fun m b => modes_eq (m := ⟨b, [m]⟩) (by simp)
  constructor
  · obtain ⟨X, h, -, -, -, -, h2, -⟩ := ((C98_transformation .operation rfl ⟨false, [0]⟩ ⟨false, [1]⟩ exArr id (by simp)).2 ⟨by simp, by simp⟩).2 (by
      rw [hm, hm]; simp [docSlots, exArr, Verif.Arr.Arr.core])
    refine ⟨X, h, ?_, ?_⟩
    · rw [has_iff_mem_slot, ← ((sortedWires_perm _).map _).mem_iff, h2, hm, hm]; simp [docSlots]
    · rw [has_iff_mem_slot, ← ((sortedWires_perm _).map _).mem_iff, h2, hm, hm]; simp [docSlots]
  · obtain ⟨X, h, -, h2, -⟩ := C98_from_fock .operation rfl ⟨false, [0]⟩ ⟨false, [1]⟩ exArr id (by simp) (by simp) (by simp) (by
      rw [hm, hm]; simp [docSlots, exArr, Verif.Arr.Arr.core])
    exact ⟨X, h, (h2 1).2 (by simp), fun h3 => by simpa using (h2 0).1 h3⟩

/-- A density matrix of mode 4. -/
example : ∃ X, stateFromFock .dm ⟨false, [4]⟩ ⟨0, [2, 2], fun _ => 1⟩ id = .ok X ∧ X.cls = .dm := by
  have hm : (⟨false, [4]⟩ : ModesArg).modes = [4] := modes_eq (m := ⟨false, [4]⟩) (by simp)
  obtain ⟨X, h, h2, -⟩ := (C98_state .dm rfl ⟨false, [4]⟩ ⟨0, [2, 2], fun _ => 1⟩ id (by simp)).1 ⟨by simp, by rw [hm]; simp [docSlots, Verif.Arr.Arr.core]⟩
  exact ⟨X, h, h2⟩

/-- Unsorted modes are rejected. -/
example : stateFromFock .ket ⟨false, [1, 0]⟩ ⟨0, [2, 2], fun _ => 1⟩ id = .error .valueError :=
  (C98_state .ket rfl ⟨false, [1, 0]⟩ ⟨0, [2, 2], fun _ => 1⟩ id (by simp)).2 (by simp)

end Verif.CompV
