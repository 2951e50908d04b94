import Mathlib.Data.List.Sort
import Mathlib.Data.List.Dedup
import Mathlib.Tactic.Basic
import Mathlib.Tactic.Cases

/-!
# What a component shares with its copies, over every history (C120)

A heap of Python objects: parameters, parameter sets, ansätze, `Wires` objects and components, which hold references (positions in the lists).
-/

namespace Verif.Alias

/-- physics/wires.py:59-80 `QuantumWire`: the fields that matter here.  Simplification: the identifiers are left out, and the index is the position in the list of `WObj`. -/
structure Wr where
  isKet : Bool
  isOut : Bool
  mode : ℤ
  fock : Bool := false
  cutoff : Option ℕ := none
  deriving DecidableEq

/-- physics/wires.py:163-336 a `Wires` object: its quantum wires in standard order, and the entries of its `__dict__` in which `cached_property` keeps `adjoint` (338-348) and `dual` (380-390).
Simplification: no classical wires; the views `ket`, `bra`, `input`, `output`, `quantum` hold references to the same wires (`from_wires`, 458-473), so they need no objects of their own. -/
structure WObj where
  ws : List Wr
  adj : Option ℕ := none
  dul : Option ℕ := none
  deriving DecidableEq

/-- lab/circuit_components.py:67-83: the attributes of a component (references to its ansatz, its parameter set and its wires; `_name`, and `short_name`). -/
structure Comp where
  ans : ℕ
  pset : ℕ
  wires : ℕ
  name : Option String
  short : String
  deriving DecidableEq

/-- The heap.  A parameter is a pair: whether it is a `Constant`, and its value. -/
structure World (V A : Type) where
  cells : List (Bool × V) := []
  psets : List (List (String × ℕ)) := []
  anss : List A := []
  wires : List WObj := []
  comps : List Comp := []

variable {V A : Type}

/-- physics/wires.py:338-348 `Wires.adjoint`: bra and ket exchanged, in standard order (bra before ket, physics/wires.py:101-106), with `copy` (82-99) keeping representation and cutoff. -/
def adjWs (l : List Wr) : List Wr :=
  (l.filter fun w => w.isKet).map (fun w : Wr => { w with isKet := false }) ++ (l.filter fun w => ! w.isKet).map (fun w : Wr => { w with isKet := true })

/-- physics/wires.py:380-390 `Wires.dual`: input and output exchanged, in standard order (on each side output before input). -/
def dulWs (l : List Wr) : List Wr :=
  let io := fun l : List Wr => (l.filter fun w => ! w.isOut).map (fun w : Wr => { w with isOut := true }) ++ (l.filter fun w => w.isOut).map (fun w : Wr => { w with isOut := false })
  io (l.filter fun w => ! w.isKet) ++ io (l.filter fun w => w.isKet)

/-- physics/wires.py:350-362 and 302-336 `Wires(*self.args)`: new wires on the same modes, without representation and cutoff.  Simplification: the wires of the argument are in standard order, so rebuilding
them from the sorted sets of modes gives the same sequence. -/
def freshWs (l : List Wr) : List Wr := l.map fun w => { w with fock := false, cutoff := none }

/-- `sorted(set(modes))`. -/
def sortedSet (modes : List ℤ) : List ℤ := modes.dedup.insertionSort (· ≤ ·)

/-- The modes of one kind of wires. -/
def kindModes (l : List Wr) (k o : Bool) : List ℤ := (l.filter fun w => w.isKet == k && w.isOut == o).map (·.mode)

/-- The four kinds of wires in standard order. -/
def kinds : List (Bool × Bool) := [(false, true), (false, false), (true, true), (true, false)]

/-- lab/circuit_components.py:554-566: the checks of `on`. -/
def onOk (l : List Wr) (modes : List ℤ) : Bool :=
  let subsets := (kinds.map fun k => kindModes l k.1 k.2).filter fun s => ! s.isEmpty
  subsets.all (fun s => s == subsets.headD []) && subsets.all (fun s => s.length == modes.length)

/-- lab/circuit_components.py:567-574: the new wires of `on`. -/
def onWs (l : List Wr) (modes : List ℤ) : List Wr :=
  (kinds.map fun k => if (kindModes l k.1 k.2).isEmpty then [] else (sortedSet modes).map fun m => ({ isKet := k.1, isOut := k.2, mode := m } : Wr)).flatten

/-- lab/circuit_components.py:151-154 the setter of `manual_shape`: `zip` of the quantum wires with the given shape. -/
def setCut : List Wr → List (Option ℕ) → List Wr
  | w :: l, s :: t => { w with cutoff := s } :: setCut l t
  | l, _ => l

/-- lab/circuit_components.py:181-184: the automatic name. -/
def autoName (short : String) (l : List Wr) : String :=
  let modes := String.join ((sortedSet (l.map (·.mode))).map toString)
  if modes.length < 5 then short ++ modes else short

/-- The operations of a program. -/
inductive Cmd (V A : Type)
  | new (ps : List (String × Bool × V)) (a : A) (ws : List Wr) (name : Option String) (short : String)
  | light (c : ℕ)
  | on (c : ℕ) (modes : List ℤ)
  | adjoint (c : ℕ)
  | dual (c : ℕ)
  | setParam (c : ℕ) (n : String) (v : V)
  | addParam (c : ℕ) (n : String) (fixed : Bool) (v : V)
  | setShape (c : ℕ) (s : List (Option ℕ))
  | getName (c : ℕ)

/-- The wires of a component. -/
def World.ws (w : World V A) (C : Comp) : List Wr := ((w.wires[C.wires]?).map (·.ws)).getD []

/-- lab/circuit_components.py:181-185 reading `name` stores the automatic name in `_name`. -/
def World.touch (w : World V A) (c : ℕ) : World V A :=
  { w with comps := w.comps.modify c fun C => { C with name := some (C.name.getD (autoName C.short (w.ws C))) } }

/-- lab/circuit_components.py:797-806 `_light_copy`: the `__dict__` is copied, so ansatz, parameter set and names are those of the original; the wires are the given ones. -/
def World.copyWith (w : World V A) (C : Comp) (l : List Wr) : World V A :=
  { w with wires := w.wires ++ [{ ws := l }], comps := w.comps ++ [{ C with wires := w.wires.length }] }

/-- lab/circuit_components.py:83-102 and 112-135 `adjoint` and `dual`, after the name has been read: a new component with a new ansatz, a new parameter set holding the same parameters, and the wires
`self.wires.adjoint` (`dual`), which are computed on the first access to the cached property and then kept.  The ansatz is opaque: `conj` stands for the conjugated and reordered one. -/
def World.flip (conj : A → A) (w : World V A) (c : ℕ) (get : WObj → Option ℕ) (put : WObj → ℕ → WObj) (f : List Wr → List Wr) : World V A :=
  match w.comps[c]? with
  | none => w
  | some C =>
    match w.wires[C.wires]?, w.psets[C.pset]?, w.anss[C.ans]? with
    | some W, some ps, some a =>
      let w1 : World V A := match get W with
        | some _ => w
        | none => { w with wires := w.wires.modify C.wires (fun W => put W w.wires.length) ++ [{ ws := f W.ws }] }
      { w1 with psets := w1.psets ++ [ps], anss := w1.anss ++ [conj a],
                comps := w1.comps ++ [{ ans := w1.anss.length, pset := w1.psets.length, wires := (get W).getD w.wires.length, name := C.name, short := C.short }] }
    | _, _, _ => w

/-- One operation; an operation that raises leaves the heap as it is. -/
def World.step (conj : A → A) (w : World V A) : Cmd V A → World V A
  | .new ps a ws name short =>
    { cells := w.cells ++ ps.map (·.2), psets := w.psets ++ [(ps.map (·.1)).zipIdx w.cells.length], anss := w.anss ++ [a], wires := w.wires ++ [{ ws := ws }],
      comps := w.comps ++ [{ ans := w.anss.length, pset := w.psets.length, wires := w.wires.length, name := name, short := short }] }
  | .light c => match w.comps[c]? with
    | some C => w.copyWith C (freshWs (w.ws C))
    | none => w
  | .on c modes => match w.comps[c]? with
    | some C => if onOk (w.ws C) modes then w.copyWith C (onWs (w.ws C) modes) else w
    | none => w
  | .adjoint c => (w.touch c).flip conj c (·.adj) (fun W r => { W with adj := some r }) adjWs
  | .dual c => (w.touch c).flip conj c (·.dul) (fun W r => { W with dul := some r }) dulWs
  | .setParam c n v => match w.comps[c]? with
    | some C => match ((w.psets[C.pset]?).getD []).lookup n with
      | some r => { w with cells := w.cells.modify r fun p => if p.1 then p else (p.1, v) }
      | none => w
    | none => w
  | .addParam c n fixed v => match w.comps[c]? with
    | some C => match ((w.psets[C.pset]?).getD []).lookup n with
      | some _ => w
      | none => { w with cells := w.cells ++ [(fixed, v)], psets := w.psets.modify C.pset fun ps => ps ++ [(n, w.cells.length)] }
    | none => w
  | .setShape c s => match w.comps[c]? with
    | some C => { w with wires := w.wires.modify C.wires fun W => { W with ws := setCut W.ws s } }
    | none => w
  | .getName c => w.touch c

/-- A whole program. -/
def World.run (conj : A → A) (w : World V A) (h : List (Cmd V A)) : World V A := h.foldl (World.step conj) w

/-- What a user sees: the value of a parameter of a component, … -/
def World.param (w : World V A) (c : ℕ) (n : String) : Option V := do
  let C ← w.comps[c]?
  let r ← ((w.psets[C.pset]?).getD []).lookup n
  (w.cells[r]?).map (·.2)

/-- … its ansatz, … -/
def World.ansatz (w : World V A) (c : ℕ) : Option A := do
  let C ← w.comps[c]?
  w.anss[C.ans]?

/-- … its `manual_shape` (lab/circuit_components.py:137-149), … -/
def World.shape (w : World V A) (c : ℕ) : Option (List (Option ℕ)) := (w.comps[c]?).map fun C => (w.ws C).map (·.cutoff)

/-- … its wires (side, direction, mode) in standard order, … -/
def World.slots (w : World V A) (c : ℕ) : Option (List (Bool × Bool × ℤ)) := (w.comps[c]?).map fun C => (w.ws C).map fun x => (x.isKet, x.isOut, x.mode)

/-- … and its name. -/
def World.nameOf (w : World V A) (c : ℕ) : Option String := (w.comps[c]?).map fun C => C.name.getD (autoName C.short (w.ws C))

/-! ## What one step can do -/

/-- `w'` is a later heap than `w`. -/
structure Later (w w' : World V A) : Prop where
  comps : ∀ (c : ℕ) (C : Comp), w.comps[c]? = some C → ∃ C' : Comp, w'.comps[c]? = some C' ∧ C'.ans = C.ans ∧ C'.pset = C.pset ∧ C'.wires = C.wires ∧ C'.short = C.short ∧
    (∀ s, C.name = some s → C'.name = some s) ∧ (∀ s, C.name = none → C'.name = some s → s = autoName C.short (w.ws C))
  psets : ∀ (r : ℕ) (p : List (String × ℕ)), w.psets[r]? = some p → ∃ q, w'.psets[r]? = some (p ++ q)
  anss : ∀ (r : ℕ) (a : A), w.anss[r]? = some a → w'.anss[r]? = some a
  cells : ∀ (r : ℕ) (x : Bool × V), w.cells[r]? = some x → ∃ v, w'.cells[r]? = some (x.1, v) ∧ (x.1 = true → v = x.2)
  wires : ∀ (r : ℕ) (W : WObj), w.wires[r]? = some W → ∃ W' : WObj, w'.wires[r]? = some W' ∧ (W'.ws.map fun x => (x.isKet, x.isOut, x.mode)) = (W.ws.map fun x => (x.isKet, x.isOut, x.mode)) ∧
    (∀ s, W.adj = some s → W'.adj = some s) ∧ (∀ s, W.dul = some s → W'.dul = some s)

theorem get_append {α} {l m : List α} {i : ℕ} {a : α} (h : l[i]? = some a) : (l ++ m)[i]? = some a := by
  have := List.getElem?_eq_some_iff.1 h
  rw [List.getElem?_append_left this.1, h]

theorem get_modify {α} (l : List α) (i j : ℕ) (f : α → α) : (l.modify i f)[j]? = (l[j]?).map fun a => if i = j then f a else a := by
  rw [List.getElem?_modify]
  cases l[j]? <;> simp

theorem Later.refl (w : World V A) : Later w w :=
  ⟨fun c C h => ⟨C, h, rfl, rfl, rfl, rfl, fun _ h => h, fun s h1 h2 => by rw [h1] at h2; exact absurd h2 (by simp)⟩, fun r p h => ⟨[], by rw [List.append_nil]; exact h⟩, fun _ _ h => h,
    fun r x h => ⟨x.2, h, fun _ => rfl⟩, fun r W h => ⟨W, h, rfl, fun _ h => h, fun _ h => h⟩⟩

theorem autoName_slots {s : String} {l l' : List Wr} (h : (l.map fun x => (x.isKet, x.isOut, x.mode)) = l'.map fun x => (x.isKet, x.isOut, x.mode)) : autoName s l = autoName s l' := by
  unfold autoName
  have : l.map (·.mode) = l'.map (·.mode) := by
    have := congrArg (List.map fun x : Bool × Bool × ℤ => x.2.2) h
    rw [List.map_map, List.map_map] at this
    exact this
  rw [this]

/-- All references of components lead somewhere. -/
structure WF (w : World V A) : Prop where
  comps : ∀ (c : ℕ) (C : Comp), w.comps[c]? = some C → C.wires < w.wires.length ∧ C.pset < w.psets.length ∧ C.ans < w.anss.length
  cache : ∀ (r : ℕ) (W : WObj), w.wires[r]? = some W → (∀ s, W.adj = some s → s < w.wires.length) ∧ ∀ s, W.dul = some s → s < w.wires.length

theorem Later.trans {w1 w2 w3 : World V A} (hw : WF w1) (h : Later w1 w2) (g : Later w2 w3) : Later w1 w3 := by
  refine ⟨?_, ?_, fun r a e => g.anss _ _ (h.anss _ _ e), ?_, ?_⟩
  · intro c C e
    obtain ⟨C', e', a1, a2, a3, a4, a5, a6⟩ := h.comps c C e
    obtain ⟨C'', e'', b1, b2, b3, b4, b5, b6⟩ := g.comps c C' e'
    refine ⟨C'', e'', b1.trans a1, b2.trans a2, b3.trans a3, b4.trans a4, fun s hs => b5 s (a5 s hs), ?_⟩
    intro s hn hs
    rcases hc : C'.name with _ | t
    · rw [b6 s hc hs, a4]
      obtain ⟨W, hW⟩ : ∃ W, w1.wires[C.wires]? = some W := ⟨_, List.getElem?_eq_getElem (hw.comps c C e).1⟩
      obtain ⟨W', hW', e1, -⟩ := h.wires _ _ hW
      apply autoName_slots
      unfold World.ws
      rw [a3, hW, hW']
      exact e1
    · have := b5 t hc
      rw [hs] at this
      rw [Option.some.inj this]
      exact a6 t hn hc
  · intro r p e
    obtain ⟨q, e'⟩ := h.psets r p e
    obtain ⟨q', e''⟩ := g.psets r _ e'
    exact ⟨q ++ q', by rw [e'', List.append_assoc]⟩
  · intro r x e
    obtain ⟨v, e', a1⟩ := h.cells r x e
    obtain ⟨v', e'', b1⟩ := g.cells r _ e'
    exact ⟨v', e'', fun hx => (b1 hx).trans (a1 hx)⟩
  · intro r W e
    obtain ⟨W', e', a1, a2, a3⟩ := h.wires r W e
    obtain ⟨W'', e'', b1, b2, b3⟩ := g.wires r W' e'
    exact ⟨W'', e'', b1.trans a1, fun s hs => b2 s (a2 s hs), fun s hs => b3 s (a3 s hs)⟩

theorem setCut_slots (l : List Wr) (s : List (Option ℕ)) : ((setCut l s).map fun x => (x.isKet, x.isOut, x.mode)) = l.map fun x => (x.isKet, x.isOut, x.mode) := by
  induction l generalizing s with
  | nil => cases s <;> rfl
  | cons a l ih =>
    cases s with
    | nil => rfl
    | cons b t =>
      show _ :: _ = _ :: _
      rw [ih t]

theorem later_touch (w : World V A) (c : ℕ) : Later w (w.touch c) := by
  refine ⟨?_, fun r p h => ⟨[], by rw [List.append_nil]; exact h⟩, fun _ _ h => h, fun r x h => ⟨x.2, h, fun _ => rfl⟩, fun r W h => ⟨W, h, rfl, fun _ h => h, fun _ h => h⟩⟩
  intro d D hD
  have e : (w.touch c).comps[d]? = some (if c = d then { D with name := some (D.name.getD (autoName D.short (w.ws D))) } else D) := by
    unfold World.touch
    dsimp only
    rw [get_modify, hD]
    rfl
  by_cases hcd : c = d
  · rw [if_pos hcd] at e
    refine ⟨_, e, rfl, rfl, rfl, rfl, ?_, ?_⟩
    · intro s hs
      dsimp only
      rw [hs]
      rfl
    · intro s hn hs
      dsimp only at hs
      rw [hn] at hs
      exact (Option.some.inj hs).symm
  · rw [if_neg hcd] at e
    exact ⟨D, e, rfl, rfl, rfl, rfl, fun _ h => h, fun s h1 h2 => by rw [h1] at h2; exact absurd h2 (by simp)⟩

theorem wf_touch {w : World V A} (hw : WF w) (c : ℕ) : WF (w.touch c) := by
  refine ⟨?_, hw.cache⟩
  intro d D hD
  unfold World.touch at hD
  dsimp only at hD
  rw [get_modify] at hD
  rcases hd : w.comps[d]? with _ | D0
  · rw [hd] at hD
    exact absurd hD (by simp)
  · rw [hd] at hD
    have := hw.comps d D0 hd
    have e := Option.some.inj hD
    split at e <;> subst e <;> exact this

theorem get_append_cases {α} {l : List α} {x a : α} {i : ℕ} (h : (l ++ [x])[i]? = some a) : l[i]? = some a ∨ (i = l.length ∧ x = a) := by
  rcases lt_or_ge i l.length with hi | hi
  · rw [List.getElem?_append_left hi] at h
    exact Or.inl h
  · rw [List.getElem?_append_right hi] at h
    have : i - l.length = 0 := by
      have := (List.getElem?_eq_some_iff.1 h).1
      simp at this
      omega
    rw [this] at h
    exact Or.inr ⟨by omega, Option.some.inj h⟩

theorem comps_append {w : World V A} (l : List Comp) (c : ℕ) (C : Comp) (h : w.comps[c]? = some C) : ∃ C' : Comp, (w.comps ++ l)[c]? = some C' ∧ C'.ans = C.ans ∧ C'.pset = C.pset ∧ C'.wires = C.wires ∧
    C'.short = C.short ∧ (∀ s, C.name = some s → C'.name = some s) ∧ (∀ s, C.name = none → C'.name = some s → s = autoName C.short (w.ws C)) :=
  ⟨C, get_append h, rfl, rfl, rfl, rfl, fun _ h => h, fun s h1 h2 => by rw [h1] at h2; exact absurd h2 (by simp)⟩

theorem later_copyWith (w : World V A) (C : Comp) (l : List Wr) : Later w (w.copyWith C l) :=
  ⟨comps_append _, fun r p h => ⟨[], by rw [List.append_nil]; exact h⟩, fun _ _ h => h, fun r x h => ⟨x.2, h, fun _ => rfl⟩, fun r W h => ⟨W, get_append h, rfl, fun _ h => h, fun _ h => h⟩⟩

theorem wf_copyWith {w : World V A} (hw : WF w) {c : ℕ} {C : Comp} (hC : w.comps[c]? = some C) (l : List Wr) : WF (w.copyWith C l) := by
  constructor
  · intro d D hD
    unfold World.copyWith at hD ⊢
    dsimp only at hD ⊢
    rw [List.length_append, List.length_singleton]
    rcases get_append_cases hD with h | ⟨-, h⟩
    · have := hw.comps d D h
      exact ⟨by omega, this.2⟩
    · subst h
      exact ⟨by dsimp only; omega, (hw.comps c C hC).2⟩
  · intro r W hW
    unfold World.copyWith at hW ⊢
    dsimp only at hW ⊢
    rw [List.length_append, List.length_singleton]
    rcases get_append_cases hW with h | ⟨-, h⟩
    · have := hw.cache r W h
      exact ⟨fun s hs => by have := this.1 s hs; omega, fun s hs => by have := this.2 s hs; omega⟩
    · subst h
      exact ⟨fun s hs => absurd hs (by simp), fun s hs => absurd hs (by simp)⟩

/-- The two cached properties. -/
inductive Prop2 : (WObj → Option ℕ) → (WObj → ℕ → WObj) → Prop
  | adj : Prop2 (·.adj) (fun W r => { W with adj := some r })
  | dul : Prop2 (·.dul) (fun W r => { W with dul := some r })

theorem flip_cases (conj : A → A) (w : World V A) (c : ℕ) (get put) (f : List Wr → List Wr) : w.flip conj c get put f = w ∨ ∃ C W ps a, w.comps[c]? = some C ∧ w.wires[C.wires]? = some W ∧
    w.psets[C.pset]? = some ps ∧ w.anss[C.ans]? = some a ∧
    (w.flip conj c get put f).cells = w.cells ∧ (w.flip conj c get put f).psets = w.psets ++ [ps] ∧ (w.flip conj c get put f).anss = w.anss ++ [conj a] ∧
    (w.flip conj c get put f).comps = w.comps ++ [⟨w.anss.length, w.psets.length, (get W).getD w.wires.length, C.name, C.short⟩] ∧
    ((∃ r, get W = some r ∧ (w.flip conj c get put f).wires = w.wires) ∨
      (get W = none ∧ (w.flip conj c get put f).wires = w.wires.modify C.wires (fun W => put W w.wires.length) ++ [{ ws := f W.ws }])) := by
  rcases hC : w.comps[c]? with _ | C
  · left
    unfold World.flip
    rw [hC]
  · rcases hW : w.wires[C.wires]? with _ | W
    · left
      unfold World.flip
      rw [hC]
      dsimp only
      rw [hW]
    · rcases hp : w.psets[C.pset]? with _ | ps
      · left
        unfold World.flip
        rw [hC]
        dsimp only
        rw [hW, hp]
      · rcases ha : w.anss[C.ans]? with _ | a
        · left
          unfold World.flip
          rw [hC]
          dsimp only
          rw [hW, hp, ha]
        · right
          refine ⟨C, W, ps, a, rfl, hW, hp, ha, ?_⟩
          unfold World.flip
          rw [hC]
          dsimp only
          rw [hW, hp, ha]
          dsimp only
          rcases hg : get W with _ | r
          · dsimp only
            exact ⟨rfl, rfl, rfl, rfl, Or.inr ⟨rfl, rfl⟩⟩
          · dsimp only
            exact ⟨rfl, rfl, rfl, rfl, Or.inl ⟨r, rfl, rfl⟩⟩

theorem later_flip (conj : A → A) (w : World V A) (c : ℕ) {get put} (hp : Prop2 get put) (f : List Wr → List Wr) : Later w (w.flip conj c get put f) := by
  rcases flip_cases conj w c get put f with h | ⟨C, W, ps, a, hC, hW, h0, h0', h1, h2, h3, h4, h5⟩
  · rw [h]
    exact Later.refl w
  · refine ⟨?_, ?_, ?_, fun r x e => ⟨x.2, by rw [h1]; exact e, fun _ => rfl⟩, ?_⟩
    · rw [h4]
      exact comps_append _
    · intro r p e
      rw [h2]
      exact ⟨[], by rw [List.append_nil]; exact get_append e⟩
    · intro r x e
      rw [h3]
      exact get_append e
    · intro r X e
      rcases h5 with ⟨s, -, h5⟩ | ⟨hn, h5⟩
      · rw [h5]
        exact ⟨X, e, rfl, fun _ h => h, fun _ h => h⟩
      · rw [h5]
        refine ⟨if C.wires = r then put X w.wires.length else X, get_append (by rw [get_modify, e]; rfl), ?_⟩
        by_cases hr : C.wires = r
        · rw [if_pos hr]
          rw [hr, e] at hW
          have hX := Option.some.inj hW
          subst hX
          cases hp
          · exact ⟨rfl, fun s hs => absurd (hs.symm.trans hn) (by simp), fun s hs => hs⟩
          · exact ⟨rfl, fun s hs => hs, fun s hs => absurd (hs.symm.trans hn) (by simp)⟩
        · rw [if_neg hr]
          exact ⟨rfl, fun _ h => h, fun _ h => h⟩

theorem wf_flip {conj : A → A} {w : World V A} (hw : WF w) (c : ℕ) {get put} (hp : Prop2 get put) (f : List Wr → List Wr) : WF (w.flip conj c get put f) := by
  rcases flip_cases conj w c get put f with h | ⟨C, W, ps, a, hC, hW, h0, h0', h1, h2, h3, h4, h5⟩
  · rw [h]
    exact hw
  · have hlen : w.wires.length ≤ (w.flip conj c get put f).wires.length := by
      rcases h5 with ⟨s, -, h5⟩ | ⟨hn, h5⟩
      · rw [h5]
      · rw [h5, List.length_append, List.length_modify, List.length_singleton]
        omega
    have hnew : (get W).getD w.wires.length < (w.flip conj c get put f).wires.length := by
      rcases h5 with ⟨s, hs, h5⟩ | ⟨hn, h5⟩
      · rw [h5, hs]
        cases hp
        · exact (hw.cache _ _ hW).1 s hs
        · exact (hw.cache _ _ hW).2 s hs
      · rw [h5, hn, List.length_append, List.length_modify, List.length_singleton]
        show w.wires.length < _
        omega
    constructor
    · intro d D hD
      rw [h4] at hD
      rw [h2, h3, List.length_append, List.length_append, List.length_singleton, List.length_singleton]
      rcases get_append_cases hD with h | ⟨-, h⟩
      · have := hw.comps d D h
        exact ⟨by omega, by omega, by omega⟩
      · subst h
        exact ⟨hnew, by dsimp only; omega, by dsimp only; omega⟩
    · intro r X hX
      rcases h5 with ⟨s, hs, h5⟩ | ⟨hn, h5⟩
      · rw [h5] at hX ⊢
        exact hw.cache r X hX
      · have e : (w.flip conj c get put f).wires.length = w.wires.length + 1 := by rw [h5, List.length_append, List.length_modify, List.length_singleton]
        rw [h5] at hX
        rw [e]
        rcases get_append_cases hX with h | ⟨-, h⟩
        · rw [get_modify] at h
          rcases hr : w.wires[r]? with _ | Y
          · rw [hr] at h
            exact absurd h (by simp)
          · rw [hr] at h
            have := hw.cache r Y hr
            have h := Option.some.inj h
            split at h
            · subst h
              cases hp
              · exact ⟨fun s hs => by have := Option.some.inj hs; omega, fun s hs => by have := this.2 s hs; omega⟩
              · exact ⟨fun s hs => by have := this.1 s hs; omega, fun s hs => by have := Option.some.inj hs; omega⟩
            · subst h
              exact ⟨fun s hs => by have := this.1 s hs; omega, fun s hs => by have := this.2 s hs; omega⟩
        · subst h
          exact ⟨fun s hs => absurd hs (by simp), fun s hs => absurd hs (by simp)⟩

theorem wf_step (conj : A → A) {w : World V A} (hw : WF w) (k : Cmd V A) : WF (w.step conj k) := by
  cases k with
  | new ps a ws name short =>
    constructor
    · intro d D hD
      unfold World.step at hD ⊢
      dsimp only at hD ⊢
      rw [List.length_append, List.length_append, List.length_append, List.length_singleton, List.length_singleton, List.length_singleton]
      rcases get_append_cases hD with h | ⟨-, h⟩
      · have := hw.comps d D h
        exact ⟨by omega, by omega, by omega⟩
      · subst h
        exact ⟨by dsimp only; omega, by dsimp only; omega, by dsimp only; omega⟩
    · intro r W hW
      unfold World.step at hW ⊢
      dsimp only at hW ⊢
      rw [List.length_append, List.length_singleton]
      rcases get_append_cases hW with h | ⟨-, h⟩
      · have := hw.cache r W h
        exact ⟨fun s hs => by have := this.1 s hs; omega, fun s hs => by have := this.2 s hs; omega⟩
      · subst h
        exact ⟨fun s hs => absurd hs (by simp), fun s hs => absurd hs (by simp)⟩
  | light c =>
    simp only [World.step]
    rcases hC : w.comps[c]? with _ | C
    · exact hw
    · exact wf_copyWith hw hC _
  | on c modes =>
    simp only [World.step]
    rcases hC : w.comps[c]? with _ | C
    · exact hw
    · dsimp only
      split
      · exact wf_copyWith hw hC _
      · exact hw
  | adjoint c => exact wf_flip (wf_touch hw c) c Prop2.adj adjWs
  | dual c => exact wf_flip (wf_touch hw c) c Prop2.dul dulWs
  | setParam c n v =>
    simp only [World.step]
    rcases hC : w.comps[c]? with _ | C
    · exact hw
    · dsimp only
      split
      · exact ⟨hw.comps, hw.cache⟩
      · exact hw
  | addParam c n fixed v =>
    simp only [World.step]
    rcases hC : w.comps[c]? with _ | C
    · exact hw
    · dsimp only
      split
      · exact hw
      · refine ⟨fun d D hD => ?_, hw.cache⟩
        have := hw.comps d D hD
        dsimp only
        rw [List.length_modify]
        exact this
  | setShape c s =>
    simp only [World.step]
    rcases hC : w.comps[c]? with _ | C
    · exact hw
    · constructor
      · intro d D hD
        have := hw.comps d D hD
        dsimp only
        rw [List.length_modify]
        exact this
      · intro r X hX
        dsimp only at hX ⊢
        rw [List.length_modify]
        rw [get_modify] at hX
        rcases hr : w.wires[r]? with _ | Y
        · rw [hr] at hX
          exact absurd hX (by simp)
        · rw [hr] at hX
          have := hw.cache r Y hr
          have h := Option.some.inj hX
          split at h <;> subst h <;> exact this
  | getName c => exact wf_touch hw c

theorem later_step (conj : A → A) {w : World V A} (hw : WF w) (k : Cmd V A) : Later w (w.step conj k) := by
  cases k with
  | new ps a ws name short =>
    exact ⟨comps_append _, fun r p h => ⟨[], by rw [List.append_nil]; exact get_append h⟩, fun _ _ h => get_append h, fun r x h => ⟨x.2, get_append h, fun _ => rfl⟩, fun r W h => ⟨W, get_append h, rfl, fun _ h => h, fun _ h => h⟩⟩
  | light c =>
    simp only [World.step]
    rcases w.comps[c]? with _ | C
    · exact Later.refl w
    · exact later_copyWith w C _
  | on c modes =>
    simp only [World.step]
    rcases w.comps[c]? with _ | C
    · exact Later.refl w
    · dsimp only
      split
      · exact later_copyWith w C _
      · exact Later.refl w
  | adjoint c => exact (later_touch w c).trans hw (later_flip conj _ c Prop2.adj adjWs)
  | dual c => exact (later_touch w c).trans hw (later_flip conj _ c Prop2.dul dulWs)
  | setParam c n v =>
    simp only [World.step]
    rcases w.comps[c]? with _ | C
    · exact Later.refl w
    · dsimp only
      split
      · have := Later.refl w
        refine ⟨this.comps, this.psets, this.anss, ?_, this.wires⟩
        intro r x h
        dsimp only
        rw [get_modify, h, Option.map_some]
        rcases x with ⟨b, x⟩
        cases b
        · split
          · exact ⟨v, rfl, fun h => absurd h (by simp)⟩
          · exact ⟨x, rfl, fun _ => rfl⟩
        · exact ⟨x, by split <;> rfl, fun _ => rfl⟩
      · exact Later.refl w
  | addParam c n fixed v =>
    simp only [World.step]
    rcases w.comps[c]? with _ | C
    · exact Later.refl w
    · dsimp only
      split
      · exact Later.refl w
      · have := Later.refl w
        refine ⟨this.comps, ?_, this.anss, fun r x h => ⟨x.2, get_append h, fun _ => rfl⟩, this.wires⟩
        intro r p h
        dsimp only
        rw [get_modify, h]
        by_cases hr : C.pset = r
        · exact ⟨[(n, w.cells.length)], by rw [Option.map_some, if_pos hr]⟩
        · exact ⟨[], by rw [Option.map_some, if_neg hr, List.append_nil]⟩
  | setShape c s =>
    simp only [World.step]
    rcases w.comps[c]? with _ | C
    · exact Later.refl w
    · have := Later.refl w
      refine ⟨this.comps, this.psets, this.anss, this.cells, ?_⟩
      intro r W h
      dsimp only
      rw [get_modify, h]
      refine ⟨_, rfl, ?_⟩
      split
      · exact ⟨setCut_slots _ _, fun _ h => h, fun _ h => h⟩
      · exact ⟨rfl, fun _ h => h, fun _ h => h⟩
  | getName c => exact later_touch w c

theorem wf_run (conj : A → A) {w : World V A} (hw : WF w) (h : List (Cmd V A)) : WF (w.run conj h) := by
  induction h generalizing w with
  | nil => exact hw
  | cons k h ih => exact ih (wf_step conj hw k)

theorem later_run (conj : A → A) {w : World V A} (hw : WF w) (h : List (Cmd V A)) : Later w (w.run conj h) := by
  induction h generalizing w with
  | nil => exact Later.refl w
  | cons k h ih => exact (later_step conj hw k).trans hw (ih (wf_step conj hw k))

theorem wf_empty : WF ({} : World V A) := ⟨fun c C h => by simp at h, fun r W h => by simp at h⟩

/-! ## C120 -/

/-- A heap that some program can produce. -/
def Reachable (conj : A → A) (w : World V A) : Prop := ∃ h : List (Cmd V A), w = ({} : World V A).run conj h

theorem Reachable.wf {conj : A → A} {w : World V A} (h : Reachable conj w) : WF w := by
  obtain ⟨h, rfl⟩ := h
  exact wf_run conj wf_empty h

theorem lookup_append {l m : List (String × ℕ)} {n : String} {r : ℕ} (h : l.lookup n = some r) : (l ++ m).lookup n = some r := by
  rw [List.lookup_append, h]
  rfl

theorem pset_get {w : World V A} {C : Comp} (h : C.pset < w.psets.length) : ∃ ps, w.psets[C.pset]? = some ps := ⟨_, List.getElem?_eq_getElem h⟩
theorem wires_get {w : World V A} {r : ℕ} (h : r < w.wires.length) : ∃ W, w.wires[r]? = some W := ⟨_, List.getElem?_eq_getElem h⟩

/-- **C120** the name of a component, whether or not it has been read before, is the same at all later times. -/
theorem C120_name_stable (conj : A → A) {w : World V A} (hw : Reachable conj w) (c : ℕ) (s : String) (h : w.nameOf c = some s) (p : List (Cmd V A)) : (w.run conj p).nameOf c = some s := by
  have L := later_run conj hw.wf p
  rcases hC : w.comps[c]? with _ | C
  · unfold World.nameOf at h
    rw [hC] at h
    exact absurd h (by simp)
  · obtain ⟨C', e, a1, a2, a3, a4, a5, a6⟩ := L.comps c C hC
    obtain ⟨W, hW⟩ := wires_get (hw.wf.comps c C hC).1
    obtain ⟨W', hW', e1, -⟩ := L.wires _ _ hW
    have hauto : autoName C.short (w.ws C) = autoName C'.short ((w.run conj p).ws C') := by
      rw [a4]
      apply autoName_slots
      unfold World.ws
      rw [a3, hW, hW']
      exact e1.symm
    unfold World.nameOf at h ⊢
    rw [hC] at h
    rw [e]
    have h := Option.some.inj h
    subst h
    refine congrArg some ?_
    beta_reduce
    rcases hn : C.name with _ | t
    · rcases hn' : C'.name with _ | t'
      · exact hauto.symm
      · exact a6 t' hn hn'
    · rw [a5 t hn]
      rfl

/-- **C120** the wires of a component (sides, directions, modes and their order) never change. -/
theorem C120_slots_stable (conj : A → A) {w : World V A} (hw : Reachable conj w) (c : ℕ) (s) (h : w.slots c = some s) (p : List (Cmd V A)) : (w.run conj p).slots c = some s := by
  have L := later_run conj hw.wf p
  rcases hC : w.comps[c]? with _ | C
  · unfold World.slots at h
    rw [hC] at h
    exact absurd h (by simp)
  · obtain ⟨C', e, a1, a2, a3, a4, a5, a6⟩ := L.comps c C hC
    obtain ⟨W, hW⟩ := wires_get (hw.wf.comps c C hC).1
    obtain ⟨W', hW', e1, -⟩ := L.wires _ _ hW
    unfold World.slots World.ws at h ⊢
    rw [hC, Option.map_some, hW] at h
    rw [e, Option.map_some, a3, hW']
    exact (congrArg some e1).trans h

/-- Two components that hold the same parameter set and the same ansatz. -/
theorem shared_forever (conj : A → A) {w : World V A} (hw : WF w) {c d : ℕ} {C D : Comp} (hC : w.comps[c]? = some C) (hD : w.comps[d]? = some D) (h1 : C.pset = D.pset) (h2 : C.ans = D.ans)
    (p : List (Cmd V A)) : (∀ n, (w.run conj p).param d n = (w.run conj p).param c n) ∧ (w.run conj p).ansatz d = (w.run conj p).ansatz c := by
  have L := later_run conj hw p
  obtain ⟨C', e, a1, a2, -⟩ := L.comps c C hC
  obtain ⟨D', e', b1, b2, -⟩ := L.comps d D hD
  constructor
  · intro n
    unfold World.param
    rw [e, e']
    show (do let r ← (((w.run conj p).psets[D'.pset]?).getD []).lookup n; _) = (do let r ← (((w.run conj p).psets[C'.pset]?).getD []).lookup n; _)
    rw [a2, b2, h1]
  · unfold World.ansatz
    rw [e, e']
    show (w.run conj p).anss[D'.ans]? = (w.run conj p).anss[C'.ans]?
    rw [a1, b1, h2]

/-- **C120** a light copy (a component of a `Circuit`) has, after any further operations on whatever component, the same ansatz and the same value of every parameter as the original. -/
theorem C120_light_shared (conj : A → A) {w : World V A} (hw : Reachable conj w) (c : ℕ) (hc : c < w.comps.length) (p : List (Cmd V A)) :
    let w' := (w.step conj (.light c)).run conj p
    (∀ n, w'.param w.comps.length n = w'.param c n) ∧ w'.ansatz w.comps.length = w'.ansatz c := by
  have hC : w.comps[c]? = some w.comps[c] := List.getElem?_eq_getElem hc
  have hs : w.step conj (.light c) = w.copyWith w.comps[c] (freshWs (w.ws w.comps[c])) := by
    simp only [World.step]
    rw [hC]
  dsimp only
  refine shared_forever conj (wf_step conj hw.wf _) (C := w.comps[c]) (D := { w.comps[c] with wires := w.wires.length }) ?_ ?_ rfl rfl p
  · rw [hs]
    exact get_append hC
  · rw [hs]
    unfold World.copyWith
    dsimp only
    rw [List.getElem?_append_right le_rfl, Nat.sub_self]
    rfl

/-- **C120** the same for the component returned by `on`. -/
theorem C120_on_shared (conj : A → A) {w : World V A} (hw : Reachable conj w) (c : ℕ) (modes : List ℤ) (hc : c < w.comps.length) (hok : onOk (w.ws w.comps[c]) modes = true) (p : List (Cmd V A)) :
    let w' := (w.step conj (.on c modes)).run conj p
    (∀ n, w'.param w.comps.length n = w'.param c n) ∧ w'.ansatz w.comps.length = w'.ansatz c := by
  have hC : w.comps[c]? = some w.comps[c] := List.getElem?_eq_getElem hc
  have hs : w.step conj (.on c modes) = w.copyWith w.comps[c] (onWs (w.ws w.comps[c]) modes) := by
    simp only [World.step]
    rw [hC]
    dsimp only
    rw [if_pos hok]
  dsimp only
  refine shared_forever conj (wf_step conj hw.wf _) (C := w.comps[c]) (D := { w.comps[c] with wires := w.wires.length }) ?_ ?_ rfl rfl p
  · rw [hs]
    exact get_append hC
  · rw [hs]
    unfold World.copyWith
    dsimp only
    rw [List.getElem?_append_right le_rfl, Nat.sub_self]
    rfl

theorem ws_touch (w : World V A) (c : ℕ) (C : Comp) : (w.touch c).ws C = w.ws C := rfl

/-- The component that `adjoint` or `dual` appends. -/
theorem flip_new {conj : A → A} {w : World V A} (hw : WF w) {c : ℕ} {C : Comp} (hC : w.comps[c]? = some C) {get put} (hp : Prop2 get put) (f : List Wr → List Wr) :
    ∃ W ps a D, w.wires[C.wires]? = some W ∧ w.psets[C.pset]? = some ps ∧ w.anss[C.ans]? = some a ∧ (w.flip conj c get put f).comps[w.comps.length]? = some D ∧ D.name = C.name ∧ D.short = C.short ∧
      (w.flip conj c get put f).psets[D.pset]? = some ps ∧ (w.flip conj c get put f).anss[D.ans]? = some (conj a) ∧
      (∃ W', (w.flip conj c get put f).wires[C.wires]? = some W' ∧ get W' = some D.wires) ∧
      (get W = none → (w.flip conj c get put f).wires[D.wires]? = some { ws := f W.ws }) := by
  rcases flip_cases conj w c get put f with h | ⟨C', W, ps, a, hC', hW, h0, h0', h1, h2, h3, h4, h5⟩
  · exfalso
    obtain ⟨W, hW⟩ := wires_get (hw.comps c C hC).1
    obtain ⟨ps, hps⟩ := pset_get (hw.comps c C hC).2.1
    have ha : w.anss[C.ans]? = some (w.anss[C.ans]'(hw.comps c C hC).2.2) := List.getElem?_eq_getElem _
    have := congrArg (fun w => w.psets.length) h
    unfold World.flip at this
    rw [hC] at this
    dsimp only at this
    rw [hW, hps, ha] at this
    dsimp only at this
    rw [List.length_append, List.length_singleton] at this
    split at this <;> first | omega | (dsimp only at this; omega)
  · have hCC : C' = C := by
      rw [hC] at hC'
      exact (Option.some.inj hC').symm
    subst hCC
    refine ⟨W, ps, a, ⟨w.anss.length, w.psets.length, (get W).getD w.wires.length, C'.name, C'.short⟩, hW, h0, h0', (by rw [h4, List.getElem?_append_right le_rfl, Nat.sub_self]; rfl), rfl, rfl, ?_, ?_, ?_, ?_⟩
    · rw [h2]
      dsimp only
      rw [List.getElem?_append_right le_rfl, Nat.sub_self]
      rfl
    · rw [h3]
      dsimp only
      rw [List.getElem?_append_right le_rfl, Nat.sub_self]
      rfl
    · rcases h5 with ⟨s, hs, h5⟩ | ⟨hn, h5⟩
      · rw [h5]
        exact ⟨W, hW, by rw [hs]; rfl⟩
      · rw [h5]
        refine ⟨put W w.wires.length, get_append (by rw [get_modify, hW, Option.map_some, if_pos rfl]), ?_⟩
        rw [hn]
        cases hp <;> rfl
    · intro hn
      rcases h5 with ⟨s, hs, h5⟩ | ⟨-, h5⟩
      · rw [hn] at hs
        exact absurd hs (by simp)
      · rw [h5, hn]
        dsimp only
        have : (w.wires.modify C'.wires fun W => put W w.wires.length).length = w.wires.length := List.length_modify ..
        show ((w.wires.modify C'.wires fun W => put W w.wires.length) ++ [_])[w.wires.length]? = _
        rw [List.getElem?_append_right this.le, this, Nat.sub_self]
        rfl

/-- The two operations with their cached property. -/
inductive IsFlip : (ℕ → Cmd V A) → (WObj → Option ℕ) → (WObj → ℕ → WObj) → (List Wr → List Wr) → Prop
  | adj : IsFlip (fun c => .adjoint c) (·.adj) (fun W r => { W with adj := some r }) adjWs
  | dul : IsFlip (fun c => .dual c) (·.dul) (fun W r => { W with dul := some r }) dulWs

theorem IsFlip.step {cmd get put f} (h : IsFlip (V := V) (A := A) cmd get put f) (conj : A → A) (w : World V A) (c : ℕ) : w.step conj (cmd c) = (w.touch c).flip conj c get put f := by
  cases h <;> rfl

theorem IsFlip.prop2 {cmd get put f} (h : IsFlip (V := V) (A := A) cmd get put f) : Prop2 get put := by
  cases h
  · exact Prop2.adj
  · exact Prop2.dul

theorem touch_get {w : World V A} {c : ℕ} {C : Comp} (hC : w.comps[c]? = some C) : (w.touch c).comps[c]? = some { C with name := some (C.name.getD (autoName C.short (w.ws C))) } := by
  unfold World.touch
  dsimp only
  rw [get_modify, hC, Option.map_some, if_pos rfl]

/-- **C120** the adjoint and the dual of a component hold the same parameters: each parameter the component had when the adjoint was taken has the same value in both, after any further operations.  The
ansatz of the adjoint is the conjugate of the ansatz at that time. -/
theorem C120_flip_shared (conj : A → A) {w : World V A} (hw : Reachable conj w) {cmd get put f} (hf : IsFlip (V := V) (A := A) cmd get put f) (c : ℕ) (hc : c < w.comps.length) (p : List (Cmd V A)) :
    let w' := (w.step conj (cmd c)).run conj p
    (∀ n v, w.param c n = some v → ∃ v', w'.param c n = some v' ∧ w'.param w.comps.length n = some v') ∧ w'.ansatz w.comps.length = (w.ansatz c).map conj := by
  have hC : w.comps[c]? = some w.comps[c] := List.getElem?_eq_getElem hc
  obtain ⟨C, hCe⟩ : ∃ C, C = w.comps[c] := ⟨_, rfl⟩
  rw [← hCe] at hC
  have htw := wf_touch hw.wf c
  obtain ⟨W, ps, a, D, hW, hps, ha, hD, hn, hsh, hDp, hDa, -, -⟩ := flip_new (conj := conj) htw (touch_get hC) hf.prop2 f
  have L := (later_touch w c).trans hw.wf (later_flip conj (w.touch c) c hf.prop2 f)
  have hlen : (w.touch c).comps.length = w.comps.length := List.length_modify ..
  rw [hlen] at hD
  have hwf := wf_flip (conj := conj) htw c hf.prop2 f
  have L2 := later_run conj hwf p
  dsimp only
  rw [hf.step]
  obtain ⟨C1, e1, -, p1, -⟩ := L.comps c C hC
  obtain ⟨C2, e2, -, p2, -⟩ := L2.comps c C1 e1
  obtain ⟨D2, f2, q1, q2, -⟩ := L2.comps _ D hD
  obtain ⟨x, hx⟩ := L.psets C.pset ps hps
  obtain ⟨y, hy⟩ := L2.psets _ _ hx
  obtain ⟨z, hz⟩ := L2.psets _ _ hDp
  constructor
  · intro n v hv
    unfold World.param at hv
    rw [hC] at hv
    change (do let r ← ((w.psets[C.pset]?).getD []).lookup n; (w.cells[r]?).map (·.2)) = some v at hv
    rw [show w.psets[C.pset]? = some ps from hps] at hv
    rcases hl : ps.lookup n with _ | r
    · exfalso
      rw [Option.getD_some, hl] at hv
      exact absurd hv (by simp)
    · have key : (((w.touch c).flip conj c get put f).run conj p).param c n = ((((w.touch c).flip conj c get put f).run conj p).cells[r]?).map (·.2) := by
        unfold World.param
        rw [e2]
        show (do let r ← (_ : List _).lookup n; _) = _
        rw [p2, p1, hy, Option.getD_some, List.append_assoc, lookup_append hl]
        rfl
      have key2 : (((w.touch c).flip conj c get put f).run conj p).param w.comps.length n = ((((w.touch c).flip conj c get put f).run conj p).cells[r]?).map (·.2) := by
        unfold World.param
        rw [f2]
        show (do let r ← (_ : List _).lookup n; _) = _
        rw [q2, hz, Option.getD_some, lookup_append hl]
        rfl
      rcases hr : w.cells[r]? with _ | y
      · exfalso
        rw [Option.getD_some, hl] at hv
        change (w.cells[r]?).map (·.2) = some v at hv
        rw [hr] at hv
        exact absurd hv (by simp)
      · obtain ⟨v1, hv1, -⟩ := L.cells r y hr
        obtain ⟨v2, hv2, -⟩ := L2.cells r _ hv1
        exact ⟨v2, by rw [key, hv2]; rfl, by rw [key2, hv2]; rfl⟩
  · unfold World.ansatz
    rw [f2, hC]
    show (((w.touch c).flip conj c get put f).run conj p).anss[D2.ans]? = (w.anss[C.ans]?).map conj
    rw [q1, L2.anss _ _ hDa, show w.anss[C.ans]? = some a from ha]
    rfl

/-- **C120** a constant parameter keeps its value for ever; so does every parameter that no one assigns. -/
theorem C120_constant (conj : A → A) {w : World V A} (hw : Reachable conj w) (r : ℕ) (v : V) (h : w.cells[r]? = some (true, v)) (p : List (Cmd V A)) : (w.run conj p).cells[r]? = some (true, v) := by
  obtain ⟨v', h1, h2⟩ := (later_run conj hw.wf p).cells r _ h
  rw [h1, h2 rfl]

/-- No other component, and no cached property, holds the wires of `c`. -/
def Own (w : World V A) (c : ℕ) : Prop := ∃ C, w.comps[c]? = some C ∧ (∀ d D, d ≠ c → w.comps[d]? = some D → D.wires ≠ C.wires) ∧
  ∀ (r : ℕ) (W : WObj), w.wires[r]? = some W → W.adj ≠ some C.wires ∧ W.dul ≠ some C.wires

theorem own_touch {w : World V A} {c : ℕ} (h : Own w c) (d : ℕ) : Own (w.touch d) c := by
  obtain ⟨C, hC, h1, h2⟩ := h
  have hm : ∀ e, (w.touch d).comps[e]? = (w.comps[e]?).map fun E => if d = e then { E with name := some (E.name.getD (autoName E.short (w.ws E))) } else E := by
    intro e
    unfold World.touch
    dsimp only
    rw [get_modify]
  have hE : ∀ (e : ℕ) (E' : Comp), (w.touch d).comps[e]? = some E' → ∃ E : Comp, w.comps[e]? = some E ∧ E'.wires = E.wires := by
    intro e E' he
    rw [hm] at he
    rcases hh : w.comps[e]? with _ | E
    · rw [hh] at he
      exact absurd he (by simp)
    · rw [hh, Option.map_some] at he
      refine ⟨E, rfl, ?_⟩
      have := Option.some.inj he
      split at this <;> subst this <;> rfl
  have hCt := hm c
  rw [hC, Option.map_some] at hCt
  refine ⟨_, hCt, ?_⟩
  obtain ⟨C0, hC0, e0⟩ := hE c _ hCt
  have : C0 = C := by
    rw [hC] at hC0
    exact (Option.some.inj hC0).symm
  subst this
  rw [e0]
  refine ⟨?_, h2⟩
  intro e E' hne he
  obtain ⟨E, hh, e1⟩ := hE e E' he
  rw [e1]
  exact h1 e E hne hh

theorem own_lt {w : World V A} (hw : WF w) {c : ℕ} {C : Comp} (hC : w.comps[c]? = some C) : c < w.comps.length ∧ C.wires < w.wires.length := ⟨(List.getElem?_eq_some_iff.1 hC).1, (hw.comps c C hC).1⟩

theorem own_copyWith {w : World V A} (hw : WF w) {c : ℕ} (h : Own w c) (E : Comp) (l : List Wr) : Own (w.copyWith E l) c := by
  obtain ⟨C, hC, h1, h2⟩ := h
  have hlt := own_lt hw hC
  refine ⟨C, get_append hC, ?_, ?_⟩
  · intro d D hne hd
    rcases get_append_cases hd with hd | ⟨-, hd⟩
    · exact h1 d D hne hd
    · subst hd
      exact fun h => by dsimp only at h; omega
  · intro r W hr
    rcases get_append_cases hr with hr | ⟨-, hr⟩
    · exact h2 r W hr
    · subst hr
      exact ⟨fun h => absurd h (by simp), fun h => absurd h (by simp)⟩

theorem own_flip {conj : A → A} {w : World V A} (hw : WF w) {c : ℕ} (h : Own w c) (d : ℕ) {get put} (hp : Prop2 get put) (f : List Wr → List Wr) : Own (w.flip conj d get put f) c := by
  rcases flip_cases conj w d get put f with hh | ⟨D, W, ps, a, hD, hW, g0, g0', g1, g2, g3, g4, g5⟩
  · rw [hh]
    exact h
  · obtain ⟨C, hC, h1, h2⟩ := h
    have hlt := own_lt hw hC
    refine ⟨C, by rw [g4]; exact get_append hC, ?_, ?_⟩
    · intro e E hne he
      rw [g4] at he
      rcases get_append_cases he with he | ⟨-, he⟩
      · exact h1 e E hne he
      · subst he
        dsimp only
        rcases hg : get W with _ | r
        · rw [Option.getD_none]
          omega
        · rw [Option.getD_some]
          intro hr
          subst hr
          cases hp
          · exact (h2 _ _ hW).1 hg
          · exact (h2 _ _ hW).2 hg
    · intro r X hr
      rcases g5 with ⟨s, hs, g5⟩ | ⟨hn, g5⟩
      · rw [g5] at hr
        exact h2 r X hr
      · rw [g5] at hr
        rcases get_append_cases hr with hr | ⟨-, hr⟩
        · rw [get_modify] at hr
          rcases hy : w.wires[r]? with _ | Y
          · rw [hy] at hr
            exact absurd hr (by simp)
          · rw [hy, Option.map_some] at hr
            have := Option.some.inj hr
            have hY := h2 r Y hy
            split at this
            · subst this
              cases hp
              · exact ⟨fun h => by have := Option.some.inj h; omega, hY.2⟩
              · exact ⟨hY.1, fun h => by have := Option.some.inj h; omega⟩
            · subst this
              exact hY
        · subst hr
          exact ⟨fun h => absurd h (by simp), fun h => absurd h (by simp)⟩

theorem own_step (conj : A → A) {w : World V A} (hw : WF w) {c : ℕ} (h : Own w c) (k : Cmd V A) : Own (w.step conj k) c := by
  cases k with
  | new ps a ws name short =>
    obtain ⟨C, hC, h1, h2⟩ := h
    have hlt := own_lt hw hC
    refine ⟨C, get_append hC, ?_, ?_⟩
    · intro d D hne hd
      rcases get_append_cases hd with hd | ⟨-, hd⟩
      · exact h1 d D hne hd
      · subst hd
        exact fun h => by dsimp only at h; omega
    · intro r W hr
      rcases get_append_cases hr with hr | ⟨-, hr⟩
      · exact h2 r W hr
      · subst hr
        exact ⟨fun h => absurd h (by simp), fun h => absurd h (by simp)⟩
  | light d =>
    simp only [World.step]
    rcases hD : w.comps[d]? with _ | D
    · exact h
    · exact own_copyWith hw h _ _
  | on d modes =>
    simp only [World.step]
    rcases hD : w.comps[d]? with _ | D
    · exact h
    · dsimp only
      split
      · exact own_copyWith hw h _ _
      · exact h
  | adjoint d => exact own_flip (wf_touch hw d) (own_touch h d) d Prop2.adj adjWs
  | dual d => exact own_flip (wf_touch hw d) (own_touch h d) d Prop2.dul dulWs
  | setParam d n v =>
    simp only [World.step]
    rcases hD : w.comps[d]? with _ | D
    · exact h
    · dsimp only
      split
      · exact h
      · exact h
  | addParam d n fixed v =>
    simp only [World.step]
    rcases hD : w.comps[d]? with _ | D
    · exact h
    · dsimp only
      split
      · exact h
      · exact h
  | setShape d s =>
    simp only [World.step]
    rcases hD : w.comps[d]? with _ | D
    · exact h
    · obtain ⟨C, hC, h1, h2⟩ := h
      refine ⟨C, hC, h1, ?_⟩
      intro r X hr
      dsimp only at hr
      rw [get_modify] at hr
      rcases hy : w.wires[r]? with _ | Y
      · rw [hy] at hr
        exact absurd hr (by simp)
      · rw [hy, Option.map_some] at hr
        have hY := h2 r Y hy
        have := Option.some.inj hr
        split at this <;> subst this <;> exact hY
  | getName d => exact own_touch h d

theorem shape_touch (w : World V A) (c d : ℕ) : (w.touch d).shape c = w.shape c := by
  unfold World.shape
  rw [show (w.touch d).comps[c]? = (w.comps[c]?).map fun E => if d = c then { E with name := some (E.name.getD (autoName E.short (w.ws E))) } else E by
    unfold World.touch
    dsimp only
    rw [get_modify]]
  rcases w.comps[c]? with _ | C
  · rfl
  · rw [Option.map_some, Option.map_some, Option.map_some]
    split <;> rfl

theorem shape_eq {w : World V A} {c : ℕ} {C : Comp} {W : WObj} (hC : w.comps[c]? = some C) (hW : w.wires[C.wires]? = some W) : w.shape c = some (W.ws.map (·.cutoff)) := by
  unfold World.shape World.ws
  rw [hC, Option.map_some, hW]
  rfl

theorem shape_flip {conj : A → A} {w : World V A} (hw : WF w) {c : ℕ} {C : Comp} (hC : w.comps[c]? = some C) (d : ℕ) {get put} (hp : Prop2 get put) (f : List Wr → List Wr) :
    (w.flip conj d get put f).shape c = w.shape c := by
  rcases flip_cases conj w d get put f with hh | ⟨D, W, ps, a, hD, hW, g0, g0', g1, g2, g3, g4, g5⟩
  · rw [hh]
  · obtain ⟨X, hX⟩ := wires_get (hw.comps c C hC).1
    rw [shape_eq hC hX]
    have hC' : (w.flip conj d get put f).comps[c]? = some C := by rw [g4]; exact get_append hC
    rcases g5 with ⟨s, hs, g5⟩ | ⟨hn, g5⟩
    · exact shape_eq hC' (by rw [g5]; exact hX)
    · rw [shape_eq (W := if D.wires = C.wires then put X w.wires.length else X) hC' (by rw [g5]; exact get_append (by rw [get_modify, hX, Option.map_some]))]
      split
      · cases hp <;> rfl
      · rfl

/-- Only `manual_shape = …` on a component with the same `Wires` object changes the shape of a component. -/
theorem shape_step (conj : A → A) {w : World V A} (hw : WF w) {c : ℕ} {C : Comp} (hC : w.comps[c]? = some C) (k : Cmd V A)
    (hk : ∀ d D s, k = .setShape d s → w.comps[d]? = some D → D.wires ≠ C.wires) : (w.step conj k).shape c = w.shape c := by
  obtain ⟨X, hX⟩ := wires_get (hw.comps c C hC).1
  have happ : ∀ (w' : World V A), w'.comps[c]? = some C → w'.wires[C.wires]? = some X → w'.shape c = w.shape c := by
    intro w' h1 h2
    rw [shape_eq h1 h2, shape_eq hC hX]
  cases k with
  | new ps a ws name short => exact happ _ (get_append hC) (get_append hX)
  | light d =>
    simp only [World.step]
    rcases hD : w.comps[d]? with _ | D
    · rfl
    · exact happ _ (get_append hC) (get_append hX)
  | on d modes =>
    simp only [World.step]
    rcases hD : w.comps[d]? with _ | D
    · rfl
    · dsimp only
      split
      · exact happ _ (get_append hC) (get_append hX)
      · rfl
  | adjoint d =>
    obtain ⟨C', e, -⟩ := (later_touch w d).comps c C hC
    exact (shape_flip (wf_touch hw d) e d Prop2.adj adjWs).trans (shape_touch w c d)
  | dual d =>
    obtain ⟨C', e, -⟩ := (later_touch w d).comps c C hC
    exact (shape_flip (wf_touch hw d) e d Prop2.dul dulWs).trans (shape_touch w c d)
  | setParam d n v =>
    simp only [World.step]
    rcases hD : w.comps[d]? with _ | D
    · rfl
    · dsimp only
      split
      · exact happ _ hC hX
      · rfl
  | addParam d n fixed v =>
    simp only [World.step]
    rcases hD : w.comps[d]? with _ | D
    · rfl
    · dsimp only
      split
      · rfl
      · exact happ _ hC hX
  | setShape d s =>
    simp only [World.step]
    rcases hD : w.comps[d]? with _ | D
    · rfl
    · exact happ _ hC (by dsimp only; rw [get_modify, hX, Option.map_some, if_neg (hk d D s rfl hD)])
  | getName d => exact shape_touch w c d

/-- **C120** the Fock cutoffs of a newly created component, and of a light copy or a component returned by `on`, are its own: after any further operations of which none assigns its `manual_shape`, it is
what it was (whatever is assigned to the original, to other copies, to adjoints, …). -/
theorem C120_shape_own (conj : A → A) {w : World V A} (hw : Reachable conj w) (c : ℕ) (h : Own w c) (p : List (Cmd V A)) (hp : ∀ s, Cmd.setShape c s ∉ p) : (w.run conj p).shape c = w.shape c := by
  have hwf := hw.wf
  clear hw
  induction p generalizing w with
  | nil => rfl
  | cons k p ih =>
    have h1 := ih (own_step conj hwf h k) (fun s hs => hp s (List.mem_cons_of_mem _ hs)) (wf_step conj hwf k)
    refine h1.trans ?_
    obtain ⟨C, hC, g1, -⟩ := h
    refine shape_step conj hwf hC k ?_
    intro d D s hk hD
    refine g1 d D ?_ hD
    rintro rfl
    exact hp s (hk ▸ List.mem_cons_self)

theorem own_new (conj : A → A) {w : World V A} (hw : WF w) (ps) (a : A) (ws name short) : Own (w.step conj (.new ps a ws name short)) w.comps.length := by
  refine ⟨⟨w.anss.length, w.psets.length, w.wires.length, name, short⟩, ?_, ?_, ?_⟩
  · simp only [World.step]
    rw [List.getElem?_append_right le_rfl, Nat.sub_self]
    rfl
  · intro d D hne hd
    rcases get_append_cases hd with hd | ⟨hd, -⟩
    · have := (hw.comps d D hd).1
      dsimp only
      omega
    · exact absurd hd hne
  · intro r W hr
    rcases get_append_cases hr with hr | ⟨-, hr⟩
    · have := hw.cache r W hr
      exact ⟨fun h => by have := this.1 _ h; dsimp only at this; omega, fun h => by have := this.2 _ h; dsimp only at this; omega⟩
    · subst hr
      exact ⟨fun h => absurd h (by simp), fun h => absurd h (by simp)⟩

theorem own_copy {w : World V A} (hw : WF w) (C : Comp) (l : List Wr) : Own (w.copyWith C l) w.comps.length := by
  refine ⟨{ C with wires := w.wires.length }, ?_, ?_, ?_⟩
  · unfold World.copyWith
    dsimp only
    rw [List.getElem?_append_right le_rfl, Nat.sub_self]
    rfl
  · intro d D hne hd
    rcases get_append_cases hd with hd | ⟨hd, -⟩
    · have := (hw.comps d D hd).1
      dsimp only
      omega
    · exact absurd hd hne
  · intro r W hr
    rcases get_append_cases hr with hr | ⟨-, hr⟩
    · have := hw.cache r W hr
      exact ⟨fun h => by have := this.1 _ h; dsimp only at this; omega, fun h => by have := this.2 _ h; dsimp only at this; omega⟩
    · subst hr
      exact ⟨fun h => absurd h (by simp), fun h => absurd h (by simp)⟩

theorem step_light (conj : A → A) {w : World V A} {c : ℕ} (hc : c < w.comps.length) : w.step conj (.light c) = w.copyWith w.comps[c] (freshWs (w.ws w.comps[c])) := by
  simp only [World.step]
  rw [List.getElem?_eq_getElem hc]

theorem step_on (conj : A → A) {w : World V A} {c : ℕ} {modes : List ℤ} (hc : c < w.comps.length) (hok : onOk (w.ws w.comps[c]) modes = true) :
    w.step conj (.on c modes) = w.copyWith w.comps[c] (onWs (w.ws w.comps[c]) modes) := by
  simp only [World.step]
  rw [List.getElem?_eq_getElem hc]
  dsimp only
  rw [if_pos hok]

theorem reachable_step {conj : A → A} {w : World V A} (hw : Reachable conj w) (k : Cmd V A) : Reachable conj (w.step conj k) := by
  obtain ⟨h, rfl⟩ := hw
  exact ⟨h ++ [k], by unfold World.run; rw [List.foldl_append]; rfl⟩

theorem copyWith_ws (w : World V A) (C : Comp) (l : List Wr) : (w.copyWith C l).ws { C with wires := w.wires.length } = l := by
  unfold World.ws World.copyWith
  dsimp only
  rw [List.getElem?_append_right le_rfl, Nat.sub_self]
  rfl

theorem copyWith_get (w : World V A) (C : Comp) (l : List Wr) : (w.copyWith C l).comps[w.comps.length]? = some { C with wires := w.wires.length } := by
  unfold World.copyWith
  dsimp only
  rw [List.getElem?_append_right le_rfl, Nat.sub_self]
  rfl

/-- **C120** the cutoffs a component is created with stay, whatever is done with its copies, adjoints and so on, unless its own `manual_shape` is assigned. -/
theorem C120_shape_new (conj : A → A) {w : World V A} (hw : Reachable conj w) (ps) (a : A) (ws : List Wr) (name short) (p : List (Cmd V A)) (hp : ∀ s, Cmd.setShape w.comps.length s ∉ p) :
    ((w.step conj (.new ps a ws name short)).run conj p).shape w.comps.length = some (ws.map (·.cutoff)) := by
  rw [C120_shape_own conj (reachable_step hw _) _ (own_new conj hw.wf ps a ws name short) p hp]
  refine shape_eq (C := ⟨w.anss.length, w.psets.length, w.wires.length, name, short⟩) (W := { ws := ws }) ?_ ?_
  · simp only [World.step]
    rw [List.getElem?_append_right le_rfl, Nat.sub_self]
    rfl
  · simp only [World.step]
    rw [List.getElem?_append_right le_rfl, Nat.sub_self]
    rfl

/-- **C120** a light copy has the wires of the original but none of its cutoffs, and gets none unless its own `manual_shape` is assigned. -/
theorem C120_shape_light (conj : A → A) {w : World V A} (hw : Reachable conj w) (c : ℕ) (hc : c < w.comps.length) (p : List (Cmd V A)) (hp : ∀ s, Cmd.setShape w.comps.length s ∉ p) :
    let w' := (w.step conj (.light c)).run conj p
    w'.slots w.comps.length = w.slots c ∧ w'.shape w.comps.length = (w.shape c).map fun l => l.map fun _ => none := by
  have hC : w.comps[c]? = some w.comps[c] := List.getElem?_eq_getElem hc
  dsimp only
  constructor
  · have : (w.step conj (.light c)).slots w.comps.length = some ((w.ws w.comps[c]).map fun x => (x.isKet, x.isOut, x.mode)) := by
      rw [step_light conj hc]
      unfold World.slots
      rw [copyWith_get, Option.map_some, copyWith_ws]
      unfold freshWs
      rw [List.map_map]
      rfl
    rw [C120_slots_stable conj (reachable_step hw _) _ _ this p]
    unfold World.slots
    rw [hC]
    rfl
  · have hown : Own (w.step conj (.light c)) w.comps.length := by
      rw [step_light conj hc]
      exact own_copy hw.wf _ _
    rw [C120_shape_own conj (reachable_step hw _) _ hown p hp, step_light conj hc]
    unfold World.shape
    rw [copyWith_get, hC, Option.map_some, Option.map_some, Option.map_some, copyWith_ws]
    unfold freshWs
    rw [List.map_map, List.map_map]
    rfl

/-- **C120** `on`: for every kind of wires the component has, the returned component has one on each of the given modes (as a set), none of them with a cutoff, now and later. -/
theorem C120_shape_on (conj : A → A) {w : World V A} (hw : Reachable conj w) (c : ℕ) (modes : List ℤ) (hc : c < w.comps.length) (hok : onOk (w.ws w.comps[c]) modes = true) (p : List (Cmd V A))
    (hp : ∀ s, Cmd.setShape w.comps.length s ∉ p) :
    let w' := (w.step conj (.on c modes)).run conj p
    ∃ sl sh, w'.slots w.comps.length = some sl ∧ w'.shape w.comps.length = some sh ∧ (∀ k o m, (k, o, m) ∈ sl ↔ m ∈ modes ∧ ∃ m', (k, o, m') ∈ (w.slots c).getD []) ∧ ∀ x ∈ sh, x = none := by
  have hC : w.comps[c]? = some w.comps[c] := List.getElem?_eq_getElem hc
  obtain ⟨l, hl⟩ : ∃ l, l = w.ws w.comps[c] := ⟨_, rfl⟩
  have hs : (w.step conj (.on c modes)).slots w.comps.length = some ((onWs l modes).map fun x => (x.isKet, x.isOut, x.mode)) := by
    rw [step_on conj hc hok]
    unfold World.slots
    rw [copyWith_get, Option.map_some, copyWith_ws, hl]
  have hown : Own (w.step conj (.on c modes)) w.comps.length := by
    rw [step_on conj hc hok]
    exact own_copy hw.wf _ _
  have hsh : (w.step conj (.on c modes)).shape w.comps.length = some ((onWs l modes).map (·.cutoff)) := by
    rw [step_on conj hc hok]
    unfold World.shape
    rw [copyWith_get, Option.map_some, copyWith_ws, hl]
  have hmem : ∀ x : Wr, x ∈ onWs l modes ↔ x.mode ∈ modes ∧ (∃ m', (x.isKet, x.isOut, m') ∈ l.map fun x => (x.isKet, x.isOut, x.mode)) ∧ x.cutoff = none ∧ x.fock = false := by
    intro x
    have hne : ∀ k o, (kindModes l k o).isEmpty = false ↔ ∃ m', (k, o, m') ∈ l.map fun x => (x.isKet, x.isOut, x.mode) := by
      intro k o
      rw [List.isEmpty_eq_false_iff_exists_mem]
      unfold kindModes
      constructor
      · rintro ⟨m, hm⟩
        obtain ⟨y, hy, rfl⟩ := List.mem_map.1 hm
        obtain ⟨hy, hh⟩ := List.mem_filter.1 hy
        rw [Bool.and_eq_true, beq_iff_eq, beq_iff_eq] at hh
        exact ⟨y.mode, List.mem_map.2 ⟨y, hy, by rw [hh.1, hh.2]⟩⟩
      · rintro ⟨m, hm⟩
        obtain ⟨y, hy, e⟩ := List.mem_map.1 hm
        rw [Prod.mk.injEq, Prod.mk.injEq] at e
        exact ⟨y.mode, List.mem_map.2 ⟨y, List.mem_filter.2 ⟨hy, by rw [e.1, e.2.1]; simp⟩, rfl⟩⟩
    unfold onWs
    rw [List.mem_flatten]
    constructor
    · rintro ⟨L, hL, hx⟩
      obtain ⟨⟨k, o⟩, -, rfl⟩ := List.mem_map.1 hL
      dsimp only at hx
      rcases he : (kindModes l k o).isEmpty with _ | _
      · rw [he, if_neg (by simp)] at hx
        obtain ⟨m, hm, rfl⟩ := List.mem_map.1 hx
        refine ⟨?_, (hne k o).1 he, rfl, rfl⟩
        unfold sortedSet at hm
        rw [List.mem_insertionSort, List.mem_dedup] at hm
        exact hm
      · rw [he, if_pos rfl] at hx
        exact absurd hx (by simp)
    · rintro ⟨h1, h2, h3, h4⟩
      refine ⟨_, List.mem_map.2 ⟨(x.isKet, x.isOut), ?_, rfl⟩, ?_⟩
      · unfold kinds
        cases x.isKet <;> cases x.isOut <;> simp
      · dsimp only
        rw [(hne _ _).2 h2, if_neg (by simp)]
        refine List.mem_map.2 ⟨x.mode, ?_, ?_⟩
        · unfold sortedSet
          rw [List.mem_insertionSort, List.mem_dedup]
          exact h1
        · obtain ⟨k, o, m, f, cu⟩ := x
          dsimp only at h3 h4
          rw [h3, h4]
  dsimp only
  refine ⟨_, _, C120_slots_stable conj (reachable_step hw _) _ _ hs p, (C120_shape_own conj (reachable_step hw _) _ hown p hp).trans hsh, ?_, ?_⟩
  · have hcl : (w.slots c).getD [] = l.map fun x => (x.isKet, x.isOut, x.mode) := by
      unfold World.slots
      rw [hC, hl]
      rfl
    intro k o m
    rw [hcl, List.mem_map]
    constructor
    · rintro ⟨x, hx, e⟩
      rw [Prod.mk.injEq, Prod.mk.injEq] at e
      obtain ⟨h1, h2, -⟩ := (hmem x).1 hx
      rw [e.2.2] at h1
      rw [e.1, e.2.1] at h2
      exact ⟨h1, h2⟩
    · rintro ⟨h1, h2⟩
      exact ⟨{ isKet := k, isOut := o, mode := m }, (hmem _).2 ⟨h1, h2, rfl, rfl⟩, rfl⟩
  · intro x hx
    obtain ⟨y, hy, rfl⟩ := List.mem_map.1 hx
    exact ((hmem y).1 hy).2.2.1

/-- **C120** the order in which modes are given to `on` makes no difference. -/
theorem C120_on_order (conj : A → A) (w : World V A) (c : ℕ) {m m' : List ℤ} (h : m.Perm m') : w.step conj (.on c m) = w.step conj (.on c m') := by
  have h1 : sortedSet m = sortedSet m' := by
    unfold sortedSet
    refine List.Perm.eq_of_pairwise (le := fun a b : ℤ => a ≤ b) (fun a b _ _ h1 h2 => le_antisymm h1 h2) (List.pairwise_insertionSort _ _) (List.pairwise_insertionSort _ _) ?_
    exact (List.perm_insertionSort _ _).trans (h.dedup.trans (List.perm_insertionSort _ _).symm)
  have h2 : ∀ l, onOk l m = onOk l m' := fun l => by
    unfold onOk
    rw [h.length_eq]
  have h3 : ∀ l, onWs l m = onWs l m' := fun l => by
    unfold onWs
    rw [h1]
  simp only [World.step]
  rcases w.comps[c]? with _ | C
  · rfl
  · dsimp only
    rw [h2, h3]

theorem setCut_cut (l : List Wr) (s : List (Option ℕ)) : (setCut l s).map (·.cutoff) = s.take l.length ++ (l.map (·.cutoff)).drop s.length := by
  induction l generalizing s with
  | nil => cases s <;> rfl
  | cons a l ih =>
    cases s with
    | nil => rfl
    | cons b t =>
      show b :: _ = b :: _
      rw [ih t]
      rfl

/-- **C120** assigning `manual_shape`: the given entries, as far as there are wires, then the old ones. -/
theorem C120_set_shape (conj : A → A) {w : World V A} (hw : Reachable conj w) (c : ℕ) (s l : List (Option ℕ)) (h : w.shape c = some l) :
    (w.step conj (.setShape c s)).shape c = some (s.take l.length ++ l.drop s.length) := by
  rcases hC : w.comps[c]? with _ | C
  · unfold World.shape at h
    rw [hC] at h
    exact absurd h (by simp)
  · obtain ⟨W, hW⟩ := wires_get (hw.wf.comps c C hC).1
    rw [shape_eq hC hW] at h
    have hl := Option.some.inj h
    have : w.step conj (.setShape c s) = { w with wires := w.wires.modify C.wires fun W => { W with ws := setCut W.ws s } } := by
      simp only [World.step]
      rw [hC]
    rw [this, shape_eq (w := { w with wires := w.wires.modify C.wires fun W => { W with ws := setCut W.ws s } }) (C := C) (W := { W with ws := setCut W.ws s }) hC (by dsimp only; rw [get_modify, hW, Option.map_some, if_pos rfl])]
    dsimp only
    rw [setCut_cut, ← hl, List.length_map]

/-- **C120** the adjoint of a component whose adjoint was never taken before: its wires are those of the component with ket and bra exchanged, with their cutoffs.  The same for the dual, with input and
output exchanged. -/
theorem C120_flip_first (conj : A → A) {w : World V A} (hw : Reachable conj w) {cmd get put f} (hf : IsFlip (V := V) (A := A) cmd get put f) (c : ℕ) (C : Comp) (hC : w.comps[c]? = some C)
    (hg : ∀ W, w.wires[C.wires]? = some W → get W = none) :
    ∃ D, (w.step conj (cmd c)).comps[w.comps.length]? = some D ∧ (w.step conj (cmd c)).ws D = f (w.ws C) := by
  obtain ⟨W, ps, a, D, hW, hps, ha, hD, hn, hsh, hDp, hDa, -, hnew⟩ := flip_new (conj := conj) (wf_touch hw.wf c) (touch_get hC) hf.prop2 f
  have hlen : (w.touch c).comps.length = w.comps.length := List.length_modify ..
  rw [hlen] at hD
  refine ⟨D, by rw [hf.step]; exact hD, ?_⟩
  have hW : w.wires[C.wires]? = some W := hW
  unfold World.ws
  rw [hf.step, hnew (hg W hW), hW]
  rfl

theorem C120_adjWs (l : List Wr) (x : Wr) : x ∈ adjWs l ↔ { x with isKet := ! x.isKet } ∈ l := by
  obtain ⟨k, o, m, f, cu⟩ := x
  unfold adjWs
  rw [List.mem_append, List.mem_map, List.mem_map]
  constructor
  · rintro (⟨y, hy, e⟩ | ⟨y, hy, e⟩) <;> obtain ⟨hy, hk⟩ := List.mem_filter.1 hy <;> obtain ⟨k', o', m', f', cu'⟩ := y <;> rw [Wr.mk.injEq] at e <;> obtain ⟨rfl, rfl, rfl, rfl, rfl⟩ := e <;>
      dsimp only at hk ⊢ <;> cases k' <;> simp_all
  · intro h
    cases k
    · exact Or.inl ⟨_, List.mem_filter.2 ⟨h, rfl⟩, rfl⟩
    · exact Or.inr ⟨_, List.mem_filter.2 ⟨h, rfl⟩, rfl⟩

theorem C120_dulWs (l : List Wr) (x : Wr) : x ∈ dulWs l ↔ { x with isOut := ! x.isOut } ∈ l := by
  have io : ∀ l : List Wr, ∀ x : Wr, x ∈ (l.filter fun w => ! w.isOut).map (fun w : Wr => { w with isOut := true }) ++ (l.filter fun w => w.isOut).map (fun w : Wr => { w with isOut := false }) ↔
      { x with isOut := ! x.isOut } ∈ l := by
    intro l x
    obtain ⟨k, o, m, f, cu⟩ := x
    rw [List.mem_append, List.mem_map, List.mem_map]
    constructor
    · rintro (⟨y, hy, e⟩ | ⟨y, hy, e⟩) <;> obtain ⟨hy, hk⟩ := List.mem_filter.1 hy <;> obtain ⟨k', o', m', f', cu'⟩ := y <;> rw [Wr.mk.injEq] at e <;> obtain ⟨rfl, rfl, rfl, rfl, rfl⟩ := e <;>
        dsimp only at hk ⊢ <;> cases o' <;> simp_all
    · intro h
      cases o
      · exact Or.inr ⟨_, List.mem_filter.2 ⟨h, rfl⟩, rfl⟩
      · exact Or.inl ⟨_, List.mem_filter.2 ⟨h, rfl⟩, rfl⟩
  unfold dulWs
  dsimp only
  rw [List.mem_append, io, io, List.mem_filter, List.mem_filter]
  cases x.isKet <;> simp

/-- **C120** all adjoints of a component share their cutoffs (and so do all its duals): take the adjoint, do anything, take the adjoint again, do anything; the two adjoints always have the same shape,
although cutoffs of the component itself may have been assigned in between. -/
theorem C120_flip_aliased (conj : A → A) {w : World V A} (hw : Reachable conj w) {cmd get put f} (hf : IsFlip (V := V) (A := A) cmd get put f) (c : ℕ) (hc : c < w.comps.length) (p q : List (Cmd V A)) :
    let w1 := (w.step conj (cmd c)).run conj p
    let w2 := (w1.step conj (cmd c)).run conj q
    w2.shape w1.comps.length = w2.shape w.comps.length ∧ (w2.shape w.comps.length).isSome := by
  have hC : w.comps[c]? = some w.comps[c] := List.getElem?_eq_getElem hc
  obtain ⟨C, hCe⟩ : ∃ C, C = w.comps[c] := ⟨_, rfl⟩
  rw [← hCe] at hC
  dsimp only
  obtain ⟨W, ps, a, D, hW, -, -, hD, -, -, -, -, ⟨W', hW', hg'⟩, -⟩ := flip_new (conj := conj) (wf_touch hw.wf c) (touch_get hC) hf.prop2 f
  have hlen : (w.touch c).comps.length = w.comps.length := List.length_modify ..
  rw [hlen, ← hf.step] at hD
  rw [← hf.step] at hW'
  change (w.step conj (cmd c)).wires[C.wires]? = some W' at hW'
  have hwf1 := wf_step conj hw.wf (cmd c)
  obtain ⟨C1, e1, -, -, r1, -⟩ := (later_step conj hw.wf (cmd c)).comps c C hC
  have L2 := later_run conj hwf1 p
  obtain ⟨w1, hw1⟩ : ∃ w1, w1 = (w.step conj (cmd c)).run conj p := ⟨_, rfl⟩
  rw [← hw1] at L2 ⊢
  have hwfa : WF w1 := hw1 ▸ wf_run conj hwf1 p
  obtain ⟨C2, e2, -, -, r2, -⟩ := L2.comps c C1 e1
  obtain ⟨D2, f2, -, -, s2, -⟩ := L2.comps _ D hD
  obtain ⟨W2, hW2, -, ha2, hd2⟩ := L2.wires _ _ hW'
  have hgW2 : get W2 = some D.wires := by
    cases hf
    · exact ha2 _ hg'
    · exact hd2 _ hg'
  obtain ⟨X, ps', a', E, hX, -, -, hE, -, -, -, -, ⟨X', hX', hgX⟩, -⟩ := flip_new (conj := conj) (wf_touch hwfa c) (touch_get e2) hf.prop2 f
  have hlen1 : (w1.touch c).comps.length = w1.comps.length := List.length_modify ..
  rw [hlen1, ← hf.step] at hE
  rw [← hf.step] at hX'
  change (w1.step conj (cmd c)).wires[C2.wires]? = some X' at hX'
  have L3 := later_step conj hwfa (cmd c)
  rw [r2, r1] at hX'
  obtain ⟨W3, hW3, -, ha3, hd3⟩ := L3.wires _ _ hW2
  have hXW : X' = W3 := by
    rw [hW3] at hX'
    exact (Option.some.inj hX').symm
  have hED : E.wires = D.wires := by
    have : get W3 = some D.wires := by
      cases hf
      · exact ha3 _ hgW2
      · exact hd3 _ hgW2
    rw [hXW, this] at hgX
    exact (Option.some.inj hgX).symm
  have hwfb := wf_step conj hwfa (cmd c)
  have L4 := later_run conj hwfb q
  obtain ⟨D3, f3, -, -, s3, -⟩ := L3.comps _ D2 f2
  obtain ⟨D4, f4, -, -, s4, -⟩ := L4.comps _ D3 f3
  obtain ⟨E4, g4, -, -, t4, -⟩ := L4.comps _ E hE
  have key : E4.wires = D4.wires := by rw [t4, hED, s4, s3, s2]
  unfold World.shape World.ws
  rw [f4, g4, Option.map_some, Option.map_some, key]
  exact ⟨rfl, rfl⟩

/-- **C120** the name of a copy: if the name of the original has been read before (or was given by the class), the copy has the name of the original, although it may act on other modes; … -/
theorem C120_on_name_read (conj : A → A) (w : World V A) (c : ℕ) (modes : List ℤ) (hc : c < w.comps.length) (hok : onOk (w.ws w.comps[c]) modes = true) :
    ((w.step conj (.getName c)).step conj (.on c modes)).nameOf w.comps.length = w.nameOf c := by
  have hC : w.comps[c]? = some w.comps[c] := List.getElem?_eq_getElem hc
  obtain ⟨C, hCe⟩ : ∃ C, C = w.comps[c] := ⟨_, rfl⟩
  rw [← hCe] at hC hok
  have ht := touch_get hC
  have hlen : (w.touch c).comps.length = w.comps.length := List.length_modify ..
  have hstep : (w.touch c).step conj (.on c modes) = (w.touch c).copyWith { C with name := some (C.name.getD (autoName C.short (w.ws C))) } (onWs (w.ws C) modes) := by
    simp only [World.step]
    rw [ht]
    dsimp only
    rw [if_pos (show onOk ((w.touch c).ws { C with name := some (C.name.getD (autoName C.short (w.ws C))) }) modes = true from hok)]
    rfl
  show ((w.touch c).step conj (.on c modes)).nameOf w.comps.length = _
  rw [hstep]
  unfold World.nameOf
  rw [← hlen, copyWith_get, hC]
  rfl

/-- **C120** … otherwise the name is made from the new modes. -/
theorem C120_on_name_unread (conj : A → A) (w : World V A) (c : ℕ) (modes : List ℤ) (hc : c < w.comps.length) (hok : onOk (w.ws w.comps[c]) modes = true) (hn : w.comps[c].name = none) :
    (w.step conj (.on c modes)).nameOf w.comps.length = some (autoName w.comps[c].short (onWs (w.ws w.comps[c]) modes)) := by
  rw [step_on conj hc hok]
  unfold World.nameOf
  rw [copyWith_get, Option.map_some, copyWith_ws]
  dsimp only
  rw [hn]
  rfl

/-- **C120** `on` accepts its argument exactly when any two kinds of wires that the component has are on the same modes, as many as are given; otherwise nothing happens (an exception is raised). -/
theorem C120_on_accepts (l : List Wr) (modes : List ℤ) : onOk l modes = true ↔ ∀ k o, kindModes l k o ≠ [] → (kindModes l k o).length = modes.length ∧ ∀ k' o', kindModes l k' o' ≠ [] → kindModes l k' o' = kindModes l k o := by
  have hk : ∀ s, s ∈ ((kinds.map fun k => kindModes l k.1 k.2).filter fun s => ! s.isEmpty) ↔ s ≠ [] ∧ ∃ k o, s = kindModes l k o := by
    intro s
    rw [List.mem_filter, List.mem_map]
    constructor
    · rintro ⟨⟨⟨k, o⟩, -, rfl⟩, h⟩
      refine ⟨?_, k, o, rfl⟩
      intro e
      dsimp only at h e
      rw [e] at h
      exact absurd h (by simp)
    · rintro ⟨h, k, o, rfl⟩
      refine ⟨⟨(k, o), ?_, rfl⟩, ?_⟩
      · unfold kinds
        cases k <;> cases o <;> simp
      · rcases hh : kindModes l k o with _ | ⟨a, t⟩
        · exact absurd hh h
        · rfl
  obtain ⟨L, hL⟩ : ∃ L, L = (kinds.map fun k => kindModes l k.1 k.2).filter fun s => ! s.isEmpty := ⟨_, rfl⟩
  rw [← hL] at hk
  have e : onOk l modes = (L.all (fun s => s == L.headD []) && L.all (fun s => s.length == modes.length)) := by rw [hL]; rfl
  rw [e, Bool.and_eq_true, List.all_eq_true, List.all_eq_true]
  constructor
  · rintro ⟨h1, h2⟩ k o hne
    have hm := (hk _).2 ⟨hne, k, o, rfl⟩
    refine ⟨beq_iff_eq.1 (h2 _ hm), fun k' o' hne' => ?_⟩
    rw [beq_iff_eq.1 (h1 _ hm), beq_iff_eq.1 (h1 _ ((hk _).2 ⟨hne', k', o', rfl⟩))]
  · intro h
    constructor
    · intro s hs
      obtain ⟨hne, k, o, rfl⟩ := (hk s).1 hs
      have hh : L.headD [] ∈ L := by
        rcases L with _ | ⟨a, t⟩
        · exact absurd hs (by simp)
        · exact List.mem_cons_self
      obtain ⟨hne', k', o', e'⟩ := (hk _).1 hh
      rw [e'] at hne' ⊢
      exact beq_iff_eq.2 ((h k o hne).2 k' o' hne').symm
    · intro s hs
      obtain ⟨hne, k, o, rfl⟩ := (hk s).1 hs
      exact beq_iff_eq.2 (h k o hne).1

theorem C120_on_refused (conj : A → A) (w : World V A) (c : ℕ) (modes : List ℤ) (h : ∀ C, w.comps[c]? = some C → onOk (w.ws C) modes = false) : w.step conj (.on c modes) = w := by
  simp only [World.step]
  rcases hC : w.comps[c]? with _ | C
  · rfl
  · dsimp only
    rw [h C hC]
    rfl

/-- The standard order of wires: bra before ket, output before input, then by mode. -/
def Before (x y : Wr) : Prop := (x.isKet = false ∧ y.isKet = true) ∨ (x.isKet = y.isKet ∧ ((x.isOut = true ∧ y.isOut = false) ∨ (x.isOut = y.isOut ∧ x.mode < y.mode)))

/-- **C120** the wires of the component returned by `on` are in standard order. -/
theorem C120_on_sorted (l : List Wr) (modes : List ℤ) : (onWs l modes).Pairwise Before := by
  have hs : (sortedSet modes).Pairwise (· < ·) := by
    have h1 : (sortedSet modes).Pairwise (· ≤ ·) := List.pairwise_insertionSort _ _
    have h2 : (sortedSet modes).Nodup := (List.perm_insertionSort _ _).nodup_iff.2 (List.nodup_dedup _)
    exact (h1.and h2).imp fun h => lt_of_le_of_ne h.1 h.2
  unfold onWs
  rw [List.pairwise_flatten]
  constructor
  · intro L hL
    obtain ⟨⟨k, o⟩, -, rfl⟩ := List.mem_map.1 hL
    dsimp only
    split
    · exact List.Pairwise.nil
    · rw [List.pairwise_map]
      exact hs.imp fun h => Or.inr ⟨rfl, Or.inr ⟨rfl, h⟩⟩
  · rw [List.pairwise_map]
    have hk : kinds.Pairwise fun a b => (a.1 = false ∧ b.1 = true) ∨ (a.1 = b.1 ∧ a.2 = true ∧ b.2 = false) := by decide
    refine hk.imp ?_
    intro a b hab x hx y hy
    split at hx
    · exact absurd hx (by simp)
    · split at hy
      · exact absurd hy (by simp)
      · obtain ⟨m, -, rfl⟩ := List.mem_map.1 hx
        obtain ⟨m', -, rfl⟩ := List.mem_map.1 hy
        rcases hab with h | ⟨h1, h2⟩
        · exact Or.inl h
        · exact Or.inr ⟨h1, Or.inl h2⟩

/-- **C120** the automatic name shows the modes when they have at most four characters together. -/
theorem C120_auto_name (short : String) (l : List Wr) :
    let modes := String.join ((sortedSet (l.map (·.mode))).map toString)
    (modes.length ≤ 4 → autoName short l = short ++ modes) ∧ (5 ≤ modes.length → autoName short l = short) := by
  dsimp only
  unfold autoName
  dsimp only
  constructor
  · intro h
    rw [if_pos (by omega)]
  · intro h
    rw [if_neg (by omega)]

/-! ### Concrete programs -/

example : onOk [{ isKet := false, isOut := true, mode := 0 }, { isKet := true, isOut := true, mode := 0 }] [3] = true ∧ onOk [{ isKet := false, isOut := true, mode := 0 }, { isKet := true, isOut := true, mode := 1 }] [3] = false ∧
    onWs [{ isKet := false, isOut := true, mode := 0 }, { isKet := true, isOut := true, mode := 0 }] [3] = [{ isKet := false, isOut := true, mode := 3 }, { isKet := true, isOut := true, mode := 3 }] := by decide

/-- A state on mode 0 with a parameter and a cutoff, like `Number(0, 4, cutoff=5)` but without a name given by the class. -/
def exNew : Cmd ℕ ℕ := .new [("n", true, 4), ("x", false, 1)] 7 [{ isKet := true, isOut := true, mode := 0, fock := true, cutoff := some 5 }] none "K"

/-- A program started on the empty heap. -/
def exRun (p : List (Cmd ℕ ℕ)) : World ℕ ℕ := ({} : World ℕ ℕ).run (· + 100) (exNew :: p)

example : Reachable (· + 100) (exRun [.light 0]) := ⟨_, rfl⟩

/-- **C120** (disagreement) the docstring of `_light_copy` ("except for the wires, which are a new object") and of `on` do not tell that the cutoffs are lost: those of a `Number` or `Vacuum` disappear when
it is put into a `Circuit` or moved with `on`. -/
theorem C120_cutoff_lost : (exRun [.light 0]).shape 0 = some [some 5] ∧ (exRun [.light 0]).shape 1 = some [none] ∧ (exRun [.on 0 [3]]).shape 1 = some [none] := by decide

/-- **C120** (disagreement) `adjoint` is out of date: the cutoffs of a second adjoint are those at the time of the first. -/
theorem C120_adjoint_stale : (exRun [.adjoint 0, .setShape 0 [some 7], .adjoint 0]).shape 2 = some [some 5] ∧ (exRun [.setShape 0 [some 7], .adjoint 0]).shape 1 = some [some 7] := by decide

/-- **C120** (disagreement) assigning the cutoffs of one adjoint changes those of another. -/
theorem C120_adjoint_aliased : (exRun [.adjoint 0, .adjoint 0, .setShape 1 [some 9]]).shape 2 = some [some 9] ∧ (exRun [.light 0, .light 0, .setShape 1 [some 9]]).shape 2 = some [none] := by decide

/-- **C120** (disagreement) `on` accepts repeated modes, and then returns a component with fewer wires than its ansatz has variables. -/
theorem C120_on_repeated : (({} : World ℕ ℕ).run (· + 100) [.new [] 7 [{ isKet := true, isOut := true, mode := 0 }, { isKet := true, isOut := true, mode := 1 }] none "Ket", .on 0 [3, 3]]).slots 1 =
    some [(true, true, 3)] := by decide

/-- A parameter assigned through a copy is seen in the original and in an adjoint; an assignment to a constant is refused; a parameter added to the copy is seen in the original but not in the adjoint. -/
example : let w := exRun [.light 0, .adjoint 1, .setParam 1 "x" 2, .setParam 1 "n" 9, .addParam 1 "y" false 3]
    w.param 0 "x" = some 2 ∧ w.param 2 "x" = some 2 ∧ w.param 2 "n" = some 4 ∧ w.param 0 "y" = some 3 ∧ w.param 2 "y" = none ∧ w.ansatz 2 = some 107 := by decide

/-- **C120** (disagreement) the name of the moved component depends on whether the name of the original was read before. -/
theorem C120_name_history : (exRun [.getName 0, .on 0 [3]]).nameOf 1 = some "K0" ∧ (exRun [.on 0 [3], .getName 0]).nameOf 1 = some "K3" := by decide

end Verif.Alias
