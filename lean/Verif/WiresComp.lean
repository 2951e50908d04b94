import Verif.WiresLabels
import Mathlib.Data.Finset.Card

/-!
# Component-level wire bookkeeping: `adjoint`, `dual`, `>>`, `on` (C08, C09, C44)
-/

namespace Verif.WireModel

/-! ## Models -/

/-- lab/circuit_components.py:96-98: the axis order handed to `ansatz.reorder` by `adjoint`. -/
def adjointOrder (W : Wires) : List Nat := W.ket.indices ++ W.bra.indices

/-- lab/circuit_components.py:126-130: the axis order handed to `ansatz.reorder` by `dual`. -/
def dualOrder (W : Wires) : List Nat :=
  W.bra.input.indices ++ W.bra.output.indices ++ W.ket.input.indices ++ W.ket.output.indices

/-- physics/wires.py:569-570 `__bool__`. -/
def Wires.nonempty (W : Wires) : Bool := ! W.ws.isEmpty

/-- lab/circuit_components.py:957-1008 `__rshift__` on the level of wires (`contract` composes the wires
with `@`, lines 466 and 488).  `f` provides the fresh identifiers of the adjoint.  The early exits for
`__custom_rrshift__` and scalars are not modelled. -/
def rshift (A B : Wires) (f : Nat → Nat) : Except Err Wires :=
  let sk := A.ket.nonempty
  let sb := A.bra.nonempty
  let ok := B.ket.nonempty
  let ob := B.bra.nonempty
  let onlyKet := (!sb && sk) && (!ob && ok)
  let onlyBra := (!sk && sb) && (!ok && ob)
  let bothSides := sb && sk && ob && ok
  let selfNeedsBra := (!sb && sk) && (ob && ok)
  let selfNeedsKet := (!sk && sb) && (ob && ok)
  let otherNeedsBra := (sb && sk) && (!ob && ok)
  let otherNeedsKet := (sb && sk) && (!ok && ob)
  if onlyKet || onlyBra || bothSides then matmulWires A B
  else if selfNeedsBra || selfNeedsKet then do matmulWires (A.adjoint f) (← matmulWires A B)
  else if otherNeedsBra || otherNeedsKet then do matmulWires (← matmulWires A (B.adjoint f)) B
  else .error .valueError

/-- Set equality of two Python sets of modes. -/
def sameSet (a b : List Int) : Bool := a.all (· ∈ b) && b.all (· ∈ a)

/-- lab/circuit_components.py:535-573 `on(modes)`: the wires of the rewired component. -/
def onModes (W : Wires) (modes : List Int) (ids : Nat → Nat) : Except Err Wires :=
  let ob := W.output.bra.modes
  let ib := W.input.bra.modes
  let ok := W.output.ket.modes
  let ik := W.input.ket.modes
  let subsets := [ob, ib, ok, ik].filter (fun s => !s.isEmpty)
  if subsets.any (fun s => ! sameSet s (subsets.headD [])) then .error .valueError
  else if subsets.any (fun s => !s.isEmpty && s.length != modes.length) then .error .valueError
  else .ok (Wires.mk6 (if ob.isEmpty then [] else modes.dedup) (if ib.isEmpty then [] else modes.dedup)
    (if ok.isEmpty then [] else modes.dedup) (if ik.isEmpty then [] else modes.dedup) [] [] ids)

/-! ## C08 -/

theorem core_unique {l l' : List ((Side × Bool × Int) × Repr)} (h : l.Pairwise CoreLt)
    (h' : l'.Pairwise CoreLt) (hp : l.Perm l') : l = l' :=
  List.Perm.eq_of_pairwise (fun a b _ _ h h' => by unfold CoreLt at *; omega) h h' hp

theorem coreLt_of_rank {a b : (Side × Bool × Int) × Repr} (h : rank a.1.1 a.1.2.1 < rank b.1.1 b.1.2.1) :
    CoreLt a b := Or.inl h

theorem getElem?_map_index {W : Wires} (hW : Good W) (l : List Wire) (hl : ∀ w ∈ l, w ∈ W.ws)
    {β} (g : Wire → β) :
    (l.map (·.index)).map (fun i => (W.sortedWires[i]?).map g) = l.map (fun w => some (g w)) := by
  rw [List.map_map]
  apply List.map_congr_left
  intro w hw
  simp [hW.getElem?_index (hl w hw)]

/-- **C08** `adjoint` of a component: the axis at standard position `k` of the new component is the axis
of the old component belonging to the same wire with bra and ket exchanged. -/
theorem C08_adjoint_axes (W : Wires) (hW : Good W) (hq : ∀ w ∈ W.ws, w.side ≠ .classical) (f : Nat → Nat) :
    (adjointOrder W).Perm (List.range W.len) ∧
    (W.adjoint f).sortedWires.map (fun w => some (w.side, w.isOut, w.mode)) =
      (adjointOrder W).map (fun i => (W.sortedWires[i]?).map (fun w => (w.side.swap, w.isOut, w.mode))) := by
  have hk : W.ket.indices = (W.sortedWires.filter (fun w => w.side == .ket)).map (·.index) := by
    unfold Wires.indices Wires.ket
    rw [filter_sorted hW.distinct hW.inRange]
  have hb : W.bra.indices = (W.sortedWires.filter (fun w => w.side == .bra)).map (·.index) := by
    unfold Wires.indices Wires.bra
    rw [filter_sorted hW.distinct hW.inRange]
  set L := W.sortedWires.filter (fun w => w.side == .ket) ++ W.sortedWires.filter (fun w => w.side == .bra)
    with hL
  have hord : adjointOrder W = L.map (·.index) := by
    unfold adjointOrder; rw [hk, hb, hL, List.map_append]
  have hLperm : L.Perm W.ws := by
    refine List.Perm.trans ?_ (sortedWires_perm W)
    have := List.filter_append_perm (fun w : Wire => w.side == .ket) W.sortedWires
    refine List.Perm.trans (List.Perm.of_eq ?_) this
    rw [hL]; congr 1
    apply List.filter_congr
    intro w hw
    have := hq w (mem_sortedWires.1 hw)
    revert this
    cases w.side <;> simp
  have ga := adjoint_good' hW.distinct hW.inRange f
  have hsrt := sortedWires_stdLt hW.distinct hW.inRange
  have hcore : (W.adjoint f).sortedWires.map Wire.core = (L.map Wire.core).map coreAdj := by
    apply core_unique
    · rw [List.pairwise_map]; exact sortedWires_stdLt ga.distinct ga.inRange
    · rw [List.map_map, hL, List.map_append, List.pairwise_append]
      refine ⟨?_, ?_, ?_⟩
      · rw [List.pairwise_map]
        refine (hsrt.filter _).imp_of_mem ?_
        intro a b ha hb hab
        simp only [List.mem_filter, beq_iff_eq] at ha hb
        obtain ⟨sa, oa, ma, _, _, _⟩ := a
        obtain ⟨sb, ob, mb, _, _, _⟩ := b
        simp only at ha hb
        obtain ⟨_, rfl⟩ := ha
        obtain ⟨_, rfl⟩ := hb
        revert hab
        cases oa <;> cases ob <;> simp [StdLt, CoreLt, coreAdj, Wire.core, Wire.slot, rank, Side.swap]
      · rw [List.pairwise_map]
        refine (hsrt.filter _).imp_of_mem ?_
        intro a b ha hb hab
        simp only [List.mem_filter, beq_iff_eq] at ha hb
        obtain ⟨sa, oa, ma, _, _, _⟩ := a
        obtain ⟨sb, ob, mb, _, _, _⟩ := b
        simp only at ha hb
        obtain ⟨_, rfl⟩ := ha
        obtain ⟨_, rfl⟩ := hb
        revert hab
        cases oa <;> cases ob <;> simp [StdLt, CoreLt, coreAdj, Wire.core, Wire.slot, rank, Side.swap]
      · intro x hx y hy
        obtain ⟨a, ha, rfl⟩ := List.mem_map.1 hx
        obtain ⟨b, hb, rfl⟩ := List.mem_map.1 hy
        simp only [List.mem_filter, beq_iff_eq] at ha hb
        apply coreLt_of_rank
        simp only [Function.comp, coreAdj, Wire.core, Wire.slot, ha.2, hb.2, Side.swap]
        cases a.isOut <;> cases b.isOut <;> decide
    · refine ((sortedWires_perm _).map _).trans ((adjoint_core_perm W f).trans ?_)
      exact ((hLperm.map _).map _).symm
  constructor
  · rw [hord]
    have h1 : (L.map (·.index)).Perm (W.sortedWires.map (·.index)) :=
      (hLperm.trans (sortedWires_perm W).symm).map _
    have h2 := hW.indexed
    unfold Indexed Wires.indices at h2
    rw [h2] at h1; exact h1
  · rw [hord, getElem?_map_index hW L (fun w hw => hLperm.mem_iff.1 hw)]
    have := congrArg (List.map (fun c : (Side × Bool × Int) × Repr => some c.1)) hcore
    simp only [List.map_map] at this
    exact this

/-- **C08** `dual` of a component: the axis at standard position `k` of the new component is the axis
of the old component belonging to the same wire with input and output exchanged. -/
theorem C08_dual_axes (W : Wires) (hW : Good W) (hq : ∀ w ∈ W.ws, w.side ≠ .classical) (f : Nat → Nat) :
    (dualOrder W).Perm (List.range W.len) ∧
    (W.dual f).sortedWires.map (fun w => some (w.side, w.isOut, w.mode)) =
      (dualOrder W).map (fun i => (W.sortedWires[i]?).map (fun w => (w.side, !w.isOut, w.mode))) := by
  let sel := fun (s : Side) (o : Bool) => W.sortedWires.filter (fun w => w.side == s && w.isOut == o)
  have hsel : ∀ (W' : Wires) s o, W'.ws = blk W s o → W'.indices = (sel s o).map (·.index) := by
    intro W' s o h
    have : W' = ⟨W.ws.filter (fun w => w.side == s && w.isOut == o)⟩ := by cases W'; simp_all [blk]
    rw [this]
    unfold Wires.indices
    rw [filter_sorted hW.distinct hW.inRange]
  have h1 : W.bra.input.indices = (sel .bra false).map (·.index) :=
    hsel _ _ _ (by simp [Wires.bra, Wires.input, blk, List.filter_filter, Bool.and_comm])
  have h2 : W.bra.output.indices = (sel .bra true).map (·.index) :=
    hsel _ _ _ (by simp [Wires.bra, Wires.output, blk, List.filter_filter, Bool.and_comm])
  have h3 : W.ket.input.indices = (sel .ket false).map (·.index) :=
    hsel _ _ _ (by simp [Wires.ket, Wires.input, blk, List.filter_filter, Bool.and_comm])
  have h4 : W.ket.output.indices = (sel .ket true).map (·.index) :=
    hsel _ _ _ (by simp [Wires.ket, Wires.output, blk, List.filter_filter, Bool.and_comm])
  set L := sel .bra false ++ sel .bra true ++ sel .ket false ++ sel .ket true with hL
  have hord : dualOrder W = L.map (·.index) := by
    unfold dualOrder; rw [h1, h2, h3, h4, hL]; simp
  have hmemsel : ∀ s o w, w ∈ sel s o ↔ w ∈ W.ws ∧ w.side = s ∧ w.isOut = o := by
    intro s o w
    simp [sel]
  have hnd : W.sortedWires.Nodup := ((sortedWires_perm W).nodup_iff).2 hW.distinct.nodup
  have hLperm : L.Perm W.ws := by
    refine (List.perm_ext_iff_of_nodup ?_ hW.distinct.nodup).2 ?_
    · rw [hL]
      simp only [List.nodup_append, List.mem_append, hmemsel]
      refine ⟨⟨⟨hnd.filter _, hnd.filter _, ?_⟩, hnd.filter _, ?_⟩, hnd.filter _, ?_⟩ <;>
        intro a ha b hb e <;> subst e <;> simp_all
    · intro w
      simp only [hL, List.mem_append, hmemsel]
      constructor
      · tauto
      · intro hw
        have := hq w hw
        revert this
        cases w.side <;> cases w.isOut <;> simp [hw]
  have gd := dual_good' hW.distinct hW.inRange f
  have hsrt := sortedWires_stdLt hW.distinct hW.inRange
  have hblk : ∀ s o, ((sel s o).map (coreDual ∘ Wire.core)).Pairwise CoreLt := by
    intro s o
    rw [List.pairwise_map]
    refine (hsrt.filter _).imp_of_mem ?_
    intro a b ha hb hab
    have ha := (hmemsel s o a).1 ha
    have hb := (hmemsel s o b).1 hb
    right
    unfold StdLt at hab
    rw [ha.2.1, ha.2.2, hb.2.1, hb.2.2] at hab
    simp only [Function.comp, coreDual, Wire.core, Wire.slot, ha.2.1, ha.2.2, hb.2.1, hb.2.2]
    exact ⟨trivial, by omega⟩
  have hcross : ∀ s o s' o', rank s (!o) < rank s' (!o') → ∀ x ∈ (sel s o).map (coreDual ∘ Wire.core),
      ∀ y ∈ (sel s' o').map (coreDual ∘ Wire.core), CoreLt x y := by
    intro s o s' o' hr x hx y hy
    obtain ⟨a, ha, rfl⟩ := List.mem_map.1 hx
    obtain ⟨b, hb, rfl⟩ := List.mem_map.1 hy
    have ha := (hmemsel s o a).1 ha
    have hb := (hmemsel s' o' b).1 hb
    apply coreLt_of_rank
    simp only [Function.comp, coreDual, Wire.core, Wire.slot, ha.2.1, ha.2.2, hb.2.1, hb.2.2]
    exact hr
  have hcore : (W.dual f).sortedWires.map Wire.core = (L.map Wire.core).map coreDual := by
    apply core_unique
    · rw [List.pairwise_map]; exact sortedWires_stdLt gd.distinct gd.inRange
    · rw [List.map_map, hL, List.map_append, List.map_append, List.map_append]
      rw [List.pairwise_append, List.pairwise_append, List.pairwise_append]
      refine ⟨⟨⟨hblk _ _, hblk _ _, ?_⟩, hblk _ _, ?_⟩, hblk _ _, ?_⟩
      · exact hcross _ _ _ _ (by decide)
      · intro x hx
        rcases List.mem_append.1 hx with h | h
        · exact hcross _ _ _ _ (by decide) x h
        · exact hcross _ _ _ _ (by decide) x h
      · intro x hx
        rcases List.mem_append.1 hx with h | h
        · rcases List.mem_append.1 h with h | h
          · exact hcross _ _ _ _ (by decide) x h
          · exact hcross _ _ _ _ (by decide) x h
        · exact hcross _ _ _ _ (by decide) x h
    · refine ((sortedWires_perm _).map _).trans ((dual_core_perm W f).trans ?_)
      exact ((hLperm.map _).map _).symm
  constructor
  · rw [hord]
    have h1 : (L.map (·.index)).Perm (W.sortedWires.map (·.index)) :=
      (hLperm.trans (sortedWires_perm W).symm).map _
    have h2 := hW.indexed
    unfold Indexed Wires.indices at h2
    rw [h2] at h1; exact h1
  · rw [hord, getElem?_map_index hW L (fun w hw => hLperm.mem_iff.1 hw)]
    have := congrArg (List.map (fun c : (Side × Bool × Int) × Repr => some c.1)) hcore
    simp only [List.map_map] at this
    exact this

/-- A channel from mode {0,1} to mode {1}: its adjoint and dual axis orders. -/
example : adjointOrder (Wires.mk6 [1] [0, 1] [1] [0, 1] [] [] id) = [3, 4, 5, 0, 1, 2] ∧
    dualOrder (Wires.mk6 [1] [0, 1] [1] [0, 1] [] [] id) = [1, 2, 0, 4, 5, 3] := by decide

/-! ## C09 -/

/-- Open wires of the composition of two sets of wires, as documented for `@`. -/
def OpenAfter (a b : Side → Bool → Int → Prop) (s : Side) (o : Bool) (m : Int) : Prop :=
  match o with
  | true => b s true m ∨ (a s true m ∧ ¬ b s false m)
  | false => a s false m ∨ (b s false m ∧ ¬ a s true m)

/-- The wires of a component together with its adjoint. -/
def Doubled (W : Wires) (s : Side) (o : Bool) (m : Int) : Prop := Has W s o m ∨ Has W s.swap o m

/-- `W` has a wire on side `s`. -/
def OnSide (W : Wires) (s : Side) : Prop := ∃ o m, Has W s o m

theorem nonempty_bra (W : Wires) : W.bra.nonempty = true ↔ OnSide W .bra := by
  constructor
  · intro h
    simp only [Wires.nonempty, Wires.bra, Bool.not_eq_true', ← Bool.not_eq_true, List.isEmpty_iff] at h
    obtain ⟨w, hw⟩ := List.exists_mem_of_ne_nil _ h
    have := List.mem_filter.1 hw
    exact ⟨w.isOut, w.mode, w, this.1, by simp [Wire.slot]; simpa using this.2⟩
  · rintro ⟨o, m, w, hw, e⟩
    simp only [Wires.nonempty, Wires.bra, Bool.not_eq_true', ← Bool.not_eq_true, List.isEmpty_iff]
    intro h
    have : w ∈ W.ws.filter (fun w => w.side == .bra) := by
      simp only [Wire.slot, Prod.mk.injEq] at e; simp [hw, e.1]
    rw [h] at this; simp at this

theorem nonempty_ket (W : Wires) : W.ket.nonempty = true ↔ OnSide W .ket := by
  constructor
  · intro h
    simp only [Wires.nonempty, Wires.ket, Bool.not_eq_true', ← Bool.not_eq_true, List.isEmpty_iff] at h
    obtain ⟨w, hw⟩ := List.exists_mem_of_ne_nil _ h
    have := List.mem_filter.1 hw
    exact ⟨w.isOut, w.mode, w, this.1, by simp [Wire.slot]; simpa using this.2⟩
  · rintro ⟨o, m, w, hw, e⟩
    simp only [Wires.nonempty, Wires.ket, Bool.not_eq_true', ← Bool.not_eq_true, List.isEmpty_iff]
    intro h
    have : w ∈ W.ws.filter (fun w => w.side == .ket) := by
      simp only [Wire.slot, Prod.mk.injEq] at e; simp [hw, e.1]
    rw [h] at this; simp at this

/-- A uniform representation on each side (as produced by the library's constructors). -/
def Uniform (W : Wires) (q : Repr) : Prop := ∀ w ∈ W.ws, w.repr = q

theorem matmul_open {A B R : Wires} (hA : Distinct A) (hB : Distinct B) (rA : InRange A)
    (rB : InRange B) (hs : SameRepr A B) (h : matmulWires A B = .ok R) :
    Composable A B ∧ Good R ∧ ∀ s o m, Has R s o m ↔ OpenAfter (Has A) (Has B) s o m := by
  by_cases hc : Composable A B
  · obtain ⟨R', e, g, hh⟩ := (C02_matmul_open_wires A B hA hB rA rB hs).1 hc
    rw [h] at e; cases e
    refine ⟨hc, g, ?_⟩
    intro s o m
    cases o
    · exact (hh s m).2
    · exact (hh s m).1
  · have := (C02_matmul_open_wires A B hA hB rA rB hs).2 hc
    rw [h] at this; cases this

theorem has_adjoint (W : Wires) (hd : Distinct W) (hr : InRange W) (f s o m) :
    Has (W.adjoint f) s o m ↔ Has W s.swap o m := by
  have h := (C04_adjoint_dual_wires W hd hr f).2.2.1 o m
  cases s
  · exact h.2.1
  · exact h.1
  · exact h.2.2

theorem uniform_adjoint {W : Wires} {q} (h : Uniform W q) (f) : Uniform (W.adjoint f) q := by
  intro w hw
  have : w.core ∈ (W.adjoint f).ws.map Wire.core := List.mem_map_of_mem hw
  rw [(adjoint_core_perm W f).mem_iff] at this
  simp only [List.mem_map] at this
  obtain ⟨c, ⟨v, hv, rfl⟩, e⟩ := this
  have := congrArg Prod.snd e
  simp only [coreAdj, Wire.core] at this
  rw [← this]; exact h v hv

theorem uniform_matmul {A B R : Wires} {q} (hA : Uniform A q) (hB : Uniform B q)
    (dA : Distinct A) (dB : Distinct B) (hs : SameRepr A B) (hc : Composable A B)
    (h : matmulWires A B = .ok R) : Uniform R q := by
  rcases matmulWires_cases A B with ⟨_, e⟩ | ⟨_, e⟩
  · rw [e] at h; cases h
    rw [setOf_of_nodup (preMat_nodup dA dB hc)]
    intro w hw
    obtain ⟨v, hv, e⟩ := exists_core_mem (List.Perm.refl _) hw
    have : w.repr = v.repr := congrArg Prod.snd e
    rw [this]
    rcases mem_preMat.1 hv with h | h
    · exact hA v h.1
    · exact hB v h.1
  · rw [e] at h; cases h

theorem sameRepr_of_uniform {A B : Wires} {q} (hA : Uniform A q) (hB : Uniform B q) : SameRepr A B :=
  fun w hw v hv _ => (hA w hw).trans (hB v hv).symm

/-- Which operand, if any, `>>` completes with its adjoint. -/
inductive Plan | plain | doubleLeft | doubleRight | reject
  deriving DecidableEq

/-- The documented decision: both operands live on the same sides — plain composition; one lives on a
single side and the other on both — the first is completed; anything else is an error. -/
def planOf (lb lk rb rk : Bool) : Plan :=
  match lb, lk, rb, rk with
  | false, true, false, true => .plain
  | true, false, true, false => .plain
  | true, true, true, true => .plain
  | false, true, true, true => .doubleLeft
  | true, false, true, true => .doubleLeft
  | true, true, false, true => .doubleRight
  | true, true, true, false => .doubleRight
  | _, _, _, _ => .reject

/-- **C09** `A >> B` for components without classical wires: when it succeeds, its open wires are those
of the plain composition, or of the composition in which exactly the one-sided operand has been completed
with its adjoint, according to which sides the operands occupy; in the remaining cases it raises
`ValueError`. -/
theorem C09_rshift (A B : Wires) (hA : Good A) (hB : Good B) (q : Repr) (uA : Uniform A q)
    (uB : Uniform B q) (cA : ∀ w ∈ A.ws, w.side ≠ .classical) (cB : ∀ w ∈ B.ws, w.side ≠ .classical)
    (f : Nat → Nat) :
    match planOf A.bra.nonempty A.ket.nonempty B.bra.nonempty B.ket.nonempty with
    | .reject => rshift A B f = .error .valueError
    | .plain => ∀ R, rshift A B f = .ok R → ∀ s o m, Has R s o m ↔ OpenAfter (Has A) (Has B) s o m
    | .doubleLeft => ∀ R, rshift A B f = .ok R →
        ∀ s o m, Has R s o m ↔ OpenAfter (Doubled A) (Has B) s o m
    | .doubleRight => ∀ R, rshift A B f = .ok R →
        ∀ s o m, Has R s o m ↔ OpenAfter (Has A) (Doubled B) s o m := by
  have gAa := adjoint_good' hA.distinct hA.inRange f
  have gBa := adjoint_good' hB.distinct hB.inRange f
  have uAa := uniform_adjoint uA f
  have uBa := uniform_adjoint uB f
  have nocl : ∀ {W : Wires}, (∀ w ∈ W.ws, w.side ≠ .classical) → ∀ o m, ¬ Has W .classical o m := by
    rintro W h o m ⟨w, hw, e⟩
    exact h w hw (congrArg Prod.fst e)
  have plain : ∀ R, matmulWires A B = .ok R → ∀ s o m, Has R s o m ↔ OpenAfter (Has A) (Has B) s o m :=
    fun R h => (matmul_open hA.distinct hB.distinct hA.inRange hB.inRange
      (sameRepr_of_uniform uA uB) h).2.2
  -- one-sidedness as statements about `Has`
  have nb : ∀ {W : Wires}, W.bra.nonempty = false → ∀ o m, ¬ Has W .bra o m := by
    intro W h o m hh
    have := (nonempty_bra W).2 ⟨o, m, hh⟩
    rw [h] at this; cases this
  have nk : ∀ {W : Wires}, W.ket.nonempty = false → ∀ o m, ¬ Has W .ket o m := by
    intro W h o m hh
    have := (nonempty_ket W).2 ⟨o, m, hh⟩
    rw [h] at this; cases this
  have left : ∀ R, (do matmulWires (A.adjoint f) (← matmulWires A B)) = .ok R →
      ((∀ o m, ¬ Has A .bra o m) ∨ (∀ o m, ¬ Has A .ket o m)) →
      ∀ s o m, Has R s o m ↔ OpenAfter (Doubled A) (Has B) s o m := by
    intro R h hside s o m
    rcases e1 : matmulWires A B with _ | R1
    · rw [e1] at h; cases h
    · rw [e1] at h
      have m1 := matmul_open hA.distinct hB.distinct hA.inRange hB.inRange (sameRepr_of_uniform uA uB) e1
      have u1 := uniform_matmul uA uB hA.distinct hB.distinct (sameRepr_of_uniform uA uB) m1.1 e1
      have m2 := matmul_open gAa.distinct m1.2.1.distinct gAa.inRange m1.2.1.inRange
        (sameRepr_of_uniform uAa u1) h
      rw [m2.2.2 s o m]
      have hadj := fun s o m => has_adjoint A hA.distinct hA.inRange f s o m
      have hA' := nocl cA
      have hB' := nocl cB
      cases o <;> cases s <;> rcases hside with h | h <;>
        simp only [OpenAfter, Doubled, hadj, m1.2.2, Side.swap, h, hA', hB', false_or, or_false, false_and,
          not_false_eq_true, and_true, or_self]
  have right : ∀ R, (do matmulWires (← matmulWires A (B.adjoint f)) B) = .ok R →
      ((∀ o m, ¬ Has B .bra o m) ∨ (∀ o m, ¬ Has B .ket o m)) →
      ∀ s o m, Has R s o m ↔ OpenAfter (Has A) (Doubled B) s o m := by
    intro R h hside s o m
    rcases e1 : matmulWires A (B.adjoint f) with _ | R1
    · rw [e1] at h; cases h
    · rw [e1] at h
      have m1 := matmul_open hA.distinct gBa.distinct hA.inRange gBa.inRange (sameRepr_of_uniform uA uBa) e1
      have u1 := uniform_matmul uA uBa hA.distinct gBa.distinct (sameRepr_of_uniform uA uBa) m1.1 e1
      have m2 := matmul_open m1.2.1.distinct hB.distinct m1.2.1.inRange hB.inRange
        (sameRepr_of_uniform u1 uB) h
      rw [m2.2.2 s o m]
      have hadj := fun s o m => has_adjoint B hB.distinct hB.inRange f s o m
      have hA' := nocl cA
      have hB' := nocl cB
      cases o <;> cases s <;> rcases hside with h | h <;>
        simp only [OpenAfter, Doubled, hadj, m1.2.2, Side.swap, h, hA', hB', false_or, or_false, false_and,
          not_false_eq_true, and_true, or_self]
  rcases ab : A.bra.nonempty with _ | _ <;> rcases ak : A.ket.nonempty with _ | _ <;>
    rcases bb : B.bra.nonempty with _ | _ <;> rcases bk : B.ket.nonempty with _ | _ <;>
    simp only [planOf, rshift, ab, ak, bb, bk, Bool.not_true, Bool.not_false, Bool.and_true,
      Bool.and_false, Bool.true_and, Bool.false_and, Bool.or_false, Bool.or_true, Bool.false_or,
      Bool.true_or, Bool.and_self, Bool.or_self, if_true, if_false, Bool.false_eq_true, reduceIte]
  · exact plain
  · exact fun R h => left R h (Or.inl (nb ab))
  · exact plain
  · exact fun R h => left R h (Or.inr (nk ak))
  · exact fun R h => right R h (Or.inl (nb bb))
  · exact fun R h => right R h (Or.inr (nk bk))
  · exact plain

/-- No open wire would occur twice when composing two sets of wires. -/
def NoTwice (a b : Side → Bool → Int → Prop) : Prop :=
  ∀ s m, ¬ (b s true m ∧ a s true m ∧ ¬ b s false m) ∧ ¬ (a s false m ∧ b s false m ∧ ¬ a s true m)

/-- **C09** `A >> B` succeeds exactly when the composition - with the one-sided operand completed by its adjoint if
the plan says so - has no open wire twice; otherwise it raises `ValueError`. -/
theorem C09_rshift_accepts (A B : Wires) (hA : Good A) (hB : Good B) (q : Repr) (uA : Uniform A q)
    (uB : Uniform B q) (cA : ∀ w ∈ A.ws, w.side ≠ .classical) (cB : ∀ w ∈ B.ws, w.side ≠ .classical)
    (f : Nat → Nat) :
    let Ok : Prop := match planOf A.bra.nonempty A.ket.nonempty B.bra.nonempty B.ket.nonempty with
      | .reject => False
      | .plain => NoTwice (Has A) (Has B)
      | .doubleLeft => NoTwice (Doubled A) (Has B)
      | .doubleRight => NoTwice (Has A) (Doubled B)
    (Ok → ∃ R, rshift A B f = .ok R) ∧ (¬ Ok → rshift A B f = .error .valueError) := by
  have gAa := adjoint_good' hA.distinct hA.inRange f
  have gBa := adjoint_good' hB.distinct hB.inRange f
  have uAa := uniform_adjoint uA f
  have uBa := uniform_adjoint uB f
  have nocl : ∀ {W : Wires}, (∀ w ∈ W.ws, w.side ≠ .classical) → ∀ o m, ¬ Has W .classical o m := by
    rintro W h o m ⟨w, hw, e⟩
    exact h w hw (congrArg Prod.fst e)
  have nb : ∀ {W : Wires}, W.bra.nonempty = false → ∀ o m, ¬ Has W .bra o m := by
    intro W h o m hh
    have := (nonempty_bra W).2 ⟨o, m, hh⟩
    rw [h] at this; cases this
  have nk : ∀ {W : Wires}, W.ket.nonempty = false → ∀ o m, ¬ Has W .ket o m := by
    intro W h o m hh
    have := (nonempty_ket W).2 ⟨o, m, hh⟩
    rw [h] at this; cases this
  have hA' := nocl cA
  have hB' := nocl cB
  have c02 := C02_matmul_open_wires A B hA.distinct hB.distinct hA.inRange hB.inRange (sameRepr_of_uniform uA uB)
  have c02' := C02_matmul_open_wires A (B.adjoint f) hA.distinct gBa.distinct hA.inRange gBa.inRange (sameRepr_of_uniform uA uBa)
  have plain : (NoTwice (Has A) (Has B) → ∃ R, matmulWires A B = .ok R) ∧
      (¬ NoTwice (Has A) (Has B) → matmulWires A B = .error .valueError) :=
    ⟨fun h => (c02.1 h).imp fun _ h => h.1, fun h => c02.2 h⟩
  have left : ((∀ o m, ¬ Has A .bra o m) ∨ (∀ o m, ¬ Has A .ket o m)) →
      (NoTwice (Doubled A) (Has B) → ∃ R, (do matmulWires (A.adjoint f) (← matmulWires A B)) = .ok R) ∧
      (¬ NoTwice (Doubled A) (Has B) → (do matmulWires (A.adjoint f) (← matmulWires A B)) = .error .valueError) := by
    intro hside
    have hadj := fun s o m => has_adjoint A hA.distinct hA.inRange f s o m
    by_cases hc : Composable A B
    · obtain ⟨R1, e1, g1, o1⟩ := c02.1 hc
      have u1 := uniform_matmul uA uB hA.distinct hB.distinct (sameRepr_of_uniform uA uB) hc e1
      have c2 := C02_matmul_open_wires (A.adjoint f) R1 gAa.distinct g1.distinct gAa.inRange g1.inRange (sameRepr_of_uniform uAa u1)
      have key : Composable (A.adjoint f) R1 ↔ NoTwice (Doubled A) (Has B) := by
        unfold Composable NoTwice
        refine forall_congr' fun s => forall_congr' fun m => ?_
        have hcs := hc s m
        cases s <;> rcases hside with h | h <;>
          simp only [Doubled, hadj, o1, Side.swap, h, hA', hB', false_or, or_false, false_and, and_false, not_false_eq_true,
            and_true, true_and, or_self] at hcs ⊢ <;> exact iff_of_true (by trivial) hcs
      rw [← key, e1]
      exact ⟨fun h => (c2.1 h).imp fun _ h => h.1, fun h => c2.2 h⟩
    · have e1 := c02.2 hc
      rw [e1]
      refine ⟨fun h => absurd ?_ hc, fun _ => rfl⟩
      intro s m
      have := h s m
      cases s <;> rcases hside with h | h <;>
        simp only [Doubled, Side.swap, h, hA', hB', false_or, or_false, false_and, and_false, not_false_eq_true,
          and_true, true_and, or_self] at this ⊢ <;> exact this
  have right : ((∀ o m, ¬ Has B .bra o m) ∨ (∀ o m, ¬ Has B .ket o m)) →
      (NoTwice (Has A) (Doubled B) → ∃ R, (do matmulWires (← matmulWires A (B.adjoint f)) B) = .ok R) ∧
      (¬ NoTwice (Has A) (Doubled B) → (do matmulWires (← matmulWires A (B.adjoint f)) B) = .error .valueError) := by
    intro hside
    have hadj := fun s o m => has_adjoint B hB.distinct hB.inRange f s o m
    by_cases hc : Composable A (B.adjoint f)
    · obtain ⟨R1, e1, g1, o1⟩ := c02'.1 hc
      have u1 := uniform_matmul uA uBa hA.distinct gBa.distinct (sameRepr_of_uniform uA uBa) hc e1
      have c2 := C02_matmul_open_wires R1 B g1.distinct hB.distinct g1.inRange hB.inRange (sameRepr_of_uniform u1 uB)
      have key : Composable R1 B ↔ NoTwice (Has A) (Doubled B) := by
        unfold Composable NoTwice
        refine forall_congr' fun s => forall_congr' fun m => ?_
        have hcs := hc s m
        cases s <;> rcases hside with h | h <;>
          simp only [Doubled, hadj, o1, Side.swap, h, hA', hB', false_or, or_false, false_and, and_false, not_false_eq_true,
            and_true, true_and, or_self] at hcs ⊢ <;> exact iff_of_true (by trivial) hcs
      rw [← key, e1]
      exact ⟨fun h => (c2.1 h).imp fun _ h => h.1, fun h => c2.2 h⟩
    · have e1 := c02'.2 hc
      rw [e1]
      refine ⟨fun h => absurd ?_ hc, fun _ => rfl⟩
      intro s m
      have := h s m
      cases s <;> rcases hside with h | h <;>
        simp only [Doubled, hadj, Side.swap, h, hA', hB', false_or, or_false, false_and, and_false, not_false_eq_true,
          and_true, true_and, or_self] at this ⊢ <;> exact this
  rcases ab : A.bra.nonempty with _ | _ <;> rcases ak : A.ket.nonempty with _ | _ <;>
    rcases bb : B.bra.nonempty with _ | _ <;> rcases bk : B.ket.nonempty with _ | _ <;>
    simp only [planOf, rshift, ab, ak, bb, bk, Bool.not_true, Bool.not_false, Bool.and_true,
      Bool.and_false, Bool.true_and, Bool.false_and, Bool.or_false, Bool.or_true, Bool.false_or,
      Bool.true_or, Bool.and_self, Bool.or_self, if_true, if_false, Bool.false_eq_true, reduceIte,
      false_imp_iff, not_false_eq_true, true_imp_iff, and_self]
  · exact plain
  · exact left (Or.inl (nb ab))
  · exact plain
  · exact left (Or.inr (nk ak))
  · exact right (Or.inl (nb bb))
  · exact right (Or.inr (nk bk))
  · exact plain

/-- ket >> channel, and channel >> unitary, are non-trivial instances. -/
example : ((rshift (Wires.mk6 [] [] [0, 1] [] [] [] id) (Wires.mk6 [1] [1] [1] [1] [] [] (· + 10)) (· + 20)).toOption.map
    (fun R => R.sortedWires.map Wire.slot)) =
    some [(.bra, true, 0), (.bra, true, 1), (.ket, true, 0), (.ket, true, 1)] := by decide

example : rshift (Wires.mk6 [] [] [0] [] [] [] id) (Wires.mk6 [0] [0] [] [] [] [] (· + 10)) (· + 20) =
    .error .valueError := by rfl

/-! ## C44 `on(modes)` -/

theorem blk_mk6 (ob ib ok ik co ci : List Int) (ids : Nat → Nat) (s : Side) (o : Bool) :
    ∃ n r, blk (Wires.mk6 ob ib ok ik co ci ids) s o = mkBlock s o n (match s, o with
          | .bra, true => ob | .bra, false => ib | .ket, true => ok | .ket, false => ik
          | .classical, true => co | .classical, false => ci) r ids := by
  have keep : ∀ n ms r, (mkBlock s o n ms r ids).filter (fun w => w.side == s && w.isOut == o) =
      mkBlock s o n ms r ids := by
    intro n ms r
    rw [List.filter_eq_self]
    intro w hw
    have := mkBlock_side hw
    simp [this]
  have drop : ∀ s' o' n ms r, (s' ≠ s ∨ o' ≠ o) →
      (mkBlock s' o' n ms r ids).filter (fun w => w.side == s && w.isOut == o) = [] := by
    intro s' o' n ms r h
    rw [List.filter_eq_nil_iff]
    intro w hw
    have := mkBlock_side hw
    simp [this]
    tauto
  unfold blk Wires.mk6
  simp only [List.filter_append]
  cases s <;> cases o <;> simp only [keep] <;>
    (simp (disch := simp) only [drop, List.nil_append, List.append_nil]; exact ⟨_, _, rfl⟩)

theorem modes_mkBlock (s o n ms r ids) (h : ms.Pairwise (· < ·)) :
    (⟨mkBlock s o n ms r ids⟩ : Wires).modes = ms := by
  unfold Wires.modes
  rw [mkBlock_mode, (h.imp le_of_lt).insertionSort_eq]
  exact List.dedup_eq_self.2 (h.imp ne_of_lt)

/-- The block of wires as (side, direction, mode) triples. -/
theorem mkBlock_slot (s o n ms r ids) (h : ms.Pairwise (· < ·)) :
    (mkBlock s o n ms r ids).map Wire.slot = ms.map (fun m => (s, o, m)) := by
  have h1 : (mkBlock s o n ms r ids).map Wire.slot =
      ((mkBlock s o n ms r ids).map (·.mode)).map (fun m => (s, o, m)) := by
    rw [List.map_map]
    apply List.map_congr_left
    intro w hw
    have := mkBlock_side hw
    simp [Wire.slot, this]
  rw [h1, mkBlock_mode, (h.imp le_of_lt).insertionSort_eq]

theorem mk6_slots {ob ib ok ik : List Int} (ids : Nat → Nat) (h1 : ob.Pairwise (· < ·))
    (h2 : ib.Pairwise (· < ·)) (h3 : ok.Pairwise (· < ·)) (h4 : ik.Pairwise (· < ·))
    (hr : ∀ m ∈ ob ++ ib ++ ok ++ ik, 0 ≤ m ∧ m < 20000) :
    (Wires.mk6 ob ib ok ik [] [] ids).sortedWires.map Wire.slot =
      ob.map (fun m => (Side.bra, true, m)) ++ ib.map (fun m => (Side.bra, false, m)) ++
      ok.map (fun m => (Side.ket, true, m)) ++ ik.map (fun m => (Side.ket, false, m)) := by
  have nd : ∀ {l : List Int}, l.Pairwise (· < ·) → l.Nodup := fun h => h.imp ne_of_lt
  have hp := mk6_pairwise (ids := ids) (nd h1) (nd h2) (nd h3) (nd h4) List.nodup_nil List.nodup_nil
  have g := (C01_constructor ob ib ok ik [] [] ids (nd h1) (nd h2) (nd h3) (nd h4) List.nodup_nil
    List.nodup_nil (by simpa using hr)).1
  rw [sortedWires_eq_self hp g.distinct g.inRange]
  unfold Wires.mk6
  simp only [List.map_append, mkBlock_slot _ _ _ _ _ _ h1, mkBlock_slot _ _ _ _ _ _ h2,
    mkBlock_slot _ _ _ _ _ _ h3, mkBlock_slot _ _ _ _ _ _ h4,
    mkBlock_slot _ _ _ _ _ _ List.Pairwise.nil, List.map_nil, List.append_nil]

theorem map_idxOf {ms ns : List Int} (hm : ms.Nodup) (hl : ns.length = ms.length) :
    ms.map (fun m => ns[ms.idxOf m]?) = ns.map some := by
  apply List.ext_getElem
  · simp [hl]
  · intro i h1 h2
    simp only [List.length_map] at h1 h2
    simp [List.getElem_map, hm.idxOf_getElem, h2]

/-- **C44** (partial) For a component all of whose occupied wire groups live on the modes `ms`
(listed increasingly) and a strictly increasing list `ns` of as many new modes, `on(ns)` succeeds and
renames the `i`-th mode to `ns[i]` on every wire, keeping every axis in place.
Missing: lists `ns` that are not increasing, where it is false, see `C44_on_order_false`. -/
theorem C44_on_renames_partial (ob ib ok ik : Bool) (ms ns : List Int) (ids ids' : Nat → Nat)
    (hms : ms.Pairwise (· < ·)) (hns : ns.Pairwise (· < ·)) (hl : ns.length = ms.length) (h0 : ms ≠ [])
    (rm : ∀ m ∈ ms, 0 ≤ m ∧ m < 20000) (rn : ∀ m ∈ ns, 0 ≤ m ∧ m < 20000) :
    let pick := fun (b : Bool) (l : List Int) => if b then l else []
    let W := Wires.mk6 (pick ob ms) (pick ib ms) (pick ok ms) (pick ik ms) [] [] ids
    ∃ W', onModes W ns ids' = .ok W' ∧
      W'.sortedWires.map (fun w => some (w.side, w.isOut, w.mode)) =
        W.sortedWires.map (fun w => (ns[ms.idxOf w.mode]?).map (fun n => (w.side, w.isOut, n))) := by
  intro pick W
  have pk : ∀ b (l : List Int), l.Pairwise (· < ·) → (pick b l).Pairwise (· < ·) := by
    intro b l h; cases b <;> simp [pick, h]
  have pr : ∀ b (l : List Int) m, m ∈ pick b l → m ∈ l := by
    intro b l m; cases b <;> simp [pick]
  have m1 : W.output.bra.modes = pick ob ms := by
    rw [output_bra]
    obtain ⟨n, r, e⟩ := blk_mk6 (pick ob ms) (pick ib ms) (pick ok ms) (pick ik ms) [] [] ids .bra true
    rw [e]; exact modes_mkBlock _ _ _ _ _ _ (pk _ _ hms)
  have m2 : W.input.bra.modes = pick ib ms := by
    rw [input_bra]
    obtain ⟨n, r, e⟩ := blk_mk6 (pick ob ms) (pick ib ms) (pick ok ms) (pick ik ms) [] [] ids .bra false
    rw [e]; exact modes_mkBlock _ _ _ _ _ _ (pk _ _ hms)
  have m3 : W.output.ket.modes = pick ok ms := by
    rw [output_ket]
    obtain ⟨n, r, e⟩ := blk_mk6 (pick ob ms) (pick ib ms) (pick ok ms) (pick ik ms) [] [] ids .ket true
    rw [e]; exact modes_mkBlock _ _ _ _ _ _ (pk _ _ hms)
  have m4 : W.input.ket.modes = pick ik ms := by
    rw [input_ket]
    obtain ⟨n, r, e⟩ := blk_mk6 (pick ob ms) (pick ib ms) (pick ok ms) (pick ik ms) [] [] ids .ket false
    rw [e]; exact modes_mkBlock _ _ _ _ _ _ (pk _ _ hms)
  have self : sameSet ms ms = true := by simp [sameSet]
  have emp : ms.isEmpty = false := by cases ms <;> simp_all
  have nsd : ns.dedup = ns := List.dedup_eq_self.2 (hns.imp ne_of_lt)
  have pe : ∀ b, (pick b ms).isEmpty = !b := by intro b; cases b <;> simp [pick, emp]
  refine ⟨Wires.mk6 (pick ob ns) (pick ib ns) (pick ok ns) (pick ik ns) [] [] ids', ?_, ?_⟩
  · unfold onModes
    simp only [m1, m2, m3, m4, pe, nsd]
    rw [if_neg, if_neg]
    · simp only [pick]; cases ob <;> cases ib <;> cases ok <;> cases ik <;> simp
    · simp only [pick]
      cases ob <;> cases ib <;> cases ok <;> cases ik <;> simp [emp, hl]
    · simp only [pick]
      cases ob <;> cases ib <;> cases ok <;> cases ik <;> simp [emp, self]
  · have s1 := mk6_slots ids (pk ob _ hms) (pk ib _ hms) (pk ok _ hms) (pk ik _ hms) (by
      simp only [List.mem_append]; rintro m (((h | h) | h) | h) <;> exact rm m (pr _ _ _ h))
    have s2 := mk6_slots ids' (pk ob _ hns) (pk ib _ hns) (pk ok _ hns) (pk ik _ hns) (by
      simp only [List.mem_append]; rintro m (((h | h) | h) | h) <;> exact rn m (pr _ _ _ h))
    have key : ∀ b (s : Side) (o : Bool), (pick b ns).map (fun m => some (s, o, m)) =
        (pick b ms).map (fun m => (ns[ms.idxOf m]?).map (fun n => (s, o, n))) := by
      intro b s o
      cases b
      · simp [pick]
      · have := congrArg (List.map (Option.map (fun n => (s, o, n)))) (map_idxOf (hms.imp ne_of_lt) hl)
        simp only [List.map_map] at this
        simp only [pick, if_true]
        exact this.symm
    have t1 : W.sortedWires.map (fun w => (ns[ms.idxOf w.mode]?).map (fun n => (w.side, w.isOut, n))) =
        (W.sortedWires.map Wire.slot).map
          (fun x => (ns[ms.idxOf x.2.2]?).map (fun n => (x.1, x.2.1, n))) := by
      rw [List.map_map]; rfl
    have t2 : ∀ W' : Wires, W'.sortedWires.map (fun w => some (w.side, w.isOut, w.mode)) =
        (W'.sortedWires.map Wire.slot).map some := by
      intro W'; rw [List.map_map]; rfl
    rw [t1, t2, s1, s2]
    simp only [List.map_append, List.map_map, Function.comp_def, key]

theorem mkBlock_sort (s o n ms r ids) : mkBlock s o n (ms.insertionSort (· ≤ ·)) r ids = mkBlock s o n ms r ids := by
  unfold mkBlock
  rw [(List.pairwise_insertionSort (· ≤ ·) ms).insertionSort_eq]

/-- `on(modes)` only sees the set of new modes: a list without repetitions acts as the same list sorted. -/
theorem onModes_sort (W : Wires) (ns : List Int) (hn : ns.Nodup) (ids : Nat → Nat) :
    onModes W ns ids = onModes W (ns.insertionSort (· ≤ ·)) ids := by
  have hp : (ns.insertionSort (· ≤ ·)).Perm ns := List.perm_insertionSort _ _
  have hd : (ns.insertionSort (· ≤ ·)).dedup = ns.insertionSort (· ≤ ·) := List.dedup_eq_self.2 (hp.nodup_iff.2 hn)
  have hb : ∀ (c : Bool) s o n r, mkBlock s o n (if c then [] else ns.insertionSort (· ≤ ·)) r ids =
      mkBlock s o n (if c then [] else ns) r ids := by
    intro c s o n r; cases c
    · exact mkBlock_sort _ _ _ _ _ _
    · rfl
  have hlen : ∀ c : Bool, (if c then [] else ns.insertionSort (· ≤ ·)).length = (if c then [] else ns).length := by
    intro c; cases c
    · exact hp.length_eq
    · rfl
  unfold onModes Wires.mk6
  simp only [hd, List.dedup_eq_self.2 hn, hb, hlen, hp.length_eq]

/-- **C44** (where the modes go) For a component whose occupied wire groups all live on the modes `ms` and any list `ns` of as many different new modes,
`on(ns)` succeeds, keeps every axis in place and renames the `i`-th smallest old mode to the `i`-th *smallest* new mode. -/
theorem C44_on_renames (ob ib ok ik : Bool) (ms ns : List Int) (ids ids' : Nat → Nat)
    (hms : ms.Pairwise (· < ·)) (hns : ns.Nodup) (hl : ns.length = ms.length) (h0 : ms ≠ [])
    (rm : ∀ m ∈ ms, 0 ≤ m ∧ m < 20000) (rn : ∀ m ∈ ns, 0 ≤ m ∧ m < 20000) :
    let pick := fun (b : Bool) (l : List Int) => if b then l else []
    let W := Wires.mk6 (pick ob ms) (pick ib ms) (pick ok ms) (pick ik ms) [] [] ids
    ∃ W', onModes W ns ids' = .ok W' ∧
      W'.sortedWires.map (fun w => some (w.side, w.isOut, w.mode)) =
        W.sortedWires.map (fun w => ((ns.insertionSort (· ≤ ·))[ms.idxOf w.mode]?).map (fun n => (w.side, w.isOut, n))) := by
  intro pick W
  have hp : (ns.insertionSort (· ≤ ·)).Perm ns := List.perm_insertionSort _ _
  have hs : (ns.insertionSort (· ≤ ·)).Pairwise (· < ·) :=
    (List.pairwise_insertionSort (· ≤ ·) ns).imp₂ (fun a b h1 h2 => lt_of_le_of_ne h1 h2) (hp.nodup_iff.2 hns)
  rw [onModes_sort W ns hns]
  exact C44_on_renames_partial ob ib ok ik ms _ ids ids' hms hs (by rw [hp.length_eq, hl]) h0 rm
    (fun m hm => rn m (hp.mem_iff.1 hm))

/-- **C44** (acceptance) `on(ns)` succeeds iff all occupied (quantum) wire groups live on the same set of modes and that set has
`len(ns)` elements; otherwise it raises `ValueError`.  On success the occupied groups are the same, each on the modes in `ns`
(classical wires are dropped). -/
theorem C44_on_exact (W : Wires) (ns : List Int) (ids : Nat → Nat) (rn : ∀ m ∈ ns, 0 ≤ m ∧ m < 20000) :
    let Ok : Prop := ∃ M : Finset Int, ∀ s o, s ≠ .classical → (∃ m, Has W s o m) → (∀ m, Has W s o m ↔ m ∈ M) ∧ M.card = ns.length
    (Ok → ∃ W', onModes W ns ids = .ok W' ∧ ∀ s o m, Has W' s o m ↔ s ≠ .classical ∧ (∃ m', Has W s o m') ∧ m ∈ ns) ∧
    (¬ Ok → onModes W ns ids = .error .valueError) := by
  intro Ok
  -- the four groups
  let g : Side → Bool → List Int := fun s o => (⟨blk W s o⟩ : Wires).modes
  have hg : ∀ s o m, m ∈ g s o ↔ Has W s o m := fun s o m => mem_modes_blk
  have hnd : ∀ s o, (g s o).Nodup := fun s o => List.nodup_dedup _
  have hemp : ∀ s o, (g s o).isEmpty = false ↔ ∃ m, Has W s o m := by
    intro s o
    rw [← Bool.not_eq_true, List.isEmpty_iff]
    constructor
    · intro h
      obtain ⟨m, hm⟩ := List.exists_mem_of_ne_nil _ h
      exact ⟨m, (hg s o m).1 hm⟩
    · rintro ⟨m, hm⟩ h
      have := (hg s o m).2 hm
      rw [h] at this; simp at this
  have e1 : W.output.bra.modes = g .bra true := by rw [output_bra]
  have e2 : W.input.bra.modes = g .bra false := by rw [input_bra]
  have e3 : W.output.ket.modes = g .ket true := by rw [output_ket]
  have e4 : W.input.ket.modes = g .ket false := by rw [input_ket]
  set subsets := [g .bra true, g .bra false, g .ket true, g .ket false].filter (fun s => !s.isEmpty) with hsub
  have hmem : ∀ l, l ∈ subsets ↔ ∃ s o, s ≠ Side.classical ∧ (∃ m, Has W s o m) ∧ l = g s o := by
    intro l
    rw [hsub]
    simp only [List.mem_filter, List.mem_cons, List.not_mem_nil, or_false, Bool.not_eq_true']
    constructor
    · rintro ⟨rfl | rfl | rfl | rfl, he⟩
      exacts [⟨_, _, by decide, (hemp _ _).1 he, rfl⟩, ⟨_, _, by decide, (hemp _ _).1 he, rfl⟩, ⟨_, _, by decide, (hemp _ _).1 he, rfl⟩,
        ⟨_, _, by decide, (hemp _ _).1 he, rfl⟩]
    · rintro ⟨s, o, hs, hm, rfl⟩
      refine ⟨?_, (hemp _ _).2 hm⟩
      cases s <;> cases o <;> simp at hs ⊢
  have hsame : ∀ a b, sameSet a b = true ↔ ∀ m, m ∈ a ↔ m ∈ b := by
    intro a b
    simp only [sameSet, Bool.and_eq_true, List.all_eq_true, decide_eq_true_eq]
    exact ⟨fun h m => ⟨h.1 m, h.2 m⟩, fun h => ⟨fun m hm => (h m).1 hm, fun m hm => (h m).2 hm⟩⟩
  have hhead : ∀ l ∈ subsets, subsets.headD [] ∈ subsets := by
    intro l hl
    cases hc : subsets with
    | nil => rw [hc] at hl; simp at hl
    | cons a t => simp
  have heq : onModes W ns ids = if subsets.any (fun s => ! sameSet s (subsets.headD [])) then .error .valueError
      else if subsets.any (fun s => !s.isEmpty && s.length != ns.length) then .error .valueError
      else .ok (Wires.mk6 (if (g .bra true).isEmpty then [] else ns.dedup) (if (g .bra false).isEmpty then [] else ns.dedup)
        (if (g .ket true).isEmpty then [] else ns.dedup) (if (g .ket false).isEmpty then [] else ns.dedup) [] [] ids) := by
    unfold onModes
    simp only [e1, e2, e3, e4]
    rfl
  have hOk : Ok ↔ ¬ (subsets.any (fun s => ! sameSet s (subsets.headD [])) = true) ∧
      ¬ (subsets.any (fun s => !s.isEmpty && s.length != ns.length) = true) := by
    simp only [List.any_eq_true, Bool.not_eq_true', Bool.and_eq_true, bne_iff_ne, ne_eq, not_exists, not_and, Bool.not_eq_false,
      Decidable.not_not]
    constructor
    · rintro ⟨M, hM⟩
      have hl : ∀ l ∈ subsets, (∀ m, m ∈ l ↔ m ∈ M) ∧ M.card = ns.length := by
        intro l hl
        obtain ⟨s, o, hs, hm, rfl⟩ := (hmem l).1 hl
        have := hM s o hs hm
        exact ⟨fun m => (hg s o m).trans (this.1 m), this.2⟩
      constructor
      · intro l hl'
        rw [hsame]
        intro m
        rw [(hl l hl').1, (hl _ (hhead l hl')).1]
      · intro l hl' _
        obtain ⟨s, o, hs, hm, rfl⟩ := (hmem l).1 hl'
        have := hl _ hl'
        rw [← this.2, ← List.toFinset_card_of_nodup (hnd s o)]
        congr 1
        ext m
        simp [this.1]
    · rintro ⟨h1, h2⟩
      refine ⟨(subsets.headD []).toFinset, ?_⟩
      intro s o hs hm
      have hin : g s o ∈ subsets := (hmem _).2 ⟨s, o, hs, hm, rfl⟩
      have h3 := (hsame _ _).1 (h1 _ hin)
      refine ⟨fun m => by rw [← hg, List.mem_toFinset, h3], ?_⟩
      rw [← h2 _ hin ((hemp s o).2 hm), ← List.toFinset_card_of_nodup (hnd s o)]
      congr 1
      ext m
      simp [h3]
  constructor
  · intro hok
    have := hOk.1 hok
    rw [heq, if_neg this.1, if_neg this.2]
    refine ⟨_, rfl, ?_⟩
    have nd : ∀ c : Bool, (if c then [] else ns.dedup).Nodup := by
      intro c; cases c
      · exact List.nodup_dedup _
      · exact List.nodup_nil
    have hr : ∀ c : Bool, ∀ m ∈ (if c then [] else ns.dedup), 0 ≤ m ∧ m < 20000 := by
      intro c m; cases c
      · intro h; exact rn m (List.mem_dedup.1 (by simpa using h))
      · intro h; simp at h
    have := (C01_constructor _ _ _ _ [] [] ids (nd (g .bra true).isEmpty) (nd (g .bra false).isEmpty) (nd (g .ket true).isEmpty)
      (nd (g .ket false).isEmpty) List.nodup_nil List.nodup_nil (by
        intro m hm
        simp only [List.append_nil, List.mem_append] at hm
        rcases hm with ((hm | hm) | hm) | hm <;> exact hr _ m hm)).2.2
    intro s o m
    rw [this s o m]
    have hb : ∀ s o, m ∈ (if (g s o).isEmpty then [] else ns.dedup) ↔ (∃ m', Has W s o m') ∧ m ∈ ns := by
      intro s o
      rw [← hemp s o]
      cases (g s o).isEmpty <;> simp
    cases s <;> cases o <;> simp only [hb, ne_eq, not_false_eq_true, true_and, not_true_eq_false, false_and, reduceCtorEq, List.not_mem_nil]
  · intro hok
    rw [heq]
    by_cases h1 : subsets.any (fun s => ! sameSet s (subsets.headD [])) = true
    · rw [if_pos h1]
    · rw [if_neg h1]
      by_cases h2 : subsets.any (fun s => !s.isEmpty && s.length != ns.length) = true
      · rw [if_pos h2]
      · exact absurd (hOk.2 ⟨h1, h2⟩) hok

/-- **C44 is false in general**: a two-mode state on modes 0, 1 moved with `on([5, 2])` ends with its
first axis (old mode 0) on mode 2, not 5; and `on([0, 0])` is accepted although it leaves one mode for a
two-mode representation. -/
theorem C44_on_order_false :
    let W := Wires.mk6 [] [] [0, 1] [] [] [] id
    (∃ W', onModes W [5, 2] id = .ok W' ∧ W'.sortedWires.map (·.mode) = [2, 5]) ∧
    (∃ W', onModes W [0, 0] id = .ok W' ∧ W'.len = 1) := by
  exact ⟨⟨_, rfl, by decide⟩, ⟨_, rfl, by decide⟩⟩

example : ∃ W', onModes (Wires.mk6 [0, 3] [0, 3] [0, 3] [0, 3] [] [] id) [2, 7] id = .ok W' ∧
    W'.sortedWires.map (·.mode) = [2, 7, 2, 7, 2, 7, 2, 7] := ⟨_, rfl, by decide⟩

end Verif.WireModel
