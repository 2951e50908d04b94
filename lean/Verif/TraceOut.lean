import Verif.ComponentReturn
import Verif.ArrayAlg

/-!
# `TraceOut` on Fock components (C89): definitions and wires
-/

namespace Verif.CompV

open Verif.WireModel Verif.Arr Verif.Fock Verif.PolyExp Verif.Circuits

/-- lab/circuit_components_utils/trace_out.py:65-74: the wires of `TraceOut(modes)`. -/
def trWires (modes : List Int) (ids : Nat → Nat) : Wires := Wires.mk6 [] modes [] modes [] [] ids

/-- lab/circuit_components_utils/trace_out.py:95-98: the labels of the second copy; the label of a traced output is that of the first copy. -/
def core2 (C : ℕ) (modes : List Int) (outs : List Wire) : List ℕ :=
  outs.zipIdx.foldl (fun c p => if p.1.mode ∈ modes then c.set p.2 p.2 else c) ((List.range C).map (C + ·))

/-- `ket[m].indices[0]` for each mode of a list. -/
def idxOf (W : Wires) (ms : List Int) : List ℕ := ms.map fun m => (W.getModes [m]).indices.headD 0

/-- lab/circuit_components_utils/trace_out.py:76-111 `other >> TraceOut(modes)` for an unbatched component in the Fock representation.  `f` provides the identifiers of
the adjoint, `ids` those of `TraceOut`.  `oz` and `ozc` are the orders in which Python iterates over the sets `self.wires.modes & ket.modes` and
`self.wires.modes & bra.modes` (lines 106 and 105).  A component without wires stands for the scalar it holds.  `none` is an exception. -/
noncomputable def FComp.traceOut (f ids : Nat → Nat) (modes oz ozc : List Int) (X : FComp) : Option FComp :=
  let W := trWires modes ids
  let ket := X.wires.output.ket
  let bra := X.wires.output.bra
  if W.ws = [] then some X
  else if ket.ws = [] ∨ bra.ws = [] then do
    let C := X.arr.core.length
    let c1 := List.range C
    let c2 := core2 C modes (Wires.mk (ket.ws ++ bra.ws)).output.sortedWires
    let out := (List.range (2 * C)).filter fun n => decide (n ∈ c1) ^^ decide (n ∈ c2)
    let batch := (List.range X.arr.batchDims).map Lab.str
    let a1 := if bra.ws = [] then X.arr.conj else X.arr
    let a2 := if bra.ws = [] then X.arr else X.arr.conj
    let r ← Verif.Arr.contract a1 a2 (batch ++ c1.map Lab.int) (batch ++ c2.map Lab.int) (batch ++ out.map Lab.int)
    let Wa ← (matmul (X.wires.adjoint f) X.wires).toOption
    let R ← (matmul Wa.1 W).toOption
    some ⟨R.1, r⟩
  else do
    let r ← X.arr.trace (idxOf ket oz) (idxOf bra ozc)
    let R ← (matmul X.wires W).toOption
    some ⟨R.1, r⟩

/-! ## Specification -/

/-- Specification: the partial trace of an operator over the modes `T`: the photon numbers of the ket and the bra of each traced mode are set equal and summed. -/
noncomputable def trK (M : ℕ) (T : Finset Int) (K : Ker Chan) : Ker Chan where
  outs := K.outs.filter fun c => c.2 ∉ T
  ins := K.ins
  fn := fun o i => tot M T fun z => K.fn (fun c => if c.2 ∈ T then z c.2 else o c) i

/-- What is computed when the two sets of modes are not iterated in the same order: the bra of `ozc[j]` is paired with the ket of `oz[j]`. -/
noncomputable def trKπ (M : ℕ) (T : Finset Int) (π : Int → Int) (K : Ker Chan) : Ker Chan where
  outs := K.outs.filter fun c => c.2 ∉ T
  ins := K.ins
  fn := fun o i => tot M T fun z => K.fn (fun c => if c.2 ∈ T then (if c.1 = .bra then z (π c.2) else z c.2) else o c) i

/-! ## Sums -/

theorem nsum_tot {C : Type*} [DecidableEq C] (M : ℕ) : ∀ (l : List C) (_ : l.Nodup) (G : List ℕ → ℂ),
    nsum (List.replicate l.length M) G = tot M l.toFinset fun z => G (l.map z)
  | [], _, G => by
    rw [List.length_nil, List.replicate_zero, nsum_nil, List.toFinset_nil, tot_empty]
    rfl
  | a :: l, h, G => by
    rw [List.nodup_cons] at h
    have e : (a :: l).toFinset = {a} ∪ l.toFinset := by rw [List.toFinset_cons]; rfl
    rw [e, tot_union (Finset.disjoint_singleton_left.mpr fun h' => h.1 (List.mem_toFinset.mp h')), tot_singleton, List.length_cons, List.replicate_succ, nsum_cons]
    refine Finset.sum_congr rfl fun v _ => ?_
    rw [nsum_tot M l h.2]
    refine tot_congr fun z _ _ => congrArg G ?_
    rw [List.map_cons]
    have e1 : over {a} (Function.update (fun _ => 0) a v) z a = v := by simp [over]
    rw [e1]
    refine congrArg _ (List.map_congr_left fun c hc => ?_)
    have : c ≠ a := fun hca => h.1 (hca ▸ hc)
    simp [over, this]

theorem tot_side (M : ℕ) (s : Side) (T : Finset Int) : ∀ (F : (Chan → ℕ) → ℂ),
    tot M (T.image fun m => ((s, m) : Chan)) F = tot M T fun z => F fun c => if c.1 = s then z c.2 else 0 := by
  induction T using Finset.induction_on with
  | empty =>
    intro F
    rw [Finset.image_empty, tot_empty, tot_empty]
    simp
  | insert a T ha ih =>
    intro F
    rw [Finset.image_insert]
    have e1 : insert ((s, a) : Chan) (T.image fun m => ((s, m) : Chan)) = {(s, a)} ∪ T.image fun m => ((s, m) : Chan) := rfl
    have e2 : insert a T = {a} ∪ T := rfl
    rw [e1, e2, tot_union (by simpa using ha), tot_union (by simpa using ha), tot_singleton, tot_singleton]
    refine Finset.sum_congr rfl fun v _ => ?_
    rw [ih]
    refine tot_congr fun z _ _ => congrArg F (funext fun c => ?_)
    obtain ⟨t, m⟩ := c
    by_cases ht : t = s
    · subst ht
      by_cases hm : m = a
      · subst hm
        simp [over]
      · simp [over, hm]
    · simp [over, ht]

/-! ## Wires -/

/-- Wires that are all consumed by the first operand: the composition keeps the other wires of the first operand. -/
theorem matmul_consumed {A B : Wires} (hA : Distinct A) (rA : InRange A) (hB : Distinct B) (rB : InRange B) (h : ∀ w ∈ B.ws, w.isOut = false ∧ Has A w.side true w.mode) :
    ∃ R, matmulWires A B = .ok R ∧ Good R ∧ (∀ s o m, Has R s o m ↔ Has A s o m ∧ ¬ (o = true ∧ Has B s false m)) := by
  have hBo : ∀ s m, ¬ Has B s true m := by
    rintro s m ⟨w, hw, e⟩
    have := (h w hw).1
    simp [Wire.slot, this] at e
  have hBi : ∀ s m, Has B s false m → Has A s true m := by
    rintro s m ⟨w, hw, e⟩
    have := (h w hw).2
    simp only [Wire.slot, Prod.mk.injEq] at e
    rwa [e.1, e.2.2] at this
  have hc : Composable A B := by
    intro s m
    exact ⟨fun hh => hBo _ _ hh.1, fun hh => hh.2.2 (hBi _ _ hh.2.1)⟩
  rcases matmulWires_cases A B with ⟨_, e⟩ | ⟨hn, _⟩
  · have nd := preMat_nodup hA hB hc
    rw [setOf_of_nodup nd] at e
    refine ⟨_, e, reindex_good nd (preMat_inRange rA rB), ?_⟩
    intro s o m
    rw [has_reindex]
    constructor
    · rintro ⟨w, hw, ew⟩
      have e' := ew
      simp only [Wire.slot, Prod.mk.injEq] at e'
      rcases mem_preMat.1 hw with ⟨hw, hk⟩ | ⟨hw, hk⟩
      · refine ⟨⟨w, hw, ew⟩, ?_⟩
        rintro ⟨rfl, hb⟩
        have := hk e'.2.1
        rw [e'.1, e'.2.2] at this
        exact this hb
      · exact absurd (h w hw).2 (hk (h w hw).1)
    · rintro ⟨⟨w, hw, ew⟩, hn⟩
      have e' := ew
      simp only [Wire.slot, Prod.mk.injEq] at e'
      refine ⟨w, mem_preMat.2 (Or.inl ⟨hw, fun ho hb => hn ⟨?_, ?_⟩⟩), ew⟩
      · rw [← e'.2.1]; exact ho
      · rw [← e'.1, ← e'.2.2]; exact hb
  · refine absurd (fun s => ⟨?_, ?_⟩) hn
    · intro a ha b _ _
      have := mem_blk.1 ha
      exact hBo s a.mode ⟨a, this.1, by simp [Wire.slot, this.2]⟩
    · intro a _ b hb _
      have h1 := mem_sub.1 hb
      have h2 := mem_blk.1 h1.1
      refine h1.2 (mem_modes_blk.2 (hBi s b.mode ⟨b, h2.1, by simp [Wire.slot, h2.2]⟩))

theorem trWires_has (modes : List Int) (ids : Nat → Nat) (s : Side) (o : Bool) (m : Int) :
    Has (trWires modes ids) s o m ↔ s ≠ .classical ∧ o = false ∧ m ∈ modes := by
  unfold trWires
  rw [mk6_slot]
  cases s <;> cases o <;> simp

theorem trWires_good {modes : List Int} (ids : Nat → Nat) (hn : modes.Nodup) (hr : ∀ m ∈ modes, 0 ≤ m ∧ m < 20000) :
    Distinct (trWires modes ids) ∧ InRange (trWires modes ids) := by
  have hp := mk6_pairwise (ob := []) (ib := modes) (ok := []) (ik := modes) (co := []) (ci := []) (ids := ids) (by simp) hn (by simp) hn (by simp) (by simp)
  constructor
  · unfold Distinct
    rw [List.Nodup, List.pairwise_map]
    refine hp.imp ?_
    intro a b hab e
    unfold StdLt at hab
    simp only [Wire.slot, Prod.mk.injEq] at e
    rw [e.1, e.2.1, e.2.2] at hab
    omega
  · intro w hw
    have : Has (trWires modes ids) w.side w.isOut w.mode := ⟨w, hw, rfl⟩
    exact hr _ ((trWires_has ..).mp this).2.2

theorem trWires_mem {modes : List Int} {ids : Nat → Nat} {w : Wire} (hw : w ∈ (trWires modes ids).ws) : w.side ≠ .classical ∧ w.isOut = false ∧ w.mode ∈ modes :=
  (trWires_has modes ids _ _ _).mp ⟨w, hw, rfl⟩

theorem trWires_nil (modes : List Int) (ids : Nat → Nat) : (trWires modes ids).ws = [] ↔ modes = [] := by
  constructor
  · intro h
    rcases modes with _ | ⟨m, l⟩
    · rfl
    · have : Has (trWires (m :: l) ids) .ket false m := (trWires_has ..).mpr ⟨by simp, rfl, by simp⟩
      obtain ⟨w, hw, _⟩ := this
      rw [h] at hw
      simp at hw
  · rintro rfl
    rfl

/-- Slots in standard order. -/
def SlotLt (a b : Side × Bool × Int) : Prop := rank a.1 a.2.1 < rank b.1 b.2.1 ∨ (rank a.1 a.2.1 = rank b.1 b.2.1 ∧ a.2.2 < b.2.2)

theorem SlotLt.irrefl {a : Side × Bool × Int} (h : SlotLt a a) : False := by
  unfold SlotLt at h
  omega

theorem slots_eq {R : Wires} (g : Good R) {L : List (Side × Bool × Int)} (hL : L.Pairwise SlotLt) (h : ∀ s o m, (s, o, m) ∈ L ↔ Has R s o m) :
    R.sortedWires.map Wire.slot = L := by
  have h1 : (R.sortedWires.map Wire.slot).Pairwise SlotLt := by
    rw [List.pairwise_map]
    exact sortedWires_stdLt g.distinct g.inRange
  refine List.Perm.eq_of_pairwise (fun a b _ _ h h' => ?_) h1 hL ?_
  · unfold SlotLt at *
    omega
  · rw [List.perm_ext_iff_of_nodup (nodup_slot_perm g.distinct) (hL.imp (by intro a b h e; subst e; exact h.irrefl))]
    rintro ⟨s, o, m⟩
    rw [h, has_iff_mem_slot, ((sortedWires_perm R).map _).mem_iff]

end Verif.CompV
