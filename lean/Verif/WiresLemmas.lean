import Verif.WiresSpec

namespace Verif.WireModel

theorem order_lt_of_stdLt {a b : Wire} (ha : 0 ≤ a.mode ∧ a.mode < 20000)
    (hb : 0 ≤ b.mode ∧ b.mode < 20000) (h : StdLt a b) : a.order < b.order := by
  obtain ⟨sa, oa, ma, _, _, _⟩ := a
  obtain ⟨sb, ob, mb, _, _, _⟩ := b
  unfold StdLt at h
  cases sa <;> cases oa <;> cases sb <;> cases ob <;> simp [rank, Wire.order, b2i] at * <;> omega

theorem stdLt_of_order_lt {a b : Wire} (ha : 0 ≤ a.mode ∧ a.mode < 20000)
    (hb : 0 ≤ b.mode ∧ b.mode < 20000) (h : a.order < b.order) : StdLt a b := by
  obtain ⟨sa, oa, ma, _, _, _⟩ := a
  obtain ⟨sb, ob, mb, _, _, _⟩ := b
  unfold StdLt
  cases sa <;> cases oa <;> cases sb <;> cases ob <;> simp [rank, Wire.order, b2i] at * <;> omega

theorem slot_eq_of_order_eq {a b : Wire} (ha : 0 ≤ a.mode ∧ a.mode < 20000)
    (hb : 0 ≤ b.mode ∧ b.mode < 20000) (h : a.order = b.order) : a.slot = b.slot := by
  obtain ⟨sa, oa, ma, _, _, _⟩ := a
  obtain ⟨sb, ob, mb, _, _, _⟩ := b
  cases sa <;> cases oa <;> cases sb <;> cases ob <;> simp [Wire.slot, Wire.order, b2i] at * <;> omega

theorem StdLt.irrefl (a : Wire) : ¬ StdLt a a := by simp [StdLt]

theorem StdLt.asymm {a b : Wire} (h : StdLt a b) : ¬ StdLt b a := by
  unfold StdLt at *; omega

theorem StdLt.trans {a b c : Wire} (h : StdLt a b) (h' : StdLt b c) : StdLt a c := by
  unfold StdLt at *; omega

theorem sortedWires_perm (W : Wires) : W.sortedWires.Perm W.ws := List.perm_insertionSort _ _

@[simp] theorem mem_sortedWires {W : Wires} {w : Wire} : w ∈ W.sortedWires ↔ w ∈ W.ws :=
  (sortedWires_perm W).mem_iff

@[simp] theorem length_sortedWires (W : Wires) : W.sortedWires.length = W.len :=
  (sortedWires_perm W).length_eq

theorem sortedWires_pairwise_order (W : Wires) :
    W.sortedWires.Pairwise (fun a b => a.order ≤ b.order) := by
  have : Std.Total (fun a b : Wire => a.order ≤ b.order) := ⟨fun a b => by omega⟩
  have : IsTrans Wire (fun a b : Wire => a.order ≤ b.order) := ⟨fun a b c => by omega⟩
  exact List.pairwise_insertionSort _ _

theorem nodup_slot_perm {W : Wires} (h : Distinct W) : (W.sortedWires.map Wire.slot).Nodup :=
  (((sortedWires_perm W).map _).nodup_iff).2 h

theorem sortedWires_stdLt {W : Wires} (hd : Distinct W) (hr : InRange W) :
    W.sortedWires.Pairwise StdLt := by
  have h1 := sortedWires_pairwise_order W
  have h2 : W.sortedWires.Pairwise (fun a b => a.slot ≠ b.slot) := by
    have := nodup_slot_perm hd
    rw [List.Nodup, List.pairwise_map] at this
    exact this
  refine (h1.and h2).imp_of_mem ?_
  rintro a b ha hb ⟨hab, hne⟩
  have hra := hr a (mem_sortedWires.1 ha)
  have hrb := hr b (mem_sortedWires.1 hb)
  rcases lt_or_eq_of_le hab with h | h
  · exact stdLt_of_order_lt hra hrb h
  · exact absurd (slot_eq_of_order_eq hra hrb h) hne

theorem perm_stdLt_unique {l l' : List Wire} (h : l.Perm l') (h1 : l.Pairwise StdLt)
    (h2 : l'.Pairwise StdLt) : l = l' :=
  List.Perm.eq_of_pairwise (fun _ _ _ _ h h' => absurd h' h.asymm) h1 h2 h

theorem sortedWires_congr {W W' : Wires} (hd : Distinct W) (hr : InRange W) (h : W'.ws.Perm W.ws) :
    W'.sortedWires = W.sortedWires := by
  have hd' : Distinct W' := ((h.map _).nodup_iff).2 hd
  have hr' : InRange W' := fun w hw => hr w (h.mem_iff.1 hw)
  exact perm_stdLt_unique ((sortedWires_perm W').trans (h.trans (sortedWires_perm W).symm))
    (sortedWires_stdLt hd' hr') (sortedWires_stdLt hd hr)

end Verif.WireModel

namespace Verif.WireModel

/-- Everything about a wire except its index and identifier. -/
def Wire.core (w : Wire) : (Side × Bool × Int) × Repr := (w.slot, w.repr)

/-- Everything about a wire except its identifier. -/
def Wire.noId (w : Wire) : (Side × Bool × Int) × Repr × Nat := (w.slot, w.repr, w.index)

def CoreLt (a b : (Side × Bool × Int) × Repr) : Prop :=
  rank a.1.1 a.1.2.1 < rank b.1.1 b.1.2.1 ∨
  (rank a.1.1 a.1.2.1 = rank b.1.1 b.1.2.1 ∧ a.1.2.2 < b.1.2.2)

theorem sorted_core_eq {W W' : Wires} (hd : Distinct W) (hr : InRange W) (hd' : Distinct W')
    (hr' : InRange W') (h : (W.ws.map Wire.core).Perm (W'.ws.map Wire.core)) :
    W.sortedWires.map Wire.core = W'.sortedWires.map Wire.core := by
  have h1 : (W.sortedWires.map Wire.core).Pairwise CoreLt := by
    rw [List.pairwise_map]; exact sortedWires_stdLt hd hr
  have h2 : (W'.sortedWires.map Wire.core).Pairwise CoreLt := by
    rw [List.pairwise_map]; exact sortedWires_stdLt hd' hr'
  refine List.Perm.eq_of_pairwise (fun a b _ _ h h' => ?_) h1 h2 ?_
  · unfold CoreLt at *; omega
  · exact ((sortedWires_perm W).map _).trans (h.trans ((sortedWires_perm W').map _).symm)

theorem reindex_ws (W : Wires) :
    W.reindex.ws = W.sortedWires.zipIdx.map (fun p => { p.1 with index := p.2 }) := rfl

@[simp] theorem reindex_len (W : Wires) : W.reindex.len = W.len := by
  rw [Wires.len, reindex_ws]; simp

theorem map_zipIdx_fst {α β} (l : List α) (n : Nat) (f : α → β) :
    (l.zipIdx n).map (fun p => f p.1) = l.map f := by
  induction l generalizing n with
  | nil => rfl
  | cons a l ih => simp [List.zipIdx_cons, ih]

theorem reindex_core (W : Wires) :
    W.reindex.ws.map Wire.core = W.sortedWires.map Wire.core := by
  rw [reindex_ws, List.map_map]
  exact map_zipIdx_fst _ 0 Wire.core

theorem reindex_slot (W : Wires) :
    W.reindex.ws.map Wire.slot = W.sortedWires.map Wire.slot := by
  rw [reindex_ws, List.map_map]
  exact map_zipIdx_fst _ 0 Wire.slot

theorem reindex_id (W : Wires) :
    W.reindex.ws.map Wire.id = W.sortedWires.map Wire.id := by
  rw [reindex_ws, List.map_map]
  exact map_zipIdx_fst _ 0 Wire.id

theorem Distinct.reindex {W : Wires} (h : Distinct W) : Distinct W.reindex := by
  unfold Distinct; rw [reindex_slot]; exact nodup_slot_perm h

theorem inRange_iff_slot (W : Wires) :
    InRange W ↔ ∀ s ∈ W.ws.map Wire.slot, 0 ≤ s.2.2 ∧ s.2.2 < 20000 := by
  simp [InRange, Wire.slot]

theorem InRange.reindex {W : Wires} (h : InRange W) : InRange W.reindex := by
  rw [inRange_iff_slot, reindex_slot]
  intro s hs
  exact (inRange_iff_slot W).1 h s (((sortedWires_perm W).map _).mem_iff.1 hs)

theorem sortedWires_eq_self {W : Wires} (h : W.ws.Pairwise StdLt) (hd : Distinct W) (hr : InRange W) :
    W.sortedWires = W.ws :=
  perm_stdLt_unique (sortedWires_perm W) (sortedWires_stdLt hd hr) h

theorem reindex_sorted {W : Wires} (hd : Distinct W) (hr : InRange W) :
    W.reindex.sortedWires = W.reindex.ws := by
  apply sortedWires_eq_self _ hd.reindex hr.reindex
  have h := sortedWires_stdLt hd hr
  have h1 : (W.reindex.ws.map Wire.core).Pairwise CoreLt := by
    rw [reindex_core, List.pairwise_map]; exact h
  rw [List.pairwise_map] at h1
  exact h1

theorem reindex_indexed {W : Wires} (hd : Distinct W) (hr : InRange W) : Indexed W.reindex := by
  unfold Indexed Wires.indices
  rw [reindex_sorted hd hr, reindex_len, reindex_ws, List.map_map]
  have : ((fun x : Wire => x.index) ∘ fun p : Wire × Nat => ({ p.1 with index := p.2 } : Wire))
      = Prod.snd := rfl
  rw [this, List.zipIdx_map_snd, length_sortedWires, List.range_eq_range']

theorem reindex_good {W : Wires} (hd : Distinct W) (hr : InRange W) : Good W.reindex :=
  ⟨hd.reindex, hr.reindex, reindex_indexed hd hr⟩

theorem has_iff_mem_slot (W : Wires) (s o m) : Has W s o m ↔ (s, o, m) ∈ W.ws.map Wire.slot := by
  simp [Has, eq_comm]

theorem has_reindex (W : Wires) (s o m) : Has W.reindex s o m ↔ Has W s o m := by
  rw [has_iff_mem_slot, has_iff_mem_slot, reindex_slot, ((sortedWires_perm W).map _).mem_iff]

/-- In an indexed object the position of a wire is its stored index. -/
theorem Indexed.getElem {W : Wires} (h : Indexed W) (i : Nat) (hi : i < W.sortedWires.length) :
    W.sortedWires[i].index = i := by
  have h1 : W.indices[i]? = some W.sortedWires[i].index := by
    rw [Wires.indices, List.getElem?_map, List.getElem?_eq_getElem hi]; rfl
  rw [h] at h1
  have hi' : i < W.len := by simpa using hi
  rw [List.getElem?_range hi'] at h1
  exact (Option.some.inj h1).symm

theorem noId_eq_of_core {W W' : Wires} (h : Indexed W) (h' : Indexed W')
    (hc : W.sortedWires.map Wire.core = W'.sortedWires.map Wire.core) :
    W.sortedWires.map Wire.noId = W'.sortedWires.map Wire.noId := by
  have hl : W.sortedWires.length = W'.sortedWires.length := by
    have := congrArg List.length hc; simpa using this
  apply List.ext_getElem (by simpa using hl)
  intro i h1 h2
  have e1 : i < W.sortedWires.length := by simpa using h1
  have e2 : i < W'.sortedWires.length := by simpa using h2
  simp only [List.getElem_map]
  have hcore : (W.sortedWires[i]).core = (W'.sortedWires[i]).core := by
    have := congrArg (fun l => l[i]?) hc
    simp only [List.getElem?_map, List.getElem?_eq_getElem e1, List.getElem?_eq_getElem e2,
      Option.map_some, Option.some.injEq] at this
    exact this
  have i1 := h.getElem i e1
  have i2 := h'.getElem i e2
  simp only [Wire.core, Prod.mk.injEq] at hcore
  simp [Wire.noId, hcore.1, hcore.2, i1, i2]

end Verif.WireModel
