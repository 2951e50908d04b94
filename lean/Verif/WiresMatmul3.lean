import Verif.WiresMatmul2

/-! Helper lemmas about `@` of wires: the permutation and the contracted indices. -/

namespace Verif.WireModel

/-- Documented condition for `A @ B` to exist: no open wire occurs twice
(physics/wires.py docstring 606-608, error branch 561-564). -/
def Composable (A B : Wires) : Prop :=
  ∀ s m, ¬ (Has B s true m ∧ Has A s true m ∧ ¬ Has B s false m) ∧
    ¬ (Has A s false m ∧ Has B s false m ∧ ¬ Has A s true m)

theorem noConf_iff_composable {A B : Wires} (hs : SameRepr A B) :
    (∀ s, NoConf (openOut A B s) ∧ NoConf (openIn A B s)) ↔ Composable A B := by
  constructor
  · intro h s m
    exact ⟨(core_ne_of_noConf_iff hs s).1.1 (h s).1 m, (core_ne_of_noConf_iff hs s).2.1 (h s).2 m⟩
  · intro h s
    exact ⟨(core_ne_of_noConf_iff hs s).1.2 fun m => (h s m).1,
      (core_ne_of_noConf_iff hs s).2.2 fun m => (h s m).2⟩

theorem Distinct.inj {W : Wires} (h : Distinct W) {a b : Wire} (ha : a ∈ W.ws) (hb : b ∈ W.ws)
    (e : a.slot = b.slot) : a = b := List.inj_on_of_nodup_map h ha hb e

theorem Distinct.nodup {W : Wires} (h : Distinct W) : W.ws.Nodup := List.Nodup.of_map _ h

theorem blk_slot_nodup {W : Wires} (h : Distinct W) (s o) : ((blk W s o).map Wire.slot).Nodup :=
  List.Nodup.sublist (List.filter_sublist.map _) h

theorem part_nodup {X Y : Wires} (hx : Distinct X) (hy : Distinct Y)
    (h : ∀ a ∈ X.ws, ∀ b ∈ Y.ws, a.slot ≠ b.slot) :
    ((⟨X.ws ++ Y.ws⟩ : Wires).sortedWires.map Wire.slot).Nodup := by
  apply nodup_slot_perm
  unfold Distinct
  rw [List.map_append, List.nodup_append]
  refine ⟨hx, hy, ?_⟩
  intro sa hsa sb hsb
  obtain ⟨a, ha, rfl⟩ := List.mem_map.1 hsa
  obtain ⟨b, hb, rfl⟩ := List.mem_map.1 hsb
  exact h a ha b hb

def tagOf (t : Side × Bool × Int) : Nat := rank t.1 t.2.1

theorem nodup_tag {l1 l2 : List (Side × Bool × Int)} {n : Nat}
    (h1 : l1.Nodup ∧ ∀ t ∈ l1, tagOf t < n) (h2 : l2.Nodup) (h3 : ∀ t ∈ l2, tagOf t = n) :
    (l1 ++ l2).Nodup ∧ ∀ t ∈ l1 ++ l2, tagOf t < n + 1 := by
  constructor
  · rw [List.nodup_append]
    refine ⟨h1.1, h2, ?_⟩
    intro a ha b hb e
    have := h1.2 a ha
    have := h3 b hb
    subst e; omega
  · intro t ht
    rcases List.mem_append.1 ht with h | h
    · have := h1.2 t h; omega
    · have := h3 t h; omega

theorem preMat_nodup {A B : Wires} (hA : Distinct A) (hB : Distinct B) (hc : Composable A B) :
    ((preMat A B).map Wire.slot).Nodup := by
  have hout : ∀ s, ((⟨(openOut A B s).1.ws ++ (openOut A B s).2.ws⟩ : Wires).sortedWires.map
      Wire.slot).Nodup := by
    intro s
    apply part_nodup (X := (openOut A B s).1) (Y := (openOut A B s).2) (blk_slot_nodup hB s true)
      (List.Nodup.sublist (List.filter_sublist.map _) (blk_slot_nodup hA s true))
    intro b hb a ha e
    replace ha := mem_sub.1 ha
    rw [mem_blk, mem_modes_blk] at ha
    replace hb := mem_blk.1 hb
    refine (hc s a.mode).1 ⟨⟨b, hb.1, ?_⟩, ⟨a, ha.1.1, ?_⟩, ha.2⟩
    · rw [e]; simp [Wire.slot, ha.1.2]
    · simp [Wire.slot, ha.1.2]
  have hin : ∀ s, ((⟨(openIn A B s).1.ws ++ (openIn A B s).2.ws⟩ : Wires).sortedWires.map
      Wire.slot).Nodup := by
    intro s
    apply part_nodup (X := (openIn A B s).1) (Y := (openIn A B s).2) (blk_slot_nodup hA s false)
      (List.Nodup.sublist (List.filter_sublist.map _) (blk_slot_nodup hB s false))
    intro a ha b hb e
    replace hb := mem_sub.1 hb
    rw [mem_blk, mem_modes_blk] at hb
    replace ha := mem_blk.1 ha
    refine (hc s b.mode).2 ⟨⟨a, ha.1, ?_⟩, ⟨b, hb.1.1, ?_⟩, hb.2⟩
    · rw [e]; simp [Wire.slot, hb.1.2]
    · simp [Wire.slot, hb.1.2]
  have mo : ∀ s, ∀ t ∈ (⟨(openOut A B s).1.ws ++ (openOut A B s).2.ws⟩ : Wires).sortedWires.map
      Wire.slot, tagOf t = rank s true := by
    intro s t ht
    obtain ⟨w, hw, rfl⟩ := List.mem_map.1 ht
    have := mem_openOut.1 (mem_sortedWires.1 hw)
    simp [tagOf, Wire.slot, this.1, this.2.1]
  have mi : ∀ s, ∀ t ∈ (⟨(openIn A B s).1.ws ++ (openIn A B s).2.ws⟩ : Wires).sortedWires.map
      Wire.slot, tagOf t = rank s false := by
    intro s t ht
    obtain ⟨w, hw, rfl⟩ := List.mem_map.1 ht
    have := mem_openIn.1 (mem_sortedWires.1 hw)
    simp [tagOf, Wire.slot, this.1, this.2.1]
  have z : ([] : List (Side × Bool × Int)).Nodup ∧ ∀ t ∈ ([] : List (Side × Bool × Int)), tagOf t < 0 :=
    ⟨List.nodup_nil, by simp⟩
  have e1 := nodup_tag z (hout .bra) (mo .bra)
  have e2 := nodup_tag e1 (hin .bra) (mi .bra)
  have e3 := nodup_tag e2 (hout .ket) (mo .ket)
  have e4 := nodup_tag e3 (hin .ket) (mi .ket)
  have e5 := nodup_tag e4 (hout .classical) (mo .classical)
  have e6 := nodup_tag e5 (hin .classical) (mi .classical)
  have := e6.1
  rw [List.nil_append] at this
  unfold preMat
  simp only [List.map_append]
  exact this

theorem preMat_inRange {A B : Wires} (hA : InRange A) (hB : InRange B) : InRange ⟨preMat A B⟩ := by
  intro w hw
  rcases mem_preMat.1 hw with h | h
  · exact hA w h.1
  · exact hB w h.1

/-- The leftover wires in order: those of `A` not contracted, then those of `B` not contracted. -/
def leftover (A B : Wires) : List Wire :=
  A.sortedWires.filter (fun w => KeepL B w) ++ B.sortedWires.filter (fun w => KeepR A w)

theorem mem_leftover {A B w} : w ∈ leftover A B ↔ (w ∈ A.ws ∧ KeepL B w) ∨ (w ∈ B.ws ∧ KeepR A w) := by
  simp [leftover]

theorem leftover_slot_nodup {A B : Wires} (hA : Distinct A) (hB : Distinct B) (hc : Composable A B) :
    ((leftover A B).map Wire.slot).Nodup := by
  rw [leftover, List.map_append, List.nodup_append]
  refine ⟨List.Nodup.sublist (List.filter_sublist.map _) (nodup_slot_perm hA),
    List.Nodup.sublist (List.filter_sublist.map _) (nodup_slot_perm hB), ?_⟩
  intro s hs t ht e
  obtain ⟨a, ha, rfl⟩ := List.mem_map.1 hs
  obtain ⟨b, hb, rfl⟩ := List.mem_map.1 ht
  simp only [List.mem_filter, mem_sortedWires, decide_eq_true_eq] at ha hb
  have e' := e
  simp only [Wire.slot, Prod.mk.injEq] at e'
  have hAa : Has A a.side a.isOut a.mode := ⟨a, ha.1, rfl⟩
  have hBa : Has B a.side a.isOut a.mode := ⟨b, hb.1, e.symm⟩
  have h := hc a.side a.mode
  rcases ho : a.isOut with _ | _
  · rw [ho] at hAa hBa
    exact h.2 ⟨hAa, hBa, by rw [e'.1, e'.2.2]; exact hb.2 (by rw [← e'.2.1, ho])⟩
  · rw [ho] at hAa hBa
    exact h.1 ⟨hBa, hAa, ha.2 ho⟩

theorem leftover_perm_preMat {A B : Wires} (hA : Distinct A) (hB : Distinct B) (hc : Composable A B) :
    (leftover A B).Perm (preMat A B) := by
  refine (List.perm_ext_iff_of_nodup (List.Nodup.of_map _ (leftover_slot_nodup hA hB hc))
    (List.Nodup.of_map _ (preMat_nodup hA hB hc))).2 ?_
  intro w
  rw [mem_leftover, mem_preMat]

/-- All wire identifiers of the two operands are different. -/
def FreshIds (A B : Wires) : Prop := ((A.ws ++ B.ws).map Wire.id).Nodup

instance (A B) : Decidable (FreshIds A B) := inferInstanceAs (Decidable (List.Nodup _))

theorem FreshIds.inj {A B : Wires} (h : FreshIds A B) {v w : Wire} (hv : v ∈ A.ws ∨ v ∈ B.ws)
    (hw : w ∈ A.ws ∨ w ∈ B.ws) (e : v.id = w.id) : v = w :=
  List.inj_on_of_nodup_map h (List.mem_append.2 hv) (List.mem_append.2 hw) e

theorem mem_resultIds {A B : Wires} {d : Nat} :
    d ∈ (Wires.reindex ⟨preMat A B⟩).ids ↔ ∃ w ∈ preMat A B, w.id = d := by
  unfold Wires.ids
  rw [((sortedWires_perm _).map _).mem_iff, reindex_id, ((sortedWires_perm _).map _).mem_iff]
  simp

theorem combined_eq_leftover {A B : Wires} (hf : FreshIds A B) (hne : ∀ w, w ∈ A.ws → w ∉ B.ws) :
    combined A B (Wires.reindex ⟨preMat A B⟩) = leftover A B := by
  unfold combined leftover
  congr 1
  · apply List.filter_congr
    intro w hw
    rw [mem_sortedWires] at hw
    simp only [mem_resultIds, mem_preMat, decide_eq_decide]
    constructor
    · rintro ⟨v, hv, e⟩
      have hvw : v = w := hf.inj (hv.imp And.left And.left) (Or.inl hw) e
      subst hvw
      rcases hv with hv | hv
      · exact hv.2
      · exact absurd hv.1 (hne _ hw)
    · intro hk
      exact ⟨w, Or.inl ⟨hw, hk⟩, rfl⟩
  · apply List.filter_congr
    intro w hw
    rw [mem_sortedWires] at hw
    simp only [mem_resultIds, mem_preMat, decide_eq_decide]
    constructor
    · rintro ⟨v, hv, e⟩
      have hvw : v = w := hf.inj (hv.imp And.left And.left) (Or.inr hw) e
      subst hvw
      rcases hv with hv | hv
      · exact absurd hw (hne _ hv.1)
      · exact hv.2
    · intro hk
      exact ⟨w, Or.inr ⟨hw, hk⟩, rfl⟩

theorem FreshIds.disjoint {A B : Wires} (h : FreshIds A B) : ∀ w, w ∈ A.ws → w ∉ B.ws := by
  intro w ha hb
  unfold FreshIds at h
  rw [List.map_append, List.nodup_append] at h
  exact h.2.2 w.id (List.mem_map_of_mem ha) w.id (List.mem_map_of_mem hb) rfl

/-! ### `list.index` -/

theorem indexOf_eq {l : List Wire} {w : Wire} {i : Nat} (hi : i < l.length)
    (h1 : ∀ j (hj : j < i), (l[j]'(by omega)).pyEq w = .ok false) (h2 : l[i].pyEq w = .ok true) :
    indexOf l w = .ok i := by
  induction l generalizing i with
  | nil => simp at hi
  | cons v l ih =>
    cases i with
    | zero =>
      simp only [List.getElem_cons_zero] at h2
      simp [indexOf, h2]; rfl
    | succ i =>
      have h0 := h1 0 (by omega)
      simp only [List.getElem_cons_zero] at h0
      have hi' : i < l.length := by simpa using hi
      have := ih hi' (fun j hj => by simpa using h1 (j + 1) (by omega)) (by simpa using h2)
      simp [indexOf, h0, this, bind, Except.bind, pure, Except.pure]

/-- No quantum and classical open wire share mode and direction (otherwise `list.index` crashes). -/
def NoClash (l : List Wire) : Prop :=
  ∀ v ∈ l, ∀ w ∈ l, v.side ≠ .classical → w.side = .classical → ¬ (v.mode = w.mode ∧ v.isOut = w.isOut)

theorem pyEq_of_noClash {l : List Wire} (h : NoClash l) (hn : (l.map Wire.slot).Nodup) {v w w' : Wire}
    (hv : v ∈ l) (hw : w ∈ l) (e : w'.core = w.core) : v.pyEq w' = .ok (decide (v = w)) := by
  have e1 : w'.slot = w.slot := congrArg Prod.fst e
  have e2 : w'.repr = w.repr := congrArg Prod.snd e
  have es : w'.side = w.side ∧ w'.isOut = w.isOut ∧ w'.mode = w.mode := by
    simpa [Wire.slot] using e1
  have key : v.core = w'.core ↔ v = w := by
    rw [e]
    constructor
    · intro h'
      exact List.inj_on_of_nodup_map hn hv hw (congrArg Prod.fst h')
    · rintro rfl; rfl
  have heqv : v.eqv w' = decide (v = w) := by
    rw [Bool.eq_iff_iff, eqv_iff, decide_eq_true_iff, key]
  have hne_side : v.side ≠ w.side → v ≠ w := fun h e => h (by rw [e])
  unfold Wire.pyEq
  rcases hvs : v.side with _ | _ | _ <;> rcases hws : w.side with _ | _ | _ <;>
    simp only [es.1, hws] <;> first | rw [heqv] | skip
  · have := h v hv w hw (by simp [hvs]) hws
    rw [if_neg]
    · simp [hne_side (by simp [hvs, hws])]
    · simp only [Bool.and_eq_true, beq_iff_eq, es.2.1, es.2.2]; exact this
  · have := h v hv w hw (by simp [hvs]) hws
    rw [if_neg]
    · simp [hne_side (by simp [hvs, hws])]
    · simp only [Bool.and_eq_true, beq_iff_eq, es.2.1, es.2.2]; exact this
  · have := h w hw v hv (by simp [hws]) hvs
    have hv' : v ≠ w := hne_side (by simp [hvs, hws])
    simp only [hv', decide_false, Except.ok.injEq]
    rw [Bool.eq_false_iff]
    simp only [Bool.and_eq_true, beq_iff_eq, es.2.1, es.2.2, ne_eq]
    intro hh
    exact this ⟨hh.1.1.symm, hh.1.2.symm⟩
  · have := h w hw v hv (by simp [hws]) hvs
    have hv' : v ≠ w := hne_side (by simp [hvs, hws])
    simp only [hv', decide_false, Except.ok.injEq]
    rw [Bool.eq_false_iff]
    simp only [Bool.and_eq_true, beq_iff_eq, es.2.1, es.2.2, ne_eq]
    intro hh
    exact this ⟨hh.1.1.symm, hh.1.2.symm⟩

theorem indexOf_of_noClash {l : List Wire} (h : NoClash l) (hn : (l.map Wire.slot).Nodup)
    {w w' : Wire} (hw : w ∈ l) (e : w'.core = w.core) : indexOf l w' = .ok (l.idxOf w) := by
  have hi : l.idxOf w < l.length := List.idxOf_lt_length_of_mem hw
  apply indexOf_eq hi
  · intro j hj
    rw [pyEq_of_noClash h hn (List.getElem_mem _) hw e]
    congr 1
    simp only [decide_eq_false_iff_not]
    intro e'
    have hnd : l.Nodup := List.Nodup.of_map _ hn
    have : l.idxOf w = j := by rw [← e', hnd.idxOf_getElem]
    omega
  · rw [pyEq_of_noClash h hn (List.getElem_mem _) hw e]
    simp

theorem mapM_ok_of_forall {α β ε} {f : α → Except ε β} {g : α → β} {l : List α}
    (h : ∀ a ∈ l, f a = .ok (g a)) : l.mapM f = .ok (l.map g) := by
  induction l with
  | nil => rfl
  | cons a l ih =>
    rw [List.mapM_cons, h a (by simp), ih (fun b hb => h b (by simp [hb]))]
    rfl

theorem exists_core_mem {R : Wires} {l : List Wire} (hp : R.ws.Perm l) {w'}
    (hw' : w' ∈ R.reindex.ws) : ∃ w ∈ l, w'.core = w.core := by
  have : w'.core ∈ R.reindex.ws.map Wire.core := List.mem_map_of_mem hw'
  rw [reindex_core, ((sortedWires_perm R).map _).mem_iff, (hp.map _).mem_iff] at this
  obtain ⟨w, hw, e⟩ := List.mem_map.1 this
  exact ⟨w, hw, e.symm⟩

end Verif.WireModel
