import Verif.TraceOut

/-!
# `TraceOut` on components with outputs on both sides (C89)
-/

namespace Verif.CompV

open Verif.WireModel Verif.Arr Verif.Fock Verif.PolyExp Verif.Circuits

theorem filter_range_map {α : Type*} (l : List α) (d : α) (p : α → Bool) :
    ((List.range l.length).filter fun j => p (l.getD j d)).map (fun j => l.getD j d) = l.filter p := by
  have e : (List.range l.length).map (fun j => l.getD j d) = l := by
    apply List.ext_getElem (by simp)
    intro i h1 h2
    simp [List.getD_eq_getElem?_getD, List.getElem?_eq_getElem h2]
  conv_rhs => rw [← e, List.filter_map]
  rfl

/-- A wire whose axis is traced. -/
def traced (modes : List Int) (w : Wire) : Bool := w.isOut && decide (w.mode ∈ modes)

theorem idx_spec {X : Wires} (g : Good X) {s : Side} {m : Int} (h : Has X s true m) :
    ∃ w, X.sortedWires[w.index]? = some w ∧ w.slot = (s, true, m) ∧ w ∈ X.ws ∧
      (Wires.getModes ⟨X.output.ws.filter fun w => w.side == s⟩ [m]).indices.headD 0 = w.index := by
  obtain ⟨w, hw, e⟩ := h
  refine ⟨w, g.getElem?_index hw, e, hw, ?_⟩
  have e' := e
  simp only [Wire.slot, Prod.mk.injEq] at e'
  have hmem : ∀ v ∈ (Wires.getModes ⟨X.output.ws.filter fun w => w.side == s⟩ [m]).sortedWires, v = w := by
    intro v hv
    rw [mem_sortedWires] at hv
    simp only [Wires.getModes, Wires.output, List.mem_filter, List.mem_singleton, decide_eq_true_eq, beq_iff_eq] at hv
    refine g.distinct.inj hv.1.1.1 hw ?_
    rw [e]
    simp only [Wire.slot, Prod.mk.injEq]
    exact ⟨hv.1.2, hv.1.1.2, hv.2⟩
  have hin : w ∈ (Wires.getModes ⟨X.output.ws.filter fun w => w.side == s⟩ [m]).sortedWires := by
    rw [mem_sortedWires]
    simp only [Wires.getModes, Wires.output, List.mem_filter, List.mem_singleton, decide_eq_true_eq, beq_iff_eq]
    exact ⟨⟨⟨hw, e'.2.1⟩, e'.1⟩, e'.2.2⟩
  unfold Wires.indices
  cases hl : (Wires.getModes ⟨X.output.ws.filter fun w => w.side == s⟩ [m]).sortedWires with
  | nil => rw [hl] at hin; simp at hin
  | cons v l =>
    rw [List.map_cons, List.headD_cons, hmem v (by rw [hl]; exact List.mem_cons_self)]

/-- The component returned after tracing has the wires of the first operand that are not traced. -/
theorem traced_wf {M : ℕ} {g : ℕ → Side × Bool × Int} {X : FComp} (hX : X.WF M) (iX : IdOk g X.wires) {B R : Wires}
    (h : ∀ w ∈ B.ws, w.isOut = false ∧ Has X.wires w.side true w.mode) (hm : matmulWires X.wires B = .ok R) (gR : Good R) {r : Arr} (hb : r.batchDims = 0)
    (hl : r.shape.length = R.len) (hd : ∀ d ∈ r.shape, d ≤ M) : FComp.WF M ⟨R, r⟩ ∧ IdOk g R := by
  have from' : ∀ w ∈ R.ws, ∃ v ∈ X.wires.ws, v.core = w.core ∧ v.id = w.id := by
    intro w hw
    obtain ⟨v, hv, e1, e2⟩ := matmul_from hm hw
    rcases hv with hv | hv
    · exact ⟨v, hv.1, e1, e2⟩
    · exact absurd (h v hv.1).2 (hv.2 (h v hv.1).1)
  have hi : IdOk g R := by
    intro w hw
    obtain ⟨v, hv, e1, e2⟩ := from' w hw
    have e3 : v.slot = w.slot := congrArg Prod.fst e1
    rw [← e2, ← e3]
    exact iX v hv
  refine ⟨⟨gR, ?_, ?_, hi.nodup gR.distinct, hb, hl, hd⟩, hi⟩
  · intro w hw
    obtain ⟨v, hv, e1, _⟩ := from' w hw
    have e3 : v.side = w.side := congrArg (fun c => c.1.1) e1
    rw [← e3]
    exact hX.quantum v hv
  · intro w hw
    obtain ⟨v, hv, e1, _⟩ := from' w hw
    have e3 : v.repr = w.repr := congrArg Prod.snd e1
    rw [← e3]
    exact hX.repr v hv

theorem ws_ne_nil {X : Wires} {s : Side} {m : Int} (h : Has X s true m) : (X.output.ws.filter fun w => w.side == s) ≠ [] := by
  obtain ⟨w, hw, e⟩ := h
  simp only [Wire.slot, Prod.mk.injEq] at e
  intro hn
  rw [List.filter_eq_nil_iff] at hn
  refine hn w ?_ (by simp [e.1])
  simp [Wires.output, hw, e.2.1]

/-- **C89** (both sides) tracing out output modes of a component with outputs on both sides. -/
theorem traceOut_two {M : ℕ} {g : ℕ → Side × Bool × Int} {X : FComp} (hX : X.WF M) (iX : IdOk g X.wires) (f ids : Nat → Nat) {modes oz ozc : List Int} (hne : modes ≠ [])
    (hn : modes.Nodup) (hm : ∀ m ∈ modes, Has X.wires .ket true m ∧ Has X.wires .bra true m) (hz : oz.Perm modes) (hzc : ozc.Perm modes) :
    ∃ Z, X.traceOut f ids modes oz ozc = some Z ∧ Z.WF M ∧ IdOk g Z.wires ∧
      (∀ s o m, Has Z.wires s o m ↔ Has X.wires s o m ∧ ¬ (o = true ∧ m ∈ modes)) ∧
      Z.ker = trKπ M modes.toFinset (fun m => oz.getD (ozc.idxOf m) 0) X.ker := by
  obtain ⟨L, hL⟩ : ∃ L, L = X.wires.sortedWires := ⟨_, rfl⟩
  have hLl : L.length = X.arr.shape.length := by rw [hL, length_sortedWires, hX.axes]
  have hrange : ∀ m ∈ modes, 0 ≤ m ∧ m < 20000 := by
    intro m hmm
    obtain ⟨w, hw, e⟩ := (hm m hmm).1
    simp only [Wire.slot, Prod.mk.injEq] at e
    rw [← e.2.2]
    exact hX.good.inRange w hw
  obtain ⟨dB, rB⟩ := trWires_good ids hn hrange
  have hcons : ∀ w ∈ (trWires modes ids).ws, w.isOut = false ∧ Has X.wires w.side true w.mode := by
    intro w hw
    obtain ⟨h1, h2, h3⟩ := trWires_mem hw
    refine ⟨h2, ?_⟩
    cases hs : w.side with
    | ket => exact (hm _ h3).1
    | bra => exact (hm _ h3).2
    | classical => exact absurd hs h1
  obtain ⟨R, hR, gR, hRh⟩ := matmul_consumed hX.good.distinct hX.good.inRange dB rB hcons
  obtain ⟨perm, hperm⟩ := matmul_quantum hX.quantum (fun w hw => (trWires_mem hw).1) hR
  have noCl : ∀ o m, ¬ Has X.wires .classical o m := no_classical hX.quantum
  have hRh' : ∀ s o m, Has R s o m ↔ Has X.wires s o m ∧ ¬ (o = true ∧ m ∈ modes) := by
    intro s o m
    rw [hRh, trWires_has]
    constructor
    · rintro ⟨h1, h2⟩
      refine ⟨h1, fun h => h2 ⟨h.1, ?_, rfl, h.2⟩⟩
      rintro rfl
      exact noCl _ _ h1
    · rintro ⟨h1, h2⟩
      exact ⟨h1, fun h => h2 ⟨h.1, h.2.2.2⟩⟩
  -- positions
  have posz : ∀ s, (s = .ket ∨ s = .bra) → ∀ m ∈ modes, ∃ w, L[w.index]? = some w ∧ w.slot = (s, true, m) ∧ w ∈ X.wires.ws ∧
      (Wires.getModes ⟨X.wires.output.ws.filter fun w => w.side == s⟩ [m]).indices.headD 0 = w.index := by
    intro s hs m hmm
    rw [hL]
    refine idx_spec hX.good ?_
    rcases hs with rfl | rfl
    · exact (hm m hmm).1
    · exact (hm m hmm).2
  obtain ⟨z, hzd⟩ : ∃ z, z = idxOf X.wires.output.ket oz := ⟨_, rfl⟩
  obtain ⟨zc, hzcd⟩ : ∃ zc, zc = idxOf X.wires.output.bra ozc := ⟨_, rfl⟩
  have hzget : ∀ (t : ℕ) (m : Int), oz[t]? = some m → ∃ w : Wire, L[w.index]? = some w ∧ w.slot = (.ket, true, m) ∧ w ∈ X.wires.ws ∧ z[t]? = some w.index := by
    intro t m ht
    obtain ⟨w, h1, h2, h3, h4⟩ := posz .ket (Or.inl rfl) m (hz.mem_iff.mp (List.mem_of_getElem? ht))
    refine ⟨w, h1, h2, h3, ?_⟩
    rw [hzd]
    unfold idxOf
    rw [List.getElem?_map, ht, Option.map_some]
    exact congrArg some h4
  have hzcget : ∀ (t : ℕ) (m : Int), ozc[t]? = some m → ∃ w : Wire, L[w.index]? = some w ∧ w.slot = (.bra, true, m) ∧ w ∈ X.wires.ws ∧ zc[t]? = some w.index := by
    intro t m ht
    obtain ⟨w, h1, h2, h3, h4⟩ := posz .bra (Or.inr rfl) m (hzc.mem_iff.mp (List.mem_of_getElem? ht))
    refine ⟨w, h1, h2, h3, ?_⟩
    rw [hzcd]
    unfold idxOf
    rw [List.getElem?_map, ht, Option.map_some]
    exact congrArg some h4
  have lz : z.length = oz.length := by rw [hzd]; simp [idxOf]
  have lzc : zc.length = ozc.length := by rw [hzcd]; simp [idxOf]
  have memz : ∀ j : ℕ, j ∈ z ↔ ∃ w : Wire, L[j]? = some w ∧ w.side = .ket ∧ w.isOut = true ∧ w.mode ∈ modes := by
    intro j
    constructor
    · intro hj
      obtain ⟨t, ht⟩ := List.mem_iff_getElem?.mp hj
      have htl : t < oz.length := by rw [← lz]; exact (List.getElem?_eq_some_iff.mp ht).1
      obtain ⟨w, h1, h2, h3, h4⟩ := hzget t oz[t] (List.getElem?_eq_getElem htl)
      rw [ht] at h4
      cases h4
      simp only [Wire.slot, Prod.mk.injEq] at h2
      exact ⟨w, h1, h2.1, h2.2.1, h2.2.2 ▸ hz.mem_iff.mp (List.getElem_mem htl)⟩
    · rintro ⟨w, h1, h2, h3, h4⟩
      obtain ⟨t, ht⟩ := List.mem_iff_getElem?.mp (hz.mem_iff.mpr h4)
      obtain ⟨w', k1, k2, k3, k4⟩ := hzget t _ ht
      have hw : w ∈ X.wires.ws := mem_sortedWires.mp (hL ▸ List.mem_of_getElem? h1)
      have : w' = w := hX.good.distinct.inj k3 hw (by rw [k2]; simp [Wire.slot, h2, h3])
      subst this
      have hj := (hX.good.index_of_getElem? (hL ▸ h1)).2
      rw [← hj]
      exact List.mem_of_getElem? k4
  have memzc : ∀ j : ℕ, j ∈ zc ↔ ∃ w : Wire, L[j]? = some w ∧ w.side = .bra ∧ w.isOut = true ∧ w.mode ∈ modes := by
    intro j
    constructor
    · intro hj
      obtain ⟨t, ht⟩ := List.mem_iff_getElem?.mp hj
      have htl : t < ozc.length := by rw [← lzc]; exact (List.getElem?_eq_some_iff.mp ht).1
      obtain ⟨w, h1, h2, h3, h4⟩ := hzcget t ozc[t] (List.getElem?_eq_getElem htl)
      rw [ht] at h4
      cases h4
      simp only [Wire.slot, Prod.mk.injEq] at h2
      exact ⟨w, h1, h2.1, h2.2.1, h2.2.2 ▸ hzc.mem_iff.mp (List.getElem_mem htl)⟩
    · rintro ⟨w, h1, h2, h3, h4⟩
      obtain ⟨t, ht⟩ := List.mem_iff_getElem?.mp (hzc.mem_iff.mpr h4)
      obtain ⟨w', k1, k2, k3, k4⟩ := hzcget t _ ht
      have hw : w ∈ X.wires.ws := mem_sortedWires.mp (hL ▸ List.mem_of_getElem? h1)
      have : w' = w := hX.good.distinct.inj k3 hw (by rw [k2]; simp [Wire.slot, h2, h3])
      subst this
      have hj := (hX.good.index_of_getElem? (hL ▸ h1)).2
      rw [← hj]
      exact List.mem_of_getElem? k4
  have hnz : z.Nodup := by
    rw [List.nodup_iff_injective_getElem] 
    intro a b hab
    have h1 := hzget a.1 _ (List.getElem?_eq_getElem (lz ▸ a.2))
    have h2 := hzget b.1 _ (List.getElem?_eq_getElem (lz ▸ b.2))
    obtain ⟨w, p1, p2, p3, p4⟩ := h1
    obtain ⟨w', q1, q2, q3, q4⟩ := h2
    rw [List.getElem?_eq_getElem a.2] at p4
    rw [List.getElem?_eq_getElem b.2] at q4
    have : w.index = w'.index := by
      rw [← Option.some.inj p4, ← Option.some.inj q4]
      exact hab
    rw [this, q1] at p1
    cases p1
    rw [p2] at q2
    simp only [Prod.mk.injEq, true_and] at q2
    exact Fin.ext ((List.Nodup.getElem_inj_iff (hz.nodup_iff.mpr hn)).mp q2)
  have hnzc : zc.Nodup := by
    rw [List.nodup_iff_injective_getElem] 
    intro a b hab
    have h1 := hzcget a.1 _ (List.getElem?_eq_getElem (lzc ▸ a.2))
    have h2 := hzcget b.1 _ (List.getElem?_eq_getElem (lzc ▸ b.2))
    obtain ⟨w, p1, p2, p3, p4⟩ := h1
    obtain ⟨w', q1, q2, q3, q4⟩ := h2
    rw [List.getElem?_eq_getElem a.2] at p4
    rw [List.getElem?_eq_getElem b.2] at q4
    have : w.index = w'.index := by
      rw [← Option.some.inj p4, ← Option.some.inj q4]
      exact hab
    rw [this, q1] at p1
    cases p1
    rw [p2] at q2
    simp only [Prod.mk.injEq, true_and] at q2
    exact Fin.ext ((List.Nodup.getElem_inj_iff (hzc.nodup_iff.mpr hn)).mp q2)
  have hdisj : ∀ i ∈ z, i ∉ zc := by
    intro i h1 h2
    obtain ⟨w, a1, a2, _⟩ := (memz i).mp h1
    obtain ⟨w', b1, b2, _⟩ := (memzc i).mp h2
    rw [a1] at b1
    cases b1
    rw [a2] at b2
    cases b2
  have hall : (z ++ zc).Nodup := List.nodup_append.mpr ⟨hnz, hnzc, fun a ha b hb e => hdisj a ha (e ▸ hb)⟩
  have hcore : X.arr.core = X.arr.shape := by simp [Arr.core, hX.batch]
  have hbatch : X.arr.batch = [] := by simp [Arr.batch, hX.batch]
  have wfX : X.arr.WF := by simp [Arr.WF, hX.batch]
  have hlt : ∀ i ∈ z ++ zc, i < X.arr.core.length := by
    intro i hi
    rw [hcore, ← hLl]
    rcases List.mem_append.mp hi with h | h
    · obtain ⟨w, a1, _⟩ := (memz i).mp h
      exact (List.getElem?_eq_some_iff.mp a1).1
    · obtain ⟨w, a1, _⟩ := (memzc i).mp h
      exact (List.getElem?_eq_some_iff.mp a1).1
  have hll : z.length = zc.length := by rw [lz, lzc, hz.length_eq, hzc.length_eq]
  have hzne : z ≠ [] := by
    intro h0
    rw [h0, List.length_nil] at lz
    have := hz.length_eq
    rw [← lz] at this
    exact hne (List.length_eq_zero_iff.mp this.symm)
  obtain ⟨r, hr, rb, rbatch, rcore, rget⟩ := Arr.C49_trace X.arr wfX z zc hll hzne hall hlt
  rw [hX.batch] at rb
  have rshape : r.shape = (X.arr.rest z zc).map (X.arr.shape.getD · 0) := by
    rw [← hcore, ← rcore]
    simp [Arr.core, rb]
  -- the axes that are kept
  have tr : ∀ (j : ℕ) (w : Wire), L[j]? = some w → ((j ∈ z ∨ j ∈ zc) ↔ traced modes w = true) := by
    intro j w hw
    have hwX : w ∈ X.wires.ws := mem_sortedWires.mp (hL ▸ List.mem_of_getElem? hw)
    rw [memz, memzc]
    unfold traced
    rw [Bool.and_eq_true, decide_eq_true_eq]
    constructor
    · rintro (⟨w', a1, a2, a3, a4⟩ | ⟨w', a1, a2, a3, a4⟩)
      · rw [hw] at a1; cases a1; exact ⟨a3, a4⟩
      · rw [hw] at a1; cases a1; exact ⟨a3, a4⟩
    · rintro ⟨h1, h2⟩
      cases hs : w.side with
      | ket => exact Or.inl ⟨w, hw, hs, h1, h2⟩
      | bra => exact Or.inr ⟨w, hw, hs, h1, h2⟩
      | classical => exact absurd hs (hX.quantum w hwX)
  obtain ⟨rest, hrest⟩ : ∃ rest, rest = X.arr.rest z zc := ⟨_, rfl⟩
  have restE : rest = (List.range L.length).filter fun j => !traced modes (L.getD j default) := by
    rw [hrest]
    unfold Arr.rest
    rw [hcore, ← hLl]
    refine List.filter_congr fun j hj => ?_
    rw [List.mem_range] at hj
    have := tr j L[j] (List.getElem?_eq_getElem hj)
    have e : L.getD j default = L[j] := by simp [List.getD_eq_getElem?_getD, List.getElem?_eq_getElem hj]
    rw [e]
    by_cases hh : traced modes L[j] = true
    · rw [hh]
      have := this.mpr hh
      simpa [or_iff_not_imp_left] using this
    · rw [Bool.not_eq_true] at hh
      have h2 : ¬ (j ∈ z ∨ j ∈ zc) := fun h => by
        have := this.mp h
        rw [hh] at this
        cases this
      rw [hh]
      simpa using h2
  have restMap : rest.map (fun j => L.getD j default) = L.filter fun w => !traced modes w := by
    rw [restE]
    exact filter_range_map L default fun w => !traced modes w
  have Rslots : R.sortedWires.map Wire.slot = (L.filter fun w => !traced modes w).map Wire.slot := by
    refine slots_eq gR ?_ ?_
    · rw [List.pairwise_map]
      exact List.Pairwise.filter _ (hL ▸ sortedWires_stdLt hX.good.distinct hX.good.inRange)
    · intro s o m
      rw [hRh', List.mem_map]
      constructor
      · rintro ⟨w, hw, e⟩
        rw [List.mem_filter] at hw
        refine ⟨⟨w, mem_sortedWires.mp (hL ▸ hw.1), e⟩, ?_⟩
        rintro ⟨rfl, hmm⟩
        simp only [Wire.slot, Prod.mk.injEq] at e
        simp [traced, e.2.1, e.2.2, hmm] at hw
      · rintro ⟨⟨w, hw, e⟩, h2⟩
        refine ⟨w, List.mem_filter.mpr ⟨hL ▸ mem_sortedWires.mpr hw, ?_⟩, e⟩
        simp only [Wire.slot, Prod.mk.injEq] at e
        simp only [traced, e.2.1, e.2.2, Bool.not_eq_true', Bool.and_eq_false_iff, decide_eq_false_iff_not]
        by_cases ho : o = true
        · exact Or.inr fun hmm => h2 ⟨ho, hmm⟩
        · exact Or.inl (by simpa using ho)
  have Rvals : ∀ o i, R.sortedWires.map (slotVal o i) = rest.map fun j => slotVal o i (L.getD j default) := by
    intro o i
    have e := congrArg (List.map (sv o i)) Rslots
    rw [List.map_map, List.map_map, ← restMap, List.map_map] at e
    exact e
  have hk : X.traceOut f ids modes oz ozc = some ⟨R, r⟩ := by
    obtain ⟨m, hmm⟩ := List.exists_mem_of_ne_nil _ hne
    unfold FComp.traceOut
    dsimp only
    rw [if_neg (by rw [trWires_nil]; exact hne), if_neg, ← hzd, ← hzcd, hr, hperm]
    · rfl
    · rw [not_or]
      exact ⟨ws_ne_nil (hm m hmm).1, ws_ne_nil (hm m hmm).2⟩
  have hrl : r.shape.length = R.len := by
    have := congrArg List.length (Rvals (fun _ => 0) fun _ => 0)
    rw [List.length_map, List.length_map, length_sortedWires] at this
    rw [rshape, List.length_map, ← hrest, this]
  have hdim : ∀ d ∈ r.shape, d ≤ M := by
    intro d hd
    rw [rshape, List.mem_map] at hd
    obtain ⟨j, _, rfl⟩ := hd
    exact getD_le hX.dims _
  obtain ⟨wfZ, iZ⟩ := traced_wf hX iX hcons hR gR rb hrl hdim
  refine ⟨⟨R, r⟩, hk, wfZ, iZ, hRh', Ker.ext' ?_ ?_ ?_⟩
  · ext ⟨s, m⟩
    show _ ↔ (s, m) ∈ X.ker.outs.filter fun c => c.2 ∉ modes.toFinset
    rw [FComp.mem_outs, Finset.mem_filter, FComp.mem_outs, List.mem_toFinset]
    show Has R s true m ↔ _
    rw [hRh']
    simp
  · ext ⟨s, m⟩
    show _ ↔ (s, m) ∈ X.ker.ins
    rw [FComp.mem_ins, FComp.mem_ins]
    show Has R s false m ↔ _
    rw [hRh']
    simp
  intro o i
  show r.entry (R.sortedWires.map (slotVal o i)) = tot M modes.toFinset fun y => X.arr.entry (X.wires.sortedWires.map
    (slotVal (fun c => if c.2 ∈ modes.toFinset then (if c.1 = .bra then y (oz.getD (ozc.idxOf c.2) 0) else y c.2) else o c) i))
  rw [← hL]
  obtain ⟨κ, hκ⟩ : ∃ κ, κ = R.sortedWires.map (slotVal o i) := ⟨_, rfl⟩
  rw [← hκ]
  have lκ : κ.length = rest.length := by rw [hκ, Rvals, List.length_map]
  -- the sum
  have hoz : modes.toFinset = oz.toFinset := by
    ext m
    rw [List.mem_toFinset, List.mem_toFinset, hz.mem_iff]
  have step : r.entry κ = nsum (List.replicate oz.length M) fun μ => X.arr.entry (X.arr.place z zc μ κ) := by
    have plen : ∀ μ, (X.arr.place z zc μ κ).length = X.arr.shape.length := by
      intro μ
      simp [Arr.place, hcore]
    obtain ⟨dims, hdims⟩ : ∃ dims, dims = List.zipWith (fun i j => min (X.arr.core.getD i 0) (X.arr.core.getD j 0)) z zc := ⟨_, rfl⟩
    have ldims : dims.length = oz.length := by rw [hdims, List.length_zipWith, ← hll, min_self, lz]
    have pget : ∀ μ j, j < X.arr.shape.length → (X.arr.place z zc μ κ).getD j 0 =
        if j ∈ z then μ.getD (z.idxOf j) 0 else if j ∈ zc then μ.getD (zc.idxOf j) 0 else κ.getD (rest.idxOf j) 0 := by
      intro μ j hj
      unfold Arr.place
      rw [List.getD_eq_getElem?_getD, List.getElem?_map, List.getElem?_range (by rw [hcore]; exact hj), hrest]
      rfl
    have key : ∀ μ, μ.length = oz.length → (InB X.arr.shape (X.arr.place z zc μ κ) ↔ InB r.shape κ ∧ InB dims μ) := by
      intro μ hμ
      have dget : ∀ t (h1 : t < z.length) (h2 : t < zc.length), dims.getD t 0 = min (X.arr.shape.getD z[t] 0) (X.arr.shape.getD zc[t] 0) := by
        intro t h1 h2
        rw [hdims, List.getD_eq_getElem?_getD, List.getElem?_zipWith, List.getElem?_eq_getElem h1, List.getElem?_eq_getElem h2, hcore]
        rfl
      rw [Arr.inB_iff_getD, Arr.inB_iff_getD, Arr.inB_iff_getD]
      constructor
      · rintro ⟨_, h⟩
        refine ⟨⟨?_, ?_⟩, ?_, ?_⟩
        · rw [lκ, rshape, List.length_map, hrest]
        · intro t ht
          rw [rshape, List.length_map, ← hrest] at ht
          have hmem : rest[t] ∈ rest := List.getElem_mem ht
          have memrest : ∀ j ∈ rest, j < X.arr.shape.length ∧ j ∉ z ∧ j ∉ zc := by
            intro j hj
            refine ⟨?_, ?_⟩
            · rw [restE, List.mem_filter, List.mem_range, hLl] at hj
              exact hj.1
            · rw [hrest] at hj
              unfold Arr.rest at hj
              rw [List.mem_filter, decide_eq_true_eq, List.mem_append, not_or] at hj
              exact hj.2
          obtain ⟨hlt', hnot⟩ := memrest _ hmem
          have := h rest[t] hlt'
          rw [pget μ _ hlt', if_neg hnot.1, if_neg hnot.2] at this
          have hnr : rest.Nodup := by rw [restE]; exact List.nodup_range.filter _
          rw [List.Nodup.idxOf_getElem hnr] at this
          rw [rshape, ← hrest, List.getD_eq_getElem?_getD (l := rest.map _), List.getElem?_map, List.getElem?_eq_getElem ht]
          exact this
        · rw [hμ, ldims]
        · intro t ht
          rw [ldims, ← lz] at ht
          have ht2 : t < zc.length := hll ▸ ht
          rw [dget t ht ht2, lt_min_iff]
          have m1 : z[t] ∈ z := List.getElem_mem ht
          have m2 : zc[t] ∈ zc := List.getElem_mem ht2
          have l1 := hlt _ (List.mem_append_left _ m1)
          have l2 := hlt _ (List.mem_append_right _ m2)
          rw [hcore] at l1 l2
          have h1 := h _ l1
          have h2 := h _ l2
          rw [pget μ _ l1, if_pos m1, List.Nodup.idxOf_getElem hnz] at h1
          rw [pget μ _ l2, if_neg (fun hh => hdisj _ hh m2), if_pos m2, List.Nodup.idxOf_getElem hnzc] at h2
          exact ⟨h1, h2⟩
      · rintro ⟨⟨_, h1⟩, _, h2⟩
        refine ⟨plen μ, fun j hj => ?_⟩
        rw [pget μ j hj]
        by_cases a1 : j ∈ z
        · rw [if_pos a1]
          have ht : z.idxOf j < z.length := List.idxOf_lt_length_iff.mpr a1
          have := h2 (z.idxOf j) (by rw [ldims, ← lz]; exact ht)
          rw [dget _ ht (hll ▸ ht), lt_min_iff, List.getElem_idxOf ht] at this
          exact this.1
        · rw [if_neg a1]
          by_cases a2 : j ∈ zc
          · rw [if_pos a2]
            have ht : zc.idxOf j < zc.length := List.idxOf_lt_length_iff.mpr a2
            have := h2 (zc.idxOf j) (by rw [ldims, ← lz, hll]; exact ht)
            rw [dget _ (hll ▸ ht) ht, lt_min_iff, List.getElem_idxOf ht] at this
            exact this.2
          · rw [if_neg a2]
            have hmem : j ∈ rest := by
              rw [hrest]
              unfold Arr.rest
              rw [List.mem_filter, List.mem_range, hcore]
              exact ⟨hj, by simp [a1, a2]⟩
            have ht : rest.idxOf j < rest.length := List.idxOf_lt_length_iff.mpr hmem
            have := h1 (rest.idxOf j) (by rw [rshape, List.length_map, ← hrest]; exact ht)
            rw [rshape, ← hrest, List.getD_eq_getElem?_getD (l := rest.map _), List.getElem?_map, List.getElem?_eq_getElem ht, List.getElem_idxOf ht] at this
            exact this
    have hle : List.Forall₂ (· ≤ ·) dims (List.replicate oz.length M) := by
      rw [List.forall₂_iff_get]
      refine ⟨by rw [ldims, List.length_replicate], fun t h1 h2 => ?_⟩
      have hd : dims.getD t 0 ≤ M := by
        have ht : t < z.length := by rw [lz, ← ldims]; exact h1
        rw [hdims, List.getD_eq_getElem?_getD, List.getElem?_zipWith, List.getElem?_eq_getElem ht, List.getElem?_eq_getElem (hll ▸ ht)]
        exact (min_le_left _ _).trans (by rw [hcore]; exact getD_le hX.dims _)
      rw [List.getD_eq_getElem?_getD, List.getElem?_eq_getElem h1] at hd
      simpa using hd
    by_cases hin : InB r.shape κ
    · rw [Arr.entry_of_inB hin]
      have := rget [] κ (by rw [hX.batch]; rfl) (by rw [lκ, hrest])
      rw [List.nil_append] at this
      rw [this, ← hdims, ← nsum_pad hle]
      refine nsum_congr fun μ hμ => ?_
      have lμ : μ.length = oz.length := by rw [inB_length hμ, List.length_replicate]
      by_cases hd : InB dims μ
      · rw [if_pos (inb_iff.mpr hd), List.nil_append, Arr.entry_of_inB ((key μ lμ).mpr ⟨hin, hd⟩)]
      · rw [if_neg (fun h => hd (inb_iff.mp h)), Arr.entry_of_not fun h => hd ((key μ lμ).mp h).2]
    · rw [Arr.entry_of_not hin]
      have nz : ∀ F : List ℕ → ℂ, (∀ μ, InB (List.replicate oz.length M) μ → F μ = 0) → nsum (List.replicate oz.length M) F = 0 := by
        intro F hF
        rw [nsum_congr (G := fun k => 0 * F k) (by intro k hk; rw [hF k hk, zero_mul]), nsum_mul_left, zero_mul]
      refine (nz _ ?_).symm
      intro μ hμ
      have lμ : μ.length = oz.length := by rw [inB_length hμ, List.length_replicate]
      exact Arr.entry_of_not fun h => hin ((key μ lμ).mp h).1
  rw [step, nsum_tot M oz (hz.nodup_iff.mpr hn), ← hoz]
  refine tot_congr fun y _ _ => congrArg _ ?_
  -- the index
  apply List.ext_getElem?
  intro j
  by_cases hj : j < L.length
  · have hj' : j < X.arr.core.length := by rw [hcore, ← hLl]; exact hj
    unfold Arr.place
    rw [List.getElem?_map, List.getElem?_range hj', List.getElem?_map, List.getElem?_eq_getElem hj, Option.map_some, Option.map_some]
    refine congrArg some ?_
    have hLj : L[j]? = some L[j] := List.getElem?_eq_getElem hj
    have hwX : L[j] ∈ X.wires.ws := mem_sortedWires.mp (hL ▸ List.getElem_mem hj)
    by_cases a1 : j ∈ z
    · rw [if_pos a1]
      obtain ⟨w, b1, b2, b3, b4⟩ := (memz j).mp a1
      rw [hLj] at b1
      cases b1
      have ht : z.idxOf j < z.length := List.idxOf_lt_length_iff.mpr a1
      have ht' : z.idxOf j < oz.length := lz ▸ ht
      obtain ⟨w, c1, c2, c3, c4⟩ := hzget (z.idxOf j) oz[z.idxOf j] (List.getElem?_eq_getElem ht')
      rw [List.getElem?_eq_getElem ht, List.getElem_idxOf ht] at c4
      have : j = w.index := Option.some.inj c4
      rw [← this, hLj] at c1
      have hwm : w.mode = oz[z.idxOf j] := congrArg (fun t => t.2.2) c2
      rw [← Option.some.inj c1] at hwm
      unfold slotVal wchan
      rw [if_pos b3]
      dsimp only
      rw [if_pos (List.mem_toFinset.mpr b4), if_neg (by rw [b2]; simp), List.getD_eq_getElem?_getD, List.getElem?_map, List.getElem?_eq_getElem ht', ← hwm]
      rfl
    · rw [if_neg a1]
      by_cases a2 : j ∈ zc
      · rw [if_pos a2]
        obtain ⟨w, b1, b2, b3, b4⟩ := (memzc j).mp a2
        rw [hLj] at b1
        cases b1
        have ht : zc.idxOf j < zc.length := List.idxOf_lt_length_iff.mpr a2
        have ht' : zc.idxOf j < ozc.length := lzc ▸ ht
        have ht2 : zc.idxOf j < oz.length := by rw [← lz, hll]; exact ht
        obtain ⟨w, c1, c2, c3, c4⟩ := hzcget (zc.idxOf j) ozc[zc.idxOf j] (List.getElem?_eq_getElem ht')
        rw [List.getElem?_eq_getElem ht, List.getElem_idxOf ht] at c4
        have : j = w.index := Option.some.inj c4
        rw [← this, hLj] at c1
        have hwm : w.mode = ozc[zc.idxOf j] := congrArg (fun t => t.2.2) c2
        rw [← Option.some.inj c1] at hwm
        unfold slotVal wchan
        rw [if_pos b3]
        dsimp only
        have hi : ozc.idxOf (ozc[zc.idxOf j]) = zc.idxOf j := List.Nodup.idxOf_getElem (hzc.nodup_iff.mpr hn) _ _
        rw [if_pos (List.mem_toFinset.mpr b4), if_pos b2, hwm, hi, List.getD_eq_getElem?_getD, List.getElem?_map, List.getD_eq_getElem?_getD,
          List.getElem?_eq_getElem ht2]
        rfl
      · rw [if_neg a2]
        have hnt : ¬ traced modes L[j] = true := fun h => ((tr j _ hLj).mpr h).elim a1 a2
        have hmem : j ∈ rest := by
          rw [restE, List.mem_filter, List.mem_range]
          refine ⟨hj, ?_⟩
          have e : L.getD j default = L[j] := by simp [List.getD_eq_getElem?_getD, hLj]
          rw [e]
          simpa using hnt
        have ht : rest.idxOf j < rest.length := List.idxOf_lt_length_iff.mpr hmem
        rw [← hrest, hκ, Rvals, List.getD_eq_getElem?_getD, List.getElem?_map, List.getElem?_eq_getElem ht, List.getElem_idxOf ht, Option.map_some, Option.getD_some]
        have e : L.getD j default = L[j] := by simp [List.getD_eq_getElem?_getD, hLj]
        rw [e]
        unfold slotVal wchan
        by_cases ho : L[j].isOut = true
        · rw [if_pos ho, if_pos ho]
          dsimp only
          rw [if_neg]
          rw [List.mem_toFinset]
          intro hmm
          exact hnt (by simp [traced, ho, hmm])
        · rw [if_neg ho, if_neg ho]
  · rw [List.getElem?_eq_none (by simp [Arr.place, hcore, ← hLl]; omega), List.getElem?_eq_none (by simp; omega)]

end Verif.CompV
