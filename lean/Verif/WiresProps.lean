import Verif.WiresMatmul3

/-!
# Properties C01–C05, C07: wires
-/

namespace Verif.WireModel

/-! ## C01 standard order -/

/-- **C01** Listing the wires of any object with distinct slots and modes in `[0, 20000)` yields all
of them, each once, in the strict standard order; and this list is the only such list, so the iteration
order of the underlying Python set is not observable. -/
theorem C01_sorted_standard (W : Wires) (hd : Distinct W) (hr : InRange W) :
    W.sortedWires.Perm W.ws ∧ W.sortedWires.Pairwise StdLt ∧
      ∀ l : List Wire, l.Perm W.ws → l.Pairwise StdLt → l = W.sortedWires :=
  ⟨sortedWires_perm W, sortedWires_stdLt hd hr, fun _ hp hl =>
    perm_stdLt_unique (hp.trans (sortedWires_perm W).symm) hl (sortedWires_stdLt hd hr)⟩

/-- **C01** A freshly constructed `Wires` object has exactly the requested wires, and its indices in
standard order are `0, …, n-1`. -/
theorem C01_constructor (ob ib ok ik co ci : List Int) (ids : Nat → Nat)
    (h1 : ob.Nodup) (h2 : ib.Nodup) (h3 : ok.Nodup) (h4 : ik.Nodup) (h5 : co.Nodup) (h6 : ci.Nodup)
    (hr : ∀ m ∈ ob ++ ib ++ ok ++ ik ++ co ++ ci, 0 ≤ m ∧ m < 20000) :
    Good (Wires.mk6 ob ib ok ik co ci ids) ∧
      (Wires.mk6 ob ib ok ik co ci ids).indices =
        List.range (ob.length + ib.length + ok.length + ik.length + co.length + ci.length) ∧
      ∀ s o m, Has (Wires.mk6 ob ib ok ik co ci ids) s o m ↔
        m ∈ (match s, o with
          | .bra, true => ob | .bra, false => ib | .ket, true => ok | .ket, false => ik
          | .classical, true => co | .classical, false => ci) := by
  have hp := mk6_pairwise (ids := ids) h1 h2 h3 h4 h5 h6
  have hd := distinct_of_pairwise hp
  have hrange : InRange (Wires.mk6 ob ib ok ik co ci ids) := by
    intro w hw
    have : Has (Wires.mk6 ob ib ok ik co ci ids) w.side w.isOut w.mode := ⟨w, hw, rfl⟩
    rw [mk6_slot] at this
    apply hr
    simp only [List.mem_append]
    revert this
    cases w.side <;> cases w.isOut <;> simp <;> tauto
  have hs := sortedWires_eq_self hp hd hrange
  have hi : Indexed (Wires.mk6 ob ib ok ik co ci ids) := by
    unfold Indexed Wires.indices
    rw [hs]; exact mk6_indices_range
  refine ⟨⟨hd, hrange, hi⟩, ?_, mk6_slot⟩
  rw [hi]
  congr 1
  simp [Wires.mk6, Wires.len, mkBlock]; omega

/-- **C01** The bound on modes is sharp: with a bra-out wire on mode 20000 and a bra-in wire on mode 0
the listing is not in standard order and the indices of the fresh object do not read `0, 1`. -/
theorem C01_bound_sharp :
    ∃ W : Wires, W = Wires.mk6 [20001] [0] [] [] [] [] id ∧ ¬ W.sortedWires.Pairwise StdLt ∧
      W.indices = [1, 0] := by
  refine ⟨_, rfl, ?_, ?_⟩ <;> decide

example : Good (Wires.mk6 [0, 1] [1, 2] [0, 13] [1, 2, 13] [] [] id) :=
  (C01_constructor [0, 1] [1, 2] [0, 13] [1, 2, 13] [] [] id (by decide) (by decide) (by decide)
    (by decide) (by decide) (by decide) (by decide)).1

/-! ## C04 adjoint and dual -/

/-- **C04** The adjoint exchanges bra and ket wires, the dual exchanges inputs and outputs; both
results are well-formed (indices `0, …, n-1` in standard order). -/
theorem C04_adjoint_dual_wires (W : Wires) (hd : Distinct W) (hr : InRange W) (f : Nat → Nat) :
    Good (W.adjoint f) ∧ Good (W.dual f) ∧
    (∀ o m, (Has (W.adjoint f) .ket o m ↔ Has W .bra o m) ∧ (Has (W.adjoint f) .bra o m ↔ Has W .ket o m)
      ∧ (Has (W.adjoint f) .classical o m ↔ Has W .classical o m)) ∧
    (∀ s m, (Has (W.dual f) s true m ↔ Has W s false m) ∧ (Has (W.dual f) s false m ↔ Has W s true m)) := by
  refine ⟨adjoint_good' hd hr f, dual_good' hd hr f, ?_, ?_⟩
  · have key : ∀ s o m, Has (W.adjoint f) s o m ↔ Has W s.swap o m := by
      intro s o m
      rw [adjoint_eq, has_reindex, has_iff_mem_slot, preAdj_slot, has_iff_mem_slot]
      simp only [List.mem_map]
      constructor
      · rintro ⟨t, ht, e⟩
        simp only [Prod.mk.injEq] at e
        obtain ⟨w, hw, rfl⟩ := ht
        exact ⟨w, hw, by rw [← e.1, ← show w.slot.2 = (o, m) from e.2]; simp⟩
      · rintro ⟨w, hw, e⟩
        exact ⟨w.slot, ⟨w, hw, rfl⟩, by rw [e]; simp⟩
    intro o m
    exact ⟨key .ket o m, key .bra o m, key .classical o m⟩
  · have key : ∀ s o m, Has (W.dual f) s o m ↔ Has W s (!o) m := by
      intro s o m
      rw [dual_eq, has_reindex, has_iff_mem_slot, preDual_slot, has_iff_mem_slot]
      simp only [List.mem_map]
      constructor
      · rintro ⟨t, ⟨w, hw, rfl⟩, e⟩
        simp only [Prod.mk.injEq] at e
        refine ⟨w, hw, ?_⟩
        rw [← e.1, ← e.2.1, ← e.2.2]; simp
      · rintro ⟨w, hw, e⟩
        exact ⟨w.slot, ⟨w, hw, rfl⟩, by rw [e]; simp⟩
    intro s m
    exact ⟨key s true m, key s false m⟩

/-- **C04** Adjoint and dual are involutions and commute, up to the random identifiers: the listing of
the wires with their indices and representations is the same. -/
theorem C04_involutions (W : Wires) (hW : Good W) (f g f' g' : Nat → Nat) :
    (((W.adjoint f).adjoint g).sortedWires.map Wire.noId = W.sortedWires.map Wire.noId) ∧
    (((W.dual f).dual g).sortedWires.map Wire.noId = W.sortedWires.map Wire.noId) ∧
    (((W.adjoint f).dual g).sortedWires.map Wire.noId =
      ((W.dual f').adjoint g').sortedWires.map Wire.noId) := by
  have ga := adjoint_good' hW.distinct hW.inRange f
  have gd := dual_good' hW.distinct hW.inRange f
  have gd' := dual_good' hW.distinct hW.inRange f'
  have gaa := adjoint_good' ga.distinct ga.inRange g
  have gdd := dual_good' gd.distinct gd.inRange g
  have gad := dual_good' ga.distinct ga.inRange g
  have gda := adjoint_good' gd'.distinct gd'.inRange g'
  refine ⟨noId_eq_of_core gaa.indexed hW.indexed ?_, noId_eq_of_core gdd.indexed hW.indexed ?_,
    noId_eq_of_core gad.indexed gda.indexed ?_⟩
  · apply sorted_core_eq gaa.distinct gaa.inRange hW.distinct hW.inRange
    refine (adjoint_core_perm _ g).trans (((adjoint_core_perm W f).map _).trans ?_)
    rw [List.map_map]
    refine List.Perm.of_eq ?_
    conv_rhs => rw [← List.map_id (W.ws.map Wire.core)]
    exact List.map_congr_left fun c _ => coreAdj_coreAdj c
  · apply sorted_core_eq gdd.distinct gdd.inRange hW.distinct hW.inRange
    refine (dual_core_perm _ g).trans (((dual_core_perm W f).map _).trans ?_)
    rw [List.map_map]
    refine List.Perm.of_eq ?_
    conv_rhs => rw [← List.map_id (W.ws.map Wire.core)]
    exact List.map_congr_left fun c _ => coreDual_coreDual c
  · apply sorted_core_eq gad.distinct gad.inRange gda.distinct gda.inRange
    refine (dual_core_perm _ g).trans (((adjoint_core_perm W f).map _).trans ?_)
    refine List.Perm.symm ((adjoint_core_perm _ g').trans (((dual_core_perm W f').map _).trans ?_))
    simp only [List.map_map]
    exact List.Perm.of_eq (List.map_congr_left fun c _ => coreAdj_coreDual _)

/-- **C04** The sub-views partition the wires: every wire is in exactly one of bra/ket/classical and
in exactly one of input/output. -/
theorem C04_partition (W : Wires) :
    (W.bra.ws ++ W.ket.ws ++ W.classical.ws).Perm W.ws ∧ (W.quantum.ws ++ W.classical.ws).Perm W.ws ∧
    (W.input.ws ++ W.output.ws).Perm W.ws := by
  refine ⟨?_, ?_, ?_⟩
  · have h1 : (W.bra.ws ++ W.ket.ws).Perm W.quantum.ws := by
      have := List.filter_append_perm (fun w : Wire => w.side == .bra) W.quantum.ws
      refine List.Perm.trans (List.Perm.of_eq ?_) this
      simp only [Wires.bra, Wires.ket, Wires.quantum, List.filter_filter]
      congr 1 <;> apply List.filter_congr <;> intro w _ <;> cases w.side <;> rfl
    refine (h1.append_right _).trans ?_
    have := List.filter_append_perm (fun w : Wire => w.side != .classical) W.ws
    refine List.Perm.trans (List.Perm.of_eq ?_) this
    simp only [Wires.classical, Wires.quantum]
    congr 1; apply List.filter_congr; intro w _; cases w.side <;> rfl
  · have := List.filter_append_perm (fun w : Wire => w.side != .classical) W.ws
    refine List.Perm.trans (List.Perm.of_eq ?_) this
    simp only [Wires.classical, Wires.quantum]
    congr 1; apply List.filter_congr; intro w _; cases w.side <;> rfl
  · have := List.filter_append_perm (fun w : Wire => !w.isOut) W.ws
    refine List.Perm.trans (List.Perm.of_eq ?_) this
    simp only [Wires.input, Wires.output]
    congr 1; apply List.filter_congr; intro w _; cases w.isOut <;> rfl

/-! ## C07 addition -/

/-- **C07** (partial) `A + B` raises `ValueError` exactly when some wire of `A` and some wire of `B`
have the same side, direction and mode, provided wires on the same side carry the same representation.
Missing: mixed representations, where it is false, see `C07_mixed_repr_false`. -/
theorem C07_add_rejects_overlap_partial (A B : Wires) (hs : SameRepr A B) :
    (A.add B = .error .valueError ↔ ∃ s o m, Has A s o m ∧ Has B s o m) ∧
    (¬ (∃ s o m, Has A s o m ∧ Has B s o m) → A.add B = .ok ⟨A.ws ++ B.ws⟩) := by
  have key : (∃ a ∈ A.ws, ∃ b ∈ B.ws, a.core = b.core) ↔ ∃ s o m, Has A s o m ∧ Has B s o m := by
    constructor
    · rintro ⟨a, ha, b, hb, e⟩
      exact ⟨a.side, a.isOut, a.mode, ⟨a, ha, rfl⟩, ⟨b, hb, (congrArg Prod.fst e).symm⟩⟩
    · rintro ⟨s, o, m, ⟨a, ha, ea⟩, ⟨b, hb, eb⟩⟩
      refine ⟨a, ha, b, hb, ?_⟩
      have hside : a.side = b.side := by
        have := congrArg Prod.fst (ea.trans eb.symm); exact this
      simp only [Wire.core, Prod.mk.injEq]
      exact ⟨ea.trans eb.symm, hs a ha b hb hside⟩
  rcases add_cases A B with ⟨h, e⟩ | ⟨h, e⟩
  · have hno : ¬ ∃ a ∈ A.ws, ∃ b ∈ B.ws, a.core = b.core := by
      rintro ⟨a, ha, b, hb, e⟩; exact h a ha b hb e
    rw [key] at hno
    refine ⟨⟨fun h => ?_, fun h => absurd h hno⟩, fun _ => e⟩
    rw [e] at h; cases h
  · rw [key] at h
    exact ⟨by rw [e]; exact ⟨fun _ => h, fun _ => rfl⟩, fun hn => absurd h hn⟩

/-- **C07** exact behaviour: `A + B` raises `ValueError` exactly when a wire of `A` and a wire of `B` agree in side, direction, mode and
representation, and otherwise has the wires of both. -/
theorem C07_add_exact (A B : Wires) :
    let Clash := ∃ a ∈ A.ws, ∃ b ∈ B.ws, a.side = b.side ∧ a.isOut = b.isOut ∧ a.mode = b.mode ∧ a.repr = b.repr
    (Clash → A.add B = .error .valueError) ∧ (¬ Clash → A.add B = .ok ⟨A.ws ++ B.ws⟩) := by
  have hc : ∀ a b : Wire, a.core = b.core ↔ a.side = b.side ∧ a.isOut = b.isOut ∧ a.mode = b.mode ∧ a.repr = b.repr := by
    intro a b; simp [Wire.core, Wire.slot, and_assoc]
  simp only [← hc]
  rcases add_cases A B with ⟨h, e⟩ | ⟨h, e⟩
  · exact ⟨fun ⟨a, ha, b, hb, h'⟩ => absurd h' (h a ha b hb), fun _ => e⟩
  · exact ⟨fun _ => e, fun hn => absurd h hn⟩

/-- **C07** The unrestricted claim is false: a Fock wire and a Bargmann wire in the same slot are added
without complaint, and the sum has two wires in one slot. -/
theorem C07_mixed_repr_false :
    ∃ A B R : Wires, Has A .ket true 0 ∧ Has B .ket true 0 ∧ A.add B = .ok R ∧ ¬ Distinct R := by
  refine ⟨⟨[⟨.ket, true, 0, 0, .bargmann, 1⟩]⟩, ⟨[⟨.ket, true, 0, 0, .fock, 2⟩]⟩,
    ⟨[⟨.ket, true, 0, 0, .bargmann, 1⟩, ⟨.ket, true, 0, 0, .fock, 2⟩]⟩, ?_, ?_, ?_, ?_⟩
  · decide
  · decide
  · rfl
  · decide

example : SameRepr (Wires.mk6 [] [] [0, 1] [] [] [] id) (Wires.mk6 [] [] [1] [2] [] [] id) := by decide

/-! ## C02 open wires of a composition -/

/-- **C02** `A @ B` produces wires iff no open wire would occur twice, and otherwise raises `ValueError`;
on success the open wires are exactly `out(B) ∪ (out(A) \ in(B))` and `in(A) ∪ (in(B) \ out(A))` on
each side, and the result is again well-formed. -/
theorem C02_matmul_open_wires (A B : Wires) (hA : Distinct A) (hB : Distinct B) (rA : InRange A)
    (rB : InRange B) (hs : SameRepr A B) :
    (Composable A B → ∃ R, matmulWires A B = .ok R ∧ Good R ∧ ∀ s m,
      (Has R s true m ↔ Has B s true m ∨ (Has A s true m ∧ ¬ Has B s false m)) ∧
      (Has R s false m ↔ Has A s false m ∨ (Has B s false m ∧ ¬ Has A s true m))) ∧
    (¬ Composable A B → matmulWires A B = .error .valueError) := by
  rcases matmulWires_cases A B with ⟨h, e⟩ | ⟨h, e⟩
  · rw [noConf_iff_composable hs] at h
    refine ⟨fun _ => ⟨_, e, ?_, ?_⟩, fun hn => absurd h hn⟩
    · rw [setOf_of_nodup (preMat_nodup hA hB h)]
      exact reindex_good (preMat_nodup hA hB h) (preMat_inRange rA rB)
    · intro s m
      rw [setOf_of_nodup (preMat_nodup hA hB h), has_reindex, has_reindex]
      constructor
      · constructor
        · rintro ⟨w, hw, ew⟩
          have e' := ew
          simp only [Wire.slot, Prod.mk.injEq] at e'
          rcases mem_preMat.1 hw with ⟨hw, hk⟩ | ⟨hw, hk⟩
          · right; refine ⟨⟨w, hw, ew⟩, ?_⟩
            have := hk e'.2.1
            rwa [e'.1, e'.2.2] at this
          · left; exact ⟨w, hw, ew⟩
        · rintro (⟨w, hw, ew⟩ | ⟨⟨w, hw, ew⟩, hn⟩)
          · have e' := ew
            simp only [Wire.slot, Prod.mk.injEq] at e'
            exact ⟨w, mem_preMat.2 (Or.inr ⟨hw, fun h => by simp [e'.2.1] at h⟩), ew⟩
          · have e' := ew
            simp only [Wire.slot, Prod.mk.injEq] at e'
            exact ⟨w, mem_preMat.2 (Or.inl ⟨hw, fun _ => by rw [e'.1, e'.2.2]; exact hn⟩), ew⟩
      · constructor
        · rintro ⟨w, hw, ew⟩
          have e' := ew
          simp only [Wire.slot, Prod.mk.injEq] at e'
          rcases mem_preMat.1 hw with ⟨hw, hk⟩ | ⟨hw, hk⟩
          · left; exact ⟨w, hw, ew⟩
          · right; refine ⟨⟨w, hw, ew⟩, ?_⟩
            have := hk e'.2.1
            rwa [e'.1, e'.2.2] at this
        · rintro (⟨w, hw, ew⟩ | ⟨⟨w, hw, ew⟩, hn⟩)
          · have e' := ew
            simp only [Wire.slot, Prod.mk.injEq] at e'
            exact ⟨w, mem_preMat.2 (Or.inl ⟨hw, fun h => by simp [e'.2.1] at h⟩), ew⟩
          · have e' := ew
            simp only [Wire.slot, Prod.mk.injEq] at e'
            exact ⟨w, mem_preMat.2 (Or.inr ⟨hw, fun _ => by rw [e'.1, e'.2.2]; exact hn⟩), ew⟩
  · rw [noConf_iff_composable hs] at h
    exact ⟨fun hc => absurd hc h, fun _ => e⟩

/-- A state on modes 0 and 1 and a gate on modes 1 and 2 compose. -/
example : ∃ R, matmulWires (Wires.mk6 [] [] [0, 1] [] [] [] id)
    (Wires.mk6 [] [] [1, 2] [1, 2] [] [] (· + 10)) = .ok R ∧ R.len = 4 := ⟨_, rfl, by decide⟩

/-- Two states on mode 0 do not. -/
example : matmulWires (Wires.mk6 [] [] [0] [] [] [] id) (Wires.mk6 [] [] [0] [] [] [] (· + 10)) =
    .error .valueError := by rfl

/-! ## C03 the permutation -/

/-- **C03** For operands with different wire identifiers and no classical/quantum clash among the
leftover wires, `A @ B` succeeds, and the returned `perm` is a permutation of the positions of the
leftover wires (those of `A` in standard order followed by those of `B`) which lists them in the standard
order of the result. -/
theorem C03_perm_standardises (A B : Wires) (hA : Distinct A) (hB : Distinct B) (rA : InRange A)
    (rB : InRange B) (hs : SameRepr A B) (hf : FreshIds A B) (hc : Composable A B)
    (hcl : NoClash (leftover A B)) :
    ∃ R perm, matmul A B = .ok (R, perm) ∧ Good R ∧
      perm.Perm (List.range (leftover A B).length) ∧
      R.sortedWires.map (fun w => some w.core) = perm.map (fun i => (leftover A B)[i]?.map Wire.core) ∧
      R.ids = perm.map (fun i => ((leftover A B)[i]?.map Wire.id).getD 0) := by
  have hn := preMat_nodup hA hB hc
  have hln := leftover_slot_nodup hA hB hc
  have hlp := leftover_perm_preMat hA hB hc
  rcases matmulWires_cases A B with ⟨_, e⟩ | ⟨h, _⟩
  swap
  · rw [noConf_iff_composable hs] at h; exact absurd hc h
  rw [setOf_of_nodup hn] at e
  have hgood : Good (Wires.reindex ⟨preMat A B⟩) := reindex_good hn (preMat_inRange rA rB)
  have hsrt : (Wires.reindex ⟨preMat A B⟩).sortedWires = (Wires.reindex ⟨preMat A B⟩).ws :=
    reindex_sorted hn (preMat_inRange rA rB)
  have hcomb := combined_eq_leftover hf hf.disjoint
  -- the sorted, un-reindexed list
  let srt := (⟨preMat A B⟩ : Wires).sortedWires
  have hsrtp : srt.Perm (leftover A B) := (sortedWires_perm _).trans hlp.symm
  have hmem : ∀ w ∈ srt, w ∈ leftover A B := fun w hw => hsrtp.mem_iff.1 hw
  have hws : (Wires.reindex ⟨preMat A B⟩).ws =
      srt.zipIdx.map (fun p => { p.1 with index := p.2 }) := rfl
  have hmapM : (Wires.reindex ⟨preMat A B⟩).sortedWires.mapM (indexOf (leftover A B)) =
      .ok (srt.map (fun w => (leftover A B).idxOf w)) := by
    rw [hsrt, hws]
    have : srt.map (fun w => (leftover A B).idxOf w) =
        srt.zipIdx.map (fun p => (leftover A B).idxOf p.1) :=
      (map_zipIdx_fst srt 0 (fun w => (leftover A B).idxOf w)).symm
    rw [this]
    have h2 : ∀ p ∈ srt.zipIdx, indexOf (leftover A B) ({ p.1 with index := p.2 } : Wire) =
        .ok ((leftover A B).idxOf p.1) := by
      intro p hp
      exact indexOf_of_noClash hcl hln (hmem _ (List.fst_mem_of_mem_zipIdx hp)) rfl
    have := mapM_ok_of_forall h2
    rw [← this, List.mapM_map]
    rfl
  refine ⟨_, srt.map (fun w => (leftover A B).idxOf w), ?_, hgood, ?_, ?_, ?_⟩
  · unfold matmul
    rw [e]
    simp only [bind, Except.bind, hcomb]
    rw [hmapM]
    rfl
  · have hnd : (leftover A B).Nodup := List.Nodup.of_map _ hln
    have h1 : (srt.map (fun w => (leftover A B).idxOf w)).Perm
        ((leftover A B).map (fun w => (leftover A B).idxOf w)) := hsrtp.map _
    refine h1.trans (List.Perm.of_eq ?_)
    apply List.ext_getElem (by simp)
    intro i h1 h2
    simp only [List.getElem_map, List.getElem_range]
    exact hnd.idxOf_getElem _ _
  · rw [hsrt, hws, List.map_map, List.map_map]
    refine (map_zipIdx_fst srt 0 (fun w => some w.core)).trans ?_
    apply List.map_congr_left
    intro w hw
    have hw' := hmem w hw
    have : (leftover A B)[(leftover A B).idxOf w]? = some w := by
      rw [List.getElem?_eq_getElem (List.idxOf_lt_length_of_mem hw')]
      simp
    simp [this]
  · unfold Wires.ids
    rw [hsrt, hws, List.map_map, List.map_map]
    refine (map_zipIdx_fst srt 0 (fun w => w.id)).trans ?_
    apply List.map_congr_left
    intro w hw
    have hw' := hmem w hw
    have : (leftover A B)[(leftover A B).idxOf w]? = some w := by
      rw [List.getElem?_eq_getElem (List.idxOf_lt_length_of_mem hw')]
      simp
    simp [this]

/-- A two-mode state into a gate on modes 1 and 2: the leftover wires are (ket-out 0 of the state),
(ket-out 1, ket-out 2, ket-in 2 of the gate), already in standard order. -/
example : (matmul (Wires.mk6 [] [] [0, 1] [] [] [] id)
    (Wires.mk6 [] [] [1, 2] [1, 2] [] [] (· + 10))).toOption.map (·.2) = some [0, 1, 2, 3] := by decide

example : (matmul (Wires.mk6 [] [] [1, 5] [1, 5] [] [] id)
    (Wires.mk6 [] [] [0, 1] [0, 1] [] [] (· + 10))).toOption.map (·.2) = some [3, 4, 0, 5, 1, 2] := by decide

/-- The restriction to different identifiers is needed: composing an object with itself (a component
used twice in a list) returns a `perm` that does not permute the two leftover wires
(input of the first, output of the second). -/
theorem C03_same_ids_wrong_perm :
    ∃ A R : Wires, Good A ∧ matmul A A = .ok (R, [0, 1]) ∧
      R.sortedWires.map Wire.core ≠ ((leftover A A).map Wire.core) ∧
      (combined A A R).length = 4 ∧ (leftover A A).length = 2 := by
  refine ⟨Wires.mk6 [] [] [0] [0] [] [] id, _, ⟨by decide, by decide, by decide⟩, rfl, by decide, by decide,
    by decide⟩

/-- The restriction on clashes is needed: a quantum and a classical open output on the same mode make
`list.index` raise `AttributeError`. -/
theorem C03_clash_crashes :
    ∃ A B : Wires, Good A ∧ Good B ∧ Composable A B ∧ FreshIds A B ∧ matmul A B = .error .attributeError := by
  refine ⟨Wires.mk6 [] [] [0] [] [] [] id, Wires.mk6 [] [] [] [] [0] [] (· + 10),
    ⟨by decide, by decide, by decide⟩, ⟨by decide, by decide, by decide⟩, ?_, by decide, by rfl⟩
  intro s m
  have h := C01_constructor [] [] [0] [] [] [] id (by decide) (by decide) (by decide) (by decide)
    (by decide) (by decide) (by decide)
  have h' := C01_constructor [] [] [] [] [0] [] (· + 10) (by decide) (by decide) (by decide) (by decide)
    (by decide) (by decide) (by decide)
  rw [h.2.2, h.2.2, h'.2.2, h'.2.2]
  cases s <;> simp

/-! ## C05 associativity -/

theorem assoc_prop (ao ai bo bi co ci abo abi bco bci ro ri ro' ri' : Prop)
    (w1 : (abo ↔ bo ∨ (ao ∧ ¬ bi)) ∧ (abi ↔ ai ∨ (bi ∧ ¬ ao)))
    (w2 : (ro ↔ co ∨ (abo ∧ ¬ ci)) ∧ (ri ↔ abi ∨ (ci ∧ ¬ abo)))
    (w3 : (bco ↔ co ∨ (bo ∧ ¬ ci)) ∧ (bci ↔ bi ∨ (ci ∧ ¬ bo)))
    (w4 : (ro' ↔ bco ∨ (ao ∧ ¬ bci)) ∧ (ri' ↔ ai ∨ (bci ∧ ¬ ao)))
    (c1 : ¬ (bo ∧ ao ∧ ¬ bi) ∧ ¬ (ai ∧ bi ∧ ¬ ao)) (_ : ¬ (co ∧ abo ∧ ¬ ci) ∧ ¬ (abi ∧ ci ∧ ¬ abo))
    (c3 : ¬ (co ∧ bo ∧ ¬ ci) ∧ ¬ (bi ∧ ci ∧ ¬ bo)) (_ : ¬ (bco ∧ ao ∧ ¬ bci) ∧ ¬ (ai ∧ bci ∧ ¬ ao)) :
    (ro ↔ ro') ∧ (ri ↔ ri') := by
  obtain ⟨w1a, w1b⟩ := w1
  obtain ⟨w2a, w2b⟩ := w2
  obtain ⟨w3a, w3b⟩ := w3
  obtain ⟨w4a, w4b⟩ := w4
  rw [w2a, w2b, w4a, w4b]
  rw [w1a, w1b] at *
  rw [w3a, w3b] at *
  by_cases ao <;> by_cases ai <;> by_cases bo <;> by_cases bi <;> by_cases co <;> by_cases ci <;> simp_all

/-- **C05** If both bracketings are accepted they have the same open wires. -/
theorem C05_matmul_assoc (A B C AB BC R R' : Wires) (hA : Distinct A) (hB : Distinct B) (hC : Distinct C)
    (rA : InRange A) (rB : InRange B) (rC : InRange C)
    (sAB : SameRepr A B) (sBC : SameRepr B C) (sAB' : SameRepr AB C) (sBC' : SameRepr A BC)
    (h1 : matmulWires A B = .ok AB) (h2 : matmulWires AB C = .ok R)
    (h3 : matmulWires B C = .ok BC) (h4 : matmulWires A BC = .ok R') :
    ∀ s o m, Has R s o m ↔ Has R' s o m := by
  have use : ∀ {X Y Z : Wires}, Distinct X → Distinct Y → InRange X → InRange Y → SameRepr X Y →
      matmulWires X Y = .ok Z → Composable X Y ∧ Good Z ∧ ∀ s m,
      (Has Z s true m ↔ Has Y s true m ∨ (Has X s true m ∧ ¬ Has Y s false m)) ∧
      (Has Z s false m ↔ Has X s false m ∨ (Has Y s false m ∧ ¬ Has X s true m)) := by
    intro X Y Z dX dY rX rY sXY h
    by_cases hc : Composable X Y
    · obtain ⟨R, e, g, hh⟩ := (C02_matmul_open_wires X Y dX dY rX rY sXY).1 hc
      rw [h] at e; cases e
      exact ⟨hc, g, hh⟩
    · have := (C02_matmul_open_wires X Y dX dY rX rY sXY).2 hc
      rw [h] at this; cases this
  obtain ⟨c1, g1, w1⟩ := use hA hB rA rB sAB h1
  obtain ⟨c2, g2, w2⟩ := use g1.distinct hC g1.inRange rC sAB' h2
  obtain ⟨c3, g3, w3⟩ := use hB hC rB rC sBC h3
  obtain ⟨c4, g4, w4⟩ := use hA g3.distinct rA g3.inRange sBC' h4
  intro s o m
  have c1' := c1 s m; have c2' := c2 s m; have c3' := c3 s m; have c4' := c4 s m
  have w1' := w1 s m; have w2' := w2 s m; have w3' := w3 s m; have w4' := w4 s m
  have := assoc_prop (Has A s true m) (Has A s false m) (Has B s true m) (Has B s false m)
    (Has C s true m) (Has C s false m) (Has AB s true m) (Has AB s false m) (Has BC s true m)
    (Has BC s false m) (Has R s true m) (Has R s false m) (Has R' s true m) (Has R' s false m)
    w1' w2' w3' w4' c1' c2' c3' c4'
  cases o
  · exact this.2
  · exact this.1

/-- **C05** Acceptance itself is not associative: a detector on mode 0 placed between two components
makes one bracketing valid and the other a `ValueError`. -/
theorem C05_acceptance_not_assoc :
    ∃ A B C AB R : Wires, Good A ∧ Good B ∧ Good C ∧ matmulWires A B = .ok AB ∧ matmulWires AB C = .ok R ∧
      matmulWires B C = .error .valueError := by
  refine ⟨Wires.mk6 [] [] [0] [] [] [] id, Wires.mk6 [] [] [] [0] [] [] (· + 10),
    Wires.mk6 [] [] [0] [0] [] [] (· + 20), _, _,
    ⟨by decide, by decide, by decide⟩, ⟨by decide, by decide, by decide⟩,
    ⟨by decide, by decide, by decide⟩, rfl, rfl, rfl⟩

/-- Both bracketings are accepted for a state, a gate and another gate. -/
example : ∃ AB R BC R', matmulWires (Wires.mk6 [] [] [0] [] [] [] id)
      (Wires.mk6 [] [] [0, 1] [0, 1] [] [] (· + 10)) = .ok AB ∧
    matmulWires AB (Wires.mk6 [] [] [1] [1] [] [] (· + 20)) = .ok R ∧
    matmulWires (Wires.mk6 [] [] [0, 1] [0, 1] [] [] (· + 10)) (Wires.mk6 [] [] [1] [1] [] [] (· + 20)) = .ok BC ∧
    matmulWires (Wires.mk6 [] [] [0] [] [] [] id) BC = .ok R' := ⟨_, _, _, _, rfl, rfl, rfl, rfl⟩

end Verif.WireModel
