import Verif.Component

/-!
# `contract` of Fock components composes the operators (C88)
-/

namespace Verif.CompV

open Verif.WireModel Verif.Arr Verif.Fock Verif.PolyExp

theorem le_foldr_max {l : List Nat} {n : Nat} (h : n ∈ l) : n ≤ l.foldr max 0 := by
  induction l with
  | nil => simp at h
  | cons a l ih =>
    rw [List.foldr_cons]
    rcases List.mem_cons.mp h with rfl | h
    · exact le_max_left _ _
    · exact (ih h).trans (le_max_right _ _)

theorem fresh_ids {A B : Wires} (hA : (A.ws.map Wire.id).Nodup) (hB : (B.ws.map Wire.id).Nodup) : FreshIds A (B.copyNew (freshId A)) := by
  unfold FreshIds
  rw [List.map_append, List.nodup_append]
  have e : (B.copyNew (freshId A)).ws.map Wire.id = (B.ws.map Wire.id).map (freshId A) := by
    simp only [Wires.copyNew, List.map_map]
    rfl
  rw [e]
  refine ⟨hA, hB.map fun a b h => by unfold freshId at h; omega, fun a ha b hb => ?_⟩
  obtain ⟨c, _, rfl⟩ := List.mem_map.mp hb
  have := le_foldr_max ha
  unfold freshId
  show a ≠ c + 1 + (A.ws.map Wire.id).foldr max 0
  omega

theorem sameRepr_of {M : ℕ} {X Y : FComp} (hX : X.WF M) (hY : Y.WF M) : SameRepr X.wires Y.wires := sameRepr_of_uniform hX.repr hY.repr

theorem pyEq_quantum {a b : Wire} (ha : a.side ≠ .classical) (hb : b.side ≠ .classical) : a.pyEq b = .ok (a.eqv b) := by
  unfold Wire.pyEq
  revert ha hb
  cases a.side <;> cases b.side <;> simp

theorem indexOf_quantum {l : List Wire} {w : Wire} (hl : ∀ v ∈ l, v.side ≠ .classical) (hw : w.side ≠ .classical) (h : ∃ v ∈ l, v.core = w.core) :
    ∃ n, indexOf l w = .ok n := by
  induction l with
  | nil => simp at h
  | cons v l ih =>
    have hv := pyEq_quantum (hl v List.mem_cons_self) hw
    by_cases e : v.eqv w = true
    · refine ⟨0, ?_⟩
      simp [indexOf, hv, e, bind, Except.bind, pure, Except.pure]
    · obtain ⟨u, hu, h⟩ := h
      have : u ∈ l := by
        rcases List.mem_cons.mp hu with rfl | hu
        · exact absurd ((eqv_iff _ _).mpr h) e
        · exact hu
      obtain ⟨n, hn⟩ := ih (fun x hx => hl x (List.mem_cons_of_mem _ hx)) ⟨u, this, h⟩
      exact ⟨n + 1, by simp [indexOf, hv, e, hn, bind, Except.bind, pure, Except.pure]⟩

theorem mem_setOf {l : List Wire} {w : Wire} (h : w ∈ WireModel.setOf l) : w ∈ l := by
  induction l with
  | nil => exact h
  | cons v l ih =>
    unfold WireModel.setOf at h
    rcases List.mem_cons.mp h with rfl | h
    · exact List.mem_cons_self
    · exact List.mem_cons_of_mem _ (ih (List.mem_filter.mp h).1)

/-- Every wire of `A @ B` is a wire of `A` or `B` except for its index. -/
theorem matmul_from {A B R : Wires} (h : matmulWires A B = .ok R) {w : Wire} (hw : w ∈ R.ws) :
    ∃ v, ((v ∈ A.ws ∧ KeepL B v) ∨ (v ∈ B.ws ∧ KeepR A v)) ∧ v.core = w.core ∧ v.id = w.id := by
  rcases matmulWires_cases A B with ⟨_, e⟩ | ⟨_, e⟩
  · rw [h] at e
    cases e
    rw [reindex_ws, List.mem_map] at hw
    obtain ⟨p, hp, rfl⟩ := hw
    have h1 := List.fst_mem_of_mem_zipIdx hp
    rw [mem_sortedWires] at h1
    exact ⟨p.1, mem_preMat.mp (mem_setOf h1), rfl, rfl⟩
  · rw [h] at e
    cases e

theorem matmul_quantum {A B R : Wires} (hA : ∀ w ∈ A.ws, w.side ≠ .classical) (hB : ∀ w ∈ B.ws, w.side ≠ .classical) (h : matmulWires A B = .ok R) :
    ∃ perm, matmul A B = .ok (R, perm) := by
  have key : ∀ w ∈ R.sortedWires, ∃ n, indexOf (combined A B R) w = .ok n := by
    intro w hw
    have hw' := mem_sortedWires.mp hw
    obtain ⟨v, hv, e1, e2⟩ := matmul_from h hw'
    have hid : w.id ∈ R.ids := List.mem_map_of_mem hw
    have hq : ∀ u, u ∈ combined A B R → u.side ≠ .classical := by
      intro u hu
      unfold combined at hu
      rw [List.mem_append, List.mem_filter, List.mem_filter, mem_sortedWires, mem_sortedWires] at hu
      exact hu.elim (fun h => hA _ h.1) fun h => hB _ h.1
    have hvc : v ∈ combined A B R := by
      unfold combined
      rw [List.mem_append, List.mem_filter, List.mem_filter, mem_sortedWires, mem_sortedWires]
      rw [← e2] at hid
      exact hv.imp (fun h => ⟨h.1, by simpa using hid⟩) fun h => ⟨h.1, by simpa using hid⟩
    refine indexOf_quantum hq ?_ ⟨v, hvc, e1⟩
    have : w.side = v.side := by
      have := congrArg (fun c => c.1.1) e1
      exact this.symm
    rw [this]
    exact hq v hvc
  unfold matmul
  rw [h]
  classical
  have h2 := mapM_ok_of_forall (f := indexOf (combined A B R)) (g := fun w => if hw : ∃ n, indexOf (combined A B R) w = .ok n then hw.choose else 0)
    (l := R.sortedWires) (fun w hw => by rw [dif_pos (key w hw)]; exact (key w hw).choose_spec)
  simp only [bind, Except.bind]
  rw [h2]
  exact ⟨_, rfl⟩

/-- `contracted_labels` in terms of the wires: the label of a wire of `A`, of `B`, and of the result. -/
theorem labels_spec {M : ℕ} {X Y : FComp} {R : Wires} (hX : X.WF M) (hY : Y.WF M) (h : matmulWires X.wires Y.wires = .ok R) :
    ∃ lA lB out : List Nat, contractedLabels X.wires Y.wires (freshId X.wires) = some (lA, lB, out) ∧ lA.length = X.wires.len ∧ lB.length = Y.wires.len ∧
      lA.Nodup ∧ lB.Nodup ∧ (∀ i j, i < X.wires.len → j < Y.wires.len → (lA[i]? = lB[j]? ↔ ContractedPair X.wires Y.wires i j)) ∧
      out.length = R.len ∧ out.Nodup ∧
      ∀ (k : Nat) (w : Wire), R.sortedWires[k]? = some w →
        (∃ (i : Nat) (a : Wire), X.wires.sortedWires[i]? = some a ∧ KeepL Y.wires a ∧ a.core = w.core ∧ out[k]? = lA[i]?) ∨
        (∃ (j : Nat) (b : Wire), Y.wires.sortedWires[j]? = some b ∧ KeepR X.wires b ∧ b.core = w.core ∧ out[k]? = lB[j]?) := by
  have hs := sameRepr_of hX hY
  obtain ⟨hc, hR, hopen⟩ := matmul_open hX.good.distinct hY.good.distinct hX.good.inRange hY.good.inRange hs h
  have hf := fresh_ids hX.ids hY.ids
  have hq : ∀ w ∈ leftover X.wires (Y.wires.copyNew (freshId X.wires)), w.side ≠ .classical := by
    intro w hw
    rcases mem_leftover.mp hw with ⟨h1, _⟩ | ⟨h1, _⟩
    · exact hX.quantum w h1
    · simp only [Wires.copyNew, List.mem_map] at h1
      obtain ⟨v, hv, rfl⟩ := h1
      exact hY.quantum v hv
  obtain ⟨R', perm, lA, lB, out, h1, h2, h3, h4, h5, h6, h7, h8, h9, h10⟩ :=
    C06_contracted_labels X.wires Y.wires (freshId X.wires) hX.good hY.good hs hf hc fun v _ w hw _ hw' => absurd hw' (hq w hw)
  -- the wires of `A @ B` and of `A @ copy(B)` agree up to identifiers
  have e : R'.sortedWires.map Wire.core = R.sortedWires.map Wire.core := by
    have hm : matmulWires X.wires (Y.wires.copyNew (freshId X.wires)) = .ok R' := by
      unfold matmul at h1
      cases hm : matmulWires X.wires (Y.wires.copyNew (freshId X.wires)) with
      | error _ => rw [hm] at h1; cases h1
      | ok R'' =>
        rw [hm] at h1
        simp only [bind, Except.bind] at h1
        split at h1
        · cases h1
        · cases h1
          rfl
    have hs' : SameRepr X.wires (Y.wires.copyNew (freshId X.wires)) := by
      intro w hw v hv hsd
      simp only [Wires.copyNew, List.mem_map] at hv
      obtain ⟨u, hu, rfl⟩ := hv
      exact hs w hw u hu hsd
    have gY := copyNew_good hY.good (freshId X.wires)
    obtain ⟨hc', hR', hopen'⟩ := matmul_open hX.good.distinct gY.distinct hX.good.inRange gY.inRange hs' hm
    have uY : Uniform (Y.wires.copyNew (freshId X.wires)) .fock := by
      intro v hv
      simp only [Wires.copyNew, List.mem_map] at hv
      obtain ⟨u, hu, rfl⟩ := hv
      exact hY.repr u hu
    have u1 := uniform_matmul hX.repr hY.repr hX.good.distinct hY.good.distinct hs hc h
    have u2 := uniform_matmul hX.repr uY hX.good.distinct gY.distinct hs' hc' hm
    refine sorted_core_eq hR'.distinct hR'.inRange hR.distinct hR.inRange ?_
    have n1 : (R'.ws.map Wire.core).Nodup := by
      refine List.Nodup.of_map Prod.fst ?_
      rw [List.map_map]
      exact hR'.distinct
    have n2 : (R.ws.map Wire.core).Nodup := by
      refine List.Nodup.of_map Prod.fst ?_
      rw [List.map_map]
      exact hR.distinct
    rw [List.perm_ext_iff_of_nodup n1 n2]
    have hh : ∀ s o m, Has R' s o m ↔ Has R s o m := by
      intro s o m
      rw [hopen', hopen]
      cases o <;> simp only [OpenAfter, has_copyNew]
    have mem : ∀ (W : Wires), Uniform W .fock → ∀ c, c ∈ W.ws.map Wire.core ↔ Has W c.1.1 c.1.2.1 c.1.2.2 ∧ c.2 = .fock := by
      intro W u c
      rw [List.mem_map]
      constructor
      · rintro ⟨w, hw, rfl⟩
        exact ⟨⟨w, hw, rfl⟩, u w hw⟩
      · rintro ⟨⟨w, hw, hsl⟩, hr⟩
        exact ⟨w, hw, Prod.ext hsl ((u w hw).trans hr.symm)⟩
    intro c
    rw [mem R' u2, mem R u1, hh]
  refine ⟨lA, lB, out, h2, h3, h4, h5, h6, h7, ?_, h9, ?_⟩
  · rw [h8]
    have := congrArg List.length e
    simpa using this
  · intro k w hw
    have := congrArg (fun l => l[k]?) e
    simp only [List.getElem?_map, hw, Option.map_some, Option.map_eq_some_iff] at this
    obtain ⟨w', hw', e'⟩ := this
    rw [← e']
    exact h10 k w' hw'

end Verif.CompV
