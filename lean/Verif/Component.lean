import Verif.CompSem
import Verif.WiresLabels
import Verif.WiresComp
import Verif.EinsumProps

/-!
# Fock components: wires and array together (C88)
-/

namespace Verif.CompV

open Verif.WireModel Verif.Arr Verif.Fock Verif.PolyExp

/-- lab/circuit_components.py:70-120 `CircuitComponent`: wires and an ansatz.  Only unbatched arrays (`ArrayAnsatz`) are modelled here. -/
structure FComp where
  wires : Wires
  arr : Arr

/-- `copy(new_ids=True)` of the second operand: identifiers that the first operand does not use. -/
def freshId (A : Wires) : Nat → Nat := fun i => i + 1 + (A.ws.map (·.id)).foldr max 0

/-- lab/circuit_components.py:411-486 `contract` of two unbatched components in the Fock representation (`type(self.ansatz) is type(other.ansatz)`,
empty batch strings).  `none` is an exception. -/
noncomputable def FComp.contract (X Y : FComp) : Option FComp :=
  match matmul X.wires Y.wires with
  | .error _ => none
  | .ok (R, _) => do
      let ls ← contractedLabels X.wires Y.wires (freshId X.wires)
      let r ← Verif.Arr.contract X.arr Y.arr (ls.1.map Lab.int) (ls.2.1.map Lab.int) (ls.2.2.map Lab.int)
      some ⟨R, r⟩

/-- A component as the library builds them: distinct wires in range, one representation, no classical wires, different identifiers, one axis per wire; `M` bounds
the cutoffs. -/
structure FComp.WF (M : ℕ) (X : FComp) : Prop where
  good : Good X.wires
  quantum : ∀ w ∈ X.wires.ws, w.side ≠ .classical
  repr : Uniform X.wires .fock
  ids : (X.wires.ws.map Wire.id).Nodup
  batch : X.arr.batchDims = 0
  axes : X.arr.shape.length = X.wires.len
  dims : ∀ d ∈ X.arr.shape, d ≤ M

/-- A channel: the bra or ket side of a mode. -/
abbrev Chan := Side × Int

def wchan (w : Wire) : Chan := (w.side, w.mode)

/-- The value of the axis of a wire, given values of the outputs and the inputs. -/
def slotVal (o i : Chan → ℕ) (w : Wire) : ℕ := if w.isOut then o (wchan w) else i (wchan w)

/-- Specification: the operator a component stands for.  Its value at given photon numbers of the outputs and inputs is the entry of the array with these photon
numbers on the axes of the wires (zero beyond the cutoffs). -/
noncomputable def FComp.ker (X : FComp) : Ker Chan where
  outs := ((X.wires.ws.filter fun w => w.isOut).map wchan).toFinset
  ins := ((X.wires.ws.filter fun w => !w.isOut).map wchan).toFinset
  fn := fun o i => X.arr.entry (X.wires.sortedWires.map (slotVal o i))

theorem FComp.mem_outs {X : FComp} {s : Side} {m : Int} : (s, m) ∈ X.ker.outs ↔ Has X.wires s true m := by
  simp only [FComp.ker, List.mem_toFinset, List.mem_map, List.mem_filter, wchan, Has, Wire.slot, Prod.mk.injEq]
  constructor
  · rintro ⟨w, ⟨h1, h2⟩, h3, h4⟩
    exact ⟨w, h1, h3, h2, h4⟩
  · rintro ⟨w, h1, h3, h2, h4⟩
    exact ⟨w, ⟨h1, h2⟩, h3, h4⟩

theorem FComp.mem_ins {X : FComp} {s : Side} {m : Int} : (s, m) ∈ X.ker.ins ↔ Has X.wires s false m := by
  simp only [FComp.ker, List.mem_toFinset, List.mem_map, List.mem_filter, wchan, Has, Wire.slot, Prod.mk.injEq, Bool.not_eq_true']
  constructor
  · rintro ⟨w, ⟨h1, h2⟩, h3, h4⟩
    exact ⟨w, h1, h3, h2, h4⟩
  · rintro ⟨w, h1, h3, h2, h4⟩
    exact ⟨w, ⟨h1, h2⟩, h3, h4⟩

theorem FComp.ker_local (X : FComp) : X.ker.Local := by
  intro o o' i i' ho hi
  show X.arr.entry _ = X.arr.entry _
  refine congrArg _ (List.map_congr_left fun w hw => ?_)
  rw [mem_sortedWires] at hw
  unfold slotVal
  by_cases h : w.isOut = true
  · rw [if_pos h, if_pos h]
    exact ho _ (FComp.mem_outs.mpr ⟨w, hw, by simp [Wire.slot, h]⟩)
  · rw [if_neg h, if_neg h]
    exact hi _ (FComp.mem_ins.mpr ⟨w, hw, by simp [Wire.slot, h]⟩)

theorem comp_iff {X Y : FComp} : X.ker.Comp Y.ker ↔ Composable X.wires Y.wires := by
  constructor
  · intro h s m
    have := h (s, m)
    rwa [FComp.mem_outs, FComp.mem_outs, FComp.mem_ins, FComp.mem_ins] at this
  · rintro h ⟨s, m⟩
    rw [FComp.mem_outs, FComp.mem_outs, FComp.mem_ins, FComp.mem_ins]
    exact h s m

/-! ## Sums over labels as sums over channels -/

theorem tot_singleton {C : Type*} [DecidableEq C] (M : ℕ) (c : C) (F : (C → ℕ) → ℂ) :
    tot M {c} F = ∑ v ∈ Finset.range M, F (Function.update (fun _ => 0) c v) := by
  unfold tot
  refine Finset.sum_bij' (fun z _ => z c) (fun v _ => Finsupp.single c v) ?_ ?_ ?_ ?_ ?_
  · intro z hz
    rw [Finset.mem_finsupp_iff] at hz
    exact hz.2 c (Finset.mem_singleton_self _)
  · intro v hv
    rw [Finset.mem_finsupp_iff]
    refine ⟨Finsupp.support_single_subset, fun d hd => ?_⟩
    rw [Finset.mem_singleton] at hd
    subst hd
    rw [Finsupp.single_eq_same]
    exact hv
  · intro z hz
    rw [Finset.mem_finsupp_iff] at hz
    ext d
    rw [Finsupp.single_apply]
    split_ifs with h
    · rw [h]
    · by_contra h0
      have := hz.1 (Finsupp.mem_support_iff.mpr fun h => h0 h.symm)
      rw [Finset.mem_singleton] at this
      exact h this.symm
  · intro v _
    rw [Finsupp.single_eq_same]
  · intro z hz
    rw [Finset.mem_finsupp_iff] at hz
    refine congrArg F (funext fun d => ?_)
    by_cases h : d = c
    · subst h
      rw [Function.update_self]
    · rw [Function.update_of_ne h]
      by_contra h0
      exact h (Finset.mem_singleton.mp (hz.1 (Finsupp.mem_support_iff.mpr h0)))

theorem sumOver_tot {C : Type*} [DecidableEq C] (M : ℕ) (e : Lab → C) (F : (Lab → ℕ) → ℂ) : ∀ (S : List Lab) (σ : Lab → ℕ), (S.map e).Nodup →
    sumOver (fun _ => M) S F σ = tot M (S.map e).toFinset fun z => F fun l => if l ∈ S then z (e l) else σ l
  | [], σ, _ => by
    show F σ = tot M ∅ _
    rw [tot_empty]
    simp
  | l :: S, σ, h => by
    rw [List.map_cons, List.nodup_cons] at h
    have e1 : ((l :: S).map e).toFinset = {e l} ∪ (S.map e).toFinset := by
      rw [List.map_cons, List.toFinset_cons]
      rfl
    rw [e1, tot_union (Finset.disjoint_singleton_left.mpr fun h' => h.1 (List.mem_toFinset.mp h')), tot_singleton]
    show ∑ v ∈ Finset.range M, sumOver (fun _ => M) S F (Function.update σ l v) = _
    refine Finset.sum_congr rfl fun v _ => ?_
    rw [sumOver_tot M e F S _ h.2]
    refine tot_congr fun z _ _ => congrArg F (funext fun k => ?_)
    unfold over
    by_cases hk : k ∈ S
    · rw [if_pos hk, if_pos (List.mem_cons_of_mem _ hk), if_neg]
      rw [Finset.mem_singleton]
      intro h'
      exact h.1 (h' ▸ List.mem_map_of_mem hk)
    · rw [if_neg hk]
      by_cases hkl : k = l
      · subst hkl
        rw [Function.update_self, if_pos List.mem_cons_self, if_pos (Finset.mem_singleton_self _), Function.update_self]
      · rw [Function.update_of_ne hkl, if_neg]
        rw [List.mem_cons, not_or]
        exact ⟨hkl, hk⟩

end Verif.CompV
