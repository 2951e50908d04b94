import Verif.ComponentCircuit

/-!
# Adjoint and dual of a composition of Fock components (C88)
-/

namespace Verif.CompV

open Verif.WireModel Verif.Arr Verif.Fock Verif.PolyExp Verif.Circuits

theorem dual_wf {M : ℕ} {g : ℕ → Side × Bool × Int} {f : Nat → Nat} {X Y : FComp} (hX : X.WF M) (iX : IdOk g X.wires)
    (hf : ∀ n, g (f n) = ((g n).1, !(g n).2.1, (g n).2.2)) (h : X.dual f = some Y) :
    Y.WF M ∧ IdOk g Y.wires ∧ Y.wires = X.wires.dual f ∧ Y.ker = dualK X.ker := by
  obtain ⟨Y', h1, h2, h3, h4, h5, h6⟩ := dual_ker hX f
  rw [h] at h1
  cases h1
  have gd := dual_good' hX.good.distinct hX.good.inRange f
  have mem : ∀ w ∈ Y.wires.ws, ∃ v ∈ X.wires.ws, w.id = f v.id ∧ w.repr = v.repr ∧ w.slot = (v.side, !v.isOut, v.mode) := by
    intro w hw
    rw [h2, dual_eq, reindex_ws, List.mem_map] at hw
    obtain ⟨q, hq, rfl⟩ := hw
    have h1 := List.fst_mem_of_mem_zipIdx hq
    rw [mem_sortedWires] at h1
    unfold preDual Wires.copyNew at h1
    simp only [List.map_map, List.mem_map, Function.comp_apply] at h1
    obtain ⟨v, hv, e⟩ := h1
    refine ⟨v, hv, ?_, ?_, ?_⟩
    · show q.1.id = _
      rw [← e]
      rfl
    · show q.1.repr = _
      rw [← e]
      rfl
    · show q.1.slot = _
      rw [← e]
      rfl
  have hi : IdOk g Y.wires := by
    intro w hw
    obtain ⟨v, hv, e1, _, e2⟩ := mem w hw
    rw [e1, hf, iX v hv, e2]
    rfl
  have hu : Uniform Y.wires .fock := by
    intro w hw
    obtain ⟨v, hv, _, e, _⟩ := mem w hw
    rw [e]
    exact hX.repr v hv
  refine ⟨⟨h2 ▸ gd, ?_, hu, hi.nodup (h2 ▸ gd.distinct), h3, h4, h5⟩, hi, h2, h6⟩
  intro w hw
  obtain ⟨v, hv, _, _, e2⟩ := mem w hw
  have := hX.quantum v hv
  have e3 : w.side = v.side := congrArg Prod.fst e2
  rw [e3]
  exact this

/-- **C88** (`dual`) the dual of a composition is the composition of the duals in the opposite order, which returns whenever the composition does. -/
theorem C88_dual {M : ℕ} {g : ℕ → Side × Bool × Int} {f : Nat → Nat} (hf : ∀ n, g (f n) = ((g n).1, !(g n).2.1, (g n).2.2)) {X Y Z : FComp}
    (hX : X.WF M) (hY : Y.WF M) (iX : IdOk g X.wires) (iY : IdOk g Y.wires) (h : X.contract Y = some Z) :
    ∃ X' Y' Z' V, X.dual f = some X' ∧ Y.dual f = some Y' ∧ Z.dual f = some Z' ∧ Y'.contract X' = some V ∧ V.ker = Z'.ker ∧ Z'.ker = dualK Z.ker := by
  obtain ⟨c, wZ, iZ, _, kZ⟩ := contract_wf hX hY iX iY h
  obtain ⟨X', hx, _⟩ := dual_ker hX f
  obtain ⟨Y', hy, _⟩ := dual_ker hY f
  obtain ⟨Z', hz, _⟩ := dual_ker wZ f
  obtain ⟨x1, x2, _, x4⟩ := dual_wf hX iX hf hx
  obtain ⟨y1, y2, _, y4⟩ := dual_wf hY iY hf hy
  obtain ⟨z1, z2, _, z4⟩ := dual_wf wZ iZ hf hz
  have hc : Composable Y'.wires X'.wires := by
    rw [← comp_iff, x4, y4]
    have := comp_iff.mpr c
    intro d
    exact ⟨fun h => (this d).2 ⟨h.2.1 |> fun _ => h.1, h.2.1, h.2.2⟩, fun h => (this d).1 ⟨h.1, h.2.1, h.2.2⟩⟩
  obtain ⟨V, hv, _⟩ := (contract_ker y1 x1).2 hc
  obtain ⟨_, _, _, _, kV⟩ := contract_wf y1 x1 y2 x2 hv
  refine ⟨X', Y', Z', V, hx, hy, hz, hv, ?_, z4⟩
  rw [kV, z4, kZ, dualK_seq, x4, y4]

/-- **C88** (`adjoint`) the adjoint of a composition is the composition of the adjoints in the same order, which returns whenever the composition does. -/
theorem C88_adjoint {M : ℕ} {g : ℕ → Side × Bool × Int} {f : Nat → Nat} (hf : ∀ n, g (f n) = ((g n).1.swap, (g n).2)) {X Y Z : FComp}
    (hX : X.WF M) (hY : Y.WF M) (iX : IdOk g X.wires) (iY : IdOk g Y.wires) (h : X.contract Y = some Z) :
    ∃ X' Y' Z' V, X.adjoint f = some X' ∧ Y.adjoint f = some Y' ∧ Z.adjoint f = some Z' ∧ X'.contract Y' = some V ∧ V.ker = Z'.ker ∧ Z'.ker = adjK Z.ker := by
  obtain ⟨c, wZ, iZ, _, kZ⟩ := contract_wf hX hY iX iY h
  obtain ⟨X', hx, _⟩ := adjoint_ker hX f
  obtain ⟨Y', hy, _⟩ := adjoint_ker hY f
  obtain ⟨Z', hz, _⟩ := adjoint_ker wZ f
  obtain ⟨x1, x2, _, x4⟩ := adjoint_wf hX iX hf hx
  obtain ⟨y1, y2, _, y4⟩ := adjoint_wf hY iY hf hy
  obtain ⟨z1, z2, _, z4⟩ := adjoint_wf wZ iZ hf hz
  have hc : Composable X'.wires Y'.wires := by
    rw [← comp_iff, x4, y4]
    have := comp_iff.mpr c
    intro d
    simp only [adjK, mem_image_swap]
    exact this (swapC d)
  obtain ⟨V, hv, _⟩ := (contract_ker x1 y1).2 hc
  obtain ⟨_, _, _, _, kV⟩ := contract_wf x1 y1 x2 y2 hv
  refine ⟨X', Y', Z', V, hx, hy, hz, hv, ?_, z4⟩
  rw [kV, z4, kZ, adjK_seq, x4, y4]

end Verif.CompV
