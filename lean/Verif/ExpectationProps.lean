import Verif.Expectation

/-!
# `expectation` of Fock states (C90): properties
-/

namespace Verif.CompV

open Verif.WireModel Verif.Arr Verif.Fock Verif.PolyExp Verif.Circuits

/-! ## Specification: expectation values as sums over photon numbers -/

/-- Specification: the expectation value of an operator on the modes `T` in a density matrix on the modes `N`, in the sense of each type of operator:
`Tr[ρ (|φ⟩⟨φ| ⊗ 1)]` for a ket `φ`, `Tr[ρ (O† ⊗ 1)]` for a density matrix `O` and `Tr[(U ⊗ 1) ρ]` for an operator `U`. -/
noncomputable def dmExp (M : ℕ) (N T : Finset Int) : OpType → Ker Chan → Ker Chan → ℂ
  | .ket, ρ, φ => tot M T fun k => tot M T fun b => tot M (N \ T) fun l => dmV ρ (over T k l) (over T b l) * ((starRingEnd ℂ) (ketV φ k) * ketV φ b)
  | .dm, ρ, O => tot M T fun k => tot M T fun b => tot M (N \ T) fun l => dmV ρ (over T k l) (over T b l) * (starRingEnd ℂ) (dmV O k b)
  | .unitary, ρ, U => tot M N fun a => tot M T fun k => opV U a k * dmV ρ (over T k a) a

/-- Specification: the expectation value of an operator on the modes `T` in a ket on the modes `N`: `‖⟨φ|ψ⟩‖²`, `⟨ψ|O† ⊗ 1|ψ⟩` and `⟨ψ|U ⊗ 1|ψ⟩`. -/
noncomputable def ketExp (M : ℕ) (N T : Finset Int) : OpType → Ker Chan → Ker Chan → ℂ
  | .ket, ψ, φ => tot M (N \ T) fun l => (tot M T fun k => ketV ψ (over T k l) * (starRingEnd ℂ) (ketV φ k)) *
      (starRingEnd ℂ) (tot M T fun k => ketV ψ (over T k l) * (starRingEnd ℂ) (ketV φ k))
  | .dm, ψ, O => tot M T fun k => tot M T fun b => tot M (N \ T) fun l => ketV ψ (over T k l) * (starRingEnd ℂ) (ketV ψ (over T b l)) * (starRingEnd ℂ) (dmV O k b)
  | .unitary, ψ, U => tot M N fun a => tot M T fun k => (starRingEnd ℂ) (ketV ψ a) * opV U a k * ketV ψ (over T k a)

/-! ## Components and their operators -/

/-- A well formed component with a given operator. -/
def Rep (M : ℕ) (g : ℕ → Side × Bool × Int) (X : FComp) (K : Ker Chan) : Prop := X.WF M ∧ IdOk g X.wires ∧ X.ker = K

variable {M : ℕ} {g : ℕ → Side × Bool × Int} {f d : Nat → Nat}

theorem Rep.contract {X Y : FComp} {K L : Ker Chan} (hX : Rep M g X K) (hY : Rep M g Y L) (h : K.Comp L) : ∃ Z, X.contract Y = some Z ∧ Rep M g Z (Ker.seq M K L) := by
  obtain ⟨wX, iX, rfl⟩ := hX
  obtain ⟨wY, iY, rfl⟩ := hY
  obtain ⟨Z, hZ, _⟩ := (contract_ker wX wY).2 (comp_iff.mp h)
  obtain ⟨_, wZ, iZ, _, kZ⟩ := contract_wf wX wY iX iY hZ
  exact ⟨Z, hZ, wZ, iZ, kZ⟩

theorem Rep.adjoint (hf : ∀ n, g (f n) = ((g n).1.swap, (g n).2)) {X : FComp} {K : Ker Chan} (hX : Rep M g X K) : ∃ Z, X.adjoint f = some Z ∧ Rep M g Z (adjK K) := by
  obtain ⟨wX, iX, rfl⟩ := hX
  obtain ⟨A, hA, _⟩ := adjoint_ker wX f
  obtain ⟨wA, iA, _, kA⟩ := adjoint_wf wX iX hf hA
  exact ⟨A, hA, wA, iA, kA⟩

theorem Rep.dual (hd : ∀ n, g (d n) = ((g n).1, !(g n).2.1, (g n).2.2)) {X : FComp} {K : Ker Chan} (hX : Rep M g X K) : ∃ Z, X.dual d = some Z ∧ Rep M g Z (dualK K) := by
  obtain ⟨wX, iX, rfl⟩ := hX
  obtain ⟨A, hA, _⟩ := dual_ker wX d
  obtain ⟨wA, iA, _, kA⟩ := dual_wf wX iX hd hA
  exact ⟨A, hA, wA, iA, kA⟩

theorem ketOn_of {X : FComp} {N : Finset Int} (h : KetW N X.wires) : KetOn N X.ker := by
  constructor
  · ext ⟨s, m⟩
    rw [FComp.mem_ins, h]
    simp
  · ext ⟨s, m⟩
    rw [FComp.mem_outs, h, mem_chs]
    simp

theorem dmOn_of {X : FComp} {N : Finset Int} (h : DmW N X.wires) : DmOn N X.ker := by
  constructor
  · ext ⟨s, m⟩
    rw [FComp.mem_ins, h]
    simp
  · ext ⟨s, m⟩
    rw [FComp.mem_outs, h, Finset.mem_union, mem_chs, mem_chs]
    tauto

theorem opOn_of {X : FComp} {N : Finset Int} (h : OpW N X.wires) : OpOn N X.ker := by
  constructor
  · ext ⟨s, m⟩
    rw [FComp.mem_ins, h, mem_chs]
  · ext ⟨s, m⟩
    rw [FComp.mem_outs, h, mem_chs]

/-- A component without open channels holds one number. -/
theorem scalar_of {Z : FComp} (ho : Z.ker.outs = ∅) (hi : Z.ker.ins = ∅) : Z.wires.ws = [] ∧ ∀ o i, Z.arr.entry [] = Z.ker.fn o i := by
  have h : Z.wires.ws = [] := by
    by_contra h
    obtain ⟨w, hw⟩ := List.exists_mem_of_ne_nil _ h
    have hh : Has Z.wires w.side w.isOut w.mode := ⟨w, hw, rfl⟩
    cases ho' : w.isOut
    · rw [ho', ← FComp.mem_ins, hi] at hh
      exact absurd hh (Finset.notMem_empty _)
    · rw [ho', ← FComp.mem_outs, ho] at hh
      exact absurd hh (Finset.notMem_empty _)
  refine ⟨h, fun o i => ?_⟩
  show _ = Z.arr.entry (Z.wires.sortedWires.map _)
  have : Z.wires.sortedWires = [] := List.Perm.eq_nil (h ▸ sortedWires_perm Z.wires)
  rw [this]
  rfl

/-- The last step of `expectation`: tracing out every remaining mode of a density matrix. -/
theorem Rep.finish {X : FComp} {K : Ker Chan} {left : List Int} (hX : Rep M g X K) (hK : DmOn left.toFinset K) (f ids : Nat → Nat) (hn : left.Nodup) {oz : List Int}
    (hz : oz.Perm left) : ∃ Z, X.traceOut f ids left oz oz = some Z ∧ Z.wires.ws = [] ∧ ∀ o i, Z.arr.entry [] = (trK M left.toFinset K).fn o i := by
  obtain ⟨wX, iX, rfl⟩ := hX
  by_cases hl : left = []
  · subst hl
    have ho : X.ker.outs = ∅ := by
      rw [hK.2]
      rfl
    have := scalar_of ho hK.1
    refine ⟨X, ?_, this.1, ?_⟩
    · unfold FComp.traceOut
      rw [if_pos ((trWires_nil [] ids).mpr rfl)]
    · rw [List.toFinset_nil, trK_empty]
      exact this.2
  · have hm : ∀ m ∈ left, Has X.wires .ket true m ∧ Has X.wires .bra true m := by
      intro m hm
      rw [← FComp.mem_outs, ← FComp.mem_outs, hK.2, Finset.mem_union, Finset.mem_union, mem_chs, mem_chs, mem_chs, mem_chs]
      have := List.mem_toFinset.mpr hm
      simp [this]
    obtain ⟨Z, h1, h2, h3, h4, h5⟩ := C89_trace_both wX iX f ids hl hn hm hz
    have ho : Z.ker.outs = ∅ := by
      rw [h5]
      show X.ker.outs.filter _ = ∅
      rw [hK.2]
      ext ⟨s, m⟩
      simp only [Finset.mem_filter, Finset.mem_union, mem_chs, Finset.notMem_empty, iff_false]
      tauto
    have hi : Z.ker.ins = ∅ := by
      rw [h5]
      exact hK.1
    have := scalar_of ho hi
    exact ⟨Z, h1, this.1, h5 ▸ this.2⟩

/-! ## Channels of the intermediate components -/

section
variable {N T : Finset Int} (hT : T ⊆ N) {X O : Ker Chan}
include hT

theorem comp_dm_dm (hX : DmOn N X) (hO : DmOn T O) : X.Comp (dualK O) ∧ DmOn (N \ T) (Ker.seq M X (dualK O)) := by
  refine ⟨fun ⟨s, m⟩ => ?_, ?_, ?_⟩
  · show ¬ (_ ∈ O.ins ∧ _) ∧ ¬ (_ ∈ X.ins ∧ _)
    rw [hO.1, hX.1]
    simp
  · show X.ins ∪ (O.outs \ X.outs) = ∅
    rw [hX.1, hX.2, hO.2]
    ext ⟨s, m⟩
    have := @hT m
    simp only [Finset.mem_union, Finset.mem_sdiff, mem_chs, Finset.notMem_empty, false_or, iff_false]
    tauto
  · show O.ins ∪ (X.outs \ O.outs) = _
    rw [hO.1, hX.2, hO.2]
    ext ⟨s, m⟩
    simp only [Finset.mem_union, Finset.mem_sdiff, mem_chs, Finset.notMem_empty, false_or]
    by_cases h : m ∈ T <;> simp [h] <;> tauto

theorem comp_dm_ket (hX : DmOn N X) (hO : KetOn T O) : X.Comp (adjK (dualK O)) ∧ (Ker.seq M X (adjK (dualK O))).Comp (dualK O) ∧
    DmOn (N \ T) (Ker.seq M (Ker.seq M X (adjK (dualK O))) (dualK O)) := by
  have hA : (adjK (dualK O)).ins = chs .bra T := by
    show O.outs.image swapC = _
    rw [hO.2]
    ext ⟨t, m⟩
    rw [mem_image_swap]
    show (t.swap, m) ∈ _ ↔ _
    rw [mem_chs, mem_chs]
    cases t <;> simp [Side.swap]
  have hAo : (adjK (dualK O)).outs = ∅ := by
    show O.ins.image swapC = _
    rw [hO.1]
    rfl
  have hSi : (Ker.seq M X (adjK (dualK O))).ins = ∅ := by
    show X.ins ∪ ((adjK (dualK O)).ins \ X.outs) = ∅
    rw [hX.1, hX.2, hA]
    ext ⟨s, m⟩
    have := @hT m
    simp only [Finset.mem_union, Finset.mem_sdiff, mem_chs, Finset.notMem_empty, false_or, iff_false]
    tauto
  have hSo : (Ker.seq M X (adjK (dualK O))).outs = chs .ket N ∪ chs .bra (N \ T) := by
    show (adjK (dualK O)).outs ∪ (X.outs \ (adjK (dualK O)).ins) = _
    rw [hAo, hX.2, hA]
    ext ⟨s, m⟩
    simp only [Finset.mem_union, Finset.mem_sdiff, mem_chs, Finset.notMem_empty, false_or]
    cases s <;> simp
  refine ⟨fun c => ?_, fun c => ?_, ?_, ?_⟩
  · rw [hAo, hX.1]
    simp
  · rw [hSi]
    show ¬ (c ∈ O.ins ∧ _) ∧ _
    rw [hO.1]
    simp
  · show (Ker.seq M X (adjK (dualK O))).ins ∪ (O.outs \ (Ker.seq M X (adjK (dualK O))).outs) = ∅
    rw [hSi, hSo, hO.2]
    ext ⟨s, m⟩
    have := @hT m
    simp only [Finset.mem_union, Finset.mem_sdiff, mem_chs, Finset.notMem_empty, false_or, iff_false]
    tauto
  · show O.ins ∪ ((Ker.seq M X (adjK (dualK O))).outs \ O.outs) = _
    rw [hSo, hO.1, hO.2]
    ext ⟨s, m⟩
    simp only [Finset.mem_union, Finset.mem_sdiff, mem_chs, Finset.notMem_empty, false_or]
    cases s <;> simp

theorem comp_dm_op (hX : DmOn N X) (hO : OpOn T O) : X.Comp O ∧ DmOn N (Ker.seq M X O) := by
  refine ⟨fun c => ?_, ?_, ?_⟩
  · rw [hO.1, hO.2, hX.1]
    simp
    tauto
  · show X.ins ∪ (O.ins \ X.outs) = ∅
    rw [hX.1, hX.2, hO.1]
    ext ⟨s, m⟩
    have := @hT m
    simp only [Finset.mem_union, Finset.mem_sdiff, mem_chs, Finset.notMem_empty, false_or, iff_false]
    tauto
  · show O.outs ∪ (X.outs \ O.ins) = _
    rw [hO.1, hX.2, hO.2]
    ext ⟨s, m⟩
    have := @hT m
    simp only [Finset.mem_union, Finset.mem_sdiff, mem_chs]
    by_cases h : m ∈ T <;> simp_all <;> tauto

theorem comp_ket_ket (hX : KetOn N X) (hO : KetOn T O) : X.Comp (dualK O) ∧ (Ker.seq M X (dualK O)).Comp (adjK (Ker.seq M X (dualK O))) ∧
    DmOn (N \ T) (Ker.seq M (Ker.seq M X (dualK O)) (adjK (Ker.seq M X (dualK O)))) := by
  have ro : (Ker.seq M X (dualK O)).outs = chs .ket (N \ T) := by
    show O.ins ∪ (X.outs \ O.outs) = _
    rw [hO.1, hX.2, hO.2]
    ext ⟨t, m⟩
    simp only [Finset.mem_union, Finset.mem_sdiff, mem_chs, Finset.notMem_empty, false_or]
    tauto
  have ri : (Ker.seq M X (dualK O)).ins = ∅ := by
    show X.ins ∪ (O.outs \ X.outs) = _
    rw [hX.1, hX.2, hO.2]
    ext ⟨t, m⟩
    simp only [Finset.mem_union, Finset.mem_sdiff, mem_chs, Finset.notMem_empty, false_or, iff_false]
    have := @hT m
    tauto
  have ai : (adjK (Ker.seq M X (dualK O))).ins = ∅ := by
    show (Ker.seq M X (dualK O)).ins.image swapC = ∅
    rw [ri]
    rfl
  have ao : (adjK (Ker.seq M X (dualK O))).outs = chs .bra (N \ T) := by
    show (Ker.seq M X (dualK O)).outs.image swapC = _
    rw [ro]
    ext ⟨t, m⟩
    rw [mem_image_swap]
    show (t.swap, m) ∈ _ ↔ _
    rw [mem_chs, mem_chs]
    cases t <;> simp [Side.swap]
  refine ⟨fun c => ?_, fun ⟨s, m⟩ => ?_, ?_, ?_⟩
  · show ¬ (c ∈ O.ins ∧ _) ∧ ¬ (c ∈ X.ins ∧ _)
    rw [hO.1, hX.1]
    simp
  · rw [ri, ai, ro, ao, mem_chs, mem_chs]
    refine ⟨?_, by simp⟩
    rintro ⟨h1, h2, _⟩
    rw [h1.1] at h2
    simp at h2
  · show (Ker.seq M X (dualK O)).ins ∪ ((adjK (Ker.seq M X (dualK O))).ins \ (Ker.seq M X (dualK O)).outs) = ∅
    rw [ri, ai]
    simp
  · show (adjK (Ker.seq M X (dualK O))).outs ∪ ((Ker.seq M X (dualK O)).outs \ (adjK (Ker.seq M X (dualK O))).ins) = _
    rw [ao, ai, ro, Finset.sdiff_empty, Finset.union_comm]

theorem comp_ket_dm (hX : KetOn N X) (hO : DmOn T O) : X.Comp (dualK O) ∧ (adjK X).Comp (Ker.seq M X (dualK O)) ∧
    DmOn (N \ T) (Ker.seq M (adjK X) (Ker.seq M X (dualK O))) := by
  have ro : (Ker.seq M X (dualK O)).outs = chs .ket (N \ T) := by
    show O.ins ∪ (X.outs \ O.outs) = _
    rw [hO.1, hX.2, hO.2]
    ext ⟨t, m⟩
    simp only [Finset.mem_union, Finset.mem_sdiff, mem_chs, Finset.notMem_empty, false_or]
    tauto
  have ri : (Ker.seq M X (dualK O)).ins = chs .bra T := by
    show X.ins ∪ (O.outs \ X.outs) = _
    rw [hX.1, hX.2, hO.2]
    ext ⟨t, m⟩
    simp only [Finset.mem_union, Finset.mem_sdiff, mem_chs, Finset.notMem_empty, false_or]
    have := @hT m
    cases t <;> simp
    exact this
  have ai : (adjK X).ins = ∅ := by
    show X.ins.image swapC = ∅
    rw [hX.1]
    rfl
  have ao : (adjK X).outs = chs .bra N := by
    show X.outs.image swapC = _
    rw [hX.2]
    ext ⟨t, m⟩
    rw [mem_image_swap]
    show (t.swap, m) ∈ _ ↔ _
    rw [mem_chs, mem_chs]
    cases t <;> simp [Side.swap]
  refine ⟨fun c => ?_, fun ⟨s, m⟩ => ?_, ?_, ?_⟩
  · show ¬ (c ∈ O.ins ∧ _) ∧ ¬ (c ∈ X.ins ∧ _)
    rw [hO.1, hX.1]
    simp
  · rw [ri, ai, ro, ao, mem_chs, mem_chs]
    refine ⟨?_, by simp⟩
    rintro ⟨h1, h2, _⟩
    rw [h1.1] at h2
    simp at h2
  · show (adjK X).ins ∪ ((Ker.seq M X (dualK O)).ins \ (adjK X).outs) = ∅
    rw [ri, ai, ao]
    ext ⟨s, m⟩
    simp only [Finset.mem_union, Finset.mem_sdiff, mem_chs, Finset.notMem_empty, false_or, iff_false]
    have := @hT m
    tauto
  · show (Ker.seq M X (dualK O)).outs ∪ ((adjK X).outs \ (Ker.seq M X (dualK O)).ins) = _
    rw [ao, ri, ro]
    ext ⟨s, m⟩
    simp only [Finset.mem_union, Finset.mem_sdiff, mem_chs]
    cases s <;> simp

theorem comp_ket_op (hX : KetOn N X) (hO : OpOn T O) : X.Comp O ∧ (Ker.seq M X O).Comp (dualK X) ∧ DmOn ∅ (Ker.seq M (Ker.seq M X O) (dualK X)) := by
  have ro : (Ker.seq M X O).outs = chs .ket N := by
    show O.outs ∪ (X.outs \ O.ins) = _
    rw [hO.1, hX.2, hO.2]
    ext ⟨s, m⟩
    have := @hT m
    simp only [Finset.mem_union, Finset.mem_sdiff, mem_chs]
    tauto
  have ri : (Ker.seq M X O).ins = ∅ := by
    show X.ins ∪ (O.ins \ X.outs) = ∅
    rw [hX.1, hX.2, hO.1]
    ext ⟨s, m⟩
    have := @hT m
    simp only [Finset.mem_union, Finset.mem_sdiff, mem_chs, Finset.notMem_empty, false_or, iff_false]
    tauto
  refine ⟨fun c => ?_, fun c => ?_, ?_, ?_⟩
  · rw [hO.1, hO.2, hX.1]
    simp
    tauto
  · rw [ri]
    show ¬ (c ∈ X.ins ∧ _) ∧ _
    rw [hX.1]
    simp
  · show (Ker.seq M X O).ins ∪ (X.outs \ (Ker.seq M X O).outs) = ∅
    rw [ri, ro, hX.2]
    simp
  · show X.ins ∪ ((Ker.seq M X O).outs \ X.outs) = _
    rw [ro, hX.1, hX.2]
    simp
    rfl

end

/-! ## The theorems -/

theorem left_toFinset (A B : List Int) : (A.filter fun m => m ∉ B).toFinset = A.toFinset \ B.toFinset := by
  ext m
  simp

/-- **C90** (density matrices) `rho.expectation(op)` raises for components that are no operators and for operators on other modes; otherwise it returns the number
`Tr[ρ (|φ⟩⟨φ| ⊗ 1)]`, `Tr[ρ (O† ⊗ 1)]` or `Tr[(U ⊗ 1) ρ]`. -/
theorem C90_dm (hf : ∀ n, g (f n) = ((g n).1.swap, (g n).2)) (hd : ∀ n, g (d n) = ((g n).1, !(g n).2.1, (g n).2.2)) (ids : Nat → Nat) {ord : List Int → List Int}
    (hord : ∀ l, (ord l).Perm l) {X O : FComp} (hX : X.WF M) (iX : IdOk g X.wires) (hO : O.WF M) (iO : IdOk g O.wires) (sX : DmW X.wires.modes.toFinset X.wires) :
    ((validateOp O.wires = none ∨ ¬ ∀ m ∈ O.wires.modes, m ∈ X.wires.modes) → X.expectDM f d ids ord ord O = none) ∧
    ∀ t, validateOp O.wires = some t → (∀ m ∈ O.wires.modes, m ∈ X.wires.modes) →
      ∃ Z, X.expectDM f d ids ord ord O = some Z ∧ Z.wires.ws = [] ∧
        Z.arr.entry [] = dmExp M X.wires.modes.toFinset O.wires.modes.toFinset t X.ker O.ker := by
  constructor
  · rintro h
    unfold FComp.expectDM
    rcases hv : validateOp O.wires with _ | t
    · rfl
    · rw [hv] at h
      rcases h with h | h
      · cases h
      · dsimp only
        rw [if_pos h]
  intro t ht hs
  have hT : O.wires.modes.toFinset ⊆ X.wires.modes.toFinset := fun m hm => List.mem_toFinset.mpr (hs m (List.mem_toFinset.mp hm))
  have vv := C90_validate hO.quantum
  have kX := dmOn_of sX
  have rX : Rep M g X X.ker := ⟨hX, iX, rfl⟩
  have rO : Rep M g O O.ker := ⟨hO, iO, rfl⟩
  obtain ⟨left, hleft⟩ : ∃ l, l = X.wires.modes.filter fun m => m ∉ O.wires.modes := ⟨_, rfl⟩
  have nleft : left.Nodup := by
    rw [hleft]
    exact (List.nodup_dedup _).filter _
  have eleft : left.toFinset = X.wires.modes.toFinset \ O.wires.modes.toFinset := by
    rw [hleft]
    exact left_toFinset _ _
  unfold FComp.expectDM
  rw [ht]
  dsimp only
  rw [if_neg (not_not.mpr hs), ← hleft]
  cases t
  · have kO := ketOn_of (vv.1.mp ht).1
    obtain ⟨c1, c2, c3⟩ := comp_dm_ket (M := M) hT kX kO
    obtain ⟨dl, e1, r1⟩ := rO.dual hd
    obtain ⟨da, e2, r2⟩ := r1.adjoint hf
    obtain ⟨y, e3, r3⟩ := rX.contract r2 c1
    obtain ⟨z, e4, r4⟩ := r3.contract r1 c2
    rw [← eleft] at c3
    obtain ⟨Z, e5, w5, k5⟩ := r4.finish c3 f ids nleft (hord left)
    refine ⟨Z, ?_, w5, ?_⟩
    · simp only [e1, e2, e3, e4, Option.bind_eq_bind, Option.bind_some]
      exact e5
    · rw [k5 (fun _ => 0) fun _ => 0, eleft, exp_dm_ket hT X.ker_local O.ker_local kX kO]
      rfl
  · have kO := dmOn_of (vv.2.1.mp ht).1
    obtain ⟨c1, c3⟩ := comp_dm_dm (M := M) hT kX kO
    obtain ⟨dl, e1, r1⟩ := rO.dual hd
    obtain ⟨y, e3, r3⟩ := rX.contract r1 c1
    rw [← eleft] at c3
    obtain ⟨Z, e5, w5, k5⟩ := r3.finish c3 f ids nleft (hord left)
    refine ⟨Z, ?_, w5, ?_⟩
    · simp only [e1, e3, Option.bind_eq_bind, Option.bind_some]
      exact e5
    · rw [k5 (fun _ => 0) fun _ => 0, eleft, exp_dm_dm hT X.ker_local O.ker_local kX kO]
      rfl
  · have kO := opOn_of (vv.2.2.mp ht).1
    obtain ⟨c1, c3⟩ := comp_dm_op (M := M) hT kX kO
    obtain ⟨y, e3, r3⟩ := rX.contract rO c1
    obtain ⟨Z, e5, w5, k5⟩ := r3.finish c3 f ids (List.nodup_dedup _) (hord X.wires.modes)
    refine ⟨Z, ?_, w5, ?_⟩
    · simp only [e3, Option.bind_eq_bind, Option.bind_some]
      exact e5
    · rw [k5 (fun _ => 0) fun _ => 0, exp_dm_op hT X.ker_local O.ker_local kX kO]
      rfl

/-- **C90** (kets) `psi.expectation(op)` raises for components that are no operators and for operators on other modes; otherwise it returns the number
`‖⟨φ|ψ⟩‖²`, `⟨ψ|O† ⊗ 1|ψ⟩` or `⟨ψ|U ⊗ 1|ψ⟩`. -/
theorem C90_ket (hf : ∀ n, g (f n) = ((g n).1.swap, (g n).2)) (hd : ∀ n, g (d n) = ((g n).1, !(g n).2.1, (g n).2.2)) (ids : Nat → Nat) {ord : List Int → List Int}
    (hord : ∀ l, (ord l).Perm l) {X O : FComp} (hX : X.WF M) (iX : IdOk g X.wires) (hO : O.WF M) (iO : IdOk g O.wires) (sX : KetW X.wires.modes.toFinset X.wires) :
    ((validateOp O.wires = none ∨ ¬ ∀ m ∈ O.wires.modes, m ∈ X.wires.modes) → X.expectKet f d ids ord ord O = none) ∧
    ∀ t, validateOp O.wires = some t → (∀ m ∈ O.wires.modes, m ∈ X.wires.modes) →
      ∃ Z, X.expectKet f d ids ord ord O = some Z ∧ Z.wires.ws = [] ∧
        Z.arr.entry [] = ketExp M X.wires.modes.toFinset O.wires.modes.toFinset t X.ker O.ker := by
  constructor
  · rintro h
    unfold FComp.expectKet
    rcases hv : validateOp O.wires with _ | t
    · rfl
    · rw [hv] at h
      rcases h with h | h
      · cases h
      · dsimp only
        rw [if_pos h]
  intro t ht hs
  have hT : O.wires.modes.toFinset ⊆ X.wires.modes.toFinset := fun m hm => List.mem_toFinset.mpr (hs m (List.mem_toFinset.mp hm))
  have vv := C90_validate hO.quantum
  have kX := ketOn_of sX
  have rX : Rep M g X X.ker := ⟨hX, iX, rfl⟩
  have rO : Rep M g O O.ker := ⟨hO, iO, rfl⟩
  obtain ⟨left, hleft⟩ : ∃ l, l = X.wires.modes.filter fun m => m ∉ O.wires.modes := ⟨_, rfl⟩
  have nleft : left.Nodup := by
    rw [hleft]
    exact (List.nodup_dedup _).filter _
  have eleft : left.toFinset = X.wires.modes.toFinset \ O.wires.modes.toFinset := by
    rw [hleft]
    exact left_toFinset _ _
  unfold FComp.expectKet
  rw [ht]
  dsimp only
  rw [if_neg (not_not.mpr hs), ← hleft]
  cases t
  · have kO := ketOn_of (vv.1.mp ht).1
    obtain ⟨c1, c2, c3⟩ := comp_ket_ket (M := M) hT kX kO
    obtain ⟨dl, e1, r1⟩ := rO.dual hd
    obtain ⟨y, e3, r3⟩ := rX.contract r1 c1
    obtain ⟨da, e2, r2⟩ := r3.adjoint hf
    obtain ⟨z, e4, r4⟩ := r3.contract r2 c2
    rw [← eleft] at c3
    obtain ⟨Z, e5, w5, k5⟩ := r4.finish c3 f ids nleft (hord left)
    refine ⟨Z, ?_, w5, ?_⟩
    · simp only [e1, e2, e3, e4, Option.bind_eq_bind, Option.bind_some]
      exact e5
    · rw [k5 (fun _ => 0) fun _ => 0, eleft, exp_ket_ket hT X.ker_local O.ker_local kX kO]
      rfl
  · have kO := dmOn_of (vv.2.1.mp ht).1
    obtain ⟨c1, c2, c3⟩ := comp_ket_dm (M := M) hT kX kO
    obtain ⟨a, e0, r0⟩ := rX.adjoint hf
    obtain ⟨dl, e1, r1⟩ := rO.dual hd
    obtain ⟨y, e3, r3⟩ := rX.contract r1 c1
    obtain ⟨z, e4, r4⟩ := r0.contract r3 c2
    rw [← eleft] at c3
    obtain ⟨Z, e5, w5, k5⟩ := r4.finish c3 f ids nleft (hord left)
    refine ⟨Z, ?_, w5, ?_⟩
    · simp only [e0, e1, e3, e4, Option.bind_eq_bind, Option.bind_some]
      exact e5
    · rw [k5 (fun _ => 0) fun _ => 0, eleft, exp_ket_dm hT X.ker_local O.ker_local kX kO]
      rfl
  · have kO := opOn_of (vv.2.2.mp ht).1
    obtain ⟨c1, c2, c3⟩ := comp_ket_op (M := M) hT kX kO
    obtain ⟨y, e3, r3⟩ := rX.contract rO c1
    obtain ⟨dl, e1, r1⟩ := rX.dual hd
    obtain ⟨z, e4, r4⟩ := r3.contract r1 c2
    have hm : z.wires.modes = [] := by
      have := (scalar_of (Z := z) (by rw [r4.2.2]; exact c3.2) (by rw [r4.2.2]; exact c3.1)).1
      unfold Wires.modes
      rw [this]
      rfl
    obtain ⟨Z, e5, w5, k5⟩ := r4.finish (left := []) c3 f ids List.nodup_nil (hord [])
    refine ⟨Z, ?_, w5, ?_⟩
    · simp only [e3, e1, e4, Option.bind_eq_bind, Option.bind_some, hm]
      exact e5
    · rw [k5 (fun _ => 0) fun _ => 0, List.toFinset_nil, trK_empty, exp_ket_op hT X.ker_local O.ker_local kX kO]
      rfl

end Verif.CompV
