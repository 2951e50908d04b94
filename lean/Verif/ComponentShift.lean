import Verif.ComponentAdj
import Verif.Circuits

/-!
# `>>` of Fock components (C88)
-/

namespace Verif.CompV

open Verif.WireModel Verif.Arr Verif.Fock Verif.PolyExp Verif.Circuits

/-- An exception of `contract`. -/
def ofOpt : Option FComp → Except CErr FComp
  | some Z => .ok Z
  | none => .error (.shift .valueError)

/-- lab/circuit_components.py:957-1009 `__rshift__` between components in the Fock representation.  `f` provides the identifiers of the adjoint.  A component
without wires stands for the scalar it holds (`_rshift_return`, 809-816); `>>` with a scalar on either side is not modelled here (`typeError`). -/
noncomputable def FComp.rshift (f : Nat → Nat) (X Y : FComp) : Except CErr FComp :=
  if X.wires.ws = [] ∨ Y.wires.ws = [] then .error .typeError
  else
    let sk := X.wires.ket.nonempty
    let sb := X.wires.bra.nonempty
    let ok := Y.wires.ket.nonempty
    let ob := Y.wires.bra.nonempty
    let onlyKet := (!sb && sk) && (!ob && ok)
    let onlyBra := (!sk && sb) && (!ok && ob)
    let bothSides := sb && sk && ob && ok
    let selfNeedsBra := (!sb && sk) && (ob && ok)
    let selfNeedsKet := (!sk && sb) && (ob && ok)
    let otherNeedsBra := (sb && sk) && (!ob && ok)
    let otherNeedsKet := (sb && sk) && (!ok && ob)
    if onlyKet || onlyBra || bothSides then ofOpt (X.contract Y)
    else if selfNeedsBra || selfNeedsKet then ofOpt do
      let a ← X.adjoint f
      let z ← X.contract Y
      a.contract z
    else if otherNeedsBra || otherNeedsKet then ofOpt do
      let b ← Y.adjoint f
      let z ← X.contract b
      z.contract Y
    else .error (.shift .valueError)

/-! ## The adjoint kernel -/

def swapE : Chan ≃ Chan := ⟨swapC, swapC, swapC_swapC, swapC_swapC⟩

theorem mem_image_swap {T : Finset Chan} {c : Chan} : c ∈ T.image swapC ↔ swapC c ∈ T := by
  rw [Finset.mem_image]
  constructor
  · rintro ⟨d, hd, rfl⟩
    rw [swapC_swapC]
    exact hd
  · intro h
    exact ⟨_, h, swapC_swapC c⟩

theorem adjK_local {K : Ker Chan} (h : K.Local) : (adjK K).Local := by
  intro o o' i i' ho hi
  refine congrArg (starRingEnd ℂ) (h _ _ _ _ (fun c hc => ho _ ?_) fun c hc => hi _ ?_)
  · exact mem_image_swap.mpr (by rw [swapC_swapC]; exact hc)
  · exact mem_image_swap.mpr (by rw [swapC_swapC]; exact hc)

theorem adjK_below {M : ℕ} {K : Ker Chan} (h : K.Below M) : (adjK K).Below M := by
  intro o i hoi
  show (starRingEnd ℂ) _ = 0
  rw [h]
  · exact map_zero _
  · rcases hoi with ⟨c, hc, hM⟩ | ⟨c, hc, hM⟩
    · exact Or.inl ⟨swapC c, mem_image_swap.mp hc, by rw [swapC_swapC]; exact hM⟩
    · exact Or.inr ⟨swapC c, mem_image_swap.mp hc, by rw [swapC_swapC]; exact hM⟩

theorem adjK_adjK (K : Ker Chan) : adjK (adjK K) = K := by
  refine Ker.eq_of ?_ ?_ fun o i => ?_
  · ext c
    show c ∈ (K.outs.image swapC).image swapC ↔ _
    rw [mem_image_swap, mem_image_swap, swapC_swapC]
  · ext c
    show c ∈ (K.ins.image swapC).image swapC ↔ _
    rw [mem_image_swap, mem_image_swap, swapC_swapC]
  · show (starRingEnd ℂ) ((starRingEnd ℂ) (K.fn _ _)) = _
    rw [Complex.conj_conj]
    simp only [swapC_swapC]

/-- **C88** the adjoint of a composition is the composition of the adjoints. -/
theorem adjK_seq (M : ℕ) (A B : Ker Chan) : adjK (Ker.seq M A B) = Ker.seq M (adjK A) (adjK B) := by
  have hT : (adjK A).outs ∩ (adjK B).ins = (A.outs ∩ B.ins).image swapE := by
    ext c
    show c ∈ A.outs.image swapC ∩ B.ins.image swapC ↔ c ∈ (A.outs ∩ B.ins).image swapC
    rw [Finset.mem_inter, mem_image_swap, mem_image_swap, mem_image_swap, Finset.mem_inter]
  refine Ker.eq_of ?_ ?_ fun o i => ?_
  · ext c
    show c ∈ (B.outs ∪ (A.outs \ B.ins)).image swapC ↔ c ∈ B.outs.image swapC ∪ (A.outs.image swapC \ B.ins.image swapC)
    simp only [mem_image_swap, Finset.mem_union, Finset.mem_sdiff]
  · ext c
    show c ∈ (A.ins ∪ (B.ins \ A.outs)).image swapC ↔ c ∈ A.ins.image swapC ∪ (B.ins.image swapC \ A.outs.image swapC)
    simp only [mem_image_swap, Finset.mem_union, Finset.mem_sdiff]
  · show (starRingEnd ℂ) (tot M (A.outs ∩ B.ins) fun z => A.fn (over (A.outs ∩ B.ins) z fun c => o (swapC c)) (fun c => i (swapC c)) *
        B.fn (fun c => o (swapC c)) (over (A.outs ∩ B.ins) z fun c => i (swapC c))) =
      tot M ((adjK A).outs ∩ (adjK B).ins) fun z => (starRingEnd ℂ) (A.fn (fun c => over ((adjK A).outs ∩ (adjK B).ins) z o (swapC c)) fun c => i (swapC c)) *
        (starRingEnd ℂ) (B.fn (fun c => o (swapC c)) fun c => over ((adjK A).outs ∩ (adjK B).ins) z i (swapC c))
    have ho : ∀ (z o : Chan → ℕ) (c : Chan), over ((A.outs ∩ B.ins).image swapE) z o (swapC c) =
        over (A.outs ∩ B.ins) (fun c => z (swapE c)) (fun c => o (swapC c)) c := by
      intro z o c
      unfold over
      have : swapC c ∈ (A.outs ∩ B.ins).image swapE ↔ c ∈ A.outs ∩ B.ins := by
        show swapC c ∈ (A.outs ∩ B.ins).image swapC ↔ _
        rw [mem_image_swap, swapC_swapC]
      by_cases h : c ∈ A.outs ∩ B.ins
      · rw [if_pos h, if_pos (this.mpr h)]
        rfl
      · rw [if_neg h, if_neg fun h' => h (this.mp h')]
    rw [hT]
    simp only [ho]
    rw [conj_tot, ← tot_rename swapE M (A.outs ∩ B.ins)]
    refine tot_congr fun z _ _ => ?_
    rw [map_mul]

theorem FComp.ker_below {M : ℕ} {X : FComp} (hX : X.WF M) : X.ker.Below M := by
  intro o i h
  refine Arr.entry_of_not fun hin => ?_
  rw [inB_iff_getD] at hin
  have key : ∀ w ∈ X.wires.ws, slotVal o i w < M := by
    intro w hw
    have h1 := hX.good.getElem?_index hw
    obtain ⟨hlt, _⟩ := List.getElem?_eq_some_iff.mp h1
    rw [length_sortedWires] at hlt
    have := hin.2 w.index (by rw [hX.axes]; exact hlt)
    rw [List.getD_eq_getElem?_getD, List.getElem?_map, h1] at this
    exact lt_of_lt_of_le this (getD_le hX.dims _)
  rcases h with ⟨⟨s, m⟩, hc, hM⟩ | ⟨⟨s, m⟩, hc, hM⟩
  · obtain ⟨w, hw, e⟩ := FComp.mem_ins.mp hc
    simp only [Wire.slot, Prod.mk.injEq] at e
    have := key w hw
    unfold slotVal wchan at this
    rw [e.1, e.2.1, e.2.2] at this
    simp only [Bool.false_eq_true, if_false] at this
    omega
  · obtain ⟨w, hw, e⟩ := FComp.mem_outs.mp hc
    simp only [Wire.slot, Prod.mk.injEq] at e
    have := key w hw
    unfold slotVal wchan at this
    rw [e.1, e.2.1, e.2.2] at this
    simp only [if_true] at this
    omega

/-! ## Sides -/

/-- Wires on both sides. -/
def Two (W : Wires) : Prop := OnSide W .ket ∧ OnSide W .bra
/-- Wires on the side `s` only. -/
def OneS (W : Wires) (s : Side) : Prop := (∃ o m, Has W s o m) ∧ s ≠ .classical ∧ ∀ t o m, Has W t o m → t = s

theorem oneS_apart {M : ℕ} {X Y : FComp} {s : Side} (hX : OneS X.wires s) (hY : OneS Y.wires s) : X.ker.Apart (adjK Y.ker) := by
  rintro ⟨t, m⟩ h
  have ht : t = s := by
    rcases h with h | h
    · exact hX.2.2 t true m (FComp.mem_outs.mp h)
    · exact hX.2.2 t false m (FComp.mem_ins.mp h)
  subst ht
  have hne : t.swap ≠ t := by
    have := hX.2.1
    cases t <;> simp [Side.swap] at this ⊢
  constructor
  · intro hc
    have hc' := mem_image_swap.mp hc
    exact hne (hY.2.2 _ _ _ (FComp.mem_outs.mp hc'))
  · intro hc
    have hc' := mem_image_swap.mp hc
    exact hne (hY.2.2 _ _ _ (FComp.mem_ins.mp hc'))

/-- The operator of a component together with its adjoint on the other side. -/
noncomputable def dbl (M : ℕ) (K : Ker Chan) : Ker Chan := Ker.seq M K (adjK K)

theorem oneS_of {M : ℕ} {X : FComp} (hX : X.WF M) {s : Side} (h1 : OnSide X.wires s) (hs : s ≠ .classical) (h2 : ¬ OnSide X.wires s.swap) : OneS X.wires s := by
  refine ⟨h1, hs, fun t o m h => ?_⟩
  have hq := no_classical hX.quantum o m
  have : t ≠ s.swap := fun e => h2 ⟨o, m, e ▸ h⟩
  have hc : t ≠ .classical := fun e => hq (e ▸ h)
  revert this hc hs
  cases t <;> cases s <;> simp [Side.swap]

/-- What `>>` computes. -/
theorem rshift_facts {M : ℕ} {g : ℕ → Side × Bool × Int} {f : Nat → Nat} (hf : ∀ n, g (f n) = ((g n).1.swap, (g n).2)) {X Y Z : FComp} (hX : X.WF M) (hY : Y.WF M)
    (iX : IdOk g X.wires) (iY : IdOk g Y.wires) (h : X.rshift f Y = .ok Z) :
    Z.WF M ∧ IdOk g Z.wires ∧ X.wires.ws ≠ [] ∧ Y.wires.ws ≠ [] ∧ WireModel.rshift X.wires Y.wires f = .ok Z.wires ∧
    ((X.ker.Comp Y.ker ∧ Z.ker = Ker.seq M X.ker Y.ker ∧ ((Two X.wires ∧ Two Y.wires) ∨ ∃ s, OneS X.wires s ∧ OneS Y.wires s)) ∨
     (X.ker.Comp Y.ker ∧ (adjK X.ker).Comp (Ker.seq M X.ker Y.ker) ∧ Z.ker = Ker.seq M (adjK X.ker) (Ker.seq M X.ker Y.ker) ∧ Two Y.wires ∧ ∃ s, OneS X.wires s) ∨
     (X.ker.Comp (adjK Y.ker) ∧ (Ker.seq M X.ker (adjK Y.ker)).Comp Y.ker ∧ Z.ker = Ker.seq M (Ker.seq M X.ker (adjK Y.ker)) Y.ker ∧ Two X.wires ∧
        ∃ s, OneS Y.wires s)) := by
  unfold FComp.rshift at h
  dsimp only at h
  by_cases he : X.wires.ws = [] ∨ Y.wires.ws = []
  · rw [if_pos he] at h
    cases h
  rw [if_neg he] at h
  rw [not_or] at he
  have ab : X.wires.bra.nonempty = true ↔ OnSide X.wires .bra := nonempty_bra _
  have ak : X.wires.ket.nonempty = true ↔ OnSide X.wires .ket := nonempty_ket _
  have bb : Y.wires.bra.nonempty = true ↔ OnSide Y.wires .bra := nonempty_bra _
  have bk : Y.wires.ket.nonempty = true ↔ OnSide Y.wires .ket := nonempty_ket _
  have plain : ∀ {Z : FComp}, ofOpt (X.contract Y) = .ok Z → Z.WF M ∧ IdOk g Z.wires ∧ matmulWires X.wires Y.wires = .ok Z.wires ∧ X.ker.Comp Y.ker ∧
      Z.ker = Ker.seq M X.ker Y.ker := by
    intro Z h
    cases hc : X.contract Y with
    | none => rw [hc] at h; cases h
    | some Z' =>
      rw [hc] at h
      cases h
      obtain ⟨h1, h2, h3, h4, h5⟩ := contract_wf hX hY iX iY hc
      exact ⟨h2, h3, h4, comp_iff.mpr h1, h5⟩
  have left : ∀ {Z : FComp}, ofOpt (do let a ← X.adjoint f; let z ← X.contract Y; a.contract z) = .ok Z → Z.WF M ∧ IdOk g Z.wires ∧
      (do matmulWires (X.wires.adjoint f) (← matmulWires X.wires Y.wires)) = .ok Z.wires ∧ X.ker.Comp Y.ker ∧
      (adjK X.ker).Comp (Ker.seq M X.ker Y.ker) ∧ Z.ker = Ker.seq M (adjK X.ker) (Ker.seq M X.ker Y.ker) := by
    intro Z h
    cases ha : X.adjoint f with
    | none => rw [ha] at h; cases h
    | some A =>
    cases hc : X.contract Y with
    | none => rw [ha, hc] at h; cases h
    | some V =>
    rw [ha, hc] at h
    simp only [Option.bind_eq_bind, Option.bind_some] at h
    cases hz : A.contract V with
    | none => rw [hz] at h; cases h
    | some Z' =>
    rw [hz] at h
    cases h
    obtain ⟨a1, a2, a3, a4⟩ := adjoint_wf hX iX hf ha
    obtain ⟨h1, h2, h3, h4, h5⟩ := contract_wf hX hY iX iY hc
    obtain ⟨k1, k2, k3, k4, k5⟩ := contract_wf a1 h2 a2 h3 hz
    refine ⟨k2, k3, ?_, comp_iff.mpr h1, ?_, ?_⟩
    · rw [h4, ← a3]
      exact k4
    · rw [← a4, ← h5]
      exact comp_iff.mpr k1
    · rw [k5, a4, h5]
  have right : ∀ {Z : FComp}, ofOpt (do let b ← Y.adjoint f; let z ← X.contract b; z.contract Y) = .ok Z → Z.WF M ∧ IdOk g Z.wires ∧
      (do matmulWires (← matmulWires X.wires (Y.wires.adjoint f)) Y.wires) = .ok Z.wires ∧ X.ker.Comp (adjK Y.ker) ∧
      (Ker.seq M X.ker (adjK Y.ker)).Comp Y.ker ∧ Z.ker = Ker.seq M (Ker.seq M X.ker (adjK Y.ker)) Y.ker := by
    intro Z h
    cases ha : Y.adjoint f with
    | none => rw [ha] at h; cases h
    | some A =>
    rw [ha] at h
    simp only [Option.bind_eq_bind, Option.bind_some] at h
    cases hc : X.contract A with
    | none => rw [hc] at h; cases h
    | some V =>
    rw [hc] at h
    simp only [Option.bind_some] at h
    cases hz : V.contract Y with
    | none => rw [hz] at h; cases h
    | some Z' =>
    rw [hz] at h
    cases h
    obtain ⟨a1, a2, a3, a4⟩ := adjoint_wf hY iY hf ha
    obtain ⟨h1, h2, h3, h4, h5⟩ := contract_wf hX a1 iX a2 hc
    obtain ⟨k1, k2, k3, k4, k5⟩ := contract_wf h2 hY h3 iY hz
    rw [a3] at h4
    refine ⟨k2, k3, ?_, ?_, ?_, ?_⟩
    · rw [h4]
      exact k4
    · rw [← a4]
      exact comp_iff.mpr h1
    · rw [← a4, ← h5]
      exact comp_iff.mpr k1
    · rw [k5, h5, a4]
  unfold WireModel.rshift
  dsimp only
  rcases eab : X.wires.bra.nonempty with _ | _ <;> rcases eak : X.wires.ket.nonempty with _ | _ <;>
    rcases ebb : Y.wires.bra.nonempty with _ | _ <;> rcases ebk : Y.wires.ket.nonempty with _ | _ <;>
    simp only [eab, eak, ebb, ebk, Bool.false_eq_true, false_iff, true_iff] at h ab ak bb bk ⊢ <;>
    simp only [Bool.not_true, Bool.not_false, Bool.and_true, Bool.true_and, Bool.and_false, Bool.false_and, Bool.and_self, Bool.or_false, Bool.false_or, Bool.or_self,
      Bool.or_true, Bool.true_or, if_true, Bool.false_eq_true, if_false, reduceCtorEq] at h ⊢
  all_goals first
    | (obtain ⟨p1, p2, p3, p4, p5, p6⟩ := left h
       refine ⟨p1, p2, he.1, he.2, p3, Or.inr (Or.inl ⟨p4, p5, p6, ⟨bk, bb⟩, ?_⟩)⟩
       first
       | exact ⟨.ket, oneS_of hX ak (by simp) ab⟩
       | exact ⟨.bra, oneS_of hX ab (by simp) ak⟩)
    | (obtain ⟨p1, p2, p3, p4, p5, p6⟩ := right h
       refine ⟨p1, p2, he.1, he.2, p3, Or.inr (Or.inr ⟨p4, p5, p6, ⟨ak, ab⟩, ?_⟩)⟩
       first
       | exact ⟨.ket, oneS_of hY bk (by simp) bb⟩
       | exact ⟨.bra, oneS_of hY bb (by simp) bk⟩)
    | (obtain ⟨p1, p2, p3, p4, p5⟩ := plain h
       refine ⟨p1, p2, he.1, he.2, p3, Or.inl ⟨p4, p5, ?_⟩⟩
       first
       | exact Or.inl ⟨⟨ak, ab⟩, ⟨bk, bb⟩⟩
       | exact Or.inr ⟨.ket, oneS_of hX ak (by simp) ab, oneS_of hY bk (by simp) bb⟩
       | exact Or.inr ⟨.bra, oneS_of hX ab (by simp) ak, oneS_of hY bb (by simp) bk⟩)

end Verif.CompV
