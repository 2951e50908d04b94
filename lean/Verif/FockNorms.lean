import Verif.ExpectationLaws

/-!
# Norm, probability, purity and normalisation of Fock states (C91)
-/

namespace Verif.CompV

open Verif.WireModel Verif.Arr Verif.Fock Verif.PolyExp Verif.Circuits

/-- lab/states/base.py:141-158 `L2_norm` of an unbatched state in the Fock representation.  `none` is an exception. -/
noncomputable def FComp.l2 (d : Nat → Nat) (X : FComp) : Option ℝ := do
  let dl ← X.dual d
  let Z ← X.contract dl
  some (Z.arr.scalar []).re

/-- lab/states/ket.py:91-108 `probability` of a ket. -/
noncomputable def FComp.probKet (d : Nat → Nat) (X : FComp) : Option ℝ := X.l2 d

/-- lab/states/dm.py:101-110 `probability` of a density matrix. -/
noncomputable def FComp.probDM (X : FComp) : Option ℝ := do
  let r ← X.arr.trace X.wires.output.ket.indices X.wires.output.bra.indices
  some (r.scalar []).re

/-- lab/states/dm.py:112-124 `purity` of a density matrix. -/
noncomputable def FComp.purityDM (d : Nat → Nat) (X : FComp) : Option ℝ := do
  let n ← X.l2 d
  let p ← X.probDM
  some (n / p ^ 2)

/-- lab/states/base.py:485-500 `normalize`; `prob` is the probability of the state. -/
noncomputable def FComp.normalize (prob : Option ℝ) (X : FComp) : Option FComp := do
  let p ← prob
  if X.wires.ket.ws = [] ∨ X.wires.bra.ws = [] then some ⟨X.wires, X.arr.div (Real.sqrt p : ℂ)⟩ else some ⟨X.wires, X.arr.div (p : ℂ)⟩

/-! ## Specification -/

/-- Sum of a real function over the photon numbers of the modes `N`. -/
noncomputable def rtot (M : ℕ) (N : Finset Int) (F : (Int → ℕ) → ℝ) : ℝ := ∑ k ∈ N.finsupp fun _ => Finset.range M, F k
/-- Specification: `⟨ψ|ψ⟩`. -/
noncomputable def ketNorm (M : ℕ) (N : Finset Int) (ψ : Ker Chan) : ℝ := rtot M N fun k => ‖ketV ψ k‖ ^ 2
/-- Specification: the squared Hilbert-Schmidt norm. -/
noncomputable def dmNorm (M : ℕ) (N : Finset Int) (ρ : Ker Chan) : ℝ := rtot M N fun k => rtot M N fun b => ‖dmV ρ k b‖ ^ 2
/-- Specification: the trace. -/
noncomputable def dmTr (M : ℕ) (N : Finset Int) (ρ : Ker Chan) : ℂ := tot M N fun k => dmV ρ k k

variable {M : ℕ} {g : ℕ → Side × Bool × Int} {f d : Nat → Nat}

theorem scalar_entry {Z : FComp} (hb : Z.arr.batchDims = 0) (ha : Z.arr.shape.length = Z.wires.len) (hw : Z.wires.ws = []) : Z.arr.scalar [] = Z.arr.entry [] := by
  have h0 : Z.arr.shape = [] := by
    have : Z.wires.len = 0 := by
      unfold Wires.len
      rw [hw]
      rfl
    rw [this] at ha
    exact List.length_eq_zero_iff.mp ha
  unfold Arr.scalar Arr.entry Arr.core
  rw [h0]
  simp [inb]

theorem ofReal_tot (M : ℕ) (N : Finset Int) (F : (Int → ℕ) → ℝ) : ((rtot M N F : ℝ) : ℂ) = tot M N fun k => (F k : ℂ) := by
  unfold rtot
  rw [Complex.ofReal_sum]
  rfl

theorem conj_mul_norm (z : ℂ) : z * (starRingEnd ℂ) z = ((‖z‖ ^ 2 : ℝ) : ℂ) := by
  rw [Complex.mul_conj, Complex.normSq_eq_norm_sq]

/-- The number computed by `L2_norm`. -/
theorem l2_of (hd : ∀ n, g (d n) = ((g n).1, !(g n).2.1, (g n).2.2)) {X : FComp} (hX : X.WF M) (iX : IdOk g X.wires) (hi : X.ker.ins = ∅) :
    X.l2 d = some (tot M X.ker.outs fun z => X.ker.fn z (fun _ => 0) * (starRingEnd ℂ) (X.ker.fn z fun _ => 0)).re := by
  have rX : Rep M g X X.ker := ⟨hX, iX, rfl⟩
  obtain ⟨dl, e1, r1⟩ := rX.dual hd
  have hc : X.ker.Comp (dualK X.ker) := by
    intro c
    rw [hi]
    show ¬ (c ∈ X.ker.ins ∧ _) ∧ _
    rw [hi]
    simp
  obtain ⟨Z, e2, wZ, iZ, kZ⟩ := rX.contract r1 hc
  have ho : Z.ker.outs = ∅ := by
    rw [kZ]
    show X.ker.ins ∪ (X.ker.outs \ X.ker.outs) = ∅
    rw [hi]
    simp
  have hin : Z.ker.ins = ∅ := by
    rw [kZ]
    show X.ker.ins ∪ (X.ker.outs \ X.ker.outs) = ∅
    rw [hi]
    simp
  obtain ⟨s1, s2⟩ := scalar_of ho hin
  unfold FComp.l2
  rw [e1]
  simp only [Option.bind_eq_bind, Option.bind_some, e2, scalar_entry wZ.batch wZ.axes s1, s2 (fun _ => 0) fun _ => 0, kZ]
  refine congrArg some (congrArg Complex.re ?_)
  show (tot M (X.ker.outs ∩ X.ker.outs) fun z => X.ker.fn (over (X.ker.outs ∩ X.ker.outs) z fun _ => 0) (fun _ => 0) *
    (starRingEnd ℂ) (X.ker.fn (over (X.ker.outs ∩ X.ker.outs) z fun _ => 0) fun _ => 0)) = _
  rw [Finset.inter_self]
  refine tot_congr fun z _ hz => ?_
  have : over X.ker.outs z (fun _ => 0) = z := by
    funext c
    unfold over
    by_cases h : c ∈ X.ker.outs
    · rw [if_pos h]
    · rw [if_neg h, hz c h]
  rw [this]

/-- **C91** (norm of a ket) `ket.L2_norm` and `ket.probability` are the sum of the squared moduli of the amplitudes. -/
theorem C91_ket (hd : ∀ n, g (d n) = ((g n).1, !(g n).2.1, (g n).2.2)) {X : FComp} (hX : X.WF M) (iX : IdOk g X.wires) {N : Finset Int} (sX : KetW N X.wires) :
    X.l2 d = some (ketNorm M N X.ker) ∧ X.probKet d = some (ketNorm M N X.ker) := by
  have h := ketOn_of sX
  have e : X.l2 d = some (ketNorm M N X.ker) := by
    rw [l2_of hd hX iX h.1, h.2, tot_ket]
    refine congrArg some ?_
    have e : (tot M N fun k => X.ker.fn (stv k fun _ => 0) (fun _ => 0) * (starRingEnd ℂ) (X.ker.fn (stv k fun _ => 0) fun _ => 0)) = ((ketNorm M N X.ker : ℝ) : ℂ) := by
      unfold ketNorm
      rw [ofReal_tot]
      exact tot_congr fun k _ _ => conj_mul_norm _
    rw [e, Complex.ofReal_re]
  exact ⟨e, e⟩

/-- **C91** (norm of a density matrix) `dm.L2_norm` is the sum of the squared moduli of the entries. -/
theorem C91_dm_norm (hd : ∀ n, g (d n) = ((g n).1, !(g n).2.1, (g n).2.2)) {X : FComp} (hX : X.WF M) (iX : IdOk g X.wires) {N : Finset Int} (sX : DmW N X.wires) :
    X.l2 d = some (dmNorm M N X.ker) := by
  have h := dmOn_of sX
  rw [l2_of hd hX iX h.1, h.2, tot_chan]
  refine congrArg some ?_
  have e : (tot M N fun k => tot M N fun b => X.ker.fn (stv k b) (fun _ => 0) * (starRingEnd ℂ) (X.ker.fn (stv k b) fun _ => 0)) = ((dmNorm M N X.ker : ℝ) : ℂ) := by
    unfold dmNorm
    rw [ofReal_tot]
    refine tot_congr fun k _ _ => ?_
    rw [ofReal_tot]
    exact tot_congr fun b _ _ => conj_mul_norm _
  rw [e, Complex.ofReal_re]

/-- The axes of the outputs on one side, as computed by `indices`, are those found mode by mode. -/
theorem indices_eq {W : Wires} (gW : Good W) (s : Side) : (⟨W.output.ws.filter fun w => w.side == s⟩ : Wires).indices =
    idxOf ⟨W.output.ws.filter fun w => w.side == s⟩ ((⟨W.output.ws.filter fun w => w.side == s⟩ : Wires).sortedWires.map Wire.mode) := by
  unfold idxOf
  rw [List.map_map]
  unfold Wires.indices
  refine List.map_congr_left fun w hw => ?_
  rw [mem_sortedWires] at hw
  have hw' := hw
  simp only [Wires.output, List.mem_filter, beq_iff_eq] at hw'
  have hh : Has W s true w.mode := ⟨w, hw'.1.1, by simp [Wire.slot, hw'.1.2, hw'.2]⟩
  obtain ⟨v, _, h2, h3, h4⟩ := idx_spec gW hh
  have : v = w := gW.distinct.inj h3 hw'.1.1 (h2.trans (by simp [Wire.slot, hw'.1.2, hw'.2]))
  subst this
  exact h4.symm

theorem modes_sorted {W : Wires} (gW : Good W) (s : Side) : (((⟨W.output.ws.filter fun w => w.side == s⟩ : Wires).sortedWires.map Wire.mode).Pairwise (· < ·)) ∧
    ∀ m, m ∈ (⟨W.output.ws.filter fun w => w.side == s⟩ : Wires).sortedWires.map Wire.mode ↔ Has W s true m := by
  have hsub : ∀ w ∈ (⟨W.output.ws.filter fun w => w.side == s⟩ : Wires).sortedWires, w ∈ W.ws ∧ w.side = s ∧ w.isOut = true := by
    intro w hw
    rw [mem_sortedWires] at hw
    simp only [Wires.output, List.mem_filter, beq_iff_eq] at hw
    exact ⟨hw.1.1, hw.2, hw.1.2⟩
  constructor
  · refine pairwise_mode_of_block (s := s) (o := true) (sortedWires_stdLt ?_ ?_) fun w hw => (hsub w hw).2
    · exact gW.distinct.sublist ((List.filter_sublist.trans List.filter_sublist).map _)
    · intro w hw
      exact gW.inRange w (hsub w (mem_sortedWires.mpr hw)).1
  · intro m
    rw [List.mem_map]
    constructor
    · rintro ⟨w, hw, rfl⟩
      have := hsub w hw
      exact ⟨w, this.1, by simp [Wire.slot, this.2]⟩
    · rintro ⟨w, hw, e⟩
      simp only [Wire.slot, Prod.mk.injEq] at e
      refine ⟨w, mem_sortedWires.mpr ?_, e.2.2⟩
      simp only [Wires.output, List.mem_filter, beq_iff_eq]
      exact ⟨⟨hw, e.2.1⟩, e.1⟩

/-- **C91** (probability of a density matrix) `dm.probability` is the real part of the trace. -/
theorem C91_dm_prob {X : FComp} (hX : X.WF M) (iX : IdOk g X.wires) {N : Finset Int} (sX : DmW N X.wires) (hne : N.Nonempty) : X.probDM = some (dmTr M N X.ker).re := by
  obtain ⟨oz, hoz⟩ : ∃ oz, oz = (⟨X.wires.output.ws.filter fun w => w.side == .ket⟩ : Wires).sortedWires.map Wire.mode := ⟨_, rfl⟩
  obtain ⟨p1, m1⟩ := modes_sorted hX.good .ket
  obtain ⟨p2, m2⟩ := modes_sorted hX.good .bra
  rw [← hoz] at p1 m1
  have hoz' : (⟨X.wires.output.ws.filter fun w => w.side == .bra⟩ : Wires).sortedWires.map Wire.mode = oz := by
    refine List.Perm.eq_of_pairwise (fun a b _ _ h h' => by omega) p2 p1 ?_
    rw [List.perm_ext_iff_of_nodup (p2.imp fun h => ne_of_lt h) (p1.imp fun h => ne_of_lt h)]
    intro m
    rw [m1, m2, sX, sX]
    simp
  have memz : ∀ m, m ∈ oz ↔ m ∈ N := by
    intro m
    rw [m1, sX]
    simp
  have hfin : oz.toFinset = N := by
    ext m
    rw [List.mem_toFinset, memz]
  obtain ⟨m0, hm0⟩ := hne
  have hzne : oz ≠ [] := List.ne_nil_of_mem ((memz m0).mpr hm0)
  have hnd : oz.Nodup := p1.imp fun h => ne_of_lt h
  obtain ⟨Z, h1, h2, h3, h4, h5⟩ := C89_trace_both hX iX id id hzne hnd (fun m hm => by
    rw [memz] at hm
    exact ⟨(sX _ _ _).mpr ⟨Or.inl rfl, rfl, hm⟩, (sX _ _ _).mpr ⟨Or.inr rfl, rfl, hm⟩⟩) (List.Perm.refl oz)
  have htr : X.arr.trace (idxOf X.wires.output.ket oz) (idxOf X.wires.output.bra oz) = some Z.arr := by
    unfold FComp.traceOut at h1
    dsimp only at h1
    rw [if_neg (fun h => hzne ((trWires_nil _ _).mp h)), if_neg] at h1
    · simp only [Option.bind_eq_bind, Option.bind_eq_some_iff] at h1
      obtain ⟨r, e1, R, _, e2⟩ := h1
      cases e2
      exact e1
    · rintro (h | h)
      · exact ws_ne_nil ((sX _ _ _).mpr ⟨Or.inl rfl, rfl, hm0⟩) h
      · exact ws_ne_nil ((sX _ _ _).mpr ⟨Or.inr rfl, rfl, hm0⟩) h
  have ek : X.wires.output.ket.indices = idxOf X.wires.output.ket oz := by
    rw [hoz]
    exact indices_eq hX.good .ket
  have eb : X.wires.output.bra.indices = idxOf X.wires.output.bra oz := by
    rw [← hoz']
    exact indices_eq hX.good .bra
  have ho : Z.ker.outs = ∅ := by
    ext ⟨s, m⟩
    rw [FComp.mem_outs, h4, sX, memz]
    simp
  have hi : Z.ker.ins = ∅ := by
    ext ⟨s, m⟩
    rw [FComp.mem_ins, h4, sX]
    simp
  obtain ⟨s1, s2⟩ := scalar_of ho hi
  unfold FComp.probDM
  rw [ek, eb, htr]
  simp only [Option.bind_eq_bind, Option.bind_some, scalar_entry h2.batch h2.axes s1, s2 (fun _ => 0) fun _ => 0, h5, hfin]
  refine congrArg some (congrArg Complex.re ?_)
  show (tot M N fun z => X.ker.fn (fun c => if c.2 ∈ N then z c.2 else 0) fun _ => 0) = tot M N fun k => dmV X.ker k k
  refine tot_congr fun z _ _ => dm_at X.ker_local (dmOn_of sX) ?_ ?_
  · intro m hm
    dsimp only
    rw [if_pos hm]
  · intro m hm
    dsimp only
    rw [if_pos hm]

/-- **C91** (purity) `dm.purity` is `Σ|ρ|² / (Re Tr ρ)²`. -/
theorem C91_dm_purity (hd : ∀ n, g (d n) = ((g n).1, !(g n).2.1, (g n).2.2)) {X : FComp} (hX : X.WF M) (iX : IdOk g X.wires) {N : Finset Int} (sX : DmW N X.wires)
    (hne : N.Nonempty) : X.purityDM d = some (dmNorm M N X.ker / (dmTr M N X.ker).re ^ 2) := by
  unfold FComp.purityDM
  rw [C91_dm_norm hd hX iX sX, C91_dm_prob hX iX sX hne]
  rfl

end Verif.CompV
