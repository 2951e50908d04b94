import Verif.ExpectationProps

/-!
# Laws of `expectation` (C90)
-/

namespace Verif.CompV

open Verif.WireModel Verif.Arr Verif.Fock Verif.PolyExp Verif.Circuits

variable {M : ℕ} {g : ℕ → Side × Bool × Int} {f d : Nat → Nat}

/-- The matrix of a pure state. -/
theorem dmV_dbl {N : Finset Int} {K : Ker Chan} (hl : K.Local) (h : KetOn N K) (k b : Int → ℕ) : dmV (dbl M K) k b = ketV K k * (starRingEnd ℂ) (ketV K b) := by
  have hS : K.outs ∩ (adjK K).ins = ∅ := by
    show K.outs ∩ K.ins.image swapC = ∅
    rw [h.1]
    simp
  show (tot M (K.outs ∩ (adjK K).ins) fun z => K.fn (over (K.outs ∩ (adjK K).ins) z (stv k b)) (fun _ => 0) *
    (starRingEnd ℂ) (K.fn (fun c => stv k b (swapC c)) fun c => over (K.outs ∩ (adjK K).ins) z (fun _ => 0) (swapC c))) = _
  rw [hS, tot_empty, ket_at hl h (k := k), ket_at hl h (k := b)]
  · intro m _
    rfl
  · intro m _
    simp [over, stv]

/-- **C90** (kets as density matrices, specification level). -/
theorem ketExp_eq {N T : Finset Int} {K O : Ker Chan} (hl : K.Local) (h : KetOn N K) (t : OpType) : ketExp M N T t K O = dmExp M N T t (dbl M K) O := by
  cases t
  · unfold ketExp dmExp
    simp only [dmV_dbl hl h]
    rw [tot_comm (U := T) (T := T)]
    have e : ∀ l : Int → ℕ, (tot M T fun k => ketV K (over T k l) * (starRingEnd ℂ) (ketV O k)) * (starRingEnd ℂ) (tot M T fun k => ketV K (over T k l) * (starRingEnd ℂ) (ketV O k)) =
        tot M T fun b => tot M T fun k => ketV K (over T k l) * (starRingEnd ℂ) (ketV K (over T b l)) * ((starRingEnd ℂ) (ketV O k) * ketV O b) := by
      intro l
      rw [conj_tot, tot_mul]
      refine tot_congr fun b _ _ => ?_
      rw [mul_comm, tot_mul]
      refine tot_congr fun k _ _ => ?_
      rw [map_mul, Complex.conj_conj]
      ring
    simp only [e]
    rw [tot_comm]
    refine tot_congr fun b _ _ => ?_
    rw [tot_comm]
  · unfold ketExp dmExp
    simp only [dmV_dbl hl h]
  · unfold ketExp dmExp
    simp only [dmV_dbl hl h]
    refine tot_congr fun a _ _ => tot_congr fun k _ _ => ?_
    ring

theorem ketW_oneS {X : FComp} (sX : KetW X.wires.modes.toFinset X.wires) (hne : X.wires.ws ≠ []) : OneS X.wires .ket := by
  obtain ⟨w, hw⟩ := List.exists_mem_of_ne_nil _ hne
  have hh : Has X.wires w.side w.isOut w.mode := ⟨w, hw, rfl⟩
  have h0 := (sX _ _ _).mp hh
  refine ⟨⟨_, _, h0.1 ▸ hh⟩, by simp, fun t o m h => ((sX _ _ _).mp h).1⟩

/-- **C90** (kets as density matrices) the expectation value of an operator in a ket is its expectation value in the density matrix of the ket. -/
theorem C90_ket_dm (hf : ∀ n, g (f n) = ((g n).1.swap, (g n).2)) (hd : ∀ n, g (d n) = ((g n).1, !(g n).2.1, (g n).2.2)) (ids ids' : Nat → Nat)
    {ord : List Int → List Int} (hord : ∀ l, (ord l).Perm l) {X O : FComp} (hX : X.WF M) (iX : IdOk g X.wires) (hO : O.WF M) (iO : IdOk g O.wires)
    (sX : KetW X.wires.modes.toFinset X.wires) (hne : X.wires.ws ≠ []) :
    ∃ D, X.dm f = some D ∧ ((X.expectKet f d ids ord ord O = none ∧ D.expectDM f d ids' ord ord O = none) ∨
      ∃ Z Z', X.expectKet f d ids ord ord O = some Z ∧ D.expectDM f d ids' ord ord O = some Z' ∧ Z.wires.ws = [] ∧ Z'.wires.ws = [] ∧ Z.arr.entry [] = Z'.arr.entry []) := by
  have hs := ketW_oneS sX hne
  obtain ⟨D, d1, d2, d3, d4, d5⟩ := dm_ker hf hX iX hs
  have hm : D.wires.modes.toFinset = X.wires.modes.toFinset := by
    ext m
    rw [mem_modes_iff, mem_modes_iff]
    constructor
    · rintro ⟨t, o, h⟩
      exact ⟨_, _, ((d4 _ _ _).mp h).2⟩
    · rintro ⟨t, o, h⟩
      have := ((sX _ _ _).mp h).1
      subst this
      exact ⟨.ket, o, (d4 _ _ _).mpr ⟨Or.inl rfl, h⟩⟩
  have sD : DmW D.wires.modes.toFinset D.wires := by
    intro t o m
    rw [d4, hm, sX]
    tauto
  have hm' : ∀ m, m ∈ D.wires.modes ↔ m ∈ X.wires.modes := by
    intro m
    rw [← List.mem_toFinset, hm, List.mem_toFinset]
  have a := C90_ket hf hd ids hord hX iX hO iO sX
  have b := C90_dm hf hd ids' hord d2 d3 hO iO sD
  refine ⟨D, d1, ?_⟩
  simp only [hm'] at b
  rcases hv : validateOp O.wires with _ | t
  · exact Or.inl ⟨a.1 (Or.inl hv), b.1 (Or.inl hv)⟩
  · by_cases hsub : ∀ m ∈ O.wires.modes, m ∈ X.wires.modes
    · obtain ⟨Z, z1, z2, z3⟩ := a.2 t hv hsub
      obtain ⟨Z', y1, y2, y3⟩ := b.2 t hv hsub
      refine Or.inr ⟨Z, Z', z1, y1, z2, y2, ?_⟩
      rw [z3, y3, hm, d5, ketExp_eq X.ker_local (ketOn_of sX)]
    · exact Or.inl ⟨a.1 (Or.inr hsub), b.1 (Or.inr hsub)⟩

/-- **C90** (Hermitian operators) for a Hermitian operator given as a density matrix the value is `Tr[ρ (O ⊗ 1)]`. -/
theorem C90_hermitian {N T : Finset Int} (ρ O : Ker Chan) (h : ∀ k b, dmV O b k = (starRingEnd ℂ) (dmV O k b)) :
    dmExp M N T .dm ρ O = tot M T fun k => tot M T fun b => tot M (N \ T) fun l => dmV ρ (over T k l) (over T b l) * dmV O b k := by
  unfold dmExp
  refine tot_congr fun k _ _ => tot_congr fun b _ _ => tot_congr fun l _ _ => ?_
  rw [h k b]

/-- **C90** (Hermitian operators are observables) the expectation value of a Hermitian operator in a Hermitian state is real. -/
theorem C90_real {N T : Finset Int} (ρ O : Ker Chan) (h : ∀ k b, dmV O b k = (starRingEnd ℂ) (dmV O k b)) (hρ : ∀ k b, dmV ρ b k = (starRingEnd ℂ) (dmV ρ k b)) :
    (starRingEnd ℂ) (dmExp M N T .dm ρ O) = dmExp M N T .dm ρ O := by
  unfold dmExp
  simp only [conj_tot, map_mul, Complex.conj_conj]
  rw [tot_comm (U := T) (T := T)]
  refine tot_congr fun b _ _ => tot_congr fun k _ _ => tot_congr fun l _ _ => ?_
  rw [← hρ, ← h]

/-- **C90** (Hermitian states) the values for `O` and its Hermitian conjugate are conjugate: for a density-matrix-like `O` the value is the conjugate of `Tr[ρ (O ⊗ 1)]`. -/
theorem C90_conj {N T : Finset Int} (ρ O : Ker Chan) (hρ : ∀ k b, dmV ρ b k = (starRingEnd ℂ) (dmV ρ k b)) :
    dmExp M N T .dm ρ O = (starRingEnd ℂ) (tot M T fun k => tot M T fun b => tot M (N \ T) fun l => dmV ρ (over T k l) (over T b l) * dmV O b k) := by
  unfold dmExp
  simp only [conj_tot, map_mul]
  rw [tot_comm (U := T) (T := T)]
  refine tot_congr fun b _ _ => tot_congr fun k _ _ => tot_congr fun l _ _ => ?_
  rw [← hρ]

/-! ## Disagreement for operators that are not Hermitian -/

/-- `|0⟩ + i|1⟩` on mode 0. -/
noncomputable def exPlus : FComp := ⟨⟨[wEx .ket true 0 0]⟩, ⟨0, [2], fun l => if l = [1] then Complex.I else 1⟩⟩

/-- `|0⟩⟨1|` on mode 0 as a density-matrix-like component. -/
noncomputable def exFlip : FComp := ⟨⟨[wEx .bra true 0 0, wEx .ket true 0 1]⟩, ⟨0, [2, 2], fun l => if l = [1, 0] then 1 else 0⟩⟩

/-- `|0⟩⟨1|` on mode 0 as an operator. -/
noncomputable def exFlipU : FComp := ⟨⟨[wEx .ket true 0 0, wEx .ket false 0 1]⟩, ⟨0, [2, 2], fun l => if l = [0, 1] then 1 else 0⟩⟩

theorem exPlus_wf : exPlus.WF 2 ∧ IdOk gEx exPlus.wires :=
  ⟨⟨⟨by decide, by decide, by decide⟩, by decide, by decide, by decide, rfl, rfl, by decide⟩, by decide⟩
theorem exFlip_wf : exFlip.WF 2 ∧ IdOk gEx exFlip.wires :=
  ⟨⟨⟨by decide, by decide, by decide⟩, by decide, by decide, by decide, rfl, rfl, by decide⟩, by decide⟩
theorem exFlipU_wf : exFlipU.WF 2 ∧ IdOk gEx exFlipU.wires :=
  ⟨⟨⟨by decide, by decide, by decide⟩, by decide, by decide, by decide, rfl, rfl, by decide⟩, by decide⟩

theorem exPlus_ketW : KetW exPlus.wires.modes.toFinset exPlus.wires := by
  have : validateOp exPlus.wires = some .ket := by decide
  exact ((C90_validate (by decide)).1.mp this).1

theorem exPlus_at (k : Int → ℕ) : ketV exPlus.ker k = if k 0 = 0 then 1 else if k 0 = 1 then Complex.I else 0 := by
  show exPlus.arr.entry [k 0] = _
  rcases k 0 with _ | _ | n <;> simp [exPlus, Arr.entry, inb]

theorem exFlip_at (k b : Int → ℕ) : dmV exFlip.ker k b = if k 0 = 0 ∧ b 0 = 1 then 1 else 0 := by
  have hs : exFlip.wires.sortedWires = [wEx .bra true 0 0, wEx .ket true 0 1] := by decide
  show exFlip.arr.entry (exFlip.wires.sortedWires.map _) = _
  rw [hs]
  show exFlip.arr.entry [b 0, k 0] = _
  rcases k 0 with _ | _ | n <;> rcases b 0 with _ | _ | n' <;> simp [exFlip, Arr.entry, inb]

theorem exFlipU_at (a k : Int → ℕ) : opV exFlipU.ker a k = if a 0 = 0 ∧ k 0 = 1 then 1 else 0 := by
  have hs : exFlipU.wires.sortedWires = [wEx .ket true 0 0, wEx .ket false 0 1] := by decide
  show exFlipU.arr.entry (exFlipU.wires.sortedWires.map _) = _
  rw [hs]
  show exFlipU.arr.entry [a 0, k 0] = _
  rcases a 0 with _ | _ | n <;> rcases k 0 with _ | _ | n' <;> simp [exFlipU, Arr.entry, inb]

/-- **C90** (disagreement) the operator `|0⟩⟨1|` has expectation value `⟨ψ|0⟩⟨1|ψ⟩ = i` in `ψ = |0⟩ + i|1⟩`; this is what is returned when the operator is given as an
operator, but `-i` is returned when it is given as a density-matrix-like component. -/
theorem C90_not_hermitian (ids : Nat → Nat) : ∃ Z Z', exPlus.expectKet fEx dEx ids id id exFlip = some Z ∧ exPlus.expectKet fEx dEx ids id id exFlipU = some Z' ∧
    Z.arr.entry [] = -Complex.I ∧ Z'.arr.entry [] = Complex.I := by
  have v1 : validateOp exFlip.wires = some .dm := by decide
  have v2 : validateOp exFlipU.wires = some .unitary := by decide
  obtain ⟨Z, a1, _, a3⟩ := (C90_ket fEx_ok dEx_ok ids (ord := id) (fun _ => List.Perm.refl _) exPlus_wf.1 exPlus_wf.2 exFlip_wf.1 exFlip_wf.2 exPlus_ketW).2 _ v1 (by decide)
  obtain ⟨Z', b1, _, b3⟩ := (C90_ket fEx_ok dEx_ok ids (ord := id) (fun _ => List.Perm.refl _) exPlus_wf.1 exPlus_wf.2 exFlipU_wf.1 exFlipU_wf.2 exPlus_ketW).2 _ v2 (by decide)
  refine ⟨Z, Z', a1, b1, ?_, ?_⟩
  · rw [a3]
    have e1 : exPlus.wires.modes.toFinset = {0} := by decide
    have e2 : exFlip.wires.modes.toFinset = {0} := by decide
    rw [e1, e2]
    unfold ketExp
    simp [tot_singleton, tot_empty, exPlus_at, exFlip_at, Finset.sum_range_succ, over]
  · rw [b3]
    have e1 : exPlus.wires.modes.toFinset = {0} := by decide
    have e2 : exFlipU.wires.modes.toFinset = {0} := by decide
    rw [e1, e2]
    unfold ketExp
    simp [tot_singleton, exPlus_at, exFlipU_at, Finset.sum_range_succ, over]

/-! ## A state of two modes -/

/-- A ket on the modes 0 and 8. -/
noncomputable def exKet2 : FComp := ⟨⟨[wEx .ket true 0 0, wEx .ket true 8 1]⟩, ⟨0, [2, 2], fun l => (l.getD 0 0 : ℂ) + Complex.I * (l.getD 1 0 : ℂ)⟩⟩

theorem exKet2_wf : exKet2.WF 2 ∧ IdOk gEx exKet2.wires :=
  ⟨⟨⟨by decide, by decide, by decide⟩, by decide, by decide, by decide, rfl, rfl, by decide⟩, by decide⟩

theorem exKet2_ketW : KetW exKet2.wires.modes.toFinset exKet2.wires := by
  have : validateOp exKet2.wires = some .ket := by decide
  exact ((C90_validate (by decide)).1.mp this).1

/-- The hypotheses of `C89_ket_dm` hold for the ket on two modes of which one is traced out. -/
example : ∃ D Z Z', exKet2.dm fEx = some D ∧ exKet2.traceOut fEx id [8] [8] [8] = some Z ∧ D.traceOut fEx id [8] [8] [8] = some Z' ∧
    (∀ s o m, Has Z.wires s o m ↔ Has Z'.wires s o m) ∧ Z.ker = Z'.ker :=
  C89_ket_dm fEx_ok exKet2_wf.1 exKet2_wf.2 (ketW_oneS exKet2_ketW (by simp [exKet2])) id id [8] [8] (by simp) (by simp)
    (fun m hm => ⟨wEx .ket true 8 1, by simp [exKet2], by simp at hm; rw [hm]; rfl⟩) (List.Perm.refl _)

/-- The hypotheses of `C90_ket_dm` hold for the ket on two modes and an operator on one of them, and both values exist. -/
example : ∃ D Z Z', exKet2.dm fEx = some D ∧ exKet2.expectKet fEx dEx id id id exFlipU = some Z ∧ D.expectDM fEx dEx id id id exFlipU = some Z' ∧
    Z.arr.entry [] = Z'.arr.entry [] := by
  obtain ⟨D, h1, h2⟩ := C90_ket_dm fEx_ok dEx_ok id id (ord := id) (fun _ => List.Perm.refl _) exKet2_wf.1 exKet2_wf.2 exFlipU_wf.1 exFlipU_wf.2 exKet2_ketW (by simp [exKet2])
  have v2 : validateOp exFlipU.wires = some .unitary := by decide
  obtain ⟨Y, a1, _⟩ := (C90_ket fEx_ok dEx_ok id (ord := id) (fun _ => List.Perm.refl _) exKet2_wf.1 exKet2_wf.2 exFlipU_wf.1 exFlipU_wf.2 exKet2_ketW).2 _ v2 (by decide)
  rcases h2 with ⟨h, _⟩ | ⟨Z, Z', h3, h4, _, _, h5⟩
  · rw [a1] at h
    cases h
  · exact ⟨D, Z, Z', h1, h3, h4, h5⟩

end Verif.CompV
