import Verif.FockFidelityComp

/-!
# Fidelity of states in the Fock representation (C92): properties
-/

namespace Verif.CompV

open Verif.WireModel Verif.Arr Verif.Fock Verif.PolyExp Verif.Circuits
open scoped ComplexOrder MatrixOrder

variable {M : ℕ} {g : ℕ → Side × Bool × Int} {f d : Nat → Nat}

theorem dmMat_trace (N : Finset Int) (ρ : Ker Chan) : (dmMat M N ρ).trace = dmTr M N ρ := by
  unfold dmTr
  rw [tot_sub]
  rfl

theorem dmV_out {X : FComp} (hX : X.WF M) {N : Finset Int} (sX : DmW N X.wires) {k b : Int → ℕ}
    (h : restr N k ∉ (N.finsupp fun _ => Finset.range M) ∨ restr N b ∉ (N.finsupp fun _ => Finset.range M)) : dmV X.ker k b = 0 := by
  have hbel := FComp.ker_below hX
  have hbig : ∀ k : Int → ℕ, restr N k ∉ (N.finsupp fun _ => Finset.range M) → ∃ m ∈ N, M ≤ k m := by
    intro k hk
    by_contra hc
    push Not at hc
    exact hk (restr_mem hc)
  rcases h with h | h
  · obtain ⟨m, hm, hmm⟩ := hbig k h
    exact hbel _ _ (Or.inr ⟨(.ket, m), FComp.mem_outs.mpr ((sX _ _ _).mpr ⟨Or.inl rfl, rfl, hm⟩), hmm⟩)
  · obtain ⟨m, hm, hmm⟩ := hbig b h
    exact hbel _ _ (Or.inr ⟨(.bra, m), FComp.mem_outs.mpr ((sX _ _ _).mpr ⟨Or.inr rfl, rfl, hm⟩), hmm⟩)

theorem dmMat_inj {X Y : FComp} (hX : X.WF M) (hY : Y.WF M) {N : Finset Int} (sX : DmW N X.wires) (sY : DmW N Y.wires) :
    dmMat M N X.ker = dmMat M N Y.ker ↔ ∀ k b, dmV X.ker k b = dmV Y.ker k b := by
  constructor
  · intro h k b
    by_cases hk : restr N k ∈ N.finsupp fun _ => Finset.range M
    · by_cases hb : restr N b ∈ N.finsupp fun _ => Finset.range M
      · rw [dmV_restr sX, dmV_restr sY]
        exact congrFun (congrFun h ⟨_, hk⟩) ⟨_, hb⟩
      · rw [dmV_out hX sX (Or.inr hb), dmV_out hY sY (Or.inr hb)]
    · rw [dmV_out hX sX (Or.inl hk), dmV_out hY sY (Or.inl hk)]
  · intro h
    ext k b
    exact h _ _

theorem dmTr_real {N : Finset Int} {ρ : Ker Chan} (h : PosOn M N ρ) : dmTr M N ρ = ((dmTr M N ρ).re : ℂ) := by
  classical
  rw [← dmMat_trace]
  exact (Fid.trace_psd (dmMat_psd h)).2

/-- **C92** (density matrices) for positive density matrices on the same modes `dm1.fidelity(dm2)` is `dm2.fidelity(dm1)`, lies between 0 and the product of the
probabilities, and for normalised states it is 1 exactly if the states are equal. -/
theorem C92_dm {X Y : FComp} (hX : X.WF M) (iX : IdOk g X.wires) (hY : Y.WF M) (iY : IdOk g Y.wires) {N : Finset Int} (hne : N.Nonempty) (sX : DmW N X.wires)
    (sY : DmW N Y.wires) (pX : PosOn M N X.ker) (pY : PosOn M N Y.ker) {s : List ℕ} (hs : List.zipWith min X.arr.shape Y.arr.shape = s ++ s) :
    ∃ F p q, X.fidDM Y = some F ∧ Y.fidDM X = some F ∧ X.probDM = some p ∧ Y.probDM = some q ∧ 0 ≤ F ∧ F ≤ p * q ∧
      (p = 1 → q = 1 → (F = 1 ↔ ∀ k b, dmV X.ker k b = dmV Y.ker k b)) := by
  classical
  have hs' : List.zipWith min Y.arr.shape X.arr.shape = s ++ s := by
    rw [List.zipWith_comm, ← hs]
    congr 1
    funext a b
    exact min_comm _ _
  have aX := dmMat_psd pX
  have aY := dmMat_psd pY
  have hb := Fid.C92_bounds aX aY
  have ho := Fid.C92_one aX aY
  rw [dmMat_trace, dmMat_trace] at hb ho
  refine ⟨Fid.fidelity (dmMat M N X.ker) (dmMat M N Y.ker), (dmTr M N X.ker).re, (dmTr M N Y.ker).re, C92_fock hX hY sX sY pX pY hs, ?_, C91_dm_prob hX iX sX hne,
    C91_dm_prob hY iY sY hne, hb.1, hb.2, fun hp hq => ?_⟩
  · rw [C92_fock hY hX sY sX pY pX hs', Fid.C92_comm aY aX]
  · rw [hp, hq, mul_one, dmTr_real pX, dmTr_real pY, hp, hq, Complex.ofReal_one, one_smul, one_smul] at ho
    rw [ho, ← dmMat_inj hX hY sX sY]
    exact eq_comm

/-! ## Kets -/

theorem dbl_pos {N : Finset Int} {K : Ker Chan} (hl : K.Local) (h : KetOn N K) : PosOn M N (dbl M K) := by
  constructor
  · intro k b
    rw [dmV_dbl hl h, dmV_dbl hl h, map_mul, Complex.conj_conj, mul_comm]
  · intro v
    have e : (tot M N fun k => tot M N fun b => (starRingEnd ℂ) (v k) * dmV (dbl M K) k b * v b) =
        (tot M N fun k => (starRingEnd ℂ) (v k) * ketV K k) * (starRingEnd ℂ) (tot M N fun k => (starRingEnd ℂ) (v k) * ketV K k) := by
      rw [conj_tot]
      unfold tot
      rw [Finset.sum_mul_sum]
      refine Finset.sum_congr rfl fun k _ => Finset.sum_congr rfl fun b _ => ?_
      dsimp only
      rw [dmV_dbl hl h, map_mul, Complex.conj_conj]
      ring
    rw [e, Complex.mul_conj, Complex.ofReal_re]
    exact Complex.normSq_nonneg _

theorem dmMat_dbl {N : Finset Int} {K : Ker Chan} (hl : K.Local) (h : KetOn N K) :
    dmMat M N (dbl M K) = Matrix.vecMulVec (fun k : (N.finsupp fun _ => Finset.range M) => ketV K k.1) (star fun k : (N.finsupp fun _ => Finset.range M) => ketV K k.1) := by
  ext k b
  show dmV (dbl M K) k.1 b.1 = _
  rw [dmV_dbl hl h]
  rfl

/-- Specification: `⟨ψ|ρ|ψ⟩`. -/
noncomputable def overlapDM (M : ℕ) (N : Finset Int) (ψ ρ : Ker Chan) : ℂ := tot M N fun k => tot M N fun b => (starRingEnd ℂ) (ketV ψ k) * dmV ρ k b * ketV ψ b
/-- Specification: `⟨φ|ψ⟩`. -/
noncomputable def overlapKet (M : ℕ) (N : Finset Int) (φ ψ : Ker Chan) : ℂ := tot M N fun k => (starRingEnd ℂ) (ketV φ k) * ketV ψ k

theorem fid_dbl {N : Finset Int} {K ρ : Ker Chan} (hl : K.Local) (h : KetOn N K) (hp : PosOn M N ρ) :
    ∀ [DecidableEq (N.finsupp fun _ => Finset.range M)], ((Fid.fidelity (dmMat M N (dbl M K)) (dmMat M N ρ) : ℝ) : ℂ) = overlapDM M N K ρ := by
  intro _
  rw [dmMat_dbl hl h, Fid.C92_pure _ (dmMat_psd hp)]
  unfold overlapDM
  rw [tot_sub]
  simp only [tot_sub, dotProduct, Matrix.mulVec, Finset.mul_sum]
  refine Finset.sum_congr rfl fun k _ => Finset.sum_congr rfl fun b _ => ?_
  show (starRingEnd ℂ) (ketV K k.1) * (dmV ρ k.1 b.1 * ketV K b.1) = _
  ring

theorem modes_of_has {W : Wires} {N : Finset Int} {P : Side → Bool → Prop} (h : ∀ s o m, Has W s o m ↔ P s o ∧ m ∈ N) (hP : ∃ s o, P s o) : W.modes.toFinset = N := by
  ext m
  rw [mem_modes_iff]
  constructor
  · rintro ⟨s, o, h'⟩
    exact ((h _ _ _).mp h').2
  · intro hm
    obtain ⟨s, o, hp⟩ := hP
    exact ⟨s, o, (h _ _ _).mpr ⟨hp, hm⟩⟩

theorem has_ws {W : Wires} {s : Side} {o : Bool} {m : Int} (h : Has W s o m) : W.ws ≠ [] := by
  obtain ⟨w, hw, _⟩ := h
  exact List.ne_nil_of_mem hw

theorem ketW_modes {W : Wires} {N : Finset Int} (h : KetW N W) : W.modes.toFinset = N :=
  modes_of_has (P := fun s o => s = .ket ∧ o = true) (fun s o m => by rw [h]; tauto) ⟨_, _, rfl, rfl⟩

theorem dmW_modes {W : Wires} {N : Finset Int} (h : DmW N W) : W.modes.toFinset = N :=
  modes_of_has (P := fun s o => (s = .ket ∨ s = .bra) ∧ o = true) (fun s o m => by rw [h]; tauto) ⟨_, _, Or.inl rfl, rfl⟩

theorem over_full {N : Finset Int} {K : Ker Chan} (hl : K.Local) (h : KetOn N K) (k l : Int → ℕ) : ketV K (over N k l) = ketV K k := by
  refine hl _ _ _ _ ?_ fun _ _ => rfl
  rintro ⟨t, m⟩ hc
  rw [h.2, mem_chs] at hc
  obtain ⟨rfl, hm⟩ := hc
  simp [stv, over, hm]

/-- **C92** (a ket and a density matrix) `dm.fidelity(ket)` and `ket.fidelity(dm)` are `⟨ψ|ρ|ψ⟩`, the fidelity of the density matrix with `ket.dm()`. -/
theorem C92_ket (hf : ∀ n, g (f n) = ((g n).1.swap, (g n).2)) (hd : ∀ n, g (d n) = ((g n).1, !(g n).2.1, (g n).2.2)) (ids : Nat → Nat) {ord : List Int → List Int}
    (hord : ∀ l, (ord l).Perm l) {X K : FComp} (hX : X.WF M) (iX : IdOk g X.wires) (hK : K.WF M) (iK : IdOk g K.wires) {N : Finset Int} (hne : N.Nonempty)
    (sX : DmW N X.wires) (sK : KetW N K.wires) (pX : PosOn M N X.ker) :
    ∃ D Z F, K.dm f = some D ∧ X.fidDMKet f d ids ord ord K = some Z ∧ K.fidKet f d ids ord ord X = some Z ∧ Z.wires.ws = [] ∧ Z.arr.entry [] = ((F : ℝ) : ℂ) ∧
      overlapDM M N K.ker X.ker = ((F : ℝ) : ℂ) ∧
      ∀ s, List.zipWith min D.arr.shape X.arr.shape = s ++ s → X.fidDM D = some F ∧ D.fidDM X = some F := by
  classical
  obtain ⟨D, d1, d2, d3, d4, d5⟩ := ketW_dm hf hK iK sK hne
  have mX := dmW_modes sX
  have mK := ketW_modes sK
  have hk := ketOn_of sK
  have pD : PosOn M N D.ker := by
    rw [d5]
    exact dbl_pos K.ker_local hk
  obtain ⟨m0, hm0⟩ := hne
  have v : validateOp X.wires = some .dm := (C90_validate hX.quantum).2.1.mpr ⟨by rw [mX]; exact sX, has_ws ((sX _ _ _).mpr ⟨Or.inl rfl, rfl, hm0⟩)⟩
  have hsub : ∀ m ∈ X.wires.modes, m ∈ K.wires.modes := by
    intro m hm
    rw [← List.mem_toFinset, mX] at hm
    rw [← List.mem_toFinset, mK]
    exact hm
  obtain ⟨Z, z1, z2, z3⟩ := (C90_ket hf hd ids hord hK iK hX iX (by rw [mK]; exact sK)).2 _ v hsub
  have hF := fid_dbl (M := M) K.ker_local hk pX
  have hz : Z.arr.entry [] = overlapDM M N K.ker X.ker := by
    rw [z3, mK, mX]
    unfold ketExp overlapDM
    rw [Finset.sdiff_self, tot_comm (U := N) (T := N)]
    refine tot_congr fun b _ _ => tot_congr fun k _ _ => ?_
    rw [tot_empty, over_full K.ker_local hk, over_full K.ker_local hk, ← pX.1 b k]
    ring
  refine ⟨D, Z, Fid.fidelity (dmMat M N (dbl M K.ker)) (dmMat M N X.ker), d1, ?_, ?_, z2, hz.trans hF.symm, hF.symm, fun s hs => ?_⟩
  · unfold FComp.fidDMKet
    rw [if_neg (by rw [mX, mK]; simp)]
    exact z1
  · unfold FComp.fidKet
    rw [if_neg (by rw [mX, mK]; simp)]
    exact z1
  · have hs' : List.zipWith min X.arr.shape D.arr.shape = s ++ s := by
      rw [List.zipWith_comm, ← hs]
      congr 1
      funext a b
      exact min_comm _ _
    rw [C92_fock d2 hX d4 sX pD pX hs, C92_fock hX d2 sX d4 pX pD hs', Fid.C92_comm (dmMat_psd pX) (dmMat_psd pD), d5]
    exact ⟨rfl, rfl⟩

/-- **C92** (two kets) `ket1.fidelity(ket2)` is `|⟨φ|ψ⟩|²`, whatever the order, at most the product of the probabilities. -/
theorem C92_kets (hf : ∀ n, g (f n) = ((g n).1.swap, (g n).2)) (hd : ∀ n, g (d n) = ((g n).1, !(g n).2.1, (g n).2.2)) (ids : Nat → Nat) {ord : List Int → List Int}
    (hord : ∀ l, (ord l).Perm l) {K L : FComp} (hK : K.WF M) (iK : IdOk g K.wires) (hL : L.WF M) (iL : IdOk g L.wires) {N : Finset Int} (hne : N.Nonempty)
    (sK : KetW N K.wires) (sL : KetW N L.wires) :
    ∃ Z Z' p q, K.fidKet f d ids ord ord L = some Z ∧ L.fidKet f d ids ord ord K = some Z' ∧ Z.wires.ws = [] ∧ Z'.wires.ws = [] ∧
      Z.arr.entry [] = ((‖overlapKet M N L.ker K.ker‖ ^ 2 : ℝ) : ℂ) ∧ Z'.arr.entry [] = Z.arr.entry [] ∧
      K.probKet d = some p ∧ L.probKet d = some q ∧ ‖overlapKet M N L.ker K.ker‖ ^ 2 ≤ p * q := by
  have mK := ketW_modes sK
  have mL := ketW_modes sL
  have hk := ketOn_of sK
  have hl := ketOn_of sL
  obtain ⟨m0, hm0⟩ := hne
  have key : ∀ A B : FComp, A.WF M → IdOk g A.wires → KetW N A.wires → B.WF M → IdOk g B.wires → KetW N B.wires →
      ∃ Z, A.fidKet f d ids ord ord B = some Z ∧ Z.wires.ws = [] ∧ Z.arr.entry [] = ((‖overlapKet M N B.ker A.ker‖ ^ 2 : ℝ) : ℂ) := by
    intro A B hA iA sA hB iB sB
    have mA := ketW_modes sA
    have mB := ketW_modes sB
    have v : validateOp B.wires = some .ket := (C90_validate hB.quantum).1.mpr ⟨by rw [mB]; exact sB, has_ws ((sB _ _ _).mpr ⟨rfl, rfl, hm0⟩)⟩
    have hsub : ∀ m ∈ B.wires.modes, m ∈ A.wires.modes := by
      intro m hm
      rw [← List.mem_toFinset, mB] at hm
      rw [← List.mem_toFinset, mA]
      exact hm
    obtain ⟨Z, z1, z2, z3⟩ := (C90_ket hf hd ids hord hA iA hB iB (by rw [mA]; exact sA)).2 _ v hsub
    refine ⟨Z, ?_, z2, ?_⟩
    · unfold FComp.fidKet
      rw [if_neg (by rw [mA, mB]; simp)]
      exact z1
    · rw [z3, mA, mB]
      unfold ketExp
      dsimp only
      rw [Finset.sdiff_self, tot_empty]
      have e : ∀ l, (tot M N fun k => ketV A.ker (over N k l) * (starRingEnd ℂ) (ketV B.ker k)) = overlapKet M N B.ker A.ker := by
        intro l
        refine tot_congr fun k _ _ => ?_
        rw [over_full A.ker_local (ketOn_of sA), mul_comm]
      rw [e, conj_mul_norm]
  obtain ⟨Z, z1, z2, z3⟩ := key K L hK iK sK hL iL sL
  obtain ⟨Z', y1, y2, y3⟩ := key L K hL iL sL hK iK sK
  have hsym : ‖overlapKet M N K.ker L.ker‖ = ‖overlapKet M N L.ker K.ker‖ := by
    rw [← RCLike.norm_conj (K := ℂ)]
    refine congrArg Norm.norm ?_
    unfold overlapKet
    rw [conj_tot]
    refine tot_congr fun k _ _ => ?_
    rw [map_mul, Complex.conj_conj, mul_comm]
  refine ⟨Z, Z', ketNorm M N K.ker, ketNorm M N L.ker, z1, y1, z2, y2, z3, ?_, (C91_ket hd hK iK sK).2, (C91_ket hd hL iL sL).2, ?_⟩
  · rw [y3, z3, hsym]
  · have cs := norm_inner_le_norm (𝕜 := ℂ) (WithLp.toLp 2 fun k : (N.finsupp fun _ => Finset.range M) => ketV L.ker k.1 : EuclideanSpace ℂ _)
      (WithLp.toLp 2 fun k : (N.finsupp fun _ => Finset.range M) => ketV K.ker k.1)
    have e1 : (inner ℂ (WithLp.toLp 2 fun k : (N.finsupp fun _ => Finset.range M) => ketV L.ker k.1 : EuclideanSpace ℂ _)
        (WithLp.toLp 2 fun k : (N.finsupp fun _ => Finset.range M) => ketV K.ker k.1) : ℂ) = overlapKet M N L.ker K.ker := by
      rw [PiLp.inner_apply]
      unfold overlapKet
      rw [tot_sub]
      refine Finset.sum_congr rfl fun k _ => ?_
      rw [RCLike.inner_apply']
    have e2 : ∀ A : Ker Chan, ‖(WithLp.toLp 2 fun k : (N.finsupp fun _ => Finset.range M) => ketV A k.1 : EuclideanSpace ℂ _)‖ ^ 2 = ketNorm M N A := by
      intro A
      rw [EuclideanSpace.norm_sq_eq]
      unfold ketNorm
      rw [rtot_sub]
    rw [e1] at cs
    have := pow_le_pow_left₀ (norm_nonneg _) cs 2
    rw [mul_pow, e2, e2, mul_comm] at this
    exact this

/-! ## Examples -/

/-- The hypotheses of `C92_dm` hold for `(3|0⟩⟨0| + |1⟩⟨1|)/2` and the density matrix of `|0⟩ + i|1⟩`; the fidelity with the latter is 2. -/
example : ∃ D, exPlus.dm fEx = some D ∧ exMix.fidDM D = some 2 ∧ D.fidDM exMix = some 2 := by
  have e : exPlus.wires.modes.toFinset = {0} := by decide
  have hk := exPlus_ketW
  rw [e] at hk
  obtain ⟨D, Z, F, h1, _, _, _, _, h5, h6⟩ := C92_ket fEx_ok dEx_ok id (ord := id) (fun _ => List.Perm.refl _) exMix_wf.1 exMix_wf.2 exPlus_wf.1 exPlus_wf.2 ⟨0, by simp⟩
    exMix_dmW hk exMix_pos
  have hsh : (exPlus.dm fEx).map (fun D => D.arr.shape) = some [2, 2] := by rfl
  rw [h1, Option.map_some, Option.some_inj] at hsh
  obtain ⟨a, b⟩ := h6 [2] (by rw [hsh]; rfl)
  have hF : F = 2 := by
    apply Complex.ofReal_injective
    rw [← h5]
    unfold overlapDM
    simp only [tot_singleton, exMix_at, exPlus_at, Finset.sum_range_succ, Finset.sum_range_zero, Function.update_self]
    simp
    linear_combination (-1 / 2) * Complex.I_mul_I
  rw [hF] at a b
  exact ⟨D, h1, a, b⟩

end Verif.CompV
