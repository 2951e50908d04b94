import Verif.FockNorms
import Verif.PurityMat

/-!
# Norm, probability, purity and normalisation of Fock states (C91): properties
-/

namespace Verif.CompV

open Verif.WireModel Verif.Arr Verif.Fock Verif.PolyExp Verif.Circuits
open scoped ComplexOrder MatrixOrder

variable {M : ℕ} {g : ℕ → Side × Bool × Int} {f d : Nat → Nat}

/-! ## Kets -/

theorem ketNorm_nonneg (M : ℕ) (N : Finset Int) (ψ : Ker Chan) : 0 ≤ ketNorm M N ψ := Finset.sum_nonneg fun _ _ => by positivity

theorem dmTr_dbl {N : Finset Int} {K : Ker Chan} (hl : K.Local) (h : KetOn N K) : dmTr M N (dbl M K) = (ketNorm M N K : ℂ) := by
  unfold dmTr ketNorm
  rw [ofReal_tot]
  refine tot_congr fun k _ _ => ?_
  rw [dmV_dbl hl h, conj_mul_norm]

theorem dmNorm_pure {N : Finset Int} {ρ : Ker Chan} {v : (Int → ℕ) → ℂ} (h : ∀ k b, dmV ρ k b = v k * (starRingEnd ℂ) (v b)) :
    dmNorm M N ρ = (rtot M N fun k => ‖v k‖ ^ 2) ^ 2 := by
  unfold dmNorm rtot
  rw [pow_two (∑ k ∈ _, _), Finset.sum_mul_sum]
  refine Finset.sum_congr rfl fun k _ => Finset.sum_congr rfl fun b _ => ?_
  dsimp only
  rw [h, norm_mul, RCLike.norm_conj, mul_pow]

theorem ketW_dm (hf : ∀ n, g (f n) = ((g n).1.swap, (g n).2)) {X : FComp} (hX : X.WF M) (iX : IdOk g X.wires) {N : Finset Int} (sX : KetW N X.wires) (hne : N.Nonempty) :
    ∃ D, X.dm f = some D ∧ D.WF M ∧ IdOk g D.wires ∧ DmW N D.wires ∧ D.ker = dbl M X.ker := by
  obtain ⟨m, hm⟩ := hne
  have hs : OneS X.wires .ket := ⟨⟨true, m, (sX _ _ _).mpr ⟨rfl, rfl, hm⟩⟩, by simp, fun t o m h => ((sX _ _ _).mp h).1⟩
  obtain ⟨D, d1, d2, d3, d4, d5⟩ := dm_ker hf hX iX hs
  refine ⟨D, d1, d2, d3, fun t o m => ?_, d5⟩
  rw [d4, sX]
  tauto

/-- **C91** (density matrix of a ket) the density matrix of a ket has the probability of the ket, and purity 1 unless the ket is zero. -/
theorem C91_ket_dm (hf : ∀ n, g (f n) = ((g n).1.swap, (g n).2)) (hd : ∀ n, g (d n) = ((g n).1, !(g n).2.1, (g n).2.2)) {X : FComp} (hX : X.WF M) (iX : IdOk g X.wires)
    {N : Finset Int} (sX : KetW N X.wires) (hne : N.Nonempty) : ∃ D p, X.dm f = some D ∧ X.probKet d = some p ∧ D.probDM = some p ∧ 0 ≤ p ∧ D.l2 d = some (p ^ 2) ∧
      (p ≠ 0 → D.purityDM d = some 1) := by
  obtain ⟨D, d1, d2, d3, d4, d5⟩ := ketW_dm hf hX iX sX hne
  have hk := ketOn_of sX
  have e1 : (dmTr M N D.ker).re = ketNorm M N X.ker := by rw [d5, dmTr_dbl X.ker_local hk, Complex.ofReal_re]
  have e2 : dmNorm M N D.ker = ketNorm M N X.ker ^ 2 := dmNorm_pure fun k b => by rw [d5, dmV_dbl X.ker_local hk]
  refine ⟨D, ketNorm M N X.ker, d1, (C91_ket hd hX iX sX).2, ?_, ketNorm_nonneg _ _ _, ?_, fun h => ?_⟩
  · rw [C91_dm_prob d2 d3 d4 hne, e1]
  · rw [C91_dm_norm hd d2 d3 d4, e2]
  · rw [C91_dm_purity hd d2 d3 d4 hne, e1, e2, div_self (by positivity)]

/-! ## Purity -/

/-- Specification: a positive operator. -/
def PosOn (M : ℕ) (N : Finset Int) (ρ : Ker Chan) : Prop :=
  (∀ k b, dmV ρ b k = (starRingEnd ℂ) (dmV ρ k b)) ∧ ∀ v : (Int → ℕ) → ℂ, 0 ≤ (tot M N fun k => tot M N fun b => (starRingEnd ℂ) (v k) * dmV ρ k b * v b).re

/-- The matrix of a density matrix. -/
noncomputable def dmMat (M : ℕ) (N : Finset Int) (ρ : Ker Chan) : Matrix (N.finsupp fun _ => Finset.range M) (N.finsupp fun _ => Finset.range M) ℂ :=
  fun k b => dmV ρ k.1 b.1

theorem tot_sub (N : Finset Int) (F : (Int → ℕ) → ℂ) : tot M N F = ∑ k : (N.finsupp fun _ => Finset.range M), F k.1 := (Finset.sum_coe_sort _ fun k : Int →₀ ℕ => F k).symm
theorem rtot_sub (N : Finset Int) (F : (Int → ℕ) → ℝ) : rtot M N F = ∑ k : (N.finsupp fun _ => Finset.range M), F k.1 := (Finset.sum_coe_sort _ fun k : Int →₀ ℕ => F k).symm

theorem dmMat_psd {N : Finset Int} {ρ : Ker Chan} (h : PosOn M N ρ) : (dmMat M N ρ).PosSemidef := by
  classical
  have hH : (dmMat M N ρ).IsHermitian := by
    ext k b
    exact (h.1 b.1 k.1).symm
  rw [Matrix.posSemidef_iff_dotProduct_mulVec]
  refine ⟨hH, fun x => ?_⟩
  have e : star x ⬝ᵥ ((dmMat M N ρ).mulVec x) = tot M N fun k => tot M N fun b =>
      (starRingEnd ℂ) ((fun k : Int → ℕ => if h : ∃ y : (N.finsupp fun _ => Finset.range M), (y.1 : Int → ℕ) = k then x h.choose else 0) k) * dmV ρ k b *
      ((fun k : Int → ℕ => if h : ∃ y : (N.finsupp fun _ => Finset.range M), (y.1 : Int → ℕ) = k then x h.choose else 0) b) := by
    have hx : ∀ y : (N.finsupp fun _ => Finset.range M), (if h : ∃ z : (N.finsupp fun _ => Finset.range M), (z.1 : Int → ℕ) = (y.1 : Int → ℕ) then x h.choose else 0) = x y := by
      intro y
      have hex : ∃ z : (N.finsupp fun _ => Finset.range M), (z.1 : Int → ℕ) = (y.1 : Int → ℕ) := ⟨y, rfl⟩
      rw [dif_pos hex]
      exact congrArg x (Subtype.ext (DFunLike.coe_injective hex.choose_spec))
    rw [tot_sub]
    simp only [tot_sub, hx, dotProduct, Matrix.mulVec, Finset.mul_sum]
    refine Finset.sum_congr rfl fun k _ => Finset.sum_congr rfl fun b _ => ?_
    show (starRingEnd ℂ) (x k) * (dmV ρ k.1 b.1 * x b) = _
    ring
  have h1 := hH.im_star_dotProduct_mulVec_self x
  rw [Complex.le_def]
  refine ⟨?_, h1.symm⟩
  rw [e]
  exact h.2 _

/-- The photon numbers of the modes `N`. -/
noncomputable def restr (N : Finset Int) (k : Int → ℕ) : Int →₀ ℕ := Finsupp.onFinset N (fun m => if m ∈ N then k m else 0) fun m h => by
  by_contra h'
  simp [h'] at h

theorem dmV_restr {N : Finset Int} {X : FComp} (sX : DmW N X.wires) (k b : Int → ℕ) : dmV X.ker k b = dmV X.ker (restr N k) (restr N b) := by
  refine dm_at X.ker_local (dmOn_of sX) ?_ ?_
  · intro m hm
    simp [stv, restr, hm]
  · intro m hm
    simp [stv, restr, hm]

theorem restr_mem {N : Finset Int} {k : Int → ℕ} (h : ∀ m ∈ N, k m < M) : restr N k ∈ N.finsupp fun _ => Finset.range M := by
  rw [Finset.mem_finsupp_iff]
  refine ⟨Finsupp.support_onFinset_subset, fun m hm => ?_⟩
  simp [restr, hm, h m hm]

theorem dmNorm_le {N : Finset Int} {ρ : Ker Chan} (h : PosOn M N ρ) : dmNorm M N ρ ≤ (dmTr M N ρ).re ^ 2 := by
  classical
  have := psd_purity_le (dmMat_psd h)
  unfold dmNorm dmTr
  rw [rtot_sub, tot_sub, Complex.re_sum]
  simp only [rtot_sub]
  exact this

/-- **C91** (purity of a density matrix) the purity of a positive density matrix with nonzero trace lies in `(0, 1]`, and it is 1 exactly for the pure states. -/
theorem C91_purity (hd : ∀ n, g (d n) = ((g n).1, !(g n).2.1, (g n).2.2)) {X : FComp} (hX : X.WF M) (iX : IdOk g X.wires) {N : Finset Int} (sX : DmW N X.wires)
    (hne : N.Nonempty) (hp : PosOn M N X.ker) (h0 : dmTr M N X.ker ≠ 0) :
    ∃ p, X.purityDM d = some p ∧ 0 < p ∧ p ≤ 1 ∧ (p = 1 ↔ ∃ v : (Int → ℕ) → ℂ, ∀ k b, dmV X.ker k b = v k * (starRingEnd ℂ) (v b)) := by
  classical
  have himg : (dmTr M N X.ker).im = 0 := by
    have : (starRingEnd ℂ) (dmTr M N X.ker) = dmTr M N X.ker := by
      unfold dmTr
      rw [conj_tot]
      exact tot_congr fun k _ _ => (hp.1 k k).symm
    exact Complex.conj_eq_iff_im.mp this
  have hre : (dmTr M N X.ker).re ≠ 0 := fun h => h0 (Complex.ext h himg)
  have hsq : 0 < (dmTr M N X.ker).re ^ 2 := by positivity
  have hpos : 0 < dmNorm M N X.ker := by
    have hnn : 0 ≤ dmNorm M N X.ker := Finset.sum_nonneg fun _ _ => Finset.sum_nonneg fun _ _ => by positivity
    refine lt_of_le_of_ne hnn fun h => h0 ?_
    refine Finset.sum_eq_zero fun k hk => ?_
    have e1 := (Finset.sum_eq_zero_iff_of_nonneg (s := N.finsupp fun _ => Finset.range M) (f := fun k : Int →₀ ℕ => rtot M N fun b => ‖dmV X.ker k b‖ ^ 2)
      fun _ _ => Finset.sum_nonneg fun _ _ => by positivity).mp h.symm k hk
    have e2 := (Finset.sum_eq_zero_iff_of_nonneg (s := N.finsupp fun _ => Finset.range M) (f := fun b : Int →₀ ℕ => ‖dmV X.ker k b‖ ^ 2) fun _ _ => by positivity).mp e1 k hk
    simpa using e2
  refine ⟨_, C91_dm_purity hd hX iX sX hne, by positivity, (div_le_one hsq).mpr (dmNorm_le hp), ?_⟩
  rw [div_eq_one_iff_eq hsq.ne']
  constructor
  · intro h
    have h' : ∑ k, ∑ b, ‖dmMat M N X.ker k b‖ ^ 2 = (∑ k, (dmMat M N X.ker k k).re) ^ 2 := by
      unfold dmNorm dmTr at h
      rw [rtot_sub, tot_sub, Complex.re_sum] at h
      simp only [rtot_sub] at h
      exact h
    obtain ⟨v, hv⟩ := psd_purity_eq (dmMat_psd hp) h'
    refine ⟨fun k => if h : restr N k ∈ N.finsupp fun _ => Finset.range M then v ⟨_, h⟩ else 0, fun k b => ?_⟩
    have hbig : ∀ k : Int → ℕ, restr N k ∉ (N.finsupp fun _ => Finset.range M) → ∃ m ∈ N, M ≤ k m := by
      intro k hk
      by_contra hc
      push Not at hc
      exact hk (restr_mem hc)
    have hbel := FComp.ker_below hX
    dsimp only
    by_cases hk : restr N k ∈ N.finsupp fun _ => Finset.range M
    · by_cases hb : restr N b ∈ N.finsupp fun _ => Finset.range M
      · rw [dif_pos hk, dif_pos hb, dmV_restr sX]
        exact hv ⟨_, hk⟩ ⟨_, hb⟩
      · rw [dif_neg hb, map_zero, mul_zero]
        obtain ⟨m, hm, hmm⟩ := hbig b hb
        exact hbel _ _ (Or.inr ⟨(.bra, m), FComp.mem_outs.mpr ((sX _ _ _).mpr ⟨Or.inr rfl, rfl, hm⟩), hmm⟩)
    · rw [dif_neg hk, zero_mul]
      obtain ⟨m, hm, hmm⟩ := hbig k hk
      exact hbel _ _ (Or.inr ⟨(.ket, m), FComp.mem_outs.mpr ((sX _ _ _).mpr ⟨Or.inl rfl, rfl, hm⟩), hmm⟩)
  · rintro ⟨v, hv⟩
    rw [dmNorm_pure hv]
    refine congrArg (· ^ 2) ?_
    have : dmTr M N X.ker = ((rtot M N fun k => ‖v k‖ ^ 2 : ℝ) : ℂ) := by
      rw [ofReal_tot]
      unfold dmTr
      refine tot_congr fun k _ _ => ?_
      rw [hv, conj_mul_norm]
    rw [this, Complex.ofReal_re]

/-! ## Normalisation -/

theorem div_wf {X : FComp} (hX : X.WF M) (x : ℂ) : FComp.WF M ⟨X.wires, X.arr.div x⟩ := ⟨hX.good, hX.quantum, hX.repr, hX.ids, hX.batch, hX.axes, hX.dims⟩

theorem div_fn (X : FComp) (x : ℂ) (o i : Chan → ℕ) : (FComp.mk X.wires (X.arr.div x)).ker.fn o i = X.ker.fn o i / x := by
  show (X.arr.div x).entry _ = X.arr.entry _ / x
  unfold Arr.entry Arr.div
  dsimp only
  split_ifs
  · rfl
  · rw [zero_div]

theorem ketNorm_div (X : FComp) (N : Finset Int) {p : ℝ} (hp : 0 ≤ p) : ketNorm M N (FComp.mk X.wires (X.arr.div (Real.sqrt p : ℂ))).ker = ketNorm M N X.ker / p := by
  unfold ketNorm rtot
  rw [Finset.sum_div]
  refine Finset.sum_congr rfl fun k _ => ?_
  have : ketV (FComp.mk X.wires (X.arr.div (Real.sqrt p : ℂ))).ker k = ketV X.ker k / (Real.sqrt p : ℂ) := div_fn _ _ _ _
  dsimp only
  rw [this, norm_div, div_pow, Complex.norm_real, Real.norm_of_nonneg (Real.sqrt_nonneg _), Real.sq_sqrt hp]

theorem dmTr_div (X : FComp) (N : Finset Int) (p : ℂ) : dmTr M N (FComp.mk X.wires (X.arr.div p)).ker = dmTr M N X.ker / p := by
  unfold dmTr tot
  rw [Finset.sum_div]
  exact Finset.sum_congr rfl fun k _ => div_fn _ _ _ _

/-- **C91** (normalisation of kets) `ket.normalize()` divides a nonzero ket by its norm: the result has probability 1. -/
theorem C91_normalize_ket (hd : ∀ n, g (d n) = ((g n).1, !(g n).2.1, (g n).2.2)) {X : FComp} (hX : X.WF M) (iX : IdOk g X.wires) {N : Finset Int} (sX : KetW N X.wires)
    (h0 : ketNorm M N X.ker ≠ 0) : ∃ Y, X.normalize (X.probKet d) = some Y ∧ Y.wires = X.wires ∧ Y.probKet d = some 1 ∧
      ∀ k, ketV Y.ker k = ketV X.ker k / (Real.sqrt (ketNorm M N X.ker) : ℂ) := by
  have hb : X.wires.bra.ws = [] := by
    rw [bra_nil]
    intro o m h
    simpa using (sX _ _ _).mp h
  have hv : ∀ k, ketV (FComp.mk X.wires (X.arr.div (Real.sqrt (ketNorm M N X.ker) : ℂ))).ker k = ketV X.ker k / (Real.sqrt (ketNorm M N X.ker) : ℂ) := fun k => div_fn _ _ _ _
  refine ⟨⟨X.wires, X.arr.div (Real.sqrt (ketNorm M N X.ker) : ℂ)⟩, ?_, rfl, ?_, hv⟩
  · unfold FComp.normalize
    rw [(C91_ket hd hX iX sX).2]
    simp only [Option.bind_eq_bind, Option.bind_some]
    rw [if_pos (Or.inr hb)]
  · rw [(C91_ket hd (div_wf hX _) iX sX).2]
    refine congrArg some ?_
    rw [ketNorm_div X N (ketNorm_nonneg _ _ _), div_self h0]

/-- **C91** (normalisation of density matrices) `dm.normalize()` divides by the real part of the trace: the result has probability 1. -/
theorem C91_normalize_dm {X : FComp} (hX : X.WF M) (iX : IdOk g X.wires) {N : Finset Int} (sX : DmW N X.wires) (hne : N.Nonempty)
    (h0 : (dmTr M N X.ker).re ≠ 0) : ∃ Y, X.normalize X.probDM = some Y ∧ Y.wires = X.wires ∧ Y.probDM = some 1 ∧
      ∀ k b, dmV Y.ker k b = dmV X.ker k b / ((dmTr M N X.ker).re : ℂ) := by
  obtain ⟨m, hm⟩ := hne
  have hk : X.wires.ket.ws ≠ [] := by
    intro h
    have : X.wires.ket.output.ws = [] := by
      show X.wires.ket.ws.filter _ = []
      rw [h]
      rfl
    exact ket_out_nil.mp this m ((sX _ _ _).mpr ⟨Or.inl rfl, rfl, hm⟩)
  have hb : X.wires.bra.ws ≠ [] := by
    intro h
    exact bra_nil.mp h true m ((sX _ _ _).mpr ⟨Or.inr rfl, rfl, hm⟩)
  have hv : ∀ k b, dmV (FComp.mk X.wires (X.arr.div ((dmTr M N X.ker).re : ℂ))).ker k b = dmV X.ker k b / ((dmTr M N X.ker).re : ℂ) := fun k b => div_fn _ _ _ _
  refine ⟨⟨X.wires, X.arr.div ((dmTr M N X.ker).re : ℂ)⟩, ?_, rfl, ?_, hv⟩
  · unfold FComp.normalize
    rw [C91_dm_prob hX iX sX ⟨m, hm⟩]
    simp only [Option.bind_eq_bind, Option.bind_some]
    rw [if_neg (not_or.mpr ⟨hk, hb⟩)]
  · rw [C91_dm_prob (div_wf hX _) iX sX ⟨m, hm⟩]
    refine congrArg some ?_
    rw [dmTr_div, Complex.div_ofReal_re, div_self h0]

/-- **C91** (normalisation and `dm`) normalising a ket and taking its density matrix gives the normalised density matrix. -/
theorem C91_normalize_commutes (hf : ∀ n, g (f n) = ((g n).1.swap, (g n).2)) (hd : ∀ n, g (d n) = ((g n).1, !(g n).2.1, (g n).2.2)) {X : FComp} (hX : X.WF M)
    (iX : IdOk g X.wires) {N : Finset Int} (sX : KetW N X.wires) (hne : N.Nonempty) (h0 : ketNorm M N X.ker ≠ 0) :
    ∃ Y D E F, X.normalize (X.probKet d) = some Y ∧ Y.dm f = some E ∧ X.dm f = some D ∧ D.normalize D.probDM = some F ∧
      ∀ k b, dmV E.ker k b = dmV F.ker k b := by
  obtain ⟨Y, y1, y2, y3, y4⟩ := C91_normalize_ket hd hX iX sX h0
  obtain ⟨D, d1, d2, d3, d4, d5⟩ := ketW_dm hf hX iX sX hne
  have hk := ketOn_of sX
  have e1 : (dmTr M N D.ker).re = ketNorm M N X.ker := by rw [d5, dmTr_dbl X.ker_local hk, Complex.ofReal_re]
  obtain ⟨F, f1, f2, f3, f4⟩ := C91_normalize_dm d2 d3 d4 hne (by rw [e1]; exact h0)
  have wY : Y.WF M ∧ IdOk g Y.wires ∧ KetW N Y.wires := by
    unfold FComp.normalize at y1
    rw [(C91_ket hd hX iX sX).2] at y1
    simp only [Option.bind_eq_bind, Option.bind_some] at y1
    split_ifs at y1
    · cases y1
      exact ⟨div_wf hX _, iX, sX⟩
    · cases y1
      exact ⟨div_wf hX _, iX, sX⟩
  obtain ⟨E, E1, _, _, _, E5⟩ := ketW_dm hf wY.1 wY.2.1 wY.2.2 hne
  refine ⟨Y, D, E, F, y1, E1, d1, f1, fun k b => ?_⟩
  rw [f4, e1, d5, E5, dmV_dbl X.ker_local hk, dmV_dbl Y.ker_local (ketOn_of wY.2.2), y4, y4, map_div₀, Complex.conj_ofReal, div_mul_div_comm, ← Complex.ofReal_mul,
    Real.mul_self_sqrt (ketNorm_nonneg _ _ _)]

/-! ## Examples -/

/-- The state `(3|0⟩⟨0| + |1⟩⟨1|)/2`, of trace 2, on mode 0. -/
noncomputable def exMix : FComp := ⟨⟨[wEx .bra true 0 0, wEx .ket true 0 1]⟩, ⟨0, [2, 2], fun l => if l = [0, 0] then 3 / 2 else if l = [1, 1] then 1 / 2 else 0⟩⟩

theorem exMix_wf : exMix.WF 2 ∧ IdOk gEx exMix.wires :=
  ⟨⟨⟨by decide, by decide, by decide⟩, by decide, by decide, by decide, rfl, rfl, by decide⟩, by decide⟩

theorem exMix_dmW : DmW {0} exMix.wires := by
  have h : validateOp exMix.wires = some .dm := by decide
  have e : exMix.wires.modes.toFinset = {0} := by decide
  have := ((C90_validate (by decide)).2.1.mp h).1
  rwa [e] at this

theorem exMix_at (k b : Int → ℕ) : dmV exMix.ker k b = if k 0 = 0 ∧ b 0 = 0 then 3 / 2 else if k 0 = 1 ∧ b 0 = 1 then 1 / 2 else 0 := by
  have hs : exMix.wires.sortedWires = [wEx .bra true 0 0, wEx .ket true 0 1] := by decide
  show exMix.arr.entry (exMix.wires.sortedWires.map _) = _
  rw [hs]
  show exMix.arr.entry [b 0, k 0] = _
  rcases k 0 with _ | _ | n <;> rcases b 0 with _ | _ | n' <;> simp [exMix, Arr.entry, inb]

theorem exMix_pos : PosOn 2 {0} exMix.ker := by
  constructor
  · intro k b
    have c3 : (starRingEnd ℂ) 3 = 3 := Complex.conj_ofNat 3
    have c2 : (starRingEnd ℂ) 2 = 2 := Complex.conj_ofNat 2
    rw [exMix_at, exMix_at]
    by_cases h1 : k 0 = 0 <;> by_cases h2 : b 0 = 0 <;> by_cases h3 : k 0 = 1 <;> by_cases h4 : b 0 = 1 <;> simp [h1, h2, h3, h4, c2, c3]
  · intro v
    simp only [tot_singleton, exMix_at, Finset.sum_range_succ, Finset.sum_range_zero, Function.update_self]
    simp only [zero_add, one_ne_zero, zero_ne_one, and_false, false_and, and_self, if_true, if_false, mul_zero, zero_mul, add_zero]
    generalize v _ = a
    generalize v _ = b
    have : (starRingEnd ℂ) a * (3 / 2) * a + (starRingEnd ℂ) b * (1 / 2) * b = ((3 / 2 * Complex.normSq a + 1 / 2 * Complex.normSq b : ℝ) : ℂ) := by
      push_cast
      rw [Complex.normSq_eq_conj_mul_self, Complex.normSq_eq_conj_mul_self]
      ring
    rw [this, Complex.ofReal_re]
    have h1 := Complex.normSq_nonneg a
    have h2 := Complex.normSq_nonneg b
    positivity

theorem exMix_tr : dmTr 2 {0} exMix.ker = 2 := by
  unfold dmTr
  simp only [tot_singleton, exMix_at, Finset.sum_range_succ, Finset.sum_range_zero, Function.update_self]
  norm_num

/-- The hypotheses of `C91_purity` hold for a state that is not pure, of trace 2: its purity is `5/8`. -/
example : exMix.purityDM dEx = some (5 / 8) ∧ ∃ p, exMix.purityDM dEx = some p ∧ 0 < p ∧ p ≤ 1 ∧
    (p = 1 ↔ ∃ v : (Int → ℕ) → ℂ, ∀ k b, dmV exMix.ker k b = v k * (starRingEnd ℂ) (v b)) := by
  refine ⟨?_, C91_purity dEx_ok exMix_wf.1 exMix_wf.2 exMix_dmW ⟨0, by simp⟩ exMix_pos (by rw [exMix_tr]; norm_num)⟩
  rw [C91_dm_purity dEx_ok exMix_wf.1 exMix_wf.2 exMix_dmW ⟨0, by simp⟩, exMix_tr]
  have : ((dmNorm 2 {0} exMix.ker : ℝ) : ℂ) = 5 / 2 := by
    unfold dmNorm
    simp only [ofReal_tot]
    simp only [tot_singleton, exMix_at, Finset.sum_range_succ, Finset.sum_range_zero, Function.update_self]
    norm_num
  have h' : dmNorm 2 {0} exMix.ker = 5 / 2 := by
    apply Complex.ofReal_injective
    rw [this]
    norm_num
  rw [h']
  norm_num

/-- The hypotheses of the theorems on kets hold for `|0⟩ + i|1⟩`, of norm 2. -/
example : ketNorm 2 {0} exPlus.ker = 2 ∧ ∃ Y, exPlus.normalize (exPlus.probKet dEx) = some Y ∧ Y.probKet dEx = some 1 := by
  have e : exPlus.wires.modes.toFinset = {0} := by decide
  have hk := exPlus_ketW
  rw [e] at hk
  have h2 : ketNorm 2 {0} exPlus.ker = 2 := by
    apply Complex.ofReal_injective
    unfold ketNorm
    simp only [ofReal_tot]
    simp only [tot_singleton, exPlus_at, Finset.sum_range_succ, Finset.sum_range_zero, Function.update_self]
    norm_num
  obtain ⟨Y, h3, _, h4, _⟩ := C91_normalize_ket dEx_ok exPlus_wf.1 exPlus_wf.2 hk (by rw [h2]; norm_num)
  exact ⟨h2, Y, h3, h4⟩

end Verif.CompV
