import Verif.TraceOutProps

/-!
# Expectation values as sums (C90): the operators
-/

namespace Verif.CompV

open Verif.WireModel Verif.Arr Verif.Fock Verif.PolyExp Verif.Circuits

/-- Photon numbers `k` on the ket side and `b` on the bra side. -/
def stv (k b : Int → ℕ) : Chan → ℕ
  | (.ket, m) => k m
  | (.bra, m) => b m
  | (.classical, _) => 0

/-- The channels of the modes `T` on one side. -/
def chs (s : Side) (T : Finset Int) : Finset Chan := T.image fun m => (s, m)

theorem mem_chs {s t : Side} {T : Finset Int} {m : Int} : (t, m) ∈ chs s T ↔ t = s ∧ m ∈ T := by
  unfold chs
  rw [Finset.mem_image]
  constructor
  · rintro ⟨m', h, e⟩
    simp only [Prod.mk.injEq] at e
    exact ⟨e.1.symm, e.2 ▸ h⟩
  · rintro ⟨rfl, h⟩
    exact ⟨m, h, rfl⟩

theorem tot_chan (M : ℕ) (T U : Finset Int) (F : (Chan → ℕ) → ℂ) : tot M (chs .ket T ∪ chs .bra U) F = tot M T fun k => tot M U fun b => F (stv k b) := by
  rw [tot_union]
  · unfold chs
    rw [tot_side]
    refine tot_congr fun k hk hk' => ?_
    rw [tot_side]
    refine tot_congr fun b hb hb' => congrArg F (funext fun c => ?_)
    obtain ⟨t, m⟩ := c
    show (if (t, m) ∈ chs .ket T then _ else _) = _
    by_cases h : (t, m) ∈ chs .ket T
    · rw [if_pos h]
      rw [mem_chs] at h
      rw [h.1]
      simp [stv]
    · rw [if_neg h]
      rw [mem_chs] at h
      cases t
      · simp [stv]
      · simp only [stv, reduceCtorEq, if_false]
        exact (hk' m fun hm => h ⟨rfl, hm⟩).symm
      · simp [stv]
  · rw [Finset.disjoint_left]
    rintro ⟨t, m⟩ h1 h2
    rw [mem_chs] at h1 h2
    rw [h1.1] at h2
    simp at h2

theorem tot_ket (M : ℕ) (T : Finset Int) (F : (Chan → ℕ) → ℂ) : tot M (chs .ket T) F = tot M T fun k => F (stv k fun _ => 0) := by
  have := tot_chan M T ∅ F
  rw [show chs .bra ∅ = ∅ from Finset.image_empty _, Finset.union_empty] at this
  rw [this]
  exact tot_congr fun k _ _ => tot_empty _ _

theorem tot_bra (M : ℕ) (T : Finset Int) (F : (Chan → ℕ) → ℂ) : tot M (chs .bra T) F = tot M T fun b => F (stv (fun _ => 0) b) := by
  have := tot_chan M ∅ T F
  rw [show chs .ket ∅ = ∅ from Finset.image_empty _, Finset.empty_union, tot_empty] at this
  exact this

/-- A ket on the modes `N`. -/
def KetOn (N : Finset Int) (K : Ker Chan) : Prop := K.ins = ∅ ∧ K.outs = chs .ket N
/-- A density matrix on the modes `N`. -/
def DmOn (N : Finset Int) (K : Ker Chan) : Prop := K.ins = ∅ ∧ K.outs = chs .ket N ∪ chs .bra N
/-- An operator on the modes `N`. -/
def OpOn (N : Finset Int) (K : Ker Chan) : Prop := K.ins = chs .ket N ∧ K.outs = chs .ket N

/-- `⟨k|ψ⟩`. -/
noncomputable def ketV (K : Ker Chan) (k : Int → ℕ) : ℂ := K.fn (stv k fun _ => 0) fun _ => 0
/-- `⟨k|ρ|b⟩`. -/
noncomputable def dmV (K : Ker Chan) (k b : Int → ℕ) : ℂ := K.fn (stv k b) fun _ => 0
/-- `⟨a|U|k⟩`. -/
noncomputable def opV (K : Ker Chan) (a k : Int → ℕ) : ℂ := K.fn (stv a fun _ => 0) (stv k fun _ => 0)

theorem ket_at {N : Finset Int} {K : Ker Chan} (hl : K.Local) (h : KetOn N K) {o i : Chan → ℕ} {k : Int → ℕ} (hk : ∀ m ∈ N, o (.ket, m) = k m) : K.fn o i = ketV K k := by
  refine hl _ _ _ _ ?_ ?_
  · rintro ⟨t, m⟩ hc
    rw [h.2, mem_chs] at hc
    rw [hc.1]
    exact hk m hc.2
  · intro c hc
    rw [h.1] at hc
    exact absurd hc (Finset.notMem_empty c)

theorem dm_at {N : Finset Int} {K : Ker Chan} (hl : K.Local) (h : DmOn N K) {o i : Chan → ℕ} {k b : Int → ℕ} (hk : ∀ m ∈ N, o (.ket, m) = k m)
    (hb : ∀ m ∈ N, o (.bra, m) = b m) : K.fn o i = dmV K k b := by
  refine hl _ _ _ _ ?_ ?_
  · rintro ⟨t, m⟩ hc
    rw [h.2, Finset.mem_union, mem_chs, mem_chs] at hc
    rcases hc with hc | hc
    · rw [hc.1]
      exact hk m hc.2
    · rw [hc.1]
      exact hb m hc.2
  · intro c hc
    rw [h.1] at hc
    exact absurd hc (Finset.notMem_empty c)

theorem op_at {N : Finset Int} {K : Ker Chan} (hl : K.Local) (h : OpOn N K) {o i : Chan → ℕ} {a k : Int → ℕ} (ha : ∀ m ∈ N, o (.ket, m) = a m)
    (hk : ∀ m ∈ N, i (.ket, m) = k m) : K.fn o i = opV K a k := by
  refine hl _ _ _ _ ?_ ?_
  · rintro ⟨t, m⟩ hc
    rw [h.2, mem_chs] at hc
    rw [hc.1]
    exact ha m hc.2
  · rintro ⟨t, m⟩ hc
    rw [h.1, mem_chs] at hc
    rw [hc.1]
    exact hk m hc.2

theorem chs_inter {s : Side} {T N : Finset Int} (h : T ⊆ N) : chs s N ∩ chs s T = chs s T := by
  ext ⟨t, m⟩
  rw [Finset.mem_inter, mem_chs, mem_chs]
  exact ⟨fun h => h.2, fun h' => ⟨⟨h'.1, h h'.2⟩, h'⟩⟩

theorem trK_empty (M : ℕ) (K : Ker Chan) : trK M ∅ K = K := by
  refine Ker.ext' ?_ rfl fun o i => ?_
  · ext c
    simp [trK]
  · show tot M ∅ (fun z => K.fn (fun c => if c.2 ∈ (∅ : Finset Int) then z c.2 else o c) i) = _
    rw [tot_empty]
    simp

theorem over_chs {s : Side} {T : Finset Int} {z o : Chan → ℕ} {m : Int} : over (chs s T) z o (s, m) = if m ∈ T then z (s, m) else o (s, m) := by
  unfold over
  by_cases h : m ∈ T
  · rw [if_pos h, if_pos (mem_chs.mpr ⟨rfl, h⟩)]
  · rw [if_neg h, if_neg fun h' => h (mem_chs.mp h').2]

theorem over_chs_ne {s t : Side} (h : t ≠ s) {T : Finset Int} {z o : Chan → ℕ} {m : Int} : over (chs s T) z o (t, m) = o (t, m) := by
  unfold over
  rw [if_neg fun h' => h (mem_chs.mp h').1]

theorem over_both {T : Finset Int} {z o : Chan → ℕ} {s : Side} (hs : s = .ket ∨ s = .bra) {m : Int} :
    over (chs .ket T ∪ chs .bra T) z o (s, m) = if m ∈ T then z (s, m) else o (s, m) := by
  unfold over
  by_cases h : m ∈ T
  · rw [if_pos h, if_pos]
    rw [Finset.mem_union, mem_chs, mem_chs]
    exact hs.imp (⟨·, h⟩) (⟨·, h⟩)
  · rw [if_neg h, if_neg]
    rw [Finset.mem_union, mem_chs, mem_chs]
    rintro (h' | h') <;> exact h h'.2

section
variable {M : ℕ} {N T : Finset Int} (hT : T ⊆ N) {X O : Ker Chan}
include hT

/-- `Tr[ρ (O† ⊗ 1)]` -/
theorem exp_dm_dm (lX : X.Local) (lO : O.Local) (hX : DmOn N X) (hO : DmOn T O) (o i : Chan → ℕ) : (trK M (N \ T) (Ker.seq M X (dualK O))).fn o i =
    tot M T fun k => tot M T fun b => tot M (N \ T) fun l => dmV X (over T k l) (over T b l) * (starRingEnd ℂ) (dmV O k b) := by
  have hS : X.outs ∩ (dualK O).ins = chs .ket T ∪ chs .bra T := by
    show X.outs ∩ O.outs = _
    rw [hX.2, hO.2]
    ext ⟨t, m⟩
    simp only [Finset.mem_inter, Finset.mem_union, mem_chs]
    have := @hT m
    tauto
  show (tot M (N \ T) fun l => tot M (X.outs ∩ (dualK O).ins) fun z => X.fn (over (X.outs ∩ (dualK O).ins) z fun c => if c.2 ∈ N \ T then l c.2 else o c) i *
    (starRingEnd ℂ) (O.fn (over (X.outs ∩ (dualK O).ins) z i) fun c => if c.2 ∈ N \ T then l c.2 else o c)) = _
  rw [hS]
  simp only [tot_chan]
  rw [tot_comm]
  refine tot_congr fun k _ _ => ?_
  rw [tot_comm]
  refine tot_congr fun b _ _ => tot_congr fun l _ _ => ?_
  have val : ∀ (s : Side), (s = .ket ∨ s = .bra) → ∀ m ∈ N, over (chs .ket T ∪ chs .bra T) (stv k b) (fun c => if c.2 ∈ N \ T then l c.2 else o c) (s, m) =
      if m ∈ T then stv k b (s, m) else l m := by
    intro s hs m hm
    rw [over_both hs]
    by_cases h : m ∈ T
    · rw [if_pos h, if_pos h]
    · rw [if_neg h, if_neg h, if_pos (Finset.mem_sdiff.mpr ⟨hm, h⟩)]
  rw [dm_at lX hX (k := over T k l) (b := over T b l) (fun m hm => val _ (Or.inl rfl) m hm) (fun m hm => val _ (Or.inr rfl) m hm), dm_at lO hO (k := k) (b := b)]
  · intro m hm
    rw [over_both (Or.inl rfl), if_pos hm]
    rfl
  · intro m hm
    rw [over_both (Or.inr rfl), if_pos hm]
    rfl

/-- `Tr[ρ (|φ⟩⟨φ| ⊗ 1)]` -/
theorem exp_dm_ket (lX : X.Local) (lO : O.Local) (hX : DmOn N X) (hO : KetOn T O) (o i : Chan → ℕ) :
    (trK M (N \ T) (Ker.seq M (Ker.seq M X (adjK (dualK O))) (dualK O))).fn o i =
    tot M T fun k => tot M T fun b => tot M (N \ T) fun l => dmV X (over T k l) (over T b l) * ((starRingEnd ℂ) (ketV O k) * ketV O b) := by
  have hA : (adjK (dualK O)).ins = chs .bra T := by
    show O.outs.image swapC = _
    rw [hO.2]
    ext ⟨t, m⟩
    rw [mem_image_swap]
    show (t.swap, m) ∈ _ ↔ _
    rw [mem_chs, mem_chs]
    cases t <;> simp [Side.swap]
  have hAo : (adjK (dualK O)).outs = ∅ := by
    show O.ins.image swapC = _
    rw [hO.1]
    rfl
  have hS : X.outs ∩ (adjK (dualK O)).ins = chs .bra T := by
    rw [hA, hX.2]
    ext ⟨t, m⟩
    simp only [Finset.mem_inter, Finset.mem_union, mem_chs]
    have := @hT m
    tauto
  have hS' : (Ker.seq M X (adjK (dualK O))).outs ∩ (dualK O).ins = chs .ket T := by
    show ((adjK (dualK O)).outs ∪ (X.outs \ (adjK (dualK O)).ins)) ∩ O.outs = _
    rw [hAo, hA, hX.2, hO.2]
    ext ⟨t, m⟩
    simp only [Finset.mem_inter, Finset.mem_union, Finset.mem_sdiff, mem_chs, Finset.notMem_empty, false_or]
    have := @hT m
    constructor
    · tauto
    · rintro ⟨rfl, h⟩
      simp [h, this h]
  show (tot M (N \ T) fun l => tot M ((Ker.seq M X (adjK (dualK O))).outs ∩ (dualK O).ins) fun z =>
    (tot M (X.outs ∩ (adjK (dualK O)).ins) fun y => X.fn (over (X.outs ∩ (adjK (dualK O)).ins) y
        (over ((Ker.seq M X (adjK (dualK O))).outs ∩ (dualK O).ins) z fun c => if c.2 ∈ N \ T then l c.2 else o c)) i *
      (adjK (dualK O)).fn (over ((Ker.seq M X (adjK (dualK O))).outs ∩ (dualK O).ins) z fun c => if c.2 ∈ N \ T then l c.2 else o c)
        (over (X.outs ∩ (adjK (dualK O)).ins) y i)) *
    (starRingEnd ℂ) (O.fn (over ((Ker.seq M X (adjK (dualK O))).outs ∩ (dualK O).ins) z i) fun c => if c.2 ∈ N \ T then l c.2 else o c)) = _
  rw [hS, hS']
  simp only [tot_bra, tot_ket]
  rw [tot_comm]
  refine tot_congr fun k _ _ => ?_
  rw [tot_comm (F := fun b l => dmV X (over T k l) (over T b l) * ((starRingEnd ℂ) (ketV O k) * ketV O b))]
  refine tot_congr fun l _ _ => ?_
  rw [mul_comm, tot_mul]
  refine tot_congr fun b _ _ => ?_
  have hadj : ∀ o i : Chan → ℕ, (adjK (dualK O)).fn o i = O.fn (fun c => i (swapC c)) fun c => o (swapC c) := fun o i => Complex.conj_conj _
  rw [hadj, dm_at lX hX (k := over T k l) (b := over T b l), ket_at lO hO (k := k), ket_at lO hO (k := b)]
  · ring
  · intro m hm
    show over (chs .bra T) _ i (.bra, m) = _
    rw [over_chs, if_pos hm]
    rfl
  · intro m hm
    rw [over_chs, if_pos hm]
    rfl
  · intro m hm
    rw [over_chs_ne (by simp), over_chs]
    unfold over
    by_cases h : m ∈ T
    · rw [if_pos h, if_pos h]
      rfl
    · rw [if_neg h, if_neg h, if_pos (Finset.mem_sdiff.mpr ⟨hm, h⟩)]
  · intro m hm
    rw [over_chs]
    by_cases h : m ∈ T
    · rw [if_pos h]
      unfold over
      rw [if_pos h]
      rfl
    · rw [if_neg h, over_chs_ne (by simp)]
      unfold over
      rw [if_neg h, if_pos (Finset.mem_sdiff.mpr ⟨hm, h⟩)]

/-- `Tr[(U ⊗ 1) ρ]` -/
theorem exp_dm_op (lX : X.Local) (lO : O.Local) (hX : DmOn N X) (hO : OpOn T O) (o i : Chan → ℕ) : (trK M N (Ker.seq M X O)).fn o i =
    tot M N fun a => tot M T fun k => opV O a k * dmV X (over T k a) a := by
  have hS : X.outs ∩ O.ins = chs .ket T := by
    rw [hX.2, hO.1]
    ext ⟨t, m⟩
    simp only [Finset.mem_inter, Finset.mem_union, mem_chs]
    have := @hT m
    tauto
  show (tot M N fun a => tot M (X.outs ∩ O.ins) fun z => X.fn (over (X.outs ∩ O.ins) z fun c => if c.2 ∈ N then a c.2 else o c) i *
    O.fn (fun c => if c.2 ∈ N then a c.2 else o c) (over (X.outs ∩ O.ins) z i)) = _
  rw [hS]
  simp only [tot_ket]
  refine tot_congr fun a _ _ => tot_congr fun k _ _ => ?_
  rw [dm_at lX hX (k := over T k a) (b := a), op_at lO hO (a := a) (k := k), mul_comm]
  · intro m hm
    dsimp only
    rw [if_pos (hT hm)]
  · intro m hm
    rw [over_chs, if_pos hm]
    rfl
  · intro m hm
    rw [over_chs, if_pos hm]
    rfl
  · intro m hm
    rw [over_chs_ne (by simp)]
    dsimp only
    rw [if_pos hm]

/-- `⟨ψ| (|φ⟩⟨φ| ⊗ 1) |ψ⟩` -/
theorem exp_ket_ket (lX : X.Local) (lO : O.Local) (hX : KetOn N X) (hO : KetOn T O) (o i : Chan → ℕ) :
    (trK M (N \ T) (Ker.seq M (Ker.seq M X (dualK O)) (adjK (Ker.seq M X (dualK O))))).fn o i =
    tot M (N \ T) fun l => (tot M T fun k => ketV X (over T k l) * (starRingEnd ℂ) (ketV O k)) *
      (starRingEnd ℂ) (tot M T fun k => ketV X (over T k l) * (starRingEnd ℂ) (ketV O k)) := by
  obtain ⟨r, hr⟩ : ∃ r, r = Ker.seq M X (dualK O) := ⟨_, rfl⟩
  rw [← hr]
  have hS : X.outs ∩ (dualK O).ins = chs .ket T := by
    show X.outs ∩ O.outs = _
    rw [hX.2, hO.2, chs_inter hT]
  have ro : r.outs = chs .ket (N \ T) := by
    rw [hr]
    show O.ins ∪ (X.outs \ O.outs) = _
    rw [hO.1, hX.2, hO.2]
    ext ⟨t, m⟩
    simp only [Finset.mem_union, Finset.mem_sdiff, mem_chs, Finset.notMem_empty, false_or]
    tauto
  have ri : r.ins = ∅ := by
    rw [hr]
    show X.ins ∪ (O.outs \ X.outs) = _
    rw [hX.1, hX.2, hO.2]
    ext ⟨t, m⟩
    simp only [Finset.mem_union, Finset.mem_sdiff, mem_chs, Finset.notMem_empty, false_or, iff_false]
    have := @hT m
    tauto
  have rv : ∀ (o i : Chan → ℕ) (l : Int → ℕ), (∀ m ∈ N \ T, o (.ket, m) = l m) →
      r.fn o i = tot M T fun k => ketV X (over T k l) * (starRingEnd ℂ) (ketV O k) := by
    intro o i l hl
    rw [hr]
    show (tot M (X.outs ∩ (dualK O).ins) fun z => X.fn (over (X.outs ∩ (dualK O).ins) z o) i * (starRingEnd ℂ) (O.fn (over (X.outs ∩ (dualK O).ins) z i) o)) = _
    rw [hS, tot_ket]
    refine tot_congr fun k _ _ => ?_
    rw [ket_at lX hX (k := over T k l), ket_at lO hO (k := k)]
    · intro m hm
      rw [over_chs, if_pos hm]
      rfl
    · intro m hm
      rw [over_chs]
      unfold over
      by_cases h : m ∈ T
      · rw [if_pos h, if_pos h]
        rfl
      · rw [if_neg h, if_neg h, hl m (Finset.mem_sdiff.mpr ⟨hm, h⟩)]
  have hS' : r.outs ∩ (adjK r).ins = ∅ := by
    show r.outs ∩ r.ins.image swapC = ∅
    rw [ri]
    simp
  show (tot M (N \ T) fun l => tot M (r.outs ∩ (adjK r).ins) fun z => r.fn (over (r.outs ∩ (adjK r).ins) z fun c => if c.2 ∈ N \ T then l c.2 else o c) i *
    (starRingEnd ℂ) (r.fn (fun c => if (swapC c).2 ∈ N \ T then l (swapC c).2 else o (swapC c)) fun c => over (r.outs ∩ (adjK r).ins) z i (swapC c))) = _
  rw [hS']
  refine tot_congr fun l _ _ => ?_
  rw [tot_empty, rv _ _ l, rv _ _ l]
  · intro m hm
    show (if m ∈ N \ T then l m else _) = _
    rw [if_pos hm]
  · intro m hm
    unfold over
    rw [if_neg (Finset.notMem_empty _)]
    dsimp only
    rw [if_pos hm]

/-- `⟨ψ| (O† ⊗ 1) |ψ⟩` -/
theorem exp_ket_dm (lX : X.Local) (lO : O.Local) (hX : KetOn N X) (hO : DmOn T O) (o i : Chan → ℕ) :
    (trK M (N \ T) (Ker.seq M (adjK X) (Ker.seq M X (dualK O)))).fn o i =
    tot M T fun k => tot M T fun b => tot M (N \ T) fun l => ketV X (over T k l) * (starRingEnd ℂ) (ketV X (over T b l)) * (starRingEnd ℂ) (dmV O k b) := by
  have hS : X.outs ∩ (dualK O).ins = chs .ket T := by
    show X.outs ∩ O.outs = _
    rw [hX.2, hO.2]
    ext ⟨t, m⟩
    simp only [Finset.mem_inter, Finset.mem_union, mem_chs]
    have := @hT m
    constructor
    · rintro ⟨⟨rfl, _⟩, h⟩
      simpa using h
    · rintro ⟨rfl, h⟩
      simp [h, this h]
  have ha : (adjK X).outs = chs .bra N := by
    show X.outs.image swapC = _
    rw [hX.2]
    ext ⟨t, m⟩
    rw [mem_image_swap]
    show (t.swap, m) ∈ _ ↔ _
    rw [mem_chs, mem_chs]
    cases t <;> simp [Side.swap]
  have hS' : (adjK X).outs ∩ (Ker.seq M X (dualK O)).ins = chs .bra T := by
    show (adjK X).outs ∩ (X.ins ∪ (O.outs \ X.outs)) = _
    rw [ha, hX.1, hX.2, hO.2]
    ext ⟨t, m⟩
    simp only [Finset.mem_inter, Finset.mem_union, Finset.mem_sdiff, mem_chs, Finset.notMem_empty, false_or]
    have := @hT m
    constructor
    · rintro ⟨⟨rfl, _⟩, h, _⟩
      simpa using h
    · rintro ⟨rfl, h⟩
      simp [h, this h]
  show (tot M (N \ T) fun l => tot M ((adjK X).outs ∩ (Ker.seq M X (dualK O)).ins) fun z =>
    (starRingEnd ℂ) (X.fn (fun c => over ((adjK X).outs ∩ (Ker.seq M X (dualK O)).ins) z (fun c => if c.2 ∈ N \ T then l c.2 else o c) (swapC c)) fun c => i (swapC c)) *
    tot M (X.outs ∩ (dualK O).ins) fun y => X.fn (over (X.outs ∩ (dualK O).ins) y fun c => if c.2 ∈ N \ T then l c.2 else o c)
        (over ((adjK X).outs ∩ (Ker.seq M X (dualK O)).ins) z i) *
      (starRingEnd ℂ) (O.fn (over (X.outs ∩ (dualK O).ins) y (over ((adjK X).outs ∩ (Ker.seq M X (dualK O)).ins) z i)) fun c => if c.2 ∈ N \ T then l c.2 else o c)) = _
  rw [hS, hS']
  simp only [tot_bra, tot_ket, tot_mul]
  have e1 : (tot M T fun k => tot M T fun b => tot M (N \ T) fun l => ketV X (over T k l) * (starRingEnd ℂ) (ketV X (over T b l)) * (starRingEnd ℂ) (dmV O k b)) =
      tot M (N \ T) fun l => tot M T fun b => tot M T fun k => ketV X (over T k l) * (starRingEnd ℂ) (ketV X (over T b l)) * (starRingEnd ℂ) (dmV O k b) := by
    rw [tot_comm, tot_comm (T := N \ T)]
    refine tot_congr fun b _ _ => ?_
    rw [tot_comm]
  rw [e1]
  refine tot_congr fun l _ _ => tot_congr fun b _ _ => tot_congr fun k _ _ => ?_
  rw [ket_at lX hX (k := over T b l), ket_at lX hX (k := over T k l), dm_at lO hO (k := k) (b := b)]
  · ring
  · intro m hm
    rw [over_chs, if_pos hm]
    rfl
  · intro m hm
    rw [over_chs_ne (by simp), over_chs, if_pos hm]
    rfl
  · intro m hm
    rw [over_chs]
    unfold over
    by_cases h : m ∈ T
    · rw [if_pos h, if_pos h]
      rfl
    · rw [if_neg h, if_neg h, if_pos (Finset.mem_sdiff.mpr ⟨hm, h⟩)]
  · intro m hm
    show over (chs .bra T) _ _ (.bra, m) = _
    rw [over_chs]
    unfold over
    by_cases h : m ∈ T
    · rw [if_pos h, if_pos h]
      rfl
    · rw [if_neg h, if_neg h, if_pos (Finset.mem_sdiff.mpr ⟨hm, h⟩)]

/-- `⟨ψ| U ⊗ 1 |ψ⟩` -/
theorem exp_ket_op (lX : X.Local) (lO : O.Local) (hX : KetOn N X) (hO : OpOn T O) (o i : Chan → ℕ) : (Ker.seq M (Ker.seq M X O) (dualK X)).fn o i =
    tot M N fun a => tot M T fun k => (starRingEnd ℂ) (ketV X a) * opV O a k * ketV X (over T k a) := by
  have hS : X.outs ∩ O.ins = chs .ket T := by rw [hX.2, hO.1, chs_inter hT]
  have hS' : (Ker.seq M X O).outs ∩ (dualK X).ins = chs .ket N := by
    show (O.outs ∪ (X.outs \ O.ins)) ∩ X.outs = _
    rw [hX.2, hO.1, hO.2]
    ext ⟨t, m⟩
    simp only [Finset.mem_inter, Finset.mem_union, Finset.mem_sdiff, mem_chs]
    have := @hT m
    tauto
  show (tot M ((Ker.seq M X O).outs ∩ (dualK X).ins) fun z => (tot M (X.outs ∩ O.ins) fun y =>
      X.fn (over (X.outs ∩ O.ins) y (over ((Ker.seq M X O).outs ∩ (dualK X).ins) z o)) i * O.fn (over ((Ker.seq M X O).outs ∩ (dualK X).ins) z o) (over (X.outs ∩ O.ins) y i)) *
    (starRingEnd ℂ) (X.fn (over ((Ker.seq M X O).outs ∩ (dualK X).ins) z i) o)) = _
  rw [hS, hS']
  simp only [tot_ket]
  refine tot_congr fun a _ _ => ?_
  rw [mul_comm, tot_mul]
  refine tot_congr fun k _ _ => ?_
  rw [ket_at lX hX (k := a), ket_at lX hX (k := over T k a), op_at lO hO (a := a) (k := k)]
  · ring
  · intro m hm
    rw [over_chs, if_pos (hT hm)]
    rfl
  · intro m hm
    rw [over_chs, if_pos hm]
    rfl
  · intro m hm
    rw [over_chs]
    unfold over
    by_cases h : m ∈ T
    · rw [if_pos h, if_pos h]
      rfl
    · rw [if_neg h, if_neg h, if_pos (mem_chs.mpr ⟨rfl, hm⟩)]
      rfl
  · intro m hm
    rw [over_chs, if_pos hm]
    rfl

end

end Verif.CompV
