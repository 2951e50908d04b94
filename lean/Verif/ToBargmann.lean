import Verif.FockUnique
import Verif.Triples
import Verif.ArrayAlg

/-!
# Model of the conversions between Fock arrays and Bargmann ansätze (C59)
-/

namespace Verif.ToBargmann
open Verif.Fock Verif.Batch Verif.PolyExp Verif.Arr Verif.Triples

/-- lab/circuit_components.py:678-680 `to_bargmann` of a Fock component that does not remember a Bargmann origin; the number of quantum wires is the number
of core axes.  The unbatched `A` makes every axis of the array, batch axes included, a derived variable. -/
def toBargmann (a : Arr) : Option PolyExp :=
  let n := a.core.length
  PolyExp.init [] false (2 * n) (fun _ => (identity n).A []) (fun _ => (identity n).b []) a.shape a.get

/-- physics/mm_einsum.py:311-316 `to_bargmann` (no Bargmann origin): here `A` and `b` are broadcast to the batch. -/
def toBargmannE (a : Arr) : Option PolyExp :=
  let n := a.core.length
  PolyExp.init a.batch false (2 * n) (fun _ => (identity n).A []) (fun _ => (identity n).b []) a.shape a.get

/-- physics/mm_einsum.py:272-292 `to_fock` of a Bargmann ansatz without derived variables: `hermite_renormalized` over `A, b, c`, then, for a superposition,
a sum over the axis number `batch_dims`; the batch of `f` includes the superposition axis.  `none`: ValueError. -/
noncomputable def mmToFock (f : PolyExp) (shape : List ℕ) : Option Arr :=
  if 0 ∈ shape then none
  else
    let arr (i : List ℕ) : ℂ := (vanilla shape (f.A (i.take f.batch.length)) (f.b (i.take f.batch.length)) (f.c (i.take f.batch.length) [])
      (List.replicate shape.prod 0)).getD (ravel shape (i.drop f.batch.length)) 0
    if f.linSup then
      some ⟨f.batch.length, f.batch ++ shape.tail, fun i => ∑ m ∈ Finset.range (shape.headD 0), arr (i.take f.batch.length ++ m :: i.drop f.batch.length)⟩
    else some ⟨f.batch.length, f.batch ++ shape, arr⟩

/-- The identity kernel has the amplitudes of the identity. -/
theorem amp_identity (n : ℕ) (x : ℕ →₀ ℕ) (hx : Below (2 * n) x) :
    amp (2 * n) ((identity n).A []) ((identity n).b []) 1 x = if ∀ i < n, x i = x (n + i) then 1 else 0 := by
  symm
  refine amp_unique (fun x : ℕ →₀ ℕ => if ∀ i < n, x i = x (n + i) then (1 : ℂ) else 0) (by simp) ?_ x hx
  intro i hi k _
  have hsym : ∀ i j, symA ((identity n).A []) i j = if i + n = j ∨ j + n = i then 1 else 0 := by
    intro i j
    show ((if i + n = j ∨ j + n = i then (1 : ℂ) else 0) + (if j + n = i ∨ i + n = j then (1 : ℂ) else 0)) / 2 = _
    by_cases h : i + n = j ∨ j + n = i
    · rw [if_pos h, if_pos h.symm]; norm_num
    · rw [if_neg h, if_neg fun hc => h hc.symm]; norm_num
  have hb : (identity n).b [] i = 0 := rfl
  rw [hb, zero_mul, zero_add]
  obtain ⟨p, hp, hpn⟩ : ∃ p < 2 * n, ∀ j < 2 * n, (i + n = j ∨ j + n = i) ↔ j = p := by
    by_cases h : i < n
    · exact ⟨i + n, by omega, fun j hj => by omega⟩
    · exact ⟨i - n, by omega, fun j hj => by omega⟩
  rw [Finset.sum_eq_single p (fun j hj hne => by
    rw [hsym, if_neg (fun h => hne ((hpn j (Finset.mem_range.1 hj)).1 h)), zero_mul, zero_mul]) (fun h => absurd (Finset.mem_range.2 hp) h),
    hsym, if_pos ((hpn p hp).2 rfl), one_mul]
  have hip : (i + n = p ∨ p + n = i) := (hpn p hp).2 rfl
  have hne : i ≠ p := by omega
  by_cases hz : k p = 0
  · rw [hz]
    have : ¬ ∀ j < n, up k i j = up k i (n + j) := by
      intro hc
      rcases hip with h | h
      · have := hc i (by omega)
        rw [up_apply, up_apply, if_pos rfl, if_neg (by omega), show n + i = p by omega] at this
        omega
      · have := hc p (by omega)
        rw [up_apply, up_apply, if_neg (by omega), if_pos (by omega), show n + p = i by omega] at this
        omega
    rw [if_neg this]
    simp [Fock.sq]
  · have e : (∀ j < n, up k i j = up k i (n + j)) ↔ k i + 1 = k p ∧ ∀ j < n, j ≠ i → j ≠ p → k j = k (n + j) := by
      constructor
      · intro h
        constructor
        · rcases hip with h1 | h1
          · have := h i (by omega)
            rwa [up_apply, up_apply, if_pos rfl, if_neg (by omega), show n + i = p by omega] at this
          · have := h p (by omega)
            rw [up_apply, up_apply, if_neg (by omega), if_pos (by omega), show n + p = i by omega] at this
            exact this.symm
        · intro j hj h1 h2
          have := h j hj
          rwa [up_apply, up_apply, if_neg h1, if_neg (by omega)] at this
      · rintro ⟨h1, h2⟩ j hj
        rw [up_apply, up_apply]
        by_cases a1 : j = i
        · rw [if_pos a1, if_neg (by omega), a1, show n + i = p by omega, h1]
        · rw [if_neg a1]
          by_cases a2 : j = p
          · rw [if_pos (by omega), a2, show n + p = i by omega, h1]
          · rw [if_neg (by omega)]; exact h2 j hj a1 a2
    have e' : (∀ j < n, dn k p j = dn k p (n + j)) ↔ k i + 1 = k p ∧ ∀ j < n, j ≠ i → j ≠ p → k j = k (n + j) := by
      constructor
      · intro h
        constructor
        · rcases hip with h1 | h1
          · have := h i (by omega)
            rw [dn_apply, dn_apply, if_neg (by omega), if_pos (by omega), show n + i = p by omega] at this
            omega
          · have := h p (by omega)
            rw [dn_apply, dn_apply, if_pos rfl, if_neg (by omega), show n + p = i by omega] at this
            omega
        · intro j hj h1 h2
          have := h j hj
          rwa [dn_apply, dn_apply, if_neg h2, if_neg (by omega)] at this
      · rintro ⟨h1, h2⟩ j hj
        rw [dn_apply, dn_apply]
        by_cases a1 : j = i
        · rw [if_neg (by omega), if_pos (by omega), a1, show n + i = p by omega]; omega
        · by_cases a2 : j = p
          · rw [if_pos a2, if_neg (by omega), a2, show n + p = i by omega]; omega
          · rw [if_neg a2, if_neg (by omega)]; exact h2 j hj a1 a2
    simp only [e, e']
    by_cases hc : k i + 1 = k p ∧ ∀ j < n, j ≠ i → j ≠ p → k j = k (n + j)
    · rw [if_pos hc, hc.1]
    · rw [if_neg hc]; simp

theorem identity_symm (n : ℕ) : Symm (2 * n) ((identity n).A []) := by
  intro i _ j _
  unfold identity mk
  simp only [or_comm]

theorem amp_identity_lists {k d : List ℕ} (h : k.length = d.length) :
    amp (2 * k.length) ((identity k.length).A []) ((identity k.length).b []) 1 (toF (k ++ d)) = if d = k then 1 else 0 := by
  rw [amp_identity _ _ (toF_below _ (by rw [List.length_append]; omega))]
  refine if_congr ?_ rfl rfl
  constructor
  · intro hh
    refine List.ext_getElem h.symm fun i h1 h2 => ?_
    have := hh i h2
    rw [toF_apply, toF_apply, List.getD_append _ _ _ _ h2, List.getD_append_right _ _ _ _ (by omega), Nat.add_sub_cancel_left,
      List.getD_eq_getElem _ _ h2, List.getD_eq_getElem _ _ h1] at this
    exact this.symm
  · rintro rfl i hi
    rw [toF_apply, toF_apply, List.getD_append _ _ _ _ hi, List.getD_append_right _ _ _ _ (by omega), Nat.add_sub_cancel_left]

theorem nsum_single {s k : List ℕ} (hk : InB s k) (F : List ℕ → ℂ) (h : ∀ d, InB s d → d ≠ k → F d = 0) : nsum s F = F k := by
  induction s generalizing k F with
  | nil => cases hk; exact nsum_nil _
  | cons n s ih =>
    cases hk with
    | cons h1 h2 =>
      rename_i a l
      rw [nsum_cons, Finset.sum_eq_single a]
      · exact ih h2 _ fun d hd hne => h _ (.cons h1 hd) fun e => hne (List.cons.inj e).2
      · intro b hb hne
        rw [nsum_congr (G := fun _ => 0) fun d hd => h _ (.cons (Finset.mem_range.1 hb) hd) fun e => hne (List.cons.inj e).1]
        simp [nsum]
      · intro hc; exact absurd (Finset.mem_range.2 h1) hc

theorem nsum_zero {s : List ℕ} (F : List ℕ → ℂ) (h : ∀ d, InB s d → F d = 0) : nsum s F = 0 := by
  rw [nsum_congr (G := fun _ => 0) h]
  simp [nsum]

/-- An ansatz `∑_d c_d` over the identity kernel: all its variables but the first `n` are derived. -/
structure Poly (f : PolyExp) (n : ℕ) : Prop where
  N : f.N = 2 * n
  A : ∀ β, f.A β = (identity n).A []
  b : ∀ β, f.b β = (identity n).b []
  der : f.derived.length = n
  ls : f.linSup = false

theorem Poly.wf {f : PolyExp} {n : ℕ} (h : Poly f n) : f.WF := ⟨by rw [h.N, h.der]; omega, by rw [h.ls]; simp⟩
theorem Poly.numCV {f : PolyExp} {n : ℕ} (h : Poly f n) : f.numCV = n := by unfold PolyExp.numCV; rw [h.N, h.der]; omega
theorem Poly.symm {f : PolyExp} {n : ℕ} (h : Poly f n) (β : List ℕ) : Symm f.N (f.A β) := by rw [h.N, h.A]; exact identity_symm n

theorem Poly.amp_eq {f : PolyExp} {n : ℕ} (h : Poly f n) (β k : List ℕ) (hk : k.length = n) :
    f.fockAmp β k = nsum f.derived fun d => if d = k then f.c β d else 0 := by
  unfold PolyExp.fockAmp PolyExp.supShape
  rw [h.ls, if_neg (by simp), nsum_nil, List.append_nil, h.N, h.A, h.b, ← hk]
  refine nsum_congr fun d hd => ?_
  rw [amp_identity_lists (by rw [hk, ← h.der]; exact (List.Forall₂.length_eq hd).symm)]
  split_ifs <;> simp

theorem Poly.fockAmp {f : PolyExp} {n : ℕ} (h : Poly f n) (β k : List ℕ) (hk : k.length = n) :
    f.fockAmp β k = if inb k f.derived then f.c β k else 0 := by
  rw [h.amp_eq β k hk]
  by_cases hin : InB f.derived k
  · rw [nsum_single hin _ fun d _ hne => if_neg hne, if_pos rfl, if_pos (inb_iff.2 hin)]
  · rw [nsum_zero _ fun d hd => if_neg fun e : d = k => hin (e ▸ hd), if_neg fun h => hin (inb_iff.1 h)]

/-- The value of such an ansatz is the polynomial with these coefficients. -/
theorem Poly.call {f : PolyExp} {n : ℕ} (h : Poly f n) (β : List ℕ) (z : ℕ → ℂ) :
    f.call β z = nsum f.derived fun d => f.c β d * ∏ i : Fin n, z i ^ d.getD i 0 / (Real.sqrt ((d.getD i 0).factorial : ℝ) : ℂ) := by
  have h1 := C58_series f h.wf h.symm β z
  rw [h.numCV] at h1
  refine h1.unique ?_
  have e : ∀ k : Fin n → ℕ, f.fockAmp β (List.ofFn k) * ∏ i : Fin n, z i ^ k i / (Real.sqrt ((k i).factorial : ℝ) : ℂ) =
      nsum f.derived fun d => if d = List.ofFn k then f.c β d * ∏ i : Fin n, z i ^ d.getD i 0 / (Real.sqrt ((d.getD i 0).factorial : ℝ) : ℂ) else 0 := by
    intro k
    rw [h.amp_eq β _ (by simp), ← nsum_mul_right]
    refine nsum_congr fun d hd => ?_
    by_cases he : d = List.ofFn k
    · rw [if_pos he, if_pos he]
      refine congrArg (HMul.hMul _) (Finset.prod_congr rfl fun i _ => ?_)
      have : d.getD i 0 = k i := by
        rw [he, List.getD_eq_getElem _ _ (by simp)]; simp
      rw [this]
    · rw [if_neg he, if_neg he, zero_mul]
  simp only [e]
  refine hasSum_nsum _ _ _ fun d hd => ?_
  have hdl : d.length = n := by rw [← h.der]; exact List.Forall₂.length_eq hd
  have hd' : List.ofFn (fun i : Fin n => d.getD i 0) = d := by
    refine List.ext_getElem (by simp [hdl]) fun i h1 h2 => ?_
    rw [List.getElem_ofFn, List.getD_eq_getElem _ _ h2]
  have := hasSum_single (f := fun k : Fin n → ℕ => if d = List.ofFn k then
      f.c β d * ∏ i : Fin n, z i ^ d.getD i 0 / (Real.sqrt ((d.getD i 0).factorial : ℝ) : ℂ) else 0) (fun i : Fin n => d.getD i 0) (by
    intro k hk
    refine if_neg fun hc => hk ?_
    funext i
    show k i = _
    rw [hc, List.getD_eq_getElem _ _ (by simp)]; simp)
  rw [hd', if_pos rfl] at this
  exact this

/-- lab/circuit_components.py:719-726: a Fock component and the Bargmann triple it remembers. -/
structure FockComp where
  arr : Arr
  orig : Option PolyExp

/-- lab/circuit_components.py:719-726 `to_fock(shape)` of a Bargmann component with a valid explicit shape. -/
noncomputable def toFock (f : PolyExp) (shape : List ℕ) : Option FockComp :=
  if 0 ∈ shape ∨ shape.length ≠ f.numCV then none
  else
    let batch := if f.linSup then f.batch.dropLast else f.batch
    some ⟨⟨batch.length, batch ++ shape, fun i => (f.fockArray shape (i.take batch.length) (i.drop batch.length)).getD 0⟩,
      if f.derived.length = 0 ∧ f.linSup = false then some f else none⟩

/-- lab/circuit_components.py:675-681 `to_bargmann` of a Fock component. -/
def FockComp.toBargmann (x : FockComp) : Option PolyExp :=
  match x.orig with
  | some f => PolyExp.init f.batch false f.N f.A f.b (f.batch ++ f.derived) fun i => f.c (i.take f.batch.length) (i.drop f.batch.length)
  | none => Verif.ToBargmann.toBargmann x.arr

theorem toBargmann_poly (a : Arr) (hb : a.batchDims = 0) :
    ∃ f, toBargmann a = some f ∧ Poly f a.shape.length ∧ f.derived = a.shape ∧ f.c [] = a.get ∧ f.batch = [] := by
  have hcore : a.core = a.shape := by unfold Arr.core; rw [hb]; rfl
  refine ⟨_, rfl, ⟨?_, ?_, ?_, rfl, rfl⟩, rfl, rfl, rfl⟩
  · show 2 * a.core.length = _; rw [hcore]
  · intro β; show (identity a.core.length).A [] = _; rw [hcore]
  · intro β; show (identity a.core.length).b [] = _; rw [hcore]

theorem toBargmannE_poly (a : Arr) (hw : a.WF) :
    ∃ f, toBargmannE a = some f ∧ Poly f a.core.length ∧ f.derived = a.core ∧ (∀ β k, f.c β k = a.get (β ++ k)) ∧ f.batch = a.batch := by
  have hl : a.batch.length = a.batchDims := by unfold Arr.batch; rw [List.length_take]; exact min_eq_left hw
  have e : a.shape.take a.batch.length = a.batch := by rw [hl]; rfl
  have e2 : a.shape.drop a.batch.length = a.core := by rw [hl]; rfl
  refine ⟨⟨a.batch, false, 2 * a.core.length, fun _ => (identity a.core.length).A [], fun _ => (identity a.core.length).b [], a.core, fun β k => a.get (β ++ k)⟩,
    ?_, ⟨rfl, fun _ => rfl, fun _ => rfl, rfl, rfl⟩, rfl, fun _ _ => rfl, rfl⟩
  unfold toBargmannE PolyExp.init
  dsimp only
  rw [if_pos e, e2]

/-- **C59**: converting an unbatched Fock array to Bargmann and back gives the array, padded with zeros or cut to the requested shape. -/
theorem C59_roundtrip (a : Arr) (hb : a.batchDims = 0) (shape k : List ℕ) (h0 : 0 ∉ shape) (hl : shape.length = a.shape.length) (hk : InB shape k) :
    ∃ f, toBargmann a = some f ∧ f.WF ∧ f.batch = [] ∧ f.numCV = a.shape.length ∧ f.fockArray shape [] k = some (a.entry k) := by
  obtain ⟨f, h1, hp, h2, h3, h4⟩ := toBargmann_poly a hb
  refine ⟨f, h1, hp.wf, h4, hp.numCV, ?_⟩
  rw [C58_entries f hp.wf hp.symm shape [] k h0 (by rw [hp.numCV, hl]) hk, hp.fockAmp [] k ((List.Forall₂.length_eq hk).trans hl), h2, h3]
  rfl

/-- **C59**: the function it stands for is the polynomial `∑_k a_k ∏ z_i^{k_i} / √k_i!`. -/
theorem C59_value (a : Arr) (hb : a.batchDims = 0) (z : ℕ → ℂ) : ∃ f, toBargmann a = some f ∧
    f.call [] z = nsum a.shape fun k => a.get k * ∏ i : Fin a.shape.length, z i ^ k.getD i 0 / (Real.sqrt ((k.getD i 0).factorial : ℝ) : ℂ) := by
  obtain ⟨f, h1, hp, h2, h3, _⟩ := toBargmann_poly a hb
  refine ⟨f, h1, ?_⟩
  rw [hp.call, h2, h3]

/-- **C59**: the conversion used by the contraction planner keeps the batch. -/
theorem C59_roundtrip_batched (a : Arr) (hw : a.WF) (shape β k : List ℕ) (h0 : 0 ∉ shape) (hl : shape.length = a.core.length) (hk : InB shape k)
    (hβ : InB a.batch β) :
    ∃ f, toBargmannE a = some f ∧ f.WF ∧ f.batch = a.batch ∧ f.numCV = a.core.length ∧ f.fockArray shape β k = some (a.entry (β ++ k)) := by
  obtain ⟨f, h1, hp, h2, h3, h4⟩ := toBargmannE_poly a hw
  refine ⟨f, h1, hp.wf, h4, hp.numCV, ?_⟩
  rw [C58_entries f hp.wf hp.symm shape β k h0 (by rw [hp.numCV, hl]) hk, hp.fockAmp β k ((List.Forall₂.length_eq hk).trans hl), h2, h3]
  refine congrArg some ?_
  have e : a.shape = a.batch ++ a.core := (List.take_append_drop _ _).symm
  unfold Arr.entry
  refine if_congr ?_ rfl rfl
  rw [inb_iff, inb_iff, e]
  constructor
  · exact fun h => inB_append hβ h
  · intro h
    rw [inB_append_iff, ← List.Forall₂.length_eq hβ, List.drop_left] at h
    exact h.2

/-- The code disagrees: the conversion of components makes the batch axes of a Fock array polynomial degrees of freedom; the result has no batch and too few variables. -/
theorem C59_batched_wrong (a : Arr) (hw : a.WF) : ∃ f, toBargmann a = some f ∧ f.batch = [] ∧ f.numCV = a.core.length - a.batchDims := by
  refine ⟨_, rfl, rfl, ?_⟩
  show 2 * a.core.length - a.shape.length = _
  have : a.core.length = a.shape.length - a.batchDims := by unfold Arr.core; simp
  have hw : a.batchDims ≤ a.shape.length := hw
  omega

/-- **C59**: an ansatz that is not a superposition and has no derived variables is recovered from its Fock array, whatever the cutoffs. -/
theorem C59_remembers (f : PolyExp) (hd : f.derived = []) (hl : f.linSup = false) (shape : List ℕ) (h0 : 0 ∉ shape) (hs : shape.length = f.numCV) :
    ∃ x g, toFock f shape = some x ∧ x.toBargmann = some g ∧ g.batch = f.batch ∧ g.numCV = f.numCV ∧
      ∀ β, InB f.batch β → ∀ z, g.call β z = f.call β z := by
  unfold toFock
  rw [if_neg (by simp [h0, hs])]
  refine ⟨_, ⟨f.batch, false, f.N, f.A, f.b, [], fun β k => f.c ((β ++ k).take f.batch.length) ((β ++ k).drop f.batch.length)⟩, rfl, ?_, rfl, ?_, ?_⟩
  · unfold FockComp.toBargmann PolyExp.init
    dsimp only
    rw [if_pos ⟨by rw [hd]; rfl, hl⟩]
    dsimp only
    rw [hd, List.append_nil, if_pos (List.take_length), List.drop_length]
  · unfold PolyExp.numCV; rw [hd]
  · intro β hβ z
    unfold PolyExp.call
    rw [hl, if_neg (by simp), if_neg (by simp)]
    unfold PolyExp.termAt PolyExp.numCV
    rw [hd]
    unfold termVal
    simp only [nsum_nil, List.append_nil]
    rw [← List.Forall₂.length_eq hβ, List.take_length, List.drop_length]

/-- **C59**: otherwise the way back is the polynomial of the retained amplitudes. -/
theorem C59_truncates (f : PolyExp) (hf : f.WF) (hsy : ∀ β, Symm f.N (f.A β)) (hd : f.derived ≠ [] ∨ f.linSup = true) (shape : List ℕ) (h0 : 0 ∉ shape)
    (hs : shape.length = f.numCV) (hB : f.batch = [] ∨ ∃ n, f.batch = [n] ∧ f.linSup = true) (z : ℕ → ℂ) :
    ∃ x g, toFock f shape = some x ∧ x.toBargmann = some g ∧ g.batch = [] ∧
      g.call [] z = nsum shape fun k => f.fockAmp [] k * ∏ i : Fin f.numCV, z i ^ k.getD i 0 / (Real.sqrt ((k.getD i 0).factorial : ℝ) : ℂ) := by
  have hb : (if f.linSup then f.batch.dropLast else f.batch) = [] := by
    rcases hB with h | ⟨n, h, h2⟩
    · rw [h]; simp
    · rw [h, h2]; rfl
  have ho : ¬ (f.derived.length = 0 ∧ f.linSup = false) := by
    rintro ⟨h1, h2⟩
    rcases hd with h | h
    · exact h (List.length_eq_zero_iff.1 h1)
    · simp [h] at h2
  unfold toFock
  rw [if_neg (by simp [h0, hs]), hb, if_neg ho]
  obtain ⟨g, g1, gp, g2, g3, g4⟩ := toBargmann_poly ⟨0, shape, fun i => (f.fockArray shape [] i).getD 0⟩ rfl
  refine ⟨_, g, rfl, ?_, g4, ?_⟩
  · unfold FockComp.toBargmann
    dsimp only
    exact g1
  · rw [gp.call, g2, g3]
    refine nsum_congr fun k hk => ?_
    dsimp only
    rw [C58_entries f hf hsy shape [] k h0 hs hk, Option.getD_some]
    have : shape.length = f.numCV := hs
    refine congrArg (HMul.hMul _) ?_
    rw [hs]

/-- **C59**: the planner's `to_fock` agrees with `fock_array` on ansätze that are not superpositions and have no derived variables. -/
theorem C59_planner (f : PolyExp) (hd : f.derived = []) (hl : f.linSup = false) (shape β k : List ℕ) (h0 : 0 ∉ shape)
    (hs : shape.length = f.numCV) (hβ : InB f.batch β) (hk : InB shape k) :
    ∃ a, mmToFock f shape = some a ∧ a.batch = f.batch ∧ a.core = shape ∧ f.fockArray shape β k = some (a.entry (β ++ k)) := by
  unfold mmToFock
  rw [if_neg h0]
  dsimp only
  rw [hl, if_neg (by simp)]
  refine ⟨_, rfl, by simp [Arr.batch], by simp [Arr.core], ?_⟩
  unfold Arr.entry PolyExp.fockArray PolyExp.supShape
  rw [if_neg h0, if_neg (not_not.2 hs), hl, if_neg (by simp), if_pos (inb_iff.2 (inB_append hβ hk)), nsum_nil]
  dsimp only
  rw [hd, if_pos List.length_nil, List.append_nil, ← List.Forall₂.length_eq hβ, List.take_left, List.drop_left]

/-- The code disagrees: for a superposition the planner sums over the first cutoff instead of the terms, so that the result has the terms as a batch axis and one core axis too few. -/
theorem C59_planner_superposition (f : PolyExp) (hl : f.linSup = true) (n : ℕ) (shape : List ℕ) (h0 : 0 ∉ n :: shape) (hs : (n :: shape).length = f.numCV) :
    ∃ a, mmToFock f (n :: shape) = some a ∧ a.batch = f.batch ∧ a.core = shape ∧ a.core.length + 1 = f.numCV := by
  unfold mmToFock
  rw [if_neg h0]
  dsimp only
  rw [hl, if_pos rfl]
  refine ⟨_, rfl, by simp [Arr.batch], by simp [Arr.core], ?_⟩
  simp only [Arr.core, List.drop_left]
  exact hs

/-! ### Cases -/

/-- A matrix of Fock amplitudes. -/
noncomputable def exF : Arr := ⟨0, [2, 3], fun k => 10 * (k.getD 0 0 : ℂ) + (k.getD 1 0 : ℂ)⟩

/-- Read back with the cutoffs (4, 2), the entry (1, 1) is kept and the entry (3, 1) is 0. -/
example : ∃ f, toBargmann exF = some f ∧ f.fockArray [4, 2] [] [1, 1] = some 11 ∧ f.fockArray [4, 2] [] [3, 1] = some 0 := by
  obtain ⟨f, h1, -, -, -, h2⟩ := C59_roundtrip exF rfl [4, 2] [1, 1] (by decide) rfl (by decide)
  obtain ⟨g, g1, -, -, -, g2⟩ := C59_roundtrip exF rfl [4, 2] [3, 1] (by decide) rfl (by decide)
  obtain rfl : f = g := Option.some.inj (h1.symm.trans g1)
  refine ⟨f, h1, h2.trans ?_, g2.trans ?_⟩
  · rw [Arr.entry_of_inB (by decide : InB exF.shape [1, 1])]; norm_num [exF]
  · rw [Arr.entry_of_not (by decide : ¬ InB exF.shape [3, 1])]

/-- A batch of two vectors survives in the planner and is lost in `to_bargmann` of components: one variable becomes none. -/
example : (∃ f, toBargmannE ⟨1, [2, 3], exF.get⟩ = some f ∧ f.batch = [2] ∧ f.numCV = 1 ∧ f.fockArray [2] [1] [1] = some 11) ∧
    ∃ f, toBargmann ⟨1, [2, 3], exF.get⟩ = some f ∧ f.batch = [] ∧ f.numCV = 0 := by
  constructor
  · obtain ⟨f, h1, -, h2, h3, h4⟩ := C59_roundtrip_batched ⟨1, [2, 3], exF.get⟩ (by show 1 ≤ 2; decide) [2] [1] [1] (by decide) rfl (by decide) (by decide)
    refine ⟨f, h1, h2, h3, h4.trans ?_⟩
    rw [Arr.entry_of_inB (by decide : InB [2, 3] ([1] ++ [1]))]; norm_num [exF]
  · exact C59_batched_wrong ⟨1, [2, 3], exF.get⟩ (by show 1 ≤ 2; decide)

end Verif.ToBargmann
