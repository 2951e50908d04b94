import Verif.FockNormsProps
import Verif.FockFidelityMat

/-!
# Fidelity of states in the Fock representation (C92): the methods
-/

namespace Verif.CompV

open Verif.WireModel Verif.Arr Verif.Fock Verif.PolyExp Verif.Circuits
open scoped ComplexOrder MatrixOrder

/-- `math.reshape(array, (side, side))` of an array of shape `s`. -/
def squareMat (a : Arr) (s : List ℕ) (side : ℕ) : Matrix (Fin side) (Fin side) ℂ := fun i j => a.get (unravel s (i.1 * side + j.1))

/-- lab/states/dm.py:344-382 `DM.fidelity` of two unbatched density matrices that are both in the Fock representation (the branch `# array ansatz`; `auto_shape` is then
the shape of the array, lab/states/base.py:418-419, 442-443 without a manual shape).  `none` is an exception. -/
noncomputable def FComp.fidDM (X Y : FComp) : Option ℝ :=
  if X.wires.modes.toFinset ≠ Y.wires.modes.toFinset then none
  else
    let ms := List.zipWith min X.arr.shape Y.arr.shape
    let side := (ms.take (ms.length / 2)).prod
    do
      let a ← X.arr.reduce ms
      let b ← Y.arr.reduce ms
      if ms.prod ≠ side * side then none else some (Fid.fidelity (squareMat a ms side) (squareMat b ms side))

/-- lab/states/dm.py:344-382 `DM.fidelity` with a ket (last line). -/
noncomputable def FComp.fidDMKet (f d ids : Nat → Nat) (ordK ordB : List Int → List Int) (X K : FComp) : Option FComp :=
  if X.wires.modes.toFinset ≠ K.wires.modes.toFinset then none else K.expectKet f d ids ordK ordB X

/-- lab/states/ket.py:327-339 `Ket.fidelity`. -/
noncomputable def FComp.fidKet (f d ids : Nat → Nat) (ordK ordB : List Int → List Int) (X Y : FComp) : Option FComp :=
  if X.wires.modes.toFinset ≠ Y.wires.modes.toFinset then none else X.expectKet f d ids ordK ordB Y

variable {M : ℕ} {g : ℕ → Side × Bool × Int} {f d : Nat → Nat}

/-! ## Indices -/

/-- The modes in increasing order. -/
noncomputable def smodes (N : Finset Int) : List Int := N.sort (· ≤ ·)

theorem dmW_slots {X : FComp} (hX : X.WF M) {N : Finset Int} (sX : DmW N X.wires) :
    X.wires.sortedWires.map Wire.slot = (smodes N).map (fun m => (Side.bra, true, m)) ++ (smodes N).map (fun m => (Side.ket, true, m)) := by
  have hs : (smodes N).Pairwise (· < ·) := N.sortedLT_sort.pairwise
  refine slots_eq hX.good ?_ ?_
  · rw [List.pairwise_append, List.pairwise_map, List.pairwise_map]
    refine ⟨hs.imp fun h => Or.inr ⟨rfl, h⟩, hs.imp fun h => Or.inr ⟨rfl, h⟩, ?_⟩
    intro a ha b hb
    rw [List.mem_map] at ha hb
    obtain ⟨m, _, rfl⟩ := ha
    obtain ⟨m', _, rfl⟩ := hb
    exact Or.inl (show rank .bra true < rank .ket true by decide)
  · intro s o m
    rw [sX, List.mem_append, List.mem_map, List.mem_map]
    simp only [smodes, Finset.mem_sort, Prod.mk.injEq]
    constructor
    · rintro (⟨_, h, rfl, rfl, rfl⟩ | ⟨_, h, rfl, rfl, rfl⟩)
      · exact ⟨Or.inr rfl, rfl, h⟩
      · exact ⟨Or.inl rfl, rfl, h⟩
    · rintro ⟨rfl | rfl, rfl, h⟩
      · exact Or.inr ⟨m, h, rfl, rfl, rfl⟩
      · exact Or.inl ⟨m, h, rfl, rfl, rfl⟩

theorem dmV_entry {X : FComp} (hX : X.WF M) {N : Finset Int} (sX : DmW N X.wires) (k b : Int → ℕ) :
    dmV X.ker k b = X.arr.entry ((smodes N).map b ++ (smodes N).map k) := by
  show X.arr.entry (X.wires.sortedWires.map (slotVal (stv k b) fun _ => 0)) = _
  have : X.wires.sortedWires.map (slotVal (stv k b) fun _ => 0) = (X.wires.sortedWires.map Wire.slot).map fun t => if t.2.1 then stv k b (t.1, t.2.2) else 0 := by
    rw [List.map_map]
    rfl
  rw [this, dmW_slots hX sX, List.map_append, List.map_map, List.map_map]
  rfl

theorem dmW_shape {X : FComp} (hX : X.WF M) {N : Finset Int} (sX : DmW N X.wires) : X.arr.shape.length = 2 * (smodes N).length := by
  have := congrArg List.length (dmW_slots hX sX)
  rw [List.length_map, length_sortedWires, List.length_append, List.length_map, List.length_map] at this
  rw [hX.axes]
  omega

theorem inB_two {s1 s2 k b : List ℕ} (h : k.length = s1.length) : InB (s1 ++ s2) (k ++ b) ↔ InB s1 k ∧ InB s2 b := by
  rw [inB_append_iff, ← h, List.take_left, List.drop_left]

theorem inB_min {s t k : List ℕ} (h : s.length = t.length) : InB (List.zipWith min s t) k ↔ InB s k ∧ InB t k := by
  induction s generalizing t k with
  | nil =>
    cases t with
    | nil => simp
    | cons _ _ => simp at h
  | cons a s ih =>
    cases t with
    | nil => simp at h
    | cons b t =>
      cases k with
      | nil => simp [InB]
      | cons x k =>
        have := ih (t := t) (k := k) (by simpa using h)
        unfold InB at *
        simp only [List.zipWith_cons_cons, List.forall₂_cons, lt_min_iff, this]
        tauto

theorem zip_min_le {s t : List ℕ} (h : s.length = t.length) : List.Forall₂ (· ≤ ·) (List.zipWith min s t) s ∧ List.Forall₂ (· ≤ ·) (List.zipWith min s t) t := by
  induction s generalizing t with
  | nil =>
    cases t with
    | nil => simp
    | cons _ _ => simp at h
  | cons a s ih =>
    cases t with
    | nil => simp at h
    | cons b t =>
      have := ih (t := t) (by simpa using h)
      simp only [List.zipWith_cons_cons, List.forall₂_cons]
      exact ⟨⟨min_le_left _ _, this.1⟩, ⟨min_le_right _ _, this.2⟩⟩

theorem reduce_le {a : Arr} {s : List ℕ} (hb : a.batchDims = 0) (h : List.Forall₂ (· ≤ ·) s a.shape) : ∃ a', a.reduce s = some a' ∧ a'.get = a.get ∧ a'.shape = s := by
  have hc : a.core = a.shape := by
    unfold Arr.core
    rw [hb, List.drop_zero]
  have hba : a.batch = [] := by
    unfold Arr.batch
    rw [hb, List.take_zero]
  unfold Arr.reduce
  rw [hc]
  by_cases e : s = a.shape
  · rw [if_pos e]
    exact ⟨a, rfl, rfl, e.symm⟩
  · rw [if_neg e, if_neg (by rw [h.length_eq]; simp), if_neg]
    · exact ⟨_, rfl, rfl, by simp [hba]⟩
    · rw [Bool.not_eq_true]
      unfold Arr.grows
      rw [List.any_eq_false]
      rintro ⟨x, y⟩ hxy
      have := (List.forall₂_iff_zip.mp h).2 hxy
      simpa using this

/-- The photon numbers of row `i` of a square matrix. -/
noncomputable def rowOf (N : Finset Int) (s : List ℕ) (i : ℕ) : Int →₀ ℕ := restr N fun m => (unravel s i).getD ((smodes N).idxOf m) 0

theorem map_rowOf {N : Finset Int} {s : List ℕ} (hs : s.length = (smodes N).length) (i : ℕ) : (smodes N).map (rowOf N s i) = unravel s i := by
  have hn : (smodes N).Nodup := N.sort_nodup _
  apply List.ext_getElem (by rw [List.length_map, length_unravel, hs])
  intro j h1 h2
  rw [List.length_map] at h1
  rw [List.getElem_map]
  have hm : (smodes N)[j] ∈ N := (Finset.mem_sort (· ≤ ·)).mp (List.getElem_mem h1)
  simp only [rowOf, restr, Finsupp.onFinset_apply, hm, if_true]
  rw [hn.idxOf_getElem j h1, List.getD_eq_getElem?_getD, List.getElem?_eq_getElem h2]
  rfl

theorem inB_dims {s k : List ℕ} (h : InB s k) (hs : ∀ x ∈ s, x ≤ M) : ∀ x ∈ k, x < M := by
  induction h with
  | nil => simp
  | cons h _ ih =>
    intro x hx
    rw [List.mem_cons] at hx
    rcases hx with rfl | hx
    · exact lt_of_lt_of_le h (hs _ (by simp))
    · exact ih (fun y hy => hs y (by simp [hy])) x hx

theorem rowOf_mem {N : Finset Int} {s : List ℕ} (hs : s.length = (smodes N).length) (hM : ∀ x ∈ s, x ≤ M) {i : ℕ} (hi : i < s.prod) :
    rowOf N s i ∈ N.finsupp fun _ => Finset.range M := by
  have h1 := inB_dims (ravel_unravel s i hi).1 hM
  rw [← map_rowOf hs] at h1
  have h2 : ∀ m ∈ N, rowOf N s i m < M := by
    intro m hm
    refine h1 _ (List.mem_map.mpr ⟨m, ?_, rfl⟩)
    exact (Finset.mem_sort (· ≤ ·)).mpr hm
  rw [Finset.mem_finsupp_iff]
  refine ⟨?_, fun m hm => Finset.mem_range.mpr (h2 m hm)⟩
  unfold rowOf restr
  exact Finsupp.support_onFinset_subset

/-! ## Density matrices -/

/-- **C92** (exact truncation) for two positive density matrices in the Fock representation, `dm1.fidelity(dm2)` is the fidelity of the whole density matrices although the
code truncates them to common cutoffs, whenever bra and ket have the same common cutoffs. -/
theorem C92_fock {X Y : FComp} (hX : X.WF M) (hY : Y.WF M) {N : Finset Int} (sX : DmW N X.wires) (sY : DmW N Y.wires) (pX : PosOn M N X.ker) (pY : PosOn M N Y.ker)
    {s : List ℕ} (hs : List.zipWith min X.arr.shape Y.arr.shape = s ++ s) : X.fidDM Y = some (Fid.fidelity (dmMat M N X.ker) (dmMat M N Y.ker)) := by
  classical
  have lX := dmW_shape hX sX
  have lY := dmW_shape hY sY
  have ls : s.length = (smodes N).length := by
    have := congrArg List.length hs
    rw [List.length_zipWith, lX, lY, List.length_append] at this
    omega
  have hxy : X.arr.shape.length = Y.arr.shape.length := by rw [lX, lY]
  obtain ⟨leX, leY⟩ := zip_min_le hxy
  rw [hs] at leX leY
  have hM : ∀ x ∈ s, x ≤ M := by
    intro x hx
    have hm : x ∈ List.zipWith min X.arr.shape Y.arr.shape := by
      rw [hs]
      exact List.mem_append_left _ hx
    obtain ⟨i, hi, e⟩ := List.mem_iff_getElem.mp hm
    rw [List.getElem_zipWith] at e
    rw [List.length_zipWith] at hi
    rw [← e]
    exact le_trans (min_le_left _ _) (hX.dims _ (List.getElem_mem _))
  obtain ⟨a, a1, a2, _⟩ := reduce_le hX.batch leX
  obtain ⟨b, b1, b2, _⟩ := reduce_le hY.batch leY
  have hmodes : ∀ Z : FComp, DmW N Z.wires → Z.wires.modes.toFinset = N := by
    intro Z sZ
    ext m
    rw [mem_modes_iff]
    constructor
    · rintro ⟨t, o, h⟩
      exact ((sZ _ _ _).mp h).2.2
    · intro h
      exact ⟨.ket, true, (sZ _ _ _).mpr ⟨Or.inl rfl, rfl, h⟩⟩
  have hh : (s ++ s).length / 2 = s.length := by
    rw [List.length_append]
    omega
  obtain ⟨e, he⟩ : ∃ e : Fin s.prod → (N.finsupp fun _ => Finset.range M), e = fun i => ⟨rowOf N s i.1, rowOf_mem ls hM i.2⟩ := ⟨_, rfl⟩
  have hmap : ∀ i, (smodes N).map (e i).1 = unravel s i.1 := by
    intro i
    rw [he]
    exact map_rowOf ls _
  have einj : Function.Injective e := by
    intro i j h
    have h1 := hmap i
    rw [h, hmap j] at h1
    have h2 := (ravel_unravel s i.1 i.2).2
    rw [← h1, (ravel_unravel s j.1 j.2).2] at h2
    exact Fin.ext h2.symm
  have mat : ∀ (Z : FComp), Z.WF M → DmW N Z.wires → List.Forall₂ (· ≤ ·) (s ++ s) Z.arr.shape → ∀ z : Arr, z.get = Z.arr.get →
      squareMat z (s ++ s) s.prod = ((dmMat M N Z.ker).transpose).submatrix e e := by
    intro Z hZ sZ le z hz
    ext i j
    have hb : InB (s ++ s) (unravel s i.1 ++ unravel s j.1) := InB.append (ravel_unravel s i.1 i.2).1 (ravel_unravel s j.1 j.2).1
    show z.get (unravel (s ++ s) (i.1 * s.prod + j.1)) = dmV Z.ker (e j).1 (e i).1
    rw [dmV_entry hZ sZ, hmap, hmap, unravel_append i.2 j.2, hz, Arr.entry_of_inB]
    exact Arr.inB_mono (B := []) le hb
  have supp : ∀ (Z : FComp), Z.WF M → DmW N Z.wires → PosOn M N Z.ker → ∀ i j, (dmMat M N Z.ker).transpose i j ≠ 0 →
      InB Z.arr.shape ((smodes N).map i.1 ++ (smodes N).map i.1) ∧ InB Z.arr.shape ((smodes N).map j.1 ++ (smodes N).map j.1) := by
    intro Z hZ sZ pZ i j h
    have h1 : dmV Z.ker j.1 i.1 ≠ 0 := h
    have h2 : dmV Z.ker i.1 j.1 ≠ 0 := by
      rw [pZ.1 j.1 i.1]
      exact fun h0 => h1 ((map_eq_zero _).mp h0)
    have key : ∀ k b : Int → ℕ, dmV Z.ker k b ≠ 0 → InB Z.arr.shape ((smodes N).map b ++ (smodes N).map k) := by
      intro k b h
      rw [dmV_entry hZ sZ] at h
      by_contra hc
      exact h (Arr.entry_of_not hc)
    have i1 := key _ _ h1
    have i2 := key _ _ h2
    obtain ⟨u, v, hu, hlu⟩ : ∃ u v, Z.arr.shape = u ++ v ∧ u.length = (smodes N).length := by
      refine ⟨Z.arr.shape.take (smodes N).length, Z.arr.shape.drop (smodes N).length, (List.take_append_drop _ _).symm, ?_⟩
      rw [List.length_take, dmW_shape hZ sZ]
      omega
    rw [hu] at i1 i2 ⊢
    rw [inB_two (by rw [List.length_map, hlu])] at i1 i2 ⊢
    rw [inB_two (by rw [List.length_map, hlu])]
    exact ⟨⟨i1.1, i2.2⟩, ⟨i2.1, i1.2⟩⟩
  have key : Fid.fidelity ((dmMat M N X.ker).transpose) ((dmMat M N Y.ker).transpose) = Fid.fidelity (((dmMat M N X.ker).transpose).submatrix e e) (((dmMat M N Y.ker).transpose).submatrix e e) := by
    refine Fid.fid_trunc einj (dmMat_psd pX).transpose (dmMat_psd pY).transpose (fun i => InB X.arr.shape ((smodes N).map i.1 ++ (smodes N).map i.1))
      (fun i => InB Y.arr.shape ((smodes N).map i.1 ++ (smodes N).map i.1)) (supp X hX sX pX) (supp Y hY sY pY) ?_
    intro k
    rw [← inB_min hxy, hs, inB_two (by rw [List.length_map, ls]), and_self]
    constructor
    · rintro ⟨i, rfl⟩
      rw [hmap]
      exact (ravel_unravel s i.1 i.2).1
    · intro h
      obtain ⟨r1, r2⟩ := unravel_ravel h
      refine ⟨⟨_, r1⟩, Subtype.ext (Finsupp.ext fun m => ?_)⟩
      by_cases hm : m ∈ N
      · have e1 := hmap ⟨_, r1⟩
        rw [r2] at e1
        have hmem : m ∈ smodes N := (Finset.mem_sort (· ≤ ·)).mpr hm
        exact List.map_inj_left.mp e1 m hmem
      · have z1 : ∀ x : (N.finsupp fun _ => Finset.range M), x.1 m = 0 := by
          intro x
          have := (Finset.mem_finsupp_iff.mp x.2).1
          by_contra h0
          exact hm (this (Finsupp.mem_support_iff.mpr h0))
        rw [z1, z1]
  unfold FComp.fidDM
  rw [if_neg (by rw [hmodes X sX, hmodes Y sY]; simp)]
  dsimp only
  rw [hs, hh, List.take_left]
  simp only [a1, b1, Option.bind_eq_bind, Option.bind_some, List.prod_append, ne_eq, not_true_eq_false, if_false]
  rw [mat X hX sX leX a a2, mat Y hY sY leY b b2, ← key, Fid.fid_transpose (dmMat_psd pX) (dmMat_psd pY)]

end Verif.CompV
