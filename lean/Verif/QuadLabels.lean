import Verif.HomodyneFock
import Mathlib.Data.Finset.Sort
import Mathlib.Algebra.BigOperators.Pi

/-!
# Quadrature representation of Fock components: the labels of the einsum (C110)

`CircuitComponent.quadrature` contracts the array with one matrix per wire by an `einsum`, whose letters are made from the *mode numbers* for the grid and from
the number of modes for the axes of the array; these letters can coincide.
-/

namespace Verif.QuadLab
open Verif.Manifold

/-! ## The code -/

/-- An operand of `einsum`: its letters, its shape and its entries. -/
structure Opd where
  labels : List ℕ
  shape : List ℕ
  get : List ℕ → ℂ

/-- The pairs of a letter and the size of its axis, of all operands. -/
def sizes (ops : List Opd) : List (ℕ × ℕ) := ops.flatMap fun o => List.zip o.labels o.shape

/-- The letters that are summed. -/
def summed (ops : List Opd) (out : List ℕ) : Finset ℕ := ((sizes ops).map (·.1)).toFinset.filter (· ∉ out)

/-- The size of the axis with this letter. -/
def sizeOf (ops : List Opd) (l : ℕ) : ℕ := ((sizes ops).lookup l).getD 0

/-- `math.einsum(string, *operands)` with `optimize=True` (mrmustard/math/backend_manager.py 526-548, `opt_einsum.contract`): `none` if two axes with the same letter have different sizes.  `τ` gives the positions
on the output axes.  Simplification: `contract` also accepts an axis of size 1 with another size. -/
noncomputable def einsum (ops : List Opd) (out : List ℕ) : Option ((ℕ → ℕ) → ℂ) :=
  if ∀ x ∈ sizes ops, ∀ y ∈ sizes ops, x.1 = y.1 → x.2 = y.2 then
    some fun τ => ∑ σ ∈ (summed ops out).pi (fun l => Finset.range (sizeOf ops l)),
      (ops.map fun o => o.get (o.labels.map fun l => if h : l ∈ summed ops out then σ l h else τ l)).prod
  else none

/-- A wire of the component, in the order of the axes: its mode and whether it is a ket wire. -/
structure W where
  mode : ℕ
  ket : Bool

/-- A component in Fock representation: the cutoff of each axis, the array (one batch element), the wires. -/
structure FC where
  wires : List W
  shape : List ℕ
  get : List ℕ → ℂ

/-- `self.modes` (mrmustard/lab/circuit_components.py 155-167). -/
def FC.modes (c : FC) : List ℕ := (c.wires.map (·.mode)).toFinset.sort (· ≤ ·)

/-- `self.n_modes` (mrmustard/lab/circuit_components.py 188-200). -/
def FC.nModes (c : FC) : ℕ := c.modes.length

/-- The basis matrix of one axis (mrmustard/lab/circuit_components.py 591, 602-611): conjugated unless the wire is a ket wire. -/
noncomputable def basis (ħ φ : ℝ) (w : W) (cutoff : ℕ) (quad : List ℝ) (k j : ℕ) : ℂ :=
  if w.ket then arrBasis ħ φ (quad.getD j 0) cutoff k else (starRingEnd ℂ) (arrBasis ħ φ (quad.getD j 0) cutoff k)

/-- The letter of axis `i` of the array (mrmustard/lab/circuit_components.py 614). -/
def axisLetter (c : FC) (i : ℕ) : ℕ := 97 + c.nModes + i

/-- The letter of a mode (mrmustard/lab/circuit_components.py 615-621). -/
def modeLetter (m : ℕ) : ℕ := 97 + m

/-- The operands of the einsum (mrmustard/lab/circuit_components.py 600-627). -/
noncomputable def operands (ħ φ : ℝ) (c : FC) (quad : List (List ℝ)) : List Opd :=
  ⟨(List.range c.shape.length).map (axisLetter c), c.shape, c.get⟩ :: (List.range c.shape.length).map fun i =>
    ⟨[axisLetter c i, modeLetter ((c.wires.getD i ⟨0, true⟩).mode)], [c.shape.getD i 0, (quad.getD i []).length],
      fun idx => basis ħ φ (c.wires.getD i ⟨0, true⟩) (c.shape.getD i 0) (quad.getD i []) (idx.getD 0 0) (idx.getD 1 0)⟩

/-- `quadrature(*quad, phi)` of a component with an array ansatz (mrmustard/lab/circuit_components.py 590-635): `none` is a `ValueError`; the value at the grid point whose position on the
grid of mode `m` is `g m`.  Simplifications: one batch element; the final reshape, which flattens the grid in the order of the modes, is not modelled; letters beyond `z`
(which einsum rejects) are allowed. -/
noncomputable def quadrature (ħ φ : ℝ) (c : FC) (quad : List (List ℝ)) : Option ((ℕ → ℕ) → ℂ) :=
  if quad.length ≠ c.shape.length then none
  else (einsum (operands ħ φ c quad) (c.modes.map modeLetter)).map fun v g => v fun l => g (l - 97)

/-! ## Specification -/

/-- The quadrature representation at the grid point `g`: the sum over all photon numbers of the entry times the wave functions at the points. -/
noncomputable def spec (ħ φ : ℝ) (c : FC) (quad : List (List ℝ)) (g : ℕ → ℕ) : ℂ :=
  ∑ k ∈ Fintype.piFinset fun i : Fin c.shape.length => Finset.range (c.shape.getD i 0),
    c.get (List.ofFn k) * ∏ i : Fin c.shape.length,
      basis ħ φ (c.wires.getD i ⟨0, true⟩) (c.shape.getD i 0) (quad.getD i []) (k i) (g (c.wires.getD i ⟨0, true⟩).mode)

/-- One axis per wire, and one grid per mode: wires of the same mode get grids of the same length. -/
structure Ok (c : FC) (quad : List (List ℝ)) : Prop where
  axes : c.shape.length = c.wires.length
  quads : quad.length = c.shape.length
  grids : ∀ i < c.wires.length, ∀ j < c.wires.length, (c.wires.getD i ⟨0, true⟩).mode = (c.wires.getD j ⟨0, true⟩).mode → (quad.getD i []).length = (quad.getD j []).length

/-! ## Proofs -/

theorem mode_mem {c : FC} {i : ℕ} (hi : i < c.wires.length) : (c.wires.getD i ⟨0, true⟩).mode ∈ c.modes := by
  unfold FC.modes
  rw [Finset.mem_sort, List.mem_toFinset, List.mem_map]
  exact ⟨_, by rw [List.getD_eq_getElem _ _ hi]; exact List.getElem_mem hi, rfl⟩

theorem mem_modes {c : FC} {m : ℕ} : m ∈ c.modes ↔ ∃ w ∈ c.wires, w.mode = m := by
  unfold FC.modes
  rw [Finset.mem_sort, List.mem_toFinset, List.mem_map]

theorem mem_sizes {ħ φ : ℝ} {c : FC} {quad : List (List ℝ)} {x : ℕ × ℕ} : x ∈ sizes (operands ħ φ c quad) ↔
    ∃ i < c.shape.length, x = (axisLetter c i, c.shape.getD i 0) ∨ x = (modeLetter (c.wires.getD i ⟨0, true⟩).mode, (quad.getD i []).length) := by
  unfold sizes operands
  rw [List.flatMap_cons, List.mem_append, List.mem_flatMap]
  constructor
  · rintro (h | ⟨o, ho, h⟩)
    · obtain ⟨i, hi, e⟩ := List.getElem_of_mem h
      rw [List.length_zip, List.length_map, List.length_range, min_self] at hi
      rw [List.getElem_zip, List.getElem_map, List.getElem_range] at e
      exact ⟨i, hi, Or.inl (by rw [← e, List.getD_eq_getElem _ _ hi])⟩
    · obtain ⟨i, hi, rfl⟩ := List.mem_map.1 ho
      rw [List.mem_range] at hi
      rw [List.zip_cons_cons, List.zip_cons_cons, List.zip_nil_left, List.mem_cons, List.mem_singleton] at h
      exact ⟨i, hi, h⟩
  · rintro ⟨i, hi, h⟩
    right
    refine ⟨_, List.mem_map.2 ⟨i, List.mem_range.2 hi, rfl⟩, ?_⟩
    rw [List.zip_cons_cons, List.zip_cons_cons, List.zip_nil_left, List.mem_cons, List.mem_singleton]
    exact h

/-- No mode number is in the range of the letters of the axes. -/
def Apart (c : FC) : Prop := ∀ w ∈ c.wires, w.mode < c.nModes ∨ c.nModes + c.shape.length ≤ w.mode

theorem apart_letters {c : FC} (ha : Apart c) {i m : ℕ} (hi : i < c.shape.length) (hm : m ∈ c.modes) : axisLetter c i ≠ modeLetter m := by
  obtain ⟨w, hw, rfl⟩ := mem_modes.1 hm
  have := ha w hw
  unfold axisLetter modeLetter
  omega

theorem axis_inj {c : FC} {i j : ℕ} (h : axisLetter c i = axisLetter c j) : i = j := by
  unfold axisLetter at h
  omega

theorem consistent {ħ φ : ℝ} {c : FC} {quad : List (List ℝ)} (ho : Ok c quad) (ha : Apart c) :
    ∀ x ∈ sizes (operands ħ φ c quad), ∀ y ∈ sizes (operands ħ φ c quad), x.1 = y.1 → x.2 = y.2 := by
  intro x hx y hy hxy
  obtain ⟨i, hi, hx⟩ := mem_sizes.1 hx
  obtain ⟨j, hj, hy⟩ := mem_sizes.1 hy
  have hi' : i < c.wires.length := ho.axes ▸ hi
  have hj' : j < c.wires.length := ho.axes ▸ hj
  rcases hx with rfl | rfl <;> rcases hy with rfl | rfl
  · rw [axis_inj hxy]
  · exact absurd hxy (apart_letters ha hi (mode_mem hj'))
  · exact absurd hxy.symm (apart_letters ha hj (mode_mem hi'))
  · refine ho.grids i hi' j hj' ?_
    unfold modeLetter at hxy
    dsimp only at hxy ⊢
    omega

theorem mem_out {c : FC} {l : ℕ} : l ∈ c.modes.map modeLetter ↔ ∃ m ∈ c.modes, l = modeLetter m := by
  rw [List.mem_map]
  exact ⟨fun ⟨m, h, e⟩ => ⟨m, h, e.symm⟩, fun ⟨m, h, e⟩ => ⟨m, h, e.symm⟩⟩

theorem summed_eq {ħ φ : ℝ} {c : FC} {quad : List (List ℝ)} (ho : Ok c quad) (ha : Apart c) :
    summed (operands ħ φ c quad) (c.modes.map modeLetter) = (Finset.range c.shape.length).image (axisLetter c) := by
  ext l
  unfold summed
  rw [Finset.mem_filter, List.mem_toFinset, List.mem_map, Finset.mem_image]
  constructor
  · rintro ⟨⟨x, hx, rfl⟩, hl⟩
    obtain ⟨i, hi, hx⟩ := mem_sizes.1 hx
    rcases hx with rfl | rfl
    · exact ⟨i, Finset.mem_range.2 hi, rfl⟩
    · exact absurd (mem_out.2 ⟨_, mode_mem (ho.axes ▸ hi), rfl⟩) hl
  · rintro ⟨i, hi, rfl⟩
    rw [Finset.mem_range] at hi
    refine ⟨⟨_, mem_sizes.2 ⟨i, hi, Or.inl rfl⟩, rfl⟩, fun hl => ?_⟩
    obtain ⟨m, hm, e⟩ := mem_out.1 hl
    exact apart_letters ha hi hm e

theorem lookup_of_mem {l : List (ℕ × ℕ)} (hc : ∀ x ∈ l, ∀ y ∈ l, x.1 = y.1 → x.2 = y.2) {x : ℕ × ℕ} (hx : x ∈ l) : l.lookup x.1 = some x.2 := by
  induction l with
  | nil => cases hx
  | cons y l ih =>
    obtain ⟨a, b⟩ := y
    rw [List.lookup_cons]
    by_cases e : x.1 = a
    · rw [e, beq_self_eq_true]
      exact congrArg some (hc (a, b) List.mem_cons_self x hx e.symm)
    · rw [beq_false_of_ne e]
      refine ih (fun u hu v hv => hc u (List.mem_cons_of_mem _ hu) v (List.mem_cons_of_mem _ hv)) ?_
      exact (List.mem_cons.1 hx).resolve_left fun h => e (by rw [h])

theorem sizeOf_axis {ħ φ : ℝ} {c : FC} {quad : List (List ℝ)} (ho : Ok c quad) (ha : Apart c) {i : ℕ} (hi : i < c.shape.length) :
    sizeOf (operands ħ φ c quad) (axisLetter c i) = c.shape.getD i 0 := by
  unfold sizeOf
  rw [lookup_of_mem (consistent ho ha) (x := (axisLetter c i, c.shape.getD i 0)) (mem_sizes.2 ⟨i, hi, Or.inl rfl⟩)]
  rfl

theorem quadrature_apart {ħ φ : ℝ} {c : FC} {quad : List (List ℝ)} (ho : Ok c quad) (ha : Apart c) :
    ∃ v, quadrature ħ φ c quad = some v ∧ ∀ g, v g = spec ħ φ c quad g := by
  unfold quadrature einsum
  rw [if_neg (not_not.2 ho.quads), if_pos (consistent ho ha)]
  refine ⟨_, rfl, fun g => ?_⟩
  dsimp only
  have hS := summed_eq (ħ := ħ) (φ := φ) (quad := quad) ho ha
  have hmem : ∀ i : ℕ, i < c.shape.length → axisLetter c i ∈ summed (operands ħ φ c quad) (c.modes.map modeLetter) := by
    intro i hi
    rw [hS]
    exact Finset.mem_image_of_mem _ (Finset.mem_range.2 hi)
  have hnot : ∀ i : ℕ, i < c.shape.length → modeLetter (c.wires.getD i ⟨0, true⟩).mode ∉ summed (operands ħ φ c quad) (c.modes.map modeLetter) := by
    intro i hi h
    unfold summed at h
    rw [Finset.mem_filter] at h
    exact h.2 (mem_out.2 ⟨_, mode_mem (ho.axes ▸ hi), rfl⟩)
  generalize hSg : summed (operands ħ φ c quad) (c.modes.map modeLetter) = S at hS hmem hnot
  unfold spec
  refine Finset.sum_bij' (fun σ hσ => fun i : Fin c.shape.length => σ (axisLetter c i) (hmem i i.2))
    (fun k hk => fun l hl => k ⟨l - 97 - c.nModes, ?_⟩) ?_ ?_ ?_ ?_ ?_
  · rw [hS, Finset.mem_image] at hl
    obtain ⟨i, hi, rfl⟩ := hl
    rw [Finset.mem_range] at hi
    unfold axisLetter
    omega
  · intro σ hσ
    rw [Fintype.mem_piFinset]
    intro i
    have := Finset.mem_pi.1 hσ (axisLetter c i) (hmem i i.2)
    rw [sizeOf_axis ho ha i.2] at this
    exact this
  · intro k hk
    rw [Finset.mem_pi]
    intro l hl
    have hl' := hl
    rw [hS, Finset.mem_image] at hl'
    obtain ⟨i, hi, rfl⟩ := hl'
    rw [Finset.mem_range] at hi
    rw [sizeOf_axis ho ha hi]
    have := Fintype.mem_piFinset.1 hk ⟨i, hi⟩
    have e : (⟨axisLetter c i - 97 - c.nModes, by unfold axisLetter; omega⟩ : Fin c.shape.length) = ⟨i, hi⟩ := by
      ext
      unfold axisLetter
      simp only
      omega
    rw [e]
    exact this
  · intro σ hσ
    funext l hl
    have hl' := hl
    rw [hS, Finset.mem_image] at hl'
    obtain ⟨i, hi, rfl⟩ := hl'
    have e : axisLetter c (axisLetter c i - 97 - c.nModes) = axisLetter c i := by
      unfold axisLetter
      omega
    dsimp only
    congr 1
  · intro k hk
    funext i
    dsimp only
    congr 1
    ext
    unfold axisLetter
    simp only
    omega
  · intro σ hσ
    unfold operands
    rw [List.map_cons, List.prod_cons, List.map_map, List.map_map]
    refine congrArg₂ (· * ·) ?_ ?_
    · dsimp only
      refine congrArg c.get ?_
      refine List.ext_getElem (by simp) fun i h1 h2 => ?_
      rw [List.length_map, List.length_range] at h1
      rw [List.getElem_map, List.getElem_range, List.getElem_ofFn]
      exact dif_pos (hmem i h1)
    · rw [← List.prod_ofFn]
      refine congrArg List.prod ?_
      refine List.ext_getElem (by simp) fun i h1 h2 => ?_
      rw [List.length_map, List.length_range] at h1
      rw [List.getElem_map, List.getElem_range, List.getElem_ofFn]
      simp only [Function.comp, List.map_cons, List.map_nil, List.getD_cons_zero, List.getD_cons_succ]
      rw [dif_pos (hmem i h1), dif_neg (hnot i h1)]
      unfold modeLetter
      rw [Nat.add_sub_cancel_left]

/-! ## C110 -/

/-- **C110** If no mode number lies between the number of modes and the number of modes plus the number of wires (exclusive), the quadrature representation is computed as documented, whatever
the mode numbers. -/
theorem C110_quadrature (ħ φ : ℝ) (c : FC) (quad : List (List ℝ)) (ho : Ok c quad) (ha : ∀ w ∈ c.wires, w.mode < c.nModes ∨ c.nModes + c.wires.length ≤ w.mode) :
    ∃ v, quadrature ħ φ c quad = some v ∧ ∀ g, v g = spec ħ φ c quad g :=
  quadrature_apart ho fun w hw => by rw [ho.axes]; exact ha w hw

/-- **C110** In particular for components on the modes `0, ..., n-1`. -/
theorem C110_standard (ħ φ : ℝ) (c : FC) (quad : List (List ℝ)) (ho : Ok c quad) (hm : c.modes = List.range c.nModes) :
    ∃ v, quadrature ħ φ c quad = some v ∧ ∀ g, v g = spec ħ φ c quad g :=
  C110_quadrature ħ φ c quad ho fun w hw => Or.inl (by
    have : w.mode ∈ c.modes := mem_modes.2 ⟨w, hw, rfl⟩
    rw [hm] at this
    exact List.mem_range.1 this)

/-- **C110** A wrong number of grids raises. -/
theorem C110_count (ħ φ : ℝ) (c : FC) (quad : List (List ℝ)) (h : quad.length ≠ c.shape.length) : quadrature ħ φ c quad = none := if_pos h

/-- A ket on one mode. -/
def ket1 (m cutoff : ℕ) (f : ℕ → ℂ) : FC := ⟨[⟨m, true⟩], [cutoff], fun k => f (k.getD 0 0)⟩

theorem ket1_modes (m cutoff : ℕ) (f : ℕ → ℂ) : (ket1 m cutoff f).modes = [m] := by
  unfold FC.modes ket1
  simp

/-- **C110** One-mode kets: on every mode except mode 1 the result is the wave function at the grid points. -/
theorem C110_ket (ħ φ : ℝ) (m cutoff : ℕ) (f : ℕ → ℂ) (q : List ℝ) (hm : m ≠ 1) : ∃ v, quadrature ħ φ (ket1 m cutoff f) [q] = some v ∧
    ∀ g, v g = ∑ k ∈ Finset.range cutoff, f k * arrBasis ħ φ (q.getD (g m) 0) cutoff k := by
  obtain ⟨v, hv, h⟩ := C110_quadrature ħ φ (ket1 m cutoff f) [q] ⟨rfl, rfl, fun i hi j hj _ => by
    have hi' : i < 1 := hi
    have hj' : j < 1 := hj
    rw [show i = 0 by omega, show j = 0 by omega]⟩ (fun w hw => by
    have hw' : w = ⟨m, true⟩ := List.mem_singleton.1 hw
    have e : (ket1 m cutoff f).nModes = 1 := by unfold FC.nModes; rw [ket1_modes]; rfl
    rw [hw', e]
    change m < 1 ∨ 1 + 1 ≤ m
    omega)
  refine ⟨v, hv, fun g => ?_⟩
  rw [h g]
  unfold spec
  change ∑ k ∈ Fintype.piFinset fun i : Fin 1 => Finset.range ([cutoff].getD i 0), (ket1 m cutoff f).get (List.ofFn k) * ∏ i : Fin 1, _ = _
  refine Finset.sum_bij' (fun k _ => k 0) (fun k _ => fun _ => k) ?_ ?_ ?_ ?_ ?_
  · intro k hk
    exact Fintype.mem_piFinset.1 hk 0
  · intro k hk
    rw [Fintype.mem_piFinset]
    intro i
    rw [show i = 0 from Subsingleton.elim _ _]
    exact hk
  · intro k _
    funext i
    rw [show i = 0 from Subsingleton.elim _ _]
  · intro k _
    rfl
  · intro k _
    rw [Fin.prod_univ_one]
    rfl

/-- **C110** (Disagreement.) A one-mode ket on mode 1: with as many grid points as the cutoff the value at point `j` is the single term `k = j` of the wave function; otherwise the call raises. -/
theorem C110_mode_one (ħ φ : ℝ) (cutoff : ℕ) (f : ℕ → ℂ) (q : List ℝ) :
    (q.length = cutoff → ∃ v, quadrature ħ φ (ket1 1 cutoff f) [q] = some v ∧ ∀ g, v g = f (g 1) * arrBasis ħ φ (q.getD (g 1) 0) cutoff (g 1)) ∧
    (q.length ≠ cutoff → quadrature ħ φ (ket1 1 cutoff f) [q] = none) := by
  have hn : (ket1 1 cutoff f).nModes = 1 := by unfold FC.nModes; rw [ket1_modes]; rfl
  have hops : operands ħ φ (ket1 1 cutoff f) [q] = [⟨[98], [cutoff], fun k => f (k.getD 0 0)⟩,
      ⟨[98, 98], [cutoff, q.length], fun idx => arrBasis ħ φ (q.getD (idx.getD 1 0) 0) cutoff (idx.getD 0 0)⟩] := by
    unfold operands axisLetter
    rw [hn]
    rfl
  have hs : sizes (operands ħ φ (ket1 1 cutoff f) [q]) = [(98, cutoff), (98, cutoff), (98, q.length)] := by
    rw [hops]
    rfl
  constructor
  · intro hq
    unfold quadrature einsum
    rw [if_neg (by simp [ket1]), if_pos]
    · refine ⟨_, rfl, fun g => ?_⟩
      have hS : summed (operands ħ φ (ket1 1 cutoff f) [q]) ((ket1 1 cutoff f).modes.map modeLetter) = ∅ := by
        unfold summed
        rw [hs, ket1_modes]
        simp [modeLetter]
      dsimp only
      generalize summed (operands ħ φ (ket1 1 cutoff f) [q]) ((ket1 1 cutoff f).modes.map modeLetter) = S at hS
      subst hS
      rw [Finset.pi_empty, Finset.sum_singleton, hops]
      simp
    · rw [hs, hq]
      intro x hx y hy _
      simp only [List.mem_cons, List.not_mem_nil, or_false] at hx hy
      rcases hx with rfl | rfl | rfl <;> rcases hy with rfl | rfl | rfl <;> rfl
  · intro hq
    unfold quadrature einsum
    rw [if_neg (by simp [ket1]), if_neg]
    · rfl
    · intro h
      rw [hs] at h
      exact hq (h (98, q.length) (by simp) (98, cutoff) (by simp) rfl)

/-- **C110** The values of `C110_ket` are those of the wave function of C85. -/
theorem C110_is_wave_function {ħ : ℝ} (hħ : 0 < ħ) {φ : ℝ} (hφ : φ = 0 ∨ 1 / 10 ^ 9 < |φ|) (m cutoff : ℕ) (f : ℕ → ℂ) (q : List ℝ) (hm : m ≠ 1) :
    ∃ v, quadrature ħ φ (ket1 m cutoff f) [q] = some v ∧
      ∀ g, v g = quadKet ħ φ (fun z : Fin 1 → ℂ => ∑ k ∈ Fintype.piFinset fun _ : Fin 1 => Finset.range cutoff,
        f (k 0) * ∏ i, z i ^ k i / (Real.sqrt (k i).factorial : ℝ)) fun _ => q.getD (g m) 0 := by
  obtain ⟨v, hv, h⟩ := C110_ket ħ φ m cutoff f q hm
  refine ⟨v, hv, fun g => ?_⟩
  rw [h g, C85_array hħ hφ (fun _ : Fin 1 => cutoff) (fun k => f (k 0)) fun _ => q.getD (g m) 0]
  unfold quadArr
  refine Finset.sum_bij' (fun k _ => fun _ => k) (fun k _ => k 0) ?_ ?_ ?_ ?_ ?_
  · intro k hk
    rw [Fintype.mem_piFinset]
    exact fun _ => hk
  · intro k hk
    exact Fintype.mem_piFinset.1 hk 0
  · intro k _
    rfl
  · intro k _
    funext i
    rw [show i = 0 from Subsingleton.elim _ _]
  · intro k _
    rw [Fin.prod_univ_one]

/-- A case of `C110_quadrature`: a density matrix on the modes 0 and 7 (wires in the order bra 0, bra 7, ket 0, ket 7). -/
example (ħ φ : ℝ) (f : List ℕ → ℂ) (q : List ℝ) : ∃ v, quadrature ħ φ ⟨[⟨0, false⟩, ⟨7, false⟩, ⟨0, true⟩, ⟨7, true⟩], [2, 3, 2, 3], f⟩ [q, q, q, q] = some v ∧
    ∀ g, v g = spec ħ φ ⟨[⟨0, false⟩, ⟨7, false⟩, ⟨0, true⟩, ⟨7, true⟩], [2, 3, 2, 3], f⟩ [q, q, q, q] g := by
  have hm : FC.nModes ⟨[⟨0, false⟩, ⟨7, false⟩, ⟨0, true⟩, ⟨7, true⟩], [2, 3, 2, 3], f⟩ = 2 := by
    unfold FC.nModes FC.modes
    rw [Finset.length_sort]
    rfl
  refine C110_quadrature ħ φ _ _ ⟨rfl, rfl, fun i hi j hj _ => ?_⟩ ?_
  · have hi' : i < 4 := hi
    have hj' : j < 4 := hj
    interval_cases i <;> interval_cases j <;> rfl
  · rw [hm]
    intro w hw
    simp only [List.mem_cons, List.not_mem_nil, or_false] at hw
    rcases hw with rfl | rfl | rfl | rfl <;> simp

end Verif.QuadLab
