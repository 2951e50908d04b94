import Verif.Binomial
import Verif.AmpDeriv

/-!
# The Jacobian of the recurrence, and the binomial strategy in numba (C118)
-/

namespace Verif.Fock

/-! ## The code -/

/-- The two tensors `dGdB` and `dGdA` (math/lattice/steps.py:104-141). -/
structure Jac where
  db : List ℕ → ℕ → ℂ
  da : List ℕ → ℕ → ℕ → ℂ

/-- The tensors filled with zeros. -/
def Jac.zero : Jac := ⟨fun _ _ => 0, fun _ _ _ => 0⟩

/-- `dGdB[index] += vb` and `dGdA[index] += va`. -/
def Jac.addRow (D : Jac) (index : List ℕ) (vb : ℕ → ℂ) (va : ℕ → ℕ → ℂ) : Jac :=
  ⟨fun t k => if t = index then D.db t k + vb k else D.db t k, fun t k l => if t = index then D.da t k l + va k l else D.da t k l⟩

/-- math/lattice/steps.py:136-139, the contribution of a neighbor. -/
noncomputable def jacNeighbor (shape : List ℕ) (G : List ℕ → ℂ) (A : ℕ → ℕ → ℂ) (index : List ℕ) (i : ℕ) (pivot : List ℕ) (D : Jac) (jn : ℕ × List ℤ) : Jac :=
  let nb := wrapIdx shape jn.2
  let D := D.addRow index (fun k => A i jn.1 * D.db nb k * sq (pivot.getD jn.1 0) / sq (index.getD i 0)) fun _ _ => 0
  let D := D.addRow index (fun _ => 0) fun k l => A i jn.1 * D.da nb k l * sq (pivot.getD jn.1 0) / sq (index.getD i 0)
  D.addRow index (fun _ => 0) fun k l => if k = i ∧ l = jn.1 then G nb * sq (pivot.getD jn.1 0) / sq (index.getD i 0) else 0

/-- math/lattice/steps.py:104-141 `vanilla_step_jacobian`.  At the zero index the code raises; the model changes nothing there (never used). -/
noncomputable def jacStep (shape : List ℕ) (G : List ℕ → ℂ) (A : ℕ → ℕ → ℂ) (b : ℕ → ℂ) (D : Jac) (index : List ℕ) : Jac :=
  match firstAvailablePivot index with
  | none => D
  | some (i, pivot) =>
    let D := D.addRow index (fun k => b i * D.db pivot k / sq (index.getD i 0)) fun _ _ => 0
    let D := D.addRow index (fun k => if k = i then G pivot / sq (index.getD i 0) else 0) fun _ _ => 0
    let D := D.addRow index (fun _ => 0) fun k l => b i * D.da pivot k l / sq (index.getD i 0)
    (lowerNeighbors (pivot.map (fun n : ℕ => (n : ℤ)))).foldl (jacNeighbor shape G A index i pivot) D

/-! ## Specification -/

/-- An order of (some of) the nonzero indices of a box in which every index comes after all nonzero indices below it. -/
structure PathOrder (shape : List ℕ) (l : List (List ℕ)) : Prop where
  inB : ∀ t ∈ l, InB shape t ∧ 0 < t.sum
  nodup : l.Nodup
  before : ∀ l₁ idx l₂, l = l₁ ++ idx :: l₂ → ∀ t, List.Forall₂ (· ≤ ·) t idx → t ≠ idx → 0 < t.sum → t ∈ l₁

/-- The derivative in the direction `A'`, `b'` according to the Jacobian. -/
noncomputable def ell (n : ℕ) (A' : ℕ → ℕ → ℂ) (b' : ℕ → ℂ) (vb : ℕ → ℂ) (va : ℕ → ℕ → ℂ) : ℂ :=
  ∑ k ∈ Finset.range n, vb k * b' k + ∑ k ∈ Finset.range n, ∑ l ∈ Finset.range n, va k l * A' k l

/-! ## Proofs -/

variable {n : ℕ} {A' : ℕ → ℕ → ℂ} {b' : ℕ → ℂ}

theorem ell_add (vb wb : ℕ → ℂ) (va wa : ℕ → ℕ → ℂ) :
    ell n A' b' (fun k => vb k + wb k) (fun k l => va k l + wa k l) = ell n A' b' vb va + ell n A' b' wb wa := by
  unfold ell
  simp only [add_mul, Finset.sum_add_distrib]
  ring

theorem ell_smul_b (x : ℂ) (vb : ℕ → ℂ) : ell n A' b' (fun k => x * vb k) (fun _ _ => 0) = x * ∑ k ∈ Finset.range n, vb k * b' k := by
  unfold ell
  simp [Finset.mul_sum, mul_assoc]

theorem ell_smul_a (x : ℂ) (va : ℕ → ℕ → ℂ) :
    ell n A' b' (fun _ => 0) (fun k l => x * va k l) = x * ∑ k ∈ Finset.range n, ∑ l ∈ Finset.range n, va k l * A' k l := by
  unfold ell
  simp [Finset.mul_sum, mul_assoc]

theorem ell_single_b {i : ℕ} (hi : i < n) (x : ℂ) : ell n A' b' (fun k => if k = i then x else 0) (fun _ _ => 0) = x * b' i := by
  unfold ell
  simp [Finset.sum_ite_eq', hi]

theorem ell_single_a {i j : ℕ} (hi : i < n) (hj : j < n) (x : ℂ) : ell n A' b' (fun _ => 0) (fun k l => if k = i ∧ l = j then x else 0) = x * A' i j := by
  unfold ell
  have : ∀ k l, (if k = i ∧ l = j then x else 0) * A' k l = if k = i then (if l = j then x * A' k l else 0) else 0 := by
    intro k l
    by_cases h : k = i <;> by_cases h' : l = j <;> simp [h, h']
  simp only [this, zero_mul, Finset.sum_const_zero, zero_add]
  rw [Finset.sum_eq_single i (fun k _ hk => by simp [hk]) (fun h => absurd (Finset.mem_range.2 hi) h),
    Finset.sum_eq_single j (fun k _ hk => by simp [hk]) (fun h => absurd (Finset.mem_range.2 hj) h)]
  simp

/-- The directional derivative at an index. -/
noncomputable def Jac.at (n : ℕ) (A' : ℕ → ℕ → ℂ) (b' : ℕ → ℂ) (D : Jac) (t : List ℕ) : ℂ := ell n A' b' (D.db t) (D.da t)

theorem at_addRow (D : Jac) (idx t : List ℕ) (vb : ℕ → ℂ) (va : ℕ → ℕ → ℂ) :
    (D.addRow idx vb va).at n A' b' t = D.at n A' b' t + if t = idx then ell n A' b' vb va else 0 := by
  unfold Jac.at Jac.addRow
  dsimp only
  by_cases h : t = idx
  · simp only [if_pos h]
    exact ell_add _ _ _ _
  · simp only [if_neg h, add_zero]

/-- The lowered index, as numba reads it. -/
def nbr (shape pivot : List ℕ) (j : ℕ) : List ℕ :=
  wrapIdx shape ((pivot.map (fun n : ℕ => (n : ℤ))).set j ((pivot.map (fun n : ℕ => (n : ℤ))).getD j 0 - 1))

theorem vanillaStepT_sum {shape ix pivot : List ℕ} {i : ℕ} (h : firstAvailablePivot ix = some (i, pivot)) (hl : pivot.length = shape.length)
    (G : List ℕ → ℂ) (A : ℕ → ℕ → ℂ) (b : ℕ → ℂ) : vanillaStepT shape G A b ix =
      (b i * G pivot + ∑ j ∈ Finset.range shape.length, A i j * sq (pivot.getD j 0) * G (nbr shape pivot j)) / sq (ix.getD i 0) := by
  unfold vanillaStepT
  rw [h]
  dsimp only
  unfold lowerNeighbors
  rw [List.foldl_map, foldl_add_eq, List.length_map, hl, List.range_eq_range', range'_sum, Nat.zero_add, ← Finset.range_eq_Ico]
  rfl

theorem at_neighbor {shape pivot idx : List ℕ} {i j : ℕ} (hi : i < n) (hj : j < n) (G : List ℕ → ℂ) (A : ℕ → ℕ → ℂ) (D : Jac)
    (hne : pivot.getD j 0 ≠ 0 → nbr shape pivot j ≠ idx) (t : List ℕ) :
    (jacNeighbor shape G A idx i pivot D (j, (pivot.map (fun n : ℕ => (n : ℤ))).set j ((pivot.map (fun n : ℕ => (n : ℤ))).getD j 0 - 1))).at n A' b' t =
      D.at n A' b' t + if t = idx then (A i j * sq (pivot.getD j 0) * D.at n A' b' (nbr shape pivot j) + sq (pivot.getD j 0) * G (nbr shape pivot j) * A' i j) /
        sq (idx.getD i 0) else 0 := by
  unfold jacNeighbor
  dsimp only
  rw [show wrapIdx shape ((pivot.map (fun n : ℕ => (n : ℤ))).set j ((pivot.map (fun n : ℕ => (n : ℤ))).getD j 0 - 1)) = nbr shape pivot j from rfl]
  obtain ⟨m, hm⟩ : ∃ m, m = nbr shape pivot j := ⟨_, rfl⟩
  rw [← hm] at hne ⊢
  rw [at_addRow, at_addRow, at_addRow]
  by_cases ht : t = idx
  swap
  · simp only [if_neg ht, add_zero]
  simp only [if_pos ht]
  have z : sq 0 = 0 := by simp [sq]
  by_cases hp : pivot.getD j 0 = 0
  · rw [hp, z]
    simp [ell]
  · have hmi := hne hp
    have e : (D.addRow idx (fun k => A i j * D.db m k * sq (pivot.getD j 0) / sq (idx.getD i 0)) fun _ _ => 0).da m = D.da m := by
      funext k l
      exact if_neg hmi
    rw [e, ell_single_a hi hj,
      show (fun k => A i j * D.db m k * sq (pivot.getD j 0) / sq (idx.getD i 0)) = fun k => (A i j * sq (pivot.getD j 0) / sq (idx.getD i 0)) * D.db m k from
        funext fun k => by ring,
      show (fun k l => A i j * D.da m k l * sq (pivot.getD j 0) / sq (idx.getD i 0)) = fun k l => (A i j * sq (pivot.getD j 0) / sq (idx.getD i 0)) * D.da m k l from
        funext fun k => funext fun l => by ring, ell_smul_b, ell_smul_a]
    unfold Jac.at ell
    ring

theorem at_fold {shape pivot idx : List ℕ} {i : ℕ} (hi : i < n) (G : List ℕ → ℂ) (A : ℕ → ℕ → ℂ) (D : Jac)
    (hne : ∀ j < n, pivot.getD j 0 ≠ 0 → nbr shape pivot j ≠ idx) (js : List ℕ) (hjs : ∀ j ∈ js, j < n) : ∀ (E : Jac), (∀ t, t ≠ idx → E.at n A' b' t = D.at n A' b' t) →
    ∀ t, ((js.map fun j => (j, (pivot.map (fun n : ℕ => (n : ℤ))).set j ((pivot.map (fun n : ℕ => (n : ℤ))).getD j 0 - 1))).foldl (jacNeighbor shape G A idx i pivot) E).at n A' b' t =
      E.at n A' b' t + if t = idx then (js.map fun j => (A i j * sq (pivot.getD j 0) * D.at n A' b' (nbr shape pivot j) + sq (pivot.getD j 0) * G (nbr shape pivot j) * A' i j) /
        sq (idx.getD i 0)).sum else 0 := by
  induction js with
  | nil => intro E _ t; simp
  | cons j js ih =>
    intro E hE t
    have hj := hjs j List.mem_cons_self
    have step := at_neighbor (A' := A') (b' := b') hi hj G A E (hne j hj)
    rw [List.map_cons, List.foldl_cons, ih (fun j hj => hjs j (List.mem_cons_of_mem _ hj)) _ (fun t ht => by rw [step, if_neg ht, add_zero, hE t ht]), step, List.map_cons,
      List.sum_cons]
    by_cases ht : t = idx
    · rw [if_pos ht, if_pos ht, if_pos ht, add_assoc]
      congr 2
      by_cases hp : pivot.getD j 0 = 0
      · rw [hp, show sq 0 = 0 by simp [sq]]; simp
      · rw [hE _ (hne j hj hp)]
    · rw [if_neg ht, if_neg ht, if_neg ht]; ring

theorem at_step {shape pivot idx : List ℕ} {i : ℕ} (h : firstAvailablePivot idx = some (i, pivot)) (hl : pivot.length = shape.length) (hi : i < shape.length)
    (hp : pivot ≠ idx) (hne : ∀ j < shape.length, pivot.getD j 0 ≠ 0 → nbr shape pivot j ≠ idx) (G : List ℕ → ℂ) (A : ℕ → ℕ → ℂ) (b : ℕ → ℂ) (D : Jac) (t : List ℕ) :
    (jacStep shape G A b D idx).at shape.length A' b' t = D.at shape.length A' b' t + if t = idx then
      (b i * D.at shape.length A' b' pivot + G pivot * b' i + ∑ j ∈ Finset.range shape.length,
        (A i j * sq (pivot.getD j 0) * D.at shape.length A' b' (nbr shape pivot j) + sq (pivot.getD j 0) * G (nbr shape pivot j) * A' i j)) / sq (idx.getD i 0) else 0 := by
  unfold jacStep
  rw [h]
  dsimp only
  have start : ∀ t, (((D.addRow idx (fun k => b i * D.db pivot k / sq (idx.getD i 0)) fun _ _ => 0).addRow idx (fun k => if k = i then G pivot / sq (idx.getD i 0) else 0)
      fun _ _ => 0).addRow idx (fun _ => 0) fun k l => b i * ((D.addRow idx (fun k => b i * D.db pivot k / sq (idx.getD i 0)) fun _ _ => 0).addRow idx
        (fun k => if k = i then G pivot / sq (idx.getD i 0) else 0) fun _ _ => 0).da pivot k l / sq (idx.getD i 0)).at shape.length A' b' t =
      D.at shape.length A' b' t + if t = idx then (b i * D.at shape.length A' b' pivot + G pivot * b' i) / sq (idx.getD i 0) else 0 := by
    intro t
    have e : ((D.addRow idx (fun k => b i * D.db pivot k / sq (idx.getD i 0)) fun _ _ => 0).addRow idx (fun k => if k = i then G pivot / sq (idx.getD i 0) else 0)
        fun _ _ => 0).da pivot = D.da pivot := by
      funext k l
      show (if pivot = idx then _ else if pivot = idx then _ else _) = _
      rw [if_neg hp, if_neg hp]
    rw [e, at_addRow, at_addRow, at_addRow]
    by_cases ht : t = idx
    swap
    · simp only [if_neg ht, add_zero]
    simp only [if_pos ht]
    rw [ell_single_b hi, show (fun k => b i * D.db pivot k / sq (idx.getD i 0)) = fun k => (b i / sq (idx.getD i 0)) * D.db pivot k from funext fun k => by ring,
      show (fun k l => b i * D.da pivot k l / sq (idx.getD i 0)) = fun k l => (b i / sq (idx.getD i 0)) * D.da pivot k l from
        funext fun k => funext fun l => by ring, ell_smul_b, ell_smul_a]
    unfold Jac.at ell
    ring
  unfold lowerNeighbors
  rw [List.length_map, hl, at_fold hi G A D hne (List.range shape.length) (fun j hj => List.mem_range.1 hj) _ (fun t ht => by rw [start, if_neg ht, add_zero]) t, start]
  by_cases ht : t = idx
  swap
  · simp only [if_neg ht, add_zero]
  simp only [if_pos ht]
  rw [List.range_eq_range', range'_sum, Nat.zero_add, ← Finset.range_eq_Ico, ← Finset.sum_div, add_assoc, ← add_div]

/-- What the first pivot of a nonzero index in the box, and its lower neighbors, look like. -/
theorem pivot_facts {shape idx : List ℕ} (hb : InB shape idx) (hpos : 0 < idx.sum) :
    ∃ i pivot, firstAvailablePivot idx = some (i, pivot) ∧ pivot.length = shape.length ∧ i < shape.length ∧ InB shape pivot ∧ List.Forall₂ (· ≤ ·) pivot idx ∧
      pivot.sum + 1 = idx.sum ∧ ∀ j < shape.length, pivot.getD j 0 ≠ 0 →
        InB shape (nbr shape pivot j) ∧ List.Forall₂ (· ≤ ·) (nbr shape pivot j) idx ∧ (nbr shape pivot j).sum + 2 = idx.sum := by
  have down : ∀ {i : ℕ} {a p : List ℕ}, StepDown i a p → List.Forall₂ (· ≤ ·) p a := by
    intro i a p h
    rw [List.forall₂_iff_get]
    refine ⟨h.1, fun k hk hk' => ?_⟩
    have := h.2.2 k
    rw [List.getD_eq_getElem _ _ hk, List.getD_eq_getElem _ _ hk'] at this
    exact le_of_add_le_left this.le
  rcases hp : firstAvailablePivot idx with _ | ⟨i, pivot⟩
  · exfalso
    have hz := (C25_first_pivot idx).1.1 hp
    have : idx.sum = 0 := by
      rw [List.sum_eq_zero_iff]
      intro x hx
      obtain ⟨k, hk, rfl⟩ := List.getElem_of_mem hx
      simpa [List.getD_eq_getElem?_getD, hk] using hz k
    omega
  · obtain ⟨sd, _⟩ := (C25_first_pivot idx).2 i pivot hp
    have hpl : pivot.length = shape.length := by rw [sd.1, (inB_iff.1 hb).1]
    have hsum := stepDown_sum sd
    refine ⟨i, pivot, rfl, hpl, by rw [← (inB_iff.1 hb).1]; exact sd.2.1, stepDown_inB sd hb, down sd, hsum, fun j _ hz => ?_⟩
    have sd2 := exists_stepDown hz
    have hsum2 := stepDown_sum sd2
    unfold nbr
    rw [wrap_lower hpl hz]
    refine ⟨stepDown_inB sd2 (stepDown_inB sd hb), ?_, by omega⟩
    have h1 := down sd
    have h2 := down sd2
    rw [List.forall₂_iff_get] at h1 h2 ⊢
    exact ⟨h2.1.trans h1.1, fun k hk hk' => (h2.2 k hk (h1.1 ▸ hk')).trans (h1.2 k (h1.1 ▸ hk') hk')⟩

variable {𝕜 : Type*} [NontriviallyNormedField 𝕜] [NormedAlgebra 𝕜 ℂ]

/-- **C118** Let `A(t)`, `b(t)` be any differentiable family (`A` need not be symmetric) and `G(t)` an array all of whose nonzero indices are given by the
recurrence step, with a constant first entry.  If the Jacobian step is run from zeros over the indices in any order in which every index comes after those below
it, then the two tensors give the derivative of every entry of `G`. -/
theorem C118_jacobian (shape : List ℕ) (l : List (List ℕ)) (hl : PathOrder shape l) (A : 𝕜 → ℕ → ℕ → ℂ) (b : 𝕜 → ℕ → ℂ) (A' : ℕ → ℕ → ℂ) (b' : ℕ → ℂ) (c : ℂ)
    (t₀ : 𝕜) (G : 𝕜 → List ℕ → ℂ) (hA : ∀ i < shape.length, ∀ j < shape.length, HasDerivAt (fun t => A t i j) (A' i j) t₀)
    (hb : ∀ i < shape.length, HasDerivAt (fun t => b t i) (b' i) t₀) (h0 : ∀ t, G t (List.replicate shape.length 0) = c)
    (hG : ∀ t idx, InB shape idx → 0 < idx.sum → G t idx = vanillaStepT shape (G t) (A t) (b t) idx) :
    let D := l.foldl (jacStep shape (G t₀) (A t₀) (b t₀)) Jac.zero
    ∀ idx ∈ l, HasDerivAt (fun t => G t idx)
      (∑ k ∈ Finset.range shape.length, D.db idx k * b' k + ∑ k ∈ Finset.range shape.length, ∑ m ∈ Finset.range shape.length, D.da idx k m * A' k m) t₀ := by
  intro D
  have key : ∀ l₂ l₁ : List (List ℕ), ∀ E : Jac, l₁ ++ l₂ = l → (∀ idx ∈ l₁, HasDerivAt (fun t => G t idx) (E.at shape.length A' b' idx) t₀) →
      (∀ idx, idx ∉ l₁ → E.at shape.length A' b' idx = 0) →
      ∀ idx ∈ l, HasDerivAt (fun t => G t idx) ((l₂.foldl (jacStep shape (G t₀) (A t₀) (b t₀)) E).at shape.length A' b' idx) t₀ := by
    intro l₂
    induction l₂ with
    | nil =>
      intro l₁ E e h1 _ idx hi
      exact h1 idx (by rw [List.append_nil] at e; rw [e]; exact hi)
    | cons x l₂ ih =>
      intro l₁ E e h1 h2
      obtain ⟨hxb, hxp⟩ := hl.inB x (by rw [← e]; simp)
      obtain ⟨i, pivot, hf, hpl, hi, hpb, hple, hps, hn⟩ := pivot_facts hxb hxp
      have hx1 : x ∉ l₁ := by
        intro hx
        have := hl.nodup
        rw [← e, List.nodup_append] at this
        exact this.2.2 x hx x List.mem_cons_self rfl
      -- every index at or below the pivot is done
      have done : ∀ t, InB shape t → List.Forall₂ (· ≤ ·) t x → t ≠ x → HasDerivAt (fun s => G s t) (E.at shape.length A' b' t) t₀ := by
        intro t ht hle hne
        by_cases hs : 0 < t.sum
        · exact h1 t (hl.before l₁ x l₂ e.symm t hle hne hs)
        · have ht0 : t = List.replicate shape.length 0 := by
            have := sum_eq_zero_iff_replicate.1 (Nat.le_zero.1 (not_lt.1 hs))
            rwa [(inB_iff.1 ht).1] at this
          have hnot : t ∉ l₁ := fun hm => hs (hl.inB t (by rw [← e]; exact List.mem_append_left _ hm)).2
          rw [h2 t hnot, ht0]
          simp only [h0]
          exact hasDerivAt_const _ _
      have hpne : pivot ≠ x := fun h => by rw [h] at hps; omega
      have hnne : ∀ j < shape.length, pivot.getD j 0 ≠ 0 → nbr shape pivot j ≠ x := fun j hj hz h => by
        have := (hn j hj hz).2.2
        rw [h] at this
        omega
      have step := at_step (A' := A') (b' := b') hf hpl hi hpne hnne (G t₀) (A t₀) (b t₀) E
      rw [List.foldl_cons]
      refine ih (l₁ ++ [x]) _ (by rw [List.append_assoc]; exact e) ?_ ?_
      · intro idx hidx
        rw [step]
        by_cases hx : idx = x
        swap
        · rw [if_neg hx, add_zero]
          rcases List.mem_append.1 hidx with h | h
          · exact h1 idx h
          · exact absurd (List.mem_singleton.1 h) hx
        rw [if_pos hx, hx, h2 x hx1, zero_add]
        simp only [hG _ x hxb hxp, vanillaStepT_sum hf hpl]
        refine HasDerivAt.div_const ?_ _
        refine HasDerivAt.add ?_ (HasDerivAt.fun_sum fun j hj => ?_)
        · have := (hb i hi).mul (done pivot hpb hple hpne)
          refine this.congr_deriv ?_
          ring
        · have hj := Finset.mem_range.1 hj
          by_cases hz : pivot.getD j 0 = 0
          · rw [hz, show sq 0 = 0 by simp [sq]]
            simp only [mul_zero, zero_mul, add_zero]
            exact hasDerivAt_const _ _
          · obtain ⟨n1, n2, _⟩ := hn j hj hz
            have := ((hA i hi j hj).mul_const (sq (pivot.getD j 0))).mul (done _ n1 n2 (hnne j hj hz))
            refine this.congr_deriv ?_
            ring
      · intro idx hidx
        rw [List.mem_append, not_or, List.mem_singleton] at hidx
        rw [step, if_neg hidx.2, add_zero, h2 idx hidx.1]
  have z : ∀ idx, Jac.zero.at shape.length A' b' idx = 0 := fun idx => by simp [Jac.at, Jac.zero, ell]
  exact key l [] Jac.zero rfl (fun _ h => nomatch h) fun idx _ => z idx

/-- The nonzero indices in the order of `np.ndindex` are such an order. -/
theorem pathOrder_ndindex (shape : List ℕ) : PathOrder shape ((ndindex shape).filter fun t => 0 < t.sum) := by
  have lex : ∀ shape : List ℕ, (ndindex shape).Pairwise fun a b => ¬ List.Forall₂ (· ≤ ·) b a := by
    intro shape
    induction shape with
    | nil => exact List.pairwise_singleton _ _
    | cons n s ih =>
      unfold ndindex
      rw [List.pairwise_flatMap]
      refine ⟨fun k _ => ?_, ?_⟩
      · rw [List.pairwise_map]
        refine ih.imp fun h h' => h (List.forall₂_cons.1 h').2
      · refine List.pairwise_lt_range.imp fun h a ha b hb h' => ?_
        obtain ⟨a, _, rfl⟩ := List.mem_map.1 ha
        obtain ⟨b, _, rfl⟩ := List.mem_map.1 hb
        have := (List.forall₂_cons.1 h').1
        omega
  refine ⟨fun t ht => ?_, (nodup_ndindex shape).filter _, fun l₁ idx l₂ e t hle hne hs => ?_⟩
  · rw [List.mem_filter] at ht
    exact ⟨mem_ndindex.1 ht.1, by simpa using ht.2⟩
  · have hidx : idx ∈ (ndindex shape).filter fun t => 0 < t.sum := by rw [e]; simp
    have hb : InB shape t := by
      have := mem_ndindex.1 (List.mem_filter.1 hidx).1
      rw [inB_iff] at this ⊢
      rw [List.forall₂_iff_get] at hle
      refine ⟨hle.1.trans this.1, fun k hk => ?_⟩
      have h1 := hle.2 k (by rw [hle.1, this.1]; exact hk) (by rw [this.1]; exact hk)
      have h2 := this.2 k hk
      rw [List.getD_eq_getElem _ _ (by rw [this.1]; exact hk)] at h2
      rw [List.getD_eq_getElem _ _ (by rw [hle.1, this.1]; exact hk)]
      exact lt_of_le_of_lt h1 h2
    have ht : t ∈ (ndindex shape).filter fun t => 0 < t.sum := List.mem_filter.2 ⟨mem_ndindex.2 hb, by simpa using hs⟩
    have pw := (lex shape).filter fun t => decide (0 < t.sum)
    rw [e] at ht pw
    rcases List.mem_append.1 ht with h | h
    · exact h
    · rcases List.mem_cons.1 h with h | h
      · exact absurd h hne
      · rw [List.pairwise_append] at pw
        exact absurd hle ((List.pairwise_cons.1 pw.2.1).1 t h)

/-- **C118** for the amplitudes themselves (`A(t)` symmetric), in the order of `np.ndindex`: the Jacobian is the derivative of the Fock amplitudes. -/
theorem C118_amplitudes (shape : List ℕ) (A : 𝕜 → ℕ → ℕ → ℂ) (b : 𝕜 → ℕ → ℂ) (A' : ℕ → ℕ → ℂ) (b' : ℕ → ℂ) (c : ℂ)
    (t₀ : 𝕜) (hsym : ∀ t, Symm shape.length (A t)) (hA : ∀ i < shape.length, ∀ j < shape.length, HasDerivAt (fun t => A t i j) (A' i j) t₀)
    (hb : ∀ i < shape.length, HasDerivAt (fun t => b t i) (b' i) t₀) :
    let G := fun idx : List ℕ => amp shape.length (A t₀) (b t₀) c (toF idx)
    let D := ((ndindex shape).filter fun t => 0 < t.sum).foldl (jacStep shape G (A t₀) (b t₀)) Jac.zero
    ∀ idx, InB shape idx → 0 < idx.sum → HasDerivAt (fun t => amp shape.length (A t) (b t) c (toF idx))
      (∑ k ∈ Finset.range shape.length, D.db idx k * b' k + ∑ k ∈ Finset.range shape.length, ∑ m ∈ Finset.range shape.length, D.da idx k m * A' k m) t₀ := by
  intro G D idx h1 h2
  refine C118_jacobian shape _ (pathOrder_ndindex shape) A b A' b' c t₀ (fun t idx => amp shape.length (A t) (b t) c (toF idx)) hA hb (fun t => ?_)
    (fun t idx hi hp => ?_) idx (List.mem_filter.2 ⟨mem_ndindex.2 h1, by simpa using h2⟩)
  · rw [toF_replicate, amp_zero]
  · exact (vanillaStepT_eq (hsym t) hi hp fun _ _ _ => rfl).symm

/-- The first two steps for one mode: `∂G₁/∂b = G₀` and `∂G₂/∂A = G₀ √1/√2`. -/
example (c a β : ℂ) (G : List ℕ → ℂ) (h : G [0] = c) (h1 : G [1] = β * c) :
    (([[1], [2]] : List (List ℕ)).foldl (jacStep [3] G (fun _ _ => a) fun _ => β) Jac.zero).db [1] 0 = c / sq 1 ∧
    (([[1], [2]] : List (List ℕ)).foldl (jacStep [3] G (fun _ _ => a) fun _ => β) Jac.zero).da [2] 0 0 = c * sq 1 / sq 2 := by
  constructor <;> simp [jacStep, jacNeighbor, firstAvailablePivot, lowerNeighbors, Jac.addRow, Jac.zero, wrapIdx, h]

/-! ## The batched step -/

/-- math/lattice/steps.py:71-102 `vanilla_step_batch`: arrays over the batch, which `b` and `G` have as their first axis. -/
noncomputable def vanillaStepBatch (shape : List ℕ) (G : List ℕ → ℕ → ℂ) (A : ℕ → ℕ → ℂ) (b : ℕ → ℕ → ℂ) (index : List ℕ) : ℕ → ℂ :=
  match firstAvailablePivot index with
  | none => fun _ => 0
  | some (i, pivot) =>
    let v := (lowerNeighbors (pivot.map (fun n : ℕ => (n : ℤ)))).foldl
      (fun (v : ℕ → ℂ) jn => fun β => v β + A i jn.1 * sq (pivot.getD jn.1 0) * G (wrapIdx shape jn.2) β) fun β => b β i * G pivot β
    fun β => v β / sq (index.getD i 0)

/-- Every batch entry of the batched step is the step for this batch entry, so the batched recurrence computes the amplitudes of every `b`. -/
theorem C118_batch (shape : List ℕ) (A : ℕ → ℕ → ℂ) (b : ℕ → ℕ → ℂ) (c : ℕ → ℂ) (hA : Symm shape.length A) (G : List ℕ → ℕ → ℂ) (idx : List ℕ) (hb : InB shape idx)
    (hpos : 0 < idx.sum) :
    (∀ β, vanillaStepBatch shape G A b idx β = vanillaStepT shape (fun t => G t β) A (b β) idx) ∧
    ((∀ t β, InB shape t → t.sum < idx.sum → G t β = amp shape.length A (b β) (c β) (toF t)) →
      ∀ β, vanillaStepBatch shape G A b idx β = amp shape.length A (b β) (c β) (toF idx)) := by
  have h : ∀ β, vanillaStepBatch shape G A b idx β = vanillaStepT shape (fun t => G t β) A (b β) idx := by
    intro β
    unfold vanillaStepBatch vanillaStepT
    cases firstAvailablePivot idx with
    | none => rfl
    | some p =>
      dsimp only
      congr 1
      generalize lowerNeighbors (p.2.map (fun n : ℕ => (n : ℤ))) = l
      have : ∀ (l : List (ℕ × List ℤ)) (v : ℕ → ℂ), l.foldl (fun (v : ℕ → ℂ) jn => fun β => v β + A p.1 jn.1 * sq (p.2.getD jn.1 0) * G (wrapIdx shape jn.2) β) v β =
          l.foldl (fun v jn => v + A p.1 jn.1 * sq (p.2.getD jn.1 0) * G (wrapIdx shape jn.2) β) (v β) := by
        intro l
        induction l with
        | nil => intro v; rfl
        | cons x l ih => intro v; exact ih _
      exact this l _
  exact ⟨h, fun hG β => (h β).trans (vanillaStepT_eq hA hb hpos fun t ht hs => hG t β ht hs)⟩

/-! ## The binomial strategy in numba -/

/-- The dictionary `FP` of index lists by cutoffs and number of photons. -/
abbrev Fp := List ℕ × ℕ → Option (List (List ℕ))

/-- math/lattice/strategies/binomial.py:150-160, the loop. -/
noncomputable def numbaLoop (shape : List ℕ) (A : ℕ → ℕ → ℂ) (b : ℕ → ℂ) (maxProb : ℝ) : List ℕ → (List ℕ → ℂ) × ℝ × Fp → (List ℕ → ℂ) × Fp
  | [], s => (s.1, s.2.2)
  | w :: ws, s =>
    let indices := (s.2.2 (shape, w)).getD (binomialSubspaceBasis shape w)
    let FP := Function.update s.2.2 (shape, w) (some indices)
    let r := binomialStep shape A b indices s.1
    open Classical in
    if s.2.1 + r.2 > maxProb then (r.1, FP) else numbaLoop shape A b maxProb ws (r.1, s.2.1 + r.2, FP)

/-- math/lattice/strategies/binomial.py:128-160 `binomial_numba`, with the dictionary after the call. -/
noncomputable def binomialNumba (shape : List ℕ) (A : ℕ → ℕ → ℂ) (b : ℕ → ℂ) (c : ℂ) (FP : Fp) (maxProb : ℝ := 0.999) (globalCutoff : Option ℕ := none) : (List ℕ → ℂ) × Fp :=
  numbaLoop shape A b maxProb (List.range' 1 (globalCutoff.getD (shape.sum - shape.length) - 1))
    (Function.update (fun _ => 0) (List.replicate shape.length 0) c, ‖c‖ ^ 2, FP)

/-- Every entry of the dictionary is the weight sector it is stored for, in some order. -/
def FpOk (FP : Fp) : Prop := ∀ s w l, FP (s, w) = some l → l.Perm (binomialSubspaceBasis s w)

/-- The order in which the sectors are processed. -/
def fpSched (FP : Fp) (shape : List ℕ) (w : ℕ) : List (List ℕ) := (FP (shape, w)).getD (binomialSubspaceBasis shape w)

theorem numbaLoop_eq (shape : List ℕ) (A : ℕ → ℕ → ℂ) (b : ℕ → ℂ) (maxProb : ℝ) (ws : List ℕ) (sched : ℕ → List (List ℕ)) :
    ∀ (s : (List ℕ → ℂ) × ℝ × Fp), (∀ w ∈ ws, fpSched s.2.2 shape w = sched w) → ws.Nodup →
      (numbaLoop shape A b maxProb ws s).1 = (binomialLoop shape A b (some maxProb) sched ws (s.1, s.2.1)).1 := by
  induction ws with
  | nil => intro s _ _; rfl
  | cons w ws ih =>
    intro s hs hn
    have e : (s.2.2 (shape, w)).getD (binomialSubspaceBasis shape w) = sched w := hs w List.mem_cons_self
    unfold numbaLoop binomialLoop
    dsimp only
    rw [e]
    by_cases h : s.2.1 + (binomialStep shape A b (sched w) s.1).2 > maxProb
    · rw [if_pos h, if_pos ⟨maxProb, rfl, h⟩]
    · rw [if_neg h, if_neg (by rintro ⟨m, hm, h'⟩; exact h (Option.some.inj hm ▸ h'))]
      refine ih _ (fun v hv => ?_) (List.nodup_cons.1 hn).2
      have hne : (shape, v) ≠ (shape, w) := fun e' => (List.nodup_cons.1 hn).1 ((Prod.mk.inj e').2 ▸ hv)
      unfold fpSched
      dsimp only
      rw [Function.update_of_ne hne]
      exact hs v (List.mem_cons_of_mem _ hv)

theorem numbaLoop_ok (shape : List ℕ) (A : ℕ → ℕ → ℂ) (b : ℕ → ℂ) (maxProb : ℝ) (ws : List ℕ) :
    ∀ (s : (List ℕ → ℂ) × ℝ × Fp), FpOk s.2.2 → FpOk (numbaLoop shape A b maxProb ws s).2 := by
  induction ws with
  | nil => intro s h; exact h
  | cons w ws ih =>
    intro s h
    have hu : FpOk (Function.update s.2.2 (shape, w) (some ((s.2.2 (shape, w)).getD (binomialSubspaceBasis shape w)))) := by
      intro s' w' l hl
      by_cases e : (s', w') = (shape, w)
      · rw [e, Function.update_self] at hl
        obtain ⟨rfl, rfl⟩ := Prod.mk.inj e
        rw [← Option.some.inj hl]
        cases hF : s.2.2 (s', w') with
        | none => exact List.Perm.refl _
        | some l' => exact h _ _ _ hF
      · rw [Function.update_of_ne e] at hl
        exact h _ _ _ hl
    unfold numbaLoop
    dsimp only
    by_cases h' : s.2.1 + (binomialStep shape A b ((s.2.2 (shape, w)).getD (binomialSubspaceBasis shape w)) s.1).2 > maxProb
    · rw [if_pos h']; exact hu
    · rw [if_neg h']; exact ih _ hu

/-- **C118** the numba version, with a dictionary filled by earlier calls in any order: the array holds the amplitudes of all weights below some `W` and zeros
elsewhere; it stops below the global cutoff only if the probability exceeds the bound, and the dictionary stays good for later calls. -/
theorem C118_numba (shape : List ℕ) (hp : ∀ n ∈ shape, 0 < n) (A : ℕ → ℕ → ℂ) (b : ℕ → ℂ) (c : ℂ) (hA : Symm shape.length A) (FP : Fp) (hF : FpOk FP) (maxProb : ℝ)
    (g : Option ℕ) (hg : 0 < g.getD (shape.sum - shape.length)) :
    (∃ W, 1 ≤ W ∧ W ≤ g.getD (shape.sum - shape.length) ∧ FilledBelow shape A b c W (binomialNumba shape A b c FP maxProb g).1 ∧
      (∀ v, 1 < v → v < W → probBelow shape A b c v ≤ maxProb) ∧
      (W = g.getD (shape.sum - shape.length) ∨ (1 < W ∧ probBelow shape A b c W > maxProb))) ∧
    FpOk (binomialNumba shape A b c FP maxProb g).2 := by
  refine ⟨?_, numbaLoop_ok shape A b maxProb _ _ hF⟩
  have hs : ∀ w, (fpSched FP shape w).Perm (binomialSubspaceBasis shape w) := by
    intro w
    unfold fpSched
    cases h : FP (shape, w) with
    | none => exact List.Perm.refl _
    | some l => exact hF _ _ _ h
  obtain ⟨W, h1, h2, h3, _, h5, h6⟩ := C22_binomial shape hp A b c hA (some maxProb) _ hg (fpSched FP shape) hs
  have e : (binomialNumba shape A b c FP maxProb g).1 = (binomial shape A b c (some maxProb) (g.getD (shape.sum - shape.length)) (fpSched FP shape)).1 :=
    numbaLoop_eq shape A b maxProb _ (fpSched FP shape) _ (fun _ _ => rfl) List.nodup_range'
  refine ⟨W, h1, h2, e ▸ h3, fun v hv hv' => h5 v hv hv' maxProb rfl, h6.imp_right fun ⟨h, m, hm, h'⟩ => ⟨h, Option.some.inj hm ▸ h'⟩⟩

/-- **C118, disagreement**: with its default global cutoff the array has a zero at the corner `(n₁-1, …, n_k-1)`, whatever the amplitude there and the bound. -/
theorem C118_numba_corner (shape : List ℕ) (hp : ∀ n ∈ shape, 0 < n) (A : ℕ → ℕ → ℂ) (b : ℕ → ℂ) (c : ℂ) (hA : Symm shape.length A) (FP : Fp) (hF : FpOk FP)
    (maxProb : ℝ) (h1 : 0 < shape.sum - shape.length) : InB shape (shape.map (· - 1)) ∧ (binomialNumba shape A b c FP maxProb).1 (shape.map (· - 1)) = 0 := by
  obtain ⟨hb, hsum⟩ := top_inB hp
  obtain ⟨⟨W, _, h2, h3, _⟩, _⟩ := C118_numba shape hp A b c hA FP hF maxProb none h1
  refine ⟨hb, ?_⟩
  rw [h3 _ hb, if_neg]
  rw [hsum]
  simpa using h2

/-- The empty dictionary is good, and the hypotheses hold for two modes with cutoffs 3 and 2. -/
example : FpOk (fun _ => none) ∧ (∀ n ∈ [3, 2], 0 < n) ∧ 0 < [3, 2].sum - [3, 2].length := ⟨(fun _ _ _ h => nomatch h), by decide, by decide⟩

end Verif.Fock
