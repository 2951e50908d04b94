import Verif.TriplesFock
import Verif.Displacement
import Verif.Beamsplitter
import Verif.FockGates
import Verif.ArrayAlg

/-!
# The `fock_array` overrides of `Dgate`, `Sgate`, `BSgate` and `SqueezedVacuum` (C63)

These four classes do not use the generic `CircuitComponent.fock_array` (modelled in `FockArray.lean`) but a dedicated
strategy per gate.  Superposition flags are not modelled (the constructors never set them).
-/

namespace Verif.Triples
open Verif.Fock Verif.Batch Verif.PolyExp Verif.Arr

/-- `math.reshape(param, (-1,))`, one array per entry, then `math.reshape(ret, batch_shape + shape)`: the array at batch
index `β` (lab/transformations/dgate.py:112-116 and the three siblings). -/
def perBatch {α : Type*} (B : List ℕ) (gate : List ℕ → α) (β : List ℕ) : Option α :=
  ((ndindex B).map gate)[ravel B β]?

/-- lab/transformations/dgate.py:95-121 `Dgate.fock_array`, with lab/circuit_components.py:768-795 for the errors. -/
noncomputable def dgateFock (tol : ℝ) (B : List ℕ) (α : List ℕ → ℂ) (shape β k : List ℕ) : Option ℂ :=
  if 0 ∈ shape ∨ shape.length ≠ 2 then none
  else (perBatch B (fun i => displacementGate tol (shape.getD 0 0) (shape.getD 1 0) (α i)) β).map
    fun G => G (k.getD 0 0, k.getD 1 0)

/-- lab/transformations/sgate.py:122-146 `Sgate.fock_array`. -/
noncomputable def sgateFock (B : List ℕ) (r φ : List ℕ → ℝ) (shape β k : List ℕ) : Option ℂ :=
  if 0 ∈ shape ∨ shape.length ≠ 2 then none
  else (perBatch B (fun i => squeezer (shape.getD 0 0) (shape.getD 1 0) (r i) (φ i)) β).map
    fun G => G (k.getD 0 0, k.getD 1 0)

/-- lab/transformations/bsgate.py:113-157 `BSgate.fock_array` with the default method `"stable"`. -/
noncomputable def bsgateFock (B : List ℕ) (θ φ : List ℕ → ℝ) (shape β k : List ℕ) : Option ℂ :=
  if 0 ∈ shape ∨ shape.length ≠ 4 then none
  else (perBatch B (fun i => stableBeamsplitter (shape.getD 0 0, shape.getD 1 0, shape.getD 2 0, shape.getD 3 0)
    (θ i) (φ i)) β).map fun G => G (k.getD 0 0, k.getD 1 0, k.getD 2 0, k.getD 3 0)

/-- lab/states/squeezed_vacuum.py:93-117 `SqueezedVacuum.fock_array`. -/
noncomputable def squeezedVacuumFock (B : List ℕ) (r φ : List ℕ → ℝ) (shape β k : List ℕ) : Option ℂ :=
  if 0 ∈ shape ∨ shape.length ≠ 1 then none
  else (perBatch B (fun i => squeezed (shape.getD 0 0) (r i) (φ i)) β).map fun G => G (k.getD 0 0)

/-! ## Proofs -/

theorem perBatch_eq {α : Type*} {B β : List ℕ} (h : InB B β) (gate : List ℕ → α) : perBatch B gate β = some (gate β) := by
  unfold perBatch
  have := unravel_ravel h
  rw [ndindex_eq, List.map_map, List.getElem?_map, List.getElem?_range this.1, Option.map_some, Function.comp_apply, this.2]

theorem inB2 {shape k : List ℕ} (h : InB shape k) (hl : shape.length = 2) :
    ∃ M N m n, shape = [M, N] ∧ k = [m, n] ∧ m < M ∧ n < N := by
  rcases h with _ | ⟨h1, h⟩
  · simp at hl
  rcases h with _ | ⟨h2, h⟩
  · simp at hl
  rcases h with _ | ⟨h3, h⟩
  · exact ⟨_, _, _, _, rfl, rfl, h1, h2⟩
  · simp at hl

theorem inB1 {shape k : List ℕ} (h : InB shape k) (hl : shape.length = 1) : ∃ M m, shape = [M] ∧ k = [m] ∧ m < M := by
  rcases h with _ | ⟨h1, h⟩
  · simp at hl
  rcases h with _ | ⟨h3, h⟩
  · exact ⟨_, _, rfl, rfl, h1⟩
  · simp at hl

theorem inB4 {shape k : List ℕ} (h : InB shape k) (hl : shape.length = 4) :
    ∃ M N P Q m n p q, shape = [M, N, P, Q] ∧ k = [m, n, p, q] ∧ m < M ∧ n < N ∧ p < P ∧ q < Q := by
  rcases h with _ | ⟨h1, h⟩
  · simp at hl
  rcases h with _ | ⟨h2, h⟩
  · simp at hl
  rcases h with _ | ⟨h3, h⟩
  · simp at hl
  rcases h with _ | ⟨h4, h⟩
  · simp at hl
  rcases h with _ | ⟨h5, h⟩
  · exact ⟨_, _, _, _, _, _, _, _, rfl, rfl, h1, h2, h3, h4⟩
  · simp at hl

theorem tanh_div (r : ℝ) : (Real.tanh r : ℂ) = (Real.sinh r : ℂ) / Real.cosh r := by
  rw [Real.tanh_eq_sinh_div_cosh]; push_cast; rfl

/-- **C63 (Dgate).** At every batch index and every index inside the shape, `Dgate.fock_array` is the generic Fock array
of the displacement, provided `alpha` is zero or exceeds the tolerance in absolute value. -/
theorem C63_dgate (tol : ℝ) (htol : 0 ≤ tol) (B : List ℕ) (α : List ℕ → ℂ) (shape β k : List ℕ) (hβ : InB B β)
    (hk : InB shape k) (hα : tol < ‖α β‖ ∨ α β = 0) :
    dgateFock tol B α shape β k = (displacement B α).fockArray shape β k := by
  unfold dgateFock
  by_cases h2 : shape.length = 2
  · rw [if_neg (by have := inB_pos hk; tauto), perBatch_eq hβ, Option.map_some]
    obtain ⟨M, N, m, n, rfl, rfl, hm, hn⟩ := inB2 hk h2
    unfold displacement
    rw [fock2 (fun _ => rfl) β hm hn]
    refine congrArg some ?_
    show displacementGate tol M N (α β) (m, n) = _
    rw [C63_gate tol htol M N (α β) hα m n hm hn]
    exact Fock.amp_congr _ (fun i hi j hj => by interval_cases i <;> interval_cases j <;> rfl)
      (fun i hi => by interval_cases i <;> rfl) _
  · rw [if_pos (Or.inr h2), Eq.comm, C58_errors]
    exact Or.inr h2

/-- **C63 (Sgate).** -/
theorem C63_sgate (B : List ℕ) (r φ : List ℕ → ℝ) (shape β k : List ℕ) (hβ : InB B β) (hk : InB shape k) :
    sgateFock B r φ shape β k = (squeezing B r φ).fockArray shape β k := by
  unfold sgateFock
  by_cases h2 : shape.length = 2
  · rw [if_neg (by have := inB_pos hk; tauto), perBatch_eq hβ, Option.map_some]
    obtain ⟨M, N, m, n, rfl, rfl, hm, hn⟩ := inB2 hk h2
    unfold squeezing
    rw [fock2 (fun _ => rfl) β hm hn]
    refine congrArg some ?_
    show squeezer M N (r β) (φ β) (m, n) = _
    rw [C24_squeezer M N (r β) (φ β) m n hm hn, show squeezingC (r β) = 1 / ((Real.sqrt (Real.cosh (r β)) : ℝ) : ℂ) by simp [squeezingC]]
    refine Fock.amp_congr _ (fun i hi j hj => ?_) (fun i hi => rfl) _
    interval_cases i <;> interval_cases j <;> simp [squeezingA, mat, ph]
  · rw [if_pos (Or.inr h2), Eq.comm, C58_errors]
    exact Or.inr h2

/-- **C63 (BSgate).** -/
theorem C63_bsgate (B : List ℕ) (θ φ : List ℕ → ℝ) (shape β k : List ℕ) (hβ : InB B β) (hk : InB shape k) :
    bsgateFock B θ φ shape β k = (beamsplitter B θ φ).fockArray shape β k := by
  unfold bsgateFock
  by_cases h2 : shape.length = 4
  · rw [if_neg (by have := inB_pos hk; tauto), perBatch_eq hβ, Option.map_some]
    obtain ⟨M, N, P, Q, m, n, p, q, rfl, rfl, hm, hn, hp, hq⟩ := inB4 hk h2
    unfold beamsplitter
    rw [mk_fock (N := 4) (fun _ i hi j hj => by interval_cases i <;> interval_cases j <;> rfl) β rfl hk]
    refine congrArg some ?_
    show stableBeamsplitter (M, N, P, Q) (θ β) (φ β) (m, n, p, q) = _
    rw [C23_stable_beamsplitter M N P Q (θ β) (φ β) m n p q hm hn hp hq]
    refine Fock.amp_congr _ (fun i hi j hj => ?_) (fun i hi => rfl) _
    interval_cases i <;> interval_cases j <;> simp [bsA, bsV, mat, ph]
  · rw [if_pos (Or.inr h2), Eq.comm, C58_errors]
    exact Or.inr h2

/-- **C63 (SqueezedVacuum).** -/
theorem C63_squeezed_vacuum (B : List ℕ) (r φ : List ℕ → ℝ) (shape β k : List ℕ) (hβ : InB B β) (hk : InB shape k) :
    squeezedVacuumFock B r φ shape β k = (squeezedVacuum B r φ).fockArray shape β k := by
  unfold squeezedVacuumFock
  by_cases h2 : shape.length = 1
  · rw [if_neg (by have := inB_pos hk; tauto), perBatch_eq hβ, Option.map_some]
    obtain ⟨M, m, rfl, rfl, hm⟩ := inB1 hk h2
    unfold squeezedVacuum
    rw [fock1 β hm]
    refine congrArg some ?_
    show squeezed M (r β) (φ β) m = _
    rw [C24_squeezed M (r β) (φ β) m hm, show squeezingC (r β) = 1 / ((Real.sqrt (Real.cosh (r β)) : ℝ) : ℂ) by simp [squeezingC]]
    refine Fock.amp_congr _ (fun i hi j hj => ?_) (fun i hi => rfl) _
    interval_cases i; interval_cases j
    simp [squeezedA, mat, ph]
    try ring
  · rw [if_pos (Or.inr h2), Eq.comm, C58_errors]
    exact Or.inr h2

/-- A batch of two displacements, one of them trivial, with different cutoffs: the hypotheses hold and the entry is not zero. -/
example : dgateFock 0 [2] (fun β => if β = [0] then 1 else 0) [2, 3] [0] [1, 0] =
    some (Complex.exp ((-(1 : ℝ) / 2 : ℝ) : ℂ)) := by
  rw [C63_dgate 0 le_rfl [2] _ [2, 3] [0] [1, 0] (.cons (by omega) .nil) (.cons (by omega) (.cons (by omega) .nil))
    (Or.inl (by simp)), C56_displacement [2] [0] _ (by omega) (by omega)]
  simp [Finset.sum_range_succ]

end Verif.Triples
