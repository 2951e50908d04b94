import Verif.ContractKernel

/-!
# Model of `mrmustard/physics/triples.py`

Every constructor returns a `PolyExp` without derived variables.  `B` is the batch shape common to the parameters after
`broadcast_arrays`; a parameter is a function of the batch index.  Parameters annotated `float` are real numbers (the code casts
them to `complex128`; complex values of them are not modelled).
-/

namespace Verif.Triples
open Verif.Fock Verif.Batch Verif.Gauss Verif.PolyExp

/-- A matrix given by its rows. -/
def mat (rows : List (List ℂ)) (i j : ℕ) : ℂ := (rows.getD i []).getD j 0
/-- A vector given by its entries. -/
def vec (l : List ℂ) (i : ℕ) : ℂ := l.getD i 0

/-- `PolyExpAnsatz(A, b, c)` for scalar `c` (physics/ansatz/polyexp_ansatz.py:107-128). -/
def mk (B : List ℕ) (N : ℕ) (A : List ℕ → ℕ → ℕ → ℂ) (b : List ℕ → ℕ → ℂ) (c : List ℕ → ℂ) : PolyExp :=
  ⟨B, false, N, A, b, [], fun β _ => c β⟩

/-- The phase `e^{iφ}`. -/
noncomputable def ph (φ : ℝ) : ℂ := Complex.exp (Complex.I * φ)

/-! ### Pure states -/

/-- physics/triples.py:63-78 `vacuum_state_Abc`. -/
def vacuum (n : ℕ) : PolyExp := mk [] n (fun _ _ _ => 0) (fun _ _ => 0) fun _ => 1

/-- physics/triples.py:81-100 `bargmann_eigenstate_Abc`. -/
def bargmannEigen (B : List ℕ) (α : List ℕ → ℂ) : PolyExp := mk B 1 (fun _ _ _ => 0) (fun β => vec [α β]) fun _ => 1

/-- physics/triples.py:103-123 `coherent_state_Abc`. -/
noncomputable def coherent (B : List ℕ) (α : List ℕ → ℂ) : PolyExp :=
  mk B 1 (fun _ _ _ => 0) (fun β => vec [α β]) fun β => Complex.exp (((-(1 / 2) * ‖α β‖ ^ 2 : ℝ)) : ℂ)

/-- physics/triples.py:126-150 `squeezed_vacuum_state_Abc`. -/
noncomputable def squeezedVacuum (B : List ℕ) (r φ : List ℕ → ℝ) : PolyExp :=
  mk B 1 (fun β => mat [[-(Real.sinh (r β) : ℂ) / Real.cosh (r β) * ph (φ β)]]) (fun _ _ => 0)
    fun β => 1 / ((Real.sqrt (Real.cosh (r β)) : ℝ) : ℂ)

/-- physics/triples.py:153-190 `displaced_squeezed_vacuum_state_Abc`. -/
noncomputable def displacedSqueezed (B : List ℕ) (α : List ℕ → ℂ) (r φ : List ℕ → ℝ) : PolyExp :=
  mk B 1 (fun β => mat [[-(Real.sinh (r β) : ℂ) / Real.cosh (r β) * ph (φ β)]])
    (fun β => vec [((α β).re + Complex.I * (α β).im) + ((α β).re - Complex.I * (α β).im) * Real.sinh (r β) / Real.cosh (r β) * ph (φ β)])
    fun β => Complex.exp (-(1 / 2) * (((α β).re : ℂ) ^ 2 + ((α β).im : ℂ) ^ 2) -
      1 / 2 * ((α β).re - Complex.I * (α β).im) ^ 2 * Real.sinh (r β) / Real.cosh (r β) * ph (φ β)) / ((Real.sqrt (Real.cosh (r β)) : ℝ) : ℂ)

/-- physics/triples.py:193-221 `two_mode_squeezed_vacuum_state_Abc`. -/
noncomputable def tmsv (B : List ℕ) (r φ : List ℕ → ℝ) : PolyExp :=
  mk B 2 (fun β => let t := ph (φ β) * Real.sinh (r β) / Real.cosh (r β); mat [[0, t], [t, 0]]) (fun _ _ => 0)
    fun β => 1 / (Real.cosh (r β) : ℂ)

/-- physics/triples.py:324-349 `quadrature_eigenstates_Abc`; `hbar` is `settings.HBAR`. -/
noncomputable def quadratureEigen (hbar : ℝ) (B : List ℕ) (x φ : List ℕ → ℝ) : PolyExp :=
  mk B 1 (fun β => mat [[-Complex.exp (Complex.I * 2 * φ β)]])
    (fun β => vec [x β * ph (φ β) * ((Real.sqrt (2 / hbar) : ℝ) : ℂ)])
    fun β => ((1 / Real.pi ^ (1 / 4 : ℝ) * Real.exp (-(x β) ^ 2 / (2 * hbar)) : ℝ) : ℂ)

/-! ### Mixed states -/

/-- physics/triples.py:357-385 `thermal_state_Abc`. -/
noncomputable def thermal (B : List ℕ) (nbar : List ℕ → ℝ) : PolyExp :=
  mk B 2 (fun β => let t : ℂ := nbar β / (nbar β + 1); mat [[0, t], [t, 0]]) (fun _ _ => 0) fun β => 1 / (nbar β + 1 : ℂ)

/-! ### Unitaries -/

/-- physics/triples.py:393-421 `rotation_gate_Abc`. -/
noncomputable def rotation (B : List ℕ) (θ : List ℕ → ℝ) : PolyExp :=
  mk B 2 (fun β => mat [[0, ph (θ β)], [ph (θ β), 0]]) (fun _ _ => 0) fun _ => 1

/-- physics/triples.py:424-446 `displacement_gate_Abc` (with 37-41 `_X_matrix_for_unitary`). -/
noncomputable def displacement (B : List ℕ) (α : List ℕ → ℂ) : PolyExp :=
  mk B 2 (fun _ => mat [[0, 1], [1, 0]]) (fun β => vec [α β, -(starRingEnd ℂ) (α β)])
    fun β => Complex.exp ((-(‖α β‖ ^ 2) / 2 : ℝ) : ℂ)

/-- physics/triples.py:449-483 `squeezing_gate_Abc`. -/
noncomputable def squeezing (B : List ℕ) (r φ : List ℕ → ℝ) : PolyExp :=
  mk B 2 (fun β =>
      let t : ℂ := Real.sinh (r β) / Real.cosh (r β)
      let s : ℂ := 1 / Real.cosh (r β)
      mat [[-ph (φ β) * t, s], [s, ph (-φ β) * t]])
    (fun _ _ => 0) fun β => 1 / ((Real.sqrt (Real.cosh (r β)) : ℝ) : ℂ)

/-- physics/triples.py:486-522 `beamsplitter_gate_Abc`. -/
noncomputable def beamsplitter (B : List ℕ) (θ φ : List ℕ → ℝ) : PolyExp :=
  mk B 4 (fun β =>
      let C : ℂ := Real.cos (θ β)
      let S : ℂ := Real.sin (θ β)
      mat [[0, 0, C, -ph (-φ β) * S], [0, 0, ph (φ β) * S, C], [C, ph (φ β) * S, 0, 0], [-ph (-φ β) * S, C, 0, 0]])
    (fun _ _ => 0) fun _ => 1

/-- physics/triples.py:525-569 `twomode_squeezing_gate_Abc`. -/
noncomputable def twoModeSqueezing (B : List ℕ) (r φ : List ℕ → ℝ) : PolyExp :=
  mk B 4 (fun β =>
      let t : ℂ := ph (φ β) * Real.sinh (r β) / Real.cosh (r β)
      let s : ℂ := 1 / Real.cosh (r β)
      let u : ℂ := -(starRingEnd ℂ) t
      mat [[0, t, s, 0], [t, 0, 0, s], [s, 0, 0, u], [0, s, u, 0]])
    (fun _ _ => 0) fun β => 1 / (Real.cosh (r β) : ℂ)

/-- physics/triples.py:572-589 `identity_Abc`. -/
def identity (n : ℕ) : PolyExp :=
  mk [] (2 * n) (fun _ i j => if i + n = j ∨ j + n = i then 1 else 0) (fun _ _ => 0) fun _ => 1

/-! ### Channels -/

/-- physics/triples.py:597-635 `attenuator_Abc`; `none`: ValueError. -/
noncomputable def attenuator (B : List ℕ) (η : List ℕ → ℝ) : Option PolyExp :=
  open Classical in
  if (∃ β ∈ ndindex B, η β > 1) ∨ ∃ β ∈ ndindex B, η β < 0 then none
  else some (mk B 4 (fun β =>
      let e1 : ℂ := (Real.sqrt (η β) : ℝ)
      let e2 : ℂ := 1 - η β
      mat [[0, e1, 0, 0], [e1, 0, 0, e2], [0, 0, 0, e1], [0, e2, e1, 0]])
    (fun _ _ => 0) fun _ => 1)

/-- physics/triples.py:638-676 `amplifier_Abc`; `none`: ValueError. -/
noncomputable def amplifier (B : List ℕ) (g : List ℕ → ℝ) : Option PolyExp :=
  open Classical in
  if ∃ β ∈ ndindex B, g β < 1 then none
  else some (mk B 4 (fun β =>
      let g1 : ℂ := 1 / ((Real.sqrt (g β) : ℝ) : ℂ)
      let g2 : ℂ := 1 - 1 / (g β : ℂ)
      mat [[0, g1, g2, 0], [g1, 0, 0, 0], [g2, 0, 0, g1], [0, 0, g1, 0]])
    (fun _ _ => 0) fun β => 1 / (g β : ℂ))

/-- physics/triples.py:679-705 `fock_damping_Abc`. -/
noncomputable def fockDamping (B : List ℕ) (β : List ℕ → ℝ) : PolyExp :=
  mk B 2 (fun i => mat [[0, Complex.exp (-(β i : ℂ))], [Complex.exp (-(β i : ℂ)), 0]]) (fun _ _ => 0) fun _ => 1

/-- physics/triples.py:902-935 `attenuator_kraus_Abc`. -/
noncomputable def attenuatorKraus (B : List ℕ) (η : List ℕ → ℝ) : PolyExp :=
  mk B 3 (fun β =>
      let C : ℂ := (Real.sqrt (η β) : ℝ)
      let S : ℂ := (Real.sqrt (1 - η β) : ℝ)
      mat [[0, C, 0], [C, 0, -S], [0, -S, 0]])
    (fun _ _ => 0) fun _ => 1

/-! ### Lemmas -/

section mk
variable {B : List ℕ} {N : ℕ} {A : List ℕ → ℕ → ℕ → ℂ} {b : List ℕ → ℕ → ℂ} {c : List ℕ → ℂ}

theorem mk_wf : (mk B N A b c).WF := ⟨by simp [mk], by simp [mk]⟩
theorem mk_numCV : (mk B N A b c).numCV = N := by simp [mk, PolyExp.numCV]
theorem mk_outBatch : (mk B N A b c).outBatch = B := by simp [mk, PolyExp.outBatch]
theorem mk_lsBatch : (mk B N A b c).lsBatch = [] := by simp [mk, PolyExp.lsBatch]
theorem mk_derived : (mk B N A b c).derived = [] := rfl

theorem mk_term (β : List ℕ) (z : ℕ → ℂ) : (mk B N A b c).termAt β z =
    Complex.exp (1 / 2 * ∑ i ∈ Finset.range N, ∑ j ∈ Finset.range N, z i * z j * A β i j + ∑ i ∈ Finset.range N, z i * b β i) * c β := by
  unfold PolyExp.termAt termVal
  rw [mk_numCV, mk_derived, nsum_nil]
  have e : toF [] = 0 := by ext i; simp [toF]
  rw [e, amp_zero, mul_one]
  rfl

theorem mk_call (β : List ℕ) (z : ℕ → ℂ) : (mk B N A b c).call β z =
    Complex.exp (1 / 2 * ∑ i ∈ Finset.range N, ∑ j ∈ Finset.range N, z i * z j * A β i j + ∑ i ∈ Finset.range N, z i * b β i) * c β := by
  unfold PolyExp.call
  rw [if_neg (by simp [mk]), mk_term]

theorem mk_symm (h : ∀ β, ∀ i < N, ∀ j < N, A β i j = A β j i) : SymAll (mk B N A b c) := fun β i hi j hj => h β i hi j hj

end mk

end Verif.Triples
