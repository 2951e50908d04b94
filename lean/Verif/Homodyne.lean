import Verif.Effects
import Verif.ChannelAct
import Verif.TriplesFock
import Mathlib.LinearAlgebra.Matrix.SchurComplement

/-!
# The map to the quadrature basis, and homodyne statistics (C85)

Model of `bargmann_to_quadrature_Abc`, of `BtoQ` and of the two contractions in `to_quadrature`; `quadrature_distribution` of a Gaussian state.
-/

namespace Verif.Manifold
open Matrix Verif.Gauss MeasureTheory
open scoped ComplexOrder MatrixOrder

variable {n : Type*} [Fintype n] [DecidableEq n]

/-! ## Model -/

/-- physics/triples.py:785 of `bargmann_to_quadrature_Abc`: `e = exp(-iφ + iπ/2)`. -/
noncomputable def bqE (φ : ℝ) : ℂ := Complex.exp (-Complex.I * φ + Complex.I * Real.pi / 2)

/-- physics/triples.py:786-800 of `bargmann_to_quadrature_Abc`, the matrix `A`, for one batch element; the variables are those of the
out_ket wires (the quadrature) followed by those of the in_ket wires.  `math.kron(M, Id)` is written as a block matrix. -/
noncomputable def bqA (n : Type*) [Fintype n] [DecidableEq n] (ħ φ : ℝ) : Matrix (n ⊕ n) (n ⊕ n) ℂ :=
  fromBlocks ((-1 / ħ : ℂ) • 1) ((-Complex.I * bqE φ * (Real.sqrt (2 / ħ) : ℝ)) • 1) ((-Complex.I * bqE φ * (Real.sqrt (2 / ħ) : ℝ)) • 1)
    ((bqE φ * bqE φ) • 1)

/-- physics/triples.py:803 of `bargmann_to_quadrature_Abc`, the constant. -/
noncomputable def bqC (ħ : ℝ) (N : ℕ) : ℂ := 1 / (((Real.pi * ħ) ^ (0.25 * (N : ℝ)) : ℝ) : ℂ)

/-- lab/circuit_components_utils/b_to_q.py:60-73 `BtoQ`: the function of the triple (the vector `b` is zero, physics/triples.py:802). -/
noncomputable def btoq (ħ φ : ℝ) (q : n → ℝ) (z : n → ℂ) : ℂ :=
  bqC ħ (Fintype.card n) * Complex.exp (1 / 2 * (Sum.elim (fun i => (q i : ℂ)) z ⬝ᵥ (bqA n ħ φ).mulVec (Sum.elim (fun i => (q i : ℂ)) z)))

/-- lab/circuit_components.py:755 `BtoQ(...).adjoint`: the function of the conjugated triple. -/
noncomputable def btoqAdj (ħ φ : ℝ) (q : n → ℝ) (z : n → ℂ) : ℂ :=
  (starRingEnd ℂ) (bqC ħ (Fintype.card n)) *
    Complex.exp (1 / 2 * (Sum.elim (fun i => (q i : ℂ)) z ⬝ᵥ (cj (bqA n ħ φ)).mulVec (Sum.elim (fun i => (q i : ℂ)) z)))

/-- lab/circuit_components.py:755-767 `to_quadrature` for a density matrix: contraction with `BtoQ` on the ket wires and with its adjoint on the bra
wires (contractions are Gaussian integrals over the matched pairs of variables); `ρ z w` is the Bargmann function at (ket, bra). -/
noncomputable def quadRep (ħ φ : ℝ) (ρ : (n → ℂ) → (n → ℂ) → ℂ) (qbra qket : n → ℝ) : ℂ :=
  ((Real.pi : ℂ) ^ Fintype.card n)⁻¹ * ∫ t : n → ℂ, (((Real.pi : ℂ) ^ Fintype.card n)⁻¹ * ∫ u : n → ℂ,
    btoq ħ φ qket u * ρ (star u) (star t) * Complex.exp (-∑ i, (‖u i‖ : ℂ) ^ 2)) * btoqAdj ħ φ qbra t * Complex.exp (-∑ i, (‖t i‖ : ℂ) ^ 2)

/-- lab/circuit_components.py:755-767 `to_quadrature` for a ket. -/
noncomputable def quadKet (ħ φ : ℝ) (ψ : (n → ℂ) → ℂ) (q : n → ℝ) : ℂ :=
  ((Real.pi : ℂ) ^ Fintype.card n)⁻¹ * ∫ u : n → ℂ, btoq ħ φ q u * ψ (star u) * Complex.exp (-∑ i, (‖u i‖ : ℂ) ^ 2)

/-- lab/states/base.py:539-558 `quadrature_distribution`, a density matrix: the modulus of the diagonal of the quadrature representation
(lab/circuit_components.py:576-635 `quadrature` passes the same points to the ket and bra wire of each mode). -/
noncomputable def quadDist (ħ φ : ℝ) (ρ : (n → ℂ) → (n → ℂ) → ℂ) (q : n → ℝ) : ℝ := ‖quadRep ħ φ ρ q q‖

/-- lab/states/base.py:539-558 `quadrature_distribution`, a ket. -/
noncomputable def quadDistKet (ħ φ : ℝ) (ψ : (n → ℂ) → ℂ) (q : n → ℝ) : ℝ := ‖quadKet ħ φ ψ q‖ ^ 2

/-! ## Specification -/

/-- The rotated quadratures `cos φ · x_j + sin φ · p_j`, as a linear map of phase space. -/
noncomputable def quadU (n : Type*) [DecidableEq n] (φ : ℝ) : Matrix n (n ⊕ n) ℝ :=
  Matrix.of fun i r => Sum.elim (fun j => if i = j then Real.cos φ else 0) (fun j => if i = j then Real.sin φ else 0) r

/-- The multivariate normal density. -/
noncomputable def normalPdf {κ : Type*} [Fintype κ] [DecidableEq κ] (V : Matrix κ κ ℝ) (μ x : κ → ℝ) : ℝ :=
  (Real.sqrt ((2 * Real.pi) ^ Fintype.card κ * V.det))⁻¹ * Real.exp (-(1 / 2) * ((x - μ) ⬝ᵥ V⁻¹.mulVec (x - μ)))

/-! ## Proofs -/

theorem bqE_facts (φ : ℝ) : -Complex.I * bqE φ = Complex.exp (-(Complex.I * φ)) ∧ bqE φ * bqE φ = -Complex.exp (-(Complex.I * φ)) ^ 2 := by
  have h : bqE φ = Complex.exp (-(Complex.I * φ)) * Complex.I := by
    unfold bqE
    rw [Complex.exp_add, neg_mul, show Complex.I * (Real.pi : ℂ) / 2 = (Real.pi : ℂ) / 2 * Complex.I by ring, Complex.exp_pi_div_two_mul_I]
  rw [h]
  constructor
  · linear_combination (-Complex.exp (-(Complex.I * φ))) * Complex.I_mul_I
  · linear_combination (Complex.exp (-(Complex.I * φ)) ^ 2) * Complex.I_mul_I

/-- The kernel `⟨q_φ|z⟩`. -/
theorem btoq_eq (ħ φ : ℝ) (q : n → ℝ) (z : n → ℂ) :
    btoq ħ φ q z = bqC ħ (Fintype.card n) * Complex.exp (-(∑ i, (q i : ℂ) ^ 2) / (2 * ħ) +
      (Real.sqrt (2 / ħ) : ℝ) * Complex.exp (-(Complex.I * φ)) * (∑ i, q i * z i) - 1 / 2 * Complex.exp (-(Complex.I * φ)) ^ 2 * ∑ i, z i ^ 2) := by
  unfold btoq bqA
  obtain ⟨h1, h2⟩ := bqE_facts φ
  rw [h1, h2, fromBlocks_mulVec, sumElim_dotProduct_sumElim]
  refine congrArg (HMul.hMul _) (congrArg Complex.exp ?_)
  simp only [Sum.elim_comp_inl, Sum.elim_comp_inr, Matrix.smul_mulVec, Matrix.one_mulVec, dotProduct_add, dotProduct_smul, smul_eq_mul]
  have e1 : (fun i => (q i : ℂ)) ⬝ᵥ (fun i => (q i : ℂ)) = ∑ i, (q i : ℂ) ^ 2 := Finset.sum_congr rfl fun i _ => (sq _).symm
  have e2 : (fun i => (q i : ℂ)) ⬝ᵥ z = ∑ i, q i * z i := rfl
  have e3 : z ⬝ᵥ z = ∑ i, z i ^ 2 := Finset.sum_congr rfl fun i _ => (sq _).symm
  rw [dotProduct_comm z, e1, e2, e3]
  ring

theorem bqC_conj (ħ : ℝ) (N : ℕ) : (starRingEnd ℂ) (bqC ħ N) = bqC ħ N := by
  unfold bqC; rw [map_div₀, map_one, Complex.conj_ofReal]

/-- The adjoint kernel. -/
theorem btoqAdj_eq (ħ φ : ℝ) (q : n → ℝ) (z : n → ℂ) : btoqAdj ħ φ q z = (starRingEnd ℂ) (btoq ħ φ q (star z)) := by
  unfold btoqAdj btoq
  rw [map_mul, ← Complex.exp_conj]
  refine congrArg (HMul.hMul _) (congrArg Complex.exp ?_)
  rw [map_mul]
  have h : ∀ (v w : n ⊕ n → ℂ), (starRingEnd ℂ) (v ⬝ᵥ w) = star v ⬝ᵥ star w := fun v w => by
    simp [dotProduct, map_sum]
  rw [h]
  have e1 : star (Sum.elim (fun i => (q i : ℂ)) (star z)) = Sum.elim (fun i => (q i : ℂ)) z := by
    funext r; rcases r with i | i <;> simp
  have e2 : star ((bqA n ħ φ).mulVec (Sum.elim (fun i => (q i : ℂ)) (star z))) = (cj (bqA n ħ φ)).mulVec (Sum.elim (fun i => (q i : ℂ)) z) := by
    rw [← e1]
    funext r
    simp [Matrix.mulVec, dotProduct, map_sum, cj]
  rw [e1, e2]
  simp [Complex.conj_ofNat]

theorem rotH_elim (w z : n → ℂ) : (rotmat n)ᴴ.mulVec (Sum.elim w z) =
    Sum.elim (fun i => ((Real.sqrt (1 / 2) : ℝ) : ℂ) * (w i + z i)) (fun i => ((Real.sqrt (1 / 2) : ℝ) : ℂ) * (Complex.I * (z i - w i))) := by
  rw [rotmat_conjT, Matrix.smul_mulVec, fromBlocks_mulVec]
  funext r
  rcases r with i | i
  · simp
  · simp [Matrix.smul_mulVec, Matrix.neg_mulVec]
    ring_nf

theorem quadU_mulVec (φ : ℝ) (x : n ⊕ n → ℝ) (i : n) : (quadU n φ).mulVec x i = Real.cos φ * x (.inl i) + Real.sin φ * x (.inr i) := by
  simp [quadU, Matrix.mulVec, dotProduct, Fintype.sum_sum_type]

theorem quadU_mulVecC (φ : ℝ) (x : n ⊕ n → ℂ) (i : n) : (toC (quadU n φ)).mulVec x i = Real.cos φ * x (.inl i) + Real.sin φ * x (.inr i) := by
  simp [quadU, toC, Matrix.mulVec, dotProduct, Fintype.sum_sum_type, apply_ite Complex.ofReal]

/-- The rows of `U` are orthonormal. -/
theorem quadU_mul (φ : ℝ) : quadU n φ * (quadU n φ)ᵀ = 1 := by
  ext i j
  rw [Matrix.mul_apply, Fintype.sum_sum_type]
  simp only [quadU, Matrix.of_apply, Sum.elim_inl, Sum.elim_inr, Matrix.transpose_apply]
  simp only [mul_ite, ite_mul, zero_mul, mul_zero, Finset.sum_ite_eq, Finset.mem_univ, if_true]
  by_cases h : i = j
  · subst h
    simp only [if_true, Matrix.one_apply_eq]
    have := Real.cos_sq_add_sin_sq φ
    linarith [this, sq (Real.cos φ), sq (Real.sin φ)]
  · have h' : ¬ j = i := fun e => h e.symm
    simp [h, h']

/-- The operator measured: `|q_φ⟩⟨q_φ|`. -/
theorem quad_effect {ħ : ℝ} (hħ : 0 < ħ) (φ : ℝ) (q : n → ℝ) (z w : n → ℂ) :
    btoq ħ φ q w * btoqAdj ħ φ q z =
      effect ((2 : ℝ) • ((quadU n φ)ᵀ * quadU n φ)) ((quadU n φ)ᵀ.mulVec fun i => q i / Real.sqrt ħ) (bqC ħ (Fintype.card n) ^ 2) z w := by
  have hT : ((2 : ℝ) • ((quadU n φ)ᵀ * quadU n φ))ᵀ = (2 : ℝ) • ((quadU n φ)ᵀ * quadU n φ) := by
    rw [transpose_smul, transpose_mul, transpose_transpose]
  rw [effect_eq hT, btoqAdj_eq, btoq_eq, btoq_eq, map_mul, bqC_conj, ← Complex.exp_conj, mul_mul_mul_comm, ← Complex.exp_add, ← sq]
  refine congrArg (HMul.hMul _) (congrArg Complex.exp ?_)
  set ξ := (rotmat n)ᴴ.mulVec (Sum.elim w z) with hξ
  set m : n ⊕ n → ℝ := (quadU n φ)ᵀ.mulVec fun i => q i / Real.sqrt ħ with hm
  have e1 : (ξ - fun r => (m r : ℂ)) ⬝ᵥ (toC ((2 : ℝ) • ((quadU n φ)ᵀ * quadU n φ))).mulVec (ξ - fun r => (m r : ℂ)) =
      2 * ∑ i, ((toC (quadU n φ)).mulVec ξ i - (q i : ℂ) / (Real.sqrt ħ : ℝ)) ^ 2 := by
    have hU : (toC (quadU n φ)).mulVec (ξ - fun r => (m r : ℂ)) = fun i => (toC (quadU n φ)).mulVec ξ i - (q i : ℂ) / (Real.sqrt ħ : ℝ) := by
      rw [Matrix.mulVec_sub, toC_mulVec, hm]
      funext i
      have e : (quadU n φ).mulVec ((quadU n φ)ᵀ.mulVec fun i => q i / Real.sqrt ħ) = fun i => q i / Real.sqrt ħ := by
        rw [Matrix.mulVec_mulVec, quadU_mul, Matrix.one_mulVec]
      rw [Pi.sub_apply, e]
      push_cast
      rfl
    rw [toC_smul, Matrix.smul_mulVec, dotProduct_smul, toC_mul, toC_T, ← Matrix.mulVec_mulVec, Matrix.dotProduct_mulVec, Matrix.vecMul_transpose, hU]
    simp only [dotProduct, smul_eq_mul, ← sq]
    push_cast
    rfl
  have e2 : ξ ⬝ᵥ ξ = 2 * ∑ i, w i * z i := by
    rw [hξ, rotH_elim, sumElim_dotProduct_sumElim]
    simp only [dotProduct, ← Finset.sum_add_distrib, Finset.mul_sum]
    refine Finset.sum_congr rfl fun i _ => ?_
    linear_combination (2 * (w i + z i) ^ 2 / 2 - (z i - w i) ^ 2 - 2 * w i * z i + 2 * w i * z i + (w i + z i) ^ 2 - (w i + z i) ^ 2) * half_sq +
      (((Real.sqrt (1 / 2) : ℝ) : ℂ) * ((Real.sqrt (1 / 2) : ℝ) : ℂ) * (z i - w i) ^ 2) * Complex.I_mul_I
  have hE : Complex.exp (-(Complex.I * φ)) = Real.cos φ - Complex.I * Real.sin φ := by
    rw [show -(Complex.I * (φ : ℂ)) = (-φ : ℂ) * Complex.I by ring, Complex.exp_mul_I, Complex.cos_neg, Complex.sin_neg]
    push_cast
    ring
  have hE' : (starRingEnd ℂ) (Complex.exp (-(Complex.I * φ))) = Real.cos φ + Complex.I * Real.sin φ := by
    rw [hE, map_sub, map_mul, Complex.conj_ofReal, Complex.conj_ofReal, Complex.conj_I]
    ring
  have hEE : Complex.exp (-(Complex.I * φ)) * (starRingEnd ℂ) (Complex.exp (-(Complex.I * φ))) = 1 := by
    rw [hE', hE]
    have h1 : ((Real.cos φ : ℝ) : ℂ) ^ 2 + ((Real.sin φ : ℝ) : ℂ) ^ 2 = 1 := by exact_mod_cast Real.cos_sq_add_sin_sq φ
    linear_combination h1 - ((Real.sin φ : ℝ) : ℂ) ^ 2 * Complex.I_sq
  have hUξ : ∀ i, (toC (quadU n φ)).mulVec ξ i =
      ((Real.sqrt (1 / 2) : ℝ) : ℂ) * (Complex.exp (-(Complex.I * φ)) * w i + (starRingEnd ℂ) (Complex.exp (-(Complex.I * φ))) * z i) := by
    intro i
    rw [quadU_mulVecC, hξ, rotH_elim, hE', hE, Sum.elim_inl, Sum.elim_inr]
    ring
  have hs : ((Real.sqrt (2 / ħ) : ℝ) : ℂ) = 2 * ((Real.sqrt (1 / 2) : ℝ) : ℂ) / ((Real.sqrt ħ : ℝ) : ℂ) := by
    rw [Real.sqrt_div (by norm_num)]
    have : Real.sqrt 2 = 2 * Real.sqrt (1 / 2) := by
      rw [show (2 : ℝ) = 4 * (1 / 2) by norm_num, Real.sqrt_mul (by norm_num), show Real.sqrt 4 = 2 by
        rw [show (4 : ℝ) = 2 ^ 2 by norm_num, Real.sqrt_sq (by norm_num)]]
      norm_num
    rw [this]
    push_cast
    ring
  have hh : ((Real.sqrt ħ : ℝ) : ℂ) ^ 2 = ħ := by exact_mod_cast Real.sq_sqrt hħ.le
  have hs0 : ((Real.sqrt ħ : ℝ) : ℂ) ≠ 0 := by exact_mod_cast (Real.sqrt_pos.2 hħ).ne'
  have hħ0 : (ħ : ℂ) ≠ 0 := by exact_mod_cast hħ.ne'
  rw [e1, e2]
  simp only [hUξ]
  have c1 : (starRingEnd ℂ) (∑ i, q i * star z i) = ∑ i, q i * z i := by
    rw [map_sum]; refine Finset.sum_congr rfl fun i _ => ?_
    simp
  have c2 : (starRingEnd ℂ) (∑ i, (star z i) ^ 2) = ∑ i, z i ^ 2 := by
    rw [map_sum]; refine Finset.sum_congr rfl fun i _ => ?_
    simp
  have c3 : (starRingEnd ℂ) (∑ i, (q i : ℂ) ^ 2) = ∑ i, (q i : ℂ) ^ 2 := by
    rw [map_sum]; refine Finset.sum_congr rfl fun i _ => ?_
    simp
  simp only [map_add, map_sub, map_neg, map_mul, map_div₀, map_pow, map_one, Complex.conj_ofReal, Complex.conj_ofNat, c1, c2, c3]
  rw [hs, ← hh]
  generalize ((Real.sqrt ħ : ℝ) : ℂ) = h at hs0
  have hS := half_sq
  generalize ((Real.sqrt (1 / 2) : ℝ) : ℂ) = S at hS
  generalize (starRingEnd ℂ) (Complex.exp (-(Complex.I * φ))) = F at hEE
  generalize Complex.exp (-(Complex.I * φ)) = E at hEE
  simp only [Finset.mul_sum, neg_div, Finset.sum_div, ← Finset.sum_neg_distrib, ← Finset.sum_add_distrib, ← Finset.sum_sub_distrib]
  refine Finset.sum_congr rfl fun i _ => ?_
  field_simp
  linear_combination (h ^ 2 * ((E * w i + F * z i) ^ 2)) * 2 * hS + (2 * h ^ 2 * (w i * z i)) * hEE

omit [DecidableEq n] in
/-- The quadrature representation is an expectation value. -/
theorem quadRep_trace [DecidableEq n] (ħ φ : ℝ) (ρ : (n → ℂ) → (n → ℂ) → ℂ) (q' q : n → ℝ) :
    quadRep ħ φ ρ q' q = opTr (opMul (fun z w => btoq ħ φ q w * btoqAdj ħ φ q' z) ρ) := by
  unfold quadRep opTr opMul
  refine congrArg (HMul.hMul _) (integral_congr_ae (.of_forall fun t => ?_))
  dsimp only
  refine congrArg (· * _) ?_
  rw [mul_assoc, ← integral_star]
  refine congrArg (HMul.hMul _) ?_
  rw [← integral_mul_const]
  refine integral_congr_ae (.of_forall fun u => ?_)
  dsimp only
  simp only [star_star, Pi.star_apply, norm_star]
  ring

/-- The trace of a product does not depend on the order. -/
theorem trace_swap {A1 A2 : Matrix (n ⊕ n) (n ⊕ n) ℂ} (h1 : A1ᵀ = A1) (h2 : A2ᵀ = A2) (hN : NegRe (fromBlocks A1 (-1) (-1) (Xmat n * A2 * Xmat n)))
    (b1 b2 : n ⊕ n → ℂ) (c1 c2 : ℂ) :
    opTr (opMul (dmFun A2 b2 c2) (dmFun A1 b1 c1)) = opTr (opMul (dmFun A1 b1 c1) (dmFun A2 b2 c2)) := by
  have hX : ∀ (M : Matrix (n ⊕ n) (n ⊕ n) ℂ) (x : n ⊕ n → ℂ),
      x ⬝ᵥ (Xmat n * M * Xmat n).mulVec x = (Xmat n).mulVec x ⬝ᵥ M.mulVec ((Xmat n).mulVec x) := fun M x => by
    rw [← Matrix.mulVec_mulVec, ← Matrix.mulVec_mulVec, Matrix.dotProduct_mulVec, ← Matrix.mulVec_transpose, Xmat_T]
  have hXX : ∀ x : n ⊕ n → ℂ, (Xmat n).mulVec ((Xmat n).mulVec x) = x := fun x => by rw [Matrix.mulVec_mulVec, Xmat_sq, Matrix.one_mulVec]
  have hsX : ∀ x : n ⊕ n → ℂ, star ((Xmat n).mulVec x) = (Xmat n).mulVec (star x) := fun x => by
    rw [← Sum.elim_comp_inl_inr x, Xmat_elim]
    have hst : ∀ a b : n → ℂ, star (Sum.elim a b : n ⊕ n → ℂ) = Sum.elim (star a) (star b) := fun a b => by funext r; rcases r with i | i <;> rfl
    rw [hst, hst, Xmat_elim]
  have hN' : NegRe (fromBlocks A2 (-1) (-1) (Xmat n * A1 * Xmat n)) := by
    intro w hw
    have := hN ((Xmat n).mulVec (star w)) (fun e => hw (by
      have e1 := congrArg (Xmat n).mulVec e
      rw [hXX, Matrix.mulVec_zero] at e1
      exact star_eq_zero.1 e1))
    rw [overlap_quad] at this ⊢
    rw [hX, hsX, star_star, hXX] at this
    rw [hX]
    have e3 : (Xmat n).mulVec (star w) ⬝ᵥ (Xmat n).mulVec w = w ⬝ᵥ star w := by
      rw [dotProduct_comm, Matrix.dotProduct_mulVec, ← Matrix.mulVec_transpose, Xmat_T, hXX]
    rw [e3] at this
    rw [add_comm (w ⬝ᵥ _)]
    exact this
  rw [trace_mul_of h1 h2 hN, trace_mul_of h2 h1 hN', mul_comm c2 c1]
  refine congrArg (HMul.hMul _) (congrArg (HMul.hMul _) ?_)
  have hc : ∀ u, conjPerm (Equiv.sumComm n n) u = (Xmat n).mulVec (star u) := fun u => by
    rw [← hsX, ← Sum.elim_comp_inl_inr u, Xmat_elim]
    funext r
    rw [conjPerm_apply]
    rcases r with i | i <;> rfl
  rw [← (conjPerm_mp (Equiv.sumComm n n)).integral_comp' (fun u : n ⊕ n → ℂ => Complex.exp (1 / 2 * (u ⬝ᵥ A2.mulVec u) + b2 ⬝ᵥ u) * _ * _)]
  refine integral_congr_ae (.of_forall fun u => ?_)
  have nrm : ∑ i, (‖(Xmat n).mulVec (star u) i‖ : ℂ) ^ 2 = ∑ i, (‖u i‖ : ℂ) ^ 2 := by
    rw [← Sum.elim_comp_inl_inr u]
    have hst : star (Sum.elim (u ∘ Sum.inl) (u ∘ Sum.inr) : n ⊕ n → ℂ) = Sum.elim (star (u ∘ Sum.inl)) (star (u ∘ Sum.inr)) := by
      funext r; rcases r with i | i <;> rfl
    rw [hst, Xmat_elim, Fintype.sum_sum_type, Fintype.sum_sum_type, add_comm]
    simp
  dsimp only
  rw [hc, hsX, star_star, nrm, hX A1, hXX, hX A2, Matrix.dotProduct_mulVec b2, ← Matrix.mulVec_transpose, Xmat_T,
    show (Xmat n).mulVec b1 ⬝ᵥ (Xmat n).mulVec u = b1 ⬝ᵥ u by rw [Matrix.dotProduct_mulVec, ← Matrix.mulVec_transpose, Xmat_T, hXX]]
  ring

/-- The rotated quadratures have a positive definite covariance matrix. -/
theorem quadU_posDef {cov : Matrix (n ⊕ n) (n ⊕ n) ℝ} (h : cov.PosDef) (φ : ℝ) : (quadU n φ * cov * (quadU n φ)ᵀ).PosDef := by
  have := h.mul_mul_conjTranspose_same (B := quadU n φ) (fun x y e => by
    have e1 := congrArg (fun v => Matrix.vecMul v (quadU n φ)ᵀ) e
    simpa [Matrix.vecMul_vecMul, quadU_mul] using e1)
  rwa [conjTranspose_eq_transpose_of_trivial] at this

/-- **C85 (homodyne statistics)** The quadrature representation of a Gaussian state on the diagonal, for any number of modes and any angle, is the normal
density with mean `cos φ x̄ + sin φ p̄` and the covariance matrix of the rotated quadratures. -/
theorem quadRep_gauss {ħ : ℝ} (hħ : 0 < ħ) (φ : ℝ) {cov : Matrix (n ⊕ n) (n ⊕ n) ℝ} (h : cov.PosDef) (μ : n ⊕ n → ℝ) (k : ℂ) (q : n → ℝ) :
    quadRep ħ φ (dmFromPhaseSpace ħ cov μ k) q q =
      k * (normalPdf (quadU n φ * cov * (quadU n φ)ᵀ) ((quadU n φ).mulVec μ) q : ℝ) := by
  set U := quadU n φ with hU
  set T : Matrix (n ⊕ n) (n ⊕ n) ℝ := (2 : ℝ) • (Uᵀ * U) with hTd
  have hUU : U * Uᵀ = 1 := quadU_mul φ
  have hT : Tᵀ = T := by rw [hTd, transpose_smul, transpose_mul, transpose_transpose]
  have hTT : (1 - T) * (1 - T) = 1 := by
    have e : T * T = (2 : ℝ) • T := by
      rw [hTd, Matrix.smul_mul, Matrix.mul_smul, show Uᵀ * U * (Uᵀ * U) = Uᵀ * (U * Uᵀ) * U by simp only [Matrix.mul_assoc], hUU, Matrix.mul_one]
    rw [Matrix.mul_sub, Matrix.sub_mul, Matrix.sub_mul, Matrix.mul_one, Matrix.mul_one, Matrix.one_mul, e, two_smul]
    abel
  have hc : ∀ w : n ⊕ n → ℂ, ∑ i, ‖(1 - toC T).mulVec w i‖ ^ 2 ≤ ∑ i, ‖w i‖ ^ 2 := fun w => by
    refine (norm_iso ?_ w).le
    rw [show (1 - toC T) = toC (1 - T) by rw [toC_sub, toC_one], toC_conjT, ← toC_mul, transpose_sub, hT, transpose_one, hTT, toC_one]
  have hG := quadU_posDef h φ
  rw [← hU] at hG
  set G := U * cov * Uᵀ with hGd
  have hS : 1 + (2 : ℝ) • (U * (vac ħ cov - 1) * Uᵀ) = (2 / ħ) • G := by
    have h2 := vac_two hħ cov
    have e0 : (2 / ħ) • G = U * ((2 / ħ) • cov) * Uᵀ := by rw [hGd, Matrix.mul_smul, Matrix.smul_mul]
    rw [e0, ← h2]
    simp only [Matrix.mul_sub, Matrix.sub_mul, Matrix.mul_add, Matrix.add_mul, Matrix.mul_one, hUU, two_smul]
    abel
  obtain ⟨iS, jS⟩ := posDef_mul_inv hG
  have iS' : (2 / ħ) • G * ((ħ / 2) • G⁻¹) = 1 := by
    rw [Matrix.smul_mul, Matrix.mul_smul, smul_smul, iS, show 2 / ħ * (ħ / 2) = 1 by field_simp, one_smul]
  set S := (2 / ħ) • G with hSd
  set S' := (ħ / 2) • G⁻¹ with hSd'
  set v := vac ħ cov with hv
  have jS' : S' * S = 1 := mul_eq_one_comm.mp iS'
  set H : Matrix (n ⊕ n) (n ⊕ n) ℝ := 1 - (2 : ℝ) • (Uᵀ * S' * U * (v - 1)) with hHd
  have hH : (1 + T * (v - 1)) * H = 1 := by
    have e1 : (2 : ℝ) • (U * (v - 1) * Uᵀ) * S' = 1 - S' := by
      rw [show (2 : ℝ) • (U * (v - 1) * Uᵀ) = S - 1 by rw [← hS]; abel, Matrix.sub_mul, iS', Matrix.one_mul]
    have e2 : T * (v - 1) * ((2 : ℝ) • (Uᵀ * S' * U * (v - 1))) = (2 : ℝ) • (Uᵀ * (((2 : ℝ) • (U * (v - 1) * Uᵀ)) * S') * U * (v - 1)) := by
      rw [hTd]
      simp only [Matrix.smul_mul, Matrix.mul_smul, Matrix.mul_assoc]
    rw [hHd, Matrix.add_mul, Matrix.one_mul, Matrix.mul_sub (T * (v - 1)) 1, Matrix.mul_one, e2, e1, hTd]
    simp only [Matrix.mul_sub, Matrix.sub_mul, Matrix.mul_one, smul_sub, Matrix.smul_mul]
    abel
  have hHT : H * T = (2 : ℝ) • (Uᵀ * S' * U) := by
    have e1 : S' * ((2 : ℝ) • (U * (v - 1) * Uᵀ)) = 1 - S' := by
      rw [show (2 : ℝ) • (U * (v - 1) * Uᵀ) = S - 1 by rw [← hS]; abel, Matrix.mul_sub, jS', Matrix.mul_one]
    have e2 : (2 : ℝ) • (Uᵀ * S' * U * (v - 1)) * T = (2 : ℝ) • (Uᵀ * (S' * ((2 : ℝ) • (U * (v - 1) * Uᵀ))) * U) := by
      rw [hTd]
      simp only [Matrix.smul_mul, Matrix.mul_smul, Matrix.mul_assoc]
    rw [hHd, Matrix.sub_mul, Matrix.one_mul, e2, e1, hTd]
    simp only [Matrix.mul_sub, Matrix.sub_mul, Matrix.mul_one, smul_sub]
    abel
  have hdet : (1 + T * (v - 1)).det = (2 / ħ) ^ Fintype.card n * G.det := by
    have e : T * (v - 1) = Uᵀ * ((2 : ℝ) • (U * (v - 1))) := by
      rw [hTd, Matrix.smul_mul, Matrix.mul_smul, Matrix.mul_assoc]
    rw [e, Matrix.det_one_add_mul_comm, Matrix.smul_mul, hS, hSd, det_smul]
  have hd : 0 < (1 + T * (v - 1)).det := by rw [hdet]; exact mul_pos (by positivity) hG.det_pos
  have key := effect_overlap hħ h μ k hT hc hH hd (Uᵀ.mulVec fun i => q i / Real.sqrt ħ) (bqC ħ (Fintype.card n) ^ 2)
  -- order of the product
  have hsw : opTr (opMul (effect T (Uᵀ.mulVec fun i => q i / Real.sqrt ħ) (bqC ħ (Fintype.card n) ^ 2)) (dmFromPhaseSpace ħ cov μ k)) =
      opTr (opMul (dmFromPhaseSpace ħ cov μ k) (effect T (Uᵀ.mulVec fun i => q i / Real.sqrt ħ) (bqC ħ (Fintype.card n) ^ 2))) := by
    rw [show dmFromPhaseSpace ħ cov μ k = _ from funext fun z => funext fun w => dm_dmFun cov μ k z w]
    refine trace_swap (rhoA_herm hħ (cov_vac_posDef hħ h)).1 (effect_T hT).1 ?_ _ _ _ _
    rw [effect_X]
    obtain ⟨-, -, u3⟩ := cj_rot_unitary (n := n)
    refine overlap_negRe' (shrinks_rhoA hħ h).1 fun w => ?_
    rw [← Matrix.mulVec_mulVec, ← Matrix.mulVec_mulVec, norm_iso rotmat_mul', ← norm_iso u3 w]
    exact hc _
  rw [quadRep_trace, show (fun z w => btoq ħ φ q w * btoqAdj ħ φ q z) = _ from funext fun z => funext fun w => quad_effect hħ φ q z w, hsw, key, hHT, hdet]
  -- constants
  have hsq : 0 < Real.sqrt ħ := Real.sqrt_pos.2 hħ
  have hexp : (mean ħ μ - Uᵀ.mulVec fun i => q i / Real.sqrt ħ) ⬝ᵥ ((2 : ℝ) • (Uᵀ * S' * U)).mulVec (mean ħ μ - Uᵀ.mulVec fun i => q i / Real.sqrt ħ) =
      (q - U.mulVec μ) ⬝ᵥ G⁻¹.mulVec (q - U.mulVec μ) := by
    have hUm : U.mulVec (mean ħ μ - Uᵀ.mulVec fun i => q i / Real.sqrt ħ) = (-(Real.sqrt ħ)⁻¹) • (q - U.mulVec μ) := by
      rw [Matrix.mulVec_sub, Matrix.mulVec_mulVec, hUU, Matrix.one_mulVec,
        show mean ħ μ = (Real.sqrt ħ)⁻¹ • μ from funext fun r => by simp [mean, div_eq_inv_mul], Matrix.mulVec_smul]
      funext i
      simp only [Pi.sub_apply, Pi.smul_apply, smul_eq_mul]
      ring
    rw [Matrix.smul_mulVec, dotProduct_smul, ← Matrix.mulVec_mulVec, ← Matrix.mulVec_mulVec, Matrix.dotProduct_mulVec, Matrix.vecMul_transpose, hUm, hSd',
      Matrix.smul_mulVec, Matrix.mulVec_smul, dotProduct_smul, dotProduct_smul, smul_dotProduct]
    simp only [smul_eq_mul]
    have : 2 * (ħ / 2 * (-(Real.sqrt ħ)⁻¹ * -(Real.sqrt ħ)⁻¹)) = 1 := by
      rw [neg_mul_neg, ← mul_inv, Real.mul_self_sqrt hħ.le]
      field_simp
    linear_combination ((q - U.mulVec μ) ⬝ᵥ G⁻¹.mulVec (q - U.mulVec μ)) * this
  have hcst : bqC ħ (Fintype.card n) ^ 2 * (((Real.sqrt ((2 / ħ) ^ Fintype.card n * G.det))⁻¹ : ℝ) : ℂ) =
      (((Real.sqrt ((2 * Real.pi) ^ Fintype.card n * G.det))⁻¹ : ℝ) : ℂ) := by
    have hb : bqC ħ (Fintype.card n) ^ 2 = (((Real.sqrt ((Real.pi * ħ) ^ Fintype.card n))⁻¹ : ℝ) : ℂ) := by
      unfold bqC
      rw [div_pow, one_pow, ← Complex.ofReal_pow, ← Real.rpow_natCast, ← Real.rpow_mul (by positivity), Real.sqrt_eq_rpow, ← Real.rpow_natCast,
        ← Real.rpow_mul (by positivity), one_div, ← Complex.ofReal_inv]
      congr 3
      push_cast
      ring
    rw [hb, ← Complex.ofReal_mul, ← mul_inv, ← Real.sqrt_mul (by positivity), ← mul_assoc, ← mul_pow]
    congr 5
    field_simp
  unfold normalPdf
  rw [hexp, mul_assoc, Complex.ofReal_mul, ← mul_assoc (bqC ħ _ ^ 2), hcst, ← Complex.ofReal_mul]

end Verif.Manifold
