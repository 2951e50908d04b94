import Verif.BargmannUnit
import Verif.GaussMoments
import Verif.GaussSymm
import Mathlib.Analysis.Matrix.PosDef
import Mathlib.Algebra.Order.Star.Real

/-!
# States from phase space: covariance matrix and means (C65)

`pq_to_aadag`, `wigner_to_husimi` (physics/husimi.py), `cayley`, `wigner_to_bargmann_rho`, `wigner_to_bargmann_psi`
(physics/bargmann_utils.py), `DM.from_phase_space` and `Ket.from_phase_space`.  The modes are indexed by a finite type `n`, phase
space by `n ⊕ n` (first the `q`s, then the `p`s).  `ħ` is `settings.HBAR`.  The shape check and the rejection of batched input are
not modelled.
-/

namespace Verif.Manifold
open Matrix Verif.Gauss MeasureTheory

variable {n : Type*} [Fintype n] [DecidableEq n]

/-! ## Model -/

/-- math/backend_manager.py `Xmat`. -/
def Xmat (n : Type*) [DecidableEq n] : Matrix (n ⊕ n) (n ⊕ n) ℂ := fromBlocks 0 1 1 0

/-- physics/husimi.py:22-30 `pq_to_aadag` of a matrix. -/
noncomputable def pqMat (ħ : ℝ) (M : Matrix (n ⊕ n) (n ⊕ n) ℝ) : Matrix (n ⊕ n) (n ⊕ n) ℂ :=
  rotmat n * toC (M.map (· / ħ)) * (rotmat n)ᴴ

/-- physics/husimi.py:22-30 `pq_to_aadag` of a vector. -/
noncomputable def pqVec (ħ : ℝ) (m : n ⊕ n → ℝ) : n ⊕ n → ℂ := (rotmat n).mulVec fun r => ((m r / Real.sqrt ħ : ℝ) : ℂ)

/-- physics/husimi.py:33-39 `wigner_to_husimi`, the matrix. -/
noncomputable def husimiQ (ħ : ℝ) (cov : Matrix (n ⊕ n) (n ⊕ n) ℝ) : Matrix (n ⊕ n) (n ⊕ n) ℂ :=
  pqMat ħ cov + (1 / 2 : ℂ) • 1

/-- physics/bargmann_utils.py:65-77 `cayley`; `math.solve(a, b)` is `a⁻¹ * b`. -/
noncomputable def cayley (X : Matrix (n ⊕ n) (n ⊕ n) ℂ) (c : ℂ) : Matrix (n ⊕ n) (n ⊕ n) ℂ := (X + c • 1)⁻¹ * (X - c • 1)

/-- physics/bargmann_utils.py:88 `A` of `wigner_to_bargmann_rho`. -/
noncomputable def rhoA (ħ : ℝ) (cov : Matrix (n ⊕ n) (n ⊕ n) ℝ) : Matrix (n ⊕ n) (n ⊕ n) ℂ :=
  Xmat n * cayley (pqMat ħ cov) (1 / 2)

/-- physics/bargmann_utils.py:89-91 `B` of `wigner_to_bargmann_rho`. -/
noncomputable def rhoB (ħ : ℝ) (cov : Matrix (n ⊕ n) (n ⊕ n) ℝ) (μ : n ⊕ n → ℝ) : n ⊕ n → ℂ :=
  star ((husimiQ ħ cov)⁻¹.mulVec (pqVec ħ μ))

/-- physics/bargmann_utils.py:92-95 `C` of `wigner_to_bargmann_rho`. -/
noncomputable def rhoC (ħ : ℝ) (cov : Matrix (n ⊕ n) (n ⊕ n) ℝ) (μ : n ⊕ n → ℝ) : ℂ :=
  let b := (husimiQ ħ cov)⁻¹.mulVec (pqVec ħ μ)
  Complex.exp (-(1 / 2) * ∑ r, (starRingEnd ℂ) (pqVec ħ μ r) * b r) / (husimiQ ħ cov).det ^ (1 / 2 : ℂ)

/-- lab/states/dm.py:144-190 `DM.from_phase_space`: the Bargmann function of the density matrix at the ket variables `z` and the
bra variables `w`; the wires of a density matrix are ordered bra, ket (lab/states/dm.py:140). -/
noncomputable def dmFromPhaseSpace (ħ : ℝ) (cov : Matrix (n ⊕ n) (n ⊕ n) ℝ) (μ : n ⊕ n → ℝ) (coeff : ℂ) (z w : n → ℂ) : ℂ :=
  coeff * (rhoC ħ cov μ * Complex.exp (1 / 2 * (Sum.elim w z ⬝ᵥ (rhoA ħ cov).mulVec (Sum.elim w z)) + rhoB ħ cov μ ⬝ᵥ Sum.elim w z))

/-- physics/bargmann_utils.py:99-105 `wigner_to_bargmann_psi` and lab/states/ket.py:150-174 `Ket.from_phase_space` without the
purity check. -/
noncomputable def ketFromPhaseSpace (ħ : ℝ) (cov : Matrix (n ⊕ n) (n ⊕ n) ℝ) (μ : n ⊕ n → ℝ) (coeff : ℂ) (z : n → ℂ) : ℂ :=
  coeff * (rhoC ħ cov μ ^ (1 / 2 : ℂ) * Complex.exp (1 / 2 * (z ⬝ᵥ (rhoA ħ cov).toBlocks₂₂.mulVec z) + (rhoB ħ cov μ ∘ Sum.inr) ⬝ᵥ z))

/-! ## Specification -/

/-- The trace of an operator given by its Bargmann function at (output, input). -/
noncomputable def opTr (G : (n → ℂ) → (n → ℂ) → ℂ) : ℂ :=
  ((Real.pi : ℂ) ^ Fintype.card n)⁻¹ * ∫ u : n → ℂ, G u (star u) * Complex.exp (-∑ i, (‖u i‖ : ℂ) ^ 2)

/-- The symplectic form: the commutator of two quadratures is `i ħ Ω`. -/
def symForm (n : Type*) [DecidableEq n] : Matrix (n ⊕ n) (n ⊕ n) ℝ := fromBlocks 0 1 (-1) 0

/-! ## Proofs -/

/-- The covariance matrix of the Husimi function, in units of `ħ`. -/
noncomputable def vac (ħ : ℝ) (cov : Matrix (n ⊕ n) (n ⊕ n) ℝ) : Matrix (n ⊕ n) (n ⊕ n) ℝ := ħ⁻¹ • (cov + (ħ / 2) • 1)

theorem vac_pos {ħ : ℝ} (hħ : 0 < ħ) {cov : Matrix (n ⊕ n) (n ⊕ n) ℝ} (h : (cov + (ħ / 2) • 1).PosDef) : (vac ħ cov).PosDef :=
  h.smul (inv_pos.2 hħ)

theorem vac_eq {ħ : ℝ} (hħ : 0 < ħ) (cov : Matrix (n ⊕ n) (n ⊕ n) ℝ) : vac ħ cov = cov.map (· / ħ) + (1 / 2 : ℝ) • 1 := by
  unfold vac
  rw [smul_add, smul_smul]
  congr 1
  · ext i j; simp [div_eq_inv_mul]
  · congr 1; field_simp

theorem toC_add {p q : Type*} (M N : Matrix p q ℝ) : toC (M + N) = toC M + toC N := by ext; simp [toC]
theorem toC_smul {p q : Type*} (a : ℝ) (M : Matrix p q ℝ) : toC (a • M) = (a : ℂ) • toC M := by ext; simp [toC]
theorem toC_one {p : Type*} [DecidableEq p] : toC (1 : Matrix p p ℝ) = 1 := Matrix.map_one _ Complex.ofReal_zero Complex.ofReal_one
theorem toC_mul {p q r : Type*} [Fintype q] (M : Matrix p q ℝ) (N : Matrix q r ℝ) : toC (M * N) = toC M * toC N :=
  Matrix.map_mul (f := Complex.ofRealHom)
theorem toC_mulVec {p q : Type*} [Fintype q] (M : Matrix p q ℝ) (v : q → ℝ) :
    (toC M).mulVec (fun i => (v i : ℂ)) = fun i => ((M.mulVec v i : ℝ) : ℂ) := by
  ext i; simp [toC, mulVec, dotProduct]
theorem toC_det {p : Type*} [Fintype p] [DecidableEq p] (M : Matrix p p ℝ) : (toC M).det = (M.det : ℂ) :=
  (RingHom.map_det Complex.ofRealHom M).symm

theorem husimiQ_eq {ħ : ℝ} (hħ : 0 < ħ) (cov : Matrix (n ⊕ n) (n ⊕ n) ℝ) :
    husimiQ ħ cov = rotmat n * toC (vac ħ cov) * (rotmat n)ᴴ := by
  unfold husimiQ pqMat
  rw [vac_eq hħ, toC_add, toC_smul, toC_one, Matrix.mul_add, Matrix.add_mul, Matrix.mul_smul, Matrix.mul_one, Matrix.smul_mul, rotmat_mul]
  norm_num

theorem posDef_inv {V : Matrix (n ⊕ n) (n ⊕ n) ℝ} (hV : V.PosDef) : V * V⁻¹ = 1 ∧ V⁻¹ * V = 1 := by
  have hu := (Matrix.isUnit_iff_isUnit_det _).1 hV.isUnit
  exact ⟨mul_nonsing_inv _ hu, nonsing_inv_mul _ hu⟩

theorem rot_inv {V W : Matrix (n ⊕ n) (n ⊕ n) ℝ} (h : V * W = 1) :
    (rotmat n * toC V * (rotmat n)ᴴ)⁻¹ = rotmat n * toC W * (rotmat n)ᴴ := by
  refine inv_eq_right_inv ?_
  calc _ = rotmat n * toC V * ((rotmat n)ᴴ * rotmat n) * toC W * (rotmat n)ᴴ := by simp only [Matrix.mul_assoc]
    _ = rotmat n * toC (V * W) * (rotmat n)ᴴ := by rw [rotmat_mul', Matrix.mul_one, Matrix.mul_assoc (rotmat n), toC_mul]
    _ = 1 := by rw [h, toC_one, Matrix.mul_one, rotmat_mul]

theorem husimiQ_inv {ħ : ℝ} (hħ : 0 < ħ) {cov : Matrix (n ⊕ n) (n ⊕ n) ℝ} (h : (cov + (ħ / 2) • 1).PosDef) :
    (husimiQ ħ cov)⁻¹ = rotmat n * toC (vac ħ cov)⁻¹ * (rotmat n)ᴴ ∧ husimiQ ħ cov * (husimiQ ħ cov)⁻¹ = 1 := by
  have hi := posDef_inv (vac_pos hħ h)
  have e : (husimiQ ħ cov)⁻¹ = rotmat n * toC (vac ħ cov)⁻¹ * (rotmat n)ᴴ := by rw [husimiQ_eq hħ, rot_inv hi.1]
  refine ⟨e, ?_⟩
  rw [e, husimiQ_eq hħ]
  calc _ = rotmat n * toC (vac ħ cov) * ((rotmat n)ᴴ * rotmat n) * toC (vac ħ cov)⁻¹ * (rotmat n)ᴴ := by simp only [Matrix.mul_assoc]
    _ = rotmat n * toC (vac ħ cov * (vac ħ cov)⁻¹) * (rotmat n)ᴴ := by rw [rotmat_mul', Matrix.mul_one, Matrix.mul_assoc (rotmat n), toC_mul]
    _ = 1 := by rw [hi.1, toC_one, Matrix.mul_one, rotmat_mul]

theorem Xmat_rot : Xmat n * rotmat n = cj (rotmat n) := by
  unfold Xmat rotmat
  rw [Matrix.mul_smul, fromBlocks_multiply]
  ext i j
  rcases i with i | i <;> rcases j with j | j <;> by_cases h : i = j <;> simp [cj, h]

/-- `A = X (1 - Q⁻¹)`. -/
theorem rhoA_eq {ħ : ℝ} (hħ : 0 < ħ) {cov : Matrix (n ⊕ n) (n ⊕ n) ℝ} (h : (cov + (ħ / 2) • 1).PosDef) :
    rhoA ħ cov = Xmat n * (1 - (husimiQ ħ cov)⁻¹) := by
  unfold rhoA cayley
  have e : pqMat ħ cov - (1 / 2 : ℂ) • 1 = husimiQ ħ cov - 1 := by
    unfold husimiQ
    have : (1 : Matrix (n ⊕ n) (n ⊕ n) ℂ) = (1 / 2 : ℂ) • 1 + (1 / 2 : ℂ) • 1 := by rw [← add_smul]; norm_num
    generalize (1 / 2 : ℂ) • (1 : Matrix (n ⊕ n) (n ⊕ n) ℂ) = e at *
    rw [this]
    abel
  rw [e]
  refine congrArg _ ?_
  show (husimiQ ħ cov)⁻¹ * (husimiQ ħ cov - 1) = _
  rw [Matrix.mul_sub, Matrix.mul_one, mul_eq_one_comm.1 (husimiQ_inv hħ h).2]

/-- The mean in units of `√ħ`. -/
noncomputable def mean (ħ : ℝ) (μ : n ⊕ n → ℝ) : n ⊕ n → ℝ := fun r => μ r / Real.sqrt ħ

/-- The Husimi function, extended to complex phase space points. -/
noncomputable def hus (V : Matrix (n ⊕ n) (n ⊕ n) ℝ) (m : n ⊕ n → ℝ) (ξ : n ⊕ n → ℂ) : ℂ :=
  ((Real.sqrt V.det)⁻¹ : ℝ) * Complex.exp (-(1 / 2) * ((ξ - fun r => (m r : ℂ)) ⬝ᵥ (toC V⁻¹).mulVec (ξ - fun r => (m r : ℂ))))

theorem dot_rot (x y : n ⊕ n → ℂ) : (cj (rotmat n)).mulVec x ⬝ᵥ y = x ⬝ᵥ (rotmat n)ᴴ.mulVec y := by
  rw [Matrix.dotProduct_mulVec, ← Matrix.mulVec_transpose, conjT_transpose]

theorem symm_dot {p : Type*} [Fintype p] {M : Matrix p p ℂ} (hM : Mᵀ = M) (x y : p → ℂ) : x ⬝ᵥ M.mulVec y = y ⬝ᵥ M.mulVec x := by
  rw [Matrix.dotProduct_mulVec, ← Matrix.mulVec_transpose, hM, dotProduct_comm]

theorem posDef_symm {V : Matrix (n ⊕ n) (n ⊕ n) ℝ} (hV : V.PosDef) : (toC V)ᵀ = toC V ∧ (toC V⁻¹)ᵀ = toC V⁻¹ := by
  have h1 := hV.isHermitian
  have h2 := hV.isHermitian.inv
  unfold IsHermitian at h1 h2
  rw [conjTranspose_eq_transpose_of_trivial] at h1 h2
  constructor
  · unfold toC; rw [← Matrix.transpose_map, h1]
  · unfold toC; rw [← Matrix.transpose_map, h2]

/-- The density matrix in phase space coordinates `ξ = R†(w, z)`. -/
theorem dm_rot {ħ : ℝ} (hħ : 0 < ħ) {cov : Matrix (n ⊕ n) (n ⊕ n) ℝ} (h : (cov + (ħ / 2) • 1).PosDef) (μ : n ⊕ n → ℝ) (coeff : ℂ)
    (z w : n → ℂ) :
    dmFromPhaseSpace ħ cov μ coeff z w = coeff * hus (vac ħ cov) (mean ħ μ) ((rotmat n)ᴴ.mulVec (Sum.elim w z)) *
      Complex.exp (1 / 2 * ((rotmat n)ᴴ.mulVec (Sum.elim w z) ⬝ᵥ (rotmat n)ᴴ.mulVec (Sum.elim w z))) := by
  set ξ := (rotmat n)ᴴ.mulVec (Sum.elim w z) with hξ
  have hv : Sum.elim w z = (rotmat n).mulVec ξ := by rw [hξ, Matrix.mulVec_mulVec, rotmat_mul, Matrix.one_mulVec]
  set V := vac ħ cov with hVd
  have hV : V.PosDef := vac_pos hħ h
  obtain ⟨hQ, -⟩ := husimiQ_inv hħ h
  rw [← hVd] at hQ
  set mc : n ⊕ n → ℂ := fun r => (mean ħ μ r : ℂ) with hmc
  have hpq : pqVec ħ μ = (rotmat n).mulVec mc := rfl
  have hb : (husimiQ ħ cov)⁻¹.mulVec (pqVec ħ μ) = (rotmat n).mulVec ((toC V⁻¹).mulVec mc) := by
    rw [hQ, hpq, Matrix.mulVec_mulVec, Matrix.mulVec_mulVec, Matrix.mul_assoc, rotmat_mul', Matrix.mul_one]
  have hreal : star ((toC V⁻¹).mulVec mc) = (toC V⁻¹).mulVec mc := by
    rw [hmc, toC_mulVec]; ext i; simp
  have hB : rhoB ħ cov μ = (cj (rotmat n)).mulVec ((toC V⁻¹).mulVec mc) := by
    unfold rhoB
    rw [hb, Matrix.star_mulVec, hreal, ← cj_transpose', ← Matrix.mulVec_transpose, transpose_transpose]
  have hC : rhoC ħ cov μ = ((Real.sqrt V.det)⁻¹ : ℝ) * Complex.exp (-(1 / 2) * (mc ⬝ᵥ (toC V⁻¹).mulVec mc)) := by
    unfold rhoC
    simp only []
    rw [hb]
    have hsum : ∑ r, (starRingEnd ℂ) (pqVec ħ μ r) * ((rotmat n).mulVec ((toC V⁻¹).mulVec mc)) r = mc ⬝ᵥ (toC V⁻¹).mulVec mc := by
      have : star (pqVec ħ μ) = (cj (rotmat n)).mulVec mc := by
        have hs : star mc = mc := by ext i; simp [hmc]
        rw [hpq, Matrix.star_mulVec, hs, ← cj_transpose', ← Matrix.mulVec_transpose, transpose_transpose]
      have e : ∑ r, (starRingEnd ℂ) (pqVec ħ μ r) * ((rotmat n).mulVec ((toC V⁻¹).mulVec mc)) r =
          star (pqVec ħ μ) ⬝ᵥ (rotmat n).mulVec ((toC V⁻¹).mulVec mc) := rfl
      rw [e, this, dot_rot, Matrix.mulVec_mulVec, rotmat_mul', Matrix.one_mulVec]
    have hdet : (husimiQ ħ cov).det = (V.det : ℂ) := by
      rw [husimiQ_eq hħ, det_mul, det_mul, mul_right_comm, ← det_mul, rotmat_mul, det_one, one_mul, toC_det]
    rw [hsum, hdet, show (1 / 2 : ℂ) = ((1 / 2 : ℝ) : ℂ) by norm_num, ← Complex.ofReal_cpow hV.det_pos.le, ← Real.sqrt_eq_rpow]
    rw [div_eq_mul_inv, mul_comm]
    push_cast
    rfl
  unfold dmFromPhaseSpace hus
  rw [hC, rhoA_eq hħ h, hB, hv]
  have hA : (rotmat n).mulVec ξ ⬝ᵥ (Xmat n * (1 - (husimiQ ħ cov)⁻¹)).mulVec ((rotmat n).mulVec ξ) = ξ ⬝ᵥ ξ - ξ ⬝ᵥ (toC V⁻¹).mulVec ξ := by
    have hX : (Xmat n)ᵀ = Xmat n := by unfold Xmat; rw [fromBlocks_transpose]; simp
    rw [← Matrix.mulVec_mulVec, Matrix.dotProduct_mulVec, ← Matrix.mulVec_transpose, hX, Matrix.mulVec_mulVec, Xmat_rot, dot_rot,
      hQ, Matrix.sub_mulVec, Matrix.one_mulVec, Matrix.mulVec_sub, Matrix.mulVec_mulVec, rotmat_mul', Matrix.one_mulVec,
      Matrix.mulVec_mulVec, Matrix.mulVec_mulVec]
    rw [show (rotmat n)ᴴ * (rotmat n * toC V⁻¹ * (rotmat n)ᴴ) * rotmat n = ((rotmat n)ᴴ * rotmat n) * toC V⁻¹ * ((rotmat n)ᴴ * rotmat n) by
      simp only [Matrix.mul_assoc], rotmat_mul', Matrix.one_mul, Matrix.mul_one, dotProduct_sub]
  have hBd : (cj (rotmat n)).mulVec ((toC V⁻¹).mulVec mc) ⬝ᵥ (rotmat n).mulVec ξ = ξ ⬝ᵥ (toC V⁻¹).mulVec mc := by
    rw [dot_rot, Matrix.mulVec_mulVec, rotmat_mul', Matrix.one_mulVec, dotProduct_comm]
  rw [hA, hBd]
  have hq : (ξ - mc) ⬝ᵥ (toC V⁻¹).mulVec (ξ - mc) = ξ ⬝ᵥ (toC V⁻¹).mulVec ξ - 2 * (ξ ⬝ᵥ (toC V⁻¹).mulVec mc) + mc ⬝ᵥ (toC V⁻¹).mulVec mc := by
    rw [Matrix.mulVec_sub, sub_dotProduct, dotProduct_sub, dotProduct_sub, symm_dot (posDef_symm hV).2 mc ξ]
    ring
  rw [hq]
  rw [show ∀ a b c : ℂ, coeff * (a * Complex.exp b * Complex.exp c) = coeff * (a * Complex.exp (b + c)) from fun a b c => by
    rw [mul_assoc, Complex.exp_add]]
  rw [show ∀ a b c : ℂ, coeff * (a * Complex.exp b) * Complex.exp c = coeff * (a * Complex.exp (b + c)) from fun a b c => by
    rw [mul_assoc, mul_assoc, Complex.exp_add]]
  refine congrArg _ (congrArg _ (congrArg Complex.exp ?_))
  ring

end Verif.Manifold
