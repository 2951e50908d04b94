import Verif.BargmannUnit
import Verif.Triples
import Mathlib.Analysis.SpecialFunctions.Trigonometric.DerivHyp
import Mathlib.LinearAlgebra.Matrix.Notation

/-!
# The built-in gates against `from_symplectic` (C64)
-/

namespace Verif.Manifold
open Matrix Verif.Triples

variable {n : Type*} [Fintype n] [DecidableEq n]

/-! ## Specification: the symplectic matrices of the elementary gates -/

/-- Rotation by `θ` in phase space. -/
noncomputable def rotS (θ : ℝ) : Matrix (Fin 1 ⊕ Fin 1) (Fin 1 ⊕ Fin 1) ℝ :=
  fromBlocks !![Real.cos θ] !![-Real.sin θ] !![Real.sin θ] !![Real.cos θ]

/-- Squeezing by `r` along the axis `φ/2`. -/
noncomputable def sqS (r φ : ℝ) : Matrix (Fin 1 ⊕ Fin 1) (Fin 1 ⊕ Fin 1) ℝ :=
  fromBlocks !![Real.cosh r - Real.cos φ * Real.sinh r] !![-(Real.sin φ * Real.sinh r)]
    !![-(Real.sin φ * Real.sinh r)] !![Real.cosh r + Real.cos φ * Real.sinh r]

/-- The unitary of the beam splitter. -/
noncomputable def bsU (θ φ : ℝ) : Matrix (Fin 2) (Fin 2) ℂ :=
  !![(Real.cos θ : ℂ), -Complex.exp (-(Complex.I * φ)) * Real.sin θ; Complex.exp (Complex.I * φ) * Real.sin θ, (Real.cos θ : ℂ)]

/-- Two-mode squeezing. -/
noncomputable def tmsS (r φ : ℝ) : Matrix (Fin 2 ⊕ Fin 2) (Fin 2 ⊕ Fin 2) ℝ :=
  fromBlocks !![Real.cosh r, Real.cos φ * Real.sinh r; Real.cos φ * Real.sinh r, Real.cosh r]
    !![0, Real.sin φ * Real.sinh r; Real.sin φ * Real.sinh r, 0]
    !![0, Real.sin φ * Real.sinh r; Real.sin φ * Real.sinh r, 0]
    !![Real.cosh r, -(Real.cos φ * Real.sinh r); -(Real.cos φ * Real.sinh r), Real.cosh r]

/-- The arguments of the Bargmann function of a gate on `m` modes: outputs, then inputs. -/
def args {m : ℕ} (z w : Fin m → ℂ) (i : ℕ) : ℂ := if h : i < m then z ⟨i, h⟩ else if h : i - m < m then w ⟨i - m, h⟩ else 0

/-- The matrix `A` of a gate on `m` modes, at the batch index `β`. -/
def gateA (m : ℕ) (f : Verif.PolyExp.PolyExp) (β : List ℕ) : Matrix (Fin m ⊕ Fin m) (Fin m ⊕ Fin m) ℂ :=
  fun p q => f.A β (p.elim (fun i => i.1) fun i => m + i.1) (q.elim (fun i => i.1) fun i => m + i.1)

/-- A gate and a symplectic matrix describe the same unitary: `gate.symplectic = S` and `Unitary.from_symplectic(S)` has the
Bargmann function of the gate. -/
def SameGate (m : ℕ) (f : Verif.PolyExp.PolyExp) (β : List ℕ) (S : Matrix (Fin m ⊕ Fin m) (Fin m ⊕ Fin m) ℝ) : Prop :=
  Symplectic S ∧ au2Symplectic (gateA m f β) = S ∧ ∀ z w : Fin m → ℂ, f.call β (args z w) = fromSymplectic S z w

/-! ## Proofs -/

theorem ofCplx_eq (S1 S2 : Matrix n n ℂ) :
    ofCplx S1 S2 = fromBlocks ((S1 + S2).map Complex.re) ((S2 - S1).map Complex.im) ((S1 + S2).map Complex.im) ((S1 - S2).map Complex.re) := by
  have h := toC_ofCplx S1 S2
  have e : toC (fromBlocks ((S1 + S2).map Complex.re) ((S2 - S1).map Complex.im) ((S1 + S2).map Complex.im) ((S1 - S2).map Complex.re)) =
      (rotmat n)ᴴ * fromBlocks S1 S2 (cj S2) (cj S1) * rotmat n := by
    rw [rotmat_conjT]; unfold rotmat
    rw [Matrix.smul_mul, Matrix.smul_mul, Matrix.mul_smul, smul_smul, half_sq, fromBlocks_multiply,
      fromBlocks_multiply, fromBlocks_smul]
    unfold toC
    rw [fromBlocks_map]
    congr 1 <;> ext i j <;> simp [cj] <;> apply Complex.ext <;> simp <;> ring
  have := h.trans e.symm
  ext i j
  exact Complex.ofReal_injective (congrFun (congrFun this i) j)

/-- The function built from the matrix with complex blocks `S1`, `S2`. -/
theorem fromSymplectic_ofCplx {S1 S2 : Matrix n n ℂ} (h1 : S1 * S1ᴴ - S2 * S2ᴴ = 1) (h2 : S1 * S2ᵀ = S2 * S1ᵀ) (z w : n → ℂ) :
    fromSymplectic (ofCplx S1 S2) z w = ((‖S1⁻¹.det‖ ^ (1 / 2 : ℝ) : ℝ) : ℂ) *
      Complex.exp (1 / 2 * (z ⬝ᵥ (S2 * cj S1⁻¹).mulVec z) + z ⬝ᵥ ((S1⁻¹)ᴴ).mulVec w + 1 / 2 * (w ⬝ᵥ (-cj (S1⁻¹ * S2)).mulVec w)) := by
  have h := symplectic_ofCplx h1 h2
  unfold fromSymplectic
  rw [fromSymplecticC_eq h, symplectic2Au_eq h, (cS_ofCplx S1 S2).1, (cS_ofCplx S1 S2).2, exponent_blocks _ _ _ _ (by rw [conjT_transpose])]

/-- **C64 (interferometers)** `Interferometer(U)` has the Bargmann function `exp(zᵀ U w)`: coherent amplitudes `α` go to `U α`. -/
theorem C64_interferometer (U : Matrix n n ℂ) (hU : U ∈ Matrix.unitaryGroup n ℂ) (z w : n → ℂ) :
    fromSymplectic (interferometer U) z w = Complex.exp (z ⬝ᵥ U.mulVec w) := by
  rw [Matrix.mem_unitaryGroup_iff, star_eq_conjTranspose] at hU
  have hU' : Uᴴ * U = 1 := mul_eq_one_comm.mp hU
  have e : interferometer U = ofCplx U 0 := by
    rw [ofCplx_eq]
    unfold interferometer
    congr 1 <;> ext i j <;> simp
  have hinv : U⁻¹ = Uᴴ := inv_eq_left_inv hU'
  have hd : ‖(Uᴴ).det‖ = 1 := by
    have := congrArg det hU
    rw [det_mul, det_conjTranspose, det_one, Complex.star_def, Complex.mul_conj, Complex.normSq_eq_norm_sq] at this
    have h2 : ‖U.det‖ ^ 2 = 1 := by exact_mod_cast this
    rw [det_conjTranspose, norm_star]
    exact (pow_eq_one_iff_of_nonneg (norm_nonneg _) two_ne_zero).1 h2
  rw [e, fromSymplectic_ofCplx (by simpa using hU) (by simp), hinv, hd, Real.one_rpow, Complex.ofReal_one, one_mul,
    conjTranspose_conjTranspose]
  refine congrArg Complex.exp ?_
  simp [cj]

theorem bsU_unitary (θ φ : ℝ) : bsU θ φ ∈ Matrix.unitaryGroup (Fin 2) ℂ := by
  rw [Matrix.mem_unitaryGroup_iff, star_eq_conjTranspose]
  have hc : (starRingEnd ℂ) (Complex.exp (Complex.I * φ)) = Complex.exp (-(Complex.I * φ)) := by
    rw [← Complex.exp_conj, map_mul, Complex.conj_I, Complex.conj_ofReal, neg_mul]
  have hc' : (starRingEnd ℂ) (Complex.exp (-(Complex.I * φ))) = Complex.exp (Complex.I * φ) := by
    rw [← hc, Complex.conj_conj]
  have he : Complex.exp (Complex.I * φ) * Complex.exp (-(Complex.I * φ)) = 1 := by rw [← Complex.exp_add, add_neg_cancel, Complex.exp_zero]
  have hs : (Real.cos θ : ℂ) * Real.cos θ + (Real.sin θ : ℂ) * Real.sin θ = 1 := by
    have := Real.cos_sq_add_sin_sq θ
    rw [pow_two, pow_two] at this
    exact_mod_cast this
  unfold bsU
  ext i j
  generalize hC : (Real.cos θ : ℂ) = C at *
  generalize hS : (Real.sin θ : ℂ) = S at *
  have cC : (starRingEnd ℂ) C = C := by rw [← hC, Complex.conj_ofReal]
  have cS : (starRingEnd ℂ) S = S := by rw [← hS, Complex.conj_ofReal]
  generalize Complex.exp (Complex.I * φ) = E at *
  generalize Complex.exp (-(Complex.I * φ)) = E' at *
  fin_cases i <;> fin_cases j <;>
    simp [Matrix.vecMul, dotProduct, Matrix.mul_apply, Fin.sum_univ_two, hc, hc', cC, cS]
  · linear_combination hs + S * S * he
  · ring
  · ring
  · linear_combination hs + S * S * he

theorem sum_args {m : ℕ} (z w : Fin m → ℂ) (g : ℕ → ℂ → ℂ) :
    ∑ i ∈ Finset.range (2 * m), g i (args z w i) =
      ∑ p : Fin m ⊕ Fin m, g (p.elim (fun i => i.1) fun i => m + i.1) (Sum.elim z w p) := by
  rw [two_mul, Finset.sum_range_add, Fintype.sum_sum_type, ← Fin.sum_univ_eq_sum_range (fun i => g i (args z w i)),
    ← Fin.sum_univ_eq_sum_range (fun i => g (m + i) (args z w (m + i)))]
  congr 1
  · refine Finset.sum_congr rfl fun i _ => ?_
    simp [args]
  · refine Finset.sum_congr rfl fun i _ => ?_
    simp [args]

theorem sameGate_of {m : ℕ} {B : List ℕ} {A : List ℕ → ℕ → ℕ → ℂ} {c : List ℕ → ℂ} {β : List ℕ}
    {S : Matrix (Fin m ⊕ Fin m) (Fin m ⊕ Fin m) ℝ} (h : Symplectic S)
    (hA : gateA m (mk B (2 * m) A (fun _ _ => 0) c) β = symplectic2Au S) (hc : c β = fromSymplecticC S) :
    SameGate m (mk B (2 * m) A (fun _ _ => 0) c) β S := by
  refine ⟨h, by rw [hA, C64_roundtrip S h], fun z w => ?_⟩
  rw [mk_call, hc]
  unfold fromSymplectic
  rw [← hA, mul_comm]
  refine congrArg (HMul.hMul _) (congrArg Complex.exp ?_)
  simp only [mul_zero, Finset.sum_const_zero, add_zero]
  refine congrArg (HMul.hMul _) ?_
  rw [sum_args z w fun i x => ∑ j ∈ Finset.range (2 * m), x * args z w j * A β i j]
  simp only [dotProduct, mulVec, Finset.mul_sum]
  refine Finset.sum_congr rfl fun p _ => ?_
  rw [sum_args z w fun j y => Sum.elim z w p * y * A β (p.elim (fun i => i.1) fun i => m + i.1) j]
  refine Finset.sum_congr rfl fun q _ => ?_
  show _ = Sum.elim z w p * (A β _ _ * Sum.elim z w q)
  ring

/-- **C64 (rotation)** -/
theorem C64_rotation (B : List ℕ) (θ : List ℕ → ℝ) (β : List ℕ) : SameGate 1 (rotation B θ) β (rotS (θ β)) := by
  have hc : (starRingEnd ℂ) (ph (θ β)) = (ph (θ β))⁻¹ := by
    unfold ph; rw [← Complex.exp_conj, map_mul, Complex.conj_I, Complex.conj_ofReal, neg_mul, Complex.exp_neg]
  have hne : ph (θ β) ≠ 0 := Complex.exp_ne_zero _
  have hn : ‖ph (θ β)‖ = 1 := by unfold ph; rw [mul_comm, Complex.norm_exp_ofReal_mul_I]
  have e : rotS (θ β) = ofCplx !![ph (θ β)] 0 := by
    rw [ofCplx_eq]
    unfold rotS ph
    congr 1 <;> ext i j <;> fin_cases i <;> fin_cases j <;> simp [Complex.exp_re, Complex.exp_im]
  have h1 : (!![ph (θ β)] : Matrix (Fin 1) (Fin 1) ℂ) * !![ph (θ β)]ᴴ - 0 * 0ᴴ = 1 := by
    ext i j; fin_cases i; fin_cases j; simp [Matrix.vecMul, dotProduct, Matrix.mul_apply, hc, hne]
  have h2 : (!![ph (θ β)] : Matrix (Fin 1) (Fin 1) ℂ) * 0ᵀ = 0 * !![ph (θ β)]ᵀ := by simp
  have hi : (!![ph (θ β)] : Matrix (Fin 1) (Fin 1) ℂ)⁻¹ = !![(ph (θ β))⁻¹] := inv_eq_left_inv (by
    ext i j; fin_cases i; fin_cases j; simp [Matrix.vecMul, dotProduct, Matrix.mul_apply, hne])
  have hS : Symplectic (rotS (θ β)) := by rw [e]; exact symplectic_ofCplx h1 h2
  refine sameGate_of (A := fun β => mat [[0, ph (θ β)], [ph (θ β), 0]]) hS ?_ ?_
  · rw [symplectic2Au_eq hS, e, (cS_ofCplx _ _).1, (cS_ofCplx _ _).2, hi]
    ext p q
    rcases p with i | i <;> rcases q with j | j <;> fin_cases i <;> fin_cases j <;> simp [gateA, mk, mat, cj, hc]
  · rw [fromSymplecticC_eq hS, e, (cS_ofCplx _ _).1, hi]
    simp [hn]

/-- **C64 (squeezing)** -/
theorem C64_squeezing (B : List ℕ) (r φ : List ℕ → ℝ) (β : List ℕ) : SameGate 1 (squeezing B r φ) β (sqS (r β) (φ β)) := by
  have hm : ph (-φ β) = (ph (φ β))⁻¹ := by unfold ph; rw [← Complex.exp_neg]; push_cast; ring_nf
  have hc : (starRingEnd ℂ) (ph (φ β)) = (ph (φ β))⁻¹ := by
    unfold ph; rw [← Complex.exp_conj, map_mul, Complex.conj_I, Complex.conj_ofReal, neg_mul, Complex.exp_neg]
  have hne : ph (φ β) ≠ 0 := Complex.exp_ne_zero _
  have hre : (ph (φ β)).re = Real.cos (φ β) := by unfold ph; simp [Complex.exp_re]
  have him : (ph (φ β)).im = Real.sin (φ β) := by unfold ph; simp [Complex.exp_im]
  have hpos := Real.cosh_pos (r β)
  have hcs : (Real.cosh (r β) : ℂ) * Real.cosh (r β) - (Real.sinh (r β) : ℂ) * Real.sinh (r β) = 1 := by
    have := Real.cosh_sq_sub_sinh_sq (r β)
    rw [pow_two, pow_two] at this
    exact_mod_cast this
  have hC0 : (Real.cosh (r β) : ℂ) ≠ 0 := by exact_mod_cast hpos.ne'
  set S1 : Matrix (Fin 1) (Fin 1) ℂ := !![(Real.cosh (r β) : ℂ)] with hS1
  set S2 : Matrix (Fin 1) (Fin 1) ℂ := !![-(ph (φ β) * Real.sinh (r β))] with hS2
  have e : sqS (r β) (φ β) = ofCplx S1 S2 := by
    rw [ofCplx_eq]
    unfold sqS
    congr 1 <;> ext i j <;> fin_cases i <;> fin_cases j <;> simp [S1, S2, hre, him, -Complex.ofReal_sinh, -Complex.ofReal_cosh] <;> ring
  have h1 : S1 * S1ᴴ - S2 * S2ᴴ = 1 := by
    ext i j; fin_cases i; fin_cases j
    simp [Matrix.vecMul, dotProduct, Matrix.mul_apply, S1, S2, hc, -Complex.ofReal_sinh, -Complex.ofReal_cosh]
    have : ph (φ β) * (Real.sinh (r β) : ℂ) * ((ph (φ β))⁻¹ * Real.sinh (r β)) = (Real.sinh (r β) : ℂ) * Real.sinh (r β) := by
      field_simp
    rw [this, hcs]
  have h2 : S1 * S2ᵀ = S2 * S1ᵀ := by
    ext i j; fin_cases i; fin_cases j
    simp [Matrix.vecMul, dotProduct, Matrix.mul_apply, S1, S2, mul_comm]
  have hi : S1⁻¹ = !![(Real.cosh (r β) : ℂ)⁻¹] := inv_eq_left_inv (by
    ext i j; fin_cases i; fin_cases j; simp [Matrix.vecMul, dotProduct, Matrix.mul_apply, S1, hC0, -Complex.ofReal_cosh])
  have hS : Symplectic (sqS (r β) (φ β)) := by rw [e]; exact symplectic_ofCplx h1 h2
  refine sameGate_of (A := fun β =>
      let t : ℂ := Real.sinh (r β) / Real.cosh (r β)
      let s : ℂ := 1 / Real.cosh (r β)
      mat [[-ph (φ β) * t, s], [s, ph (-φ β) * t]]) hS ?_ ?_
  · rw [symplectic2Au_eq hS, e, (cS_ofCplx _ _).1, (cS_ofCplx _ _).2, hi]
    ext p q
    rcases p with i | i <;> rcases q with j | j <;> fin_cases i <;> fin_cases j <;>
      simp [gateA, mk, mat, cj, hc, hm, S2, Matrix.vecMul, dotProduct, Matrix.mul_apply, -Complex.ofReal_sinh, -Complex.ofReal_cosh] <;> ring
  · rw [fromSymplecticC_eq hS, e, (cS_ofCplx _ _).1, hi]
    have : ‖(!![(Real.cosh (r β) : ℂ)⁻¹] : Matrix (Fin 1) (Fin 1) ℂ).det‖ = (Real.cosh (r β))⁻¹ := by
      rw [det_fin_one]
      simp [-Complex.ofReal_cosh, abs_of_pos hpos]
    rw [this, ← Real.sqrt_eq_rpow, Real.sqrt_inv]
    push_cast
    simp

/-- **C64 (beam splitter)** -/
theorem C64_beamsplitter (B : List ℕ) (θ φ : List ℕ → ℝ) (β : List ℕ) :
    SameGate 2 (beamsplitter B θ φ) β (interferometer (bsU (θ β) (φ β))) := by
  have hU := bsU_unitary (θ β) (φ β)
  have hS := ((C40_interferometer (bsU (θ β) (φ β))).1 hU).1
  have hU1 := hU
  rw [Matrix.mem_unitaryGroup_iff, star_eq_conjTranspose] at hU1
  have hinv : (bsU (θ β) (φ β))⁻¹ = (bsU (θ β) (φ β))ᴴ := inv_eq_left_inv (mul_eq_one_comm.mp hU1)
  have e : interferometer (bsU (θ β) (φ β)) = ofCplx (bsU (θ β) (φ β)) 0 := by
    rw [ofCplx_eq]
    unfold interferometer
    congr 1 <;> ext i j <;> simp
  have hm : ph (-φ β) = Complex.exp (-(Complex.I * φ β)) := by unfold ph; push_cast; ring_nf
  refine sameGate_of (A := fun β =>
      let C : ℂ := Real.cos (θ β)
      let S : ℂ := Real.sin (θ β)
      mat [[0, 0, C, -ph (-φ β) * S], [0, 0, ph (φ β) * S, C], [C, ph (φ β) * S, 0, 0], [-ph (-φ β) * S, C, 0, 0]]) hS ?_ ?_
  · rw [symplectic2Au_eq hS, e, (cS_ofCplx _ _).1, (cS_ofCplx _ _).2, hinv, conjTranspose_conjTranspose, cj_conjT]
    ext p q
    rcases p with i | i <;> rcases q with j | j <;> fin_cases i <;> fin_cases j <;>
      simp [gateA, mk, mat, cj, bsU, hm, show ph (φ β) = Complex.exp (Complex.I * φ β) from rfl, -Complex.ofReal_cos, -Complex.ofReal_sin]
  · rw [fromSymplecticC_eq hS, e, (cS_ofCplx _ _).1, hinv, det_conjTranspose, norm_star]
    have := congrArg det hU1
    rw [det_mul, det_conjTranspose, det_one, Complex.star_def, Complex.mul_conj, Complex.normSq_eq_norm_sq] at this
    have h2 : ‖(bsU (θ β) (φ β)).det‖ ^ 2 = 1 := by exact_mod_cast this
    rw [(pow_eq_one_iff_of_nonneg (norm_nonneg _) two_ne_zero).1 h2]
    simp

/-- **C64 (two-mode squeezing)** -/
theorem C64_twoModeSqueezing (B : List ℕ) (r φ : List ℕ → ℝ) (β : List ℕ) :
    SameGate 2 (twoModeSqueezing B r φ) β (tmsS (r β) (φ β)) := by
  have hc : (starRingEnd ℂ) (ph (φ β)) = (ph (φ β))⁻¹ := by
    unfold ph; rw [← Complex.exp_conj, map_mul, Complex.conj_I, Complex.conj_ofReal, neg_mul, Complex.exp_neg]
  have hne : ph (φ β) ≠ 0 := Complex.exp_ne_zero _
  have hre : (ph (φ β)).re = Real.cos (φ β) := by unfold ph; simp [Complex.exp_re]
  have him : (ph (φ β)).im = Real.sin (φ β) := by unfold ph; simp [Complex.exp_im]
  have hpos := Real.cosh_pos (r β)
  have hcs : (Real.cosh (r β) : ℂ) * Real.cosh (r β) - (Real.sinh (r β) : ℂ) * Real.sinh (r β) = 1 := by
    have := Real.cosh_sq_sub_sinh_sq (r β)
    rw [pow_two, pow_two] at this
    exact_mod_cast this
  have hC0 : (Real.cosh (r β) : ℂ) ≠ 0 := by exact_mod_cast hpos.ne'
  set S1 : Matrix (Fin 2) (Fin 2) ℂ := !![(Real.cosh (r β) : ℂ), 0; 0, (Real.cosh (r β) : ℂ)] with hS1
  set S2 : Matrix (Fin 2) (Fin 2) ℂ := !![0, ph (φ β) * Real.sinh (r β); ph (φ β) * Real.sinh (r β), 0] with hS2
  have e : tmsS (r β) (φ β) = ofCplx S1 S2 := by
    rw [ofCplx_eq]
    unfold tmsS
    congr 1 <;> ext i j <;> fin_cases i <;> fin_cases j <;> simp [S1, S2, hre, him, -Complex.ofReal_sinh, -Complex.ofReal_cosh]
  have hpp : ph (φ β) * (Real.sinh (r β) : ℂ) * ((ph (φ β))⁻¹ * Real.sinh (r β)) = (Real.sinh (r β) : ℂ) * Real.sinh (r β) := by
    field_simp
  have h1 : S1 * S1ᴴ - S2 * S2ᴴ = 1 := by
    ext i j; fin_cases i <;> fin_cases j <;>
    simp [Matrix.vecMul, dotProduct, Matrix.mul_apply, Fin.sum_univ_two, S1, S2, hc, hpp, hcs, -Complex.ofReal_sinh, -Complex.ofReal_cosh]
  have h2 : S1 * S2ᵀ = S2 * S1ᵀ := by
    ext i j; fin_cases i <;> fin_cases j <;>
    simp [Matrix.vecMul, dotProduct, Matrix.mul_apply, Fin.sum_univ_two, S1, S2, mul_comm]
  have hi : S1⁻¹ = !![(Real.cosh (r β) : ℂ)⁻¹, 0; 0, (Real.cosh (r β) : ℂ)⁻¹] := inv_eq_left_inv (by
    ext i j; fin_cases i <;> fin_cases j <;> simp [Matrix.vecMul, dotProduct, Matrix.mul_apply, Fin.sum_univ_two, S1, hC0, -Complex.ofReal_cosh])
  have hS : Symplectic (tmsS (r β) (φ β)) := by rw [e]; exact symplectic_ofCplx h1 h2
  refine sameGate_of (A := fun β =>
      let t : ℂ := ph (φ β) * Real.sinh (r β) / Real.cosh (r β)
      let s : ℂ := 1 / Real.cosh (r β)
      let u : ℂ := -(starRingEnd ℂ) t
      mat [[0, t, s, 0], [t, 0, 0, s], [s, 0, 0, u], [0, s, u, 0]]) hS ?_ ?_
  · rw [symplectic2Au_eq hS, e, (cS_ofCplx _ _).1, (cS_ofCplx _ _).2, hi]
    ext p q
    rcases p with i | i <;> rcases q with j | j <;> fin_cases i <;> fin_cases j <;>
      simp [gateA, mk, mat, cj, hc, S2, Matrix.vecMul, dotProduct, Matrix.mul_apply, Fin.sum_univ_two, -Complex.ofReal_sinh, -Complex.ofReal_cosh] <;> (try ring)
  · rw [fromSymplecticC_eq hS, e, (cS_ofCplx _ _).1, hi]
    have : ‖(!![(Real.cosh (r β) : ℂ)⁻¹, 0; 0, (Real.cosh (r β) : ℂ)⁻¹] : Matrix (Fin 2) (Fin 2) ℂ).det‖ = ((Real.cosh (r β))⁻¹) ^ 2 := by
      rw [det_fin_two]
      simp [-Complex.ofReal_cosh, abs_of_pos hpos, pow_two]
    rw [this, ← Real.sqrt_eq_rpow, Real.sqrt_sq (by positivity)]
    push_cast
    simp

/-! ## Concrete cases -/

/-- The shear with parameter 3 is not orthogonal, and the theorems apply to it. -/
example : Symplectic (pgate 3 : Matrix (Fin 2 ⊕ Fin 2) (Fin 2 ⊕ Fin 2) ℝ) ∧
    au2Symplectic (symplectic2Au (pgate 3 : Matrix (Fin 2 ⊕ Fin 2) (Fin 2 ⊕ Fin 2) ℝ)) = pgate 3 ∧
    Implements (fromSymplectic (pgate 3 : Matrix (Fin 2 ⊕ Fin 2) (Fin 2 ⊕ Fin 2) ℝ)) (pgate 3) ∧
    ∀ z v, opMul (opAdj (fromSymplectic (pgate 3 : Matrix (Fin 2 ⊕ Fin 2) (Fin 2 ⊕ Fin 2) ℝ))) (fromSymplectic (pgate 3)) z v = opId z v :=
  ⟨C40_pgate 3, C64_roundtrip _ (C40_pgate 3), C64_implements _ (C40_pgate 3), C64_isometry _ (C40_pgate 3)⟩

/-- The two-mode controlled gates compose. -/
example (s t : ℝ) : ∃ ω : ℂ, ‖ω‖ = 1 ∧ ∀ z v, opMul (fromSymplectic (blocks (cx s))) (fromSymplectic (blocks (cz t))) z v =
    ω * fromSymplectic (blocks (cx s) * blocks (cz t)) z v := C64_compose _ _ (C40_cx_cz s).1 (C40_cx_cz t).2

/-- The squeezing gate meets the hypotheses of the converse. -/
example (r φ : ℝ) : (gateA 1 (squeezing [] (fun _ => r) fun _ => φ) [])ᵀ = gateA 1 (squeezing [] (fun _ => r) fun _ => φ) [] ∧
    IsUnit (gateA 1 (squeezing [] (fun _ => r) fun _ => φ) []).toBlocks₁₂.det := by
  constructor
  · ext p q
    rcases p with i | i <;> rcases q with j | j <;> fin_cases i <;> fin_cases j <;> rfl
  · rw [det_fin_one, isUnit_iff_ne_zero]
    have : (gateA 1 (squeezing [] (fun _ => r) fun _ => φ) []).toBlocks₁₂ 0 0 = 1 / (Real.cosh r : ℂ) := rfl
    rw [this]
    have := (Real.cosh_pos r).ne'
    exact one_div_ne_zero (by exact_mod_cast this)

/-- The inverse of the shear. -/
example (z v : Fin 1 → ℂ) : fromSymplectic (pgate (-2)) z v = opAdj (fromSymplectic (pgate 2)) z v :=
  (C64_inverse (pgate 2) (pgate (-2)) (C40_pgate 2) (by
    rw [← (C40_composition (1 : Matrix (Fin 1) (Fin 1) ℂ) 1 2 (-2)).2.2.2]
    norm_num [pgate]) z v).2

end Verif.Manifold
