import Mathlib.Analysis.Matrix.Order
import Mathlib.Analysis.SpecialFunctions.ContinuousFunctionalCalculus.Rpow.Basic
import Mathlib.Analysis.InnerProductSpace.PiL2
import Mathlib.Analysis.InnerProductSpace.Adjoint
import Mathlib.LinearAlgebra.Matrix.Trace
import Mathlib.Tactic.LinearCombination
import Mathlib.Tactic.NoncommRing
import Mathlib.Tactic.FieldSimp
import Mathlib.Tactic.Positivity

/-!
# Fidelity of density matrices in the Fock representation (C92)
-/

namespace Verif.Fid

open scoped ComplexOrder MatrixOrder Matrix
open Matrix

variable {n m : Type*} [Fintype n] [DecidableEq n] [Fintype m] [DecidableEq m]

/-- physics/fock_utils.py:72-77 `fidelity`; `math.sqrtm` of a positive semidefinite matrix is its positive semidefinite square root. -/
noncomputable def fidelity (A B : Matrix n n ℂ) : ℝ := ‖(trace (CFC.sqrt (CFC.sqrt A * B * CFC.sqrt A))) ^ 2‖

/-! ## Polar decomposition -/

theorem norm_toEuclideanLin {X S : Matrix n n ℂ} (h : Xᴴ * X = Sᴴ * S) (v : EuclideanSpace ℂ n) : ‖toEuclideanLin X v‖ = ‖toEuclideanLin S v‖ := by
  have key : ∀ Y : Matrix n n ℂ, (inner ℂ (toEuclideanLin Y v) (toEuclideanLin Y v) : ℂ) = star v.ofLp ⬝ᵥ ((Yᴴ * Y) *ᵥ v.ofLp) := by
    intro Y
    rw [EuclideanSpace.inner_eq_star_dotProduct, ofLp_toEuclideanLin_apply, dotProduct_comm, star_mulVec, ← mulVec_mulVec, dotProduct_mulVec (star v.ofLp), ← dotProduct_mulVec]
  have e : (inner ℂ (toEuclideanLin X v) (toEuclideanLin X v) : ℂ) = inner ℂ (toEuclideanLin S v) (toEuclideanLin S v) := by rw [key, key, h]
  rw [inner_self_eq_norm_sq_to_K, inner_self_eq_norm_sq_to_K] at e
  have e' : ‖toEuclideanLin X v‖ ^ 2 = ‖toEuclideanLin S v‖ ^ 2 := by exact_mod_cast e
  exact (sq_eq_sq₀ (norm_nonneg _) (norm_nonneg _)).mp e'

/-- Two matrices with the same Gram matrix differ by a unitary. -/
theorem polar {X S : Matrix n n ℂ} (h : Xᴴ * X = Sᴴ * S) : ∃ U : Matrix n n ℂ, Uᴴ * U = 1 ∧ U * Uᴴ = 1 ∧ X = U * S := by
  obtain ⟨x, hx⟩ : ∃ x, x = toEuclideanLin X := ⟨_, rfl⟩
  obtain ⟨s, hs⟩ : ∃ s, s = toEuclideanLin S := ⟨_, rfl⟩
  have hn : ∀ v, ‖x v‖ = ‖s v‖ := by
    intro v
    rw [hx, hs]
    exact norm_toEuclideanLin h v
  have hk : LinearMap.ker s ≤ LinearMap.ker x := by
    intro v hv
    rw [LinearMap.mem_ker] at hv ⊢
    have := hn v
    rw [hv, norm_zero] at this
    exact norm_eq_zero.mp this
  obtain ⟨L0, hL0⟩ : ∃ L0 : LinearMap.range s →ₗ[ℂ] EuclideanSpace ℂ n, ∀ v, L0 ⟨s v, LinearMap.mem_range_self s v⟩ = x v := by
    refine ⟨((LinearMap.ker s).liftQ x hk).comp s.quotKerEquivRange.symm.toLinearMap, fun v => ?_⟩
    have e : s.quotKerEquivRange.symm ⟨s v, LinearMap.mem_range_self s v⟩ = (LinearMap.ker s).mkQ v := s.quotKerEquivRange_symm_apply_image v _
    rw [LinearMap.comp_apply, LinearEquiv.coe_coe, e]
    simp
  have hL0n : ∀ y, ‖L0 y‖ = ‖y‖ := by
    rintro ⟨_, v, rfl⟩
    rw [hL0]
    exact hn v
  obtain ⟨E, hE⟩ : ∃ E : EuclideanSpace ℂ n →ₗᵢ[ℂ] EuclideanSpace ℂ n, ∀ v, E (s v) = x v := by
    refine ⟨(LinearIsometry.mk L0 hL0n).extend, fun v => ?_⟩
    have := (LinearIsometry.mk L0 hL0n).extend_apply ⟨s v, LinearMap.mem_range_self s v⟩
    rw [this]
    exact hL0 v
  obtain ⟨U, hU⟩ : ∃ U : Matrix n n ℂ, toEuclideanLin U = E.toLinearMap := ⟨toEuclideanLin.symm E.toLinearMap, LinearEquiv.apply_symm_apply _ _⟩
  have hUU : Uᴴ * U = 1 := by
    ext i j
    have h1 := E.inner_map_map (WithLp.toLp 2 (Pi.single i 1)) (WithLp.toLp 2 (Pi.single j 1))
    have e : ∀ v : n → ℂ, E (WithLp.toLp 2 v) = WithLp.toLp 2 (U *ᵥ v) := by
      intro v
      have := congrArg (fun l => l (WithLp.toLp 2 v)) hU
      simp only [toEuclideanLin_toLp] at this
      exact this.symm
    rw [e, e, EuclideanSpace.inner_eq_star_dotProduct, EuclideanSpace.inner_eq_star_dotProduct] at h1
    simp only [mulVec_single_one] at h1
    have h2 : (Uᴴ * U) i j = (U.col j) ⬝ᵥ star (U.col i) := by
      rw [dotProduct_comm]
      rfl
    rw [h2, h1]
    rw [one_apply, dotProduct_comm]
    by_cases hij : i = j
    · subst hij
      simp
    · simp [hij, Pi.single_apply]
  refine ⟨U, hUU, mul_eq_one_comm.mp hUU, ?_⟩
  apply toEuclideanLin.injective
  ext1 v
  have e1 : toEuclideanLin (U * S) v = toEuclideanLin U (toEuclideanLin S v) := by
    rw [toEuclideanLin_apply, toEuclideanLin_apply, toEuclideanLin_apply, ← mulVec_mulVec]
  rw [e1, hU, ← hs, ← hx]
  exact (hE v).symm

/-! ## Square roots -/

theorem sqrt_psd (A : Matrix n n ℂ) : (CFC.sqrt A).PosSemidef := nonneg_iff_posSemidef.mp (CFC.sqrt_nonneg A)
theorem sqrt_herm (A : Matrix n n ℂ) : (CFC.sqrt A)ᴴ = CFC.sqrt A := (sqrt_psd A).isHermitian
theorem sqrt_sq {A : Matrix n n ℂ} (hA : A.PosSemidef) : CFC.sqrt A * CFC.sqrt A = A := CFC.sqrt_mul_sqrt_self A hA.nonneg
theorem sqrt_eq {A S : Matrix n n ℂ} (hS : S.PosSemidef) (h : S * S = A) : CFC.sqrt A = S := CFC.sqrt_unique h hS.nonneg

theorem trace_psd {A : Matrix n n ℂ} (hA : A.PosSemidef) : 0 ≤ (trace A).re ∧ trace A = ((trace A).re : ℂ) := by
  have h := hA.trace_nonneg
  rw [Complex.le_def] at h
  exact ⟨h.1, Complex.ext rfl h.2.symm⟩

theorem mid_psd {A B : Matrix n n ℂ} (hB : B.PosSemidef) : (CFC.sqrt A * B * CFC.sqrt A).PosSemidef := by
  have := hB.mul_mul_conjTranspose_same (CFC.sqrt A)
  rwa [sqrt_herm] at this

/-- The trace whose square is the fidelity. -/
noncomputable def rootFid (A B : Matrix n n ℂ) : ℝ := (trace (CFC.sqrt (CFC.sqrt A * B * CFC.sqrt A))).re

theorem rootFid_nonneg (A B : Matrix n n ℂ) : 0 ≤ rootFid A B := (trace_psd (sqrt_psd _)).1
theorem trace_rootFid (A B : Matrix n n ℂ) : trace (CFC.sqrt (CFC.sqrt A * B * CFC.sqrt A)) = (rootFid A B : ℂ) := (trace_psd (sqrt_psd _)).2

theorem fidelity_eq (A B : Matrix n n ℂ) : fidelity A B = rootFid A B ^ 2 := by
  unfold fidelity
  rw [trace_rootFid, norm_pow, Complex.norm_real, Real.norm_of_nonneg (rootFid_nonneg A B)]

/-- `√B √A = U S` with a unitary `U`, where `S` is the matrix whose trace is taken. -/
theorem fid_polar {A B : Matrix n n ℂ} (hB : B.PosSemidef) : ∃ U : Matrix n n ℂ, Uᴴ * U = 1 ∧ U * Uᴴ = 1 ∧
    CFC.sqrt B * CFC.sqrt A = U * CFC.sqrt (CFC.sqrt A * B * CFC.sqrt A) := by
  refine polar ?_
  rw [conjTranspose_mul, sqrt_herm, sqrt_herm, sqrt_herm, sqrt_sq (mid_psd hB)]
  calc CFC.sqrt A * CFC.sqrt B * (CFC.sqrt B * CFC.sqrt A) = CFC.sqrt A * (CFC.sqrt B * CFC.sqrt B) * CFC.sqrt A := by noncomm_ring
    _ = _ := by rw [sqrt_sq hB]

theorem sqrt_conj {U S : Matrix n n ℂ} (hU : Uᴴ * U = 1) (hS : S.PosSemidef) : CFC.sqrt (U * S * Uᴴ) = U * CFC.sqrt S * Uᴴ := by
  refine sqrt_eq ((sqrt_psd S).mul_mul_conjTranspose_same U) ?_
  calc U * CFC.sqrt S * Uᴴ * (U * CFC.sqrt S * Uᴴ) = U * CFC.sqrt S * (Uᴴ * U) * CFC.sqrt S * Uᴴ := by noncomm_ring
    _ = U * (CFC.sqrt S * CFC.sqrt S) * Uᴴ := by rw [hU]; noncomm_ring
    _ = _ := by rw [sqrt_sq hS]

/-- **C92** (symmetry) the fidelity does not depend on the order of the states. -/
theorem C92_comm {A B : Matrix n n ℂ} (hA : A.PosSemidef) (hB : B.PosSemidef) : fidelity A B = fidelity B A := by
  obtain ⟨U, h1, h2, h3⟩ := fid_polar (A := A) hB
  obtain ⟨S, hS⟩ : ∃ S, S = CFC.sqrt (CFC.sqrt A * B * CFC.sqrt A) := ⟨_, rfl⟩
  rw [← hS] at h3
  have pS : S.PosSemidef := hS ▸ sqrt_psd _
  have e : CFC.sqrt B * A * CFC.sqrt B = U * (S * S) * Uᴴ := by
    have e1 : CFC.sqrt B * A * CFC.sqrt B = (CFC.sqrt B * CFC.sqrt A) * (CFC.sqrt B * CFC.sqrt A)ᴴ := by
      rw [conjTranspose_mul, sqrt_herm, sqrt_herm]
      calc CFC.sqrt B * A * CFC.sqrt B = CFC.sqrt B * (CFC.sqrt A * CFC.sqrt A) * CFC.sqrt B := by rw [sqrt_sq hA]
        _ = _ := by noncomm_ring
    rw [e1, h3, conjTranspose_mul, pS.isHermitian.eq]
    noncomm_ring
  have e2 : CFC.sqrt (CFC.sqrt B * A * CFC.sqrt B) = U * S * Uᴴ := by
    refine sqrt_eq (pS.mul_mul_conjTranspose_same U) ?_
    rw [e]
    calc U * S * Uᴴ * (U * S * Uᴴ) = U * S * (Uᴴ * U) * S * Uᴴ := by noncomm_ring
      _ = _ := by rw [h1]; noncomm_ring
  unfold fidelity
  rw [e2, ← hS, trace_mul_comm, ← Matrix.mul_assoc, h1, Matrix.one_mul]

/-! ## Bounds -/

theorem trace_inner (P Q : Matrix n n ℂ) : trace (Pᴴ * Q) = inner ℂ (WithLp.toLp 2 fun x : n × n => P x.1 x.2) (WithLp.toLp 2 fun x : n × n => Q x.1 x.2) := by
  rw [PiLp.inner_apply, trace, Fintype.sum_prod_type, Finset.sum_comm]
  refine Finset.sum_congr rfl fun i _ => ?_
  rw [diag_apply, mul_apply]
  refine Finset.sum_congr rfl fun j _ => ?_
  rw [RCLike.inner_apply']
  rfl

theorem trace_norm (P : Matrix n n ℂ) : (trace (Pᴴ * P)).re = ‖(WithLp.toLp 2 fun x : n × n => P x.1 x.2 : EuclideanSpace ℂ (n × n))‖ ^ 2 := by
  rw [trace_inner]
  exact inner_self_eq_norm_sq (𝕜 := ℂ) _

theorem rootFid_trace {A B U : Matrix n n ℂ} (h1 : Uᴴ * U = 1) (h3 : CFC.sqrt B * CFC.sqrt A = U * CFC.sqrt (CFC.sqrt A * B * CFC.sqrt A)) :
    trace ((CFC.sqrt B * U)ᴴ * CFC.sqrt A) = (rootFid A B : ℂ) := by
  rw [← trace_rootFid, conjTranspose_mul, sqrt_herm, Matrix.mul_assoc, h3, ← Matrix.mul_assoc, h1, Matrix.one_mul]

theorem norm_BU {B U : Matrix n n ℂ} (hB : B.PosSemidef) (h2 : U * Uᴴ = 1) : trace ((CFC.sqrt B * U)ᴴ * (CFC.sqrt B * U)) = trace B := by
  rw [conjTranspose_mul, sqrt_herm, trace_mul_comm]
  have : CFC.sqrt B * U * (Uᴴ * CFC.sqrt B) = CFC.sqrt B * (U * Uᴴ) * CFC.sqrt B := by noncomm_ring
  rw [this, h2, Matrix.mul_one, sqrt_sq hB]

theorem norm_A {A : Matrix n n ℂ} (hA : A.PosSemidef) : trace ((CFC.sqrt A)ᴴ * CFC.sqrt A) = trace A := by rw [sqrt_herm, sqrt_sq hA]

/-- **C92** (bounds) the fidelity lies between 0 and the product of the traces. -/
theorem C92_bounds {A B : Matrix n n ℂ} (hA : A.PosSemidef) (hB : B.PosSemidef) : 0 ≤ fidelity A B ∧ fidelity A B ≤ (trace A).re * (trace B).re := by
  refine ⟨norm_nonneg _, ?_⟩
  obtain ⟨U, h1, h2, h3⟩ := fid_polar (A := A) hB
  rw [fidelity_eq]
  have e := rootFid_trace h1 h3
  rw [trace_inner] at e
  have e1 := norm_inner_le_norm (𝕜 := ℂ) (WithLp.toLp 2 fun x : n × n => (CFC.sqrt B * U) x.1 x.2 : EuclideanSpace ℂ (n × n)) (WithLp.toLp 2 fun x : n × n => CFC.sqrt A x.1 x.2)
  rw [e, Complex.norm_real, Real.norm_of_nonneg (rootFid_nonneg A B)] at e1
  have e2 := pow_le_pow_left₀ (rootFid_nonneg A B) e1 2
  rw [mul_pow, ← trace_norm, ← trace_norm, norm_BU hB h2, norm_A hA, mul_comm] at e2
  exact e2

theorem trace_zero {A : Matrix n n ℂ} (hA : A.PosSemidef) (h : (trace A).re = 0) : A = 0 := by
  rw [← hA.trace_eq_zero_iff]
  rw [(trace_psd hA).2, h]
  rfl

/-- **C92** (equality) the fidelity is the product of the traces exactly for proportional states; for normalised states it is 1 exactly if they are equal. -/
theorem C92_one {A B : Matrix n n ℂ} (hA : A.PosSemidef) (hB : B.PosSemidef) : fidelity A B = (trace A).re * (trace B).re ↔ trace A • B = trace B • A := by
  constructor
  · intro h
    by_cases a0 : A = 0
    · rw [a0]
      simp
    by_cases b0 : B = 0
    · rw [b0]
      simp
    obtain ⟨U, h1, h2, h3⟩ := fid_polar (A := A) hB
    have e := rootFid_trace h1 h3
    rw [trace_inner] at e
    obtain ⟨x, hx⟩ : ∃ x, x = (WithLp.toLp 2 fun x : n × n => (CFC.sqrt B * U) x.1 x.2 : EuclideanSpace ℂ (n × n)) := ⟨_, rfl⟩
    obtain ⟨y, hy⟩ : ∃ y, y = (WithLp.toLp 2 fun x : n × n => (CFC.sqrt A) x.1 x.2 : EuclideanSpace ℂ (n × n)) := ⟨_, rfl⟩
    have nx : ‖x‖ ^ 2 = (trace B).re := by rw [hx, ← trace_norm, norm_BU hB h2]
    have ny : ‖y‖ ^ 2 = (trace A).re := by rw [hy, ← trace_norm, norm_A hA]
    have x0 : x ≠ 0 := by
      intro h0
      rw [h0, norm_zero] at nx
      exact b0 (trace_zero hB (by rw [← nx]; norm_num))
    have y0 : y ≠ 0 := by
      intro h0
      rw [h0, norm_zero] at ny
      exact a0 (trace_zero hA (by rw [← ny]; norm_num))
    rw [← hx, ← hy] at e
    have ne : ‖(inner ℂ x y : ℂ)‖ = ‖x‖ * ‖y‖ := by
      rw [e, Complex.norm_real, Real.norm_of_nonneg (rootFid_nonneg A B)]
      rw [fidelity_eq, ← nx, ← ny, mul_comm, ← mul_pow] at h
      exact (sq_eq_sq₀ (rootFid_nonneg A B) (by positivity)).mp h
    obtain ⟨r, _, hr⟩ := (norm_inner_eq_norm_iff x0 y0).mp ne
    have hm : CFC.sqrt A = r • (CFC.sqrt B * U) := by
      ext i j
      have := congrArg (fun z : EuclideanSpace ℂ (n × n) => z.ofLp (i, j)) hr
      rw [hx, hy] at this
      exact this
    have hAB : A = (r * star r) • B := by
      have e1 : A = CFC.sqrt A * (CFC.sqrt A)ᴴ := by rw [sqrt_herm, sqrt_sq hA]
      rw [e1, hm, conjTranspose_smul, conjTranspose_mul, sqrt_herm, smul_mul_smul_comm]
      have : CFC.sqrt B * U * (Uᴴ * CFC.sqrt B) = CFC.sqrt B * (U * Uᴴ) * CFC.sqrt B := by noncomm_ring
      rw [this, h2, Matrix.mul_one, sqrt_sq hB]
    rw [hAB, trace_smul, smul_smul, smul_eq_mul, mul_comm]
  · intro h
    by_cases a0 : A = 0
    · have := (C92_bounds hA hB).2
      rw [a0, Matrix.trace_zero] at *
      rw [Complex.zero_re, zero_mul] at *
      exact le_antisymm this (C92_bounds PosSemidef.zero hB).1
    have ta : (trace A).re ≠ 0 := fun h0 => a0 (trace_zero hA h0)
    have pa : 0 < (trace A).re := lt_of_le_of_ne (trace_psd hA).1 ta.symm
    obtain ⟨c, hc⟩ : ∃ c : ℝ, c = (trace B).re / (trace A).re := ⟨_, rfl⟩
    have c0 : 0 ≤ c := hc ▸ div_nonneg (trace_psd hB).1 pa.le
    have hBc : B = (c : ℂ) • A := by
      have ta' : trace A ≠ 0 := fun h0 => ta (by rw [h0]; rfl)
      have : B = (trace A)⁻¹ • (trace A • B) := by rw [smul_smul, inv_mul_cancel₀ ta', one_smul]
      rw [this, h, smul_smul]
      congr 1
      rw [(trace_psd hA).2, (trace_psd hB).2, hc]
      push_cast
      rw [div_eq_inv_mul]
    have es : CFC.sqrt (CFC.sqrt A * B * CFC.sqrt A) = (Real.sqrt c : ℂ) • A := by
      refine sqrt_eq (hA.smul (by simpa using Real.sqrt_nonneg c)) ?_
      rw [hBc, smul_mul_smul_comm, ← Complex.ofReal_mul, Real.mul_self_sqrt c0, Matrix.mul_smul, Matrix.smul_mul]
      congr 1
      calc A * A = (CFC.sqrt A * CFC.sqrt A) * (CFC.sqrt A * CFC.sqrt A) := by rw [sqrt_sq hA]
        _ = CFC.sqrt A * (CFC.sqrt A * CFC.sqrt A) * CFC.sqrt A := by noncomm_ring
        _ = _ := by rw [sqrt_sq hA]
    unfold fidelity
    rw [es, trace_smul, (trace_psd hA).2, smul_eq_mul, ← Complex.ofReal_mul, ← Complex.ofReal_pow, Complex.norm_real, Real.norm_of_nonneg (by positivity), mul_pow,
      Real.sq_sqrt c0, hc, Complex.ofReal_re]
    field_simp

end Verif.Fid
