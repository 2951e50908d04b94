import Verif.BargmannSymp
import Mathlib.Analysis.Calculus.MeanValue
import Mathlib.Analysis.Calculus.FDeriv.Pi
import Mathlib.Analysis.Calculus.Deriv.Pow
import Mathlib.Analysis.Calculus.Deriv.Mul

/-!
# The unitary built from a symplectic matrix acts on the quadratures by that matrix (C64)
-/

namespace Verif.Manifold
open Matrix

variable {n : Type*} [Fintype n] [DecidableEq n]

theorem quad_update {p : Type*} [Fintype p] [DecidableEq p] {A : Matrix p p ℂ} (hA : Aᵀ = A) (v : p → ℂ) (i : p) :
    HasDerivAt (fun t => 1 / 2 * (Function.update v i t ⬝ᵥ A.mulVec (Function.update v i t))) (A.mulVec v i) (v i) := by
  have e : ∀ t, Function.update v i t = v + (t - v i) • Pi.single i (1 : ℂ) := fun t => by
    ext j
    by_cases h : j = i
    · subst h; simp
    · simp [h]
  have hq : (fun t => 1 / 2 * (Function.update v i t ⬝ᵥ A.mulVec (Function.update v i t))) =
      fun t => 1 / 2 * (v ⬝ᵥ A.mulVec v) + (t - v i) * A.mulVec v i + 1 / 2 * (t - v i) ^ 2 * A i i := by
    funext t
    rw [e, Matrix.mulVec_add, Matrix.mulVec_smul, add_dotProduct, dotProduct_add, dotProduct_add, smul_dotProduct,
      dotProduct_smul, smul_dotProduct, dotProduct_smul]
    have h1 : v ⬝ᵥ A.mulVec (Pi.single i 1) = A.mulVec v i := by
      rw [Matrix.dotProduct_mulVec, ← Matrix.mulVec_transpose, hA, dotProduct_single, mul_one]
    have h2 : Pi.single i (1 : ℂ) ⬝ᵥ A.mulVec v = A.mulVec v i := by rw [single_dotProduct, one_mul]
    have h3 : Pi.single i (1 : ℂ) ⬝ᵥ A.mulVec (Pi.single i 1) = A i i := by
      rw [single_dotProduct, one_mul, Matrix.mulVec_single_one]; rfl
    rw [h1, h2, h3]
    simp only [smul_eq_mul]
    ring
  rw [hq]
  have h0 : HasDerivAt (fun t : ℂ => t - v i) 1 (v i) := (hasDerivAt_id _).sub_const _
  have := ((h0.mul_const (A.mulVec v i)).const_add (1 / 2 * (v ⬝ᵥ A.mulVec v))).add
    (((h0.pow 2).const_mul (1 / 2 : ℂ)).mul_const (A i i))
  refine this.congr_deriv ?_
  simp

/-- The logarithmic derivatives of a Gaussian. -/
theorem gauss_update {p : Type*} [Fintype p] [DecidableEq p] {A : Matrix p p ℂ} (hA : Aᵀ = A) (c : ℂ) (v : p → ℂ) (i : p) :
    HasDerivAt (fun t => c * Complex.exp (1 / 2 * (Function.update v i t ⬝ᵥ A.mulVec (Function.update v i t))))
      (A.mulVec v i * (c * Complex.exp (1 / 2 * (v ⬝ᵥ A.mulVec v)))) (v i) := by
  have := (quad_update hA v i).cexp.const_mul c
  refine this.congr_deriv ?_
  rw [Function.update_eq_self]
  ring

/-- Rows of `R†` applied to the ladder vectors. -/
theorem rot_row (x y : n → ℂ) :
    ((rotmat n)ᴴ).mulVec (Sum.elim x y) = Sum.elim (fun i => (x i + y i) / (Real.sqrt 2 : ℝ))
      (fun i => (x i - y i) / (Complex.I * (Real.sqrt 2 : ℝ))) := by
  have hs : ((Real.sqrt (1 / 2) : ℝ) : ℂ) = 1 / (Real.sqrt 2 : ℝ) := by rw [← sqrt_half']; push_cast; rfl
  have h2 : ((Real.sqrt 2 : ℝ) : ℂ) ≠ 0 := by
    rw [Complex.ofReal_ne_zero]; positivity
  rw [rotmat_conjT, Matrix.smul_mulVec, fromBlocks_mulVec, hs]
  funext r
  rcases r with i | i
  · simp
    ring
  · simp [Matrix.neg_mulVec, Matrix.smul_mulVec]
    field_simp
    rw [Complex.I_sq]
    ring

/-- `Implements`, in terms of ladder operators. -/
theorem implements_iff (F : (n → ℂ) → (n → ℂ) → ℂ) (S : Matrix (n ⊕ n) (n ⊕ n) ℝ) :
    Implements F S ↔ ∀ z w,
      (fun i => deriv (fun t => F (Function.update z i t) w) (z i)) = (cS1 S).mulVec (fun i => w i * F z w) +
        (cS2 S).mulVec (fun i => deriv (fun t => F z (Function.update w i t)) (w i)) ∧
      (fun i => z i * F z w) = (cj (cS2 S)).mulVec (fun i => w i * F z w) +
        (cj (cS1 S)).mulVec (fun i => deriv (fun t => F z (Function.update w i t)) (w i)) := by
  set R := rotmat n with hR
  have hl : ∀ z w, (fun r => quadLeft F r z w) = Rᴴ.mulVec (Sum.elim
      (fun i => deriv (fun t => F (Function.update z i t) w) (z i)) (fun i => z i * F z w)) := fun z w => by
    rw [rot_row]
    funext r
    rcases r with i | i <;> rfl
  have hr : ∀ z w, (fun r => quadRight F r z w) = Rᴴ.mulVec (Sum.elim (fun i => w i * F z w)
      (fun i => deriv (fun t => F z (Function.update w i t)) (w i))) := fun z w => by
    rw [rot_row]
    funext r
    rcases r with i | i <;> rfl
  have hS : ∀ x : n ⊕ n → ℂ, (toC S).mulVec (Rᴴ.mulVec x) =
      Rᴴ.mulVec ((fromBlocks (cS1 S) (cS2 S) (cj (cS2 S)) (cj (cS1 S))).mulVec x) := fun x => by
    rw [← rot_blocks, Matrix.mulVec_mulVec, Matrix.mulVec_mulVec, ← hR]
    refine congrArg (fun M : Matrix (n ⊕ n) (n ⊕ n) ℂ => M.mulVec x) ?_
    calc toC S * Rᴴ = (Rᴴ * R) * toC S * Rᴴ := by rw [rotmat_mul', Matrix.one_mul]
      _ = _ := by simp only [Matrix.mul_assoc]
  have hinj : ∀ x y : n ⊕ n → ℂ, Rᴴ.mulVec x = Rᴴ.mulVec y → x = y := fun x y h => by
    have := congrArg R.mulVec h
    rwa [Matrix.mulVec_mulVec, Matrix.mulVec_mulVec, rotmat_mul, Matrix.one_mulVec, Matrix.one_mulVec] at this
  have main : Implements F S ↔ ∀ z w, (fun r => quadLeft F r z w) = (toC S).mulVec (fun s => quadRight F s z w) :=
    ⟨fun h z w => funext fun r => h r z w, fun h r z w => congrFun (h z w) r⟩
  rw [main]
  refine forall_congr' fun z => forall_congr' fun w => ?_
  rw [hl, hr, hS, fromBlocks_mulVec]
  constructor
  · intro h
    have := hinj _ _ h
    exact ⟨funext fun i => congrFun this (Sum.inl i), funext fun i => congrFun this (Sum.inr i)⟩
  · rintro ⟨h1, h2⟩
    refine congrArg _ (funext fun r => ?_)
    rcases r with i | i
    · exact congrFun h1 i
    · exact congrFun h2 i

/-- **C64 (action)** The unitary built from a symplectic matrix `S` transforms the quadratures by `S`. -/
theorem C64_implements (S : Matrix (n ⊕ n) (n ⊕ n) ℝ) (h : Symplectic S) : Implements (fromSymplectic S) S := by
  rw [implements_iff]
  intro z w
  have hs := C64_symm S h
  have dz : ∀ i, deriv (fun t => fromSymplectic S (Function.update z i t) w) (z i) =
      (symplectic2Au S).mulVec (Sum.elim z w) (Sum.inl i) * fromSymplectic S z w := fun i => by
    have := gauss_update hs (fromSymplecticC S) (Sum.elim z w) (Sum.inl i)
    unfold fromSymplectic
    simp only [Sum.update_elim_inl] at this
    exact this.deriv
  have dw : ∀ i, deriv (fun t => fromSymplectic S z (Function.update w i t)) (w i) =
      (symplectic2Au S).mulVec (Sum.elim z w) (Sum.inr i) * fromSymplectic S z w := fun i => by
    have := gauss_update hs (fromSymplecticC S) (Sum.elim z w) (Sum.inr i)
    unfold fromSymplectic
    simp only [Sum.update_elim_inr] at this
    exact this.deriv
  simp only [dz, dw]
  obtain ⟨h1, h2⟩ := complex_symplectic h
  obtain ⟨i1, i2, k1, k2, k3⟩ := block_relations h1 h2
  rw [symplectic2Au_eq h, fromBlocks_mulVec]
  simp only [Sum.elim_inl, Sum.elim_inr, Sum.elim_comp_inl, Sum.elim_comp_inr]
  set S1 := cS1 S
  set S2 := cS2 S
  set f := fromSymplectic S z w
  have sm : ∀ x : n → ℂ, (fun i => x i * f) = f • x := fun x => funext fun i => mul_comm _ _
  simp only [sm, Matrix.mulVec_smul, ← smul_add]
  have hi : cj S1 * cj S1⁻¹ = 1 := by rw [← cj_mul, i2, cj_one]
  constructor
  · refine congrArg _ ?_
    rw [Matrix.mulVec_add, Matrix.mulVec_mulVec, Matrix.mulVec_mulVec, ← k3, Matrix.sub_mulVec, Matrix.mul_neg,
      Matrix.neg_mulVec]
    abel
  · refine congrArg _ ?_
    rw [Matrix.mulVec_add, Matrix.mulVec_mulVec, Matrix.mulVec_mulVec, hi, Matrix.one_mulVec, Matrix.mul_neg,
      Matrix.neg_mulVec, cj_mul, ← Matrix.mul_assoc, hi, Matrix.one_mul]
    abel

end Verif.Manifold
