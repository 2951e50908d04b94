import Verif.FockFidelity

/-!
# Fidelity of density matrices (C92): truncation, transposition, pure states
-/

namespace Verif.Fid

open scoped ComplexOrder MatrixOrder Matrix
open Matrix

variable {n m p : Type*} [Fintype n] [DecidableEq n] [Fintype m] [DecidableEq m] [Fintype p] [DecidableEq p]

theorem sqrt_iso {E : Matrix n m ℂ} {S : Matrix m m ℂ} (hE : Eᴴ * E = 1) (hS : S.PosSemidef) : CFC.sqrt (E * S * Eᴴ) = E * CFC.sqrt S * Eᴴ := by
  refine sqrt_eq ((sqrt_psd S).mul_mul_conjTranspose_same E) ?_
  calc E * CFC.sqrt S * Eᴴ * (E * CFC.sqrt S * Eᴴ) = E * CFC.sqrt S * (Eᴴ * E) * CFC.sqrt S * Eᴴ := by simp only [Matrix.mul_assoc]
    _ = E * (CFC.sqrt S * CFC.sqrt S) * Eᴴ := by rw [hE, Matrix.mul_one]; simp only [Matrix.mul_assoc]
    _ = _ := by rw [sqrt_sq hS]

/-- Compressing onto a subspace that carries one of the states does not change the fidelity. -/
theorem fid_iso {E : Matrix n m ℂ} {A : Matrix n n ℂ} {B : Matrix m m ℂ} (hE : Eᴴ * E = 1) (hA : A.PosSemidef) (hB : B.PosSemidef) :
    fidelity A (E * B * Eᴴ) = fidelity (Eᴴ * A * E) B := by
  have hEA : (Eᴴ * A * E).PosSemidef := hA.conjTranspose_mul_mul_same E
  rw [C92_comm hA (hB.mul_mul_conjTranspose_same E), C92_comm hEA hB]
  unfold fidelity
  have e : CFC.sqrt (E * B * Eᴴ) * A * CFC.sqrt (E * B * Eᴴ) = E * (CFC.sqrt B * (Eᴴ * A * E) * CFC.sqrt B) * Eᴴ := by
    rw [sqrt_iso hE hB]
    simp only [Matrix.mul_assoc]
  rw [e, sqrt_iso hE (mid_psd hEA), trace_mul_comm, ← Matrix.mul_assoc, hE, Matrix.one_mul]

/-- The isometry of an injective map of indices. -/
def emb (e : m → n) : Matrix n m ℂ := fun i k => if i = e k then 1 else 0

theorem emb_iso {e : m → n} (he : Function.Injective e) : (emb e)ᴴ * emb e = 1 := by
  ext i j
  rw [mul_apply]
  simp only [conjTranspose_apply, emb, apply_ite star, star_one, star_zero, ite_mul, one_mul, zero_mul]
  rw [Finset.sum_ite_eq' Finset.univ (e i)]
  rw [if_pos (Finset.mem_univ _), one_apply]
  by_cases h : i = j
  · rw [if_pos (by rw [h]), if_pos h]
  · rw [if_neg fun h' => h (he h'), if_neg h]

theorem emb_sub {e : m → n} (A : Matrix n n ℂ) : (emb e)ᴴ * A * emb e = A.submatrix e e := by
  ext i j
  rw [mul_apply]
  simp only [mul_apply, conjTranspose_apply, emb, apply_ite star, star_one, star_zero, ite_mul, one_mul, zero_mul, mul_ite, mul_one, mul_zero]
  rw [Finset.sum_ite_eq' Finset.univ (e j), if_pos (Finset.mem_univ _), Finset.sum_ite_eq' Finset.univ (e i), if_pos (Finset.mem_univ _)]
  rfl

theorem emb_expand {e : m → n} (he : Function.Injective e) {B : Matrix n n ℂ} (h : ∀ i j, B i j ≠ 0 → i ∈ Set.range e ∧ j ∈ Set.range e) :
    emb e * B.submatrix e e * (emb e)ᴴ = B := by
  ext i j
  rw [mul_apply]
  simp only [mul_apply, conjTranspose_apply, emb, apply_ite star, star_one, star_zero, ite_mul, one_mul, zero_mul, mul_ite, mul_one, mul_zero, submatrix_apply]
  by_cases hi : i ∈ Set.range e
  · by_cases hj : j ∈ Set.range e
    · obtain ⟨a, rfl⟩ := hi
      obtain ⟨b, rfl⟩ := hj
      rw [Finset.sum_eq_single b]
      · rw [if_pos rfl, Finset.sum_eq_single a]
        · rw [if_pos rfl]
        · intro c _ hc
          rw [if_neg fun h' => hc (he h').symm]
        · simp
      · intro c _ hc
        rw [if_neg fun h' => hc (he h').symm]
      · simp
    · have : B i j = 0 := by
        by_contra h0
        exact hj (h i j h0).2
      rw [this]
      refine Finset.sum_eq_zero fun b _ => ?_
      rw [if_neg fun h' => hj ⟨b, h'.symm⟩]
  · have : B i j = 0 := by
      by_contra h0
      exact hi (h i j h0).1
    rw [this]
    refine Finset.sum_eq_zero fun b _ => ?_
    have : ∑ x, (if i = e x then B (e x) (e b) else 0) = 0 := Finset.sum_eq_zero fun a _ => by rw [if_neg fun h' => hi ⟨a, h'.symm⟩]
    rw [this, ite_self]

/-- Deleting rows and columns on which one of the states vanishes does not change the fidelity. -/
theorem fid_sub {e : m → n} (he : Function.Injective e) {A B : Matrix n n ℂ} (hA : A.PosSemidef) (hB : B.PosSemidef)
    (h : ∀ i j, B i j ≠ 0 → i ∈ Set.range e ∧ j ∈ Set.range e) : fidelity A B = fidelity (A.submatrix e e) (B.submatrix e e) := by
  have := fid_iso (E := emb e) (emb_iso he) hA (hB.submatrix e)
  rw [emb_expand he h, emb_sub] at this
  exact this

/-- Truncating both states to the rows and columns that both have does not change the fidelity. -/
theorem fid_trunc {e : m → n} (he : Function.Injective e) {A B : Matrix n n ℂ} (hA : A.PosSemidef) (hB : B.PosSemidef) (S T : n → Prop)
    (h1 : ∀ i j, A i j ≠ 0 → S i ∧ S j) (h2 : ∀ i j, B i j ≠ 0 → T i ∧ T j) (hr : ∀ i, i ∈ Set.range e ↔ S i ∧ T i) :
    fidelity A B = fidelity (A.submatrix e e) (B.submatrix e e) := by
  classical
  have hT : ∀ k, T (e k) := fun k => ((hr _).mp ⟨k, rfl⟩).2
  obtain ⟨u, hu⟩ : ∃ u : {i // T i} → n, u = Subtype.val := ⟨_, rfl⟩
  obtain ⟨v, hv⟩ : ∃ v : m → {i // T i}, v = fun k => ⟨e k, hT k⟩ := ⟨_, rfl⟩
  have hvi : Function.Injective v := by
    intro a b h
    rw [hv] at h
    exact he (congrArg Subtype.val h)
  rw [fid_sub (e := u) (by rw [hu]; exact Subtype.val_injective) hA hB]
  · rw [C92_comm (hA.submatrix u) (hB.submatrix u), fid_sub (e := v) hvi (hB.submatrix u) (hA.submatrix u), C92_comm ((hB.submatrix u).submatrix v) ((hA.submatrix u).submatrix v)]
    · rw [submatrix_submatrix, submatrix_submatrix]
      have : u ∘ v = e := by
        rw [hu, hv]
        rfl
      rw [this]
    · intro i j h0
      rw [submatrix_apply] at h0
      obtain ⟨a, b⟩ := h1 _ _ h0
      rw [hu] at a b
      have key : ∀ i : {i // T i}, S i.1 → i ∈ Set.range v := by
        intro i hi
        obtain ⟨k, hk⟩ := (hr i.1).mpr ⟨hi, i.2⟩
        refine ⟨k, ?_⟩
        rw [hv]
        exact Subtype.ext hk
      exact ⟨key i a, key j b⟩
  · intro i j h0
    obtain ⟨a, b⟩ := h2 _ _ h0
    rw [hu]
    exact ⟨⟨⟨i, a⟩, rfl⟩, ⟨⟨j, b⟩, rfl⟩⟩

theorem sqrt_transpose {A : Matrix n n ℂ} (hA : A.PosSemidef) : CFC.sqrt Aᵀ = (CFC.sqrt A)ᵀ := by
  refine sqrt_eq (sqrt_psd A).transpose ?_
  rw [← transpose_mul, sqrt_sq hA]

/-- Transposing both states does not change the fidelity. -/
theorem fid_transpose {A B : Matrix n n ℂ} (hA : A.PosSemidef) (hB : B.PosSemidef) : fidelity Aᵀ Bᵀ = fidelity A B := by
  unfold fidelity
  have e : CFC.sqrt Aᵀ * Bᵀ * CFC.sqrt Aᵀ = (CFC.sqrt A * B * CFC.sqrt A)ᵀ := by
    rw [sqrt_transpose hA, transpose_mul, transpose_mul]
    simp only [Matrix.mul_assoc]
  rw [e, sqrt_transpose (mid_psd hB), trace_transpose]

/-- **C92** (unitary invariance) applying the same unitary to both states does not change the fidelity. -/
theorem C92_unitary {U A B : Matrix n n ℂ} (hU : Uᴴ * U = 1) (hA : A.PosSemidef) (hB : B.PosSemidef) : fidelity (U * A * Uᴴ) (U * B * Uᴴ) = fidelity A B := by
  rw [fid_iso hU (hA.mul_mul_conjTranspose_same U) hB]
  have : Uᴴ * (U * A * Uᴴ) * U = (Uᴴ * U) * A * (Uᴴ * U) := by simp only [Matrix.mul_assoc]
  rw [this, hU, Matrix.one_mul, Matrix.mul_one]

/-- **C92** (pure states) the fidelity with a pure state is the expectation value `⟨v|B|v⟩`. -/
theorem C92_pure (v : n → ℂ) {B : Matrix n n ℂ} (hB : B.PosSemidef) : ((fidelity (vecMulVec v (star v)) B : ℝ) : ℂ) = star v ⬝ᵥ (B *ᵥ v) := by
  obtain ⟨E, hE⟩ : ∃ E : Matrix n Unit ℂ, E = replicateCol Unit v := ⟨_, rfl⟩
  have hvv : vecMulVec v (star v) = E * Eᴴ := by
    rw [hE, conjTranspose_replicateCol, vecMulVec_eq Unit]
  have pv : (vecMulVec v (star v)).PosSemidef := posSemidef_vecMulVec_self_star v
  -- the fidelity is the squared trace norm of `√B v v*`: use the square root of `√B v v* √B`, of rank one
  obtain ⟨w, hw⟩ : ∃ w, w = CFC.sqrt B *ᵥ v := ⟨_, rfl⟩
  have hr : CFC.sqrt B * vecMulVec v (star v) * CFC.sqrt B = vecMulVec w (star w) := by
    rw [mul_vecMulVec, vecMulVec_mul, ← hw]
    congr 1
    rw [hw, star_mulVec, sqrt_herm]
  have hww : star w ⬝ᵥ w = star v ⬝ᵥ (B *ᵥ v) := by
    rw [hw, star_mulVec, sqrt_herm, ← dotProduct_mulVec, mulVec_mulVec, sqrt_sq hB]
  obtain ⟨t, ht⟩ : ∃ t : ℝ, t = (star w ⬝ᵥ w).re := ⟨_, rfl⟩
  have h0 : 0 ≤ star w ⬝ᵥ w := dotProduct_star_self_nonneg w
  have ht' : star w ⬝ᵥ w = (t : ℂ) := by
    rw [Complex.le_def] at h0
    rw [ht]
    exact Complex.ext rfl h0.2.symm
  have t0 : 0 ≤ t := by
    rw [Complex.le_def] at h0
    rw [ht]
    exact h0.1
  rw [C92_comm pv hB, ← hww, ht']
  unfold fidelity
  rw [hr]
  by_cases hz : t = 0
  · have : w = 0 := by
      rw [hz] at ht'
      exact dotProduct_star_self_eq_zero.mp ht'
    rw [this, hz]
    simp
  · have hs : CFC.sqrt (vecMulVec w (star w)) = ((Real.sqrt t)⁻¹ : ℂ) • vecMulVec w (star w) := by
      refine sqrt_eq ((posSemidef_vecMulVec_self_star w).smul ?_) ?_
      · rw [← Complex.ofReal_inv]
        exact_mod_cast inv_nonneg.mpr (Real.sqrt_nonneg t)
      · rw [smul_mul_smul_comm, vecMulVec_mul_vecMulVec, ht', vecMulVec_smul, smul_smul, ← mul_inv, ← Complex.ofReal_mul, Real.mul_self_sqrt t0, inv_mul_cancel₀, one_smul]
        exact_mod_cast hz
    rw [hs, trace_smul, trace_vecMulVec, dotProduct_comm, ht', smul_eq_mul, ← Complex.ofReal_inv, ← Complex.ofReal_mul, ← Complex.ofReal_pow, Complex.norm_real,
      Real.norm_of_nonneg (by positivity)]
    have := Real.sq_sqrt t0
    congr 1
    rw [mul_pow, inv_pow, this]
    field_simp

end Verif.Fid
