import Verif.FockFidelity
import Mathlib.Data.Complex.BigOperators
import Mathlib.Tactic.FinCases

/-!
# The square root of the back ends, and the fidelity computed with it (C119)
-/

namespace Verif.Fid

open scoped ComplexOrder MatrixOrder Matrix
open Matrix

variable {n : Type*} [Fintype n] [DecidableEq n]

/-- `allclose(tensor, 0, rtol, atol)`: `|x - 0| ≤ atol + rtol * 0` for every entry. -/
def Tiny (ε : ℝ) (X : Matrix n n ℂ) : Prop := ∀ i j, ‖X i j‖ ≤ ε

open Classical in
/-- math/backend_numpy.py:357-365 and math/backend_jax.py:444-455 `sqrtm` with `atol = ε`.  Simplification: `scipy.linalg.sqrtm` of a positive semidefinite matrix is its
positive semidefinite square root, without rounding; other matrices do not occur here. -/
noncomputable def sqrtm (ε : ℝ) (X : Matrix n n ℂ) : Matrix n n ℂ := if Tiny ε X then 0 else CFC.sqrt X

/-- physics/fock_utils.py:72-77 `fidelity`. -/
noncomputable def fidelityB (ε : ℝ) (A B : Matrix n n ℂ) : ℝ := ‖(trace (sqrtm ε (sqrtm ε A * B * sqrtm ε A))) ^ 2‖

theorem sqrtm_pos {ε : ℝ} {X : Matrix n n ℂ} (h : Tiny ε X) : sqrtm ε X = 0 := if_pos h
theorem sqrtm_neg {ε : ℝ} {X : Matrix n n ℂ} (h : ¬ Tiny ε X) : sqrtm ε X = CFC.sqrt X := if_neg h

theorem trace_tiny {ε : ℝ} {X : Matrix n n ℂ} (h : Tiny ε X) : (trace X).re ≤ Fintype.card n * ε := by
  unfold trace
  rw [Complex.re_sum]
  calc ∑ i, (X.diag i).re ≤ ∑ _i : n, ε := Finset.sum_le_sum fun i _ => (Complex.re_le_norm _).trans (h i i)
    _ = _ := by rw [Finset.sum_const, Finset.card_univ, nsmul_eq_mul]

/-- The square of the trace of the square root of a matrix with entries up to `ε`. -/
theorem tr_sqrt_tiny {ε : ℝ} {X : Matrix n n ℂ} (hX : X.PosSemidef) (h : Tiny ε X) : (trace (CFC.sqrt X)).re ^ 2 ≤ (Fintype.card n : ℝ) ^ 2 * ε := by
  have h1 := (C92_bounds (PosSemidef.one : (1 : Matrix n n ℂ).PosSemidef) hX).2
  have e1 : CFC.sqrt (1 : Matrix n n ℂ) = 1 := sqrt_eq PosSemidef.one (by rw [one_mul])
  rw [fidelity_eq] at h1
  unfold rootFid at h1
  rw [e1, one_mul, mul_one, trace_one, Complex.natCast_re] at h1
  refine h1.trans ?_
  rw [pow_two, mul_assoc]
  exact mul_le_mul_of_nonneg_left (trace_tiny h) (Nat.cast_nonneg _)

/-- **C119** the square root of a positive semidefinite matrix is right up to entries whose squares add up to at most `N²` times the tolerance: it is the exact root, or zero
for a matrix all of whose entries are below the tolerance. -/
theorem C119_sqrtm {ε : ℝ} (hε : 0 ≤ ε) {X : Matrix n n ℂ} (hX : X.PosSemidef) :
    (sqrtm ε X).PosSemidef ∧ (¬ Tiny ε X → sqrtm ε X * sqrtm ε X = X) ∧
    (trace ((sqrtm ε X - CFC.sqrt X)ᴴ * (sqrtm ε X - CFC.sqrt X))).re ≤ Fintype.card n * ε := by
  by_cases h : Tiny ε X
  · rw [sqrtm_pos h]
    refine ⟨PosSemidef.zero, fun h' => absurd h h', ?_⟩
    rw [zero_sub, conjTranspose_neg, neg_mul_neg, sqrt_herm, sqrt_sq hX]
    exact trace_tiny h
  · rw [sqrtm_neg h]
    refine ⟨sqrt_psd X, fun _ => sqrt_sq hX, ?_⟩
    rw [sub_self, mul_zero, Matrix.trace_zero]
    simpa using mul_nonneg (Nat.cast_nonneg _) hε

open Classical in
theorem fidelityB_cases {ε : ℝ} (hε : 0 ≤ ε) (A B : Matrix n n ℂ) :
    fidelityB ε A B = if Tiny ε A ∨ Tiny ε (CFC.sqrt A * B * CFC.sqrt A) then 0 else fidelity A B := by
  have z : Tiny ε (0 : Matrix n n ℂ) := fun i j => by rw [Matrix.zero_apply, norm_zero]; exact hε
  unfold fidelityB
  by_cases hA : Tiny ε A
  · rw [if_pos (Or.inl hA), sqrtm_pos hA, zero_mul, mul_zero, sqrtm_pos z, Matrix.trace_zero]
    simp
  · rw [sqrtm_neg hA]
    by_cases hX : Tiny ε (CFC.sqrt A * B * CFC.sqrt A)
    · rw [if_pos (Or.inr hX), sqrtm_pos hX, Matrix.trace_zero]
      simp
    · rw [if_neg (by rintro (h | h); exacts [hA h, hX h]), sqrtm_neg hX]
      rfl

/-- **C119** if no entry is cut, the code computes the fidelity; in any case it computes the fidelity or zero. -/
theorem C119_exact {ε : ℝ} (hε : 0 ≤ ε) (A B : Matrix n n ℂ) :
    (¬ Tiny ε A → ¬ Tiny ε (CFC.sqrt A * B * CFC.sqrt A) → fidelityB ε A B = fidelity A B) ∧ (fidelityB ε A B = fidelity A B ∨ fidelityB ε A B = 0) := by
  rw [fidelityB_cases hε]
  refine ⟨fun h h' => if_neg (by rintro (x | x); exacts [h x, h' x]), ?_⟩
  split_ifs
  · exact Or.inr rfl
  · exact Or.inl rfl

/-- A normalised density matrix of dimension below `1/ε` has an entry above the tolerance. -/
theorem C119_normalised {ε : ℝ} {A : Matrix n n ℂ} (h : (trace A).re = 1) (hn : Fintype.card n * ε < 1) : ¬ Tiny ε A := fun h' => by
  have := trace_tiny h'
  rw [h] at this
  linarith

/-- **C119** for a state `A` with an entry above the tolerance, the computed fidelity is at most the exact one and differs from it by at most `N²` times the tolerance; so it lies
between 0 and the product of the traces. -/
theorem C119_error {ε : ℝ} (hε : 0 ≤ ε) {A B : Matrix n n ℂ} (hA : A.PosSemidef) (hB : B.PosSemidef) (hA' : ¬ Tiny ε A) :
    0 ≤ fidelityB ε A B ∧ fidelityB ε A B ≤ fidelity A B ∧ fidelity A B - fidelityB ε A B ≤ (Fintype.card n : ℝ) ^ 2 * ε ∧
    fidelityB ε A B ≤ (trace A).re * (trace B).re := by
  have hb := C92_bounds hA hB
  have hN : 0 ≤ (Fintype.card n : ℝ) ^ 2 * ε := mul_nonneg (sq_nonneg _) hε
  rw [fidelityB_cases hε]
  split_ifs with h
  · have hX := h.resolve_left hA'
    have h1 := tr_sqrt_tiny (mid_psd hB) hX
    rw [sub_zero]
    exact ⟨le_rfl, hb.1, (fidelity_eq A B).le.trans h1, hb.1.trans hb.2⟩
  · exact ⟨hb.1, le_rfl, by rw [sub_self]; exact hN, hb.2⟩

/-- **C119** the computed fidelity is symmetric up to `N²` times the tolerance. -/
theorem C119_symmetric {ε : ℝ} (hε : 0 ≤ ε) {A B : Matrix n n ℂ} (hA : A.PosSemidef) (hB : B.PosSemidef) (hA' : ¬ Tiny ε A) (hB' : ¬ Tiny ε B) :
    |fidelityB ε A B - fidelityB ε B A| ≤ (Fintype.card n : ℝ) ^ 2 * ε := by
  obtain ⟨_, h1, h2, _⟩ := C119_error hε hA hB hA'
  obtain ⟨_, h3, h4, _⟩ := C119_error hε hB hA hB'
  rw [C92_comm hB hA] at h3 h4
  rw [abs_le]
  constructor <;> linarith

open Classical in
/-- The fidelity of two projections on vectors, in the order given. -/
theorem fidelityB_proj {ε : ℝ} (hε : 0 ≤ ε) {A B : Matrix n n ℂ} (hA : A.PosSemidef) (hAA : A * A = A) (h : ¬ Tiny ε A) {x : ℝ} (hx : 0 ≤ x) (hm : A * B * A = (x : ℂ) • A)
    (ht : (trace A) = 1) : fidelityB ε A B = if Tiny ε ((x : ℂ) • A) then 0 else x := by
  rw [fidelityB_cases hε]
  have e : CFC.sqrt A = A := sqrt_eq hA hAA
  rw [e, hm]
  by_cases h' : Tiny ε ((x : ℂ) • A)
  · rw [if_pos (Or.inr h'), if_pos h']
  · rw [if_neg (by rintro (y | y); exacts [h y, h' y]), if_neg h']
    have hs : CFC.sqrt ((x : ℂ) • A) = ((Real.sqrt x : ℝ) : ℂ) • A := by
      refine sqrt_eq ?_ ?_
      · exact hA.smul (by exact_mod_cast Real.sqrt_nonneg x)
      · rw [smul_mul_smul_comm, hAA, ← Complex.ofReal_mul, Real.mul_self_sqrt hx]
    unfold fidelity
    rw [e, hm, hs, trace_smul, ht, smul_eq_mul, mul_one, norm_pow, Complex.norm_real, Real.norm_of_nonneg (Real.sqrt_nonneg x), Real.sq_sqrt hx]

/-- The projection on a vector. -/
def proj (v : n → ℂ) : Matrix n n ℂ := vecMulVec v (star v)

theorem proj_mul (u v : n → ℂ) (h : star u ⬝ᵥ u = 1) {s : ℝ} (hs : star u ⬝ᵥ v = s) :
    (proj u).PosSemidef ∧ proj u * proj u = proj u ∧ trace (proj u) = 1 ∧ proj u * proj v * proj u = ((s ^ 2 : ℝ) : ℂ) • proj u := by
  have hs' : star v ⬝ᵥ u = s := by
    have := congrArg star hs
    rw [star_dotProduct, star_star] at this
    simpa using this
  refine ⟨posSemidef_vecMulVec_self_star u, ?_, ?_, ?_⟩
  · unfold proj
    rw [vecMulVec_mul_vecMulVec, h, one_smul]
  · unfold proj
    rw [trace_vecMulVec, dotProduct_comm, h]
  · unfold proj
    rw [vecMulVec_mul_vecMulVec, hs, vecMulVec_smul, Matrix.smul_mul, vecMulVec_mul_vecMulVec, hs', vecMulVec_smul, smul_smul, pow_two]
    push_cast
    rfl

/-- The vector `(√x, √((1-x)/2), √((1-x)/2))`. -/
noncomputable def spread (x : ℝ) : Fin 3 → ℂ := ![(Real.sqrt x : ℝ), (Real.sqrt ((1 - x) / 2) : ℝ), (Real.sqrt ((1 - x) / 2) : ℝ)]

/-- **C119, disagreement**: with the tolerance `1e-8` of the code, the fidelity of two normalised pure states is not symmetric: one order gives `1.5e-8`, the other zero. -/
theorem C119_asymmetric : fidelityB 1e-8 (proj ![1, 0, 0]) (proj (spread 1.5e-8)) = 1.5e-8 ∧ fidelityB 1e-8 (proj (spread 1.5e-8)) (proj ![1, 0, 0]) = 0 := by
  obtain ⟨x, hx⟩ : ∃ x : ℝ, x = 1.5e-8 := ⟨_, rfl⟩
  have hx0 : 0 ≤ x := by rw [hx]; norm_num
  have hy0 : 0 ≤ (1 - x) / 2 := by rw [hx]; norm_num
  rw [← hx]
  have c1 : ((Real.sqrt x : ℝ) : ℂ) * (Real.sqrt x : ℝ) = (x : ℂ) := by rw [← Complex.ofReal_mul, Real.mul_self_sqrt hx0]
  have c2 : ((Real.sqrt ((1 - x) / 2) : ℝ) : ℂ) * (Real.sqrt ((1 - x) / 2) : ℝ) = (((1 - x) / 2 : ℝ) : ℂ) := by rw [← Complex.ofReal_mul, Real.mul_self_sqrt hy0]
  have h1 : star (![1, 0, 0] : Fin 3 → ℂ) ⬝ᵥ ![1, 0, 0] = 1 := by simp [dotProduct, Fin.sum_univ_three]
  have h2 : star (spread x) ⬝ᵥ spread x = 1 := by
    have cs : ∀ r : ℝ, star (r : ℂ) = r := fun r => Complex.conj_ofReal r
    have e : star (spread x) ⬝ᵥ spread x = (Real.sqrt x : ℝ) * (Real.sqrt x : ℝ) + (Real.sqrt ((1 - x) / 2) : ℝ) * (Real.sqrt ((1 - x) / 2) : ℝ) +
        (Real.sqrt ((1 - x) / 2) : ℝ) * (Real.sqrt ((1 - x) / 2) : ℝ) := by
      unfold dotProduct
      rw [Fin.sum_univ_three]
      show star ((Real.sqrt x : ℝ) : ℂ) * _ + star ((Real.sqrt ((1 - x) / 2) : ℝ) : ℂ) * _ + star ((Real.sqrt ((1 - x) / 2) : ℝ) : ℂ) * _ = _
      rw [cs, cs]
      rfl
    rw [e, c1, c2]
    push_cast
    ring
  have h3 : star (![1, 0, 0] : Fin 3 → ℂ) ⬝ᵥ spread x = (Real.sqrt x : ℝ) := by simp [dotProduct, Fin.sum_univ_three, spread]
  have h4 : star (spread x) ⬝ᵥ (![1, 0, 0] : Fin 3 → ℂ) = (Real.sqrt x : ℝ) := by simp [dotProduct, Fin.sum_univ_three, spread]
  obtain ⟨a1, a2, a3, a4⟩ := proj_mul _ _ h1 h3
  obtain ⟨b1, b2, b3, b4⟩ := proj_mul _ _ h2 h4
  rw [Real.sq_sqrt hx0] at a4 b4
  have n1 : ¬ Tiny 1e-8 (proj (![1, 0, 0] : Fin 3 → ℂ)) := C119_normalised (by rw [a3]; rfl) (by norm_num)
  have n2 : ¬ Tiny 1e-8 (proj (spread x)) := C119_normalised (by rw [b3]; rfl) (by norm_num)
  rw [fidelityB_proj (by norm_num) a1 a2 n1 hx0 a4 a3, fidelityB_proj (by norm_num) b1 b2 n2 hx0 b4 b3]
  constructor
  · rw [if_neg]
    intro h
    have := h 0 0
    simp [proj, vecMulVec] at this
    rw [abs_of_nonneg hx0, hx] at this
    norm_num at this
  · rw [if_pos]
    intro i j
    have hv : ∀ i, ‖spread x i‖ ≤ Real.sqrt ((1 - x) / 2) := by
      have hxy : x ≤ (1 - x) / 2 := by rw [hx]; norm_num
      intro i
      fin_cases i
      · show ‖((Real.sqrt x : ℝ) : ℂ)‖ ≤ _
        rw [Complex.norm_real, Real.norm_of_nonneg (Real.sqrt_nonneg _)]
        exact Real.sqrt_le_sqrt hxy
      · show ‖((Real.sqrt ((1 - x) / 2) : ℝ) : ℂ)‖ ≤ _
        rw [Complex.norm_real, Real.norm_of_nonneg (Real.sqrt_nonneg _)]
      · show ‖((Real.sqrt ((1 - x) / 2) : ℝ) : ℂ)‖ ≤ _
        rw [Complex.norm_real, Real.norm_of_nonneg (Real.sqrt_nonneg _)]
    rw [Matrix.smul_apply, smul_eq_mul, norm_mul, Complex.norm_real, Real.norm_of_nonneg hx0]
    have : ‖proj (spread x) i j‖ ≤ (1 - x) / 2 := by
      unfold proj vecMulVec
      rw [Matrix.of_apply, norm_mul, Pi.star_apply, norm_star, ← Real.mul_self_sqrt hy0]
      exact mul_le_mul (hv i) (hv j) (norm_nonneg _) (Real.sqrt_nonneg _)
    calc x * ‖proj (spread x) i j‖ ≤ x * ((1 - x) / 2) := mul_le_mul_of_nonneg_left this hx0
      _ ≤ 1e-8 := by rw [hx]; norm_num

/-- The hypotheses of `C119_error` hold for the projection on the vacuum and any positive semidefinite matrix. -/
example (B : Matrix (Fin 3) (Fin 3) ℂ) (hB : B.PosSemidef) : fidelity (proj ![1, 0, 0]) B - fidelityB 1e-8 (proj ![1, 0, 0]) B ≤ 9e-8 := by
  have h1 : star (![1, 0, 0] : Fin 3 → ℂ) ⬝ᵥ ![1, 0, 0] = 1 := by simp [dotProduct, Fin.sum_univ_three]
  obtain ⟨a1, _, a3, _⟩ := proj_mul (![1, 0, 0] : Fin 3 → ℂ) ![1, 0, 0] h1 (s := 1) (by rw [h1]; simp)
  have := (C119_error (by norm_num) a1 hB (C119_normalised (ε := 1e-8) (by rw [a3]; rfl) (by norm_num))).2.2.1
  refine this.trans ?_
  norm_num

end Verif.Fid
