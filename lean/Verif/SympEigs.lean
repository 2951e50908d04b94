import Verif.Williamson
import Verif.PhasePurity
import Verif.PhaseEx
import Mathlib.Data.Multiset.Sort
import Mathlib.Analysis.SpecialFunctions.Log.NegMulLog

/-!
# Symplectic eigenvalues and von Neumann entropy (C68)
-/

namespace Verif.Manifold
open Matrix
open scoped ComplexOrder MatrixOrder

variable {n : Type*} [Fintype n] [DecidableEq n]

/-! ## Model -/

/-- Slicing `vals[::2]`. -/
def evens {α : Type*} : List α → List α
  | [] => []
  | [a] => [a]
  | a :: _ :: l => a :: evens l

/-- `symplectic_eigenvals` (`mrmustard/physics/gaussian.py` 57-72).  `np.linalg.eigvals` is modelled by the multiset of the roots of
the characteristic polynomial; numerical error of the eigenvalue routine is not modelled. -/
noncomputable def sympEigs (ħ : ℝ) (cov : Matrix (n ⊕ n) (n ⊕ n) ℝ) : List ℝ :=
  evens ((((Complex.I • toC (fromBlocks 0 1 (-1) 0 : Matrix (n ⊕ n) (n ⊕ n) ℝ)) * toC ((2 / ħ) • cov)).charpoly.roots.map (‖·‖)).sort)

/-- `scipy.special.xlogy` (`mrmustard/math/backend_numpy.py` 350-351), for `y > 0` or `x = 0`. -/
noncomputable def xlogy (x y : ℝ) : ℝ := x * Real.log y

/-- The inner function `g` of `von_neumann_entropy` (`mrmustard/physics/gaussian.py` 89-90). -/
noncomputable def entropyG (x : ℝ) : ℝ := xlogy ((x + 1) / 2) ((x + 1) / 2) - xlogy ((x - 1) / 2) ((x - 1) / 2 + 1e-9)

/-- `von_neumann_entropy` (`mrmustard/physics/gaussian.py` 75-93). -/
noncomputable def vnEntropy (ħ : ℝ) (cov : Matrix (n ⊕ n) (n ⊕ n) ℝ) : ℝ := ((sympEigs ħ cov).map entropyG).sum

/-! ## Specification -/

/-- The covariance matrix `(ħ/2) Z (D ⊕ D) Zᵀ`: the symplectic `Z` applied to independent thermal modes with `D = diag ν`. -/
noncomputable def williamsonCov (ħ : ℝ) (Z : Matrix (n ⊕ n) (n ⊕ n) ℝ) (ν : n → ℝ) : Matrix (n ⊕ n) (n ⊕ n) ℝ :=
  (ħ / 2) • (Z * diagonal (Sum.elim ν ν) * Zᵀ)

/-! ## Proofs -/

theorem evens_dup {α : Type*} : ∀ l : List α, evens (l.flatMap fun a => [a, a]) = l
  | [] => rfl
  | a :: l => by
    show a :: evens (l.flatMap fun a => [a, a]) = a :: l
    rw [evens_dup l]

theorem dup_mem {α : Type*} {a : α} {l : List α} : a ∈ l.flatMap (fun a => [a, a]) ↔ a ∈ l := by
  simp

theorem dup_sorted {l : List ℝ} (h : l.Pairwise (· ≤ ·)) : (l.flatMap fun a => [a, a]).Pairwise (· ≤ ·) := by
  induction l with
  | nil => exact List.Pairwise.nil
  | cons a l ih =>
    obtain ⟨h1, h2⟩ := List.pairwise_cons.1 h
    show (a :: a :: l.flatMap fun a => [a, a]).Pairwise (· ≤ ·)
    refine List.pairwise_cons.2 ⟨fun b hb => ?_, List.pairwise_cons.2 ⟨fun b hb => h1 b (dup_mem.1 hb), ih h2⟩⟩
    rcases List.mem_cons.1 hb with rfl | hb
    · exact le_refl _
    · exact h1 b (dup_mem.1 hb)

theorem dup_coe {α : Type*} (l : List α) : ((l.flatMap fun a => [a, a] : List α) : Multiset α) = (l : Multiset α) + l := by
  induction l with
  | nil => rfl
  | cons a l ih =>
    show ((a :: a :: l.flatMap fun a => [a, a] : List α) : Multiset α) = _
    rw [← Multiset.cons_coe, ← Multiset.cons_coe, ih, ← Multiset.cons_coe, Multiset.cons_add, Multiset.add_cons]

/-- Every second element of a sorted list in which everything occurs twice. -/
theorem evens_sort (s : Multiset ℝ) : evens (s + s).sort = s.sort := by
  have : (s + s).sort = s.sort.flatMap fun a => [a, a] := by
    refine List.Perm.eq_of_pairwise' (r := (· ≤ ·)) (Multiset.pairwise_sort _ _) (dup_sorted (Multiset.pairwise_sort _ _)) ?_
    rw [← Multiset.coe_eq_coe, Multiset.sort_eq, dup_coe, Multiset.sort_eq]
  rw [this, evens_dup]

theorem symp_T {Z : Matrix (n ⊕ n) (n ⊕ n) ℝ} (h : Symplectic Z) : Zᵀ * symForm n * Z = symForm n := by
  have h1 : Z * symForm n * Zᵀ = symForm n := h
  have h2 : Z * (symForm n * Zᵀ * (-symForm n)) = 1 := by
    rw [← Matrix.mul_assoc, ← Matrix.mul_assoc, h1, Matrix.mul_neg, symForm_sq, neg_neg]
  have h3 := mul_eq_one_comm.1 h2
  have h4 := congrArg (symForm n * ·) h3
  simp only [Matrix.mul_one] at h4
  calc Zᵀ * symForm n * Z = -(symForm n * symForm n) * Zᵀ * symForm n * Z := by rw [symForm_sq, neg_neg, Matrix.one_mul]
    _ = symForm n * (symForm n * Zᵀ * (-symForm n) * Z) := by simp only [Matrix.mul_assoc, Matrix.neg_mul, Matrix.mul_neg]
    _ = symForm n := h4

theorem charpoly_sim {p : Type*} [Fintype p] [DecidableEq p] {U V : Matrix p p ℂ} (h : V * U = 1) (M : Matrix p p ℂ) :
    (U * M * V).charpoly = M.charpoly := by
  rw [charpoly_mul_comm, ← Matrix.mul_assoc, h, Matrix.one_mul]

theorem roots_diag {p : Type*} [Fintype p] [DecidableEq p] (d : p → ℂ) :
    (diagonal d).charpoly.roots = Finset.univ.val.map d := by
  rw [charpoly_diagonal, Polynomial.roots_prod]
  · simp only [Polynomial.roots_X_sub_C, Multiset.bind_singleton]
  · simp only [Finset.prod_ne_zero_iff]
    intro i _
    exact Polynomial.X_sub_C_ne_zero _

/-- The spectrum of `i Ω C` for `C` in normal form. -/
theorem normal_roots {Z : Matrix (n ⊕ n) (n ⊕ n) ℝ} (h : Symplectic Z) (ν : n → ℝ) :
    ((Complex.I • toC (symForm n)) * toC (Z * diagonal (Sum.elim ν ν) * Zᵀ)).charpoly.roots =
      Finset.univ.val.map (Sum.elim (fun j => (ν j : ℂ)) (fun j => -(ν j : ℂ)) : n ⊕ n → ℂ) := by
  have e1 : ((Complex.I • toC (symForm n)) * toC (Z * diagonal (Sum.elim ν ν) * Zᵀ)).charpoly =
      ((Complex.I • toC (symForm n)) * toC (diagonal (Sum.elim ν ν))).charpoly := by
    have a1 : (Complex.I • toC (symForm n)) * toC (Z * diagonal (Sum.elim ν ν) * Zᵀ) =
        ((Complex.I • toC (symForm n)) * toC (Z * diagonal (Sum.elim ν ν))) * toC Zᵀ := by rw [toC_mul, ← Matrix.mul_assoc]
    have a2 : toC Zᵀ * ((Complex.I • toC (symForm n)) * toC (Z * diagonal (Sum.elim ν ν))) =
        (Complex.I • toC (symForm n)) * toC (diagonal (Sum.elim ν ν)) := by
      rw [Matrix.smul_mul, Matrix.mul_smul, Matrix.smul_mul, ← toC_mul, ← toC_mul, ← toC_mul]
      refine congrArg (Complex.I • ·) (congrArg toC ?_)
      rw [← Matrix.mul_assoc, ← Matrix.mul_assoc, symp_T h]
    rw [a1, charpoly_mul_comm, a2]
  have e2 : (Complex.I • toC (symForm n)) * toC (diagonal (Sum.elim ν ν)) =
      fromBlocks 1 1 ((-Complex.I) • 1) (Complex.I • 1) * diagonal (Sum.elim (fun j => (ν j : ℂ)) (fun j => -(ν j : ℂ)) : n ⊕ n → ℂ) *
        fromBlocks ((1 / 2 : ℂ) • 1) ((Complex.I / 2) • 1) ((1 / 2 : ℂ) • 1) ((-Complex.I / 2) • 1) := by
    have t1 : toC (diagonal (Sum.elim ν ν)) = fromBlocks (diagonal fun j => (ν j : ℂ)) 0 0 (diagonal fun j => (ν j : ℂ)) := by
      rw [fromBlocks_diagonal]
      unfold toC
      rw [diagonal_map Complex.ofReal_zero]
      refine congrArg _ (funext fun r => ?_)
      rcases r with j | j <;> rfl
    have t2 : toC (symForm n) = fromBlocks 0 1 (-1) 0 := by
      ext i j
      rcases i with i | i <;> rcases j with j | j <;> simp [toC, symForm, Matrix.one_apply, apply_ite]
    rw [t1, t2, ← fromBlocks_diagonal, fromBlocks_smul, fromBlocks_multiply, fromBlocks_multiply, fromBlocks_multiply, fromBlocks_inj]
    have hI := Complex.I_mul_I
    refine ⟨?_, ?_, ?_, ?_⟩ <;> ext i j <;> simp [Matrix.smul_apply, diagonal_apply] <;> split_ifs <;> try simp
    all_goals linear_combination (0 : ℂ) * hI
  have e3 : fromBlocks ((1 / 2 : ℂ) • 1) ((Complex.I / 2) • 1) ((1 / 2 : ℂ) • 1) ((-Complex.I / 2) • 1) *
      fromBlocks 1 1 ((-Complex.I) • 1) (Complex.I • (1 : Matrix n n ℂ)) = (1 : Matrix (n ⊕ n) (n ⊕ n) ℂ) := by
    have hI := Complex.I_mul_I
    rw [fromBlocks_multiply, ← fromBlocks_one, fromBlocks_inj]
    refine ⟨?_, ?_, ?_, ?_⟩ <;> ext i j <;> simp [Matrix.smul_apply, Matrix.one_apply] <;> split_ifs <;> try simp
    all_goals first | linear_combination (-1 / 2 : ℂ) * hI | linear_combination (1 / 2 : ℂ) * hI
  rw [e1, e2, charpoly_sim e3, roots_diag]

theorem sympEigs_normal {ħ : ℝ} (hħ : 0 < ħ) {Z : Matrix (n ⊕ n) (n ⊕ n) ℝ} (h : Symplectic Z) {ν : n → ℝ} (hν : ∀ j, 0 ≤ ν j) :
    sympEigs ħ (williamsonCov ħ Z ν) = (Finset.univ.val.map ν).sort := by
  unfold sympEigs williamsonCov
  have e : (2 / ħ) • (ħ / 2) • (Z * diagonal (Sum.elim ν ν) * Zᵀ) = Z * diagonal (Sum.elim ν ν) * Zᵀ := by
    rw [smul_smul, show 2 / ħ * (ħ / 2) = 1 by field_simp, one_smul]
  have e2 := normal_roots h ν
  unfold symForm at e2
  rw [e, e2, ← evens_sort (Finset.univ.val.map ν), Multiset.map_map]
  refine congrArg (fun s : Multiset ℝ => evens s.sort) ?_
  have : (Finset.univ : Finset (n ⊕ n)).val = Finset.univ.val.map Sum.inl + Finset.univ.val.map Sum.inr := by
    rw [← Finset.univ_disjSum_univ]; rfl
  rw [this, Multiset.map_add, Multiset.map_map, Multiset.map_map]
  refine congrArg₂ (· + ·) ?_ ?_ <;>
  · refine Multiset.map_congr rfl fun j _ => ?_
    simp [abs_of_nonneg (hν j)]

/-- A covariance matrix that is positive definite has a normal form. -/
theorem C68_normal_form {ħ : ℝ} (hħ : 0 < ħ) {cov : Matrix (n ⊕ n) (n ⊕ n) ℝ} (h : cov.PosDef) :
    ∃ (Z : Matrix (n ⊕ n) (n ⊕ n) ℝ) (ν : n → ℝ), Symplectic Z ∧ (∀ j, 0 < ν j) ∧ cov = williamsonCov ħ Z ν := by
  obtain ⟨Z, ν, hZ, hν, e⟩ := williamson (C := (2 / ħ) • cov) (h.smul (by positivity))
  refine ⟨Z, ν, hZ, hν, ?_⟩
  unfold williamsonCov
  rw [← e, smul_smul, show ħ / 2 * (2 / ħ) = 1 by field_simp, one_smul]

/-- **C68 (symplectic eigenvalues)** `symplectic_eigenvals` returns, in increasing order, each of the `ν_j` of the normal form exactly once. -/
theorem C68_eigenvalues {ħ : ℝ} (hħ : 0 < ħ) {Z : Matrix (n ⊕ n) (n ⊕ n) ℝ} (h : Symplectic Z) {ν : n → ℝ} (hν : ∀ j, 0 ≤ ν j) :
    (sympEigs ħ (williamsonCov ħ Z ν) : Multiset ℝ) = Finset.univ.val.map ν ∧ (sympEigs ħ (williamsonCov ħ Z ν)).Pairwise (· ≤ ·) := by
  rw [sympEigs_normal hħ h hν]
  exact ⟨Multiset.sort_eq _ _, Multiset.pairwise_sort _ _⟩

/-- **C68 (invariance)** A symplectic transformation of the state does not change the symplectic eigenvalues. -/
theorem C68_invariant {ħ : ℝ} {S : Matrix (n ⊕ n) (n ⊕ n) ℝ} (h : Symplectic S) (cov : Matrix (n ⊕ n) (n ⊕ n) ℝ) :
    sympEigs ħ (S * cov * Sᵀ) = sympEigs ħ cov := by
  unfold sympEigs
  have e : ((Complex.I • toC (symForm n)) * toC ((2 / ħ) • (S * cov * Sᵀ))).charpoly = ((Complex.I • toC (symForm n)) * toC ((2 / ħ) • cov)).charpoly := by
    have a1 : (Complex.I • toC (symForm n)) * toC ((2 / ħ) • (S * cov * Sᵀ)) =
        ((Complex.I • toC (symForm n)) * toC ((2 / ħ) • (S * cov))) * toC Sᵀ := by
      rw [Matrix.mul_assoc (Complex.I • toC (symForm n)), ← toC_mul, Matrix.smul_mul (2 / ħ) (S * cov)]
    have a2 : toC Sᵀ * ((Complex.I • toC (symForm n)) * toC ((2 / ħ) • (S * cov))) =
        (Complex.I • toC (symForm n)) * toC ((2 / ħ) • cov) := by
      rw [Matrix.smul_mul, Matrix.mul_smul, Matrix.smul_mul, ← toC_mul, ← toC_mul, ← toC_mul]
      refine congrArg (Complex.I • ·) (congrArg toC ?_)
      rw [Matrix.mul_smul, Matrix.mul_smul, ← Matrix.mul_assoc, ← Matrix.mul_assoc, symp_T h, Matrix.mul_smul]
    rw [a1, charpoly_mul_comm, a2]
  unfold symForm at e
  rw [e]

theorem one_symForm_psd : (1 + Complex.I • toC (symForm n)).PosSemidef := by
  have hT : (Complex.I • toC (symForm n))ᴴ = Complex.I • toC (symForm n) := by
    ext i j
    have := congrFun (congrFun (symForm_T (n := n)) i) j
    simp only [transpose_apply, Matrix.neg_apply] at this
    simp [toC, this]
  have hS : (Complex.I • toC (symForm n)) * (Complex.I • toC (symForm n)) = 1 := by
    rw [Matrix.smul_mul, Matrix.mul_smul, smul_smul, Complex.I_mul_I, ← toC_mul, symForm_sq, show toC (-1 : Matrix (n ⊕ n) (n ⊕ n) ℝ) = -1 by
      rw [show (-1 : Matrix (n ⊕ n) (n ⊕ n) ℝ) = (-1 : ℝ) • 1 by simp, toC_smul, toC_one]; simp]
    simp
  have : (1 + Complex.I • toC (symForm n)) = (1 / 2 : ℝ) • ((1 + Complex.I • toC (symForm n))ᴴ * (1 + Complex.I • toC (symForm n))) := by
    rw [conjTranspose_add, conjTranspose_one, hT, Matrix.add_mul, Matrix.mul_add, Matrix.mul_add, hS]
    ext i j
    simp
    ring
  rw [this]
  exact (posSemidef_conjTranspose_mul_self _).smul (by norm_num)

/-- The uncertainty relation in the normal form. -/
theorem normal_uncertainty {ħ : ℝ} (hħ : 0 < ħ) {Z : Matrix (n ⊕ n) (n ⊕ n) ℝ} (h : Symplectic Z) (ν : n → ℝ) :
    (toC (williamsonCov ħ Z ν) + (Complex.I * (ħ / 2)) • toC (symForm n)).PosSemidef ↔ ∀ j, 1 ≤ ν j := by
  have hZ : toC Zᵀ = (toC Z)ᴴ := by ext i j; simp [toC]
  have hΩ : Z * symForm n * Zᵀ = symForm n := h
  have e : toC (williamsonCov ħ Z ν) + (Complex.I * (ħ / 2)) • toC (symForm n) =
      (ħ / 2 : ℝ) • (toC Z * (toC (diagonal (Sum.elim ν ν)) + Complex.I • toC (symForm n)) * (toC Z)ᴴ) := by
    conv_lhs => rw [← hΩ]
    unfold williamsonCov
    rw [toC_smul, toC_mul, toC_mul, toC_mul, toC_mul, hZ, Matrix.mul_add, Matrix.add_mul, smul_add, Matrix.mul_smul, Matrix.smul_mul]
    ext i j
    simp
    ring
  have hu : IsUnit (toC Z) := by
    rw [Matrix.isUnit_iff_isUnit_det, toC_det, isUnit_iff_ne_zero]
    intro e0
    have e1 : Z.det = 0 := by exact_mod_cast e0
    have := congrArg Matrix.det hΩ
    rw [det_mul, det_mul, e1, zero_mul, zero_mul] at this
    have h2 := congrArg Matrix.det (symForm_sq (n := n))
    rw [det_mul, ← this, mul_zero, det_neg, det_one, mul_one] at h2
    exact pow_ne_zero _ (by norm_num) h2.symm
  have hpos : (0 : ℝ) < ħ / 2 := by positivity
  have hsm : ∀ M : Matrix (n ⊕ n) (n ⊕ n) ℂ, ((ħ / 2 : ℝ) • M).PosSemidef ↔ M.PosSemidef := by
    intro M
    refine ⟨fun hM => ?_, fun hM => hM.smul hpos.le⟩
    have := hM.smul (inv_nonneg.2 hpos.le)
    rwa [smul_smul, inv_mul_cancel₀ hpos.ne', one_smul] at this
  rw [e, hsm]
  have hstar : (toC Z * (toC (diagonal (Sum.elim ν ν)) + Complex.I • toC (symForm n)) * (toC Z)ᴴ).PosSemidef ↔
      (toC (diagonal (Sum.elim ν ν)) + Complex.I • toC (symForm n)).PosSemidef := IsUnit.posSemidef_star_right_conjugate_iff hu
  rw [hstar]
  have hd : toC (diagonal (Sum.elim ν ν)) = diagonal (fun r => ((Sum.elim ν ν r : ℝ) : ℂ)) := diagonal_map Complex.ofReal_zero
  constructor
  · intro hp j
    have h1 := hp.dotProduct_mulVec_nonneg (Sum.elim (Pi.single j 1) (Pi.single j Complex.I))
    have : star (Sum.elim (Pi.single j 1) (Pi.single j Complex.I) : n ⊕ n → ℂ) ⬝ᵥ
        (toC (diagonal (Sum.elim ν ν)) + Complex.I • toC (symForm n)).mulVec (Sum.elim (Pi.single j 1) (Pi.single j Complex.I)) =
        ((2 * ν j - 2 : ℝ) : ℂ) := by
      have t2 : toC (symForm n) = fromBlocks 0 1 (-1) 0 := by
        ext i j
        rcases i with i | i <;> rcases j with j | j <;> simp [toC, symForm, Matrix.one_apply, apply_ite]
      have hs : star (Sum.elim (Pi.single j 1) (Pi.single j Complex.I) : n ⊕ n → ℂ) = Sum.elim (Pi.single j 1) (Pi.single j (-Complex.I)) := by
        ext r; rcases r with r | r <;> simp [Pi.single_apply, apply_ite]
      rw [hs, hd, Matrix.add_mulVec, dotProduct_add, Matrix.smul_mulVec, t2, fromBlocks_mulVec, Sum.elim_comp_inl, Sum.elim_comp_inr]
      simp [dotProduct, mulVec_diagonal, Fintype.sum_sum_type, Pi.single_apply]
      linear_combination (-(ν j : ℂ)) * Complex.I_mul_I
    rw [this] at h1
    have : 0 ≤ 2 * ν j - 2 := by exact_mod_cast h1
    linarith
  · intro hν
    have : toC (diagonal (Sum.elim ν ν)) + Complex.I • toC (symForm n) =
        toC (diagonal (fun r => Sum.elim ν ν r - 1)) + (1 + Complex.I • toC (symForm n)) := by
      rw [← add_assoc]
      refine congrArg (· + _) ?_
      rw [← toC_one, ← toC_add]
      refine congrArg toC ?_
      rw [← diagonal_one, diagonal_add]
      simp
    rw [this]
    refine PosSemidef.add (toC_posSemidef ?_) one_symForm_psd
    rw [posSemidef_diagonal_iff]
    rintro (j | j) <;> simp [hν j]

/-! ## Purity in the normal form -/

theorem symp_det {Z : Matrix (n ⊕ n) (n ⊕ n) ℝ} (h : Symplectic Z) : Z.det * Z.det = 1 := by
  have hΩ : Z * symForm n * Zᵀ = symForm n := h
  have h2 := congrArg Matrix.det (symForm_sq (n := n))
  have h0 : (symForm n).det ≠ 0 := by
    intro e
    rw [det_mul, e, mul_zero, det_neg, det_one, mul_one] at h2
    exact pow_ne_zero _ (by norm_num) h2.symm
  have := congrArg Matrix.det hΩ
  rw [det_mul, det_mul, det_transpose] at this
  refine mul_right_cancel₀ h0 ?_
  linarith

theorem normal_purity {ħ : ℝ} (hħ : 0 < ħ) {Z : Matrix (n ⊕ n) (n ⊕ n) ℝ} (h : Symplectic Z) {ν : n → ℝ} (hν : ∀ j, 0 < ν j) :
    purityFn ħ (williamsonCov ħ Z ν) = ∏ j, (ν j)⁻¹ := by
  unfold purityFn williamsonCov
  rw [smul_smul, show 2 / ħ * (ħ / 2) = 1 by field_simp, one_smul, det_mul, det_mul, det_transpose, det_diagonal, Fintype.prod_sum_type]
  simp only [Sum.elim_inl, Sum.elim_inr]
  have hp : 0 < ∏ j, ν j := Finset.prod_pos fun j _ => hν j
  rw [show Z.det * ((∏ j, ν j) * ∏ j, ν j) * Z.det = (∏ j, ν j) * ∏ j, ν j by
    have := symp_det h; linear_combination ((∏ j, ν j) * ∏ j, ν j) * this, Real.sqrt_mul_self hp.le, one_div, Finset.prod_inv_distrib]

/-- **C68 (purity)** The purity is the inverse of the product of the symplectic eigenvalues. -/
theorem C68_purity {ħ : ℝ} (hħ : 0 < ħ) {cov : Matrix (n ⊕ n) (n ⊕ n) ℝ} (h : cov.PosDef) :
    purityFn ħ cov = ((sympEigs ħ cov).prod)⁻¹ := by
  obtain ⟨Z, ν, hZ, hν, rfl⟩ := C68_normal_form hħ h
  rw [normal_purity hħ hZ hν, ← Multiset.prod_coe, (C68_eigenvalues hħ hZ fun j => (hν j).le).1, Finset.prod_inv_distrib]
  rfl

/-- The pure covariance matrices in the normal form. -/
theorem normal_pure {ħ : ℝ} {Z : Matrix (n ⊕ n) (n ⊕ n) ℝ} {ν : n → ℝ} (h1 : ∀ j, ν j = 1) :
    williamsonCov ħ Z ν = (ħ / 2) • (Z * Zᵀ) := by
  unfold williamsonCov
  have : diagonal (Sum.elim ν ν) = (1 : Matrix (n ⊕ n) (n ⊕ n) ℝ) := by
    rw [← diagonal_one]
    refine congrArg _ (funext fun r => ?_)
    rcases r with j | j <;> simp [h1]
  rw [this, Matrix.mul_one]

theorem prod_inv_one {ν : n → ℝ} (h : ∀ j, 1 ≤ ν j) (hp : ∏ j, (ν j)⁻¹ = 1) (j : n) : ν j = 1 := by
  have h0 : ∀ j, 0 < (ν j)⁻¹ := fun j => inv_pos.2 (lt_of_lt_of_le one_pos (h j))
  have h1 : ∀ j, (ν j)⁻¹ ≤ 1 := fun j => inv_le_one_of_one_le₀ (h j)
  by_contra hne
  have hlt : (ν j)⁻¹ < 1 := lt_of_le_of_ne (h1 j) fun e => hne (by rw [← inv_inv (ν j), e, inv_one])
  have : ∏ j, (ν j)⁻¹ < ∏ _j : n, (1 : ℝ) :=
    Finset.prod_lt_prod (fun i _ => h0 i) (fun i _ => h1 i) ⟨j, Finset.mem_univ _, hlt⟩
  rw [hp] at this
  simp at this

/-- **C67 (range of the purity)** For every covariance matrix obeying the uncertainty relation `0 < purity ≤ 1`. -/
theorem C67_purity_range {ħ : ℝ} (hħ : 0 < ħ) {cov : Matrix (n ⊕ n) (n ⊕ n) ℝ}
    (hu : (toC cov + (Complex.I * (ħ / 2)) • toC (symForm n)).PosSemidef) : 0 < purityFn ħ cov ∧ purityFn ħ cov ≤ 1 := by
  obtain ⟨Z, ν, hZ, hν, rfl⟩ := C68_normal_form hħ (uncertainty_posDef hħ hu)
  have h1 := (normal_uncertainty hħ hZ ν).1 hu
  rw [normal_purity hħ hZ hν]
  exact ⟨Finset.prod_pos fun j _ => inv_pos.2 (hν j), Finset.prod_le_one (fun j _ => (inv_pos.2 (hν j)).le) fun j _ => inv_le_one_of_one_le₀ (h1 j)⟩

/-- **C67 (pure states)** The purity is one exactly for the covariance matrices `(ħ/2) S Sᵀ` of the Gaussian pure states. -/
theorem C67_pure_iff {ħ : ℝ} (hħ : 0 < ħ) {cov : Matrix (n ⊕ n) (n ⊕ n) ℝ}
    (hu : (toC cov + (Complex.I * (ħ / 2)) • toC (symForm n)).PosSemidef) :
    purityFn ħ cov = 1 ↔ ∃ S : Matrix (n ⊕ n) (n ⊕ n) ℝ, Symplectic S ∧ cov = (ħ / 2) • (S * Sᵀ) := by
  constructor
  · intro hp
    obtain ⟨Z, ν, hZ, hν, rfl⟩ := C68_normal_form hħ (uncertainty_posDef hħ hu)
    have h1 := (normal_uncertainty hħ hZ ν).1 hu
    rw [normal_purity hħ hZ hν] at hp
    exact ⟨Z, hZ, normal_pure (prod_inv_one h1 hp)⟩
  · rintro ⟨S, hS, rfl⟩
    rw [← normal_pure (ν := fun _ : n => (1 : ℝ)) (fun _ => rfl), normal_purity hħ hS (fun _ => one_pos)]
    simp

/-- **C67 (`atol_purity`)** For a physical covariance matrix, `Ket.from_phase_space` accepts it for every positive tolerance exactly if it is pure. -/
theorem C67_ket_accepts {ħ : ℝ} (hħ : 0 < ħ) {cov : Matrix (n ⊕ n) (n ⊕ n) ℝ}
    (hu : (toC cov + (Complex.I * (ħ / 2)) • toC (symForm n)).PosSemidef) :
    (∀ a : ℝ, 0 < a → ketAccepts ħ cov (some a)) ↔ ∃ S : Matrix (n ⊕ n) (n ⊕ n) ℝ, Symplectic S ∧ cov = (ħ / 2) • (S * Sᵀ) := by
  rw [← C67_pure_iff hħ hu]
  constructor
  · intro h
    refine le_antisymm (C67_purity_range hħ hu).2 (le_of_forall_sub_le fun a ha => ?_)
    rcases h a ha with h0 | h0
    · exact absurd h0 ha.ne'
    · exact not_lt.1 h0
  · intro hp a ha
    refine Or.inr ?_
    rw [hp]
    linarith

/-- **C67 (no test)** Without a tolerance, and with the tolerance zero, every covariance matrix is accepted. -/
theorem C67_ket_unchecked (ħ : ℝ) (cov : Matrix (n ⊕ n) (n ⊕ n) ℝ) : ketAccepts ħ cov none ∧ ketAccepts ħ cov (some 0) :=
  ⟨trivial, Or.inl rfl⟩

/-! ## Symplectic eigenvalues of physical states -/

/-- **C68 (uncertainty)** A positive definite covariance matrix obeys the uncertainty relation exactly if all its symplectic eigenvalues are `≥ 1`. -/
theorem C68_uncertainty {ħ : ℝ} (hħ : 0 < ħ) {cov : Matrix (n ⊕ n) (n ⊕ n) ℝ} (h : cov.PosDef) :
    (toC cov + (Complex.I * (ħ / 2)) • toC (symForm n)).PosSemidef ↔ ∀ x ∈ sympEigs ħ cov, 1 ≤ x := by
  obtain ⟨Z, ν, hZ, hν, rfl⟩ := C68_normal_form hħ h
  rw [normal_uncertainty hħ hZ ν]
  have := (C68_eigenvalues hħ hZ fun j => (hν j).le).1
  have hm : ∀ x, x ∈ sympEigs ħ (williamsonCov ħ Z ν) ↔ ∃ j, ν j = x := by
    intro x
    rw [← Multiset.mem_coe, this]
    simp
  constructor
  · intro h1 x hx
    obtain ⟨j, rfl⟩ := (hm x).1 hx
    exact h1 j
  · intro h1 j
    exact h1 _ ((hm _).2 ⟨j, rfl⟩)

/-- **C68 (number of values)** One symplectic eigenvalue per mode. -/
theorem C68_length {ħ : ℝ} (hħ : 0 < ħ) {cov : Matrix (n ⊕ n) (n ⊕ n) ℝ} (h : cov.PosDef) : (sympEigs ħ cov).length = Fintype.card n := by
  obtain ⟨Z, ν, hZ, hν, rfl⟩ := C68_normal_form hħ h
  rw [← Multiset.coe_card, (C68_eigenvalues hħ hZ fun j => (hν j).le).1]
  simp

/-! ## Entropy -/

theorem normal_entropy {ħ : ℝ} (hħ : 0 < ħ) {Z : Matrix (n ⊕ n) (n ⊕ n) ℝ} (h : Symplectic Z) {ν : n → ℝ} (hν : ∀ j, 0 ≤ ν j) :
    vnEntropy ħ (williamsonCov ħ Z ν) = ∑ j, entropyG (ν j) := by
  unfold vnEntropy
  have := congrArg (fun s : Multiset ℝ => (s.map entropyG).sum) (C68_eigenvalues hħ h hν).1
  simp only [Multiset.map_coe, Multiset.sum_coe, Multiset.map_map] at this
  rw [this]
  rfl

theorem entropyG_one : entropyG 1 = 0 := by
  unfold entropyG xlogy
  norm_num

theorem entropyG_log {x : ℝ} (h : 1 ≤ x) : Real.log ((x + 1) / 2) ≤ entropyG x := by
  unfold entropyG xlogy
  have h0 : 0 ≤ (x - 1) / 2 := by linarith
  have h1 : Real.log ((x - 1) / 2 + 1e-9) ≤ Real.log ((x + 1) / 2) := Real.log_le_log (by positivity) (by norm_num; linarith)
  have h2 := mul_le_mul_of_nonneg_left h1 h0
  have h3 : (x + 1) / 2 * Real.log ((x + 1) / 2) = (x - 1) / 2 * Real.log ((x + 1) / 2) + Real.log ((x + 1) / 2) := by ring
  linarith

theorem entropyG_pos {x : ℝ} (h : 1 < x) : 0 < entropyG x :=
  lt_of_lt_of_le (Real.log_pos (by linarith)) (entropyG_log h.le)

/-- **C68 (entropy of pure states)** For a physical covariance matrix the entropy is `≥ 0`, and it is exactly zero for the pure states and only for them. -/
theorem C68_entropy_pure {ħ : ℝ} (hħ : 0 < ħ) {cov : Matrix (n ⊕ n) (n ⊕ n) ℝ}
    (hu : (toC cov + (Complex.I * (ħ / 2)) • toC (symForm n)).PosSemidef) :
    0 ≤ vnEntropy ħ cov ∧ (vnEntropy ħ cov = 0 ↔ ∃ S : Matrix (n ⊕ n) (n ⊕ n) ℝ, Symplectic S ∧ cov = (ħ / 2) • (S * Sᵀ)) := by
  obtain ⟨Z, ν, hZ, hν, rfl⟩ := C68_normal_form hħ (uncertainty_posDef hħ hu)
  have h1 := (normal_uncertainty hħ hZ ν).1 hu
  have h2 : ∀ j, 0 ≤ entropyG (ν j) := fun j => by
    rcases eq_or_lt_of_le (h1 j) with h | h
    · rw [← h, entropyG_one]
    · exact (entropyG_pos h).le
  rw [← C67_pure_iff hħ hu, normal_purity hħ hZ hν, normal_entropy hħ hZ fun j => (hν j).le]
  refine ⟨Finset.sum_nonneg fun j _ => h2 j, ?_, ?_⟩
  · intro h
    refine Finset.prod_eq_one fun j _ => ?_
    have := (Finset.sum_eq_zero_iff_of_nonneg fun j _ => h2 j).1 h j (Finset.mem_univ _)
    rcases eq_or_lt_of_le (h1 j) with h | h
    · rw [← h, inv_one]
    · exact absurd this (entropyG_pos h).ne'
  · intro h
    refine Finset.sum_eq_zero fun j _ => ?_
    rw [prod_inv_one h1 h j, entropyG_one]

end Verif.Manifold
