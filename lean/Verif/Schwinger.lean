import Verif.Beamsplitter
import Mathlib.Analysis.Calculus.MeanValue
import Mathlib.Analysis.SpecialFunctions.Trigonometric.Deriv
import Mathlib.Analysis.SpecialFunctions.ExpDeriv
import Mathlib.LinearAlgebra.Matrix.NonsingularInverse
import Mathlib.LinearAlgebra.Matrix.Nondegenerate
import Mathlib.Tactic.LinearCombination
import Mathlib.Tactic.FieldSimp

/-!
# The Schwinger method for beamsplitters (C87)

Model of `beamsplitter_schwinger`, `sector_idx`, `sector_u` and `apply_BS_schwinger`.
-/

namespace Verif.Fock
open Matrix

/-! ## Model -/

/-- math/lattice/strategies/beamsplitter.py:280 and 352: `exp(iφ) * sqrt(arange(N, 0, -1) * arange(1, N + 1, 1))`, entry `j` (`j < N`). -/
noncomputable def swDiag (N : ℕ) (φ : ℝ) (j : ℕ) : ℂ := Complex.exp (Complex.I * φ) * (Real.sqrt (((N : ℝ) - j) * (j + 1)) : ℝ)

/-- math/lattice/strategies/beamsplitter.py:281 and 353: `diag(diag, k=-1) - diag(conj(diag), k=1)`. -/
noncomputable def swK (N : ℕ) (φ : ℝ) : Matrix (Fin (N + 1)) (Fin (N + 1)) ℂ :=
  Matrix.of fun i j => (if (i : ℕ) = j + 1 then swDiag N φ j else 0) - if (j : ℕ) = i + 1 then (starRingEnd ℂ) (swDiag N φ i) else 0

/-- What `np.linalg.eig` promises: eigenvalues `E` and an invertible matrix `V` whose columns are eigenvectors of norm one.  (Exact arithmetic; for the zero matrix
LAPACK returns the identity.) -/
structure IsEig {N : ℕ} (M : Matrix (Fin (N + 1)) (Fin (N + 1)) ℂ) (EV : (Fin (N + 1) → ℂ) × Matrix (Fin (N + 1)) (Fin (N + 1)) ℂ) : Prop where
  eig : M * EV.2 = EV.2 * Matrix.diagonal EV.1
  unit : ∀ j, ∑ i, ‖EV.2 i j‖ ^ 2 = 1
  inv : EV.2.det ≠ 0
  zero : M = 0 → EV.2 = 1

/-- What `np.linalg.eigh` promises: real eigenvalues `E` and a unitary matrix `V` of eigenvectors. -/
structure IsEigh {N : ℕ} (M : Matrix (Fin (N + 1)) (Fin (N + 1)) ℂ) (EV : (Fin (N + 1) → ℝ) × Matrix (Fin (N + 1)) (Fin (N + 1)) ℂ) : Prop where
  eig : M * EV.2 = EV.2 * Matrix.diagonal fun i => (EV.1 i : ℂ)
  unitary : EV.2ᴴ * EV.2 = 1

/-- math/lattice/strategies/beamsplitter.py:282-283: `V @ diag(exp(E)) @ conj(V.T)`; `eig` stands for `np.linalg.eig`. -/
noncomputable def swBlock {N : ℕ} (EV : (Fin (N + 1) → ℂ) × Matrix (Fin (N + 1)) (Fin (N + 1)) ℂ) : Matrix (Fin (N + 1)) (Fin (N + 1)) ℂ :=
  EV.2 * Matrix.diagonal (fun i => Complex.exp (EV.1 i)) * EV.2ᴴ

/-- math/lattice/strategies/beamsplitter.py:285-286: the index pairs of the two loops for the sector of `N` photons. -/
def swPairs (c1 c2 N : ℕ) : List (ℕ × ℕ) :=
  (List.range' (N + 1 - c1) (min (N + 1) c1 - (N + 1 - c1))).flatMap fun i =>
    (List.range' (N + 1 - c1) (min (N + 1) c2 - (N + 1 - c1))).map fun j => (i, j)

/-- math/lattice/strategies/beamsplitter.py:287: `U[N - i, i, N - j, j] = block[i, j]`; `none` is an `IndexError`. -/
noncomputable def swWrite (c1 c2 c3 c4 N : ℕ) (block : Matrix (Fin (N + 1)) (Fin (N + 1)) ℂ) (ij : ℕ × ℕ) (U : Ix4 → ℂ) : Option (Ix4 → ℂ) :=
  if h : (ij.1 < N + 1 ∧ ij.2 < N + 1) ∧ N - ij.1 < c1 ∧ ij.1 < c2 ∧ N - ij.2 < c3 ∧ ij.2 < c4 then
    some (Function.update U (N - ij.1, ij.1, N - ij.2, ij.2) (block ⟨ij.1, h.1.1⟩ ⟨ij.2, h.1.2⟩))
  else none

/-- math/lattice/strategies/beamsplitter.py:276-278: the number of sectors, `max_N + 1` after `max_N` is capped by `c1 + c2 - 2`. -/
def swSectors (c1 c2 : ℕ) : Option ℕ → ℕ
  | none => c1 + c2 - 1
  | some M => min (M + 1) (c1 + c2 - 1)

/-- math/lattice/strategies/beamsplitter.py:243-288 `beamsplitter_schwinger`; `none` is an exception.  `eig N` is the result of `np.linalg.eig` in the sector of
`N` photons.  (`max_N ≥ 0`.) -/
noncomputable def schwinger (eig : ∀ N, (Fin (N + 1) → ℂ) × Matrix (Fin (N + 1)) (Fin (N + 1)) ℂ) (sh : Ix4) (maxN : Option ℕ) : Option (Ix4 → ℂ) :=
  if sh.1 ≠ sh.2.2.1 ∨ sh.2.1 ≠ sh.2.2.2 then none
  else (List.range (swSectors sh.1 sh.2.1 maxN)).foldlM (fun U N => (swPairs sh.1 sh.2.1 N).foldlM (fun U ij =>
    swWrite sh.1 sh.2.1 sh.2.2.1 sh.2.2.2 N (swBlock (eig N)) ij U) U) fun _ => 0

/-- math/lattice/strategies/beamsplitter.py:291-337 `sector_idx`: the pairs `(i, N - i)`; `none` is the `ValueError` of `ravel_multi_index`. -/
def sectorIdx (N a b : ℕ) : Option (List (ℕ × ℕ)) :=
  ((List.range (N + 1)).filter fun i => max i (N - i) < max a b).mapM fun i => if i < a ∧ N - i < b then some (i, N - i) else none

/-- math/lattice/strategies/beamsplitter.py:340-355 `sector_u`; `EV` is the result of `np.linalg.eigh(-1j * theta * iJy)`. -/
noncomputable def sectorU {N : ℕ} (EV : (Fin (N + 1) → ℝ) × Matrix (Fin (N + 1)) (Fin (N + 1)) ℂ) : Matrix (Fin (N + 1)) (Fin (N + 1)) ℂ :=
  EV.2 * Matrix.diagonal (fun i => Complex.exp (Complex.I * EV.1 i)) * EV.2ᴴ

/-- math/lattice/strategies/beamsplitter.py:374-378: one pass of the loop on the last two (flattened) indices, for one value of the other indices.  `u` is
`sector_u(N, theta, phi)`; `none` is an exception: an index out of range or a mismatch in the shapes of the product.  The entries of `flat_idx` are distinct. -/
noncomputable def applyStep (a b N : ℕ) (u : Matrix (Fin (N + 1)) (Fin (N + 1)) ℂ) (v : ℕ × ℕ → ℂ) : Option (ℕ × ℕ → ℂ) :=
  (sectorIdx N a b).bind fun idx =>
    let subset := (List.range (N + 1)).filter fun k => k < a ∧ N - k < b
    let rows := if 0 < subset.length ∧ subset.length < N then subset else List.range (N + 1)
    if idx.length ≠ rows.length then none
    else some fun x => if x ∈ idx then ((idx.zip rows).map fun yr => v yr.1 * u (Fin.ofNat (N + 1) yr.2) (Fin.ofNat (N + 1) (rows.getD (idx.idxOf x) 0))).sum else v x

/-- math/lattice/strategies/beamsplitter.py:358-381 `apply_BS_schwinger` on the axes `i ≠ j` of an array of shape `(…, a, …, b, …)`; the moves of the axes and the
reshape select the entries with the other indices fixed.  `eigh N` is the result of `np.linalg.eigh` in the sector of `N` photons. -/
noncomputable def applyBS {ι : Type*} [DecidableEq ι] (eigh : ∀ N, (Fin (N + 1) → ℝ) × Matrix (Fin (N + 1)) (Fin (N + 1)) ℂ) (a b : ℕ) (i j : ι) (arr : (ι → ℕ) → ℂ)
    (x : ι → ℕ) : Option ℂ :=
  ((List.range (a + b - 1)).foldlM (fun v N => applyStep a b N (sectorU (eigh N)) v)
    fun y => arr (Function.update (Function.update x i y.1) j y.2)).map fun v => v (x i, x j)

/-! ## The generator of the beamsplitter -/

/-- The amplitude of the beamsplitter from `(p, q)` photons to `(m, n)` photons. -/
noncomputable def bsT (θ φ : ℝ) (m n p q : ℕ) : ℂ := amp 4 (bsA θ φ) (fun _ => 0) 1 (toF [m, n, p, q])

theorem sq_ne {n : ℕ} (h : n ≠ 0) : sq n ≠ 0 := by
  intro h0
  have := sq_mul_self n
  rw [h0, mul_zero] at this
  exact h (by exact_mod_cast this.symm)

theorem conj_st (θ φ : ℝ) : (starRingEnd ℂ) ((Real.sin θ : ℂ) * Complex.exp (Complex.I * φ)) = (Real.sin θ : ℂ) * Complex.exp (-(Complex.I * φ)) := by
  rw [map_mul, Complex.conj_ofReal, ← Complex.exp_conj, map_mul, Complex.conj_I, Complex.conj_ofReal, neg_mul]

theorem bsT_p (θ φ : ℝ) (m n p q : ℕ) : bsT θ φ m n (p + 1) q = ((Real.cos θ : ℂ) * sq m * bsT θ φ (m - 1) n p q +
    (Real.sin θ : ℂ) * Complex.exp (Complex.I * φ) * sq n * bsT θ φ m (n - 1) p q) / sq (p + 1) := by
  unfold bsT
  rw [← T4_eq_amp, ← T4_eq_amp, ← T4_eq_amp, T4_p _ _ _ _ (by omega), Nat.add_sub_cancel]
  ring

theorem bsT_q (θ φ : ℝ) (m n p q : ℕ) : bsT θ φ m n p (q + 1) = (-((Real.sin θ : ℂ) * Complex.exp (-(Complex.I * φ))) * sq m * bsT θ φ (m - 1) n p q +
    (Real.cos θ : ℂ) * sq n * bsT θ φ m (n - 1) p q) / sq (q + 1) := by
  unfold bsT
  rw [← T4_eq_amp, ← T4_eq_amp, ← T4_eq_amp, T4_q _ _ _ _ (by omega), Nat.add_sub_cancel, conj_st]
  ring

theorem bsT_zero (θ φ : ℝ) : bsT θ φ 0 0 0 0 = 1 := by
  unfold bsT
  rw [← T4_eq_amp, T4_zero]

theorem bsT_conserve (θ φ : ℝ) {m n p q : ℕ} (h : m + n ≠ p + q) : bsT θ φ m n p q = 0 := by
  unfold bsT
  rw [← T4_eq_amp, T4_conserve _ _ _ _ h]

/-- The generator: `dT/dθ = exp(iφ) √n √(m+1) T(m+1, n-1) - exp(-iφ) √m √(n+1) T(m-1, n+1)`. -/
noncomputable def bsGen (θ φ : ℝ) (m n p q : ℕ) : ℂ :=
  Complex.exp (Complex.I * φ) * (sq n * sq (m + 1)) * bsT θ φ (m + 1) (n - 1) p q -
    Complex.exp (-(Complex.I * φ)) * (sq m * sq (n + 1)) * bsT θ φ (m - 1) (n + 1) p q

theorem sq0 : sq 0 = 0 := by simp [sq]

/-- The algebra of the induction step: `a = √m`, `b = √n` and so on. -/
theorem gen_step {s c E F d : ℂ} (hee : E * F = 1) (m n : ℕ) (T : ℕ → ℕ → ℂ) :
    ((-(c * F) * sq m * T (m - 1) n + -(s * F) * sq m * (E * (sq n * sq (m - 1 + 1)) * T (m - 1 + 1) (n - 1) - F * (sq (m - 1) * sq (n + 1)) * T (m - 1 - 1) (n + 1))) +
      (-s * sq n * T m (n - 1) + c * sq n * (E * (sq (n - 1) * sq (m + 1)) * T (m + 1) (n - 1 - 1) - F * (sq m * sq (n - 1 + 1)) * T (m - 1) (n - 1 + 1)))) / d =
    E * (sq n * sq (m + 1)) * ((-(s * F) * sq (m + 1) * T (m + 1 - 1) (n - 1) + c * sq (n - 1) * T (m + 1) (n - 1 - 1)) / d) -
      F * (sq m * sq (n + 1)) * ((-(s * F) * sq (m - 1) * T (m - 1 - 1) (n + 1) + c * sq (n + 1) * T (m - 1) (n + 1 - 1)) / d) := by
  have aux : ∀ x y z u v : ℂ, x = u * y - v * z → x / d = u * (y / d) - v * (z / d) := fun x y z u v h => by rw [h]; ring
  refine aux _ _ _ _ _ ?_
  have hm := sq_mul_self m
  have hm1 := sq_mul_self (m + 1)
  have hn := sq_mul_self n
  have hn1 := sq_mul_self (n + 1)
  push_cast at hm hm1 hn hn1
  rcases m with _ | m <;> rcases n with _ | n <;> simp only [sq0, Nat.add_sub_cancel, Nat.zero_add, Nat.zero_sub] at *
  · ring
  · push_cast at *
    linear_combination s * sq (n + 1) * T 0 n * (E * F * (hm1 - 0) + (hee - 0))
  · push_cast at *
    linear_combination c * F * sq (m + 1) * T m 0 * (hn1 - 0)
  · push_cast at *
    linear_combination c * F * sq (m + 1) * T m (n + 1) * (hn1 - hn) + s * sq (n + 1) * T (m + 1) n * (E * F * (hm1 - hm) + hee)

/-- The same for the first input mode. -/
theorem gen_step' {s c E F d : ℂ} (hee : E * F = 1) (m n : ℕ) (T : ℕ → ℕ → ℂ) :
    ((-s * sq m * T (m - 1) n + c * sq m * (E * (sq n * sq (m - 1 + 1)) * T (m - 1 + 1) (n - 1) - F * (sq (m - 1) * sq (n + 1)) * T (m - 1 - 1) (n + 1))) +
      (c * E * sq n * T m (n - 1) + s * E * sq n * (E * (sq (n - 1) * sq (m + 1)) * T (m + 1) (n - 1 - 1) - F * (sq m * sq (n - 1 + 1)) * T (m - 1) (n - 1 + 1)))) / d =
    E * (sq n * sq (m + 1)) * ((c * sq (m + 1) * T (m + 1 - 1) (n - 1) + s * E * sq (n - 1) * T (m + 1) (n - 1 - 1)) / d) -
      F * (sq m * sq (n + 1)) * ((c * sq (m - 1) * T (m - 1 - 1) (n + 1) + s * E * sq (n + 1) * T (m - 1) (n + 1 - 1)) / d) := by
  have aux : ∀ x y z u v : ℂ, x = u * y - v * z → x / d = u * (y / d) - v * (z / d) := fun x y z u v h => by rw [h]; ring
  refine aux _ _ _ _ _ ?_
  have hm := sq_mul_self m
  have hm1 := sq_mul_self (m + 1)
  have hn := sq_mul_self n
  have hn1 := sq_mul_self (n + 1)
  push_cast at hm hm1 hn hn1
  rcases m with _ | m <;> rcases n with _ | n <;> simp only [sq0, Nat.add_sub_cancel, Nat.zero_add, Nat.zero_sub] at *
  · ring
  · push_cast at *
    linear_combination -c * E * sq (n + 1) * T 0 n * hm1
  · push_cast at *
    linear_combination s * sq (m + 1) * T m 0 * (E * F * hn1 + hee)
  · push_cast at *
    linear_combination s * sq (m + 1) * T m (n + 1) * (E * F * (hn1 - hn) + hee) - c * E * sq (n + 1) * T (m + 1) n * (hm1 - hm)

theorem bsT_deriv (φ : ℝ) (p : ℕ) : ∀ q m n θ, HasDerivAt (fun θ => bsT θ φ m n p q) (bsGen θ φ m n p q) θ := by
  have hee : Complex.exp (Complex.I * φ) * Complex.exp (-(Complex.I * φ)) = 1 := by rw [← Complex.exp_add, add_neg_cancel, Complex.exp_zero]
  have hs : ∀ θ : ℝ, HasDerivAt (fun θ : ℝ => (Real.sin θ : ℂ)) (Real.cos θ : ℂ) θ := fun θ => (Real.hasDerivAt_sin θ).ofReal_comp
  have hc : ∀ θ : ℝ, HasDerivAt (fun θ : ℝ => (Real.cos θ : ℂ)) (-(Real.sin θ : ℂ)) θ := fun θ => by
    have := (Real.hasDerivAt_cos θ).ofReal_comp
    rwa [Complex.ofReal_neg] at this
  induction p with
  | zero =>
    intro q
    induction q with
    | zero =>
      intro m n θ
      by_cases h : m = 0 ∧ n = 0
      · obtain ⟨rfl, rfl⟩ := h
        have e : (fun θ => bsT θ φ 0 0 0 0) = fun _ => 1 := funext fun θ => bsT_zero θ φ
        rw [e]
        have e2 : bsGen θ φ 0 0 0 0 = 0 := by unfold bsGen; rw [sq0]; ring
        rw [e2]
        exact hasDerivAt_const _ _
      · have e : (fun θ => bsT θ φ m n 0 0) = fun _ => 0 := funext fun θ => bsT_conserve θ φ (by omega)
        have e2 : bsGen θ φ m n 0 0 = 0 := by
          unfold bsGen
          rw [bsT_conserve θ φ (by omega), bsT_conserve θ φ (by omega), mul_zero, mul_zero, sub_zero]
        rw [e, e2]
        exact hasDerivAt_const _ _
    | succ q ih =>
      intro m n θ
      have hd := (((((hs θ).mul_const (Complex.exp (-(Complex.I * φ)))).neg.mul_const (sq m)).mul (ih (m - 1) n θ)).add
        (((hc θ).mul_const (sq n)).mul (ih m (n - 1) θ))).div_const (sq (q + 1))
      have hq : sq (q + 1) ≠ 0 := sq_ne (by omega)
      refine (hd.congr_deriv ?_).congr_of_eventuallyEq (Filter.Eventually.of_forall fun θ => bsT_q θ φ m n 0 q)
      unfold bsGen
      rw [bsT_q, bsT_q]
      exact gen_step hee m n fun a b => bsT θ φ a b 0 q
  | succ p ih =>
    intro q m n θ
    have hd := (((((hc θ).mul_const (sq m)).mul (ih q (m - 1) n θ)).add
      ((((hs θ).mul_const (Complex.exp (Complex.I * φ))).mul_const (sq n)).mul (ih q m (n - 1) θ)))).div_const (sq (p + 1))
    refine (hd.congr_deriv ?_).congr_of_eventuallyEq (Filter.Eventually.of_forall fun θ => bsT_p θ φ m n p q)
    unfold bsGen
    rw [bsT_p, bsT_p]
    exact gen_step' hee m n fun a b => bsT θ φ a b p q

/-- The matrix of the beamsplitter on the states of `N` photons, in the basis `|N - i, i⟩`. -/
noncomputable def bsBlock (N : ℕ) (θ φ : ℝ) : Matrix (Fin (N + 1)) (Fin (N + 1)) ℂ := Matrix.of fun i j => bsT θ φ (N - i) i (N - j) j

theorem sq_real (n : ℕ) : sq n = ((Real.sqrt n : ℝ) : ℂ) := rfl

theorem swDiag_eq (N : ℕ) (φ : ℝ) {j : ℕ} (h : j ≤ N) : swDiag N φ j = Complex.exp (Complex.I * φ) * (sq (N - j) * sq (j + 1)) := by
  unfold swDiag
  rw [sq_real, sq_real, ← Complex.ofReal_mul, ← Real.sqrt_mul (Nat.cast_nonneg _), Nat.cast_sub h, Nat.cast_add_one]

theorem swDiag_conj (N : ℕ) (φ : ℝ) {j : ℕ} (h : j ≤ N) :
    (starRingEnd ℂ) (swDiag N φ j) = Complex.exp (-(Complex.I * φ)) * (sq (N - j) * sq (j + 1)) := by
  rw [swDiag_eq N φ h, map_mul, map_mul, sq_real, sq_real, Complex.conj_ofReal, Complex.conj_ofReal, ← Complex.exp_conj, map_mul, Complex.conj_I, Complex.conj_ofReal,
    neg_mul]

theorem swK_mulVec (N : ℕ) (φ : ℝ) (v : Fin (N + 1) → ℂ) (w : ℕ → ℂ) (hw : ∀ i : Fin (N + 1), w i = v i) (i : Fin (N + 1)) :
    ∑ k, swK N φ i k * v k = (if (i : ℕ) = 0 then 0 else swDiag N φ (i - 1) * w (i - 1)) - if (i : ℕ) = N then 0 else (starRingEnd ℂ) (swDiag N φ i) * w (i + 1) := by
  have e : ∀ k, swK N φ i k * v k = (if (i : ℕ) = k + 1 then swDiag N φ k * v k else 0) - if (k : ℕ) = i + 1 then (starRingEnd ℂ) (swDiag N φ i) * v k else 0 := by
    intro k
    show ((if (i : ℕ) = k + 1 then swDiag N φ k else 0) - if (k : ℕ) = i + 1 then (starRingEnd ℂ) (swDiag N φ i) else 0) * v k = _
    split_ifs <;> ring
  simp only [e]
  rw [Finset.sum_sub_distrib]
  have hi := i.2
  refine congrArg₂ _ ?_ ?_
  · by_cases h : (i : ℕ) = 0
    · rw [if_pos h]
      exact Finset.sum_eq_zero fun k _ => if_neg (by omega)
    · rw [if_neg h, Finset.sum_eq_single (⟨i - 1, by omega⟩ : Fin (N + 1)), if_pos (by simp only; omega), ← hw]
      · intro k _ hk
        refine if_neg fun h2 => hk ?_
        ext
        simp only
        omega
      · exact fun h => absurd (Finset.mem_univ _) h
  · by_cases h : (i : ℕ) = N
    · rw [if_pos h]
      exact Finset.sum_eq_zero fun k _ => if_neg (by have := k.2; omega)
    · rw [if_neg h, Finset.sum_eq_single (⟨i + 1, by omega⟩ : Fin (N + 1)), if_pos rfl, ← hw]
      · intro k _ hk
        refine if_neg fun h2 => hk ?_
        ext
        exact h2
      · exact fun h => absurd (Finset.mem_univ _) h

theorem bsBlock_deriv (N : ℕ) (φ θ : ℝ) (i j : Fin (N + 1)) :
    HasDerivAt (fun θ => bsBlock N θ φ i j) (∑ k, swK N φ i k * bsBlock N θ φ k j) θ := by
  refine (bsT_deriv φ (N - j) j (N - i) i θ).congr_deriv ?_
  rw [swK_mulVec N φ (fun k => bsBlock N θ φ k j) (fun k => bsT θ φ (N - k) k (N - j) j) (fun _ => rfl)]
  unfold bsGen
  have hi := i.2
  refine congrArg₂ _ ?_ ?_
  · by_cases h : (i : ℕ) = 0
    · rw [if_pos h, h, sq0]
      ring
    · rw [if_neg h, swDiag_eq N φ (by omega), show N - ((i : ℕ) - 1) = N - i + 1 by omega, show (i : ℕ) - 1 + 1 = i by omega]
      ring
  · by_cases h : (i : ℕ) = N
    · rw [if_pos h, h, Nat.sub_self, sq0]
      ring
    · rw [if_neg h, swDiag_conj N φ (by omega), show N - ((i : ℕ) + 1) = N - i - 1 by omega]

theorem bsT_at_zero (φ : ℝ) (p : ℕ) : ∀ q m n, bsT 0 φ m n p q = if m = p ∧ n = q then 1 else 0 := by
  induction p with
  | zero =>
    intro q
    induction q with
    | zero =>
      intro m n
      by_cases h : m = 0 ∧ n = 0
      · rw [if_pos h, h.1, h.2, bsT_zero]
      · rw [if_neg h, bsT_conserve]
        omega
    | succ q ih =>
      intro m n
      rw [bsT_q, ih, ih, Real.sin_zero, Real.cos_zero]
      simp only [Complex.ofReal_zero, zero_mul, neg_zero, zero_add]
      by_cases h : m = 0 ∧ n = q + 1
      · rw [if_pos h, h.1, h.2, if_pos ⟨rfl, by omega⟩]
        have := sq_ne (n := q + 1) (by omega)
        field_simp
        simp
      · rw [if_neg h]
        rcases n with _ | n
        · rw [sq0]; simp
        · rw [if_neg (by omega)]; simp
  | succ p ih =>
    intro q m n
    rw [bsT_p, ih, ih, Real.sin_zero, Real.cos_zero]
    by_cases h : m = p + 1 ∧ n = q
    · rw [if_pos h, h.1, h.2, if_pos ⟨by omega, rfl⟩]
      have := sq_ne (n := p + 1) (by omega)
      field_simp
      simp
    · rw [if_neg h]
      rcases m with _ | m
      · rw [sq0]; simp
      · rw [if_neg (by omega)]; simp

theorem bsBlock_zero (N : ℕ) (φ : ℝ) : bsBlock N 0 φ = 1 := by
  ext i j
  show bsT 0 φ (N - i) i (N - j) j = _
  rw [bsT_at_zero, Matrix.one_apply]
  by_cases h : i = j
  · rw [if_pos h, if_pos ⟨by rw [h], by rw [h]⟩]
  · rw [if_neg h, if_neg fun h2 => h (Fin.ext h2.2)]

/-- The solution of the differential equation: with an orthonormal eigenbasis of `θK`, the beamsplitter on `N` photons is `V exp(E) V†`. -/
theorem block_exp {N : ℕ} (θ φ : ℝ) (E : Fin (N + 1) → ℂ) (V : Matrix (Fin (N + 1)) (Fin (N + 1)) ℂ)
    (he : ((θ : ℂ) • swK N φ) * V = V * Matrix.diagonal E) (hu : Vᴴ * V = 1) : V * Matrix.diagonal (fun i => Complex.exp (E i)) * Vᴴ = bsBlock N θ φ := by
  have hu' : V * Vᴴ = 1 := mul_eq_one_comm.mp hu
  have hl : Vᴴ * ((θ : ℂ) • swK N φ) = Matrix.diagonal E * Vᴴ := by
    calc Vᴴ * ((θ : ℂ) • swK N φ) = Vᴴ * (((θ : ℂ) • swK N φ) * V) * Vᴴ := by
          rw [Matrix.mul_assoc, Matrix.mul_assoc, hu', Matrix.mul_one]
      _ = Matrix.diagonal E * Vᴴ := by rw [he, ← Matrix.mul_assoc Vᴴ, hu, Matrix.one_mul]
  have key : Vᴴ * bsBlock N θ φ = Matrix.diagonal (fun i => Complex.exp (E i)) * Vᴴ := by
    ext i j
    rw [Matrix.diagonal_mul]
    have hw : ∀ t : ℝ, HasDerivAt (fun t : ℝ => Complex.exp (-(E i * t)) * (Vᴴ * bsBlock N (t * θ) φ) i j) 0 t := by
      intro t
      have h1 : HasDerivAt (fun t : ℝ => Complex.exp (-(E i * t))) (Complex.exp (-(E i * t)) * -(E i * 1)) t :=
        (((Complex.ofRealCLM.hasDerivAt (x := t)).const_mul (E i)).neg).cexp
      have h2 : HasDerivAt (fun t : ℝ => (Vᴴ * bsBlock N (t * θ) φ) i j) (∑ k, Vᴴ i k * ((θ : ℂ) * ∑ l, swK N φ k l * bsBlock N (t * θ) φ l j)) t := by
        simp only [Matrix.mul_apply]
        refine HasDerivAt.fun_sum fun k _ => HasDerivAt.const_mul _ ?_
        have := HasDerivAt.scomp t (bsBlock_deriv N φ (t * θ) k j) ((hasDerivAt_id t).mul_const θ)
        refine this.congr_deriv ?_
        rw [one_mul, Complex.real_smul]
      refine (h1.mul h2).congr_deriv ?_
      have e : (∑ k, Vᴴ i k * ((θ : ℂ) * ∑ l, swK N φ k l * bsBlock N (t * θ) φ l j)) = E i * (Vᴴ * bsBlock N (t * θ) φ) i j := by
        have h3 : Vᴴ * (((θ : ℂ) • swK N φ) * bsBlock N (t * θ) φ) = Matrix.diagonal E * (Vᴴ * bsBlock N (t * θ) φ) := by
          rw [← Matrix.mul_assoc, hl, Matrix.mul_assoc]
        have := congrFun (congrFun h3 i) j
        rw [Matrix.diagonal_mul, Matrix.mul_apply] at this
        rw [← this]
        refine Finset.sum_congr rfl fun k _ => congrArg _ ?_
        rw [Matrix.smul_mul, Matrix.smul_apply, smul_eq_mul, Matrix.mul_apply]
      rw [e]
      ring
    have hc := is_const_of_deriv_eq_zero (fun t => (hw t).differentiableAt) (fun t => (hw t).deriv) 1 0
    simp only [Complex.ofReal_one, Complex.ofReal_zero, mul_one, mul_zero, neg_zero, Complex.exp_zero, one_mul, zero_mul, bsBlock_zero, Matrix.mul_one] at hc
    rw [← hc, ← mul_assoc, ← Complex.exp_add, add_neg_cancel, Complex.exp_zero, one_mul]
  rw [Matrix.mul_assoc, ← key, ← Matrix.mul_assoc, hu', Matrix.one_mul]

/-! ## `np.linalg.eig` returns an orthonormal basis here -/

theorem swDiag_ne (N : ℕ) (φ : ℝ) {j : ℕ} (h : j < N) : swDiag N φ j ≠ 0 := by
  rw [swDiag_eq N φ h.le]
  exact mul_ne_zero (Complex.exp_ne_zero _) (mul_ne_zero (sq_ne (by omega)) (sq_ne (by omega)))

theorem swK_conjTranspose (N : ℕ) (φ : ℝ) : (swK N φ)ᴴ = -swK N φ := by
  ext i j
  show star ((if (j : ℕ) = i + 1 then swDiag N φ i else 0) - if (i : ℕ) = j + 1 then (starRingEnd ℂ) (swDiag N φ j) else 0) =
    -((if (i : ℕ) = j + 1 then swDiag N φ j else 0) - if (j : ℕ) = i + 1 then (starRingEnd ℂ) (swDiag N φ i) else 0)
  split_ifs <;> simp

/-- An eigenvector of the tridiagonal matrix whose first entry is zero is zero. -/
theorem tri_zero {N : ℕ} {θ : ℝ} (hθ : θ ≠ 0) (φ : ℝ) (v : Fin (N + 1) → ℂ) (lam : ℂ) (he : ∀ i, ∑ k, ((θ : ℂ) • swK N φ) i k * v k = lam * v i) (h0 : v 0 = 0) :
    v = 0 := by
  have hz : ∀ k, ∀ i : Fin (N + 1), (i : ℕ) ≤ k → v i = 0 := by
    intro k
    induction k with
    | zero => intro i hi; rw [show i = 0 from Fin.ext (by simpa using hi), h0]
    | succ k ih =>
      intro i hi
      by_cases h : (i : ℕ) ≤ k
      · exact ih i h
      · have hk : (i : ℕ) = k + 1 := by omega
        have hi2 := i.2
        have hl := he ⟨k, by omega⟩
        have e : ∀ l, ((θ : ℂ) • swK N φ) (⟨k, by omega⟩ : Fin (N + 1)) l * v l = θ * (swK N φ ⟨k, by omega⟩ l * v l) := fun l => by
          rw [Matrix.smul_apply, smul_eq_mul, mul_assoc]
        simp only [e] at hl
        rw [← Finset.mul_sum, swK_mulVec N φ v (fun n => if h : n < N + 1 then v ⟨n, h⟩ else 0) (fun i => dif_pos i.2), ih ⟨k, by omega⟩ le_rfl, mul_zero] at hl
        simp only at hl
        rw [if_neg (show ¬ k = N by omega), dif_pos (show k + 1 < N + 1 by omega), show (⟨k + 1, by omega⟩ : Fin (N + 1)) = i from Fin.ext hk.symm] at hl
        have h1 : (if k = 0 then (0 : ℂ) else swDiag N φ (k - 1) * if h : k - 1 < N + 1 then v ⟨k - 1, h⟩ else 0) = 0 := by
          split_ifs with h3 h4
          · rfl
          · rw [ih ⟨k - 1, h4⟩ (by simp only; omega), mul_zero]
          · rw [mul_zero]
        rw [h1, zero_sub, mul_neg, neg_eq_zero, mul_eq_zero, mul_eq_zero] at hl
        rcases hl with hl | hl | hl
        · exact absurd (Complex.ofReal_eq_zero.mp hl) hθ
        · exact absurd ((map_eq_zero _).mp hl) (swDiag_ne N φ (by omega))
        · exact hl
  funext i
  exact hz i i le_rfl

/-- `np.linalg.eig` of `θK` returns a unitary matrix of eigenvectors: the eigenvalues are distinct and the matrix is anti-Hermitian. -/
theorem eig_unitary {N : ℕ} (θ φ : ℝ) {EV : (Fin (N + 1) → ℂ) × Matrix (Fin (N + 1)) (Fin (N + 1)) ℂ} (h : IsEig ((θ : ℂ) • swK N φ) EV) : EV.2ᴴ * EV.2 = 1 := by
  obtain ⟨E, V⟩ := EV
  by_cases hθ : θ = 0
  · have := h.zero (by rw [hθ, Complex.ofReal_zero, zero_smul])
    simp only at this ⊢
    rw [this, Matrix.conjTranspose_one, Matrix.one_mul]
  have hcol : ∀ j i, ∑ k, ((θ : ℂ) • swK N φ) i k * V k j = E j * V i j := by
    intro j i
    have := congrFun (congrFun h.eig i) j
    rw [Matrix.mul_apply, Matrix.mul_diagonal] at this
    rw [this, mul_comm]
  have hdiag : ∀ j, (Vᴴ * V) j j = 1 := by
    intro j
    rw [Matrix.mul_apply]
    have : ∀ k, Vᴴ j k * V k j = ((‖V k j‖ ^ 2 : ℝ) : ℂ) := fun k => by
      rw [Matrix.conjTranspose_apply, ← starRingEnd_apply, mul_comm, Complex.mul_conj, Complex.normSq_eq_norm_sq]
    simp only [this]
    rw [← Complex.ofReal_sum, h.unit j, Complex.ofReal_one]
  have hanti : ((θ : ℂ) • swK N φ)ᴴ = -((θ : ℂ) • swK N φ) := by
    rw [Matrix.conjTranspose_smul, swK_conjTranspose, smul_neg, ← starRingEnd_apply, Complex.conj_ofReal]
  have hG : ∀ i j, (star (E i) + E j) * (Vᴴ * V) i j = 0 := by
    have h1 : Vᴴ * (((θ : ℂ) • swK N φ) * V) = Vᴴ * V * Matrix.diagonal E := by rw [h.eig, Matrix.mul_assoc]
    have h2 : Vᴴ * (((θ : ℂ) • swK N φ) * V) = -(Matrix.diagonal (star E) * (Vᴴ * V)) := by
      have h3 : Vᴴ * ((θ : ℂ) • swK N φ)ᴴ = Matrix.diagonal (star E) * Vᴴ := by
        rw [← Matrix.conjTranspose_mul, h.eig, Matrix.conjTranspose_mul, Matrix.diagonal_conjTranspose]
      rw [hanti, Matrix.mul_neg] at h3
      rw [← Matrix.mul_assoc, ← neg_neg (Vᴴ * ((θ : ℂ) • swK N φ)), h3, Matrix.neg_mul, Matrix.mul_assoc]
    intro i j
    have h4 := congrFun (congrFun (h1.symm.trans h2) i) j
    rw [Matrix.mul_diagonal, Matrix.neg_apply, Matrix.diagonal_mul, Pi.star_apply] at h4
    linear_combination h4
  have him : ∀ i, star (E i) = -E i := by
    intro i
    have := hG i i
    rw [hdiag, mul_one] at this
    linear_combination this
  have hne : ∀ i j, i ≠ j → E i ≠ E j := by
    intro i j hij hE
    have hx : V.mulVec (Function.update (Function.update 0 i (V 0 j)) j (-V 0 i)) = 0 := by
      have e : ∀ k, V.mulVec (Function.update (Function.update 0 i (V 0 j)) j (-V 0 i)) k = V k i * V 0 j - V k j * V 0 i := by
        intro k
        show ∑ l, V k l * Function.update (Function.update (0 : Fin (N + 1) → ℂ) i (V 0 j)) j (-V 0 i) l = _
        have : ∀ l, V k l * Function.update (Function.update (0 : Fin (N + 1) → ℂ) i (V 0 j)) j (-V 0 i) l =
            (if l = i then V k i * V 0 j else 0) - if l = j then V k j * V 0 i else 0 := by
          intro l
          rw [Function.update_apply, Function.update_apply]
          by_cases h1 : l = j
          · rw [if_pos h1, if_pos h1, if_neg (fun h2 => hij (h2.symm.trans h1)), h1]; ring
          · rw [if_neg h1, if_neg h1]
            by_cases h2 : l = i
            · rw [if_pos h2, if_pos h2, h2]; ring
            · rw [if_neg h2, if_neg h2]; simp
        simp only [this]
        rw [Finset.sum_sub_distrib, Finset.sum_ite_eq' Finset.univ i, Finset.sum_ite_eq' Finset.univ j]
        simp
      refine tri_zero hθ φ _ (E i) (fun k => ?_) ?_
      · simp only [e]
        have : ∀ l, ((θ : ℂ) • swK N φ) k l * (V l i * V 0 j - V l j * V 0 i) = ((θ : ℂ) • swK N φ) k l * V l i * V 0 j - ((θ : ℂ) • swK N φ) k l * V l j * V 0 i :=
          fun l => by ring
        simp only [this]
        rw [Finset.sum_sub_distrib, ← Finset.sum_mul, ← Finset.sum_mul, hcol, hcol, ← hE]
        ring
      · rw [e]; ring
    have hx0 := Matrix.eq_zero_of_mulVec_eq_zero h.inv hx
    have hj := congrFun hx0 i
    rw [Function.update_of_ne hij, Function.update_self] at hj
    have hV : (fun k => V k j) = 0 := tri_zero hθ φ (fun k => V k j) (E j) (hcol j) hj
    have := hdiag j
    rw [Matrix.mul_apply] at this
    have hz : ∀ k, V k j = 0 := fun k => congrFun hV k
    simp only [hz, mul_zero, Finset.sum_const_zero] at this
    exact zero_ne_one this
  ext i j
  by_cases hij : i = j
  · rw [hij, hdiag, Matrix.one_apply_eq]
  · rw [Matrix.one_apply_ne hij]
    have := hG i j
    rw [him, mul_eq_zero] at this
    refine this.resolve_left fun h2 => hne i j hij ?_
    linear_combination -h2

end Verif.Fock
