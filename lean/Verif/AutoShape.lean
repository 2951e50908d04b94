import Verif.Vanilla
import Mathlib.Tactic.IntervalCases
import Mathlib.Tactic.LinearCombination
import Mathlib.Tactic.Abel
import Mathlib.LinearAlgebra.Matrix.NonsingularInverse
import Mathlib.Analysis.SpecialFunctions.Complex.Log
import Mathlib.Analysis.SpecialFunctions.Pow.Complex

/-!
# Automatic Fock shapes (math/lattice/autoshape.py, property C41)
-/

namespace Verif.Auto
open Verif.Fock

/-! ## Model -/

/-- The Bargmann triple of a one-mode density matrix: `A` is 2 × 2, `b` has two entries. -/
structure Mode where
  A : ℕ → ℕ → ℂ
  b : ℕ → ℂ
  c : ℂ

/-- The variables of the loop (autoshape.py 128-133): two buffers with rows indexed modulo 2. -/
structure St where
  buf2 : ℕ → ℕ → ℂ
  buf3 : ℕ → ℕ → ℂ
  norm : ℝ
  k : ℕ

/-- autoshape.py 128-133: the buffers start at zero except for the vacuum amplitude. -/
noncomputable def start (M : Mode) : St where
  buf2 := fun _ _ => 0
  buf3 := fun i j => if i = 0 ∧ j = 1 then M.c else 0
  norm := ‖M.c‖
  k := 0

/-- autoshape.py 135: the new row of `buf2`.  `A_ @ buf2[k % 2]` is a matrix-vector product. -/
noncomputable def newBuf2 (M : Mode) (s : St) (i : ℕ) : ℂ :=
  (M.b i * s.buf3 (s.k % 2) 1
    + (M.A i 0 * s.buf2 (s.k % 2) 0 + M.A i 1 * s.buf2 (s.k % 2) 1) * Fock.sq s.k) / Fock.sq (s.k + 1)

/-- autoshape.py 136-150: the three entries of the new row of `buf3`. -/
noncomputable def newBuf3 (M : Mode) (s : St) : ℕ → ℂ
  | 0 => (M.b 0 * newBuf2 M s 0 + M.A 0 0 * s.buf3 (s.k % 2) 1 * Fock.sq (s.k + 1)
      + M.A 0 1 * s.buf3 (s.k % 2) 0 * Fock.sq s.k) / Fock.sq (s.k + 2)
  | 1 => (M.b 1 * newBuf2 M s 0 + M.A 1 0 * s.buf3 (s.k % 2) 1 * Fock.sq (s.k + 1)
      + M.A 1 1 * s.buf3 (s.k % 2) 0 * Fock.sq s.k) / Fock.sq (s.k + 1)
  | _ => (M.b 1 * newBuf2 M s 1 + M.A 1 0 * s.buf3 (s.k % 2) 2 * Fock.sq s.k
      + M.A 1 1 * s.buf3 (s.k % 2) 1 * Fock.sq (s.k + 1)) / Fock.sq (s.k + 2)

/-- autoshape.py 135-152: one iteration. -/
noncomputable def step (M : Mode) (s : St) : St where
  buf2 := Function.update s.buf2 ((s.k + 1) % 2) (newBuf2 M s)
  buf3 := Function.update s.buf3 ((s.k + 1) % 2) (newBuf3 M s)
  norm := s.norm + ‖newBuf3 M s 1‖
  k := s.k + 1

/-- autoshape.py 134, 153: `while norm < max_prob and k < max_shape`; the first argument is
`max_shape - k`. -/
noncomputable def loop (M : Mode) (maxProb : ℝ) : ℕ → St → ℕ
  | 0, s => s.k
  | f + 1, s => open scoped Classical in if s.norm < maxProb then loop M maxProb f (step M s) else s.k

/-- autoshape.py 128-153: the entry of `shape` before clipping. -/
noncomputable def raw (M : Mode) (maxProb : ℝ) (maxShape : ℕ) : ℕ := loop M maxProb maxShape (start M)

/-- autoshape.py 154 `np.clip(shape, min_shape, max_shape)`. -/
def clip (lo hi x : ℕ) : ℕ := min (max x lo) hi

/-- Indices of the modes other than `m`, for both halves. -/
abbrev Rest (M : ℕ) (m : Fin M) := Fin 2 × {n : Fin M // n ≠ m}

/-- `A_nn - X` (autoshape.py 104-113). -/
noncomputable def restM {M : ℕ} (A : Fin 2 → Fin M → Fin 2 → Fin M → ℂ) (m : Fin M) :
    Matrix (Rest M m) (Rest M m) ℂ :=
  fun p q => A p.1 p.2 q.1 q.2 - if p.1 ≠ q.1 ∧ p.2 = q.2 then 1 else 0

/-- autoshape.py 108-127: the triple of the marginal of mode `m` (`A_nm` is the transpose of `A_mn`
in the code). -/
noncomputable def marginal {M : ℕ} (A : Fin 2 → Fin M → Fin 2 → Fin M → ℂ) (b : Fin 2 → Fin M → ℂ)
    (c : ℂ) (m : Fin M) : Mode where
  A := fun i j => if h : i < 2 ∧ j < 2 then
      A ⟨i, h.1⟩ m ⟨j, h.2⟩ m - ∑ p, ∑ q, A ⟨i, h.1⟩ m p.1 p.2 * (restM A m)⁻¹ p q * A ⟨j, h.2⟩ m q.1 q.2
    else 0
  b := fun i => if h : i < 2 then
      b ⟨i, h⟩ m - ∑ p, ∑ q, A ⟨i, h⟩ m p.1 p.2 * (restM A m)⁻¹ p q * b q.1 q.2
    else 0
  c := c * Complex.exp (-(1 / 2) * ∑ p, ∑ q, b p.1 p.2 * (restM A m)⁻¹ p q * b q.1 q.2)
    / ((restM A m).det) ^ (1 / 2 : ℂ)

/-- autoshape.py 23-154 `autoshape_numba`. -/
noncomputable def autoshape {M : ℕ} (A : Fin 2 → Fin M → Fin 2 → Fin M → ℂ) (b : Fin 2 → Fin M → ℂ)
    (c : ℂ) (maxProb : ℝ) (maxShape minShape : ℕ) : List ℕ :=
  (List.finRange M).map fun m => clip minShape maxShape (raw (marginal A b c m) maxProb maxShape)

/-! ## Specification -/

/-- The matrix element `⟨n| ρ |n'⟩` of the one-mode operator with this triple: the Fock amplitude of
`c exp(½ zᵀ A z + bᵀ z)`. -/
noncomputable def rho (M : Mode) (n n' : ℕ) : ℂ := amp 2 M.A M.b M.c ([n, n'] : List ℕ).toFinsupp

/-- The weight of the photon numbers `0 … n-1`: what a Fock array of size `n` retains. -/
noncomputable def retained (M : Mode) (n : ℕ) : ℝ := ∑ j ∈ Finset.range n, ‖rho M j j‖

/-- The triple is symmetric and the same for ket and bra (for a density matrix: real). -/
structure RealState (M : Mode) : Prop where
  sym : M.A 0 1 = M.A 1 0
  a : M.A 0 0 = M.A 1 1
  b : M.b 0 = M.b 1

/-! ## Proofs -/

theorem toF2 (n m : ℕ) : ([n, m] : List ℕ).toFinsupp = Finsupp.single 0 n + Finsupp.single 1 m := by
  ext i
  rw [List.toFinsupp_apply]
  match i with
  | 0 => simp
  | 1 => simp
  | i + 2 => simp

theorem symm2 {M : Mode} (h : M.A 0 1 = M.A 1 0) : Symm 2 M.A := by
  intro i hi j hj
  interval_cases i <;> interval_cases j <;> first | rfl | exact h | exact h.symm

theorem up0 (n m : ℕ) : up ([n, m] : List ℕ).toFinsupp 0 = ([n + 1, m] : List ℕ).toFinsupp := by
  rw [toF2, toF2, up, Finsupp.single_add]
  abel

theorem up1 (n m : ℕ) : up ([n, m] : List ℕ).toFinsupp 1 = ([n, m + 1] : List ℕ).toFinsupp := by
  rw [toF2, toF2, up, Finsupp.single_add]
  abel

theorem dn0 (n m : ℕ) : dn ([n + 1, m] : List ℕ).toFinsupp 0 = ([n, m] : List ℕ).toFinsupp := by
  rw [← up0, up, dn, add_tsub_cancel_right]

theorem dn1 (n m : ℕ) : dn ([n, m + 1] : List ℕ).toFinsupp 1 = ([n, m] : List ℕ).toFinsupp := by
  rw [← up1, up, dn, add_tsub_cancel_right]

theorem val0 (n m : ℕ) : ([n, m] : List ℕ).toFinsupp 0 = n := by simp [List.toFinsupp_apply]
theorem val1 (n m : ℕ) : ([n, m] : List ℕ).toFinsupp 1 = m := by simp [List.toFinsupp_apply]

/-- `√n` times the matrix element with the first index lowered. -/
noncomputable def low0 (M : Mode) : ℕ → ℕ → ℂ
  | 0, _ => 0
  | n + 1, m => Fock.sq (n + 1) * rho M n m

/-- `√m` times the matrix element with the second index lowered. -/
noncomputable def low1 (M : Mode) : ℕ → ℕ → ℂ
  | _, 0 => 0
  | n, m + 1 => Fock.sq (m + 1) * rho M n m

theorem sq0 : Fock.sq 0 = 0 := by simp [Fock.sq]

theorem rho_up {M : Mode} (hs : M.A 0 1 = M.A 1 0) (n m : ℕ) :
    Fock.sq (n + 1) * rho M (n + 1) m = M.b 0 * rho M n m + M.A 0 0 * low0 M n m + M.A 0 1 * low1 M n m
    ∧ Fock.sq (m + 1) * rho M n (m + 1) = M.b 1 * rho M n m + M.A 1 0 * low0 M n m + M.A 1 1 * low1 M n m := by
  have h0 := amp_up (b := M.b) M.c (symm2 hs) (i := 0) (by omega) ([n, m] : List ℕ).toFinsupp
  have h1 := amp_up (b := M.b) M.c (symm2 hs) (i := 1) (by omega) ([n, m] : List ℕ).toFinsupp
  rw [up0] at h0
  rw [up1] at h1
  simp only [Finset.sum_range_succ, Finset.sum_range_zero, zero_add, val0, val1] at h0 h1
  have e0 : Fock.sq n * amp 2 M.A M.b M.c (dn ([n, m] : List ℕ).toFinsupp 0) = low0 M n m := by
    cases n with
    | zero => rw [sq0, zero_mul, low0]
    | succ n => rw [dn0, low0, rho]
  have e1 : Fock.sq m * amp 2 M.A M.b M.c (dn ([n, m] : List ℕ).toFinsupp 1) = low1 M n m := by
    cases m with
    | zero => rw [sq0, zero_mul, low1]
    | succ m => rw [dn1, low1, rho]
  constructor
  · rw [rho, h0, ← e0, ← e1, rho]
    ring
  · rw [rho, h1, ← e0, ← e1, rho]
    ring

theorem rho_zero (M : Mode) : rho M 0 0 = M.c := by
  have : ([0, 0] : List ℕ).toFinsupp = 0 := by rw [toF2]; simp
  rw [rho, this, amp_zero]

theorem rho_symm {M : Mode} (h : RealState M) (n m : ℕ) : rho M n m = rho M m n := by
  have main : ∀ N n m, n + m = N → rho M n m = rho M m n := by
    intro N
    induction N using Nat.strong_induction_on with
    | _ N ih =>
      have hlow : ∀ n m, n + m ≤ N → n + m ≠ 0 → low0 M n m = low1 M m n := by
        intro n m hN h0
        cases n with
        | zero => rw [low0, low1]
        | succ n => rw [low0, low1, ih (n + m) (by omega) n m rfl]
      have hup : ∀ n m, n + 1 + m = N → rho M (n + 1) m = rho M m (n + 1) := by
        intro n m hN
        have h1 := (rho_up h.sym n m).1
        have h2 := (rho_up h.sym m n).2
        have e0 : low0 M n m = low1 M m n := by
          cases n with
          | zero => rw [low0, low1]
          | succ n => rw [low0, low1, ih (n + m) (by omega) n m rfl]
        have e1 : low1 M n m = low0 M m n := by
          cases m with
          | zero => rw [low0, low1]
          | succ m => rw [low0, low1, ih (n + m) (by omega) n m rfl]
        rw [ih (n + m) (by omega) n m rfl, e0, e1, h.b, h.a, h.sym] at h1
        refine mul_left_cancel₀ (Fock.sq_ne_zero (n := n + 1) (by omega)) ?_
        rw [h1, h2]
        ring
      intro n m hN
      cases n with
      | zero =>
        cases m with
        | zero => rfl
        | succ m => exact (hup m 0 (by omega)).symm
      | succ n => exact hup n m hN
  exact main _ n m rfl

/-- What the buffers hold before iteration `k`. -/
structure Inv (M : Mode) (s : St) : Prop where
  b20 : s.buf2 (s.k % 2) 0 * Fock.sq s.k = low1 M s.k s.k
  b21 : s.buf2 (s.k % 2) 1 * Fock.sq s.k = low0 M s.k s.k
  b30 : s.buf3 (s.k % 2) 0 * Fock.sq s.k = low1 M (s.k + 1) s.k
  b31 : s.buf3 (s.k % 2) 1 = rho M s.k s.k
  b32 : s.buf3 (s.k % 2) 2 * Fock.sq s.k = low0 M s.k (s.k + 1)
  nrm : s.norm = retained M (s.k + 1)

theorem inv_start (M : Mode) : Inv M (start M) where
  b20 := by simp [start, low1]
  b21 := by simp [start, low0]
  b30 := by simp [start, low1]
  b31 := by simp [start, rho_zero]
  b32 := by simp [start, low0]
  nrm := by simp [start, retained, rho_zero]

theorem inv_step {M : Mode} (h : RealState M) {s : St} (hi : Inv M s) : Inv M (step M s) := by
  have q1 : Fock.sq (s.k + 1) ≠ 0 := Fock.sq_ne_zero (by omega)
  have q2 : Fock.sq (s.k + 2) ≠ 0 := Fock.sq_ne_zero (by omega)
  have u1 := rho_up h.sym s.k s.k
  have sw : low1 M s.k s.k = low0 M s.k s.k := by
    cases s.k with
    | zero => rfl
    | succ n => rw [low0, low1, rho_symm h]
  have e20 : newBuf2 M s 0 = rho M (s.k + 1) s.k := by
    rw [newBuf2, div_eq_iff q1, mul_comm _ (Fock.sq (s.k + 1)), u1.1, hi.b31, add_mul, mul_assoc,
      hi.b20, mul_assoc, hi.b21, sw]
    ring
  have e21 : newBuf2 M s 1 = rho M s.k (s.k + 1) := by
    rw [newBuf2, div_eq_iff q1, mul_comm _ (Fock.sq (s.k + 1)), u1.2, hi.b31, add_mul, mul_assoc,
      hi.b20, mul_assoc, hi.b21, sw]
    ring
  have u2 := rho_up h.sym (s.k + 1) s.k
  have u3 := rho_up h.sym s.k (s.k + 1)
  have e30 : newBuf3 M s 0 = rho M (s.k + 2) s.k := by
    rw [newBuf3, div_eq_iff q2, mul_comm _ (Fock.sq (s.k + 2)), u2.1, hi.b31, e20, mul_assoc, mul_assoc,
      hi.b30, low0]
    ring
  have e31 : newBuf3 M s 1 = rho M (s.k + 1) (s.k + 1) := by
    rw [newBuf3, div_eq_iff q1, mul_comm (rho M (s.k + 1) (s.k + 1)) (Fock.sq (s.k + 1)), u2.2, hi.b31, e20, mul_assoc, mul_assoc,
      hi.b30, low0]
    ring
  have e32 : newBuf3 M s 2 = rho M s.k (s.k + 2) := by
    change (M.b 1 * newBuf2 M s 1 + M.A 1 0 * s.buf3 (s.k % 2) 2 * Fock.sq s.k
      + M.A 1 1 * s.buf3 (s.k % 2) 1 * Fock.sq (s.k + 1)) / Fock.sq (s.k + 2) = _
    rw [div_eq_iff q2, mul_comm _ (Fock.sq (s.k + 2)), u3.2, hi.b31, e21, mul_assoc, mul_assoc,
      hi.b32, low1]
    ring
  refine ⟨?_, ?_, ?_, ?_, ?_, ?_⟩
  · simp only [step, Function.update_self]
    rw [e20, low1, mul_comm]
  · simp only [step, Function.update_self]
    rw [e21, low0, mul_comm]
  · simp only [step, Function.update_self]
    rw [e30, low1, mul_comm]
  · simp only [step, Function.update_self]
    rw [e31]
  · simp only [step, Function.update_self]
    rw [e32, low0, mul_comm]
  · simp only [step]
    rw [e31, hi.nrm, retained, retained, ← Finset.sum_range_succ]

theorem loop_spec {M : Mode} (h : RealState M) (p : ℝ) (f : ℕ) (s : St) (hi : Inv M s) :
    s.k ≤ loop M p f s ∧ loop M p f s ≤ s.k + f
      ∧ (∀ j, s.k ≤ j → j < loop M p f s → retained M (j + 1) < p)
      ∧ (loop M p f s < s.k + f → p ≤ retained M (loop M p f s + 1)) := by
  induction f generalizing s with
  | zero =>
    rw [loop]
    refine ⟨le_rfl, le_rfl, fun j h1 h2 => by omega, fun h => by omega⟩
  | succ f ih =>
    rw [loop]
    split_ifs with hc
    · obtain ⟨i1, i2, i3, i4⟩ := ih (step M s) (inv_step h hi)
      have hk : (step M s).k = s.k + 1 := rfl
      rw [hk] at i1 i2 i3 i4
      refine ⟨by omega, by omega, ?_, ?_⟩
      · intro j h1 h2
        by_cases hj : j = s.k
        · subst hj
          rw [← hi.nrm]
          exact hc
        · exact i3 j (by omega) h2
      · intro hlt
        exact i4 (by omega)
    · refine ⟨le_rfl, by omega, fun j h1 h2 => by omega, fun _ => ?_⟩
      rw [← hi.nrm]
      exact not_lt.mp hc

/-- **C41**: for a real one-mode state the loop returns the least `k`, up to the maximum, such that
the photon numbers `0 … k` (inclusive) carry at least `maxProb`. -/
theorem C41_least {M : Mode} (h : RealState M) (p : ℝ) (maxShape : ℕ) :
    raw M p maxShape ≤ maxShape ∧ (∀ j < raw M p maxShape, retained M (j + 1) < p)
      ∧ (raw M p maxShape < maxShape → p ≤ retained M (raw M p maxShape + 1)) := by
  obtain ⟨_, h2, h3, h4⟩ := loop_spec h p maxShape (start M) (inv_start M)
  have hk : (start M).k = 0 := rfl
  rw [hk] at h2 h3 h4
  rw [zero_add] at h2 h4
  exact ⟨h2, fun j hj => h3 j (Nat.zero_le _) hj, h4⟩

/-- **C41**, disagreement with the documentation ("captures at least `max_prob` of the probability"):
a shape `k` retains the photon numbers `0 … k-1` only, so whenever the loop stops at a positive `k`
the array of that size retains *less* than `maxProb`; one more photon number would be needed. -/
theorem C41_retains_less {M : Mode} (h : RealState M) (p : ℝ) (maxShape : ℕ)
    (hpos : 0 < raw M p maxShape) :
    retained M (raw M p maxShape) < p := by
  have := (C41_least h p maxShape).2.1 (raw M p maxShape - 1) (by omega)
  rwa [Nat.sub_add_cancel hpos] at this

/-- **C41**: every entry of the returned shape is within the bounds, for every `A`, `b`, `c` and
probability. -/
theorem C41_bounds {M : ℕ} (A : Fin 2 → Fin M → Fin 2 → Fin M → ℂ) (b : Fin 2 → Fin M → ℂ) (c : ℂ)
    (maxProb : ℝ) (maxShape minShape : ℕ) (hle : minShape ≤ maxShape) :
    (autoshape A b c maxProb maxShape minShape).length = M ∧
    ∀ s ∈ autoshape A b c maxProb maxShape minShape, minShape ≤ s ∧ s ≤ maxShape := by
  refine ⟨by simp [autoshape], ?_⟩
  intro s hs
  simp only [autoshape, List.mem_map] at hs
  obtain ⟨m, _, rfl⟩ := hs
  unfold clip
  omega

theorem loop_le (M : Mode) (p : ℝ) (f : ℕ) (s : St) : loop M p f s ≤ s.k + f := by
  induction f generalizing s with
  | zero => rw [loop]; omega
  | succ f ih =>
    rw [loop]
    split_ifs
    · have := ih (step M s)
      have hk : (step M s).k = s.k + 1 := rfl
      omega
    · omega

/-- **C41**: the entry of mode `m` is what the marginal of that mode needs, raised to the minimum when it is below; in particular raising the
minimum never lowers an entry, and the maximum only acts through the loop. -/
theorem C41_entry {M : ℕ} (A : Fin 2 → Fin M → Fin 2 → Fin M → ℂ) (b : Fin 2 → Fin M → ℂ) (c : ℂ)
    (maxProb : ℝ) (maxShape minShape : ℕ) (hle : minShape ≤ maxShape) (m : Fin M) :
    (autoshape A b c maxProb maxShape minShape)[m.1]? = some (max minShape (raw (marginal A b c m) maxProb maxShape)) := by
  have h := loop_le (marginal A b c m) maxProb maxShape (start (marginal A b c m))
  have hk : (start (marginal A b c m)).k = 0 := rfl
  unfold autoshape
  rw [List.getElem?_map, List.getElem?_eq_getElem (by simp), List.getElem_finRange, Option.map_some]
  refine congrArg some ?_
  show clip minShape maxShape (raw (marginal A b c m) maxProb maxShape) = _
  unfold clip raw
  omega

/-- For a one-mode state the marginal is the state itself. -/
theorem marginal_one (A : Fin 2 → Fin 1 → Fin 2 → Fin 1 → ℂ) (b : Fin 2 → Fin 1 → ℂ) (c : ℂ) (m : Fin 1) :
    (∀ i j : Fin 2, (marginal A b c m).A i j = A i m j m) ∧ (∀ i : Fin 2, (marginal A b c m).b i = b i m)
      ∧ (marginal A b c m).c = c := by
  have hE : IsEmpty (Rest 1 m) := ⟨fun p => p.2.2 (Subsingleton.elim _ _)⟩
  refine ⟨?_, ?_, ?_⟩
  · intro i j
    have hij : (i : ℕ) < 2 ∧ (j : ℕ) < 2 := ⟨i.2, j.2⟩
    simp only [marginal]
    rw [dif_pos hij]
    simp
  · intro i
    simp only [marginal]
    rw [dif_pos i.2]
    simp
  · simp [marginal]

/-! ## Examples -/

/-- A thermal state with ratio one half. -/
noncomputable def thermal : Mode where
  A := fun i j => if i = j then 0 else 1 / 2
  b := fun _ => 0
  c := 1 / 2

theorem thermal_real : RealState thermal := ⟨by simp [thermal], by simp [thermal], by simp [thermal]⟩

theorem sq1 : Fock.sq 1 = 1 := by simp [Fock.sq]

/-- The thermal state with ratio one half has probabilities ½, ¼, …; asked for 70 %, the code returns
shape 1, which retains 50 %. -/
theorem C41_thermal : raw thermal (7 / 10) 100 = 1 ∧ retained thermal 1 = 1 / 2 := by
  constructor
  · unfold raw
    rw [show (100 : ℕ) = 98 + 1 + 1 from rfl, loop, loop]
    have h0 : (start thermal).norm = 1 / 2 := by simp [start, thermal]
    have h1 : (step thermal (start thermal)).norm = 3 / 4 := by
      simp [step, start, newBuf3, newBuf2, thermal, sq1, sq0]
      norm_num
    rw [if_pos (by rw [h0]; norm_num), if_neg (by rw [h1]; norm_num)]
    rfl
  · simp [retained, rho_zero, thermal]

/-- A displaced thermal state, with an imaginary displacement: `A = r X`, `b = (i, -i)`, `r = ½`,
normalised. -/
noncomputable def displaced : Mode where
  A := fun i j => if i = j then 0 else 1 / 2
  b := fun i => if i = 0 then Complex.I else -Complex.I
  c := ((Real.exp (-2) / 2 : ℝ) : ℂ)

theorem sq2 : Fock.sq 2 * Fock.sq 2 = 2 := by
  rw [Fock.sq_mul_self]
  norm_num

/-- The true probabilities of zero, one and two photons of the displaced thermal state, in units of
the vacuum probability: 1, 3/2, 7/4. -/
theorem displaced_true :
    rho displaced 0 0 = displaced.c ∧ rho displaced 1 1 = 3 / 2 * displaced.c
      ∧ rho displaced 2 2 = 7 / 4 * displaced.c := by
  have hs : displaced.A 0 1 = displaced.A 1 0 := by simp [displaced]
  have A00 : displaced.A 0 0 = 0 := by simp [displaced]
  have A11 : displaced.A 1 1 = 0 := by simp [displaced]
  have A01 : displaced.A 0 1 = 1 / 2 := by simp [displaced]
  have A10 : displaced.A 1 0 = 1 / 2 := by simp [displaced]
  have b0 : displaced.b 0 = Complex.I := by simp [displaced]
  have b1 : displaced.b 1 = -Complex.I := by simp [displaced]
  have I2 : Complex.I * Complex.I = -1 := Complex.I_mul_I
  have r00 := rho_zero displaced
  have r10 : rho displaced 1 0 = Complex.I * displaced.c := by
    have := (rho_up hs 0 0).1
    rw [zero_add, sq1, one_mul, low0, low1, r00, b0] at this
    rw [this]
    ring
  have r11 : rho displaced 1 1 = 3 / 2 * displaced.c := by
    have := (rho_up hs 1 0).2
    rw [zero_add, sq1, one_mul, low0, low1, zero_add, sq1, r10, r00, b1, A10, A11] at this
    rw [this]
    linear_combination (-displaced.c) * I2
  have r21 : Fock.sq 2 * rho displaced 2 1 = 2 * Complex.I * displaced.c := by
    have := (rho_up hs 1 1).1
    rw [show (1 + 1 : ℕ) = 2 from rfl, low0, low1, zero_add, sq1, r11, r10, b0, A00, A01] at this
    rw [this]
    ring
  have r22 : rho displaced 2 2 = 7 / 4 * displaced.c := by
    have := (rho_up hs 2 1).2
    rw [show (1 + 1 : ℕ) = 2 from rfl, low0, low1, show (1 + 1 : ℕ) = 2 from rfl, r11, b1, A10, A11] at this
    have h2 : Fock.sq 2 * (Fock.sq 2 * rho displaced 2 2)
        = -Complex.I * (Fock.sq 2 * rho displaced 2 1) + 1 / 2 * (Fock.sq 2 * Fock.sq 2) * (3 / 2 * displaced.c) := by
      rw [this]
      ring
    rw [r21, ← mul_assoc, sq2] at h2
    have : (2 : ℂ) * rho displaced 2 2 = 2 * (7 / 4 * displaced.c) := by
      rw [h2]
      linear_combination (-2 * displaced.c) * I2
    exact mul_left_cancel₀ two_ne_zero this
  exact ⟨r00, r11, r22⟩

/-- **C41**, disagreement: for states with an imaginary displacement the loop computes wrong
probabilities (line 152 multiplies `A_` with the pair `(ρ_{k,k-1}, ρ_{k-1,k})`, which should be
swapped).  For this displaced thermal state three photon numbers carry `4.25 c ≥ 4 c`, two carry
less, but the loop asked for `4 c` does not stop at 2. -/
theorem C41_wrong_probability :
    retained displaced 2 < 4 * ‖displaced.c‖ ∧ 4 * ‖displaced.c‖ ≤ retained displaced 3
      ∧ 2 < raw displaced (4 * ‖displaced.c‖) 100 := by
  obtain ⟨t0, t1, t2⟩ := displaced_true
  have hc : 0 < ‖displaced.c‖ := by
    have : displaced.c ≠ 0 := by
      simp only [displaced]
      exact_mod_cast (by positivity : Real.exp (-2) / 2 ≠ 0)
    exact norm_pos_iff.mpr this
  have n1 : ‖rho displaced 1 1‖ = 3 / 2 * ‖displaced.c‖ := by rw [t1, norm_mul]; norm_num
  have n2 : ‖rho displaced 2 2‖ = 7 / 4 * ‖displaced.c‖ := by rw [t2, norm_mul]; norm_num
  refine ⟨?_, ?_, ?_⟩
  · simp only [retained, Finset.sum_range_succ, Finset.sum_range_zero, t0, n1]
    linarith
  · simp only [retained, Finset.sum_range_succ, Finset.sum_range_zero, t0, n1, n2]
    linarith
  · have I2 : Complex.I * Complex.I = -1 := Complex.I_mul_I
    have b0 : displaced.b 0 = Complex.I := by simp [displaced]
    have b1 : displaced.b 1 = -Complex.I := by simp [displaced]
    have A00 : displaced.A 0 0 = 0 := by simp [displaced]
    have A11 : displaced.A 1 1 = 0 := by simp [displaced]
    have A01 : displaced.A 0 1 = 1 / 2 := by simp [displaced]
    have A10 : displaced.A 1 0 = 1 / 2 := by simp [displaced]
    have k0 : (start displaced).k = 0 := rfl
    have e20 : newBuf2 displaced (start displaced) 0 = Complex.I * displaced.c := by
      simp [newBuf2, start, b0, sq0, sq1]
    have e21 : newBuf2 displaced (start displaced) 1 = -Complex.I * displaced.c := by
      simp [newBuf2, start, b1, sq0, sq1]
    have e31 : newBuf3 displaced (start displaced) 1 = 3 / 2 * displaced.c := by
      have h0 : (start displaced).buf3 (0 % 2) 1 = displaced.c := by simp [start]
      rw [newBuf3, e20, k0, h0, b1, A10, A11, sq0, zero_add, sq1]
      linear_combination (-displaced.c) * I2
    have f20 : Fock.sq 2 * newBuf2 displaced (step displaced (start displaced)) 0 = Complex.I * displaced.c := by
      have q2 : Fock.sq 2 ≠ 0 := Fock.sq_ne_zero (by omega)
      rw [newBuf2]
      simp only [step, k0, zero_add, Nat.mod_succ, Function.update_self, e20, e21, e31, b0, A00, A01, sq1]
      rw [mul_div_cancel₀ _ q2]
      ring
    have f31 : newBuf3 displaced (step displaced (start displaced)) 1 = 5 / 4 * displaced.c := by
      have q2 : Fock.sq 2 ≠ 0 := Fock.sq_ne_zero (by omega)
      have hk : (step displaced (start displaced)).k = 1 := rfl
      have h31 : (step displaced (start displaced)).buf3 (1 % 2) 1 = 3 / 2 * displaced.c := by
        simp only [step, k0, zero_add, Nat.mod_succ, Function.update_self, e31]
      have : Fock.sq 2 * (Fock.sq 2 * newBuf3 displaced (step displaced (start displaced)) 1)
          = Fock.sq 2 * (Fock.sq 2 * (5 / 4 * displaced.c)) := by
        rw [newBuf3, hk, h31, b1, A10, A11, show (1 + 1 : ℕ) = 2 from rfl, mul_div_cancel₀ _ q2]
        have : Fock.sq 2 * (-Complex.I * newBuf2 displaced (step displaced (start displaced)) 0
            + 1 / 2 * (3 / 2 * displaced.c) * Fock.sq 2
            + 0 * (step displaced (start displaced)).buf3 (1 % 2) 0 * Fock.sq 1)
            = -Complex.I * (Fock.sq 2 * newBuf2 displaced (step displaced (start displaced)) 0)
              + 1 / 2 * (3 / 2 * displaced.c) * (Fock.sq 2 * Fock.sq 2) := by ring
        rw [this, f20, ← mul_assoc (Fock.sq 2) (Fock.sq 2), sq2]
        linear_combination (-displaced.c) * I2
      exact mul_left_cancel₀ q2 (mul_left_cancel₀ q2 this)
    have m0 : (start displaced).norm = ‖displaced.c‖ := rfl
    have m1 : (step displaced (start displaced)).norm = 5 / 2 * ‖displaced.c‖ := by
      have : (step displaced (start displaced)).norm = ‖displaced.c‖ + ‖newBuf3 displaced (start displaced) 1‖ := rfl
      rw [this, e31, norm_mul]
      norm_num
      ring
    have m2 : (step displaced (step displaced (start displaced))).norm = 15 / 4 * ‖displaced.c‖ := by
      have : (step displaced (step displaced (start displaced))).norm
        = (step displaced (start displaced)).norm + ‖newBuf3 displaced (step displaced (start displaced)) 1‖ := rfl
      rw [this, m1, f31, norm_mul]
      norm_num
      ring
    have hmono : ∀ f s, s.k ≤ loop displaced (4 * ‖displaced.c‖) f s := by
      intro f
      induction f with
      | zero => intro s; rw [loop]
      | succ f ih =>
        intro s
        rw [loop]
        split_ifs
        · exact le_trans (Nat.le_succ _) (ih (step displaced s))
        · exact le_rfl
    unfold raw
    rw [show (100 : ℕ) = 97 + 1 + 1 + 1 from rfl, loop, loop, loop]
    rw [if_pos (by rw [m0]; linarith), if_pos (by rw [m1]; linarith), if_pos (by rw [m2]; linarith)]
    exact lt_of_lt_of_le (by decide) (hmono 97 (step displaced (step displaced (step displaced (start displaced)))))

end Verif.Auto
