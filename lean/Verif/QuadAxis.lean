import Mathlib.Analysis.SpecialFunctions.Pow.Real
import Mathlib.Analysis.SpecialFunctions.Trigonometric.Basic
import Mathlib.Algebra.BigOperators.Intervals
import Mathlib.Algebra.Order.Floor.Semiring
import Mathlib.Tactic.Linarith
import Mathlib.Tactic.FieldSimp
import Mathlib.Tactic.Positivity

/-!
# The quadrature axis chosen for a Fock cutoff (C105)
-/

namespace Verif.Axis

/-! ## The code -/

/-- `estimate_dx` (physics/fock_utils.py 124-149). -/
noncomputable def estDx (cutoff : ℕ) (res : ℝ) : ℝ := 2 * Real.pi / Real.sqrt (2 * (cutoff + 1)) / res

/-- `estimate_xmax` (physics/fock_utils.py 152-173). -/
noncomputable def estXmax (cutoff : ℕ) (minimum : ℝ) : ℝ :=
  max minimum (if cutoff = 0 then 3 else Real.sqrt (2 * cutoff) * (1 + 5 * (1 / (7.464 * (cutoff : ℝ) ^ (1 / 3 : ℝ)))))

/-- `np.arange(lo, hi, step)` for a positive step. -/
noncomputable def arange (lo hi step : ℝ) : List ℝ := (List.range ⌈(hi - lo) / step⌉₊).map fun i : ℕ => lo + i * step

/-- `np.mean`. -/
noncomputable def mean (l : List ℝ) : ℝ := l.sum / l.length

/-- `estimate_quadrature_axis` (physics/fock_utils.py 176-194); `none` if `xaxis[-1]` raises. -/
noncomputable def quadAxis (cutoff : ℕ) (minimum res : ℝ) : Option (List ℝ) :=
  let dx := estDx cutoff res
  let x := arange (-estXmax cutoff minimum) (estXmax cutoff minimum) dx
  x.getLast?.map fun e => let y := x ++ [e + dx]; y.map fun t => t - mean y

/-! ## Proofs -/

theorem estDx_pos (cutoff : ℕ) {res : ℝ} (h : 0 < res) : 0 < estDx cutoff res := by
  unfold estDx
  have := Real.pi_pos
  have h2 : (0 : ℝ) < 2 * (cutoff + 1) := by positivity
  have := Real.sqrt_pos.2 h2
  positivity

/-- The end covers the classically allowed region of every Fock state below the cutoff. -/
theorem estXmax_ge (cutoff : ℕ) (minimum : ℝ) : Real.sqrt (2 * cutoff) ≤ estXmax cutoff minimum ∧ minimum ≤ estXmax cutoff minimum ∧ 0 < estXmax cutoff minimum := by
  unfold estXmax
  refine ⟨le_trans ?_ (le_max_right _ _), le_max_left _ _, lt_of_lt_of_le ?_ (le_max_right _ _)⟩
  · split_ifs with h
    · rw [h]
      simp
    · refine le_mul_of_one_le_right (Real.sqrt_nonneg _) ?_
      have : (0 : ℝ) ≤ (cutoff : ℝ) ^ (1 / 3 : ℝ) := Real.rpow_nonneg (Nat.cast_nonneg _) _
      have : (0 : ℝ) ≤ 5 * (1 / (7.464 * (cutoff : ℝ) ^ (1 / 3 : ℝ))) := by positivity
      linarith
  · split_ifs with h
    · norm_num
    · have h1 : (0 : ℝ) < 2 * cutoff := by
        have : 0 < cutoff := Nat.pos_of_ne_zero h
        positivity
      have h2 : (0 : ℝ) ≤ (cutoff : ℝ) ^ (1 / 3 : ℝ) := Real.rpow_nonneg (Nat.cast_nonneg _) _
      have := Real.sqrt_pos.2 h1
      positivity

/-- **C105** For every cutoff, minimum and positive resolution, `estimate_quadrature_axis` returns.  Its points are equally spaced by `estimate_dx`, symmetric about 0 (so their mean is 0), there are at least two of them,
the last one is at least `estimate_xmax` and less than half a step beyond it; in particular the axis covers the given minimum and the classical region of every Fock state below the cutoff, and the step
divides the period of the fastest of them into `res` parts. -/
theorem C105_axis (cutoff : ℕ) (minimum res : ℝ) (hr : 0 < res) :
    ∃ l N, quadAxis cutoff minimum res = some l ∧ l.length = N + 1 ∧ 1 ≤ N ∧ (∀ i ≤ N, l.getD i 0 = (i - (N : ℝ) / 2) * estDx cutoff res) ∧
      estXmax cutoff minimum ≤ l.getD N 0 ∧ l.getD N 0 < estXmax cutoff minimum + estDx cutoff res / 2 ∧ minimum ≤ l.getD N 0 ∧ (∀ n ≤ cutoff, Real.sqrt (2 * n) ≤ l.getD N 0) ∧
      res * estDx cutoff res = 2 * Real.pi / Real.sqrt (2 * (cutoff + 1)) := by
  obtain ⟨dx, hdx⟩ : ∃ dx, dx = estDx cutoff res := ⟨_, rfl⟩
  obtain ⟨M, hM⟩ : ∃ M, M = estXmax cutoff minimum := ⟨_, rfl⟩
  obtain ⟨g1, g2, g3⟩ := estXmax_ge cutoff minimum
  have hd : 0 < dx := hdx ▸ estDx_pos cutoff hr
  rw [← hM] at g1 g2 g3
  obtain ⟨N, hN⟩ : ∃ N, N = ⌈(M - -M) / dx⌉₊ := ⟨_, rfl⟩
  have hpos : 0 < (M - -M) / dx := div_pos (by linarith) hd
  have hN1 : 1 ≤ N := by
    rw [hN]
    exact Nat.one_le_iff_ne_zero.2 (Nat.ceil_pos.2 hpos).ne'
  have hle : (M - -M) ≤ N * dx := by
    have := Nat.le_ceil ((M - -M) / dx)
    rw [← hN, div_le_iff₀ hd] at this
    exact this
  have hlt : N * dx < (M - -M) + dx := by
    have := Nat.ceil_lt_add_one hpos.le
    rw [← hN] at this
    have h2 : (N : ℝ) * dx < ((M - -M) / dx + 1) * dx := mul_lt_mul_of_pos_right this hd
    rwa [add_mul, div_mul_cancel₀ _ hd.ne', one_mul] at h2
  have hx : arange (-M) M dx = (List.range N).map fun i : ℕ => -M + i * dx := by
    unfold arange
    rw [← hN]
  have hlast : (arange (-M) M dx).getLast? = some (-M + ((N - 1 : ℕ) : ℝ) * dx) := by
    rw [hx, List.getLast?_map, List.getLast?_range, if_neg (by omega)]
    rfl
  have hy : arange (-M) M dx ++ [-M + ((N - 1 : ℕ) : ℝ) * dx + dx] = (List.range (N + 1)).map fun i : ℕ => -M + i * dx := by
    rw [hx, List.range_succ, List.map_append, List.map_singleton]
    refine congrArg (fun e => _ ++ [e]) ?_
    rw [Nat.cast_sub hN1]
    push_cast
    ring
  have hmean : mean ((List.range (N + 1)).map fun i : ℕ => -M + i * dx) = -M + N / 2 * dx := by
    unfold mean
    rw [List.length_map, List.length_range]
    have : ((List.range (N + 1)).map fun i : ℕ => -M + (i : ℝ) * dx).sum = ∑ i ∈ Finset.range (N + 1), (-M + (i : ℝ) * dx) := rfl
    rw [this, Finset.sum_add_distrib, Finset.sum_const, Finset.card_range, ← Finset.sum_mul, nsmul_eq_mul]
    have hs : ∑ i ∈ Finset.range (N + 1), (i : ℝ) = N * (N + 1) / 2 := by
      have h0 := Finset.sum_range_id_mul_two (N + 1)
      rw [Nat.add_sub_cancel] at h0
      have h1 : (∑ i ∈ Finset.range (N + 1), (i : ℝ)) * 2 = (N + 1) * N := by
        rw [← Nat.cast_sum]
        exact_mod_cast h0
      linarith
    rw [hs]
    have : (N : ℝ) + 1 ≠ 0 := by positivity
    push_cast
    field_simp
  have hget : ∀ i ≤ N, (((List.range (N + 1)).map fun i : ℕ => -M + (i : ℝ) * dx).map fun t => t - (-M + N / 2 * dx)).getD i 0 = (i - (N : ℝ) / 2) * dx := by
    intro i hi
    rw [List.map_map, List.getD_eq_getElem?_getD, List.getElem?_map, List.getElem?_range (by omega), Option.map_some, Option.getD_some]
    show -M + (i : ℝ) * dx - (-M + N / 2 * dx) = _
    ring
  have hend := hget N le_rfl
  have hval : ((N : ℝ) - N / 2) * dx = N * dx / 2 := by ring
  refine ⟨((List.range (N + 1)).map fun i : ℕ => -M + (i : ℝ) * dx).map fun t => t - (-M + N / 2 * dx), N, ?_, ?_, hN1, ?_, ?_, ?_, ?_, ?_, ?_⟩
  · unfold quadAxis
    dsimp only
    rw [← hM, ← hdx, hlast, Option.map_some, hy, hmean]
  · rw [List.length_map, List.length_map, List.length_range]
  · rw [← hdx]
    exact hget
  · rw [hend, hval, ← hM]
    linarith
  · rw [hend, hval, ← hM, ← hdx]
    linarith
  · rw [hend, hval]
    linarith
  · intro n hn
    rw [hend, hval]
    have h1 : Real.sqrt (2 * n) ≤ Real.sqrt (2 * cutoff) := Real.sqrt_le_sqrt (by
      have : (n : ℝ) ≤ cutoff := by exact_mod_cast hn
      linarith)
    linarith
  · unfold estDx
    rw [mul_div_cancel₀ _ hr.ne']

/-- The default axis: minimum 5 and resolution 20. -/
example : ∃ l, quadAxis 10 5 20 = some l ∧ 2 ≤ l.length ∧ l.getD 0 0 = -l.getD (l.length - 1) 0 := by
  obtain ⟨l, N, h1, h2, h3, h4, -⟩ := C105_axis 10 5 20 (by norm_num)
  refine ⟨l, h1, by omega, ?_⟩
  rw [h2, h4 0 (Nat.zero_le _), show N + 1 - 1 = N from rfl, h4 N le_rfl]
  push_cast
  ring

end Verif.Axis
