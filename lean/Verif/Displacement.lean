import Verif.AmpClosed
import Verif.GateGrads
import Mathlib.Analysis.SpecialFunctions.Complex.Arg
import Mathlib.Analysis.SpecialFunctions.Log.Basic

/-!
# Model of the displacement strategy and of its gradients (C62, C63)
-/

namespace Verif.Fock

/-- math/lattice/strategies/displacement.py:82: one iteration of the loop of `laguerre`.  `L[m - 1]` at `m = 0` is
`L[-1]`, the last entry of the array. -/
noncomputable def lagStep (x : ℝ) (N k : ℕ) (L : ℕ → ℂ) (m : ℕ) : ℕ → ℂ :=
  Function.update L (m + 1)
    (((2 * m + 1 + k - x : ℂ) * L m - (m + k : ℂ) * (if m = 0 then L (N - 1) else L (m - 1))) / (m + 1 : ℂ))

/-- math/lattice/strategies/displacement.py:67-81 `laguerre(x, N, alpha)`: the loop filling `L`, zero initially. -/
noncomputable def laguerre (x : ℝ) (N k : ℕ) : ℕ → ℂ :=
  (List.range (N - 1)).foldl (lagStep x N k) (Function.update (fun _ => 0) 0 1)

/-- math/lattice/strategies/displacement.py:46-48: `log_k_fac = cumsum(log(rng))` with `rng = [1, 1, 2, 3, …]`. -/
noncomputable def logKFac (n : ℕ) : ℝ := ∑ j ∈ Finset.range (n + 1), Real.log (if j = 0 then 1 else (j : ℝ))

/-- math/lattice/strategies/displacement.py:52-62: the value assigned to `D[n, m]` with `n = n_minus_m + m`.  The
summand `logL[m]` inside the exponential is modelled as the factor `L[m]` (numpy's `log 0 = -inf` and
`exp(-inf) = 0` make the two equal). -/
noncomputable def dispVal (flipped : Bool) (N M : ℕ) (α : ℂ) (k m : ℕ) : ℂ :=
  let r := ‖α‖
  let φ := α.arg
  let n := k + m
  let sign : ℂ := if flipped ∧ n > m ∧ k % 2 = 1 then -1 else 1
  let conj : ℂ := if flipped ∧ n > m then -1 else 1
  sign * (Complex.exp (((1 / 2 * (logKFac m - logKFac n) + k * Real.log r - r ^ 2 / 2 : ℝ) : ℂ) +
    conj * Complex.I * φ * k) * laguerre (r ^ 2) (min M (N - k)) k m)

/-- math/lattice/strategies/displacement.py:49-65: one iteration of the inner loop. -/
noncomputable def dispStep (flipped : Bool) (N M : ℕ) (α : ℂ) (D : ℕ × ℕ → ℂ) (x : ℕ × ℕ) : ℕ × ℕ → ℂ :=
  let k := x.1; let m := x.2; let n := k + m
  let D1 := Function.update D (n, m) (dispVal flipped N M α k m)
  if n < M then Function.update D1 (m, n) ((-1) ^ k * starRingEnd ℂ (D1 (n, m))) else D1

/-- math/lattice/strategies/displacement.py:49-65: the two loops, for `M ≤ N`. -/
noncomputable def dispLoop (flipped : Bool) (N M : ℕ) (α : ℂ) : ℕ × ℕ → ℂ :=
  ((List.range N).flatMap fun k => (List.range (min M (N - k))).map fun m => (k, m)).foldl
    (dispStep flipped N M α) (fun _ => 0)

/-- math/lattice/strategies/displacement.py:23-64 `displacement(cutoffs, alpha)`. -/
noncomputable def displacementFock (c₁ c₂ : ℕ) (α : ℂ) : ℕ × ℕ → ℂ :=
  if c₁ < c₂ then fun p => dispLoop true c₂ c₁ α (p.2, p.1) else dispLoop false c₁ c₂ α

/-- math/backend_numpy.py:452-457 `displacement(alpha, shape, tol)` (and `displacement_jax`,
math/jax_vjps/fock_utils.py:113-139). -/
noncomputable def displacementGate (tol : ℝ) (c₁ c₂ : ℕ) (α : ℂ) : ℕ × ℕ → ℂ :=
  if tol < ‖α‖ then displacementFock c₁ c₂ α else fun p => if p.1 = p.2 then 1 else 0

/-- physics/triples.py `displacement_gate_Abc` (unbatched), see `Triples.displacement`: matrix and vector. -/
def dispA (i j : ℕ) : ℂ := if i = j then 0 else 1
noncomputable def dispB (α : ℂ) (i : ℕ) : ℂ := if i = 0 then α else -starRingEnd ℂ α
noncomputable def dispC (α : ℂ) : ℂ := Complex.exp ((-(‖α‖ ^ 2) / 2 : ℝ) : ℂ)

/-! ## Correctness -/

theorem logKFac_eq (n : ℕ) : logKFac n = Real.log (n.factorial : ℝ) := by
  induction n with
  | zero => simp [logKFac]
  | succ n ih =>
    unfold logKFac at *
    rw [Finset.sum_range_succ, ih, if_neg (Nat.succ_ne_zero n), Nat.factorial_succ, Nat.cast_mul,
      Real.log_mul (by positivity) (by positivity), add_comm]

theorem exp_half_log (m : ℕ) : Real.exp (1 / 2 * logKFac m) = Real.sqrt (m.factorial : ℝ) := by
  have h : (0 : ℝ) < (m.factorial : ℝ) := by positivity
  rw [logKFac_eq, mul_comm, Real.exp_mul, Real.exp_log h, Real.sqrt_eq_rpow]

/-- Two-variable arrays with the ladder recursions of a displacement: their diagonals are Laguerre polynomials. -/
theorem laguerre_diag {U : ℕ → ℕ → ℂ} {a b : ℂ} {x : ℝ} (hx : a * b = -(x : ℂ)) (ha : a ≠ 0)
    (h1 : ∀ n m, U (n + 1) m = a * U n m + m * U n (m - 1))
    (h2 : ∀ n m, U n (m + 1) = b * U n m + n * U (n - 1) m) (N k : ℕ) :
    ∀ m < N, U (m + k) m = U 0 0 * a ^ k * (m.factorial : ℂ) * laguerre x N k m := by
  have hU0 : ∀ n, U n 0 = U 0 0 * a ^ n := by
    intro n
    induction n with
    | zero => simp
    | succ n ih => rw [h1, ih]; push_cast; ring
  have hrec : ∀ m, U (m + 1 + k) (m + 1) = (2 * m + 1 + k - x : ℂ) * U (m + k) m -
      (m + k : ℂ) * m * U (m - 1 + k) (m - 1) := by
    intro m
    rw [show m + 1 + k = m + k + 1 by ring, h1, h2, Nat.add_sub_cancel]
    have e : a * ((m + k : ℕ) * U (m + k - 1) m) = (m + k : ℕ) * (U (m + k) m - m * U (m - 1 + k) (m - 1)) := by
      rcases Nat.eq_zero_or_pos (m + k) with h0 | h0
      · rw [h0]; push_cast; ring
      · have := h1 (m + k - 1) m
        rw [Nat.sub_add_cancel h0] at this
        rw [this]
        rcases Nat.eq_zero_or_pos m with hm | hm
        · subst hm; push_cast; ring
        · rw [show m - 1 + k = m + k - 1 by omega]; ring
    push_cast at e ⊢
    linear_combination hx * U (m + k) m + e
  set f : (ℕ → ℂ) → ℕ → (ℕ → ℂ) := lagStep x N k with hf
  have main : ∀ j, j + 1 ≤ N → (∀ m ≤ j, U (m + k) m = U 0 0 * a ^ k * (m.factorial : ℂ) *
      ((List.range j).foldl f (Function.update (fun _ => 0) 0 1)) m) ∧
      ∀ m, j < m → ((List.range j).foldl f (Function.update (fun _ => 0) 0 1)) m = 0 := by
    intro j
    induction j with
    | zero =>
      intro _
      constructor
      · intro m hm
        obtain rfl : m = 0 := by omega
        rw [Nat.zero_add, hU0]; simp
      · intro m hm
        simp [Function.update_of_ne (show m ≠ 0 by omega)]
    | succ j ih =>
      intro hj
      obtain ⟨i1, i2⟩ := ih (by omega)
      rw [List.range_succ, List.foldl_append, List.foldl_cons, List.foldl_nil]
      set L := (List.range j).foldl f (Function.update (fun _ => 0) 0 1) with hL
      constructor
      · intro m hm
        by_cases hmj : m = j + 1
        · subst hmj
          simp only [hf, lagStep, Function.update_self]
          have hj1 : (j : ℂ) + 1 ≠ 0 := by exact_mod_cast Nat.succ_ne_zero j
          rw [hrec, i1 j le_rfl, Nat.factorial_succ]
          rcases Nat.eq_zero_or_pos j with h0 | h0
          · subst h0
            rw [if_pos rfl, i2 (N - 1) (by omega)]
            push_cast
            field_simp
            ring
          · obtain ⟨i, rfl⟩ : ∃ i, j = i + 1 := ⟨j - 1, by omega⟩
            rw [if_neg (by omega), Nat.add_sub_cancel, i1 i (by omega), Nat.factorial_succ]
            push_cast
            push_cast at hj1
            field_simp
        · simp only [hf, lagStep, Function.update_of_ne hmj]
          exact i1 m (by omega)
      · intro m hm
        simp only [hf, lagStep, Function.update_of_ne (show m ≠ j + 1 by omega)]
        exact i2 m (by omega)
  intro m hm
  exact (main (N - 1) (by omega)).1 m (by omega)

/-- Ladder recursions of the unnormalised amplitudes. -/
theorem disp_ladder (α c : ℂ) :
    let U := fun n m => sf n * sf m * amp 2 dispA (dispB α) c (toF [n, m])
    (∀ n m, U (n + 1) m = α * U n m + m * U n (m - 1)) ∧
    (∀ n m, U n (m + 1) = -starRingEnd ℂ α * U n m + n * U (n - 1) m) ∧ U 0 0 = c := by
  intro U
  have hA : Symm 2 dispA := by
    intro i _ j _; simp [dispA, eq_comm]
  have hsf : ∀ n, sf (n + 1) = sq (n + 1) * sf n := by
    intro n
    unfold sf sq
    rw [Nat.factorial_succ, Nat.cast_mul, Real.sqrt_mul (by positivity)]; push_cast; rfl
  have hsf' : ∀ n : ℕ, sf n * sq n = (n : ℂ) * sf (n - 1) := by
    intro n
    rcases n with _ | n
    · simp
    · rw [hsf, Nat.add_sub_cancel]
      linear_combination sf n * sq_mul_self (n + 1)
  refine ⟨?_, ?_, ?_⟩
  · intro n m
    simp only [U]
    rw [amp_rec c hA (i := 0) (by omega) (toF [n + 1, m]) (by simp)]
    simp [dn_toF, Finset.sum_range_succ, dispA, dispB, hsf]
    have hq : sq (n + 1) ≠ 0 := sq_ne_zero (Nat.succ_ne_zero n)
    have := hsf' m
    field_simp
    linear_combination (amp 2 dispA (dispB α) c (toF [n, m - 1])) * sf n * this
  · intro n m
    simp only [U]
    rw [amp_rec c hA (i := 1) (by omega) (toF [n, m + 1]) (by simp)]
    simp [dn_toF, Finset.sum_range_succ, dispA, dispB, hsf]
    have hq : sq (m + 1) ≠ 0 := sq_ne_zero (Nat.succ_ne_zero m)
    have := hsf' n
    field_simp
    linear_combination (amp 2 dispA (dispB α) c (toF [n - 1, m])) * sf m * this
  · simp only [U]
    rw [show toF [0, 0] = 0 from toF_unravel_zero [1, 1], amp_zero]; simp [sf]

/-- The amplitude below the diagonal. -/
theorem disp_lower (α c : ℂ) (hα : α ≠ 0) (N k m : ℕ) (hm : m < N) :
    amp 2 dispA (dispB α) c (toF [k + m, m]) =
      c * (sf m / sf (k + m)) * α ^ k * laguerre (‖α‖ ^ 2) N k m := by
  obtain ⟨h1, h2, h0⟩ := disp_ladder α c
  have hx : α * -starRingEnd ℂ α = -((‖α‖ ^ 2 : ℝ) : ℂ) := by
    rw [mul_neg, Complex.mul_conj, Complex.normSq_eq_norm_sq]
  have := laguerre_diag (U := fun n m => sf n * sf m * amp 2 dispA (dispB α) c (toF [n, m])) hx hα h1 h2 N k m hm
  beta_reduce at this h0
  rw [h0] at this
  have n1 := sf_ne m
  have n2 := sf_ne (k + m)
  have h3 := sf_sq m
  rw [add_comm m k, ← h3] at this
  field_simp
  apply mul_left_cancel₀ n1
  linear_combination this

/-- The amplitude above the diagonal. -/
theorem disp_upper (α c : ℂ) (hα : α ≠ 0) (N k m : ℕ) (hm : m < N) :
    amp 2 dispA (dispB α) c (toF [m, k + m]) =
      c * (sf m / sf (k + m)) * (-starRingEnd ℂ α) ^ k * laguerre (‖α‖ ^ 2) N k m := by
  obtain ⟨h1, h2, h0⟩ := disp_ladder α c
  have hx : -starRingEnd ℂ α * α = -((‖α‖ ^ 2 : ℝ) : ℂ) := by
    rw [neg_mul, mul_comm, Complex.mul_conj, Complex.normSq_eq_norm_sq]
  have := laguerre_diag (U := fun n m => sf m * sf n * amp 2 dispA (dispB α) c (toF [m, n])) hx
    (by simpa using hα) (fun n m => h2 m n) (fun n m => h1 m n) N k m hm
  beta_reduce at this h0
  rw [h0] at this
  have n1 := sf_ne m
  have n2 := sf_ne (k + m)
  have h3 := sf_sq m
  rw [add_comm m k, ← h3] at this
  field_simp
  apply mul_left_cancel₀ n1
  linear_combination this

theorem conj_laguerre (x : ℝ) (N k m : ℕ) : starRingEnd ℂ (laguerre x N k m) = laguerre x N k m := by
  unfold laguerre
  generalize List.range (N - 1) = l
  have : ∀ L : ℕ → ℂ, (∀ m, starRingEnd ℂ (L m) = L m) → ∀ m,
      starRingEnd ℂ ((l.foldl (lagStep x N k) L) m) = (l.foldl (lagStep x N k) L) m := by
    induction l with
    | nil => intro L hL m; exact hL m
    | cons j l ih =>
      intro L hL m
      rw [List.foldl_cons]
      refine ih _ ?_ m
      intro m
      unfold lagStep
      by_cases h : m = j + 1
      · subst h
        rw [Function.update_self]
        have hif : starRingEnd ℂ (if j = 0 then L (N - 1) else L (j - 1)) = if j = 0 then L (N - 1) else L (j - 1) := by
          split_ifs <;> exact hL _
        simp only [map_div₀, map_sub, map_mul, map_add, hL, hif, Complex.conj_ofReal, Complex.conj_natCast, map_one,
          Complex.conj_ofNat]
      · rw [Function.update_of_ne h]; exact hL m
  refine this _ ?_ m
  intro m
  by_cases h : m = 0
  · subst h; simp
  · rw [Function.update_of_ne h]; simp

theorem polar_pow (α : ℂ) (hα : α ≠ 0) (k : ℕ) :
    ((‖α‖ : ℝ) : ℂ) ^ k * Complex.exp (1 * Complex.I * α.arg * k) = α ^ k ∧
    ((‖α‖ : ℝ) : ℂ) ^ k * Complex.exp (-1 * Complex.I * α.arg * k) = (starRingEnd ℂ α) ^ k := by
  have h := Complex.norm_mul_exp_arg_mul_I α
  constructor
  · conv_rhs => rw [← h]
    rw [mul_pow, ← Complex.exp_nat_mul]
    refine congrArg _ (congrArg Complex.exp ?_); ring
  · conv_rhs => rw [← h]
    rw [map_mul, Complex.conj_ofReal, mul_pow, ← Complex.exp_conj, ← Complex.exp_nat_mul, map_mul, Complex.conj_ofReal,
      Complex.conj_I]
    refine congrArg _ (congrArg Complex.exp ?_); ring

theorem exp_real_part (α : ℂ) (hα : α ≠ 0) (k m : ℕ) :
    Complex.exp ((1 / 2 * (logKFac m - logKFac (k + m)) + k * Real.log ‖α‖ - ‖α‖ ^ 2 / 2 : ℝ) : ℂ) =
      dispC α * (sf m / sf (k + m)) * ((‖α‖ : ℝ) : ℂ) ^ k := by
  have hr : 0 < ‖α‖ := norm_pos_iff.2 hα
  rw [← Complex.ofReal_exp]
  have : Real.exp (1 / 2 * (logKFac m - logKFac (k + m)) + k * Real.log ‖α‖ - ‖α‖ ^ 2 / 2) =
      Real.exp (-(‖α‖ ^ 2) / 2) * (Real.sqrt (m.factorial : ℝ) / Real.sqrt ((k + m).factorial : ℝ)) * ‖α‖ ^ k := by
    rw [show 1 / 2 * (logKFac m - logKFac (k + m)) + k * Real.log ‖α‖ - ‖α‖ ^ 2 / 2 =
      -(‖α‖ ^ 2) / 2 + (1 / 2 * logKFac m - 1 / 2 * logKFac (k + m)) + k * Real.log ‖α‖ by ring, Real.exp_add,
      Real.exp_add, Real.exp_sub, exp_half_log, exp_half_log, Real.exp_nat_mul, Real.exp_log hr]
  rw [this]
  unfold dispC sf
  push_cast
  rfl

/-- The value computed for `D[n, m]`. -/
theorem dispVal_eq (flipped : Bool) (N M : ℕ) (α : ℂ) (hα : α ≠ 0) (k m : ℕ) (hm : m < min M (N - k)) :
    dispVal flipped N M α k m =
      if flipped then amp 2 dispA (dispB α) (dispC α) (toF [m, k + m])
      else amp 2 dispA (dispB α) (dispC α) (toF [k + m, m]) := by
  obtain ⟨p1, p2⟩ := polar_pow α hα k
  unfold dispVal
  dsimp only
  rw [Complex.exp_add, exp_real_part α hα, disp_lower α (dispC α) hα _ k m hm, disp_upper α (dispC α) hα _ k m hm]
  by_cases hf : flipped = true
  · simp only [hf, true_and, if_true]
    rcases Nat.eq_zero_or_pos k with hk | hk
    · subst hk
      simp
    · rw [if_pos (show k + m > m by omega)]
      have hs : (if k + m > m ∧ k % 2 = 1 then (-1 : ℂ) else 1) = (-1) ^ k := by
        rcases Nat.mod_two_eq_zero_or_one k with h | h
        · rw [if_neg (by omega), (Nat.even_iff.2 h).neg_one_pow]
        · rw [if_pos ⟨by omega, h⟩, (Nat.odd_iff.2 h).neg_one_pow]
      rw [hs, neg_pow (starRingEnd ℂ α) k, ← p2]
      ring
  · simp only [hf, false_and, if_false, Bool.false_eq_true, one_mul]
    rw [← p1]
    ring

theorem fold_at {ι P : Type*} [DecidableEq ι] (step : (P → ℂ) → ι → (P → ℂ)) (p : P) (x₀ : ι) (v : ℂ)
    (h1 : ∀ D, step D x₀ p = v) (l : List ι) (h2 : ∀ x ∈ l, x ≠ x₀ → ∀ D, step D x p = D p) :
    ∀ D : P → ℂ, (x₀ ∈ l ∨ D p = v) → (l.foldl step D) p = v := by
  induction l with
  | nil => intro D h; simpa using h
  | cons x l ih =>
    intro D h
    rw [List.foldl_cons]
    refine ih (fun y hy => h2 y (List.mem_cons_of_mem _ hy)) _ ?_
    by_cases hx : x = x₀
    · right; subst hx; exact h1 D
    · rcases h with h | h
      · left; exact (List.mem_cons.1 h).resolve_left (fun e => hx e.symm)
      · right; rw [h2 x List.mem_cons_self hx D]; exact h

theorem dispStep_other (flipped : Bool) (N M : ℕ) (α : ℂ) (D : ℕ × ℕ → ℂ) (x p : ℕ × ℕ)
    (h1 : p ≠ (x.1 + x.2, x.2)) (h2 : p ≠ (x.2, x.1 + x.2)) : dispStep flipped N M α D x p = D p := by
  unfold dispStep
  split_ifs
  · rw [Function.update_of_ne h2, Function.update_of_ne h1]
  · rw [Function.update_of_ne h1]

theorem conj_amp_disp (α : ℂ) (hα : α ≠ 0) (k m : ℕ) :
    (-1) ^ k * starRingEnd ℂ (amp 2 dispA (dispB α) (dispC α) (toF [k + m, m])) =
      amp 2 dispA (dispB α) (dispC α) (toF [m, k + m]) ∧
    (-1) ^ k * starRingEnd ℂ (amp 2 dispA (dispB α) (dispC α) (toF [m, k + m])) =
      amp 2 dispA (dispB α) (dispC α) (toF [k + m, m]) := by
  have hc : starRingEnd ℂ (dispC α) = dispC α := by
    unfold dispC; rw [← Complex.exp_conj, Complex.conj_ofReal]
  have hs : ∀ n, starRingEnd ℂ (sf n) = sf n := fun n => by unfold sf; rw [Complex.conj_ofReal]
  rw [disp_lower α _ hα (m + 1) k m (by omega), disp_upper α _ hα (m + 1) k m (by omega)]
  simp only [map_mul, map_div₀, map_pow, map_neg, hc, hs, conj_laguerre, Complex.conj_conj]
  have : ((-1 : ℂ)) ^ k * (-1) ^ k = 1 := by rw [← mul_pow]; norm_num
  constructor
  · rw [neg_pow (starRingEnd ℂ α) k]; ring
  · rw [neg_pow α k]
    linear_combination (dispC α * (sf m / sf (k + m)) * α ^ k * laguerre (‖α‖ ^ 2) (m + 1) k m) * this

theorem dispLoop_eq (flipped : Bool) (N M : ℕ) (hMN : M ≤ N) (α : ℂ) (hα : α ≠ 0) (a d : ℕ) (ha : a < N) (hd : d < M) :
    dispLoop flipped N M α (a, d) = amp 2 dispA (dispB α) (dispC α) (toF (if flipped then [d, a] else [a, d])) := by
  unfold dispLoop
  -- the iteration that writes entry `(a, d)`
  set k := max a d - min a d with hk
  set m := min a d with hmdef
  have hmem : ∀ x : ℕ × ℕ, x ∈ ((List.range N).flatMap fun k => (List.range (min M (N - k))).map fun m => (k, m)) ↔
      x.1 < N ∧ x.2 < M ∧ x.1 + x.2 < N := by
    rintro ⟨y, z⟩
    simp only [List.mem_flatMap, List.mem_range, List.mem_map, Prod.mk.injEq]
    constructor
    · rintro ⟨b, hb, c, hc, rfl, rfl⟩; omega
    · rintro ⟨h1, h2, h3⟩; exact ⟨y, h1, z, by omega, rfl, rfl⟩
  refine fold_at (dispStep flipped N M α) (a, d) (k, m) _ ?_ _ ?_ _ (Or.inl ((hmem _).2 ⟨by omega, by omega, by omega⟩))
  · intro D
    unfold dispStep
    dsimp only
    have hval := dispVal_eq flipped N M α hα k m (by omega)
    obtain ⟨c1, c2⟩ := conj_amp_disp α hα k m
    rcases lt_trichotomy a d with h | h | h
    · obtain ⟨e1, e2⟩ : m = a ∧ k + m = d := by omega
      rw [if_pos (by omega), ← e1, ← e2, Function.update_self, Function.update_self, hval]
      cases flipped
      · simpa using c1
      · simpa using c2
    · subst h
      obtain ⟨e1, e2⟩ : m = a ∧ k + m = a := by omega
      rw [e2, e1] at c1 hval
      rw [e2, e1, if_pos hd, Function.update_self, Function.update_self, hval]
      simpa using c1
    · obtain ⟨e1, e2⟩ : m = d ∧ k + m = a := by omega
      have hne : ((a, d) : ℕ × ℕ) ≠ (m, k + m) := by
        intro e; have := (Prod.mk.inj e).1; omega
      rw [e2, e1] at hval hne
      rw [e2, e1]
      by_cases hn : a < M
      · rw [if_pos hn, Function.update_of_ne hne, Function.update_self, hval]
        cases flipped <;> simp
      · rw [if_neg hn, Function.update_self, hval]
        cases flipped <;> simp
  · rintro ⟨y, z⟩ _ hne D
    refine dispStep_other _ _ _ _ _ _ _ ?_ ?_
    · intro e
      obtain ⟨e1, e2⟩ := Prod.mk.inj e
      simp only at e1 e2
      apply hne; rw [Prod.mk.injEq]; omega
    · intro e
      obtain ⟨e1, e2⟩ := Prod.mk.inj e
      simp only at e1 e2
      apply hne; rw [Prod.mk.injEq]; omega

/-- **C63** `displacement(cutoffs, alpha)` computes the Fock amplitudes of the displacement triple, for every
pair of cutoffs (square or not) and every non-zero amplitude. -/
theorem C63_displacement (c₁ c₂ : ℕ) (α : ℂ) (hα : α ≠ 0) (m n : ℕ) (hm : m < c₁) (hn : n < c₂) :
    displacementFock c₁ c₂ α (m, n) = amp 2 dispA (dispB α) (dispC α) (toF [m, n]) := by
  unfold displacementFock
  split_ifs with h
  · have := dispLoop_eq true c₂ c₁ h.le α hα n m hn hm
    simpa using this
  · have := dispLoop_eq false c₁ c₂ (by omega) α hα m n hm hn
    simpa using this

/-- **C63** `math.displacement(alpha, shape, tol)` above the tolerance, and at `alpha = 0`. -/
theorem C63_gate (tol : ℝ) (htol : 0 ≤ tol) (c₁ c₂ : ℕ) (α : ℂ) (hα : tol < ‖α‖ ∨ α = 0) (m n : ℕ) (hm : m < c₁)
    (hn : n < c₂) : displacementGate tol c₁ c₂ α (m, n) = amp 2 dispA (dispB α) (dispC α) (toF [m, n]) := by
  unfold displacementGate
  rcases hα with h | h
  · rw [if_pos h, C63_displacement c₁ c₂ α (norm_pos_iff.1 (htol.trans_lt h)) m n hm hn]
  · subst h
    rw [if_neg (by simpa using htol), amp2_diag rfl rfl rfl (by simp [dispB]) (by simp [dispB])]
    simp [dispC, dispA]

/-- **C63 (disagreement)** Below the tolerance the gate is the identity, so a non-zero displacement with
`|alpha| ≤ tol` loses its one-photon amplitude. -/
theorem C63_small (tol : ℝ) (c₁ c₂ : ℕ) (α : ℂ) (hα : α ≠ 0) (h : ‖α‖ ≤ tol) :
    displacementGate tol c₁ c₂ α (1, 0) = 0 ∧ amp 2 dispA (dispB α) (dispC α) (toF [1, 0]) ≠ 0 := by
  constructor
  · unfold displacementGate
    rw [if_neg (by linarith)]; rfl
  · have := disp_lower α (dispC α) hα 1 1 0 (by omega)
    rw [show 1 + 0 = 1 from rfl] at this
    rw [this]
    have h1 : laguerre (‖α‖ ^ 2) 1 1 0 = 1 := by simp [laguerre]
    rw [h1]
    have := sf_ne 0
    have := sf_ne 1
    have : dispC α ≠ 0 := Complex.exp_ne_zero _
    simp only [mul_one, pow_one]
    positivity

/-! ## Gradients -/

/-- math/lattice/strategies/displacement.py:119-143 `jacobian_displacement(D, alpha)` at the entry `(m, n)`; `rd`
reads the array `D` (any value at `D[-1, n]` or `D[m, -1]`). -/
noncomputable def jacobianDisplacement (rd : List ℤ → ℂ) (α : ℂ) (m n : ℕ) : ℂ × ℂ :=
  (-(1 / 2) * starRingEnd ℂ α * rd [(m : ℤ), (n : ℤ)] + sq m * rd [(m : ℤ) - 1, (n : ℤ)],
   -(1 / 2) * α * rd [(m : ℤ), (n : ℤ)] - sq n * rd [(m : ℤ), (n : ℤ) - 1])

/-- math/jax_vjps/fock_utils.py:154-173 `displacement_jax_bwd`: the cotangent of `alpha`. -/
noncomputable def displacementBwd (c₁ c₂ : ℕ) (rd : List ℤ → ℂ) (α : ℂ) (g : ℕ × ℕ → ℂ) : ℂ :=
  ∑ p ∈ Finset.range c₁ ×ˢ Finset.range c₂, g p * (jacobianDisplacement rd α p.1 p.2).1 +
    starRingEnd ℂ (∑ p ∈ Finset.range c₁ ×ˢ Finset.range c₂, g p * (jacobianDisplacement rd α p.1 p.2).2)

/-- math/lattice/strategies/displacement.py:84-113 `grad_displacement(T, r, phi)` at the entry `(m, n)`. -/
noncomputable def gradDisplacement (rd : List ℤ → ℂ) (r φ : ℝ) (m n : ℕ) : ℂ × ℂ :=
  let ei := Complex.exp (Complex.I * φ)
  let eic := Complex.exp (-Complex.I * φ)
  let α := r * ei
  let αc := r * eic
  (-r * rd [(m : ℤ), (n : ℤ)] + sq m * ei * rd [(m : ℤ) - 1, (n : ℤ)] - sq n * eic * rd [(m : ℤ), (n : ℤ) - 1],
   sq m * Complex.I * α * rd [(m : ℤ) - 1, (n : ℤ)] + sq n * Complex.I * αc * rd [(m : ℤ), (n : ℤ) - 1])

theorem hasDerivAt_conj {f : ℝ → ℂ} {f' : ℂ} {x : ℝ} (h : HasDerivAt f f' x) :
    HasDerivAt (fun t => starRingEnd ℂ (f t)) (starRingEnd ℂ f') x :=
  (Complex.conjCLE.toContinuousLinearMap.hasFDerivAt.comp_hasDerivAt x h)

theorem hasDerivAt_dispC {α : ℝ → ℂ} {v : ℂ} {x : ℝ} (h : HasDerivAt α v x) :
    HasDerivAt (fun t => dispC (α t))
      (-(1 / 2) * (starRingEnd ℂ (α x) * v + α x * starRingEnd ℂ v) * dispC (α x)) x := by
  have e : ∀ z : ℂ, dispC z = Complex.exp (-(z * starRingEnd ℂ z) / 2) := by
    intro z
    unfold dispC
    rw [Complex.mul_conj, Complex.normSq_eq_norm_sq]
    push_cast; rfl
  simp only [e]
  have := (((h.mul (hasDerivAt_conj h)).neg).div_const 2).cexp
  refine this.congr_deriv ?_
  simp only [Pi.mul_apply, Pi.neg_apply]
  ring

/-- The amplitudes of a displacement depend on `alpha` and its conjugate as `jacobian_displacement` says. -/
theorem disp_deriv {c₁ c₂ : ℕ} {α : ℝ → ℂ} {v : ℂ} {x : ℝ} (h : HasDerivAt α v x) {rd : List ℤ → ℂ}
    (hrd : ∀ m < c₁, ∀ n < c₂, rd [(m : ℤ), (n : ℤ)] = amp 2 dispA (dispB (α x)) (dispC (α x)) (toF [m, n]))
    {m n : ℕ} (hm : m < c₁) (hn : n < c₂) :
    HasDerivAt (fun t => amp 2 dispA (dispB (α t)) (dispC (α t)) (toF [m, n]))
      ((jacobianDisplacement rd (α x) m n).1 * v + (jacobianDisplacement rd (α x) m n).2 * starRingEnd ℂ v) x := by
  have hd := hasDeriv_amp (D := 2) (A := fun _ => dispA) (A' := fun _ _ => 0) (b := fun t => dispB (α t))
    (b' := dispB v) (fun i _ j _ => hasDerivAt_const _ _) (by
      intro i hi
      unfold dispB
      by_cases h0 : i = 0
      · simpa [h0] using h
      · simp only [h0, if_false]
        exact (hasDerivAt_conj h).neg) (hasDerivAt_dispC h) (toF [m, n]) (below_toF (by simp))
  refine hd.congr_deriv ?_
  have r1 : sq m * rd [(m : ℤ) - 1, (n : ℤ)] = low 0 (amp 2 dispA (dispB (α x)) (dispC (α x))) (toF [m, n]) := by
    unfold low
    rw [dn_toF]
    rcases m with _ | m
    · simp
    · have := hrd m (by omega) n hn
      rw [show ((m + 1 : ℕ) : ℤ) - 1 = m by push_cast; ring, this]
      simp
  have r2 : sq n * rd [(m : ℤ), (n : ℤ) - 1] = low 1 (amp 2 dispA (dispB (α x)) (dispC (α x))) (toF [m, n]) := by
    unfold low
    rw [dn_toF]
    rcases n with _ | n
    · simp
    · have := hrd m hm n (by omega)
      rw [show ((n + 1 : ℕ) : ℤ) - 1 = n by push_cast; ring, this]
      simp
  have hq : mulQ 2 (fun _ _ => 0) (dispB v) (amp 2 dispA (dispB (α x)) (dispC (α x))) (toF [m, n]) =
      v * low 0 (amp 2 dispA (dispB (α x)) (dispC (α x))) (toF [m, n]) -
      starRingEnd ℂ v * low 1 (amp 2 dispA (dispB (α x)) (dispC (α x))) (toF [m, n]) := by
    unfold mulQ
    simp only [Finset.sum_range_succ, Finset.sum_range_zero, zero_mul, dispB, if_true, one_ne_zero, if_false]
    ring
  unfold jacobianDisplacement
  simp only []
  rw [hq, ← r1, ← r2, hrd m hm n hn, amp_smul _ _ _ (dispC (α x)) (toF [m, n])]
  ring

/-- **C62 (displacement)**: along any differentiable path `alpha(t)`, the derivative of `Re ∑ g[m,n] D(alpha)[m,n]` is
`Re(ct · alpha')`, with `ct` the cotangent `displacement_jax_bwd` returns — this one is not doubled. -/
theorem C62_displacement (tol : ℝ) (htol : 0 ≤ tol) (c₁ c₂ : ℕ) (α : ℝ → ℂ) (v : ℂ) (x : ℝ) (h : HasDerivAt α v x)
    (hα : tol < ‖α x‖) (g : ℕ × ℕ → ℂ) (rd : List ℤ → ℂ)
    (hrd : ∀ m < c₁, ∀ n < c₂, rd [(m : ℤ), (n : ℤ)] = displacementGate tol c₁ c₂ (α x) (m, n)) :
    HasDerivAt (fun t => loss2 c₁ c₂ g (displacementGate tol c₁ c₂ (α t)))
      (displacementBwd c₁ c₂ rd (α x) g * v).re x := by
  have hev : ∀ᶠ t in nhds x, tol < ‖α t‖ := h.continuousAt.norm.eventually_const_lt hα
  have hsum : ∀ t, tol < ‖α t‖ → loss2 c₁ c₂ g (displacementGate tol c₁ c₂ (α t)) =
      (∑ p ∈ Finset.range c₁ ×ˢ Finset.range c₂, g p *
        amp 2 dispA (dispB (α t)) (dispC (α t)) (toF [p.1, p.2])).re := fun t ht =>
    congrArg Complex.re (Finset.sum_congr rfl fun p hp => by
      simp only [Finset.mem_product, Finset.mem_range] at hp
      rw [← C63_gate tol htol c₁ c₂ (α t) (Or.inl ht) p.1 p.2 hp.1 hp.2])
  have hrd' : ∀ m < c₁, ∀ n < c₂, rd [(m : ℤ), (n : ℤ)] = amp 2 dispA (dispB (α x)) (dispC (α x)) (toF [m, n]) :=
    fun m hm n hn => by rw [hrd m hm n hn, C63_gate tol htol c₁ c₂ (α x) (Or.inl hα) m n hm hn]
  have hd : HasDerivAt (fun t => ∑ p ∈ Finset.range c₁ ×ˢ Finset.range c₂, g p *
        amp 2 dispA (dispB (α t)) (dispC (α t)) (toF [p.1, p.2]))
      (∑ p ∈ Finset.range c₁ ×ˢ Finset.range c₂, g p * ((jacobianDisplacement rd (α x) p.1 p.2).1 * v +
        (jacobianDisplacement rd (α x) p.1 p.2).2 * starRingEnd ℂ v)) x := by
    refine HasDerivAt.fun_sum fun p hp => ?_
    simp only [Finset.mem_product, Finset.mem_range] at hp
    exact (disp_deriv h hrd' hp.1 hp.2).const_mul _
  have hd2 : HasDerivAt (fun t => loss2 c₁ c₂ g (displacementGate tol c₁ c₂ (α t))) _ x :=
    (hasDerivAt_re hd).congr_of_eventuallyEq (hev.mono fun t ht => hsum t ht)
  refine hd2.congr_deriv ?_
  unfold displacementBwd
  simp only [mul_add, Finset.sum_add_distrib, ← mul_assoc]
  rw [← Finset.sum_mul, ← Finset.sum_mul, add_mul, Complex.add_re, Complex.add_re]
  refine congrArg _ ?_
  generalize ∑ p ∈ Finset.range c₁ ×ˢ Finset.range c₂, g p * (jacobianDisplacement rd (α x) p.1 p.2).2 = z
  rw [← Complex.conj_re (z * starRingEnd ℂ v), map_mul, Complex.conj_conj]

/-- **C62 (displacement, polar form)**: `grad_displacement` returns the entrywise derivatives of `D(r e^{iφ})` with
respect to `r` and to `φ`, when `r > 0`. -/
theorem C62_grad_displacement (c : ℕ) (r φ : ℝ) (hr : 0 < r) (rd : List ℤ → ℂ)
    (hrd : ∀ m < c, ∀ n < c, rd [(m : ℤ), (n : ℤ)] =
      displacementFock c c (r * Complex.exp (Complex.I * φ)) (m, n)) (m n : ℕ) (hm : m < c) (hn : n < c) :
    HasDerivAt (fun r : ℝ => displacementFock c c (r * Complex.exp (Complex.I * φ)) (m, n))
      (gradDisplacement rd r φ m n).1 r ∧
    HasDerivAt (fun φ : ℝ => displacementFock c c (r * Complex.exp (Complex.I * φ)) (m, n))
      (gradDisplacement rd r φ m n).2 φ := by
  have hne : ∀ (r φ : ℝ), 0 < r → (r : ℂ) * Complex.exp (Complex.I * φ) ≠ 0 := fun r φ h =>
    mul_ne_zero (by exact_mod_cast h.ne') (Complex.exp_ne_zero _)
  have hrd' : ∀ m < c, ∀ n < c, rd [(m : ℤ), (n : ℤ)] =
      amp 2 dispA (dispB (r * Complex.exp (Complex.I * φ))) (dispC (r * Complex.exp (Complex.I * φ))) (toF [m, n]) :=
    fun m hm n hn => by rw [hrd m hm n hn, C63_displacement c c _ (hne r φ hr) m n hm hn]
  have he : starRingEnd ℂ (Complex.exp (Complex.I * φ)) = Complex.exp (-Complex.I * φ) := by
    rw [← Complex.exp_conj, map_mul, Complex.conj_I, Complex.conj_ofReal]
  have hee : Complex.exp (Complex.I * φ) * Complex.exp (-Complex.I * φ) = 1 := by
    rw [← Complex.exp_add]; simp
  constructor
  · have h1 : HasDerivAt (fun r : ℝ => (r : ℂ) * Complex.exp (Complex.I * φ)) (Complex.exp (Complex.I * φ)) r := by
      simpa using (hasDerivAt_id r).ofReal_comp.mul_const (Complex.exp (Complex.I * φ))
    have hev : ∀ᶠ t in nhds r, 0 < t := lt_mem_nhds hr
    refine ((disp_deriv h1 hrd' hm hn).congr_of_eventuallyEq (hev.mono fun t ht => ?_)).congr_deriv ?_
    · exact C63_displacement c c _ (hne t φ ht) m n hm hn
    · unfold jacobianDisplacement gradDisplacement
      simp only [map_mul, Complex.conj_ofReal, he]
      linear_combination (-(r : ℂ) * rd [(m : ℤ), (n : ℤ)]) * hee
  · have h1 : HasDerivAt (fun φ : ℝ => (r : ℂ) * Complex.exp (Complex.I * φ))
        ((r : ℂ) * (Complex.I * Complex.exp (Complex.I * φ))) φ := (hasDerivAt_expI φ).const_mul _
    have e : (fun φ : ℝ => displacementFock c c (r * Complex.exp (Complex.I * φ)) (m, n)) = fun φ : ℝ =>
        amp 2 dispA (dispB (r * Complex.exp (Complex.I * φ))) (dispC (r * Complex.exp (Complex.I * φ))) (toF [m, n]) :=
      funext fun φ => C63_displacement c c _ (hne r φ hr) m n hm hn
    rw [e]
    refine (disp_deriv h1 hrd' hm hn).congr_deriv ?_
    unfold jacobianDisplacement gradDisplacement
    simp only [map_mul, Complex.conj_ofReal, he, Complex.conj_I]
    ring

/-- Concrete instance: a non-square displacement along the path `alpha(t) = 1 + i t`. -/
example (g : ℕ × ℕ → ℂ) : HasDerivAt (fun t : ℝ => loss2 3 5 g (displacementGate (1 / 10) 3 5 (1 + Complex.I * t)))
    (displacementBwd 3 5 (fun l => displacementGate (1 / 10) 3 5 (1 + Complex.I * ((0 : ℝ) : ℂ))
      ((l.getD 0 0).toNat, (l.getD 1 0).toNat)) (1 + Complex.I * ((0 : ℝ) : ℂ)) g * Complex.I).re 0 := by
  refine C62_displacement (1 / 10) (by norm_num) 3 5 (fun t => 1 + Complex.I * t) Complex.I 0 ?_ ?_ g _
    (fun m _ n _ => by simp)
  · simpa using ((hasDerivAt_id (0 : ℝ)).ofReal_comp.const_mul Complex.I).const_add 1
  · simp; norm_num

end Verif.Fock
