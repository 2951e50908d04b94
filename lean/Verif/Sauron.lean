import Verif.TriplesNorm
import Verif.TriplesFock
import Mathlib.RingTheory.RootsOfUnity.Complex
import Mathlib.Analysis.Normed.Algebra.Exponential

/-!
# Sauron states: Fock states as rings of coherent states (C84)
-/

namespace Verif.Triples
open Verif.Fock Verif.Batch Verif.PolyExp

/-! ### Model -/

/-- physics/triples.py:306: `np.linspace(0, 2π(1 - 1/(n+1)), n+1)[l]`: `l` times the step `stop / (num - 1)` (numpy returns the start when
`num = 1`, which is what `0 / 0 = 0` gives here). -/
noncomputable def ringPhase (n l : ℕ) : ℝ := l * (2 * Real.pi * (1 - 1 / ((n : ℝ) + 1)) / (((n + 1 : ℕ) : ℝ) - 1))

/-- physics/triples.py:306-309: the `n + 1` coherent states on the ring, before normalization. -/
noncomputable def ringTerms (n : ℕ) (ε : ℝ) : PolyExp :=
  mk [n + 1] 1 (fun _ _ _ => 0) (fun β => vec [(ε : ℂ) * Complex.exp (1 * Complex.I * ringPhase n (β.getD 0 0))])
    fun β => Complex.exp (1 * Complex.I * ringPhase n (β.getD 0 0))

/-- physics/triples.py:311-318: `np.sum` of `complex_gaussian_integral_2` of the conjugate terms with the terms, over the single variable
of each.  No batch string is given, so the batches are combined by the outer product (physics/gaussian_integrals.py:205, 206); this is
`PolyExp.contract` with two different batch labels.  (An infinite integral does not occur; it would be NaN.) -/
noncomputable def ringProb (n : ℕ) (ε : ℝ) : ℂ :=
  match (ringTerms n ε).conj.contract (ringTerms n ε) [0] [0] [1] [0] [0, 1] [] with
  | some (.finite h) => nsum h.batch fun β => h.c β []
  | _ => 0

/-- physics/triples.py:319-321 with lab/states/sauron.py:68-74: the terms with `cs /= np.sqrt(prob)` as one linear superposition. -/
noncomputable def sauron (n : ℕ) (ε : ℝ) : PolyExp :=
  ⟨[n + 1], true, 1, (ringTerms n ε).A, (ringTerms n ε).b, [], fun β k => (ringTerms n ε).c β k / ringProb n ε ^ (1 / 2 : ℂ)⟩

/-! ### Specification -/

/-- The squared norm of `∑ ε^k/√k! |k⟩` over the `k` with `k ≡ n` mod `n + 1`. -/
noncomputable def ringNorm (n : ℕ) (ε : ℝ) : ℝ := ∑' k : ℕ, if (n + 1) ∣ (k + 1) then ε ^ (2 * k) / k.factorial else 0

/-! ### Roots of unity -/

/-- The phases are the multiples of `2π/(n+1)`. -/
theorem ringPhase_eq {n l : ℕ} (hl : l < n + 1) : ringPhase n l = l * (2 * Real.pi / ((n : ℝ) + 1)) := by
  unfold ringPhase
  rcases Nat.eq_zero_or_pos n with rfl | hn
  · obtain rfl : l = 0 := by omega
    simp
  · have : (n : ℝ) ≠ 0 := by positivity
    have : (n : ℝ) + 1 ≠ 0 := by positivity
    push_cast
    rw [add_sub_cancel_right]
    field_simp
    ring

theorem ring_exp {n l : ℕ} (hl : l < n + 1) :
    Complex.exp (1 * Complex.I * ringPhase n l) = Complex.exp (2 * Real.pi * Complex.I / ((n + 1 : ℕ) : ℂ)) ^ l := by
  rw [ringPhase_eq hl, ← Complex.exp_nat_mul]
  refine congrArg Complex.exp ?_
  push_cast
  ring

theorem ring_sum (n k : ℕ) : ∑ l ∈ Finset.range (n + 1), Complex.exp (1 * Complex.I * ringPhase n l) ^ (k + 1) =
    if (n + 1) ∣ (k + 1) then ((n + 1 : ℕ) : ℂ) else 0 := by
  have hz := Complex.isPrimitiveRoot_exp (n + 1) (Nat.succ_ne_zero n)
  obtain ⟨ζ, hζ⟩ : ∃ ζ, ζ = Complex.exp (2 * Real.pi * Complex.I / ((n + 1 : ℕ) : ℂ)) := ⟨_, rfl⟩
  rw [← hζ] at hz
  rw [Finset.sum_congr rfl fun l hl => by rw [ring_exp (Finset.mem_range.1 hl), ← hζ, ← pow_mul, mul_comm, pow_mul]]
  split_ifs with h
  · rw [(hz.pow_eq_one_iff_dvd _).2 h]
    simp
  · have hne : ζ ^ (k + 1) ≠ 1 := fun e => h ((hz.pow_eq_one_iff_dvd _).1 e)
    rw [geom_sum_eq hne, ← pow_mul, mul_comm, pow_mul, hz.pow_eq_one, one_pow, sub_self, zero_div]

/-! ### The norm -/

theorem ringNorm_summable (n : ℕ) (ε : ℝ) : Summable fun k : ℕ => if (n + 1) ∣ (k + 1) then ε ^ (2 * k) / k.factorial else 0 := by
  refine Summable.of_nonneg_of_le (fun k => ?_) (fun k => ?_) (NormedSpace.expSeries_div_hasSum_exp (ε ^ 2)).summable
  · split_ifs
    · exact div_nonneg (by rw [pow_mul]; positivity) (by positivity)
    · exact le_rfl
  · split_ifs
    · rw [pow_mul]
    · positivity

theorem ringNorm_hasSum (n : ℕ) (ε : ℝ) :
    HasSum (fun k : ℕ => if (n + 1) ∣ (k + 1) then ε ^ (2 * k) / k.factorial else 0) (ringNorm n ε) :=
  (ringNorm_summable n ε).hasSum

theorem ringNorm_ge (n : ℕ) (ε : ℝ) : ε ^ (2 * n) / n.factorial ≤ ringNorm n ε := by
  have := (ringNorm_summable n ε).le_tsum n (fun k _ => by
    split_ifs
    · exact div_nonneg (by rw [pow_mul]; positivity) (by positivity)
    · exact le_rfl)
  rwa [if_pos dvd_rfl] at this

theorem ringNorm_pos (n : ℕ) {ε : ℝ} (hε : ε ≠ 0) : 0 < ringNorm n ε :=
  lt_of_lt_of_le (div_pos (by rw [pow_mul]; positivity) (by positivity)) (ringNorm_ge n ε)

theorem ringNorm_le (n : ℕ) (ε : ℝ) : ringNorm n ε ≤ ε ^ (2 * n) / n.factorial * Real.exp (ε ^ (2 * (n + 1))) := by
  have hi : Function.Injective fun j : ℕ => n + j * (n + 1) := by
    intro a b h
    have h : n + a * (n + 1) = n + b * (n + 1) := h
    exact Nat.eq_of_mul_eq_mul_right (Nat.succ_pos n) (Nat.add_left_cancel h)
  have h1 := (hi.hasSum_iff (f := fun k : ℕ => if (n + 1) ∣ (k + 1) then ε ^ (2 * k) / (k.factorial : ℝ) else 0)
    (a := ringNorm n ε) (by
      intro k hk
      refine if_neg fun ⟨t, ht⟩ => hk ⟨t - 1, ?_⟩
      obtain _ | t := t
      · simp at ht
      · show n + (t + 1 - 1) * (n + 1) = k
        rw [Nat.add_sub_cancel]
        have : (n + 1) * (t + 1) = t * (n + 1) + n + 1 := by ring
        omega)).2 (ringNorm_hasSum n ε)
  have h2 := (NormedSpace.expSeries_div_hasSum_exp (ε ^ (2 * (n + 1)))).mul_left (ε ^ (2 * n) / (n.factorial : ℝ))
  rw [← Real.exp_eq_exp_ℝ] at h2
  refine hasSum_le (fun j => ?_) h1 h2
  show (if (n + 1) ∣ (n + j * (n + 1) + 1) then ε ^ (2 * (n + j * (n + 1))) / ((n + j * (n + 1)).factorial : ℝ) else 0) ≤ _
  rw [if_pos ⟨j + 1, by ring⟩]
  have e : ε ^ (2 * (n + j * (n + 1))) = ε ^ (2 * n) * (ε ^ (2 * (n + 1))) ^ j := by
    rw [← pow_mul, ← pow_add]; congr 1; ring
  rw [e, div_mul_div_comm]
  refine div_le_div_of_nonneg_left ?_ (by positivity) ?_
  · rw [pow_mul, pow_mul ε 2]; positivity
  · have : n.factorial * j.factorial ≤ (n + j * (n + 1)).factorial := by
      refine le_trans (Nat.le_of_dvd (Nat.factorial_pos _) (Nat.factorial_mul_factorial_dvd_factorial_add n j)) ?_
      exact Nat.factorial_le (by nlinarith [Nat.zero_le (j * n)])
    exact_mod_cast this

/-! ### The probability computed by the code -/

theorem ring_compat (n : ℕ) (ε : ℝ) : Compat (ringTerms n ε).conj (ringTerms n ε) [0] [0] [1] [0] [0, 1] [] := by
  unfold ringTerms
  rw [conj_mk]
  refine ⟨by simp, by simp, by rw [mk_outBatch]; rfl, by rw [mk_outBatch]; rfl, rfl, rfl, by simp, by simp, by simp, by simp,
    rfl, rfl, rfl, ?_, by intro h; cases h⟩
  exact List.Perm.refl _

/-- A contraction of two ansätze that are not superpositions. -/
theorem contract_meta {f g h : PolyExp} {b1 c1 b2 c2 bo co : List ℕ} (hc : f.contract g b1 c1 b2 c2 bo co = some (.finite h))
    (lf : f.linSup = false) (lg : g.linSup = false) : h.linSup = false ∧ h.derived = f.derived ++ g.derived := by
  have hl : ¬ (f.linSup = true ∧ g.linSup = true) := by rw [lf]; simp
  unfold PolyExp.contract at hc
  dsimp only at hc
  by_cases h1 : labelsOk f g b1 c1 b2 c2 bo co
  swap
  · rw [if_pos h1] at hc; cases hc
  rw [if_neg (not_not.2 h1)] at hc
  split at hc
  · cases hc
  · split at hc
    · cases hc
    · cases hc
    · rename_i r hr
      rw [if_neg hl] at hc
      dsimp only at hc
      split_ifs at hc with h2
      split at hc
      · cases hc
      · rename_i h' hr'
        obtain ⟨-, m2, m3⟩ := cgi1_meta hr
        unfold PolyExp.reorder at hr'
        split_ifs at hr'
        cases hc
        cases hr'
        exact ⟨by show r.linSup = false; rw [m2]; show (f.linSup || g.linSup) = false; rw [lf, lg]; rfl, by show r.derived = _; rw [m3]; rfl⟩

theorem ringProb_sum (n : ℕ) (ε : ℝ) : ringProb n ε = ∑ j ∈ Finset.range (n + 1), ∑ l ∈ Finset.range (n + 1),
    (starRingEnd ℂ) (Complex.exp (1 * Complex.I * ringPhase n j)) * Complex.exp (1 * Complex.I * ringPhase n l) *
      Complex.exp (ε ^ 2 * ((starRingEnd ℂ) (Complex.exp (1 * Complex.I * ringPhase n j)) * Complex.exp (1 * Complex.I * ringPhase n l))) := by
  have hw : (ringTerms n ε).WF := mk_wf
  have hs : SymAll (ringTerms n ε) := mk_symm fun _ _ _ _ _ => rfl
  have H := ring_compat n ε
  have key : ContractsTo (ringTerms n ε).conj (ringTerms n ε) [0] [0] [1] [0] [0, 1] [] (fun o v =>
      (starRingEnd ℂ) ((ringTerms n ε).c (restrict (· ∈ [0]) [0, 1] o) []) *
        ev (ringTerms n ε) (restrict (· ∈ [1]) [0, 1] o) [0]
          (Function.update v 0 ((starRingEnd ℂ) ((ringTerms n ε).b (restrict (· ∈ [0]) [0, 1] o) 0)))) :=
    state1_left (B := [n + 1]) (A := fun _ _ _ => (starRingEnd ℂ) 0) (b := fun β i => (starRingEnd ℂ) ((ringTerms n ε).b β i))
      (c := fun β => (starRingEnd ℂ) ((ringTerms n ε).c β [])) hw hs (fun _ => map_zero _) H (by simp)
  obtain ⟨h, h1, h2, h3, h4, h5⟩ := key
  obtain ⟨m1, m2⟩ := contract_meta h1 rfl rfl
  have hb : h.outBatch = [n + 1, n + 1] := h4
  have hb' : h.batch = [n + 1, n + 1] := by
    rw [← hb]; unfold PolyExp.outBatch; rw [m1]; rfl
  have hd : h.derived = [] := m2
  have e : ringProb n ε = nsum h.batch fun β => h.c β [] := by
    unfold ringProb; rw [h1]
  rw [e, hb', nsum_cons]
  refine Finset.sum_congr rfl fun j hj => ?_
  rw [nsum_cons]
  refine Finset.sum_congr rfl fun l hl => ?_
  rw [nsum_nil]
  have := h5 [j, l] (by rw [hb]; exact .cons (Finset.mem_range.1 hj) (.cons (Finset.mem_range.1 hl) .nil)) 0
  have e2 : ev h [j, l] [] 0 = h.c [j, l] [] := by
    unfold ev PolyExp.call
    rw [if_neg (by rw [m1]; simp)]
    unfold PolyExp.termAt termVal
    have h3 : h.numCV = 0 := h3
    rw [h3, hd, nsum_nil]
    have e0 : toF [] = 0 := by ext i; simp [toF]
    simp only [List.length_nil, e0, amp_zero, Finset.range_zero, Finset.sum_empty, mul_zero, add_zero, Complex.exp_zero, one_mul, mul_one]
  rw [← e2, this]
  dsimp only
  have r0 : restrict (· ∈ [0]) [0, 1] [j, l] = [j] := by simp [restrict]
  have r1 : restrict (· ∈ [1]) [0, 1] [j, l] = [l] := by simp [restrict]
  rw [r0, r1]
  unfold ringTerms
  rw [ev_mk1, Function.update_self]
  simp only [mk, vec, List.getD_cons_zero, map_mul, Complex.conj_ofReal, mul_zero, zero_mul, zero_add]
  generalize Complex.exp (1 * Complex.I * ringPhase n j) = x
  generalize Complex.exp (1 * Complex.I * ringPhase n l) = y
  rw [mul_comm (Complex.exp _) y, ← mul_assoc]
  refine congrArg (HMul.hMul _) (congrArg Complex.exp ?_)
  ring

theorem ringProb_eq (n : ℕ) (ε : ℝ) : ringProb n ε = ((((n + 1 : ℕ) : ℝ) ^ 2 * ringNorm n ε : ℝ) : ℂ) := by
  rw [ringProb_sum]
  have h1 : HasSum (fun k : ℕ => ∑ j ∈ Finset.range (n + 1), ∑ l ∈ Finset.range (n + 1),
      (starRingEnd ℂ) (Complex.exp (1 * Complex.I * ringPhase n j)) * Complex.exp (1 * Complex.I * ringPhase n l) *
      ((ε ^ 2 * ((starRingEnd ℂ) (Complex.exp (1 * Complex.I * ringPhase n j)) * Complex.exp (1 * Complex.I * ringPhase n l))) ^ k / k.factorial))
      (∑ j ∈ Finset.range (n + 1), ∑ l ∈ Finset.range (n + 1),
    (starRingEnd ℂ) (Complex.exp (1 * Complex.I * ringPhase n j)) * Complex.exp (1 * Complex.I * ringPhase n l) *
      Complex.exp (ε ^ 2 * ((starRingEnd ℂ) (Complex.exp (1 * Complex.I * ringPhase n j)) * Complex.exp (1 * Complex.I * ringPhase n l)))) := by
    refine hasSum_sum fun j _ => hasSum_sum fun l _ => HasSum.mul_left _ ?_
    rw [Complex.exp_eq_exp_ℂ]
    exact NormedSpace.expSeries_div_hasSum_exp _
  refine h1.unique ?_
  rw [Complex.ofReal_mul]
  refine HasSum.congr_fun (((Complex.hasSum_ofReal).2 (ringNorm_hasSum n ε)).mul_left _) fun k => ?_
  have e1 : ∀ x y : ℂ, (starRingEnd ℂ) x * y * ((ε ^ 2 * ((starRingEnd ℂ) x * y)) ^ k / k.factorial) =
      ε ^ (2 * k) / k.factorial * ((starRingEnd ℂ) (x ^ (k + 1)) * y ^ (k + 1)) := by
    intro x y
    rw [map_pow, mul_pow, mul_pow, ← pow_mul]
    ring
  simp only [e1, ← Finset.mul_sum]
  rw [← Finset.sum_mul, ← map_sum, ring_sum]
  split_ifs
  · push_cast
    rw [map_add, map_natCast, map_one]
    ring
  · simp

/-! ### Results -/

/-- **C84**: the Fock amplitudes. -/
theorem C84_amplitudes (n : ℕ) {ε : ℝ} (hε : ε ≠ 0) {N k : ℕ} (hk : k < N) :
    (sauron n ε).fockArray [N] [] [k] =
      some (if (n + 1) ∣ (k + 1) then ((ε ^ k / Real.sqrt k.factorial / Real.sqrt (ringNorm n ε) : ℝ) : ℂ) else 0) := by
  rw [C58_entries _ ⟨Nat.zero_le _, fun _ => by simp [sauron]⟩ (fun β i hi j hj => rfl) [N] [] [k] (by simp; omega) rfl (.cons hk .nil)]
  refine congrArg some ?_
  unfold PolyExp.fockAmp
  show nsum [n + 1] (fun τ => nsum [] fun d => (ringTerms n ε).c τ d / ringProb n ε ^ (1 / 2 : ℂ) *
    amp 1 ((ringTerms n ε).A τ) ((ringTerms n ε).b τ) 1 (toF ([k] ++ d))) = _
  rw [nsum_cons]
  have e1 : ringProb n ε ^ (1 / 2 : ℂ) = (((n + 1 : ℕ) : ℝ) * Real.sqrt (ringNorm n ε) : ℝ) := by
    rw [ringProb_eq]
    have hp := (ringNorm_pos n hε).le
    have : ((1 / 2 : ℂ)) = ((1 / 2 : ℝ) : ℂ) := by push_cast; rfl
    rw [this, ← Complex.ofReal_cpow (by positivity), ← Real.sqrt_eq_rpow, Real.sqrt_mul (by positivity), Real.sqrt_sq (by positivity)]
  have e2 : ∀ l ∈ Finset.range (n + 1), (nsum [] fun d => (ringTerms n ε).c [l] d / ringProb n ε ^ (1 / 2 : ℂ) *
      amp 1 ((ringTerms n ε).A [l]) ((ringTerms n ε).b [l]) 1 (toF ([k] ++ d))) =
      ε ^ k / (ringProb n ε ^ (1 / 2 : ℂ) * sf k) * Complex.exp (1 * Complex.I * ringPhase n l) ^ (k + 1) := by
    intro l _
    rw [nsum_nil, List.append_nil, amp1_linear rfl]
    show Complex.exp (1 * Complex.I * ringPhase n l) / _ * (1 * ((ε : ℂ) * Complex.exp (1 * Complex.I * ringPhase n l)) ^ k / sf k) = _
    rw [mul_pow, pow_succ]
    field_simp
  have e3 := Finset.sum_congr rfl e2
  simp only [nsum_nil] at e3 ⊢
  rw [e3, ← Finset.mul_sum, ring_sum, e1]
  split_ifs
  · have : ((n + 1 : ℕ) : ℂ) ≠ 0 := by exact_mod_cast Nat.succ_ne_zero n
    unfold sf
    push_cast at this ⊢
    field_simp
  · simp

/-- **C84**: the state has unit norm. -/
theorem C84_normalised (n : ℕ) {ε : ℝ} (hε : ε ≠ 0) :
    HasSum (fun k => ‖((sauron n ε).fockArray [k + 1] [] [k]).getD 0‖ ^ 2) 1 := by
  have h := (ringNorm_hasSum n ε).div_const (ringNorm n ε)
  rw [div_self (ringNorm_pos n hε).ne'] at h
  refine h.congr_fun fun k => ?_
  rw [C84_amplitudes n hε (Nat.lt_succ_self k), Option.getD_some]
  split_ifs
  · rw [Complex.norm_real, Real.norm_eq_abs, sq_abs, div_pow, div_pow, Real.sq_sqrt (ringNorm_pos n hε).le, Real.sq_sqrt (by positivity),
      ← pow_mul, mul_comm k 2]
  · simp

/-- **C84**: the fidelity with the Fock state `n` is at least `exp(-ε^{2(n+1)})`. -/
theorem C84_fidelity (n : ℕ) {ε : ℝ} (hε : ε ≠ 0) {N : ℕ} (hn : n < N) :
    ∃ a : ℂ, (sauron n ε).fockArray [N] [] [n] = some a ∧ Real.exp (-ε ^ (2 * (n + 1))) ≤ ‖a‖ ^ 2 ∧ ‖a‖ ^ 2 ≤ 1 ∧ (0 < ε → a = ‖a‖) := by
  refine ⟨_, C84_amplitudes n hε hn, ?_⟩
  rw [if_pos dvd_rfl]
  have hp := ringNorm_pos n hε
  have e : ‖((ε ^ n / Real.sqrt n.factorial / Real.sqrt (ringNorm n ε) : ℝ) : ℂ)‖ ^ 2 = ε ^ (2 * n) / n.factorial / ringNorm n ε := by
    rw [Complex.norm_real, Real.norm_eq_abs, sq_abs, div_pow, div_pow, Real.sq_sqrt hp.le, Real.sq_sqrt (by positivity),
      ← pow_mul, mul_comm n 2]
  rw [e]
  refine ⟨?_, ?_, fun h => ?_⟩
  · rw [le_div_iff₀ hp, neg_eq_neg_one_mul]
    have := mul_le_mul_of_nonneg_left (ringNorm_le n ε) (Real.exp_pos (-ε ^ (2 * (n + 1)))).le
    rw [← neg_eq_neg_one_mul]
    refine this.trans (le_of_eq ?_)
    rw [mul_left_comm, ← Real.exp_add, neg_add_cancel, Real.exp_zero, mul_one]
  · rw [div_le_one hp]
    exact ringNorm_ge n ε
  · rw [Complex.norm_real, Real.norm_of_nonneg (by positivity)]

/-- **C84**: with radius zero and at least one photon the normalization is `0`, and the coefficients are divided by its square root. -/
theorem C84_zero_radius (n : ℕ) (hn : 0 < n) : ringProb n 0 = 0 := by
  have h := ringNorm_le n 0
  rw [zero_pow (by omega), zero_div, zero_mul] at h
  have h' := ringNorm_ge n 0
  rw [zero_pow (by omega), zero_div] at h'
  rw [ringProb_eq, le_antisymm h h']
  simp

/-- Example: the single-photon Sauron state with the default radius. -/
theorem C84_example : ∃ a : ℂ, (sauron 1 (1 / 10)).fockArray [3] [] [1] = some a ∧ 1 - 1 / 10000 ≤ ‖a‖ ^ 2 ∧
    (sauron 1 (1 / 10)).fockArray [3] [] [2] = some 0 := by
  obtain ⟨a, h1, h2, -⟩ := C84_fidelity 1 (ε := 1 / 10) (by norm_num) (N := 3) (by norm_num)
  refine ⟨a, h1, le_trans ?_ h2, ?_⟩
  · refine le_trans ?_ (Real.add_one_le_exp _)
    norm_num
  · rw [C84_amplitudes 1 (by norm_num) (by norm_num), if_neg (by norm_num)]

end Verif.Triples
