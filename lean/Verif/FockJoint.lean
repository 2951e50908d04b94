import Verif.FockSeries
import Mathlib.Algebra.BigOperators.Fin

/-!
# The series in some of the variables, with the other indices fixed
-/

namespace Verif.Fock
open MvPolynomial

/-- The multi-index with entries `k` followed by `d`. -/
noncomputable def J {n : ℕ} (k : Fin n → ℕ) (d : ℕ →₀ ℕ) : ℕ →₀ ℕ :=
  Finsupp.onFinset (Finset.range n ∪ d.support.image (· + n)) (fun i => if h : i < n then k ⟨i, h⟩ else d (i - n)) (by
    intro i hi
    rw [Finset.mem_union]
    by_cases h : i < n
    · exact Or.inl (Finset.mem_range.2 h)
    · rw [dif_neg h] at hi
      exact Or.inr (Finset.mem_image.2 ⟨i - n, by simpa using hi, by omega⟩))

variable {n : ℕ} {k : Fin n → ℕ} {d : ℕ →₀ ℕ}

theorem J_apply (i : ℕ) : J k d i = if h : i < n then k ⟨i, h⟩ else d (i - n) := rfl
theorem J_low (i : Fin n) : J k d i = k i := by rw [J_apply, dif_pos i.2]
theorem J_low' {i : ℕ} (h : i < n) : J k d i = k ⟨i, h⟩ := by rw [J_apply, dif_pos h]
theorem J_high (i : ℕ) : J k d (n + i) = d i := by rw [J_apply, dif_neg (by omega), Nat.add_sub_cancel_left]

theorem J_zero : J (0 : Fin n → ℕ) 0 = 0 := by
  ext i
  rw [J_apply]
  split_ifs <;> rfl

theorem J_up (i : ℕ) : J k (up d i) = up (J k d) (n + i) := by
  ext x
  rw [up_apply, J_apply, J_apply]
  split_ifs with h1 h2 h3 <;> first | omega | rfl | skip
  · rw [up_apply, if_pos (by omega)]
  · rw [up_apply, if_neg (by omega)]

theorem J_dn (i : ℕ) : J k (dn d i) = dn (J k d) (n + i) := by
  ext x
  rw [dn_apply, J_apply, J_apply]
  split_ifs with h1 h2 h3 <;> first | omega | rfl | skip
  · rw [dn_apply, if_pos (by omega)]
  · rw [dn_apply, if_neg (by omega)]

theorem J_update (j : Fin n) : J (Function.update k j (k j - 1)) d = dn (J k d) j := by
  ext x
  rw [dn_apply, J_apply, J_apply]
  split_ifs with h1 h2 h3
  · have : (⟨x, h1⟩ : Fin n) = j := Fin.ext h2
    rw [this, Function.update_self]
  · rw [Function.update_of_ne (fun e => h2 (congrArg Fin.val e))]
  · exact absurd j.2 (by omega)
  · rfl

theorem J_inj (d : ℕ →₀ ℕ) : Function.Injective fun k : Fin n → ℕ => J k d := by
  intro k k' h
  funext i
  have := DFunLike.congr_fun h (i : ℕ)
  simpa only [J_low] using this

theorem toF_ofFn (k : Fin n → ℕ) (d : List ℕ) : toF (List.ofFn k ++ d) = J k (toF d) := by
  ext i
  rw [toF_apply, J_apply]
  split_ifs with h
  · rw [List.getD_append _ _ _ _ (by simpa using h), List.getD_eq_getElem _ _ (by simpa using h), List.getElem_ofFn]
  · rw [List.getD_append_right _ _ _ _ (by simpa using h), List.length_ofFn, toF_apply]

theorem mon_eq (z : ℕ → ℂ) (k : ℕ →₀ ℕ) {s : Finset ℕ} (h : k.support ⊆ s) : mon z k = ∏ i ∈ s, z i ^ k i := by
  unfold mon
  exact Finsupp.prod_of_support_subset _ h _ fun _ _ => pow_zero _

/-- A bound for the support. -/
theorem J_support (d : ℕ →₀ ℕ) : ∃ M, d.support ⊆ Finset.range M ∧ ∀ k : Fin n → ℕ, (J k d).support ⊆ Finset.range (n + M) := by
  obtain ⟨M, hM⟩ := d.support.exists_nat_subset_range
  refine ⟨M, hM, ?_⟩
  intro k i hi
  rw [Finset.mem_range]
  rw [Finsupp.mem_support_iff, J_apply] at hi
  split_ifs at hi with h
  · omega
  · have := Finset.mem_range.1 (hM (Finsupp.mem_support_iff.2 hi))
    omega

theorem sqrtFact_J : sqrtFact (J k d) = (∏ i : Fin n, (Real.sqrt ((k i).factorial : ℝ) : ℂ)) * sqrtFact d := by
  obtain ⟨M, h1, h2⟩ := J_support (n := n) d
  rw [sqrtFact_eq _ (h2 k), sqrtFact_eq _ h1, Finset.prod_range_add, Finset.prod_range]
  refine congr (congrArg HMul.hMul (Finset.prod_congr rfl fun i _ => by rw [J_low])) (Finset.prod_congr rfl fun i _ => by rw [J_high])

theorem mon_J (z : ℕ → ℂ) : mon z (J k d) = (∏ i : Fin n, z i ^ k i) * mon (fun i => z (n + i)) d := by
  obtain ⟨M, h1, h2⟩ := J_support (n := n) d
  rw [mon_eq _ _ (h2 k), mon_eq _ _ h1, Finset.prod_range_add, Finset.prod_range]
  refine congr (congrArg HMul.hMul (Finset.prod_congr rfl fun i _ => by rw [J_low])) (Finset.prod_congr rfl fun i _ => by rw [J_high])

/-- `∏ z_i^{k_i} / √k_i!`: the Bargmann function of the number state `k`. -/
noncomputable def wt (z : ℕ → ℂ) (k : Fin n → ℕ) : ℂ := ∏ i : Fin n, z i ^ k i / (Real.sqrt ((k i).factorial : ℝ) : ℂ)

theorem sqrt_fact_ne (m : ℕ) : (Real.sqrt (m.factorial : ℝ) : ℂ) ≠ 0 := by
  exact_mod_cast (Real.sqrt_pos.2 (by exact_mod_cast m.factorial_pos)).ne'

theorem amp_wt {D : ℕ} {A : ℕ → ℕ → ℂ} {b : ℕ → ℂ} (z : ℕ → ℂ) :
    amp D A b 1 (J k d) * wt z k = sqrtFact d * (taylor (expo D A b) (J k d) * ∏ i : Fin n, z i ^ k i) := by
  unfold amp wt
  rw [sqrtFact_J, Finset.prod_div_distrib]
  have h : (∏ i : Fin n, (Real.sqrt ((k i).factorial : ℝ) : ℂ)) ≠ 0 := Finset.prod_ne_zero_iff.2 fun i _ => sqrt_fact_ne _
  field_simp

/-- The series over `k` converges absolutely, for every `d` and `z`. -/
theorem amp_summable (D : ℕ) (A : ℕ → ℕ → ℂ) (b : ℕ → ℂ) (z : ℕ → ℂ) (n : ℕ) (d : ℕ →₀ ℕ) :
    Summable fun k : Fin n → ℕ => ‖amp D A b 1 (J k d) * wt z k‖ := by
  have h := (taylor_hasSum (expo_coeff_zero D A b) fun i => if i < n then z i else 1).2
  have h2 := (h.comp_injective (J_inj (n := n) d)).mul_left ‖sqrtFact d‖
  refine h2.congr fun k => ?_
  rw [amp_wt, norm_mul]
  refine congrArg (HMul.hMul _) (congrArg norm (congrArg (HMul.hMul _) ?_))
  rw [mon_J]
  have e : mon (fun i => if n + i < n then z (n + i) else 1) d = 1 := by
    unfold mon
    exact Finset.prod_eq_one fun i _ => by beta_reduce; rw [if_neg (by omega), one_pow]
  rw [e, mul_one]
  exact Finset.prod_congr rfl fun i _ => by rw [if_pos i.2]

theorem expo_eval (D : ℕ) (A : ℕ → ℕ → ℂ) (b z : ℕ → ℂ) : eval z (expo D A b) =
    ∑ i ∈ Finset.range D, b i * z i + 1 / 2 * ∑ i ∈ Finset.range D, ∑ j ∈ Finset.range D, A i j * (z i * z j) := by
  unfold expo
  simp [map_sum]

/-- Without fixed indices the sum is the exponential in the first `n` variables. -/
theorem amp_hasSum_zero {D : ℕ} (A : ℕ → ℕ → ℂ) (b : ℕ → ℂ) (z : ℕ → ℂ) (hn : n ≤ D) :
    HasSum (fun k : Fin n → ℕ => amp D A b 1 (J k 0) * wt z k)
      (Complex.exp (1 / 2 * ∑ i ∈ Finset.range n, ∑ j ∈ Finset.range n, z i * z j * A i j + ∑ i ∈ Finset.range n, z i * b i)) := by
  have h := (taylor_hasSum (expo_coeff_zero D A b) fun i => if i < n then z i else 0).1
  have hz : ∀ x ∉ Set.range (fun k : Fin n → ℕ => J k 0), taylor (expo D A b) x * mon (fun i => if i < n then z i else 0) x = 0 := by
    intro x hx
    have hex : ∃ i, n ≤ i ∧ x i ≠ 0 := by
      by_contra hc
      push Not at hc
      apply hx
      refine ⟨fun i => x i, ?_⟩
      ext i
      show J (fun i : Fin n => x i) 0 i = x i
      rw [J_apply]
      split_ifs with hi
      · rfl
      · rw [hc i (by omega)]; rfl
    obtain ⟨i, hi, hxi⟩ := hex
    have : mon (fun i => if i < n then z i else 0) x = 0 := by
      unfold mon
      refine Finset.prod_eq_zero (Finsupp.mem_support_iff.2 hxi) ?_
      beta_reduce
      rw [if_neg (by omega), zero_pow hxi]
    rw [this, mul_zero]
  rw [← (J_inj (n := n) 0).hasSum_iff hz] at h
  have he : eval (fun i => if i < n then z i else 0) (expo D A b) =
      1 / 2 * ∑ i ∈ Finset.range n, ∑ j ∈ Finset.range n, z i * z j * A i j + ∑ i ∈ Finset.range n, z i * b i := by
    rw [expo_eval]
    obtain ⟨m, rfl⟩ := Nat.exists_eq_add_of_le hn
    simp only [Finset.sum_range_add]
    have z0 : ∀ i, ¬ n + i < n := fun i => by omega
    simp only [z0, if_false, mul_zero, zero_mul, Finset.sum_const_zero, add_zero]
    rw [add_comm]
    refine congr (congrArg HAdd.hAdd (congrArg (HMul.hMul _) (Finset.sum_congr rfl fun i hi => Finset.sum_congr rfl fun j hj => ?_)))
      (Finset.sum_congr rfl fun i hi => ?_)
    · rw [if_pos (Finset.mem_range.1 hi), if_pos (Finset.mem_range.1 hj), mul_comm]
    · rw [if_pos (Finset.mem_range.1 hi), mul_comm]
  rw [he] at h
  have e : (fun k : Fin n → ℕ => amp D A b 1 (J k 0) * wt z k) =
      (fun k => taylor (expo D A b) k * mon (fun i => if i < n then z i else 0) k) ∘ fun k : Fin n → ℕ => J k 0 := by
    funext k
    have e0 : sqrtFact 0 = 1 := by simp [sqrtFact]
    rw [amp_wt, e0, one_mul, Function.comp_apply, mon_J, mon_zero, mul_one]
    refine congrArg (HMul.hMul _) (Finset.prod_congr rfl fun i _ => ?_)
    rw [if_pos i.2]
  rw [e]
  exact h

theorem wt_zero_var (z : ℕ → ℂ) : wt z (0 : Fin n → ℕ) = 1 := by
  simp [wt]

theorem wt_step (z : ℕ → ℂ) (k : Fin n → ℕ) (j : Fin n) : sq (k j + 1) * wt z (Function.update k j (k j + 1)) = z j * wt z k := by
  classical
  unfold wt
  rw [← Finset.mul_prod_erase _ _ (Finset.mem_univ j), ← Finset.mul_prod_erase (Finset.univ) (fun i : Fin n => z i ^ k i / (Real.sqrt ((k i).factorial : ℝ) : ℂ)) (Finset.mem_univ j)]
  have e : ∏ i ∈ Finset.univ.erase j, z i ^ (Function.update k j (k j + 1)) i / (Real.sqrt (((Function.update k j (k j + 1)) i).factorial : ℝ) : ℂ) =
      ∏ i ∈ Finset.univ.erase j, z i ^ k i / (Real.sqrt ((k i).factorial : ℝ) : ℂ) := by
    refine Finset.prod_congr rfl fun i hi => ?_
    rw [Function.update_of_ne (Finset.ne_of_mem_erase hi)]
  rw [e, Function.update_self]
  have h1 : (Real.sqrt ((k j + 1).factorial : ℝ) : ℂ) = sq (k j + 1) * (Real.sqrt ((k j).factorial : ℝ) : ℂ) := by
    unfold sq
    rw [← Complex.ofReal_mul, ← Real.sqrt_mul (Nat.cast_nonneg _), Nat.factorial_succ]
    push_cast
    rfl
  rw [h1, pow_succ]
  have h2 := sqrt_fact_ne (k j)
  have h3 : sq (k j + 1) ≠ 0 := sq_ne_zero (Nat.succ_ne_zero _)
  field_simp

/-- Multiplication by a variable is a shift of the index. -/
theorem hasSum_shift {G : (Fin n → ℕ) → ℂ} {z : ℕ → ℂ} {S : ℂ} (j : Fin n) (h : HasSum (fun k => G k * wt z k) S) :
    HasSum (fun k => sq (k j) * G (Function.update k j (k j - 1)) * wt z k) (z j * S) := by
  have hi : Function.Injective fun k : Fin n → ℕ => Function.update k j (k j + 1) := by
    intro k k' e
    funext i
    have := congrFun e i
    by_cases hij : i = j
    · subst hij
      simpa using this
    · simpa [Function.update_of_ne hij] using this
  rw [← hi.hasSum_iff]
  · have e : (fun k => sq (k j) * G (Function.update k j (k j - 1)) * wt z k) ∘ (fun k : Fin n → ℕ => Function.update k j (k j + 1)) =
        fun k => z j * (G k * wt z k) := by
      funext k
      show sq ((Function.update k j (k j + 1)) j) * G (Function.update (Function.update k j (k j + 1)) j ((Function.update k j (k j + 1)) j - 1)) *
        wt z (Function.update k j (k j + 1)) = _
      rw [Function.update_self, Nat.add_sub_cancel, Function.update_idem, Function.update_eq_self]
      linear_combination G k * wt_step z k j
    rw [e]
    exact h.mul_left _
  · intro k hk
    have h0 : k j = 0 := by
      by_contra hc
      apply hk
      refine ⟨Function.update k j (k j - 1), ?_⟩
      show Function.update (Function.update k j (k j - 1)) j ((Function.update k j (k j - 1)) j + 1) = k
      rw [Function.update_self, Function.update_idem, Nat.sub_add_cancel (by omega), Function.update_eq_self]
    rw [h0]
    simp [sq]

/-- **Partial series.**  For fixed derived indices `d`, the amplitudes at `(k, d)` are the coefficients of
`exp(½ zᵀ A z + bᵀ z)` times the amplitude at `d` of the Gaussian in the derived variables with linear part `A z + b`. -/
theorem amp_hasSum {m : ℕ} {A : ℕ → ℕ → ℂ} (b z : ℕ → ℂ) (hA : Symm (n + m) A) (d : ℕ →₀ ℕ) (hd : Below m d) :
    HasSum (fun k : Fin n → ℕ => amp (n + m) A b 1 (J k d) * wt z k)
      (Complex.exp (1 / 2 * ∑ i ∈ Finset.range n, ∑ j ∈ Finset.range n, z i * z j * A i j + ∑ i ∈ Finset.range n, z i * b i) *
        amp m (fun i j => A (n + i) (n + j)) (fun j => ∑ a ∈ Finset.range n, A a (n + j) * z a + b (n + j)) 1 d) := by
  have hsum : ∀ d, HasSum (fun k : Fin n → ℕ => amp (n + m) A b 1 (J k d) * wt z k) (∑' k : Fin n → ℕ, amp (n + m) A b 1 (J k d) * wt z k) :=
    fun d => ((amp_summable (n + m) A b z n d).of_norm).hasSum
  have key := amp_unique (D := m) (A := fun i j => A (n + i) (n + j)) (b := fun j => ∑ a ∈ Finset.range n, A a (n + j) * z a + b (n + j))
    (c := Complex.exp (1 / 2 * ∑ i ∈ Finset.range n, ∑ j ∈ Finset.range n, z i * z j * A i j + ∑ i ∈ Finset.range n, z i * b i))
    (fun d => ∑' k : Fin n → ℕ, amp (n + m) A b 1 (J k d) * wt z k) (amp_hasSum_zero A b z (by omega)).tsum_eq (by
      intro i hi d _
      have hS : Symm m (fun i j => A (n + i) (n + j)) := fun i hi j hj => hA _ (by omega) _ (by omega)
      have r : ∀ k : Fin n → ℕ, sq (d i + 1) * (amp (n + m) A b 1 (J k (up d i)) * wt z k) =
          b (n + i) * (amp (n + m) A b 1 (J k d) * wt z k) +
          ∑ j : Fin n, A (n + i) j * (sq (k j) * amp (n + m) A b 1 (J (Function.update k j (k j - 1)) d) * wt z k) +
          ∑ j ∈ Finset.range m, A (n + i) (n + j) * sq (d j) * (amp (n + m) A b 1 (J k (dn d j)) * wt z k) := by
        intro k
        have h := amp_up (b := b) 1 hA (i := n + i) (by omega) (J k d)
        rw [J_high, ← J_up, Finset.sum_range_add, Finset.sum_range] at h
        rw [← mul_assoc, h, add_mul, add_mul, Finset.sum_mul, Finset.sum_mul, mul_assoc, ← add_assoc]
        refine congr (congrArg HAdd.hAdd (congrArg (HAdd.hAdd _) (Finset.sum_congr rfl fun j _ => ?_))) (Finset.sum_congr rfl fun j _ => ?_)
        · rw [J_low, J_update]; ring
        · rw [J_high, J_dn]; ring
      have h1 := (hsum (up d i)).mul_left (sq (d i + 1))
      have h2 : HasSum (fun k : Fin n → ℕ => sq (d i + 1) * (amp (n + m) A b 1 (J k (up d i)) * wt z k))
          (b (n + i) * (∑' k : Fin n → ℕ, amp (n + m) A b 1 (J k d) * wt z k) +
          ∑ j : Fin n, A (n + i) j * (z j * (∑' k : Fin n → ℕ, amp (n + m) A b 1 (J k d) * wt z k)) +
          ∑ j ∈ Finset.range m, A (n + i) (n + j) * sq (d j) * (∑' k : Fin n → ℕ, amp (n + m) A b 1 (J k (dn d j)) * wt z k)) := by
        simp only [r]
        refine (((hsum d).mul_left _).add (hasSum_sum fun j _ => ?_)).add (hasSum_sum fun j _ => (hsum (dn d j)).mul_left _)
        exact (hasSum_shift (G := fun k => amp (n + m) A b 1 (J k d)) j (hsum d)).mul_left _
      rw [h1.unique h2]
      have e : ∑ j : Fin n, A (n + i) j * (z j * (∑' k : Fin n → ℕ, amp (n + m) A b 1 (J k d) * wt z k)) =
          (∑ a ∈ Finset.range n, A a (n + i) * z a) * (∑' k : Fin n → ℕ, amp (n + m) A b 1 (J k d) * wt z k) := by
        rw [Finset.sum_mul, Finset.sum_range]
        refine Finset.sum_congr rfl fun j _ => ?_
        rw [hA (n + i) (by omega) j (by have := j.2; omega)]
        ring
      rw [e]
      have e2 : ∑ j ∈ Finset.range m, symA (fun i j => A (n + i) (n + j)) i j * sq (d j) * (∑' k : Fin n → ℕ, amp (n + m) A b 1 (J k (dn d j)) * wt z k) =
          ∑ j ∈ Finset.range m, A (n + i) (n + j) * sq (d j) * (∑' k : Fin n → ℕ, amp (n + m) A b 1 (J k (dn d j)) * wt z k) :=
        Finset.sum_congr rfl fun j hj => by rw [symA_of_symm hS hi (Finset.mem_range.1 hj)]
      rw [e2]
      ring) d hd
  rw [← amp_smul, ← key]
  exact hsum d

end Verif.Fock
