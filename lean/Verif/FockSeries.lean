import Verif.FockRec
import Verif.Herm
import Mathlib.Analysis.SpecialFunctions.Exponential
import Mathlib.Analysis.Normed.Ring.InfiniteSum
import Mathlib.Topology.Algebra.InfiniteSum.Basic
import Mathlib.Analysis.Complex.Exponential

/-!
# The amplitudes are the coefficients of an everywhere absolutely convergent series
-/

namespace Verif.Fock
open MvPolynomial

/-- `z^k`. -/
noncomputable def mon (z : ℕ → ℂ) (k : ℕ →₀ ℕ) : ℂ := k.prod fun i e => z i ^ e

theorem mon_zero (z) : mon z 0 = 1 := by simp [mon]
theorem mon_add (z k l) : mon z (k + l) = mon z k * mon z l := by
  unfold mon
  exact Finsupp.prod_add_index' (fun _ => pow_zero _) (fun _ _ _ => pow_add _ _ _)

theorem eval_eq_mon (z : ℕ → ℂ) (p : MvPolynomial ℕ ℂ) : eval z p = ∑ k ∈ p.support, coeff k p * mon z k := by
  rw [eval_eq]
  rfl

/-- The sum of the moduli of the terms of `p` at `z`. -/
noncomputable def nu (z : ℕ → ℂ) (p : MvPolynomial ℕ ℂ) : ℝ := ∑ k ∈ p.support, ‖coeff k p * mon z k‖

theorem nu_eq {z : ℕ → ℂ} {p : MvPolynomial ℕ ℂ} {s : Finset (ℕ →₀ ℕ)} (h : p.support ⊆ s) : nu z p = ∑ k ∈ s, ‖coeff k p * mon z k‖ := by
  unfold nu
  refine Finset.sum_subset h fun k _ hk => ?_
  rw [notMem_support_iff.1 hk, zero_mul, norm_zero]

theorem nu_nonneg (z p) : 0 ≤ nu z p := Finset.sum_nonneg fun _ _ => norm_nonneg _

theorem nu_add (z : ℕ → ℂ) (p q) : nu z (p + q) ≤ nu z p + nu z q := by
  classical
  rw [nu_eq (support_add (p := p) (q := q)), nu_eq (Finset.subset_union_left (s₁ := p.support) (s₂ := q.support)),
    nu_eq (Finset.subset_union_right (s₁ := p.support) (s₂ := q.support)), ← Finset.sum_add_distrib]
  refine Finset.sum_le_sum fun k _ => ?_
  rw [coeff_add, add_mul]
  exact norm_add_le _ _

theorem nu_sum {ι : Type*} (z : ℕ → ℂ) (s : Finset ι) (f : ι → MvPolynomial ℕ ℂ) : nu z (∑ i ∈ s, f i) ≤ ∑ i ∈ s, nu z (f i) := by
  classical
  induction s using Finset.induction_on with
  | empty => simp [nu]
  | insert a s ha ih =>
    rw [Finset.sum_insert ha, Finset.sum_insert ha]
    exact (nu_add _ _ _).trans (add_le_add le_rfl ih)

theorem nu_monomial (z : ℕ → ℂ) (k a) : nu z (monomial k a) = ‖a * mon z k‖ := by
  classical
  rw [nu_eq (s := {k}) (support_monomial_subset), Finset.sum_singleton, coeff_monomial, if_pos rfl]

theorem nu_mul (z : ℕ → ℂ) (p q : MvPolynomial ℕ ℂ) : nu z (p * q) ≤ nu z p * nu z q := by
  have e : p * q = ∑ k ∈ p.support, ∑ l ∈ q.support, monomial (k + l) (coeff k p * coeff l q) := by
    conv_lhs => rw [p.as_sum, q.as_sum]
    rw [Finset.sum_mul_sum]
    refine Finset.sum_congr rfl fun k _ => Finset.sum_congr rfl fun l _ => ?_
    rw [monomial_mul]
  rw [e]
  refine (nu_sum _ _ _).trans ?_
  unfold nu
  rw [Finset.sum_mul_sum]
  refine Finset.sum_le_sum fun k _ => (nu_sum _ _ _).trans (Finset.sum_le_sum fun l _ => ?_)
  rw [nu_monomial, mon_add, ← norm_mul]
  refine le_of_eq (congrArg norm ?_)
  ring

theorem nu_pow (z : ℕ → ℂ) (p : MvPolynomial ℕ ℂ) (n : ℕ) : nu z (p ^ n) ≤ nu z p ^ n := by
  induction n with
  | zero => rw [pow_zero, pow_zero, ← C_1, C_apply, nu_monomial, mon_zero]; simp
  | succ n ih =>
    rw [pow_succ, pow_succ]
    exact (nu_mul _ _ _).trans (mul_le_mul_of_nonneg_right ih (nu_nonneg _ _))

/-- The double series `∑_{n,k} [z^k] qⁿ / n! · z^k` converges absolutely. -/
theorem double_summable (q : MvPolynomial ℕ ℂ) (z : ℕ → ℂ) :
    Summable fun x : ℕ × (ℕ →₀ ℕ) => ‖coeff x.2 (q ^ x.1) / (x.1.factorial : ℂ) * mon z x.2‖ := by
  have hfin : ∀ n, HasSum (fun k : ℕ →₀ ℕ => ‖coeff k (q ^ n) / (n.factorial : ℂ) * mon z k‖) (nu z (q ^ n) / n.factorial) := by
    intro n
    have h := hasSum_sum_of_ne_finset_zero (L := SummationFilter.unconditional _) (s := (q ^ n).support) (f := fun k : ℕ →₀ ℕ => ‖coeff k (q ^ n) / (n.factorial : ℂ) * mon z k‖) (by
      intro k hk
      rw [notMem_support_iff.1 hk]; simp)
    have e : ∑ k ∈ (q ^ n).support, ‖coeff k (q ^ n) / (n.factorial : ℂ) * mon z k‖ = nu z (q ^ n) / n.factorial := by
      unfold nu
      rw [Finset.sum_div]
      refine Finset.sum_congr rfl fun k _ => ?_
      rw [div_mul_eq_mul_div, norm_div, Complex.norm_natCast]
    rwa [e] at h
  rw [summable_prod_of_nonneg (fun _ => norm_nonneg _)]
  refine ⟨fun n => (hfin n).summable, ?_⟩
  simp only [fun n => (hfin n).tsum_eq]
  refine Summable.of_nonneg_of_le (fun n => div_nonneg (nu_nonneg _ _) (Nat.cast_nonneg _)) (fun n => ?_) (Real.summable_pow_div_factorial (nu z q))
  exact div_le_div_of_nonneg_right (nu_pow z q n) (Nat.cast_nonneg _)

/-- The Taylor coefficients are those of an everywhere absolutely convergent series with sum `exp (q z)`. -/
theorem taylor_hasSum {q : MvPolynomial ℕ ℂ} (h0 : coeff 0 q = 0) (z : ℕ → ℂ) :
    HasSum (fun k => taylor q k * mon z k) (Complex.exp (eval z q)) ∧ Summable fun k => ‖taylor q k * mon z k‖ := by
  have hd := double_summable q z
  have hn : ∀ n, HasSum (fun k : ℕ →₀ ℕ => coeff k (q ^ n) / (n.factorial : ℂ) * mon z k) (eval z q ^ n / n.factorial) := by
    intro n
    have h := hasSum_sum_of_ne_finset_zero (L := SummationFilter.unconditional _) (s := (q ^ n).support) (f := fun k : ℕ →₀ ℕ => coeff k (q ^ n) / (n.factorial : ℂ) * mon z k) (by
      intro k hk
      rw [notMem_support_iff.1 hk]; simp)
    have e : ∑ k ∈ (q ^ n).support, coeff k (q ^ n) / (n.factorial : ℂ) * mon z k = eval z q ^ n / n.factorial := by
      rw [← map_pow, eval_eq_mon, Finset.sum_div]
      exact Finset.sum_congr rfl fun k _ => by ring
    rwa [e] at h
  have hk : ∀ k, HasSum (fun n : ℕ => coeff k (q ^ n) / (n.factorial : ℂ) * mon z k) (taylor q k * mon z k) := by
    intro k
    unfold taylor
    rw [Finset.sum_mul]
    refine hasSum_sum_of_ne_finset_zero fun n hn => ?_
    rw [coeff_pow_eq_zero h0 n k (by rw [Finset.mem_range] at hn; omega)]
    simp
  obtain ⟨S, hS⟩ := hd.of_norm
  have h1 := hS.prod_fiberwise hn
  have he : HasSum (fun n : ℕ => eval z q ^ n / n.factorial) (Complex.exp (eval z q)) := by
    rw [Complex.exp_eq_exp_ℂ]
    exact NormedSpace.expSeries_div_hasSum_exp (eval z q)
  have hS' : S = Complex.exp (eval z q) := h1.unique he
  subst hS'
  have hS2 : HasSum (fun x : (ℕ →₀ ℕ) × ℕ => coeff x.1 (q ^ x.2) / (x.2.factorial : ℂ) * mon z x.1) (Complex.exp (eval z q)) := by
    rw [← (Equiv.prodComm ℕ (ℕ →₀ ℕ)).hasSum_iff]
    exact hS
  refine ⟨hS2.prod_fiberwise hk, ?_⟩
  have hd2 : Summable fun x : (ℕ →₀ ℕ) × ℕ => ‖coeff x.1 (q ^ x.2) / (x.2.factorial : ℂ) * mon z x.1‖ := by
    rw [← (Equiv.prodComm ℕ (ℕ →₀ ℕ)).summable_iff]
    exact hd
  have h3 := (summable_prod_of_nonneg (fun _ => norm_nonneg _)).1 hd2
  refine Summable.of_nonneg_of_le (fun _ => norm_nonneg _) (fun k => ?_) h3.2
  rw [← (hk k).tsum_eq]
  exact norm_tsum_le_tsum_norm (h3.1 k)

end Verif.Fock
