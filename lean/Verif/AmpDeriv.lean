import Verif.Herm
import Mathlib.Analysis.Calculus.Deriv.Mul
import Mathlib.Analysis.Calculus.Deriv.Add
import Mathlib.Tactic.LinearCombination

/-!
# Derivatives of renormalised Hermite arrays with respect to their parameters

The entries of `amp D A b c` are polynomials in the entries of `A`, `b` and `c`.  Multiplying the generating
function by `z_j` lowers the array (`low`), so its derivative in the direction `(A', b')` is
`∑ b'_m z_m + ½ ∑ A'_{mn} z_m z_n` applied to it.
-/

namespace Verif.Fock

/-- Multiplication of the generating function by `z_j`. -/
noncomputable def low (j : ℕ) (f : (ℕ →₀ ℕ) → ℂ) (k : ℕ →₀ ℕ) : ℂ := sq (k j) * f (dn k j)
/-- Derivative of the generating function with respect to `z_i`. -/
noncomputable def raise (i : ℕ) (f : (ℕ →₀ ℕ) → ℂ) (k : ℕ →₀ ℕ) : ℂ := sq (k i + 1) * f (up k i)

theorem dn_comm (k : ℕ →₀ ℕ) (i j : ℕ) : dn (dn k i) j = dn (dn k j) i := by
  unfold dn; rw [tsub_right_comm]
theorem dn_up_self (k : ℕ →₀ ℕ) (i : ℕ) : dn (up k i) i = k := by
  unfold dn up; exact add_tsub_cancel_right _ _
theorem dn_up_comm (k : ℕ →₀ ℕ) {i j : ℕ} (h : i ≠ j) : dn (up k i) j = up (dn k j) i := by
  ext l
  simp only [dn_apply, up_apply]
  split_ifs <;> simp_all

theorem raise_low (i j : ℕ) (f : (ℕ →₀ ℕ) → ℂ) (k) :
    raise i (low j f) k = low j (raise i f) k + if i = j then f k else 0 := by
  unfold raise low
  by_cases h : i = j
  · subst h
    rw [dn_up_self, up_apply, if_pos rfl, if_pos rfl]
    beta_reduce
    by_cases h0 : k i = 0
    · rw [h0, sq_zero, zero_mul, zero_add]
      have := sq_mul_self 1
      rw [zero_add] ; linear_combination f k * this
    · rw [up_dn h0, dn_apply, if_pos rfl, show k i - 1 + 1 = k i by omega]
      have h1 := sq_mul_self (k i + 1)
      have h2 := sq_mul_self (k i)
      push_cast at h1
      linear_combination f k * h1 - f k * h2
  · beta_reduce
    rw [dn_up_comm k h, up_apply, if_neg (Ne.symm h), if_neg h, dn_apply, if_neg h]; ring

theorem low_comm (i j : ℕ) (f : (ℕ →₀ ℕ) → ℂ) (k) : low i (low j f) k = low j (low i f) k := by
  unfold low
  by_cases h : i = j
  · subst h; rfl
  · rw [dn_comm, dn_apply, if_neg (Ne.symm h), dn_apply, if_neg h]; ring

/-- The generating function multiplied by `∑ b_m z_m + ½ ∑ A_{mn} z_m z_n`. -/
noncomputable def mulQ (D : ℕ) (A : ℕ → ℕ → ℂ) (b : ℕ → ℂ) (f : (ℕ →₀ ℕ) → ℂ) (k : ℕ →₀ ℕ) : ℂ :=
  ∑ m ∈ Finset.range D, b m * low m f k +
    (1 / 2) * ∑ m ∈ Finset.range D, ∑ n ∈ Finset.range D, A m n * low m (low n f) k

theorem low_add (j : ℕ) (f g : (ℕ →₀ ℕ) → ℂ) (k) : low j (fun k => f k + g k) k = low j f k + low j g k := by
  unfold low; ring
theorem low_mul (j : ℕ) (c : ℂ) (f : (ℕ →₀ ℕ) → ℂ) (k) : low j (fun k => c * f k) k = c * low j f k := by
  unfold low; ring
theorem low_sum {ι} (s : Finset ι) (j : ℕ) (f : ι → (ℕ →₀ ℕ) → ℂ) (k) :
    low j (fun k => ∑ x ∈ s, f x k) k = ∑ x ∈ s, low j (f x) k := by
  unfold low; rw [Finset.mul_sum]
theorem raise_add (j : ℕ) (f g : (ℕ →₀ ℕ) → ℂ) (k) :
    raise j (fun k => f k + g k) k = raise j f k + raise j g k := by
  unfold raise; ring
theorem raise_mul (j : ℕ) (c : ℂ) (f : (ℕ →₀ ℕ) → ℂ) (k) : raise j (fun k => c * f k) k = c * raise j f k := by
  unfold raise; ring
theorem raise_sum {ι} (s : Finset ι) (j : ℕ) (f : ι → (ℕ →₀ ℕ) → ℂ) (k) :
    raise j (fun k => ∑ x ∈ s, f x k) k = ∑ x ∈ s, raise j (f x) k := by
  unfold raise; rw [Finset.mul_sum]

theorem mulQ_add (D A b) (f g : (ℕ →₀ ℕ) → ℂ) (k) :
    mulQ D A b (fun k => f k + g k) k = mulQ D A b f k + mulQ D A b g k := by
  unfold mulQ low
  simp only [mul_add, Finset.sum_add_distrib]; ring
theorem mulQ_mul (D A b) (c : ℂ) (f : (ℕ →₀ ℕ) → ℂ) (k) :
    mulQ D A b (fun k => c * f k) k = c * mulQ D A b f k := by
  unfold mulQ low
  simp only [mul_add, Finset.mul_sum]
  refine congrArg₂ (· + ·) (Finset.sum_congr rfl fun m _ => by ring)
    (Finset.sum_congr rfl fun m _ => Finset.sum_congr rfl fun n _ => by ring)
theorem mulQ_sum {ι} (s : Finset ι) (D A b) (f : ι → (ℕ →₀ ℕ) → ℂ) (k) :
    mulQ D A b (fun k => ∑ x ∈ s, f x k) k = ∑ x ∈ s, mulQ D A b (f x) k := by
  classical
  induction s using Finset.induction_on with
  | empty => simp [mulQ, low]
  | insert a s ha ih =>
    rw [Finset.sum_insert ha, ← ih, ← mulQ_add]
    refine congrArg (mulQ D A b · k) (funext fun k => ?_)
    rw [Finset.sum_insert ha]

theorem mulQ_low (D A b) (j : ℕ) (f : (ℕ →₀ ℕ) → ℂ) (k) : mulQ D A b (low j f) k = low j (mulQ D A b f) k := by
  have e : low j (mulQ D A b f) k = ∑ m ∈ Finset.range D, b m * low j (low m f) k +
      (1 / 2) * ∑ m ∈ Finset.range D, ∑ n ∈ Finset.range D, A m n * low j (low m (low n f)) k := by
    unfold mulQ
    rw [low_add, low_sum, low_mul, low_sum]
    simp only [low_sum, low_mul]
  rw [e]; unfold mulQ
  refine congrArg₂ (· + ·) (Finset.sum_congr rfl fun m _ => by rw [low_comm])
    (congrArg _ (Finset.sum_congr rfl fun m _ => Finset.sum_congr rfl fun n _ => ?_))
  have h1 : low n (low j f) = low j (low n f) := funext fun k => low_comm _ _ _ _
  rw [h1, low_comm]

/-- `∂_i (Q F) = Q (∂_i F) + (∂_i Q) F`. -/
theorem raise_mulQ (D A b) {i : ℕ} (hi : i < D) (f : (ℕ →₀ ℕ) → ℂ) (k) :
    raise i (mulQ D A b f) k = mulQ D A b (raise i f) k +
      (b i * f k + ∑ n ∈ Finset.range D, symA A i n * low n f k) := by
  have e : raise i (mulQ D A b f) k = ∑ m ∈ Finset.range D, b m * raise i (low m f) k +
      (1 / 2) * ∑ m ∈ Finset.range D, ∑ n ∈ Finset.range D, A m n * raise i (low m (low n f)) k := by
    unfold mulQ
    rw [raise_add, raise_sum, raise_mul, raise_sum]
    simp only [raise_sum, raise_mul]
  have h2 : ∀ m n, raise i (low m (low n f)) k = low m (low n (raise i f)) k +
      ((if i = n then low m f k else 0) + if i = m then low n f k else 0) := by
    intro m n
    rw [raise_low]
    have : raise i (low n f) = fun k => low n (raise i f) k + if i = n then f k else 0 :=
      funext fun k => raise_low _ _ _ _
    rw [this, low_add, add_assoc]
    congr 2
    unfold low; split_ifs <;> simp
  rw [e]
  simp only [raise_low, h2, mul_add, Finset.sum_add_distrib, mul_ite, mul_zero]
  rw [Finset.sum_ite_eq, if_pos (Finset.mem_range.2 hi)]
  have h3 : ∑ m ∈ Finset.range D, ∑ n ∈ Finset.range D, (if i = n then A m n * low m f k else 0) =
      ∑ n ∈ Finset.range D, A n i * low n f k := by
    refine Finset.sum_congr rfl fun m _ => ?_
    rw [Finset.sum_ite_eq, if_pos (Finset.mem_range.2 hi)]
  have h4 : ∑ m ∈ Finset.range D, ∑ n ∈ Finset.range D, (if i = m then A m n * low n f k else 0) =
      ∑ n ∈ Finset.range D, A i n * low n f k := by
    rw [Finset.sum_comm]
    refine Finset.sum_congr rfl fun m _ => ?_
    rw [Finset.sum_ite_eq, if_pos (Finset.mem_range.2 hi)]
  rw [h3, h4]
  have h5 : ∑ n ∈ Finset.range D, symA A i n * low n f k =
      (1/2) * ∑ n ∈ Finset.range D, A n i * low n f k + (1/2) * ∑ n ∈ Finset.range D, A i n * low n f k := by
    rw [Finset.mul_sum, Finset.mul_sum, ← Finset.sum_add_distrib]
    refine Finset.sum_congr rfl fun n _ => ?_
    unfold symA; ring
  rw [h5]; unfold mulQ; ring

theorem raise_amp {D A b} (c : ℂ) {i : ℕ} (hi : i < D) :
    raise i (amp D A b c) = fun k => b i * amp D A b c k +
      ∑ j ∈ Finset.range D, symA A i j * low j (amp D A b c) k := by
  funext k
  unfold raise low
  rw [amp_up' c hi k]
  simp only [mul_assoc]

/-- The derivative array satisfies the differentiated recursion. -/
theorem raise_mulQ_amp {D A b A' b'} (c : ℂ) {i : ℕ} (hi : i < D) (k) :
    raise i (mulQ D A' b' (amp D A b c)) k =
      (b' i * amp D A b c k + b i * mulQ D A' b' (amp D A b c) k) +
      ∑ j ∈ Finset.range D, (symA A' i j * low j (amp D A b c) k +
        symA A i j * low j (mulQ D A' b' (amp D A b c)) k) := by
  rw [raise_mulQ D A' b' hi, raise_amp c hi, mulQ_add, mulQ_mul, mulQ_sum, Finset.sum_add_distrib]
  simp only [mulQ_mul, mulQ_low]
  ring

variable {𝕜 : Type*} [NontriviallyNormedField 𝕜] [NormedAlgebra 𝕜 ℂ]

/-- Derivative of the Fock array along a family of exponents. -/
theorem hasDeriv_amp_one {D : ℕ} {A : 𝕜 → ℕ → ℕ → ℂ} {b : 𝕜 → ℕ → ℂ} {A' : ℕ → ℕ → ℂ} {b' : ℕ → ℂ} {t₀ : 𝕜}
    (hA : ∀ i < D, ∀ j < D, HasDerivAt (fun t => A t i j) (A' i j) t₀)
    (hb : ∀ i < D, HasDerivAt (fun t => b t i) (b' i) t₀) (k : ℕ →₀ ℕ) (hk : Below D k) :
    HasDerivAt (fun t => amp D (A t) (b t) 1 k) (mulQ D A' b' (amp D (A t₀) (b t₀) 1) k) t₀ := by
  have hsA : ∀ i < D, ∀ j < D, HasDerivAt (fun t => symA (A t) i j) (symA A' i j) t₀ := by
    intro i hi j hj
    exact ((hA i hi j hj).add (hA j hj i hi)).div_const 2
  have main : ∀ n, ∀ k : ℕ →₀ ℕ, k.degree = n → Below D k →
      HasDerivAt (fun t => amp D (A t) (b t) 1 k) (mulQ D A' b' (amp D (A t₀) (b t₀) 1) k) t₀ := by
    intro n
    induction n using Nat.strong_induction_on with
    | _ n ih =>
    intro k hk hB
    by_cases hz : k = 0
    · subst hz
      simp only [amp_zero]
      have : mulQ D A' b' (amp D (A t₀) (b t₀) 1) 0 = 0 := by simp [mulQ, low]
      rw [this]
      exact hasDerivAt_const _ _
    · obtain ⟨i, hi⟩ := Finsupp.ne_iff.1 hz
      simp only [Finsupp.coe_zero, Pi.zero_apply] at hi
      have hiD : i < D := by
        by_contra h
        exact hi (hB i (by omega))
      set p := dn k i with hp
      have hup : up p i = k := up_dn hi
      have hdeg : p.degree + 1 = n := by rw [← hk, ← hup, degree_up]
      have hpB : Below D p := hB.dn i
      have hs : sq (p i + 1) ≠ 0 := sq_ne_zero (Nat.succ_ne_zero _)
      have r : ∀ t, amp D (A t) (b t) 1 k = (b t i * amp D (A t) (b t) 1 p +
          ∑ j ∈ Finset.range D, symA (A t) i j * (sq (p j) * amp D (A t) (b t) 1 (dn p j))) / sq (p i + 1) := by
        intro t
        have := amp_up' (A := A t) (b := b t) 1 hiD p
        rw [hup] at this
        rw [eq_div_iff hs, mul_comm, this]
        simp only [mul_assoc]
      have r' : mulQ D A' b' (amp D (A t₀) (b t₀) 1) k = ((b' i * amp D (A t₀) (b t₀) 1 p +
          b t₀ i * mulQ D A' b' (amp D (A t₀) (b t₀) 1) p) +
          ∑ j ∈ Finset.range D, (symA A' i j * (sq (p j) * amp D (A t₀) (b t₀) 1 (dn p j)) +
            symA (A t₀) i j * (sq (p j) * mulQ D A' b' (amp D (A t₀) (b t₀) 1) (dn p j)))) / sq (p i + 1) := by
        have := raise_mulQ_amp (A := A t₀) (b := b t₀) (A' := A') (b' := b') 1 hiD p
        unfold raise at this
        rw [hup] at this
        rw [eq_div_iff hs, mul_comm, this]
        rfl
      simp only [r]
      rw [r']
      refine HasDerivAt.div_const (((hb i hiD).mul (ih p.degree (by omega) p rfl hpB)).add
        (HasDerivAt.fun_sum fun j hj => ?_)) _
      have hj := Finset.mem_range.1 hj
      have := degree_dn p j
      exact (hsA i hiD j hj).mul ((ih (dn p j).degree (by omega) (dn p j) rfl (hpB.dn j)).const_mul _)
  exact main _ k rfl hk

/-- Derivative of the Fock array along a family of triples. -/
theorem hasDeriv_amp {D : ℕ} {A : 𝕜 → ℕ → ℕ → ℂ} {b : 𝕜 → ℕ → ℂ} {c : 𝕜 → ℂ} {A' : ℕ → ℕ → ℂ} {b' : ℕ → ℂ}
    {c' : ℂ} {t₀ : 𝕜}
    (hA : ∀ i < D, ∀ j < D, HasDerivAt (fun t => A t i j) (A' i j) t₀)
    (hb : ∀ i < D, HasDerivAt (fun t => b t i) (b' i) t₀) (hc : HasDerivAt c c' t₀)
    (k : ℕ →₀ ℕ) (hk : Below D k) :
    HasDerivAt (fun t => amp D (A t) (b t) (c t) k)
      (mulQ D A' b' (amp D (A t₀) (b t₀) (c t₀)) k + c' * amp D (A t₀) (b t₀) 1 k) t₀ := by
  have e : ∀ t, amp D (A t) (b t) (c t) k = c t * amp D (A t) (b t) 1 k := fun t => amp_smul _ _ _ _ _
  have e2 : mulQ D A' b' (amp D (A t₀) (b t₀) (c t₀)) k = c t₀ * mulQ D A' b' (amp D (A t₀) (b t₀) 1) k := by
    rw [← mulQ_mul]
    exact congrArg (mulQ D A' b' · k) (funext fun k => amp_smul _ _ _ _ _)
  simp only [e]
  rw [e2, add_comm]
  exact hc.mul (hasDeriv_amp_one hA hb k hk)

end Verif.Fock
