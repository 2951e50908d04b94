import Verif.Vanilla
import Mathlib.Algebra.MvPolynomial.Rename

/-!
# Renaming and dropping variables in Fock amplitudes
-/

namespace Verif.Fock
open MvPolynomial

/-- Renaming the variables of the exponent. -/
theorem expo_rename {D : ℕ} (A : ℕ → ℕ → ℂ) (b : ℕ → ℂ) (σ : ℕ → ℕ) (hσ : Function.Injective σ)
    (hD : ∀ i, i < D → σ i < D) :
    rename σ (expo D (fun i j => A (σ i) (σ j)) (fun i => b (σ i))) = expo D A b := by
  have hsum : ∀ F : ℕ → MvPolynomial ℕ ℂ, ∑ i ∈ Finset.range D, F (σ i) = ∑ i ∈ Finset.range D, F i := by
    intro F
    refine Finset.sum_nbij σ (fun i hi => Finset.mem_range.mpr (hD i (Finset.mem_range.mp hi)))
      (fun i _ j _ h => hσ h) ?_ (fun i _ => rfl)
    have : Finset.image σ (Finset.range D) = Finset.range D := by
      refine Finset.eq_of_subset_of_card_le ?_ ?_
      · intro x hx
        obtain ⟨i, hi, rfl⟩ := Finset.mem_image.mp hx
        exact Finset.mem_range.mpr (hD i (Finset.mem_range.mp hi))
      · rw [Finset.card_image_of_injective _ hσ]
    intro x hx
    rw [← this] at hx
    simpa using hx
  unfold expo
  simp only [map_add, map_sum, map_mul, rename_C, rename_X]
  rw [hsum (fun i => C (b i) * X i)]
  refine congrArg (HAdd.hAdd _) (congrArg (HMul.hMul _) ?_)
  rw [← hsum (fun i => ∑ j ∈ Finset.range D, C (A i j) * (X i * X j))]
  refine Finset.sum_congr rfl fun i _ => ?_
  exact hsum (fun j => C (A (σ i) j) * (X (σ i) * X j))

/-- Permuting the variables of a Gaussian permutes its Fock amplitudes. -/
theorem amp_rename {D : ℕ} (A : ℕ → ℕ → ℂ) (b : ℕ → ℂ) (c : ℂ) (σ : ℕ → ℕ) (hσ : Function.Injective σ)
    (hD : ∀ i, i < D → σ i < D) (k : ℕ →₀ ℕ) :
    amp D (fun i j => A (σ i) (σ j)) (fun i => b (σ i)) c k = amp D A b c (k.mapDomain σ) := by
  unfold amp
  have h1 : sqrtFact (k.mapDomain σ) = sqrtFact k := by
    unfold sqrtFact
    rw [Finsupp.mapDomain_support_of_injective hσ, Finset.prod_image (fun i _ j _ h => hσ h)]
    refine Finset.prod_congr rfl fun i _ => ?_
    rw [Finsupp.mapDomain_apply hσ]
  have h2 : (k.mapDomain σ).degree = k.degree := by
    rw [Finsupp.degree_apply, Finsupp.degree_apply, Finsupp.mapDomain_support_of_injective hσ,
      Finset.sum_image (fun i _ j _ h => hσ h)]
    refine Finset.sum_congr rfl fun i _ => ?_
    rw [Finsupp.mapDomain_apply hσ]
  have h3 : taylor (expo D A b) (k.mapDomain σ)
      = taylor (expo D (fun i j => A (σ i) (σ j)) (fun i => b (σ i))) k := by
    unfold taylor
    rw [h2]
    refine Finset.sum_congr rfl fun n _ => ?_
    rw [← expo_rename A b σ hσ hD, ← map_pow, coeff_rename_mapDomain σ hσ]
  rw [h1, h3]

/-- Variables that the index does not use can be dropped. -/
theorem amp_restrict {d D : ℕ} (hd : d ≤ D) {A : ℕ → ℕ → ℂ} (b : ℕ → ℂ) (c : ℂ) (hA : Symm D A)
    (k : ℕ →₀ ℕ) (hk : ∀ j, d ≤ j → k j = 0) : amp d A b c k = amp D A b c k := by
  have hA' : Symm d A := fun i hi j hj => hA i (by omega) j (by omega)
  have main : ∀ N, ∀ k : ℕ →₀ ℕ, k.degree = N → (∀ j, d ≤ j → k j = 0) → amp d A b c k = amp D A b c k := by
    intro N
    induction N using Nat.strong_induction_on with
    | _ N ih =>
      intro k hN hk
      by_cases h0 : k = 0
      · rw [h0, amp_zero, amp_zero]
      · obtain ⟨i, hi⟩ := Finsupp.ne_iff.mp h0
        rw [Finsupp.coe_zero, Pi.zero_apply] at hi
        have hid : i < d := by
          by_contra h
          exact hi (hk i (by omega))
        have hdeg : ∀ (q : ℕ →₀ ℕ) j, q j ≠ 0 → (dn q j).degree + 1 = q.degree := by
          intro q j hq
          rw [← degree_up (dn q j) j, up_dn hq]
        have hdn : ∀ (q : ℕ →₀ ℕ) j, (∀ j, d ≤ j → q j = 0) → ∀ j', d ≤ j' → dn q j j' = 0 := by
          intro q j hq j' hj'
          simp [dn, hq j' hj']
        rw [amp_rec c hA' hid k hi, amp_rec c hA (by omega) k hi,
          ih _ (by have := hdeg k i hi; omega) (dn k i) rfl (hdn k i hk)]
        refine congrArg (· / Fock.sq (k i)) (congrArg (HAdd.hAdd _) ?_)
        rw [← Finset.sum_subset (Finset.range_mono hd)]
        · refine Finset.sum_congr rfl fun j _ => ?_
          by_cases hz : dn k i j = 0
          · rw [hz]
            simp [Fock.sq]
          · rw [ih _ (by have := hdeg k i hi; have := hdeg (dn k i) j hz; omega) (dn (dn k i) j) rfl
              (hdn _ j (hdn k i hk))]
        · intro j _ hj
          rw [hdn k i hk j (by simpa using hj)]
          simp [Fock.sq]
  exact main _ k rfl hk

end Verif.Fock
