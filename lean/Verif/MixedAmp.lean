import Verif.Herm

/-!
# Amplitudes of a Gaussian with some variables doubled by identity lines (for C111)
-/

namespace Verif.Mixed
open Verif.Fock

/-- The variables `v < V` are of two kinds: the variables of another Gaussian in `m` variables (`G v`, with its index `κ v`), and pairs of variables joined by an identity line
(`v` and `π v`). -/
structure Layout (V m : ℕ) (G : ℕ → Prop) (κ ι π : ℕ → ℕ) : Prop where
  il : ∀ i < m, ι i < V
  ig : ∀ i < m, G (ι i)
  ki : ∀ i < m, κ (ι i) = i
  kl : ∀ v < V, G v → κ v < m
  ik : ∀ v < V, G v → ι (κ v) = v
  pl : ∀ v < V, ¬ G v → π v < V
  pg : ∀ v < V, ¬ G v → ¬ G (π v)
  pn : ∀ v < V, ¬ G v → π v ≠ v
  pp : ∀ v < V, ¬ G v → π (π v) = v

/-- The exponents of the variables of the other Gaussian. -/
noncomputable def pull (m : ℕ) (ι : ℕ → ℕ) (x : ℕ →₀ ℕ) : ℕ →₀ ℕ := toF ((List.range m).map fun i => x (ι i))

theorem pull_apply (m : ℕ) (ι : ℕ → ℕ) (x : ℕ →₀ ℕ) (i : ℕ) : pull m ι x i = if i < m then x (ι i) else 0 := by
  unfold pull
  rw [toF_apply]
  split_ifs with h
  · rw [List.getD_eq_getElem _ _ (by simpa using h)]; simp
  · rw [List.getD_eq_default _ _ (by simpa using h)]

open scoped Classical in
/-- The quadratic form. -/
noncomputable def matG (G : ℕ → Prop) (κ π : ℕ → ℕ) (A : ℕ → ℕ → ℂ) (u v : ℕ) : ℂ :=
  if G u ∧ G v then A (κ u) (κ v) else if ¬ G u ∧ ¬ G v ∧ v = π u then 1 else 0

open scoped Classical in
/-- The linear form. -/
noncomputable def vecG (G : ℕ → Prop) (κ : ℕ → ℕ) (b : ℕ → ℂ) (u : ℕ) : ℂ := if G u then b (κ u) else 0

open scoped Classical in
theorem amp_layout {V m : ℕ} {G : ℕ → Prop} {κ ι π : ℕ → ℕ} (H : Layout V m G κ ι π) (A : ℕ → ℕ → ℂ) (b : ℕ → ℂ) (c : ℂ) (x : ℕ →₀ ℕ) (hx : Below V x) :
    amp V (matG G κ π A) (vecG G κ b) c x = if ∀ v < V, ¬ G v → x v = x (π v) then amp m A b c (pull m ι x) else 0 := by
  symm
  refine amp_unique (fun x => if ∀ v < V, ¬ G v → x v = x (π v) then amp m A b c (pull m ι x) else 0) ?_ ?_ x hx
  · rw [if_pos (fun v _ _ => by rw [Finsupp.zero_apply, Finsupp.zero_apply])]
    have : pull m ι 0 = 0 := by ext i; rw [pull_apply]; simp
    rw [this, amp_zero]
  intro u hu k hk
  by_cases hG : G u
  · -- a variable of the Gaussian
    have hs : ∀ j < V, symA (matG G κ π A) u j = if G j then symA A (κ u) (κ j) else 0 := by
      intro j _
      unfold symA matG
      by_cases hj : G j
      · rw [if_pos ⟨hG, hj⟩, if_pos ⟨hj, hG⟩, if_pos hj]
      · rw [if_neg (fun h => hj h.2), if_neg (fun h => h.1 hG), if_neg (fun h => hj h.1), if_neg (fun h => h.2.1 hG), if_neg hj]
        norm_num
    have hsum : ∑ j ∈ Finset.range V, symA (matG G κ π A) u j * Fock.sq (k j) *
        (if ∀ v < V, ¬ G v → dn k j v = dn k j (π v) then amp m A b c (pull m ι (dn k j)) else 0) =
        ∑ j ∈ (Finset.range V).filter G, symA A (κ u) (κ j) * Fock.sq (k j) *
        (if ∀ v < V, ¬ G v → k v = k (π v) then amp m A b c (dn (pull m ι k) (κ j)) else 0) := by
      rw [Finset.sum_filter]
      refine Finset.sum_congr rfl fun j hj => ?_
      rw [hs j (Finset.mem_range.1 hj)]
      by_cases hGj : G j
      · rw [if_pos hGj, if_pos hGj]
        have e1 : (∀ v < V, ¬ G v → dn k j v = dn k j (π v)) ↔ ∀ v < V, ¬ G v → k v = k (π v) := by
          refine forall_congr' fun v => forall_congr' fun hv => forall_congr' fun hg => ?_
          rw [dn_apply, dn_apply, if_neg (fun e => hg (by rw [e]; exact hGj)), if_neg (fun e => H.pg v hv hg (by rw [e]; exact hGj))]
        have e2 : pull m ι (dn k j) = dn (pull m ι k) (κ j) := by
          ext i
          rw [pull_apply, dn_apply, dn_apply, pull_apply]
          by_cases hi : i < m
          · rw [if_pos hi, if_pos hi]
            refine if_congr ?_ rfl rfl
            constructor
            · intro e; rw [← e, H.ki i hi]
            · intro e; rw [e, H.ik j (Finset.mem_range.1 hj) hGj]
          · rw [if_neg hi, if_neg hi]; simp
        simp only [e1, e2]
      · rw [if_neg hGj, if_neg hGj, zero_mul, zero_mul]
    rw [hsum]
    have hup : (∀ v < V, ¬ G v → up k u v = up k u (π v)) ↔ ∀ v < V, ¬ G v → k v = k (π v) := by
      refine forall_congr' fun v => forall_congr' fun hv => forall_congr' fun hg => ?_
      rw [up_apply, up_apply, if_neg (fun e => hg (by rw [e]; exact hG)), if_neg (fun e => H.pg v hv hg (by rw [e]; exact hG))]
    have hpu : pull m ι (up k u) = up (pull m ι k) (κ u) := by
      ext i
      rw [pull_apply, up_apply, up_apply, pull_apply]
      by_cases hi : i < m
      · rw [if_pos hi, if_pos hi]
        refine if_congr ?_ rfl rfl
        constructor
        · intro e; rw [← e, H.ki i hi]
        · intro e; rw [e, H.ik u hu hG]
      · rw [if_neg hi, if_neg hi, if_neg]
        intro e
        exact hi (by rw [e]; exact H.kl u hu hG)
    simp only [hup, hpu]
    have hb : vecG G κ b u = b (κ u) := if_pos hG
    rw [hb]
    by_cases hc : ∀ v < V, ¬ G v → k v = k (π v)
    · simp only [if_pos hc]
      have hku : k u = pull m ι k (κ u) := by rw [pull_apply, if_pos (H.kl u hu hG), H.ik u hu hG]
      rw [hku, amp_up' c (H.kl u hu hG) (pull m ι k)]
      refine congrArg _ ?_
      symm
      refine Finset.sum_nbij' κ ι ?_ ?_ ?_ ?_ ?_
      · intro j hj
        rw [Finset.mem_filter, Finset.mem_range] at hj
        exact Finset.mem_range.2 (H.kl j hj.1 hj.2)
      · intro i hi
        rw [Finset.mem_range] at hi
        rw [Finset.mem_filter, Finset.mem_range]
        exact ⟨H.il i hi, H.ig i hi⟩
      · intro j hj
        rw [Finset.mem_filter, Finset.mem_range] at hj
        exact H.ik j hj.1 hj.2
      · intro i hi
        exact H.ki i (Finset.mem_range.1 hi)
      · intro j hj
        rw [Finset.mem_filter, Finset.mem_range] at hj
        rw [pull_apply, if_pos (H.kl j hj.1 hj.2), H.ik j hj.1 hj.2]
    · simp only [if_neg hc, mul_zero, Finset.sum_const_zero, add_zero]
  · -- a variable of a pair
    have hpV := H.pl u hu hG
    have hpG := H.pg u hu hG
    have hpne := H.pn u hu hG
    have hpp := H.pp u hu hG
    have hb : vecG G κ b u = 0 := if_neg hG
    rw [hb, zero_mul, zero_add, Finset.sum_eq_single (π u)]
    rotate_left
    · intro j hj hne
      have : symA (matG G κ π A) u j = 0 := by
        unfold symA matG
        rw [if_neg (fun h => hG h.1), if_neg (fun h => hne h.2.2), if_neg (fun h => hG h.2), if_neg]
        · norm_num
        · rintro ⟨h1, _, h3⟩
          exact hne (by rw [h3, H.pp j (Finset.mem_range.1 hj) h1])
      rw [this, zero_mul, zero_mul]
    · intro h
      exact absurd (Finset.mem_range.2 hpV) h
    have hs : symA (matG G κ π A) u (π u) = 1 := by
      unfold symA matG
      rw [if_neg (fun h => hG h.1), if_pos ⟨hG, hpG, rfl⟩, if_neg (fun h => hG h.2), if_pos ⟨hpG, hG, hpp.symm⟩]
      norm_num
    rw [hs, one_mul]
    by_cases hz : k (π u) = 0
    · rw [hz, if_neg, mul_zero]
      · simp [Fock.sq]
      · intro h
        have := h u hu hG
        rw [up_apply, up_apply, if_pos rfl, if_neg hpne, hz] at this
        omega
    · have e1 : (∀ v < V, ¬ G v → up k u v = up k u (π v)) ↔ k u + 1 = k (π u) ∧ ∀ v < V, ¬ G v → v ≠ u → v ≠ π u → k v = k (π v) := by
        constructor
        · intro h
          refine ⟨?_, fun v hv hg h1 h2 => ?_⟩
          · have := h u hu hG
            rwa [up_apply, up_apply, if_pos rfl, if_neg hpne] at this
          · have := h v hv hg
            rwa [up_apply, up_apply, if_neg h1, if_neg] at this
            intro e
            exact h2 (by rw [← e, H.pp v hv hg])
        · rintro ⟨h1, h2⟩ v hv hg
          rw [up_apply, up_apply]
          by_cases a1 : v = u
          · rw [if_pos a1, if_neg (by rw [a1]; exact hpne), a1, h1]
          · rw [if_neg a1]
            by_cases a2 : v = π u
            · rw [a2, hpp, if_pos rfl, h1]
            · rw [if_neg]
              · exact h2 v hv hg a1 a2
              · intro e
                exact a2 (by rw [← e, H.pp v hv hg])
      have e2 : (∀ v < V, ¬ G v → dn k (π u) v = dn k (π u) (π v)) ↔ k u + 1 = k (π u) ∧ ∀ v < V, ¬ G v → v ≠ u → v ≠ π u → k v = k (π v) := by
        constructor
        · intro h
          refine ⟨?_, fun v hv hg h1 h2 => ?_⟩
          · have := h u hu hG
            rw [dn_apply, dn_apply, if_neg (Ne.symm hpne), if_pos rfl] at this
            omega
          · have := h v hv hg
            rwa [dn_apply, dn_apply, if_neg h2, if_neg] at this
            intro e
            exact h1 (by rw [← H.pp v hv hg, e, hpp])
        · rintro ⟨h1, h2⟩ v hv hg
          rw [dn_apply, dn_apply]
          by_cases a1 : v = u
          · rw [if_neg (by rw [a1]; exact Ne.symm hpne), a1, if_pos rfl]
            omega
          · by_cases a2 : v = π u
            · rw [if_pos a2, a2, hpp, if_neg (Ne.symm hpne)]
              omega
            · rw [if_neg a2, if_neg]
              · exact h2 v hv hg a1 a2
              · intro e
                exact a1 (by rw [← H.pp v hv hg, e, hpp])
      have e3 : pull m ι (up k u) = pull m ι (dn k (π u)) := by
        ext i
        rw [pull_apply, pull_apply]
        by_cases hi : i < m
        · rw [if_pos hi, if_pos hi, up_apply, dn_apply, if_neg (fun e => hG (by rw [← e]; exact H.ig i hi)),
            if_neg (fun e => hpG (by rw [← e]; exact H.ig i hi))]
        · rw [if_neg hi, if_neg hi]
      simp only [e1, e2, e3]
      by_cases hc : k u + 1 = k (π u) ∧ ∀ v < V, ¬ G v → v ≠ u → v ≠ π u → k v = k (π v)
      · simp only [if_pos hc, hc.1]
      · simp only [if_neg hc, mul_zero]

end Verif.Mixed
