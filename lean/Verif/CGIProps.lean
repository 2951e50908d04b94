import Verif.CGI

/-!
# C48: the Gaussian integral formula is the integral
-/

namespace Verif.PolyExp
open Verif.Fock Verif.Batch Verif.Gauss PolyExp MeasureTheory

/-- The weighted integral over the pairs of variables `(zi[i], zc[i])`: `π^{-m} ∫ F(w) exp(s |w|²) d²w`. -/
noncomputable def pairIntegral (m : ℕ) (s : ℝ) (F : (Fin m → ℂ) → ℂ) : ℂ :=
  ((Real.pi : ℂ) ^ m)⁻¹ * ∫ w : Fin m → ℂ, F w * Complex.exp ((s * ∑ i, ‖w i‖ ^ 2 : ℝ) : ℂ)

theorem cgi1_data {f g : PolyExp} {zi zc : List ℕ} {s : ℝ} (h : cgi1 f zi zc s = some (.finite g)) :
    zi.length = zc.length ∧ (∀ i ∈ zi ++ zc, i < f.numCV) ∧ ((zi = [] ∧ g = f) ∨ zi ≠ [] ∧ g = cgiTrue f zi zc s) := by
  unfold cgi1 at h
  split_ifs at h with h1 h2 h3 h4
  · rw [List.append_eq_nil_iff] at h3
    simp only [ne_eq, not_not] at h1
    cases h
    refine ⟨h1, ?_, Or.inl ⟨h3.1, rfl⟩⟩
    simp [h3.1, h3.2]
  · simp only [ne_eq, not_not] at h1
    cases h
    refine ⟨h1, ?_, Or.inr ⟨?_, rfl⟩⟩
    · intro i hi
      by_contra hc
      exact h2 (List.any_eq_true.2 ⟨i, hi, by simpa using hc⟩)
    · intro e
      apply h3
      rw [e] at h1 ⊢
      exact List.length_eq_zero_iff.1 h1.symm
  · cases h

theorem conj_fun {zi zc : List ℕ} {f : PolyExp} {β : List ℕ}
    (hh : ∀ i < zi.length, ∀ j < zi.length, f.A β (zi.getD i 0) (zi.getD j 0) = (starRingEnd ℂ) (f.A β (zc.getD i 0) (zc.getD j 0)) ∧
      f.A β (zi.getD i 0) (zc.getD j 0) = (starRingEnd ℂ) (f.A β (zc.getD i 0) (zi.getD j 0))) (s : ℝ) :
    ∀ p q, gM (f.A β) zi zc s p.swap q.swap = (starRingEnd ℂ) (gM (f.A β) zi zc s p q) := by
  have hX : ∀ p q : Fin zi.length ⊕ Fin zi.length, (Matrix.fromBlocks 0 1 1 0 : Matrix (Fin zi.length ⊕ Fin zi.length) (Fin zi.length ⊕ Fin zi.length) ℂ) p.swap q.swap =
      (starRingEnd ℂ) ((Matrix.fromBlocks 0 1 1 0 : Matrix (Fin zi.length ⊕ Fin zi.length) (Fin zi.length ⊕ Fin zi.length) ℂ) p q) := by
    intro p q
    rcases p with i | i <;> rcases q with j | j <;> simp [Matrix.one_apply] <;> split_ifs <;> simp
  intro p q
  simp only [gM, Matrix.add_apply, Matrix.smul_apply, Matrix.of_apply, map_add, smul_eq_mul, map_mul, hX, Complex.conj_ofReal]
  congr 1
  rcases p with i | i <;> rcases q with j | j <;> simp only [pos, Sum.swap_inl, Sum.swap_inr, Sum.elim_inl, Sum.elim_inr]
  · have := (hh i i.2 j j.2).1; rw [this, Complex.conj_conj]
  · have := (hh i i.2 j j.2).2; rw [this, Complex.conj_conj]
  · exact (hh i i.2 j j.2).2
  · exact (hh i i.2 j j.2).1

/-- The term at `β` of the empty integral. -/
theorem pairIntegral_zero (s : ℝ) (F : (Fin 0 → ℂ) → ℂ) : pairIntegral 0 s F = F default := by
  have e : (volume : Measure (Fin 0 → ℂ)) = Measure.dirac default := by
    rw [volume_pi, Measure.pi_of_empty _ default]
  unfold pairIntegral
  rw [e, integral_dirac]
  simp

theorem C48_aux {f g : PolyExp} (hf : f.WF) (hs : SymAll f) {β zi zc : List ℕ} {s : ℝ} (hn : (zi ++ zc).Nodup)
    (hg : cgi1 f zi zc s = some (.finite g)) (hc : Conv f β zi zc s) (ε : ℂ)
    (hε : zi ≠ [] → ((-1) ^ zi.length / (gM (f.A β) zi zc s).det) ^ (1 / 2 : ℂ) = ε * gaussConst (gM (f.A β) zi zc s)) (hε0 : zi = [] → ε = 1)
    (y : ℕ → ℂ) (W : (Fin zi.length → ℂ) → ℕ → ℂ) (hW : ∀ w, Holds zi zc w (W w))
    (hy : ∀ w, ∀ i < g.numCV, W w (((List.range f.numCV).filter (· ∉ zi ++ zc)).getD i 0) = y i) :
    Integrable (fun w => f.termAt β (W w) * Complex.exp ((s * ∑ i, ‖w i‖ ^ 2 : ℝ) : ℂ)) ∧
    g.termAt β y = ε * pairIntegral zi.length s fun w => f.termAt β (W w) := by
  obtain ⟨hl, hlt, h⟩ := cgi1_data hg
  have hcv : ∀ f : PolyExp, f.WF → (∀ i ∈ zi ++ zc, i < f.numCV) → (cgiTrue f zi zc s).numCV = (remCV f.numCV zi zc).length := by
    intro f hf hlt
    have hNd : f.numCV + f.derived.length = f.N := by have := hf.der; simp only [numCV]; omega
    have hni := notIdx_eq hNd hlt
    have : (cgiTrue f zi zc s).numCV = (notIdx f.N zi zc).length - f.derived.length := rfl
    rw [this, hni]
    simp
  rcases h with ⟨h0, rfl⟩ | ⟨h0, rfl⟩
  · subst h0
    obtain rfl : zc = [] := List.length_eq_zero_iff.1 hl.symm
    have hval : ∀ w, g.termAt β (W w) = g.termAt β y := by
      intro w
      unfold termAt
      have hd := hf.der
      have hN : g.numCV + g.derived.length = g.N := by unfold numCV; omega
      apply termVal_congr
      · intro i _ j _; rfl
      · intro i _; rfl
      · intro k _; rfl
      · intro i hi
        have := hy w i hi
        simpa [List.getD_eq_getElem?_getD, hi] using this
    have : IsFiniteMeasure (volume : Measure (Fin (List.nil (α := ℕ)).length → ℂ)) := by
      have e : (volume : Measure (Fin 0 → ℂ)) = Measure.dirac default := by
        rw [volume_pi, Measure.pi_of_empty _ default]
      show IsFiniteMeasure (volume : Measure (Fin 0 → ℂ))
      rw [e]
      infer_instance
    constructor
    · simp only [hval]
      have : ∀ w : Fin (List.nil (α := ℕ)).length → ℂ, ∑ i, ‖w i‖ ^ 2 = 0 := fun w => Finset.sum_eq_zero fun i _ => i.elim0
      simp only [this]
      exact integrable_const _
    · rw [hε0 rfl, one_mul]
      exact ((pairIntegral_zero s _).trans (hval _)).symm
  · exact term_integral hf hs hl hn hlt (hc.neg hl hn hlt hs) ε (hε h0) y W hW (fun w i hi => hy w i (by rw [hcv f hf hlt]; exact hi))

/-- **C48** (any number of pairs).  Whenever `complex_gaussian_integral_1` returns a finite triple, each of its terms is, up to one sign that does
not depend on the remaining variables, the integral of the corresponding term of the input over the pairs of conjugate variables, at every
point `y` of the remaining variables (kept in their order).  Derived variables are included. -/
theorem C48_up_to_sign (f g : PolyExp) (hf : f.WF) (hs : SymAll f) (zi zc : List ℕ) (s : ℝ) (hn : (zi ++ zc).Nodup)
    (hg : cgi1 f zi zc s = some (.finite g)) (β : List ℕ) (hc : Conv f β zi zc s) :
    ∃ ε : ℂ, (ε = 1 ∨ ε = -1) ∧ ∀ (y : ℕ → ℂ) (W : (Fin zi.length → ℂ) → ℕ → ℂ), (∀ w, Holds zi zc w (W w)) →
      (∀ w, ∀ i < g.numCV, W w (((List.range f.numCV).filter (· ∉ zi ++ zc)).getD i 0) = y i) →
      Integrable (fun w => f.termAt β (W w) * Complex.exp ((s * ∑ i, ‖w i‖ ^ 2 : ℝ) : ℂ)) ∧
      g.termAt β y = ε * pairIntegral zi.length s fun w => f.termAt β (W w) := by
  obtain ⟨hl, hlt, h⟩ := cgi1_data hg
  by_cases h0 : zi = []
  · exact ⟨1, Or.inl rfl, fun y W hW hy => C48_aux hf hs hn hg hc 1 (fun h => absurd h0 h) (fun _ => rfl) y W hW hy⟩
  · have hN : f.numCV ≤ f.N := by unfold numCV; omega
    obtain ⟨ε, hε, he⟩ := gaussConst_sign (gM_symm s hl hlt (fun i hi j hj => hs β i (by omega) j (by omega))) (hc.neg hl hn hlt hs)
    rw [gM_card] at he
    exact ⟨ε, hε, fun y W hW hy => C48_aux hf hs hn hg hc ε (fun _ => he) (fun h => absurd h h0) y W hW hy⟩

/-- The sum over the superposition commutes with the integral. -/
theorem call_integral {f g : PolyExp} {m : ℕ} {s : ℝ} (W : (Fin m → ℂ) → ℕ → ℂ) (y : ℕ → ℂ) (β : List ℕ)
    (hb : g.batch = f.batch) (hl : g.linSup = f.linSup)
    (ht : ∀ γ, γ = β ∨ (∃ l < f.batch.getLastD 0, f.linSup = true ∧ γ = β ++ [l]) →
      Integrable (fun w => f.termAt γ (W w) * Complex.exp ((s * ∑ i, ‖w i‖ ^ 2 : ℝ) : ℂ)) ∧ g.termAt γ y = pairIntegral m s fun w => f.termAt γ (W w)) :
    g.call β y = pairIntegral m s fun w => f.call β (W w) := by
  cases h : f.linSup with
  | true =>
    rw [call_ls (hl ▸ h), hb]
    unfold pairIntegral
    simp only [call_ls h, Finset.sum_mul]
    rw [integral_finsetSum _ fun l hl => (ht _ (Or.inr ⟨l, Finset.mem_range.1 hl, h, rfl⟩)).1, Finset.mul_sum]
    exact Finset.sum_congr rfl fun l hl => (ht _ (Or.inr ⟨l, Finset.mem_range.1 hl, h, rfl⟩)).2
  | false =>
    rw [call_nls (hl ▸ h), (ht β (Or.inl rfl)).2]
    simp only [call_nls h]

theorem cgi1_meta {f g : PolyExp} {zi zc : List ℕ} {s : ℝ} (h : cgi1 f zi zc s = some (.finite g)) :
    g.batch = f.batch ∧ g.linSup = f.linSup ∧ g.derived = f.derived := by
  obtain ⟨_, _, h | h⟩ := cgi1_data h
  · rw [h.2]; exact ⟨rfl, rfl, rfl⟩
  · rw [h.2]; exact ⟨rfl, rfl, rfl⟩

/-- **C48** (one pair): exact, also for linear superpositions. -/
theorem C48_one_pair (f g : PolyExp) (hf : f.WF) (hs : SymAll f) (i j : ℕ) (s : ℝ) (hij : i ≠ j)
    (hg : cgi1 f [i] [j] s = some (.finite g)) (β : List ℕ)
    (hc : ∀ γ, γ = β ∨ (∃ l < f.batch.getLastD 0, f.linSup = true ∧ γ = β ++ [l]) → Conv f γ [i] [j] s)
    (y : ℕ → ℂ) (W : ℂ → ℕ → ℂ) (hW : ∀ w, W w i = w ∧ W w j = (starRingEnd ℂ) w)
    (hy : ∀ w, ∀ x < g.numCV, W w (((List.range f.numCV).filter (· ∉ [i, j])).getD x 0) = y x) :
    g.call β y = pairIntegral 1 s fun w => f.call β (W (w 0)) := by
  obtain ⟨hl, hlt, h⟩ := cgi1_data hg
  obtain ⟨hb, hls, _⟩ := cgi1_meta hg
  have hN : f.numCV ≤ f.N := by unfold numCV; omega
  have hn : ([i] ++ [j]).Nodup := by simpa using hij
  refine call_integral (fun w => W (w 0)) y β hb hls fun γ hγ => ?_
  have := C48_aux hf hs hn hg (hc γ hγ) 1 (fun _ => by
    rw [one_mul]
    have := gaussConst_one (gM_symm s hl hlt (fun i hi j hj => hs γ i (by omega) j (by omega))) ((hc γ hγ).neg hl hn hlt hs) (by simp)
    rw [gM_card] at this
    exact this) (fun _ => rfl) y (fun w => W (w 0)) (fun w => ⟨fun k => by
      have : k = (⟨0, by simp⟩ : Fin [i].length) := Fin.ext (by have := k.2; simp at this; simpa using this)
      subst this
      exact (hW _).1, fun k => by
      have : k = (⟨0, by simp⟩ : Fin [i].length) := Fin.ext (by have := k.2; simp at this; simpa using this)
      subst this
      exact (hW _).2⟩) (fun w x hx => hy _ x hx)
  rw [one_mul] at this
  exact this

/-- **C48** (Hermitian pairing, as in the partial trace of a density matrix): exact for any number of pairs. -/
theorem C48_hermitian (f g : PolyExp) (hf : f.WF) (hs : SymAll f) (zi zc : List ℕ) (s : ℝ) (hn : (zi ++ zc).Nodup)
    (hg : cgi1 f zi zc s = some (.finite g)) (β : List ℕ)
    (hc : ∀ γ, γ = β ∨ (∃ l < f.batch.getLastD 0, f.linSup = true ∧ γ = β ++ [l]) → Conv f γ zi zc s ∧
      ∀ i < zi.length, ∀ j < zi.length, f.A γ (zi.getD i 0) (zi.getD j 0) = (starRingEnd ℂ) (f.A γ (zc.getD i 0) (zc.getD j 0)) ∧
        f.A γ (zi.getD i 0) (zc.getD j 0) = (starRingEnd ℂ) (f.A γ (zc.getD i 0) (zi.getD j 0)))
    (y : ℕ → ℂ) (W : (Fin zi.length → ℂ) → ℕ → ℂ) (hW : ∀ w, Holds zi zc w (W w))
    (hy : ∀ w, ∀ x < g.numCV, W w (((List.range f.numCV).filter (· ∉ zi ++ zc)).getD x 0) = y x) :
    g.call β y = pairIntegral zi.length s fun w => f.call β (W w) := by
  obtain ⟨hl, hlt, h⟩ := cgi1_data hg
  obtain ⟨hb, hls, _⟩ := cgi1_meta hg
  have hN : f.numCV ≤ f.N := by unfold numCV; omega
  refine call_integral W y β hb hls fun γ hγ => ?_
  obtain ⟨hc1, hc2⟩ := hc γ hγ
  have := C48_aux hf hs hn hg hc1 1 (fun _ => by
    rw [one_mul]
    have := gaussConst_real (gM_symm s hl hlt (fun i hi j hj => hs γ i (by omega) j (by omega))) (hc1.neg hl hn hlt hs) (conj_fun hc2 s)
    rw [gM_card] at this
    exact this) (fun _ => rfl) y W hW hy
  rw [one_mul] at this
  exact this

/-- **C48** (errors and infinities): `trace` raises exactly for index tuples of different lengths, repeated or out-of-range indices; otherwise
it returns infinite arrays exactly when, for some batch element, `|det M| ≤ 1e-12` (and there is something to integrate). -/
theorem C48_errors (f : PolyExp) (zi zc : List ℕ) (s : ℝ) :
    (f.trace zi zc s = none ↔ ¬ (zi.length = zc.length ∧ (zi ++ zc).Nodup ∧ ∀ i ∈ zi ++ zc, i < f.numCV)) ∧
    (f.trace zi zc s = some .infinite ↔ (zi.length = zc.length ∧ (zi ++ zc).Nodup ∧ ∀ i ∈ zi ++ zc, i < f.numCV) ∧ zi ≠ [] ∧
      ∃ β ∈ ndindex f.batch, ‖(gM (f.A β) zi zc s).det‖ ≤ 1e-12) := by
  have e1 : ∀ l : List ℕ, l.any (· ≥ f.numCV) = true ↔ ¬ ∀ i ∈ l, i < f.numCV := by
    intro l
    rw [List.any_eq_true]
    push Not
    simp
  by_cases h1 : zi.length = zc.length
  swap
  · simp [PolyExp.trace, h1]
  by_cases h2 : (zi ++ zc).Nodup
  swap
  · simp [PolyExp.trace, h1, h2]
  by_cases h3 : ∀ i ∈ zi ++ zc, i < f.numCV
  swap
  · have : (zi.any (· ≥ f.numCV) || zc.any (· ≥ f.numCV)) = true := by
      rw [← List.any_append]; exact (e1 _).2 h3
    unfold PolyExp.trace
    rw [if_neg (by simp [h1]), if_neg (by simpa using h2), if_pos this]
    exact ⟨iff_of_true rfl (fun h => h3 h.2.2), iff_of_false (by simp) (fun h => h3 h.1.2.2)⟩
  have a1 : ¬ (zi.any (· ≥ f.numCV) || zc.any (· ≥ f.numCV)) = true := by
    rw [← List.any_append, e1]; simpa using h3
  have a2 : ¬ (zi ++ zc).any (· ≥ f.numCV) = true := by rw [e1]; simpa using h3
  have ht : f.trace zi zc s = cgi1 f zi zc s := by
    unfold PolyExp.trace
    rw [if_neg (by simp [h1]), if_neg (by simpa using h2), if_neg a1]
  rw [ht]
  unfold cgi1
  rw [if_neg (by simp [h1]), if_neg a2]
  by_cases h4 : zi ++ zc = []
  · rw [if_pos h4]
    rw [List.append_eq_nil_iff] at h4
    simp [h4.1, h4.2]
  · rw [if_neg h4]
    have h5 : zi ≠ [] := by
      intro e
      apply h4
      rw [e] at h1 ⊢
      exact List.length_eq_zero_iff.1 h1.symm
    by_cases h6 : ∀ β ∈ ndindex f.batch, ‖(gM (f.A β) zi zc s).det‖ > 1e-12
    · rw [if_pos h6]
      constructor
      · simp [h1, h2]; simpa using h3
      · constructor
        · intro h; cases h
        · rintro ⟨_, _, β, hβ, hle⟩
          exact absurd (h6 β hβ) (not_lt.2 hle)
    · rw [if_neg h6]
      constructor
      · simp [h1, h2]; simpa using h3
      · push Not at h6
        simp only [true_iff]
        exact ⟨⟨h1, h2, h3⟩, h5, h6⟩

end Verif.PolyExp
