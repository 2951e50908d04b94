import Verif.TriplesOne

/-!
# Composition of squeezers (C54) and normalisation of the built-in kets (C57)
-/

namespace Verif.Triples
open Verif.Fock Verif.Batch Verif.Gauss Verif.PolyExp

variable {b1 c1 b2 c2 bo co B B' : List ℕ} {N N' : ℕ} {A A' : List ℕ → ℕ → ℕ → ℂ} {b b' : List ℕ → ℕ → ℂ} {c c' : List ℕ → ℂ}

theorem cpow_half {x : ℝ} (hx : 0 ≤ x) : (x : ℂ) ^ (1 / 2 : ℂ) = (Real.sqrt x : ℝ) := by
  rw [Real.sqrt_eq_rpow, Complex.ofReal_cpow hx]
  norm_num

theorem ph_neg_mul (φ : ℝ) : ph (-φ) * ph φ = 1 := by
  unfold ph
  rw [← Complex.exp_add]
  push_cast
  rw [mul_neg, neg_add_cancel, Complex.exp_zero]

theorem ph_conj (φ : ℝ) : (starRingEnd ℂ) (ph φ) = ph (-φ) := by
  unfold ph
  rw [← Complex.exp_conj]
  simp

theorem cosh_add_div (r s : ℝ) : 1 + Real.sinh r / Real.cosh r * (Real.sinh s / Real.cosh s) = Real.cosh (r + s) / (Real.cosh r * Real.cosh s) := by
  have h1 := (Real.cosh_pos r).ne'
  have h2 := (Real.cosh_pos s).ne'
  rw [Real.cosh_add]
  field_simp

/-- **C54**: `Sgate(r, φ) >> Sgate(r', φ)` is `Sgate(r + r', φ)`, as long as the determinant of the integral, `cosh(r + r') / (cosh r cosh r')`, is
above the threshold of the code. -/
theorem C54_squeezing {r r' φ φ' : List ℕ → ℝ} {x m l : ℕ} (hxm : x ≠ m) (hxl : x ≠ l) (hlm : l ≠ m)
    (H : Compat (squeezing B r φ) (squeezing B' r' φ') b1 [m, l] b2 [x, m] bo [x, l])
    (hφ : ∀ o, φ' (restrict (· ∈ b2) bo o) = φ (restrict (· ∈ b1) bo o))
    (hdet : ∀ o, InB (bo.map fun d => if d ∈ b1 then Batch.sizeOf b1 B d else Batch.sizeOf b2 B' d) o →
      1e-12 < Real.cosh (r (restrict (· ∈ b1) bo o) + r' (restrict (· ∈ b2) bo o)) /
        (Real.cosh (r (restrict (· ∈ b1) bo o)) * Real.cosh (r' (restrict (· ∈ b2) bo o)))) :
    ContractsTo (squeezing B r φ) (squeezing B' r' φ') b1 [m, l] b2 [x, m] bo [x, l] fun o v =>
      ev (squeezing [] (fun _ => r (restrict (· ∈ b1) bo o) + r' (restrict (· ∈ b2) bo o)) fun _ => φ (restrict (· ∈ b1) bo o)) [] [x, l] v := by
  have i1 : List.idxOf m [m, l] = 0 := by simp
  have i2 : List.idxOf m [x, m] = 1 := by rw [List.idxOf_cons_ne _ hxm]; simp
  have hD : ∀ o, (1 : ℂ) - -ph (φ (restrict (· ∈ b1) bo o)) * (Real.sinh (r (restrict (· ∈ b1) bo o)) / Real.cosh (r (restrict (· ∈ b1) bo o))) *
      (ph (-φ' (restrict (· ∈ b2) bo o)) * (Real.sinh (r' (restrict (· ∈ b2) bo o)) / Real.cosh (r' (restrict (· ∈ b2) bo o)))) =
      (Real.cosh (r (restrict (· ∈ b1) bo o) + r' (restrict (· ∈ b2) bo o)) /
        (Real.cosh (r (restrict (· ∈ b1) bo o)) * Real.cosh (r' (restrict (· ∈ b2) bo o))) : ℝ) := by
    intro o
    rw [← cosh_add_div, hφ]
    push_cast
    linear_combination (Complex.sinh (r (restrict (· ∈ b1) bo o)) / Complex.cosh (r (restrict (· ∈ b1) bo o)) *
      (Complex.sinh (r' (restrict (· ∈ b2) bo o)) / Complex.cosh (r' (restrict (· ∈ b2) bo o)))) * ph_neg_mul (φ (restrict (· ∈ b1) bo o))
  have hpos : ∀ o, 0 < Real.cosh (r (restrict (· ∈ b1) bo o) + r' (restrict (· ∈ b2) bo o)) /
        (Real.cosh (r (restrict (· ∈ b1) bo o)) * Real.cosh (r' (restrict (· ∈ b2) bo o))) := fun o =>
    div_pos (Real.cosh_pos _) (mul_pos (Real.cosh_pos _) (Real.cosh_pos _))
  refine (one_label (m := m) ?_ ?_ H ?_ ?_).congr ?_
  · intro β i hi j hj
    interval_cases i <;> interval_cases j <;> rfl
  · intro β i hi j hj
    interval_cases i <;> interval_cases j <;> rfl
  · simp [hxl.symm, hlm]
  · intro o ho
    rw [i1, i2]
    simp only [mat_zero_zero, mat_succ, mat_col]
    rw [hD, Complex.norm_real, Real.norm_of_nonneg (hpos o).le]
    exact hdet o ho
  · intro o v _
    dsimp only
    rw [i1, i2]
    simp only [mat_zero_zero, mat_succ, mat_col]
    rw [hD o]
    have hφo := hφ o
    have hp := hpos o
    generalize restrict (· ∈ b1) bo o = β1 at *
    generalize restrict (· ∈ b2) bo o = β2 at *
    unfold lin squeezing
    rw [i1, i2, ev_mk2, ev_mk2, ev_mk2]
    simp only [Finset.sum_range_succ, Finset.sum_range_zero, List.getD_cons_zero, List.getD_cons_succ, Function.update_self,
      Function.update_of_ne hxm, Function.update_of_ne hlm, mat_zero_zero, mat_succ, mat_col, hφo]
    have hph := ph_neg_mul (φ β1)
    have k1 : (Real.cosh (r β1) : ℂ) ≠ 0 := by exact_mod_cast (Real.cosh_pos _).ne'
    have k2 : (Real.cosh (r' β2) : ℂ) ≠ 0 := by exact_mod_cast (Real.cosh_pos _).ne'
    have k3 : (Real.cosh (r β1 + r' β2) : ℂ) ≠ 0 := by exact_mod_cast (Real.cosh_pos _).ne'
    have hc : (1 / ((Real.cosh (r β1 + r' β2) / (Real.cosh (r β1) * Real.cosh (r' β2)) : ℝ) : ℂ)) ^ (1 / 2 : ℂ) =
        ((Real.sqrt (Real.cosh (r β1)) : ℝ) : ℂ) * (Real.sqrt (Real.cosh (r' β2)) : ℝ) / (Real.sqrt (Real.cosh (r β1 + r' β2)) : ℝ) := by
      rw [show (1 / ((Real.cosh (r β1 + r' β2) / (Real.cosh (r β1) * Real.cosh (r' β2)) : ℝ) : ℂ)) =
        ((Real.cosh (r β1) * Real.cosh (r' β2) / Real.cosh (r β1 + r' β2) : ℝ) : ℂ) by push_cast; rw [one_div_div],
        cpow_half (div_nonneg (mul_pos (Real.cosh_pos _) (Real.cosh_pos _)).le (Real.cosh_pos _).le), Real.sqrt_div (mul_pos (Real.cosh_pos _) (Real.cosh_pos _)).le,
        Real.sqrt_mul (Real.cosh_pos _).le]
      push_cast; rfl
    rw [hc]
    have s1 : ((Real.sqrt (Real.cosh (r β1)) : ℝ) : ℂ) ≠ 0 := by exact_mod_cast (Real.sqrt_pos.2 (Real.cosh_pos _)).ne'
    have s2 : ((Real.sqrt (Real.cosh (r' β2)) : ℝ) : ℂ) ≠ 0 := by exact_mod_cast (Real.sqrt_pos.2 (Real.cosh_pos _)).ne'
    have e : ∀ a b d e f g : ℂ, Complex.exp a * b * (Complex.exp d * e) * (f * Complex.exp g) = Complex.exp (a + d + g) * (b * e * f) := by
      intro a b d e f g; rw [Complex.exp_add, Complex.exp_add]; ring
    rw [e]
    refine congr (congrArg HMul.hMul (congrArg Complex.exp ?_)) ?_
    · have hs : (Real.sinh (r β1 + r' β2) : ℂ) = Real.sinh (r β1) * Real.cosh (r' β2) + Real.cosh (r β1) * Real.sinh (r' β2) := by
        rw [Real.sinh_add]; push_cast; ring
      have hch : (Real.cosh (r β1 + r' β2) : ℂ) = Real.cosh (r β1) * Real.cosh (r' β2) + Real.sinh (r β1) * Real.sinh (r' β2) := by
        rw [Real.cosh_add]; push_cast; ring
      have q1 : (Real.cosh (r β1) : ℂ) ^ 2 = 1 + (Real.sinh (r β1) : ℂ) ^ 2 := by exact_mod_cast congrArg Complex.ofReal (Real.cosh_sq' _)
      have q2 : (Real.cosh (r' β2) : ℂ) ^ 2 = 1 + (Real.sinh (r' β2) : ℂ) ^ 2 := by exact_mod_cast congrArg Complex.ofReal (Real.cosh_sq' _)
      rw [Complex.ofReal_div, Complex.ofReal_mul, hs]
      rw [hch] at k3 ⊢
      generalize (Real.cosh (r β1) : ℂ) = C at *
      generalize (Real.cosh (r' β2) : ℂ) = C' at *
      generalize (Real.sinh (r β1) : ℂ) = S at *
      generalize (Real.sinh (r' β2) : ℂ) = S' at *
      generalize ph (φ β1) = P at *
      generalize ph (-φ β1) = Q at *
      generalize hK : C * C' + S * S' = K at *
      have h1 : S' / C' + S / C * (1 / C') ^ 2 / (K / (C * C')) = (S * C' + C * S') / K := by
        field_simp
        linear_combination (-S) * q2 + (-S') * hK
      have h2 : S / C + S' / C' * (1 / C) ^ 2 / (K / (C * C')) = (S * C' + C * S') / K := by
        field_simp
        linear_combination (-S') * q1 + (-S) * hK
      have h3 : 1 / C * (1 / C') / (K / (C * C')) = 1 / K := by
        field_simp
      generalize K / (C * C') = D at *
      linear_combination (-(1 / 2) * P * v x ^ 2) * h1 + (1 / 2 * Q * v l ^ 2) * h2 + (v x * v l) * h3
    · field_simp

/-! ### Two-mode squeezers -/

theorem re_pos_of_norm_lt {z : ℂ} (h : ‖z‖ < 1) : 0 < (1 - z).re := by
  have := Complex.abs_re_le_norm z
  rw [abs_le] at this
  simp only [Complex.sub_re, Complex.one_re]
  linarith [this.2]

theorem norm_ph (φ : ℝ) : ‖ph φ‖ = 1 := by
  unfold ph
  rw [mul_comm]; exact Complex.norm_exp_ofReal_mul_I _

theorem tanh_lt_one (r : ℝ) : |Real.sinh r / Real.cosh r| < 1 := by
  rw [← Real.tanh_eq_sinh_div_cosh]
  exact Real.abs_tanh_lt_one r

/-- **C54**: `S2gate(r, φ) >> S2gate(r', φ)` is `S2gate(r + r', φ)`, as long as the determinant of the integral,
`(cosh(r + r') / (cosh r cosh r'))²`, is above the threshold of the code. -/
theorem C54_twomode_squeezing {r r' φ φ' : List ℕ → ℝ} {x0 x1 m0 m1 l0 l1 : ℕ} (hd : [x0, x1, m0, m1, l0, l1].Nodup)
    (H : Compat (twoModeSqueezing B r φ) (twoModeSqueezing B' r' φ') b1 [m0, m1, l0, l1] b2 [x0, x1, m0, m1] bo [x0, x1, l0, l1])
    (hφ : ∀ o, φ' (restrict (· ∈ b2) bo o) = φ (restrict (· ∈ b1) bo o))
    (hdet : ∀ o, InB (bo.map fun d => if d ∈ b1 then Batch.sizeOf b1 B d else Batch.sizeOf b2 B' d) o →
      1e-12 < (Real.cosh (r (restrict (· ∈ b1) bo o) + r' (restrict (· ∈ b2) bo o)) /
        (Real.cosh (r (restrict (· ∈ b1) bo o)) * Real.cosh (r' (restrict (· ∈ b2) bo o)))) ^ 2) :
    ContractsTo (twoModeSqueezing B r φ) (twoModeSqueezing B' r' φ') b1 [m0, m1, l0, l1] b2 [x0, x1, m0, m1] bo [x0, x1, l0, l1] fun o v =>
      ev (twoModeSqueezing [] (fun _ => r (restrict (· ∈ b1) bo o) + r' (restrict (· ∈ b2) bo o)) fun _ => φ (restrict (· ∈ b1) bo o)) []
        [x0, x1, l0, l1] v := by
  simp only [List.nodup_cons, List.mem_cons, List.not_mem_nil, or_false, not_or] at hd
  obtain ⟨⟨d1, d2, d3, d4, d5⟩, ⟨e1, e2, e3, e4⟩, ⟨f1, f2, f3⟩, ⟨g1, g2⟩, h1, _⟩ := hd
  have i0 : List.idxOf m0 [m0, m1, l0, l1] = 0 := by simp
  have i1 : List.idxOf m1 [m0, m1, l0, l1] = 1 := by rw [List.idxOf_cons_ne _ f1]; simp
  have j0 : List.idxOf m0 [x0, x1, m0, m1] = 2 := by rw [List.idxOf_cons_ne _ d2, List.idxOf_cons_ne _ e1]; simp
  have j1 : List.idxOf m1 [x0, x1, m0, m1] = 3 := by rw [List.idxOf_cons_ne _ d3, List.idxOf_cons_ne _ e2, List.idxOf_cons_ne _ f1]; simp
  have hD : ∀ o, (1 : ℂ) - ph (φ (restrict (· ∈ b1) bo o)) * Real.sinh (r (restrict (· ∈ b1) bo o)) / Real.cosh (r (restrict (· ∈ b1) bo o)) *
      -(starRingEnd ℂ) (ph (φ' (restrict (· ∈ b2) bo o)) * Real.sinh (r' (restrict (· ∈ b2) bo o)) / Real.cosh (r' (restrict (· ∈ b2) bo o))) =
      (Real.cosh (r (restrict (· ∈ b1) bo o) + r' (restrict (· ∈ b2) bo o)) /
        (Real.cosh (r (restrict (· ∈ b1) bo o)) * Real.cosh (r' (restrict (· ∈ b2) bo o))) : ℝ) := by
    intro o
    rw [← cosh_add_div, hφ, map_div₀, map_mul, ph_conj, Complex.conj_ofReal, Complex.conj_ofReal]
    push_cast
    linear_combination (Complex.sinh (r (restrict (· ∈ b1) bo o)) / Complex.cosh (r (restrict (· ∈ b1) bo o)) *
      (Complex.sinh (r' (restrict (· ∈ b2) bo o)) / Complex.cosh (r' (restrict (· ∈ b2) bo o)))) * ph_neg_mul (φ (restrict (· ∈ b1) bo o))
  have hpos : ∀ o, 0 < Real.cosh (r (restrict (· ∈ b1) bo o) + r' (restrict (· ∈ b2) bo o)) /
        (Real.cosh (r (restrict (· ∈ b1) bo o)) * Real.cosh (r' (restrict (· ∈ b2) bo o))) := fun o =>
    div_pos (Real.cosh_pos _) (mul_pos (Real.cosh_pos _) (Real.cosh_pos _))
  refine (two_label (m0 := m0) (m1 := m1) (a := fun β => ph (φ β) * Real.sinh (r β) / Real.cosh (r β))
    (a' := fun β => -(starRingEnd ℂ) (ph (φ' β) * Real.sinh (r' β) / Real.cosh (r' β))) ?_ ?_ H ?_ ?_ ?_ ?_).congr ?_
  · intro β i hi j hj
    interval_cases i <;> interval_cases j <;> rfl
  · intro β i hi j hj
    interval_cases i <;> interval_cases j <;> rfl
  · simp [Ne.symm d4, Ne.symm d5, Ne.symm e3, Ne.symm e4, Ne.symm f2, Ne.symm f3, Ne.symm g1, Ne.symm g2]
  · intro β
    rw [i0, i1]
    exact ⟨rfl, rfl, rfl, rfl⟩
  · intro β
    rw [j0, j1]
    exact ⟨rfl, rfl, rfl, rfl⟩
  · intro o ho
    rw [hD o, Complex.norm_real, Real.norm_of_nonneg (hpos o).le, Complex.ofReal_re]
    exact ⟨hpos o, hdet o ho⟩
  · intro o v _
    dsimp only
    rw [hD o]
    have hφo := hφ o
    have hp := hpos o
    generalize restrict (· ∈ b1) bo o = β1 at *
    generalize restrict (· ∈ b2) bo o = β2 at *
    unfold lin twoModeSqueezing
    rw [i0, i1, j0, j1, ev_mk4, ev_mk4, ev_mk4]
    simp only [Finset.sum_range_succ, Finset.sum_range_zero, List.getD_cons_zero, List.getD_cons_succ, Function.update_self,
      Function.update_of_ne f1, Function.update_of_ne d2, Function.update_of_ne d3, Function.update_of_ne e1, Function.update_of_ne e2,
      Function.update_of_ne (Ne.symm f2), Function.update_of_ne (Ne.symm f3), Function.update_of_ne (Ne.symm g1), Function.update_of_ne (Ne.symm g2),
      mat_zero_zero, mat_succ, mat_col, hφo]
    have hph := ph_neg_mul (φ β1)
    have k1 : (Real.cosh (r β1) : ℂ) ≠ 0 := by exact_mod_cast (Real.cosh_pos _).ne'
    have k2 : (Real.cosh (r' β2) : ℂ) ≠ 0 := by exact_mod_cast (Real.cosh_pos _).ne'
    have k3 : (Real.cosh (r β1 + r' β2) : ℂ) ≠ 0 := by exact_mod_cast (Real.cosh_pos _).ne'
    have e : ∀ a b d e f g : ℂ, Complex.exp a * b * (Complex.exp d * e) * (f * Complex.exp g) = Complex.exp (a + d + g) * (b * e * f) := by
      intro a b d e f g; rw [Complex.exp_add, Complex.exp_add]; ring
    rw [e]
    simp only [map_div₀, map_mul, ph_conj, Complex.conj_ofReal]
    refine congr (congrArg HMul.hMul (congrArg Complex.exp ?_)) ?_
    · have hs : (Real.sinh (r β1 + r' β2) : ℂ) = Real.sinh (r β1) * Real.cosh (r' β2) + Real.cosh (r β1) * Real.sinh (r' β2) := by
        rw [Real.sinh_add]; push_cast; ring
      have hch : (Real.cosh (r β1 + r' β2) : ℂ) = Real.cosh (r β1) * Real.cosh (r' β2) + Real.sinh (r β1) * Real.sinh (r' β2) := by
        rw [Real.cosh_add]; push_cast; ring
      have q1 : (Real.cosh (r β1) : ℂ) ^ 2 = 1 + (Real.sinh (r β1) : ℂ) ^ 2 := by exact_mod_cast congrArg Complex.ofReal (Real.cosh_sq' _)
      have q2 : (Real.cosh (r' β2) : ℂ) ^ 2 = 1 + (Real.sinh (r' β2) : ℂ) ^ 2 := by exact_mod_cast congrArg Complex.ofReal (Real.cosh_sq' _)
      rw [Complex.ofReal_div, Complex.ofReal_mul, hs]
      rw [hch] at k3 ⊢
      generalize (Real.cosh (r β1) : ℂ) = C at *
      generalize (Real.cosh (r' β2) : ℂ) = C' at *
      generalize (Real.sinh (r β1) : ℂ) = S at *
      generalize (Real.sinh (r' β2) : ℂ) = S' at *
      generalize ph (φ β1) = P at *
      generalize ph (-φ β1) = Q at *
      generalize hK : C * C' + S * S' = K at *
      have h1 : S' / C' + S / C * (1 / C') ^ 2 / (K / (C * C')) = (S * C' + C * S') / K := by
        field_simp
        linear_combination (-S) * q2 + (-S') * hK
      have h2 : S / C + S' / C' * (1 / C) ^ 2 / (K / (C * C')) = (S * C' + C * S') / K := by
        field_simp
        linear_combination (-S') * q1 + (-S) * hK
      have h3 : 1 / C * (1 / C') / (K / (C * C')) = 1 / K := by
        field_simp
      generalize K / (C * C') = D at *
      linear_combination (P * v x0 * v x1) * h1 + (-Q * v l0 * v l1) * h2 + (v x0 * v l0 + v x1 * v l1) * h3
    · rw [Complex.ofReal_div, Complex.ofReal_mul]
      field_simp

/-! ### Normalisation of the built-in kets (C57)

`Ket.probability` is `L2_norm`, `ket.contract(ket.dual, mode="zip")` (lab/states/base.py:141-158, ket.py): all labels and all batch labels are
shared. -/

theorem conj_mk : (mk B N A b c).conj = mk B N (fun β i j => (starRingEnd ℂ) (A β i j)) (fun β i => (starRingEnd ℂ) (b β i))
    fun β => (starRingEnd ℂ) (c β) := rfl

theorem compat_norm {I bl : List ℕ} (hI : I.Nodup) (hn : I.length = N) (hb : bl.Nodup) (hl : bl.length = B.length) :
    Compat (mk B N A b c) (mk B N A' b' c') bl I bl I bl [] := by
  have e1 : I.filter (· ∉ I) = [] := by
    rw [List.filter_eq_nil_iff]; intro a ha; simp [ha]
  refine ⟨hb, hb, by rw [mk_outBatch, hl], by rw [mk_outBatch, hl], ?_, ?_, fun d h => Or.inl h, fun d _ _ => by rw [mk_outBatch, mk_outBatch],
    hI, hI, by rw [mk_numCV, hn], by rw [mk_numCV, hn], rfl, by rw [e1]; rfl, by intro h; cases h⟩
  · exact List.filter_eq_self.2 fun a ha => by simpa using ha
  · exact List.filter_eq_self.2 fun a ha => by simpa using ha

theorem outDims_zip {bl : List ℕ} (hb : bl.Nodup) (hl : bl.length = B.length) :
    (bl.map fun d => if d ∈ bl then Batch.sizeOf bl B d else Batch.sizeOf bl B d) = B := by
  simp only [ite_self]
  exact map_sizeOf hb hl.symm

/-- **C57**: every coherent state has unit norm. -/
theorem C57_coherent {α : List ℕ → ℂ} {l : ℕ} {bl : List ℕ} (hb : bl.Nodup) (hl : bl.length = B.length) :
    ContractsTo (coherent B α) (coherent B α).conj bl [l] bl [l] bl [] fun _ _ => 1 := by
  unfold coherent
  rw [conj_mk]
  refine (C53_coherent_in (B := B) (α := α) mk_wf (mk_symm fun _ _ _ _ _ => rfl) (compat_norm (by simp) rfl hb hl) (by simp)).congr ?_
  intro o v _
  dsimp only
  rw [ev_mk1, Function.update_self]
  simp only [vec_zero, map_zero, mul_zero, zero_mul, zero_add, ← Complex.exp_conj, Complex.conj_ofReal, ← Complex.exp_add]
  rw [Complex.conj_mul']
  push_cast
  refine Eq.trans (congrArg Complex.exp ?_) Complex.exp_zero
  ring

/-- **C57**: every displaced squeezed vacuum state has unit norm, as long as `1 / cosh² r` is above the threshold of the code. -/
theorem C57_displaced_squeezed {α : List ℕ → ℂ} {r φ : List ℕ → ℝ} {l : ℕ} {bl : List ℕ} (hb : bl.Nodup) (hl : bl.length = B.length)
    (hdet : ∀ o, InB B o → 1e-12 < 1 / Real.cosh (r o) ^ 2) :
    ContractsTo (displacedSqueezed B α r φ) (displacedSqueezed B α r φ).conj bl [l] bl [l] bl [] fun _ _ => 1 := by
  unfold displacedSqueezed
  rw [conj_mk]
  have i0 : List.idxOf l [l] = 0 := by simp
  have hT : ∀ o, -(Real.sinh (r o) : ℂ) / Real.cosh (r o) * ph (φ o) * (starRingEnd ℂ) (-(Real.sinh (r o) : ℂ) / Real.cosh (r o) * ph (φ o)) =
      ((Real.sinh (r o) / Real.cosh (r o)) ^ 2 : ℝ) := by
    intro o
    rw [map_mul, map_div₀, map_neg, Complex.conj_ofReal, Complex.conj_ofReal, ph_conj]
    push_cast
    linear_combination (Complex.sinh (r o) / Complex.cosh (r o)) ^ 2 * ph_neg_mul (φ o)
  have hD : ∀ o, 1 - (Real.sinh (r o) / Real.cosh (r o)) ^ 2 = 1 / Real.cosh (r o) ^ 2 := by
    intro o
    have := (Real.cosh_pos (r o)).ne'
    field_simp
    linarith [Real.cosh_sq' (r o)]
  have hD' : ∀ o, (1 : ℂ) - -(Real.sinh (r o) : ℂ) / Real.cosh (r o) * ph (φ o) * (starRingEnd ℂ) (-(Real.sinh (r o) : ℂ) / Real.cosh (r o) * ph (φ o)) =
      (1 / Real.cosh (r o) ^ 2 : ℝ) := by
    intro o
    rw [hT, ← hD]; push_cast; ring
  refine (one_label (m := l) ?_ ?_ (compat_norm (N := 1) (by simp) rfl hb hl) (by simp) ?_).congr ?_
  · intro β i hi j hj
    interval_cases i; interval_cases j; rfl
  · intro β i hi j hj
    interval_cases i; interval_cases j; rfl
  · intro o ho
    rw [outDims_zip hb hl] at ho
    rw [i0, restrict_self hl ho]
    simp only [mat_zero_zero]
    rw [hD', Complex.norm_real, Real.norm_of_nonneg (by positivity)]
    exact hdet o ho
  · intro o v ho
    rw [mk_outBatch, mk_outBatch, outDims_zip hb hl] at ho
    dsimp only
    rw [i0, restrict_self hl ho]
    unfold lin
    rw [i0, ev_mk1, ev_mk1]
    simp only [mat_zero_zero, Finset.sum_range_succ, Finset.sum_range_zero, List.getD_cons_zero, Function.update_self, vec_zero]
    rw [hD']
    have hc : (1 / ((1 / Real.cosh (r o) ^ 2 : ℝ) : ℂ)) ^ (1 / 2 : ℂ) = Real.cosh (r o) := by
      rw [show (1 / ((1 / Real.cosh (r o) ^ 2 : ℝ) : ℂ)) = ((Real.cosh (r o) ^ 2 : ℝ) : ℂ) by push_cast; rw [one_div_one_div],
        cpow_half (by positivity), Real.sqrt_sq (Real.cosh_pos _).le]
    rw [hc, ← hD']
    have n0 : (1 : ℂ) - -(Real.sinh (r o) : ℂ) / Real.cosh (r o) * ph (φ o) * (starRingEnd ℂ) (-(Real.sinh (r o) : ℂ) / Real.cosh (r o) * ph (φ o)) ≠ 0 := by
      rw [hD']
      have : (1 / Real.cosh (r o) ^ 2 : ℝ) ≠ 0 := by have := Real.cosh_pos (r o); positivity
      exact_mod_cast this
    have hs : ((Real.sqrt (Real.cosh (r o)) : ℝ) : ℂ) ^ 2 = Real.cosh (r o) := by
      exact_mod_cast congrArg Complex.ofReal (Real.sq_sqrt (Real.cosh_pos (r o)).le)
    have s0 : ((Real.sqrt (Real.cosh (r o)) : ℝ) : ℂ) ≠ 0 := by exact_mod_cast (Real.sqrt_pos.2 (Real.cosh_pos _)).ne'
    have e : ∀ a b s C g : ℂ, s ≠ 0 → s ^ 2 = C → Complex.exp 0 * (Complex.exp a / s) * (Complex.exp 0 * (Complex.exp b / s)) * (C * Complex.exp g) = Complex.exp (a + b + g) := by
      intro a b s C g h hC; rw [← hC, Complex.exp_add, Complex.exp_add, Complex.exp_zero]; field_simp
    have z : ∀ a b : ℂ, 1 / 2 * a * 0 ^ 2 + b * 0 = 0 := by intros; ring
    rw [z, z, map_div₀, Complex.conj_ofReal, ← Complex.exp_conj, e _ _ _ _ _ s0 hs]
    refine Eq.trans (congrArg Complex.exp ?_) Complex.exp_zero
    simp only [map_add, map_mul, map_sub, map_div₀, map_neg, map_pow, Complex.conj_ofReal, Complex.conj_I, ph_conj, map_one, Complex.conj_ofNat,
      mul_div_assoc, neg_div] at n0 ⊢
    generalize (Real.sinh (r o) / Real.cosh (r o) : ℂ) = t at *
    generalize ph (φ o) = P at *
    generalize ph (-φ o) = Q at *
    have key : ∀ a a' T T' : ℂ, 1 - T * T' ≠ 0 → (-(1 / 2) * (a * a') - 1 / 2 * a' ^ 2 * T) + (-(1 / 2) * (a * a') - 1 / 2 * a ^ 2 * T') +
        (-T' * (a + a' * T) ^ 2 + 2 * (a + a' * T) * (a' + a * T') - T * (a' + a * T') ^ 2) / (2 * (1 - T * T')) = 0 := by
      intro a a' T T' h
      field_simp
      ring
    have k := key ((α o).re + Complex.I * (α o).im) ((α o).re - Complex.I * (α o).im) (t * P) (t * Q) (by
      intro h; apply n0; rw [← h]; ring)
    linear_combination k + (-((α o).im : ℂ) ^ 2) * Complex.I_sq

end Verif.Triples
