import Verif.QuadRel
import Verif.InverseProps

/-!
# When `to_quadrature` and `from_quadrature` are defined; kets (C97)
-/

namespace Verif.Manifold
open Matrix Verif.Gauss MeasureTheory

variable {W : Type*} [Fintype W] [DecidableEq W]

theorem quadF_lin (inv : Bool) (ħ φ : ℝ) (sd : W → Sd) (l : List Sd) (z y z' y' : W → ℂ) :
    quadF inv ħ φ sd l (z + z') (y + y') = quadF inv ħ φ sd l z y + quadF inv ħ φ sd l z' y' := by
  unfold quadF wireF
  refine Prod.ext ?_ ?_
  · funext w
    simp only [Prod.fst_add, Pi.add_apply]
    split_ifs <;> ring
  · funext w
    simp only [Prod.snd_add, Pi.add_apply]
    split_ifs <;> ring

/-- The linear part. -/
theorem Rel.lin {inv : Bool} {ħ φ : ℝ} {sd : W → Sd} {l : List Sd} {g : (W → ℂ) → (W → ℂ) → ℂ} {χ r : ℂ} {T T' : Matrix W W ℂ × (W → ℂ) × ℂ}
    (h : Rel (quadF inv ħ φ sd l) g χ r T T') : ∃ J : Matrix W W ℂ, J.det ≠ 0 ∧ ∀ z, quadF inv ħ φ sd l z (T.1.mulVec z) = (J.mulVec z, T'.1.mulVec (J.mulVec z)) := by
  obtain ⟨J, j, hJ, -, hf, -⟩ := h.ex
  refine ⟨J, hJ, fun z => ?_⟩
  have h1 := hf z
  have h0 := hf 0
  unfold grad at h1 h0
  rw [Matrix.mulVec_zero, Matrix.mulVec_zero, zero_add, zero_add] at h0
  have h2 := quadF_lin inv ħ φ sd l z (T.1.mulVec z) 0 T.2.1
  rw [add_zero, h1, h0] at h2
  have h3 : quadF inv ħ φ sd l z (T.1.mulVec z) = (J.mulVec z + j, T'.1.mulVec (J.mulVec z + j) + T'.2.1) - (j, T'.1.mulVec j + T'.2.1) := by rw [h2]; abel
  rw [h3]
  refine Prod.ext ?_ ?_
  · simp
  · simp [Matrix.mulVec_add]

theorem step_bad {inv : Bool} {ħ : ℝ} (hħ : 0 < ħ) {φ : ℝ} {sd : W → Sd} {d : Sd} {T : Matrix W W ℂ × (W → ℂ) × ℂ} (h : quadStep inv ħ φ sd d T = none) :
    ∃ z : W → ℂ, z ≠ 0 ∧ ∀ w, (sd w = d → z w = numT inv ħ φ d * T.1.mulVec z w) ∧ (sd w ≠ d → z w = 0) := by
  unfold quadStep at h
  rw [sideT_kern inv _ hħ, Option.bind_some] at h
  have h1 := (contractOn_none _ _ _ _ _ _).1 h
  obtain ⟨x, hx, hx2⟩ := Matrix.exists_mulVec_eq_zero_iff.2 h1
  refine ⟨fun w => if hw : sd w = d then x ⟨w, hw⟩ else 0, fun h0 => hx ?_, fun w => ⟨fun hw => ?_, fun hw => dif_neg hw⟩⟩
  · funext i
    exact (dif_pos i.2).symm.trans (congrFun h0 i.1)
  · have h2 := congrFun hx2 ⟨w, hw⟩
    rw [Matrix.sub_mulVec, Matrix.one_mulVec, Matrix.smul_mulVec, Pi.sub_apply, Pi.smul_apply, smul_eq_mul, Pi.zero_apply, sub_eq_zero] at h2
    refine (dif_pos hw).trans (h2.trans ?_)
    refine congrArg (HMul.hMul _) ?_
    show ∑ i, _ * x i = ∑ w', _ * _
    rw [← Fintype.sum_subtype_add_sum_subtype (fun w => sd w = d)]
    rw [Finset.sum_eq_zero (s := Finset.univ) (f := fun i : {w // ¬sd w = d} => _) (fun i _ => by rw [dif_neg i.2, mul_zero]), add_zero]
    refine Finset.sum_congr rfl fun i _ => ?_
    rw [dif_pos i.2]
    rfl

/-- If a contraction is not defined, `A` has a kernel vector of a certain kind. -/
theorem steps_bad (inv : Bool) {ħ : ℝ} (hħ : 0 < ħ) (φ : ℝ) (sd : W → Sd) (l : List Sd) (hl : l.Nodup) :
    ∀ {T : Matrix W W ℂ × (W → ℂ) × ℂ}, T.1ᵀ = T.1 → quadSteps inv ħ φ sd l T = none →
      ∃ S : List Sd, S ⊆ l ∧ ∃ z : W → ℂ, z ≠ 0 ∧ ∀ w, (sd w ∈ S → z w = numT inv ħ φ (sd w) * T.1.mulVec z w) ∧ (sd w ∉ S → z w = 0) := by
  induction l with
  | nil => intro T _ h; exact absurd h (by simp [quadSteps])
  | cons d l ih =>
    intro T hT h
    obtain ⟨hd, hl'⟩ := List.nodup_cons.1 hl
    unfold quadSteps at h
    rcases e : quadStep inv ħ φ sd d T with _ | T1
    · obtain ⟨z, hz, hw⟩ := step_bad hħ e
      refine ⟨[d], by simp, z, hz, fun w => ⟨fun hs => ?_, fun hs => (hw w).2 (by simpa using hs)⟩⟩
      have : sd w = d := by simpa using hs
      rw [this]
      exact (hw w).1 this
    · rw [e, Option.bind_some] at h
      have r1 := quadStep_rel inv hħ φ sd d hT e
      obtain ⟨S, hS, z1, hz1, hw⟩ := ih hl' r1.symm h
      obtain ⟨J, hJ, hf⟩ := r1.lin
      obtain ⟨z, hz⟩ : ∃ z, z = J⁻¹.mulVec z1 := ⟨_, rfl⟩
      have hJz : J.mulVec z = z1 := by
        rw [hz, Matrix.mulVec_mulVec, Matrix.mul_nonsing_inv _ (isUnit_iff_ne_zero.2 hJ), Matrix.one_mulVec]
      have hfz := hf z
      rw [hJz] at hfz
      have f1 := congrArg Prod.fst hfz
      have f2 := congrArg Prod.snd hfz
      unfold quadF wireF at f1 f2
      dsimp only at f1 f2
      have g1 : ∀ w, sd w = d → z1 w = (z w - numT inv ħ φ (sd w) * T.1.mulVec z w) / numS inv ħ φ (sd w) := fun w e => by
        rw [← f1]; exact if_pos (by simpa using e)
      have g2 : ∀ w, sd w ≠ d → z1 w = z w ∧ T1.1.mulVec z1 w = T.1.mulVec z w := fun w e => by
        exact ⟨(congrFun f1 w).symm.trans (if_neg (by simpa using e)), (congrFun f2 w).symm.trans (if_neg (by simpa using e))⟩
      refine ⟨d :: S, List.cons_subset_cons _ hS, z, ?_, fun w => ⟨fun hs => ?_, fun hs => ?_⟩⟩
      · intro h0
        rw [h0, Matrix.mulVec_zero] at hJz
        exact hz1 hJz.symm
      · by_cases e : sd w = d
        · have hn : sd w ∉ S := fun h => hd (by rw [← e]; exact hS h)
          have := (hw w).2 hn
          rw [g1 w e, div_eq_zero_iff] at this
          rcases this with h | h
          · exact sub_eq_zero.1 h
          · exact absurd h (numS_ne inv hħ φ _)
        · have hs' : sd w ∈ S := by
            rcases List.mem_cons.1 hs with h | h
            · exact absurd h e
            · exact h
          have := (hw w).1 hs'
          rw [(g2 w e).1, (g2 w e).2] at this
          exact this
      · have e : sd w ≠ d := fun e => hs (by simp [e])
        have hn : sd w ∉ S := fun h => hs (List.mem_cons_of_mem _ h)
        rw [← (g2 w e).1]
        exact (hw w).2 hn

theorem cquad_re (A : Matrix W W ℂ) (hA : Aᵀ = A) (z : W → ℂ) : star z ⬝ᵥ A.mulVec z =
    (fun w => ((z w).re : ℂ)) ⬝ᵥ A.mulVec (fun w => ((z w).re : ℂ)) + (fun w => ((z w).im : ℂ)) ⬝ᵥ A.mulVec (fun w => ((z w).im : ℂ)) := by
  have h1 : z = (fun w => ((z w).re : ℂ)) + Complex.I • (fun w => ((z w).im : ℂ)) := by
    funext w
    rw [Pi.add_apply, Pi.smul_apply, smul_eq_mul, mul_comm Complex.I]
    exact (Complex.re_add_im (z w)).symm
  have h2 : star z = (fun w => ((z w).re : ℂ)) - Complex.I • (fun w => ((z w).im : ℂ)) := by
    funext w
    rw [Pi.sub_apply, Pi.smul_apply, smul_eq_mul, Pi.star_apply, mul_comm Complex.I]
    apply Complex.ext <;> simp
  obtain ⟨x, hx⟩ : ∃ x : W → ℂ, x = (fun w => ((z w).re : ℂ)) := ⟨_, rfl⟩
  obtain ⟨y, hy⟩ : ∃ y : W → ℂ, y = (fun w => ((z w).im : ℂ)) := ⟨_, rfl⟩
  have h3 : A.mulVec z = A.mulVec (x + Complex.I • y) := by rw [hx, hy]; exact congrArg A.mulVec h1
  rw [h2, h3, ← hx, ← hy, Matrix.mulVec_add, Matrix.mulVec_smul, sub_dotProduct, dotProduct_add, dotProduct_add, dotProduct_smul, smul_dotProduct, smul_dotProduct,
    dotProduct_smul]
  have hc : y ⬝ᵥ A.mulVec x = x ⬝ᵥ A.mulVec y := by
    rw [Matrix.dotProduct_mulVec, ← Matrix.mulVec_transpose, hA, dotProduct_comm]
  rw [hc]
  simp only [smul_eq_mul]
  linear_combination (-(y ⬝ᵥ A.mulVec y)) * Complex.I_mul_I

/-- **C97 (defined)** `from_quadrature` is defined for every square-integrable Gaussian (the real part of `A` is negative definite), with the
sides contracted in any order. -/
theorem C97_defined {ħ : ℝ} (hħ : 0 < ħ) (φ : ℝ) (sd : W → Sd) {l : List Sd} (hl : l.Nodup) (T : Matrix W W ℂ × (W → ℂ) × ℂ) (hT : T.1ᵀ = T.1)
    (hA : ∀ x : W → ℝ, x ≠ 0 → (∑ i, ∑ j, T.1 i j * x i * x j).re < 0) : ∃ T', quadSteps true ħ φ sd l T = some T' := by
  rcases e : quadSteps true ħ φ sd l T with _ | T'
  · exfalso
    obtain ⟨S, -, z, hz, hw⟩ := steps_bad true hħ φ sd l hl hT e
    have hle : ∀ x : W → ℝ, ((fun w => (x w : ℂ)) ⬝ᵥ T.1.mulVec (fun w => (x w : ℂ))).re ≤ 0 := fun x => by
      rw [← quad_mulVec]
      by_cases hx : x = 0
      · subst hx; simp
      · exact (hA x hx).le
    have h1 : (star z ⬝ᵥ T.1.mulVec z).re ≤ 0 := by
      rw [cquad_re _ hT, Complex.add_re]
      exact add_nonpos (hle fun w => (z w).re) (hle fun w => (z w).im)
    have h2 : star z ⬝ᵥ T.1.mulVec z = (((∑ w, ‖z w‖ ^ 2) / ħ : ℝ) : ℂ) := by
      unfold dotProduct
      rw [Finset.sum_div, Complex.ofReal_sum]
      refine Finset.sum_congr rfl fun w _ => ?_
      by_cases hs : sd w ∈ S
      · have h3 := (hw w).1 hs
        unfold numT at h3
        rw [if_pos rfl] at h3
        have hh := (hbar_r hħ).2.2
        have h4 : T.1.mulVec z w = z w / ħ := by rw [h3]; field_simp
        rw [h4, Pi.star_apply, Complex.ofReal_div, Complex.ofReal_pow, ← Complex.conj_mul']
        simp only [RCLike.star_def]
        ring
      · rw [(hw w).2 hs, Pi.star_apply, (hw w).2 hs]
        simp
    rw [h2, Complex.ofReal_re] at h1
    have h5 : 0 < ∑ w, ‖z w‖ ^ 2 := by
      obtain ⟨w, hw'⟩ := Function.ne_iff.1 hz
      refine Finset.sum_pos' (fun _ _ => by positivity) ⟨w, Finset.mem_univ _, ?_⟩
      have : 0 < ‖z w‖ := norm_pos_iff.2 hw'
      positivity
    have : 0 < (∑ w, ‖z w‖ ^ 2) / ħ := by positivity
    linarith
  · exact ⟨T', rfl⟩

/-! ## Kets -/

theorem quadStep_empty (inv : Bool) {ħ : ℝ} (hħ : 0 < ħ) (φ : ℝ) (sd : W → Sd) (d : Sd) (h : ∀ w, sd w ≠ d) (T : Matrix W W ℂ × (W → ℂ) × ℂ) (hT : T.1ᵀ = T.1) :
    quadStep inv ħ φ sd d T = some T := by
  haveI : IsEmpty {w // sd w = d} := ⟨fun i => h i.1 i.2⟩
  rcases e : quadStep inv ħ φ sd d T with _ | T'
  · obtain ⟨z, hz, hw⟩ := step_bad hħ e
    exact absurd (funext fun w => (hw w).2 (h w)) hz
  · have r := quadStep_rel inv hħ φ sd d hT e
    have hF : ∀ z y, quadF inv ħ φ sd [d] z y = (z, y) := fun z y => by
      unfold quadF
      refine Prod.ext ?_ ?_
      · funext w; exact if_neg (by simpa using h w)
      · funext w; exact if_neg (by simpa using h w)
    have hG : ∀ z y, quadG inv ħ φ sd [d] z y = 0 := fun z y => by
      unfold quadG
      exact Finset.sum_eq_zero fun w _ => if_neg (by simpa using h w)
    have h2 := (r.eq hF hG).2
    have hr : numK inv ħ (Fintype.card {w // sd w = d}) * (1 / (1 - numT inv ħ φ d • T.1.submatrix (Subtype.val : {w // sd w = d} → W) Subtype.val).det) ^ (1 / 2 : ℂ) = 1 := by
      rw [Matrix.det_isEmpty, Fintype.card_eq_zero]
      unfold numK bqC
      cases inv <;> simp
    rw [hr, one_mul] at h2
    rw [h2]

theorem quadSteps_empty (inv : Bool) {ħ : ℝ} (hħ : 0 < ħ) (φ : ℝ) (sd : W → Sd) (l : List Sd) (h : ∀ d ∈ l, ∀ w, sd w ≠ d) (T : Matrix W W ℂ × (W → ℂ) × ℂ) (hT : T.1ᵀ = T.1) :
    quadSteps inv ħ φ sd l T = some T := by
  induction l with
  | nil => rfl
  | cons d l ih =>
    unfold quadSteps
    rw [quadStep_empty inv hħ φ sd d (h d (by simp)) T hT, Option.bind_some]
    exact ih fun d' hd' => h d' (by simp [hd'])

/-- A component with wires on one side only: one contraction. -/
theorem quadSteps_one (inv : Bool) {ħ : ℝ} (hħ : 0 < ħ) (φ : ℝ) (d : Sd) (l : List Sd) (hl : l.Nodup) (hd : d ∈ l) (T : Matrix W W ℂ × (W → ℂ) × ℂ) (hT : T.1ᵀ = T.1) :
    quadSteps inv ħ φ (fun _ => d) l T = quadStep inv ħ φ (fun _ => d) d T := by
  induction l with
  | nil => exact absurd hd (by simp)
  | cons d' l ih =>
    obtain ⟨h1, h2⟩ := List.nodup_cons.1 hl
    unfold quadSteps
    by_cases e : d' = d
    · subst e
      rcases e2 : quadStep inv ħ φ (fun _ => d') d' T with _ | T'
      · rfl
      · rw [Option.bind_some]
        refine quadSteps_empty inv hħ φ _ l (fun d'' hd'' w e3 => ?_) T' (quadStep_rel inv hħ φ _ _ hT e2).symm
        exact h1 (e3 ▸ hd'')
    · rw [quadStep_empty inv hħ φ _ d' (fun _ e2 => e e2.symm) T hT, Option.bind_some]
      refine ih h2 ?_
      rcases List.mem_cons.1 hd with h | h
      · exact absurd h.symm e
      · exact h

theorem det_all (A : Matrix W W ℂ) (t : ℂ) (d : Sd) : (1 - t • A.submatrix (Subtype.val : {w : W // (fun _ => d) w = d} → W) Subtype.val).det = (1 - t • A).det := by
  obtain ⟨u, hu⟩ : ∃ u : {w : W // (fun _ => d) w = d} ≃ W, ∀ i, u i = i.1 := ⟨Equiv.subtypeUnivEquiv (fun _ => rfl), fun _ => rfl⟩
  have e : (1 - t • A.submatrix (Subtype.val : {w : W // (fun _ => d) w = d} → W) Subtype.val) = (1 - t • A).submatrix u u := by
    ext i j
    simp only [Matrix.sub_apply, Matrix.smul_apply, Matrix.submatrix_apply, Matrix.one_apply, hu, Subtype.val_inj]
  rw [e, Matrix.det_submatrix_equiv_self]

/-- **C97 (kets: defined)** `ket.to_quadrature(phi)` is defined exactly if `1 + e^{-2iφ} A` is invertible; `Ket.from_quadrature` exactly if
`1 - ħA` is. -/
theorem C97_ket_defined {ħ : ℝ} (hħ : 0 < ħ) (φ : ℝ) {l : List Sd} (hl : l.Nodup) (hd : Sd.ok ∈ l) (T : Matrix W W ℂ × (W → ℂ) × ℂ) (hT : T.1ᵀ = T.1) :
    (quadSteps false ħ φ (fun _ => .ok) l T = none ↔ (1 + Complex.exp (-(Complex.I * φ)) ^ 2 • T.1).det = 0) ∧
    (quadSteps true ħ φ (fun _ => .ok) l T = none ↔ (1 - (ħ : ℂ) • T.1).det = 0) := by
  constructor
  · rw [quadSteps_one false hħ φ .ok l hl hd T hT]
    unfold quadStep
    rw [sideT_kern false _ hħ, Option.bind_some]
    refine (contractOn_none _ _ _ _ _ _).trans ?_
    rw [det_all]
    unfold numT omg
    rw [if_neg (by simp), neg_smul, sub_neg_eq_add]
  · rw [quadSteps_one true hħ φ .ok l hl hd T hT]
    unfold quadStep
    rw [sideT_kern true _ hħ, Option.bind_some]
    refine (contractOn_none _ _ _ _ _ _).trans ?_
    rw [det_all]
    unfold numT
    rw [if_pos rfl]

/-- The root of a number and of `c` divided by it. -/
theorem sqrt_quot {x x' : ℂ} (hx : x ≠ 0) {N : ℕ} (h : x * x' = 2 ^ N) : (1 / x) ^ (1 / 2 : ℂ) * (1 / x') ^ (1 / 2 : ℂ) * ((2 : ℂ) ^ N) ^ (1 / 2 : ℂ) = if x.arg = Real.pi then -1 else 1 := by
  have h2 : (1 / x' : ℂ) = ((1 / 2 ^ N : ℝ) : ℂ) * x := by
    have hx' : x' ≠ 0 := fun e => by rw [e, mul_zero] at h; exact pow_ne_zero _ two_ne_zero h.symm
    push_cast
    rw [one_div, one_div, inv_mul_eq_div, eq_div_iff (pow_ne_zero _ two_ne_zero), ← h]
    field_simp
  have h3 : ((2 : ℂ) ^ N) = (((2 : ℝ) ^ N : ℝ) : ℂ) := by push_cast; rfl
  have key : ∀ r : ℝ, 0 < r → ((r : ℂ) * x) ^ (1 / 2 : ℂ) = (r : ℂ) ^ (1 / 2 : ℂ) * x ^ (1 / 2 : ℂ) := fun r hr => by
    have hr' : (r : ℂ) ≠ 0 := by exact_mod_cast hr.ne'
    rw [Complex.cpow_def_of_ne_zero (mul_ne_zero hr' hx), Complex.cpow_def_of_ne_zero hr', Complex.cpow_def_of_ne_zero hx, ← Complex.exp_add,
      Complex.log_ofReal_mul hr hx, Complex.ofReal_log hr.le]
    congr 1
    ring
  rw [h2, key _ (by positivity), h3, ← sqrt_mul_sqrt_inv hx]
  have h4 : ((1 / 2 ^ N : ℝ) : ℂ) ^ (1 / 2 : ℂ) * (((2 : ℝ) ^ N : ℝ) : ℂ) ^ (1 / 2 : ℂ) = 1 := by
    rw [← Complex.mul_cpow_ofReal_nonneg (by positivity) (by positivity), ← Complex.ofReal_mul, one_div, inv_mul_cancel₀ (by positivity), Complex.ofReal_one, Complex.one_cpow]
  linear_combination ((1 / x) ^ (1 / 2 : ℂ) * x ^ (1 / 2 : ℂ)) * h4

/-- **C97 (kets: round trip)** For kets `from_quadrature` after `to_quadrature` is defined whenever `to_quadrature` is; the triple comes back
exactly, except that `c` changes its sign if `det(1 + e^{-2iφ} A)` is a negative real number. -/
theorem C97_ket {ħ : ℝ} (hħ : 0 < ħ) (φ : ℝ) {l l' : List Sd} (hl : l.Nodup) (hl' : l'.Nodup) (hd : Sd.ok ∈ l) (hd' : Sd.ok ∈ l')
    (T T1 : Matrix W W ℂ × (W → ℂ) × ℂ) (hT : T.1ᵀ = T.1) (h1 : quadSteps false ħ φ (fun _ => .ok) l T = some T1) :
    quadSteps true ħ φ (fun _ => .ok) l' T1 =
      some (T.1, T.2.1, (if ((1 + Complex.exp (-(Complex.I * φ)) ^ 2 • T.1).det).arg = Real.pi then -1 else 1) * T.2.2) := by
  have hx0 : (1 + Complex.exp (-(Complex.I * φ)) ^ 2 • T.1).det ≠ 0 := fun h0 => by
    rw [((C97_ket_defined hħ φ hl hd T hT).1).2 h0] at h1
    exact absurd h1 (by simp)
  rw [quadSteps_one false hħ φ .ok l hl hd T hT] at h1
  have r1 := quadStep_rel false hħ φ _ _ hT h1
  rw [quadSteps_one true hħ φ .ok l' hl' hd' T1 r1.symm]
  obtain ⟨q1, q2, q3⟩ := quad_inv false hħ φ (fun _ : W => Sd.ok) (l := [.ok]) (l' := [.ok]) (fun _ => Iff.rfl)
  rw [Bool.not_false] at q1 q2 q3
  rcases e : quadStep true ħ φ (fun _ : W => Sd.ok) .ok T1 with _ | T2
  · exfalso
    obtain ⟨z1, hz1, hw⟩ := step_bad hħ e
    obtain ⟨J, hJ, hf⟩ := r1.lin
    obtain ⟨z, hz⟩ : ∃ z, z = J⁻¹.mulVec z1 := ⟨_, rfl⟩
    have hJz : J.mulVec z = z1 := by
      rw [hz, Matrix.mulVec_mulVec, Matrix.mul_nonsing_inv _ (isUnit_iff_ne_zero.2 hJ), Matrix.one_mulVec]
    have hfz := hf z
    rw [hJz] at hfz
    have := q1 z (T.1.mulVec z)
    rw [hfz] at this
    have h0 : z = 0 := by
      refine (congrArg Prod.fst this).symm.trans ?_
      funext w
      unfold quadF wireF
      dsimp only
      rw [if_pos (by simp), ← (hw w).1 rfl, sub_self, zero_div]
      rfl
    rw [h0, Matrix.mulVec_zero] at hJz
    exact hz1 hJz.symm
  · have r2 := quadStep_rel true hħ φ _ _ r1.symm e
    have h3 := (r1.trans r2).eq q1 q2
    rw [q3] at h3
    obtain ⟨hr, hT2⟩ := h3
    rw [det_all, det_all] at hr hT2
    have eN : Fintype.card {w : W // (fun _ => Sd.ok) w = Sd.ok} = Fintype.card W := Fintype.card_congr (Equiv.subtypeUnivEquiv fun _ => rfl)
    rw [eN] at hr hT2
    obtain ⟨x, hx⟩ : ∃ x, x = (1 - numT false ħ φ .ok • T.1).det := ⟨_, rfl⟩
    obtain ⟨x', hx'⟩ : ∃ x', x' = (1 - numT true ħ φ .ok • T1.1).det := ⟨_, rfl⟩
    have hxe : (1 + Complex.exp (-(Complex.I * φ)) ^ 2 • T.1).det = x := by
      rw [hx]
      unfold numT omg
      rw [if_neg (by simp), neg_smul, sub_neg_eq_add]
    rw [hxe] at hx0 ⊢
    rw [← hx, ← hx'] at hr hT2
    have hK : numK false ħ (Fintype.card W) * numK true ħ (Fintype.card W) = ((2 : ℂ) ^ Fintype.card W) ^ (1 / 2 : ℂ) := by
      unfold numK
      rw [if_pos rfl, if_neg (by simp)]
      have := bqC_ne hħ (Fintype.card W)
      field_simp
    have hK2 : (((2 : ℂ) ^ Fintype.card W) ^ (1 / 2 : ℂ)) ^ 2 = 2 ^ Fintype.card W := sqrt_sq _
    have e1 : numK false ħ (Fintype.card W) * (1 / x) ^ (1 / 2 : ℂ) * (numK true ħ (Fintype.card W) * (1 / x') ^ (1 / 2 : ℂ)) =
        (1 / x) ^ (1 / 2 : ℂ) * (1 / x') ^ (1 / 2 : ℂ) * ((2 : ℂ) ^ Fintype.card W) ^ (1 / 2 : ℂ) := by rw [← hK]; ring
    rw [e1] at hr hT2
    have hxx : x * x' = 2 ^ Fintype.card W := by
      rw [mul_pow, mul_pow, sqrt_sq, sqrt_sq, hK2] at hr
      have hx0' : x' ≠ 0 := fun h0 => by rw [h0] at hr; simp at hr
      field_simp at hr
      exact hr.symm
    rw [sqrt_quot hx0 hxx] at hT2
    rw [hT2]

end Verif.Manifold
