import Verif.QuadSteps

/-!
# Round trips between Bargmann and quadrature triples (C97)
-/

namespace Verif.Manifold
open Matrix Verif.Gauss MeasureTheory

variable {W : Type*} [Fintype W] [DecidableEq W]

/-- One wire. -/
noncomputable def wireF (v s t z y : ℂ) : ℂ × ℂ := ((z - t * y) / s, v * ((z - t * y) / s) + s * y)
noncomputable def wireG (v s t z y : ℂ) : ℂ := 1 / 2 * v * ((z - t * y) / s) ^ 2 - 1 / 2 * z * y + 1 / 2 * (z - t * y) * y

/-- The wires on the sides in `l`. -/
noncomputable def quadF (inv : Bool) (ħ φ : ℝ) (sd : W → Sd) (l : List Sd) (z y : W → ℂ) : (W → ℂ) × (W → ℂ) :=
  (fun w => if sd w ∈ l then (wireF (numV inv ħ φ (sd w)) (numS inv ħ φ (sd w)) (numT inv ħ φ (sd w)) (z w) (y w)).1 else z w,
   fun w => if sd w ∈ l then (wireF (numV inv ħ φ (sd w)) (numS inv ħ φ (sd w)) (numT inv ħ φ (sd w)) (z w) (y w)).2 else y w)

noncomputable def quadG (inv : Bool) (ħ φ : ℝ) (sd : W → Sd) (l : List Sd) (z y : W → ℂ) : ℂ :=
  ∑ w, if sd w ∈ l then wireG (numV inv ħ φ (sd w)) (numS inv ħ φ (sd w)) (numT inv ħ φ (sd w)) (z w) (y w) else 0

/-- The square of the constant of one wire. -/
noncomputable def numQ (inv : Bool) (ħ : ℝ) : ℂ := if inv then 2 * ((Real.sqrt (Real.pi * ħ) : ℝ) : ℂ) else 1 / ((Real.sqrt (Real.pi * ħ) : ℝ) : ℂ)

noncomputable def quadChi (inv : Bool) (ħ φ : ℝ) (sd : W → Sd) (l : List Sd) : ℂ :=
  ∏ w, if sd w ∈ l then numQ inv ħ / numS inv ħ φ (sd w) else 1

theorem bqC_sq {ħ : ℝ} (hħ : 0 < ħ) (N : ℕ) : bqC ħ N ^ 2 = (1 / ((Real.sqrt (Real.pi * ħ) : ℝ) : ℂ)) ^ N := by
  unfold bqC
  have h0 : 0 ≤ Real.pi * ħ := by positivity
  have : ((Real.pi * ħ) ^ (0.25 * (N : ℝ))) ^ 2 = Real.sqrt (Real.pi * ħ) ^ N := by
    rw [← Real.rpow_natCast, ← Real.rpow_mul h0, Real.sqrt_eq_rpow, ← Real.rpow_natCast, ← Real.rpow_mul h0]
    congr 1
    push_cast
    ring
  rw [div_pow, one_pow, div_pow, one_pow, ← Complex.ofReal_pow, ← Complex.ofReal_pow, this]

theorem numK_sq (inv : Bool) {ħ : ℝ} (hħ : 0 < ħ) (N : ℕ) : numK inv ħ N ^ 2 = numQ inv ħ ^ N := by
  have hp : ((Real.sqrt (Real.pi * ħ) : ℝ) : ℂ) ≠ 0 := by
    have : 0 < Real.sqrt (Real.pi * ħ) := Real.sqrt_pos.2 (by positivity)
    exact_mod_cast this.ne'
  unfold numK numQ
  split_ifs
  · rw [mul_pow, div_pow, one_pow, bqC_sq hħ, sqrt_sq, mul_pow, one_div, one_div, ← inv_pow, inv_inv, mul_comm]
  · exact bqC_sq hħ N

theorem numS_ne (inv : Bool) {ħ : ℝ} (hħ : 0 < ħ) (φ : ℝ) (d : Sd) : numS inv ħ φ d ≠ 0 := by
  obtain ⟨-, hr0, hh⟩ := hbar_r hħ
  unfold numS
  split_ifs
  · exact div_ne_zero (mul_ne_zero hh hr0) (omg_ne φ d)
  · exact mul_ne_zero hr0 (omg_ne φ d)

theorem prod_side (sd : W → Sd) (d : Sd) (a : ℂ) : (∏ w, if sd w = d then a else 1) = a ^ Fintype.card {w // sd w = d} := by
  rw [Finset.prod_ite, Finset.prod_const, Finset.prod_const_one, mul_one, Fintype.card_subtype]

/-- One contraction. -/
theorem quadStep_rel (inv : Bool) {ħ : ℝ} (hħ : 0 < ħ) (φ : ℝ) (sd : W → Sd) (d : Sd) {T T' : Matrix W W ℂ × (W → ℂ) × ℂ} (hT : T.1ᵀ = T.1)
    (h : quadStep inv ħ φ sd d T = some T') :
    Rel (quadF inv ħ φ sd [d]) (quadG inv ħ φ sd [d]) (quadChi inv ħ φ sd [d])
      (numK inv ħ (Fintype.card {w // sd w = d}) * (1 / (1 - numT inv ħ φ d • T.1.submatrix (Subtype.val : {w // sd w = d} → W) Subtype.val).det) ^ (1 / 2 : ℂ)) T T' := by
  unfold quadStep at h
  rw [sideT_kern inv _ hħ, Option.bind_some] at h
  have h1 := contractOn_rel _ (numS_ne inv hħ φ d) hT h
  have eF : stepF (fun w => sd w = d) (numV inv ħ φ d) (numS inv ħ φ d) (numT inv ħ φ d) = quadF inv ħ φ sd [d] := by
    funext z y
    unfold stepF quadF wireF
    simp only [List.mem_singleton]
    refine Prod.ext ?_ ?_
    · funext w
      dsimp only
      split_ifs with hw
      · rw [hw]
      · rfl
    · funext w
      dsimp only
      split_ifs with hw
      · rw [hw]
      · rfl
  have eG : stepG (fun w => sd w = d) (numV inv ħ φ d) (numS inv ħ φ d) (numT inv ħ φ d) = quadG inv ħ φ sd [d] := by
    funext z y
    unfold stepG quadG
    rw [← Fintype.sum_subtype_add_sum_subtype (fun w => sd w = d)]
    rw [Finset.sum_eq_zero (s := Finset.univ) (f := fun i : {w // ¬sd w = d} => _) (fun i _ => by rw [if_neg]; simpa using i.2), add_zero]
    refine Finset.sum_congr rfl fun i _ => ?_
    rw [if_pos (by simpa using i.2), i.2]
    rfl
  have eC : numK inv ħ (Fintype.card {w // sd w = d}) ^ 2 / numS inv ħ φ d ^ Fintype.card {w // sd w = d} = quadChi inv ħ φ sd [d] := by
    unfold quadChi
    rw [numK_sq inv hħ, ← div_pow, ← prod_side]
    refine Finset.prod_congr rfl fun w _ => ?_
    by_cases hw : sd w = d
    · rw [if_pos hw, if_pos (by simpa using hw), hw]
    · rw [if_neg hw, if_neg (by simpa using hw)]
  rw [eF, eG, eC] at h1
  exact h1

theorem quadF_cons (inv : Bool) (ħ φ : ℝ) (sd : W → Sd) {d : Sd} {l : List Sd} (hd : d ∉ l) (z y : W → ℂ) :
    quadF inv ħ φ sd l (quadF inv ħ φ sd [d] z y).1 (quadF inv ħ φ sd [d] z y).2 = quadF inv ħ φ sd (d :: l) z y := by
  have key : ∀ w, (sd w = d → sd w ∉ l) := fun w e => by rw [e]; exact hd
  unfold quadF
  refine Prod.ext ?_ ?_
  all_goals
    funext w
    dsimp only
    by_cases h1 : sd w = d
    · rw [if_neg (key w h1), if_pos (by simpa using h1), if_pos (by simp [h1])]
    · by_cases h2 : sd w ∈ l
      · simp only [List.mem_singleton, List.mem_cons, List.not_mem_nil, or_false, h1, h2, if_true, if_false, or_true]
      · rw [if_neg h2, if_neg (by simpa using h1), if_neg (by simp [h1, h2])]

theorem quadG_cons (inv : Bool) (ħ φ : ℝ) (sd : W → Sd) {d : Sd} {l : List Sd} (hd : d ∉ l) (z y : W → ℂ) :
    quadG inv ħ φ sd [d] z y + quadG inv ħ φ sd l (quadF inv ħ φ sd [d] z y).1 (quadF inv ħ φ sd [d] z y).2 = quadG inv ħ φ sd (d :: l) z y := by
  have key : ∀ w, (sd w = d → sd w ∉ l) := fun w e => by rw [e]; exact hd
  unfold quadG quadF
  rw [← Finset.sum_add_distrib]
  refine Finset.sum_congr rfl fun w _ => ?_
  dsimp only
  by_cases h1 : sd w = d
  · rw [if_neg (key w h1), if_pos (by simpa using h1), if_pos (by simp [h1]), add_zero]
  · by_cases h2 : sd w ∈ l
    · simp only [List.mem_singleton, List.mem_cons, List.not_mem_nil, or_false, h1, h2, if_true, if_false, or_true, zero_add]
    · rw [if_neg h2, if_neg (by simpa using h1), if_neg (by simp [h1, h2]), add_zero]

theorem quadChi_cons (inv : Bool) (ħ φ : ℝ) (sd : W → Sd) {d : Sd} {l : List Sd} (hd : d ∉ l) :
    quadChi inv ħ φ sd [d] * quadChi inv ħ φ sd l = quadChi inv ħ φ sd (d :: l) := by
  have key : ∀ w, (sd w = d → sd w ∉ l) := fun w e => by rw [e]; exact hd
  unfold quadChi
  rw [← Finset.prod_mul_distrib]
  refine Finset.prod_congr rfl fun w _ => ?_
  by_cases h1 : sd w = d
  · rw [if_neg (key w h1), if_pos (by simpa using h1), if_pos (by simp [h1]), mul_one]
  · by_cases h2 : sd w ∈ l
    · rw [if_pos h2, if_neg (by simpa using h1), if_pos (by simp [h2]), one_mul]
    · rw [if_neg h2, if_neg (by simpa using h1), if_neg (by simp [h1, h2]), mul_one]

/-- All the contractions. -/
theorem quadSteps_rel (inv : Bool) {ħ : ℝ} (hħ : 0 < ħ) (φ : ℝ) (sd : W → Sd) (l : List Sd) (hl : l.Nodup) :
    ∀ {T T' : Matrix W W ℂ × (W → ℂ) × ℂ}, T.1ᵀ = T.1 → quadSteps inv ħ φ sd l T = some T' →
      ∃ r, Rel (quadF inv ħ φ sd l) (quadG inv ħ φ sd l) (quadChi inv ħ φ sd l) r T T' := by
  induction l with
  | nil =>
    intro T T' hT h
    unfold quadSteps at h
    rw [Option.some_inj] at h
    subst h
    refine ⟨1, hT, 1, 0, by rw [det_one]; exact one_ne_zero, by simp [quadChi], fun z => ?_, fun z => ?_⟩
    · rw [Matrix.one_mulVec, add_zero]; simp [quadF]
    · rw [Matrix.one_mulVec, add_zero]; simp [quadG]
  | cons d l ih =>
    intro T T' hT h
    unfold quadSteps at h
    obtain ⟨T1, h1, h2⟩ := Option.bind_eq_some_iff.1 h
    have r1 := quadStep_rel inv hħ φ sd d hT h1
    obtain ⟨r, r2⟩ := ih (List.nodup_cons.1 hl).2 r1.symm h2
    have := r1.trans r2
    have eF : (fun z y => quadF inv ħ φ sd l (quadF inv ħ φ sd [d] z y).1 (quadF inv ħ φ sd [d] z y).2) = quadF inv ħ φ sd (d :: l) := by
      funext z y; exact quadF_cons inv ħ φ sd (List.nodup_cons.1 hl).1 z y
    have eG : (fun z y => quadG inv ħ φ sd [d] z y + quadG inv ħ φ sd l (quadF inv ħ φ sd [d] z y).1 (quadF inv ħ φ sd [d] z y).2) = quadG inv ħ φ sd (d :: l) := by
      funext z y; exact quadG_cons inv ħ φ sd (List.nodup_cons.1 hl).1 z y
    rw [eF, eG, quadChi_cons inv ħ φ sd (List.nodup_cons.1 hl).1] at this
    exact ⟨_, this⟩

/-! ## Round trip -/

/-- The canonical transformations of one wire are inverse to each other. -/
theorem wire_inv (inv : Bool) {ħ : ℝ} (hħ : 0 < ħ) (φ : ℝ) (d : Sd) (z y : ℂ) :
    wireF (numV (!inv) ħ φ d) (numS (!inv) ħ φ d) (numT (!inv) ħ φ d) (wireF (numV inv ħ φ d) (numS inv ħ φ d) (numT inv ħ φ d) z y).1
      (wireF (numV inv ħ φ d) (numS inv ħ φ d) (numT inv ħ φ d) z y).2 = (z, y) ∧
    wireG (numV inv ħ φ d) (numS inv ħ φ d) (numT inv ħ φ d) z y +
      wireG (numV (!inv) ħ φ d) (numS (!inv) ħ φ d) (numT (!inv) ħ φ d) (wireF (numV inv ħ φ d) (numS inv ħ φ d) (numT inv ħ φ d) z y).1
      (wireF (numV inv ħ φ d) (numS inv ħ φ d) (numT inv ħ φ d) z y).2 = 0 ∧
    numQ inv ħ / numS inv ħ φ d * (numQ (!inv) ħ / numS (!inv) ħ φ d) = 1 := by
  obtain ⟨hr, hr0, hh⟩ := hbar_r hħ
  have ho := omg_ne φ d
  have hp : ((Real.sqrt (Real.pi * ħ) : ℝ) : ℂ) ≠ 0 := by
    have : 0 < Real.sqrt (Real.pi * ħ) := Real.sqrt_pos.2 (by positivity)
    exact_mod_cast this.ne'
  unfold wireG wireF numV numS numT numQ
  obtain ⟨r, hrd⟩ : ∃ r : ℂ, r = ((Real.sqrt (2 / ħ) : ℝ) : ℂ) := ⟨_, rfl⟩
  rw [← hrd] at hr hr0 ⊢
  generalize omg φ d = o at *
  generalize ((Real.sqrt (Real.pi * ħ) : ℝ) : ℂ) = π at *
  have hb : (ħ : ℂ) = 2 / r ^ 2 := by rw [eq_div_iff (pow_ne_zero _ hr0), mul_comm]; exact hr
  rw [hb]
  have h2 : (2 : ℂ) ≠ 0 := two_ne_zero
  cases inv
  · simp only [Bool.not_false, if_true, Bool.false_eq_true, if_false]
    refine ⟨Prod.ext ?_ ?_, ?_, ?_⟩
    · dsimp only; field_simp; ring
    · dsimp only; field_simp; ring
    · field_simp; ring
    · field_simp
  · simp only [Bool.not_true, if_true, Bool.false_eq_true, if_false]
    refine ⟨Prod.ext ?_ ?_, ?_, ?_⟩
    · dsimp only; field_simp; ring
    · dsimp only; field_simp; ring
    · field_simp; ring
    · field_simp

theorem quad_inv (inv : Bool) {ħ : ℝ} (hħ : 0 < ħ) (φ : ℝ) (sd : W → Sd) {l l' : List Sd} (hl : ∀ d, d ∈ l ↔ d ∈ l') :
    (∀ z y, quadF (!inv) ħ φ sd l' (quadF inv ħ φ sd l z y).1 (quadF inv ħ φ sd l z y).2 = (z, y)) ∧
    (∀ z y, quadG inv ħ φ sd l z y + quadG (!inv) ħ φ sd l' (quadF inv ħ φ sd l z y).1 (quadF inv ħ φ sd l z y).2 = 0) ∧
    quadChi inv ħ φ sd l * quadChi (!inv) ħ φ sd l' = 1 := by
  refine ⟨fun z y => ?_, fun z y => ?_, ?_⟩
  · unfold quadF
    refine Prod.ext ?_ ?_
    · funext w
      dsimp only
      by_cases h : sd w ∈ l
      · simp only [if_pos h, if_pos ((hl _).1 h)]
        rw [(wire_inv inv hħ φ (sd w) (z w) (y w)).1]
      · simp only [if_neg h, if_neg (fun h' => h ((hl _).2 h'))]
    · funext w
      dsimp only
      by_cases h : sd w ∈ l
      · simp only [if_pos h, if_pos ((hl _).1 h)]
        rw [(wire_inv inv hħ φ (sd w) (z w) (y w)).1]
      · simp only [if_neg h, if_neg (fun h' => h ((hl _).2 h'))]
  · unfold quadG quadF
    rw [← Finset.sum_add_distrib]
    refine Finset.sum_eq_zero fun w _ => ?_
    dsimp only
    by_cases h : sd w ∈ l
    · simp only [if_pos h, if_pos ((hl _).1 h)]
      exact (wire_inv inv hħ φ (sd w) (z w) (y w)).2.1
    · simp only [if_neg h, if_neg (fun h' => h ((hl _).2 h')), add_zero]
  · unfold quadChi
    rw [← Finset.prod_mul_distrib]
    refine Finset.prod_eq_one fun w _ => ?_
    by_cases h : sd w ∈ l
    · rw [if_pos h, if_pos ((hl _).1 h)]
      exact (wire_inv inv hħ φ (sd w) 0 0).2.2
    · rw [if_neg h, if_neg (fun h' => h ((hl _).2 h')), mul_one]

/-- **C97 (round trip)** `to_quadrature` followed by `from_quadrature` (`inv = false`) and `from_quadrature` followed by `to_quadrature`
(`inv = true`), at the same angle and with the sides contracted in any two orders, return the triple, up to a sign of `c`: for every component
(any wires on any sides, any angle, any `ħ`), whenever the contractions are defined. -/
theorem C97_roundtrip (inv : Bool) {ħ : ℝ} (hħ : 0 < ħ) (φ : ℝ) (sd : W → Sd) {l l' : List Sd} (hl : l.Nodup) (hl' : l'.Nodup) (h : ∀ d, d ∈ l ↔ d ∈ l')
    (T T1 T2 : Matrix W W ℂ × (W → ℂ) × ℂ) (hT : T.1ᵀ = T.1) (h1 : quadSteps inv ħ φ sd l T = some T1) (h2 : quadSteps (!inv) ħ φ sd l' T1 = some T2) :
    ∃ ε : ℂ, (ε = 1 ∨ ε = -1) ∧ T2 = (T.1, T.2.1, ε * T.2.2) := by
  obtain ⟨r, r1⟩ := quadSteps_rel inv hħ φ sd l hl hT h1
  obtain ⟨r', r2⟩ := quadSteps_rel (!inv) hħ φ sd l' hl' r1.symm h2
  obtain ⟨q1, q2, q3⟩ := quad_inv inv hħ φ sd h
  have h3 := (r1.trans r2).eq q1 q2
  rw [q3] at h3
  exact ⟨r * r', mul_self_eq_one_iff.1 (by rw [← pow_two]; exact h3.1), h3.2⟩

end Verif.Manifold
