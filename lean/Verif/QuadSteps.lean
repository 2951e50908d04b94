import Verif.QuadForm

/-!
# The contractions of `to_quadrature` and `from_quadrature` as canonical transformations (C97)
-/

namespace Verif.Manifold
open Matrix Verif.Gauss MeasureTheory

variable {W : Type*} [Fintype W] [DecidableEq W]

/-! ## The numbers of the kernels -/

/-- The phase of a side. -/
noncomputable def omg (φ : ℝ) : Sd → ℂ
  | .ob => Complex.exp (Complex.I * φ)
  | .ib => Complex.exp (-(Complex.I * φ))
  | .ok => Complex.exp (-(Complex.I * φ))
  | .ik => Complex.exp (Complex.I * φ)

theorem omg_ne (φ : ℝ) (d : Sd) : omg φ d ≠ 0 := by cases d <;> exact Complex.exp_ne_zero _

noncomputable def numV (inv : Bool) (ħ φ : ℝ) (d : Sd) : ℂ := if inv then 1 / omg φ d ^ 2 else -1 / ħ
noncomputable def numS (inv : Bool) (ħ φ : ℝ) (d : Sd) : ℂ := if inv then ħ * (Real.sqrt (2 / ħ) : ℝ) / omg φ d else (Real.sqrt (2 / ħ) : ℝ) * omg φ d
noncomputable def numT (inv : Bool) (ħ φ : ℝ) (d : Sd) : ℂ := if inv then ħ else -omg φ d ^ 2
noncomputable def numK (inv : Bool) (ħ : ℝ) (N : ℕ) : ℂ := if inv then 1 / bqC ħ N * ((2 : ℂ) ^ N) ^ (1 / 2 : ℂ) else bqC ħ N

/-- The kernel with given numbers. -/
def kern (n : Type*) [DecidableEq n] (v s t k : ℂ) : Matrix (n ⊕ n) (n ⊕ n) ℂ × (n ⊕ n → ℂ) × ℂ := (fromBlocks (v • 1) (s • 1) (s • 1) (t • 1), 0, k)

theorem conjT_kern (n : Type*) [DecidableEq n] (v s t k : ℂ) :
    conjT (kern n v s t k) = kern n ((starRingEnd ℂ) v) ((starRingEnd ℂ) s) ((starRingEnd ℂ) t) ((starRingEnd ℂ) k) := by
  unfold conjT kern
  refine Prod.ext ?_ (Prod.ext ?_ rfl)
  · ext p q
    rcases p with i | i <;> rcases q with j | j <;> simp [cj, Matrix.one_apply] <;> split_ifs <;> simp
  · funext p
    simp

theorem hbar_r {ħ : ℝ} (hħ : 0 < ħ) : ((Real.sqrt (2 / ħ) : ℝ) : ℂ) ^ 2 * ħ = 2 ∧ ((Real.sqrt (2 / ħ) : ℝ) : ℂ) ≠ 0 ∧ (ħ : ℂ) ≠ 0 := by
  have h0 : (0 : ℝ) < 2 / ħ := by positivity
  refine ⟨?_, ?_, ?_⟩
  · rw [← Complex.ofReal_pow, Real.sq_sqrt h0.le, ← Complex.ofReal_mul]
    have : 2 / ħ * ħ = 2 := by field_simp
    rw [this]; norm_num
  · exact_mod_cast (Real.sqrt_pos.2 h0).ne'
  · exact_mod_cast hħ.ne'

theorem bqC_ne {ħ : ℝ} (hħ : 0 < ħ) (N : ℕ) : bqC ħ N ≠ 0 := by
  unfold bqC
  refine one_div_ne_zero ?_
  have : (0 : ℝ) < (Real.pi * ħ) ^ (0.25 * (N : ℝ)) := Real.rpow_pos_of_pos (by positivity) _
  exact_mod_cast this.ne'

theorem btoqT_kern (n : Type*) [Fintype n] [DecidableEq n] (ħ φ : ℝ) :
    btoqT n ħ φ = kern n (numV false ħ φ .ok) (numS false ħ φ .ok) (numT false ħ φ .ok) (numK false ħ (Fintype.card n)) := by
  obtain ⟨h1, h2⟩ := bqE_facts φ
  unfold btoqT kern bqA
  simp only [numV, numS, numT, numK, omg, h1, h2, Bool.false_eq_true, if_false]
  rw [mul_comm (Complex.exp _) (_ : ℂ)]

/-- The kernel of `BtoQ.inverse`. -/
theorem qtobT_kern (n : Type*) [Fintype n] [DecidableEq n] {ħ : ℝ} (hħ : 0 < ħ) (φ : ℝ) :
    qtobT n ħ φ = some (kern n (numV true ħ φ .ok) (numS true ħ φ .ok) (numT true ħ φ .ok) (numK true ħ (Fintype.card n))) := by
  obtain ⟨hr, hr0, hh⟩ := hbar_r hħ
  have ho := omg_ne φ .ok
  unfold qtobT inverseT
  rw [btoqT_kern]
  dsimp only
  rw [(inv_At _ _).1]
  have e0 : (kern n (numV false ħ φ .ok) (numS false ħ φ .ok) (numT false ħ φ .ok) (numK false ħ (Fintype.card n))).1.submatrix (swapIO (Equiv.refl (n ⊕ n))) (swapIO (Equiv.refl (n ⊕ n))) =
      fromBlocks (numT false ħ φ .ok • (1 : Matrix n n ℂ)) (numS false ħ φ .ok • (1 : Matrix n n ℂ)) (numS false ħ φ .ok • (1 : Matrix n n ℂ)) (numV false ħ φ .ok • (1 : Matrix n n ℂ)) := by
    ext p q
    rcases p with i | i <;> rcases q with j | j <;> rfl
  have e1 : fromBlocks (numT false ħ φ .ok • (1 : Matrix n n ℂ)) (numS false ħ φ .ok • (1 : Matrix n n ℂ)) (numS false ħ φ .ok • (1 : Matrix n n ℂ)) (numV false ħ φ .ok • (1 : Matrix n n ℂ)) *
      fromBlocks (numV true ħ φ .ok • (1 : Matrix n n ℂ)) (numS true ħ φ .ok • (1 : Matrix n n ℂ)) (numS true ħ φ .ok • (1 : Matrix n n ℂ)) (numT true ħ φ .ok • (1 : Matrix n n ℂ)) = 1 := by
    rw [fromBlocks_multiply, ← fromBlocks_one]
    simp only [Matrix.smul_mul, Matrix.mul_smul, Matrix.mul_one, smul_smul, ← add_smul]
    simp only [numV, numS, numT, Bool.false_eq_true, if_false, if_true]
    obtain ⟨r, hrd⟩ : ∃ r : ℂ, r = ((Real.sqrt (2 / ħ) : ℝ) : ℂ) := ⟨_, rfl⟩
    rw [← hrd] at hr hr0 ⊢
    obtain ⟨o, hod⟩ : ∃ o : ℂ, o = omg φ .ok := ⟨_, rfl⟩
    rw [← hod] at ho ⊢
    refine (congr (congr (congr (congrArg fromBlocks ?_) ?_) ?_) ?_)
    · rw [show 1 / o ^ 2 * -o ^ 2 + ħ * r / o * (r * o) = -1 + r ^ 2 * ħ by field_simp, hr]; norm_num
    · rw [show ħ * r / o * -o ^ 2 + ħ * (r * o) = (0 : ℂ) by field_simp; ring, zero_smul]
    · rw [show 1 / o ^ 2 * (r * o) + ħ * r / o * (-1 / (ħ : ℂ)) = (0 : ℂ) by field_simp; ring, zero_smul]
    · rw [show ħ * r / o * (r * o) + ħ * (-1 / (ħ : ℂ)) = r ^ 2 * ħ - 1 by field_simp; ring, hr]; norm_num
  have e2 := inv_eq_right_inv e1
  have hdet : (fromBlocks (numT false ħ φ .ok • (1 : Matrix n n ℂ)) (numS false ħ φ .ok • (1 : Matrix n n ℂ)) (numS false ħ φ .ok • (1 : Matrix n n ℂ)) (numV false ħ φ .ok • (1 : Matrix n n ℂ))).det ≠ 0 := by
    intro h
    have := congrArg det e1
    rw [det_mul, h, zero_mul, det_one] at this
    exact zero_ne_one this
  rw [e0, e2]
  have eM : invM (Equiv.refl (n ⊕ n)) (kern n (numV false ħ φ .ok) (numS false ħ φ .ok) (numT false ħ φ .ok) (numK false ħ (Fintype.card n))).1
      (fromBlocks (numV true ħ φ .ok • (1 : Matrix n n ℂ)) (numS true ħ φ .ok • (1 : Matrix n n ℂ)) (numS true ħ φ .ok • (1 : Matrix n n ℂ)) (numT true ħ φ .ok • (1 : Matrix n n ℂ))) =
      fromBlocks ((-1 / ħ : ℂ) • (1 : Matrix n n ℂ)) (-1) (-1) ((ħ : ℂ) • (1 : Matrix n n ℂ)) := by
    ext p q
    rcases p with i | i <;> rcases q with j | j <;> rfl
  have hMd := det_overlap ((-1 / ħ : ℂ) • (1 : Matrix n n ℂ)) ((ħ : ℂ) • (1 : Matrix n n ℂ))
  have h2 : (1 - ((ħ : ℂ) • (1 : Matrix n n ℂ)) * ((-1 / ħ : ℂ) • (1 : Matrix n n ℂ))) = (2 : ℂ) • (1 : Matrix n n ℂ) := by
    rw [Matrix.smul_mul, Matrix.mul_smul, Matrix.one_mul, smul_smul, show (ħ : ℂ) * (-1 / ħ) = -1 by field_simp]
    ext i j
    simp [Matrix.one_apply]
    split_ifs <;> norm_num
  rw [h2, Matrix.det_smul, det_one, mul_one] at hMd
  have hIM : (Complex.I • fromBlocks ((-1 / ħ : ℂ) • (1 : Matrix n n ℂ)) (-1) (-1) ((ħ : ℂ) • (1 : Matrix n n ℂ))).det = 2 ^ Fintype.card n := by
    rw [Matrix.det_smul, Fintype.card_sum, ← two_mul, pow_mul, Complex.I_sq, hMd]
  have hM0 : (fromBlocks ((-1 / ħ : ℂ) • (1 : Matrix n n ℂ)) (-1) (-1) ((ħ : ℂ) • (1 : Matrix n n ℂ))).det ≠ 0 := by
    intro h
    rw [h, mul_zero] at hMd
    exact pow_ne_zero _ (two_ne_zero) hMd.symm
  rw [eM, if_neg (by rintro (h | h); exacts [hdet h, hM0 h]), Option.some_inj, hIM]
  have hb : star (star (kern n (numV false ħ φ .ok) (numS false ħ φ .ok) (numT false ħ φ .ok) (numK false ħ (Fintype.card n))).2.1 ∘ swapIO (Equiv.refl (n ⊕ n))) = 0 := by
    funext p; simp [kern]
  refine Prod.ext rfl (Prod.ext ?_ ?_)
  · dsimp only
    rw [hb, Matrix.mulVec_zero]
    rfl
  · dsimp only
    have hb2 : Sum.elim ((kern n (numV false ħ φ .ok) (numS false ħ φ .ok) (numT false ħ φ .ok) (numK false ħ (Fintype.card n))).2.1 ∘ (Equiv.refl (n ⊕ n)) ∘ Sum.inl)
        (((-fromBlocks (numV true ħ φ .ok • (1 : Matrix n n ℂ)) (numS true ħ φ .ok • (1 : Matrix n n ℂ)) (numS true ħ φ .ok • (1 : Matrix n n ℂ)) (numT true ħ φ .ok • (1 : Matrix n n ℂ))).mulVec
          (star (star (kern n (numV false ħ φ .ok) (numS false ħ φ .ok) (numT false ħ φ .ok) (numK false ħ (Fintype.card n))).2.1 ∘ swapIO (Equiv.refl (n ⊕ n))))) ∘ (Equiv.refl (n ⊕ n)) ∘ Sum.inr) = 0 := by
      rw [hb, Matrix.mulVec_zero]
      funext p
      rcases p with i | i <;> rfl
    rw [hb2, zero_dotProduct, mul_zero, Complex.exp_zero, mul_one]
    rfl

theorem bqC_conj' (ħ : ℝ) (N : ℕ) : (starRingEnd ℂ) (bqC ħ N) = bqC ħ N := bqC_conj ħ N

theorem root2_conj (N : ℕ) : (starRingEnd ℂ) (((2 : ℂ) ^ N) ^ (1 / 2 : ℂ)) = ((2 : ℂ) ^ N) ^ (1 / 2 : ℂ) := by
  have h : ((2 : ℂ) ^ N) ^ (1 / 2 : ℂ) = (((2 : ℝ) ^ N) ^ (1 / 2 : ℝ) : ℝ) := by
    rw [Complex.ofReal_cpow (by positivity)]
    push_cast
    rfl
  rw [h, Complex.conj_ofReal]

theorem numK_conj (inv : Bool) (ħ : ℝ) (N : ℕ) : (starRingEnd ℂ) (numK inv ħ N) = numK inv ħ N := by
  unfold numK
  split_ifs
  · rw [map_mul, map_div₀, map_one, bqC_conj, root2_conj]
  · exact bqC_conj ħ N

/-- All the kernels. -/
theorem sideT_kern (inv : Bool) (n : Type*) [Fintype n] [DecidableEq n] {ħ : ℝ} (hħ : 0 < ħ) (φ : ℝ) (d : Sd) :
    sideT inv n ħ φ d = some (kern n (numV inv ħ φ d) (numS inv ħ φ d) (numT inv ħ φ d) (numK inv ħ (Fintype.card n))) := by
  have h0 : (if inv then qtobT n ħ φ else some (btoqT n ħ φ)) = some (kern n (numV inv ħ φ .ok) (numS inv ħ φ .ok) (numT inv ħ φ .ok) (numK inv ħ (Fintype.card n))) := by
    cases inv
    · exact congrArg some (btoqT_kern n ħ φ)
    · exact qtobT_kern n hħ φ
  have ho : (starRingEnd ℂ) (Complex.exp (-(Complex.I * φ))) = Complex.exp (Complex.I * φ) := by
    rw [← Complex.exp_conj, map_neg, map_mul, Complex.conj_I, Complex.conj_ofReal, neg_mul, neg_neg]
  have h1 : conjT (kern n (numV inv ħ φ .ok) (numS inv ħ φ .ok) (numT inv ħ φ .ok) (numK inv ħ (Fintype.card n))) =
      kern n (numV inv ħ φ .ob) (numS inv ħ φ .ob) (numT inv ħ φ .ob) (numK inv ħ (Fintype.card n)) := by
    rw [conjT_kern, numK_conj]
    cases inv <;> simp [numV, numS, numT, omg, ho]
  have h2 : conjT (conjT (kern n (numV inv ħ φ .ok) (numS inv ħ φ .ok) (numT inv ħ φ .ok) (numK inv ħ (Fintype.card n)))) =
      kern n (numV inv ħ φ .ib) (numS inv ħ φ .ib) (numT inv ħ φ .ib) (numK inv ħ (Fintype.card n)) := by
    rw [conjT_kern, conjT_kern]
    simp only [Complex.conj_conj]
    rfl
  cases d
  · unfold sideT; rw [h0, Option.map_some, h1]
  · unfold sideT; rw [h0, Option.map_some, Option.map_some, h2]
  · unfold sideT; exact h0
  · unfold sideT; rw [h0, Option.map_some, h1]; rfl

end Verif.Manifold
