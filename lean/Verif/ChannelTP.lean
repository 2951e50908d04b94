import Verif.ChannelXY
import Mathlib.LinearAlgebra.FiniteDimensional.Lemmas

/-!
# `Channel.is_TP` (C75)

`mrmustard/lab/transformations/base.py` 411-459.
-/

namespace Verif.Manifold
open Matrix Verif.Gauss MeasureTheory
open scoped ComplexOrder MatrixOrder

variable {n : Type*} [Fintype n] [DecidableEq n]
variable {p q r : Type*} [Fintype p] [DecidableEq p] [Fintype q] [DecidableEq q] [Fintype r] [DecidableEq r]

/-! ## Schur complements and kernels -/

/-- The kernel of a block matrix with an invertible first block is that of its Schur complement. -/
theorem ker_schur {m : Type*} [Fintype m] [DecidableEq m] {A : Matrix m m ℂ} (B : Matrix m n ℂ) (C : Matrix n m ℂ) (D : Matrix n n ℂ) (hA : IsUnit A.det) :
    Module.finrank ℂ (LinearMap.ker (fromBlocks A B C D).mulVecLin) = Module.finrank ℂ (LinearMap.ker (D - C * A⁻¹ * B).mulVecLin) := by
  have hker : ∀ v : m ⊕ n → ℂ, (fromBlocks A B C D).mulVec v = 0 ↔ (D - C * A⁻¹ * B).mulVec (v ∘ Sum.inr) = 0 ∧ v ∘ Sum.inl = -(A⁻¹ * B).mulVec (v ∘ Sum.inr) := by
    intro v
    rw [fromBlocks_mulVec]
    constructor
    · intro h
      have h1 : A.mulVec (v ∘ Sum.inl) + B.mulVec (v ∘ Sum.inr) = 0 := by funext i; exact congrFun h (Sum.inl i)
      have h2 : C.mulVec (v ∘ Sum.inl) + D.mulVec (v ∘ Sum.inr) = 0 := by funext i; exact congrFun h (Sum.inr i)
      have h3 : v ∘ Sum.inl = -(A⁻¹ * B).mulVec (v ∘ Sum.inr) := by
        have := congrArg A⁻¹.mulVec h1
        rw [Matrix.mulVec_add, Matrix.mulVec_mulVec, Matrix.nonsing_inv_mul _ hA, Matrix.one_mulVec, Matrix.mulVec_mulVec, Matrix.mulVec_zero] at this
        exact eq_neg_of_add_eq_zero_left this
      refine ⟨?_, h3⟩
      rw [h3, Matrix.mulVec_neg, Matrix.mulVec_mulVec, ← Matrix.mul_assoc] at h2
      rw [Matrix.sub_mulVec, sub_eq_neg_add]
      exact h2
    · rintro ⟨h1, h2⟩
      rw [h2, Matrix.mulVec_neg, Matrix.mulVec_neg, Matrix.mulVec_mulVec, Matrix.mulVec_mulVec, ← Matrix.mul_assoc, ← Matrix.mul_assoc, Matrix.mul_nonsing_inv _ hA,
        Matrix.one_mul, neg_add_cancel]
      rw [Matrix.sub_mulVec, sub_eq_neg_add] at h1
      rw [h1]
      funext i
      rcases i with i | i <;> rfl
  refine LinearEquiv.finrank_eq ?_
  refine
    { toFun := fun v => ⟨fun i => v.1 (Sum.inr i), (hker v.1).1 v.2 |>.1⟩
      invFun := fun y => ⟨Sum.elim (-(A⁻¹ * B).mulVec y.1) y.1, (hker _).2 ⟨by rw [Sum.elim_comp_inr]; exact y.2, by rw [Sum.elim_comp_inl, Sum.elim_comp_inr]⟩⟩
      map_add' := fun a b => rfl
      map_smul' := fun a b => rfl
      left_inv := fun v => ?_
      right_inv := fun y => rfl }
  apply Subtype.ext
  funext i
  rcases i with i | i
  · exact (congrFun ((hker v.1).1 v.2).2 i).symm
  · rfl

theorem ker_conj {a b : Type*} [Fintype a] [DecidableEq a] [Fintype b] [DecidableEq b] {R : Matrix a b ℂ} {S : Matrix b a ℂ} (h1 : R * S = 1) (h2 : S * R = 1) (M : Matrix b b ℂ) :
    Module.finrank ℂ (LinearMap.ker (R * M * S).mulVecLin) = Module.finrank ℂ (LinearMap.ker M.mulVecLin) := by
  have hk : ∀ v : a → ℂ, (R * M * S).mulVec v = 0 ↔ M.mulVec (S.mulVec v) = 0 := by
    intro v
    constructor
    · intro h
      have := congrArg S.mulVec h
      rw [Matrix.mulVec_mulVec, Matrix.mulVec_zero, ← Matrix.mul_assoc, ← Matrix.mul_assoc, h2, Matrix.one_mul, ← Matrix.mulVec_mulVec] at this
      exact this
    · intro h
      rw [Matrix.mul_assoc, ← Matrix.mulVec_mulVec, ← Matrix.mulVec_mulVec, h, Matrix.mulVec_zero]
  refine LinearEquiv.finrank_eq ?_
  refine
    { toFun := fun v => ⟨S.mulVec v.1, (hk v.1).1 v.2⟩
      invFun := fun y => ⟨R.mulVec y.1, (hk _).2 (by rw [Matrix.mulVec_mulVec y.1 S R, h2, Matrix.one_mulVec]; exact y.2)⟩
      map_add' := fun a b => Subtype.ext (Matrix.mulVec_add _ _ _)
      map_smul' := fun a b => Subtype.ext (Matrix.mulVec_smul _ _ _)
      left_inv := fun v => Subtype.ext ?_
      right_inv := fun y => Subtype.ext ?_ }
  · show R.mulVec (S.mulVec v.1) = v.1
    rw [Matrix.mulVec_mulVec, h1, Matrix.one_mulVec]
  · show S.mulVec (R.mulVec y.1) = y.1
    rw [Matrix.mulVec_mulVec, h2, Matrix.one_mulVec]

theorem ker_full (M : Matrix n n ℂ) : Module.finrank ℂ (LinearMap.ker M.mulVecLin) = Fintype.card n ↔ M = 0 := by
  constructor
  · intro h
    have h1 : LinearMap.ker M.mulVecLin = ⊤ := by
      apply Submodule.eq_top_of_finrank_eq
      rw [h, Module.finrank_fintype_fun_eq_card]
    have h2 : ∀ v, M.mulVec v = 0 := fun v => by
      have : v ∈ LinearMap.ker M.mulVecLin := by rw [h1]; trivial
      exact this
    ext i j
    have := congrFun (h2 (Pi.single j 1)) i
    simpa using this
  · rintro rfl
    have h1 : LinearMap.ker (0 : Matrix n n ℂ).mulVecLin = ⊤ := by
      rw [Matrix.mulVecLin_zero, LinearMap.ker_zero]
    rw [h1, finrank_top, Module.finrank_fintype_fun_eq_card]

/-! ## The criterion -/

theorem norm_all {M : Matrix n n ℂ} : (∀ atol : ℝ, 0 < atol → Real.sqrt (∑ i, ∑ j, ‖M i j‖ ^ 2) < atol) ↔ M = 0 := by
  constructor
  · intro h
    have h0 : Real.sqrt (∑ i, ∑ j, ‖M i j‖ ^ 2) = 0 := by
      by_contra hne
      exact lt_irrefl _ (h _ (lt_of_le_of_ne (Real.sqrt_nonneg _) (Ne.symm hne)))
    rw [Real.sqrt_eq_zero (by positivity), Finset.sum_eq_zero_iff_of_nonneg (fun i _ => by positivity)] at h0
    ext i j
    have h1 := h0 i (Finset.mem_univ _)
    rw [Finset.sum_eq_zero_iff_of_nonneg (fun i _ => by positivity)] at h1
    have h2 := h1 j (Finset.mem_univ _)
    simpa using h2
  · rintro rfl atol h
    simpa using h

theorem isTP_iff {A : Matrix (n ⊕ n) (n ⊕ n) ℂ} : (∀ atol : ℝ, 0 < atol → isTP atol A = some True) ↔ (1 - A.toBlocks₁₂ᵀ).det ≠ 0 ∧ tpMat A = 1 := by
  unfold isTP
  by_cases h : (1 - A.toBlocks₁₂ᵀ).det = 0
  · simp only [h, if_true]
    constructor
    · intro h1
      exact absurd (h1 1 one_pos) (by simp)
    · rintro ⟨h1, _⟩
      exact absurd rfl h1
  · simp only [h, if_false, Option.some.injEq, eq_iff_iff, iff_true, ne_eq, not_false_eq_true, true_and]
    rw [norm_all, sub_eq_zero]

/-- The matrix tested by `is_TP`, as a Schur complement. -/
theorem tp_ker {A : Matrix (n ⊕ n) (n ⊕ n) ℂ} (hs : Aᵀ = A) (hA : A = Xmat n * cj A * Xmat n) (hd : (1 - A.toBlocks₁₂ᵀ).det ≠ 0) :
    Module.finrank ℂ (LinearMap.ker (1 - Xmat n * A).mulVecLin) = Module.finrank ℂ (LinearMap.ker (1 - tpMat A).mulVecLin) := by
  have h21 : A.toBlocks₂₁ = A.toBlocks₁₂ᵀ := by
    have := congrArg toBlocks₂₁ hs
    rw [← this]
    rfl
  have h11 : A.toBlocks₁₁ = A.toBlocks₂₂ᴴ := by
    have h22 : A.toBlocks₂₂ᵀ = A.toBlocks₂₂ := congrArg toBlocks₂₂ hs
    have e : Xmat n * cj A * Xmat n = fromBlocks (cj A.toBlocks₂₂) (cj A.toBlocks₂₁) (cj A.toBlocks₁₂) (cj A.toBlocks₁₁) := by
      conv_lhs => rw [← fromBlocks_toBlocks A]
      rw [show cj (fromBlocks A.toBlocks₁₁ A.toBlocks₁₂ A.toBlocks₂₁ A.toBlocks₂₂) =
        fromBlocks (cj A.toBlocks₁₁) (cj A.toBlocks₁₂) (cj A.toBlocks₂₁) (cj A.toBlocks₂₂) from fromBlocks_map ..]
      unfold Xmat
      rw [fromBlocks_multiply, fromBlocks_multiply]
      simp
    have h2 := congrArg toBlocks₁₁ hA
    rw [e, toBlocks_fromBlocks₁₁] at h2
    rw [h2]
    conv_rhs => rw [← h22]
    rfl
  have hM : 1 - Xmat n * A = fromBlocks (1 - A.toBlocks₁₂ᵀ) (-A.toBlocks₂₂) (-A.toBlocks₂₂ᴴ) (1 - A.toBlocks₁₂) := by
    conv_lhs => rw [← fromBlocks_toBlocks A, h21, h11]
    unfold Xmat
    rw [fromBlocks_multiply, ← fromBlocks_one (l := n) (m := n), sub_eq_add_neg, fromBlocks_neg, fromBlocks_add]
    simp [sub_eq_add_neg]
  rw [hM, ker_schur _ _ _ (Ne.isUnit hd)]
  have e : 1 - A.toBlocks₁₂ - -A.toBlocks₂₂ᴴ * (1 - A.toBlocks₁₂ᵀ)⁻¹ * -A.toBlocks₂₂ = 1 - tpMat A := by
    unfold tpMat
    rw [Matrix.neg_mul, Matrix.neg_mul, Matrix.mul_neg, neg_neg, sub_sub]
  rw [e]

/-- The matrix tested by `is_TP` in phase space coordinates. -/
theorem tp_real {K : Matrix ((p ⊕ p) ⊕ (q ⊕ q)) ((p ⊕ p) ⊕ (q ⊕ q)) ℝ} (hK : Kᵀ = K) (hζ : (1 - K.toBlocks₁₁).det ≠ 0) :
    Module.finrank ℂ (LinearMap.ker (1 - Xmat (p ⊕ q) * (cj (xyR p q) * toC K * (xyR p q)ᴴ)).mulVecLin) =
      Module.finrank ℂ (LinearMap.ker (1 - toC (K.toBlocks₂₂ + K.toBlocks₁₂ᵀ * (1 - K.toBlocks₁₁)⁻¹ * K.toBlocks₁₂)).mulVecLin) := by
  have hXR : Xmat (p ⊕ q) * cj (xyR p q) = xyR p q := by rw [← Xmat_xyR, ← Matrix.mul_assoc, Xmat_sq, Matrix.one_mul]
  have h21 : K.toBlocks₂₁ = K.toBlocks₁₂ᵀ := by
    have := congrArg toBlocks₂₁ hK
    rw [← this]
    rfl
  have e1 : 1 - Xmat (p ⊕ q) * (cj (xyR p q) * toC K * (xyR p q)ᴴ) = xyR p q * toC (1 - K) * (xyR p q)ᴴ := by
    rw [← Matrix.mul_assoc, ← Matrix.mul_assoc, hXR, toC_sub, toC_one, Matrix.mul_sub, Matrix.sub_mul, Matrix.mul_one, xyR_unit']
  have e2 : toC (1 - K) = fromBlocks (toC (1 - K.toBlocks₁₁)) (-toC K.toBlocks₁₂) (-toC K.toBlocks₁₂ᵀ) (1 - toC K.toBlocks₂₂) := by
    conv_lhs => rw [← fromBlocks_toBlocks K, h21]
    rw [toC_sub, toC_sub, toC_one, toC_one, show toC (fromBlocks K.toBlocks₁₁ K.toBlocks₁₂ K.toBlocks₁₂ᵀ K.toBlocks₂₂) =
      fromBlocks (toC K.toBlocks₁₁) (toC K.toBlocks₁₂) (toC K.toBlocks₁₂ᵀ) (toC K.toBlocks₂₂) from fromBlocks_map ..,
      ← fromBlocks_one (l := p ⊕ p) (m := q ⊕ q), sub_eq_add_neg, fromBlocks_neg, fromBlocks_add]
    simp [sub_eq_add_neg]
  have hu : IsUnit (toC (1 - K.toBlocks₁₁)).det := by
    rw [toC_det]
    exact Ne.isUnit (by exact_mod_cast hζ)
  have hinv : (toC (1 - K.toBlocks₁₁))⁻¹ = toC (1 - K.toBlocks₁₁)⁻¹ := by
    apply Matrix.inv_eq_left_inv
    rw [← toC_mul, Matrix.nonsing_inv_mul _ (Ne.isUnit hζ), toC_one]
  rw [e1, ker_conj xyR_unit' xyR_unit, e2, ker_schur _ _ _ hu, hinv]
  have e : 1 - toC K.toBlocks₂₂ - -toC K.toBlocks₁₂ᵀ * toC (1 - K.toBlocks₁₁)⁻¹ * -toC K.toBlocks₁₂ =
      1 - toC (K.toBlocks₂₂ + K.toBlocks₁₂ᵀ * (1 - K.toBlocks₁₁)⁻¹ * K.toBlocks₁₂) := by
    rw [Matrix.neg_mul, Matrix.neg_mul, Matrix.mul_neg, neg_neg, sub_sub, toC_add, toC_mul, toC_mul]
  rw [e]

/-- The finite output trace in phase space coordinates. -/
theorem out_real {K : Matrix ((p ⊕ p) ⊕ (q ⊕ q)) ((p ⊕ p) ⊕ (q ⊕ q)) ℝ}
    (hpos : (1 - Xmat p * (cj (xyR p q) * toC K * (xyR p q)ᴴ).submatrix outIx outIx).PosDef) : (1 - K.toBlocks₁₁).PosDef := by
  have hX : Xmat p * cj (rotmat p) = rotmat p := by rw [← Xmat_rot, ← Matrix.mul_assoc, Xmat_sq, Matrix.one_mul]
  have e1 : 1 - Xmat p * (cj (xyR p q) * toC K * (xyR p q)ᴴ).submatrix outIx outIx = rotmat p * toC (1 - K.toBlocks₁₁) * (rotmat p)ᴴ := by
    rw [sub_oo, ← Matrix.mul_assoc, ← Matrix.mul_assoc, hX, toC_sub, toC_one, Matrix.mul_sub, Matrix.sub_mul, Matrix.mul_one, rotmat_mul]
  apply posDef_real
  rw [e1] at hpos
  have hru : IsUnit (rotmat p) := ⟨⟨rotmat p, (rotmat p)ᴴ, rotmat_mul, rotmat_mul'⟩, rfl⟩
  exact (hru.posDef_star_right_conjugate_iff).1 hpos

/-- Some `b` and `c` make the map with matrix `A` trace preserving. -/
def TPMatrix (A : Matrix ((p ⊕ q) ⊕ (p ⊕ q)) ((p ⊕ q) ⊕ (p ⊕ q)) ℂ) : Prop :=
  ∃ (b : (p ⊕ q) ⊕ (p ⊕ q) → ℂ) (c : ℝ), b ∘ Sum.inr = star (b ∘ Sum.inl) ∧ TracePres (chanFun A b c)

theorem tpMatrix_iff {K : Matrix ((p ⊕ p) ⊕ (q ⊕ q)) ((p ⊕ p) ⊕ (q ⊕ q)) ℝ} (hK : Kᵀ = K) (hζ : (1 - K.toBlocks₁₁).PosDef) :
    TPMatrix (cj (xyR p q) * toC K * (xyR p q)ᴴ) ↔ K.toBlocks₂₂ + K.toBlocks₁₂ᵀ * (1 - K.toBlocks₁₁)⁻¹ * K.toBlocks₁₂ = 1 := by
  constructor
  · rintro ⟨b, c, hb, h⟩
    obtain ⟨β, rfl⟩ := bOf_spec hb
    exact ((tp_iff hK hζ β c).1 h).1
  · intro h
    refine ⟨_, Real.sqrt (1 - K.toBlocks₁₁).det, ?_, (tp_iff hK hζ 0 _).2 ⟨h, ?_, ?_⟩⟩
    · have e : (fun r : (p ⊕ p) ⊕ (q ⊕ q) => (((0 : (p ⊕ p) ⊕ (q ⊕ q) → ℝ) r : ℝ) : ℂ)) = 0 := by funext r; simp
      rw [e, Matrix.mulVec_zero]
      funext r
      simp
    · have e : (0 : (p ⊕ p) ⊕ (q ⊕ q) → ℝ) ∘ Sum.inl = 0 := rfl
      have e' : (0 : (p ⊕ p) ⊕ (q ⊕ q) → ℝ) ∘ Sum.inr = 0 := rfl
      rw [e, e', Matrix.mulVec_zero, add_zero]
    · have e : (0 : (p ⊕ p) ⊕ (q ⊕ q) → ℝ) ∘ Sum.inl = 0 := rfl
      have hd := hζ.det_pos
      rw [e, zero_dotProduct, mul_zero, Real.exp_zero, mul_one, div_self (by positivity)]

/-- The dimensions behind `is_TP`: `m = p + q` for the code, `2 q` for trace preservation. -/
theorem tp_dims {A : Matrix ((p ⊕ q) ⊕ (p ⊕ q)) ((p ⊕ q) ⊕ (p ⊕ q)) ℂ} (hs : Aᵀ = A) (hA : A = Xmat (p ⊕ q) * cj A * Xmat (p ⊕ q))
    (hpos : (1 - Xmat p * A.submatrix outIx outIx).PosDef) :
    ((∀ atol : ℝ, 0 < atol → isTP atol A = some True) ↔
      (1 - A.toBlocks₁₂ᵀ).det ≠ 0 ∧ Module.finrank ℂ (LinearMap.ker (1 - Xmat (p ⊕ q) * A).mulVecLin) = Fintype.card p + Fintype.card q) ∧
    (TPMatrix A ↔ Module.finrank ℂ (LinearMap.ker (1 - Xmat (p ⊕ q) * A).mulVecLin) = Fintype.card q + Fintype.card q) := by
  constructor
  · rw [isTP_iff]
    refine and_congr_right fun hd => ?_
    rw [tp_ker hs hA hd, ← Fintype.card_sum, ker_full, sub_eq_zero, eq_comm]
  · obtain ⟨hAK, hK⟩ := kOf_spec hs hA
    rw [hAK] at hpos ⊢
    have hζ := out_real hpos
    rw [tpMatrix_iff hK hζ, tp_real hK hζ.det_pos.ne', ← Fintype.card_sum, ker_full, sub_eq_zero, eq_comm]
    constructor
    · intro h
      rw [← h, toC_one]
    · intro h
      ext i j
      have := congrFun (congrFun h i) j
      rw [← toC_one] at this
      simp only [toC, Matrix.map_apply] at this
      exact_mod_cast this

/-- **C75 (is_TP)** For a Hermitian Gaussian map with as many output as input modes and a finite output trace, on which `is_TP` does not raise, `is_TP` is true for
every tolerance exactly if the map is trace preserving for some `b` and `c`. -/
theorem C75_is_TP {A : Matrix ((p ⊕ q) ⊕ (p ⊕ q)) ((p ⊕ q) ⊕ (p ⊕ q)) ℂ} (hs : Aᵀ = A) (hA : A = Xmat (p ⊕ q) * cj A * Xmat (p ⊕ q))
    (hpos : (1 - Xmat p * A.submatrix outIx outIx).PosDef) (hpq : Fintype.card p = Fintype.card q) (hr : ∀ atol : ℝ, isTP atol A ≠ none) :
    (∀ atol : ℝ, 0 < atol → isTP atol A = some True) ↔ TPMatrix A := by
  obtain ⟨h1, h2⟩ := tp_dims hs hA hpos
  rw [h1, h2, hpq]
  have hd : (1 - A.toBlocks₁₂ᵀ).det ≠ 0 := by
    intro h
    refine hr 1 ?_
    unfold isTP
    rw [if_pos h]
  exact ⟨fun h => h.2, fun h => ⟨hd, h⟩⟩

/-- **C75 (is_TP is wrong if the numbers of modes differ)** With different numbers of output and input modes `is_TP` is true for every tolerance only for maps that are
not trace preserving, whatever `b` and `c`. -/
theorem C75_is_TP_shape {A : Matrix ((p ⊕ q) ⊕ (p ⊕ q)) ((p ⊕ q) ⊕ (p ⊕ q)) ℂ} (hs : Aᵀ = A) (hA : A = Xmat (p ⊕ q) * cj A * Xmat (p ⊕ q))
    (hpos : (1 - Xmat p * A.submatrix outIx outIx).PosDef) (hpq : Fintype.card p ≠ Fintype.card q) (h : TPMatrix A) :
    ¬ ∀ atol : ℝ, 0 < atol → isTP atol A = some True := by
  obtain ⟨h1, h2⟩ := tp_dims hs hA hpos
  rw [h1]
  rw [h2] at h
  rintro ⟨-, h3⟩
  rw [h] at h3
  omega

/-- **C75 (from_XY)** The channel of `Channel.from_XY` is trace preserving exactly if `Xᵀ ξ⁻¹ d = 0`, in particular for `d = 0`. -/
theorem C75_from_XY {ħ : ℝ} (hħ : 0 < ħ) (X : Matrix (p ⊕ p) (q ⊕ q) ℝ) {Y : Matrix (p ⊕ p) (p ⊕ p) ℝ} (hξ : (xyXi ħ X Y).PosDef) (d : p ⊕ p → ℝ) :
    TracePres (fromXY ħ X Y d) ↔ (Xᵀ * (xyXi ħ X Y)⁻¹).mulVec d = 0 := by
  unfold fromXY
  set ξ := xyXi ħ X Y with hξd
  have hu : IsUnit ξ.det := (Matrix.isUnit_iff_isUnit_det _).1 hξ.isUnit
  have hi : ξ⁻¹⁻¹ = ξ := Matrix.nonsing_inv_nonsing_inv _ hu
  have hsy : ξ⁻¹ᵀ = ξ⁻¹ := by
    have := hξ.inv.isHermitian
    unfold IsHermitian at this
    rwa [conjTranspose_eq_transpose_of_trivial] at this
  have e : 1 - (xyK ξ X).toBlocks₁₁ = ξ⁻¹ := by unfold xyK; rw [toBlocks_fromBlocks₁₁, sub_sub_cancel]
  have e' : (xyK ξ X).toBlocks₁₂ = ξ⁻¹ * X := by unfold xyK; rw [toBlocks_fromBlocks₁₂]
  have e2 : (xyK ξ X).toBlocks₂₂ = 1 - Xᵀ * ξ⁻¹ * X := by unfold xyK; rw [toBlocks_fromBlocks₂₂]
  have hKT : (xyK ξ X)ᵀ = xyK ξ X := by
    unfold xyK
    rw [fromBlocks_transpose, transpose_sub, transpose_one, hsy, transpose_mul, hsy, transpose_transpose, transpose_mul, hsy,
      transpose_sub, transpose_one, transpose_mul, transpose_mul, hsy, transpose_transpose, Matrix.mul_assoc]
  set β : (p ⊕ p) ⊕ (q ⊕ q) → ℝ := (1 / Real.sqrt ħ : ℝ) • Sum.elim (ξ⁻¹.mulVec d) ((Xᵀ * ξ⁻¹).mulVec d) with hβ
  have hB : xyB ħ X Y d = (cj (xyR p q)).mulVec fun r => (β r : ℂ) := by
    unfold xyB
    rw [← Matrix.mulVec_smul, ← hξd]
    congr 1
    funext r
    simp [hβ]
  rw [xyA_eq, ← hξd, hB, tp_iff hKT (by rw [e]; exact hξ.inv), e, e', e2, hi]
  have hsq : Real.sqrt ħ ≠ 0 := by positivity
  have bo : β ∘ Sum.inl = (1 / Real.sqrt ħ : ℝ) • ξ⁻¹.mulVec d := rfl
  have bi : β ∘ Sum.inr = (1 / Real.sqrt ħ : ℝ) • (Xᵀ * ξ⁻¹).mulVec d := rfl
  have hL : (ξ⁻¹ * X)ᵀ * ξ = Xᵀ := by rw [transpose_mul, hsy, Matrix.mul_assoc, Matrix.nonsing_inv_mul _ hu, Matrix.mul_one]
  have c1 : 1 - Xᵀ * ξ⁻¹ * X + (ξ⁻¹ * X)ᵀ * ξ * (ξ⁻¹ * X) = 1 := by rw [hL, ← Matrix.mul_assoc, sub_add_cancel]
  have c2 : (β ∘ Sum.inr + ((ξ⁻¹ * X)ᵀ * ξ).mulVec (β ∘ Sum.inl)) = (2 / Real.sqrt ħ : ℝ) • (Xᵀ * ξ⁻¹).mulVec d := by
    rw [hL, bo, bi, Matrix.mulVec_smul, Matrix.mulVec_mulVec, ← two_smul ℝ, smul_smul, mul_one_div]
  have c3 : xyC ħ X Y d / Real.sqrt ξ⁻¹.det * Real.exp (1 / 2 * (β ∘ Sum.inl ⬝ᵥ ξ.mulVec (β ∘ Sum.inl))) = 1 := by
    have hq : β ∘ Sum.inl ⬝ᵥ ξ.mulVec (β ∘ Sum.inl) = 1 / ħ * (d ⬝ᵥ ξ⁻¹.mulVec d) := by
      rw [bo, Matrix.mulVec_smul, Matrix.mulVec_mulVec, Matrix.mul_nonsing_inv _ hu, Matrix.one_mulVec, smul_dotProduct, dotProduct_smul, smul_eq_mul, smul_eq_mul, ← mul_assoc,
        div_mul_div_comm, one_mul, Real.mul_self_sqrt hħ.le, dotProduct_comm]
    rw [hq]
    unfold xyC
    rw [← hξd, Matrix.det_nonsing_inv, Ring.inverse_eq_inv', Real.sqrt_inv]
    have hd := hξ.det_pos
    have hs2 : Real.sqrt ξ.det ≠ 0 := by positivity
    generalize d ⬝ᵥ ξ⁻¹.mulVec d = s
    have h3 : Real.exp (-(1 / 2) / ħ * s) * Real.exp (1 / 2 * (1 / ħ * s)) = 1 := by
      rw [← Real.exp_add, show -(1 / 2) / ħ * s + 1 / 2 * (1 / ħ * s) = 0 by ring, Real.exp_zero]
    generalize Real.exp (-(1 / 2) / ħ * s) = a at h3 ⊢
    generalize Real.exp (1 / 2 * (1 / ħ * s)) = b at h3 ⊢
    field_simp
    exact h3
  constructor
  · rintro ⟨-, h, -⟩
    rw [c2] at h
    exact (smul_eq_zero.1 h).resolve_left (by positivity)
  · intro h
    exact ⟨c1, by rw [c2, h, smul_zero], c3⟩

/-- The channels of `Channel.from_XY` have a finite output trace. -/
theorem xyA_out {ħ : ℝ} (X : Matrix (p ⊕ p) (q ⊕ q) ℝ) {Y : Matrix (p ⊕ p) (p ⊕ p) ℝ} (hξ : (xyXi ħ X Y).PosDef) :
    (1 - Xmat p * (xyA ħ X Y).submatrix outIx outIx).PosDef := by
  have hX : Xmat p * cj (rotmat p) = rotmat p := by rw [← Xmat_rot, ← Matrix.mul_assoc, Xmat_sq, Matrix.one_mul]
  have e1 : 1 - Xmat p * (xyA ħ X Y).submatrix outIx outIx = rotmat p * toC (xyXi ħ X Y)⁻¹ * (rotmat p)ᴴ := by
    rw [xyA_eq, sub_oo, ← Matrix.mul_assoc, ← Matrix.mul_assoc, hX]
    unfold xyK
    rw [toBlocks_fromBlocks₁₁, toC_sub, toC_one, Matrix.mul_sub, Matrix.sub_mul, Matrix.mul_one, rotmat_mul, sub_sub_cancel]
  rw [e1]
  have hru : IsUnit (rotmat p) := ⟨⟨rotmat p, (rotmat p)ᴴ, rotmat_mul, rotmat_mul'⟩, rfl⟩
  exact (hru.posDef_star_right_conjugate_iff).2 (toC_posDef hξ.inv)

/-- **C75 (is_TP accepts every from_XY)** `is_TP` accepts every channel of `Channel.from_XY` on as many output as input modes on which it does not raise: also
those with a displacement `d` for which `Xᵀ ξ⁻¹ d ≠ 0`, which are not trace preserving (`C75_from_XY`). -/
theorem C75_is_TP_from_XY {ħ : ℝ} (hħ : 0 < ħ) (X : Matrix (p ⊕ p) (q ⊕ q) ℝ) {Y : Matrix (p ⊕ p) (p ⊕ p) ℝ} (hξ : (xyXi ħ X Y).PosDef)
    (hpq : Fintype.card p = Fintype.card q) (hr : ∀ atol : ℝ, isTP atol (xyA ħ X Y) ≠ none) {atol : ℝ} (h0 : 0 < atol) : isTP atol (xyA ħ X Y) = some True := by
  obtain ⟨hs, hA⟩ := xyA_herm X hξ
  refine (C75_is_TP hs hA (xyA_out X hξ) hpq hr).2 ⟨xyB ħ X Y 0, xyC ħ X Y 0, xyB_herm ħ X Y 0, ?_⟩ atol h0
  exact (C75_from_XY hħ X hξ 0).2 (Matrix.mulVec_zero _)

/-- **C75 (is_TP raises on erasure)** `is_TP` raises on the channels with `X = 0`, which replace every state by a fixed one. -/
theorem C75_is_TP_raises [Nonempty q] {ħ : ℝ} {Y : Matrix (p ⊕ p) (p ⊕ p) ℝ} (atol : ℝ) : isTP atol (xyA (q := q) ħ 0 Y) = none := by
  unfold isTP
  rw [if_pos]
  obtain ⟨i⟩ := ‹Nonempty q›
  have hK : xyK (xyXi ħ (0 : Matrix (p ⊕ p) (q ⊕ q) ℝ) Y) (0 : Matrix (p ⊕ p) (q ⊕ q) ℝ) = fromBlocks (1 - (xyXi ħ (0 : Matrix (p ⊕ p) (q ⊕ q) ℝ) Y)⁻¹) 0 0 1 := by
    unfold xyK
    simp
  set e : (p ⊕ q) ⊕ (p ⊕ q) → ℂ := Sum.elim (Sum.elim 0 0) (Sum.elim 0 (Pi.single i 1)) with he
  have h1 : (toC (xyK (xyXi ħ (0 : Matrix (p ⊕ p) (q ⊕ q) ℝ) Y) (0 : Matrix (p ⊕ p) (q ⊕ q) ℝ))).mulVec ((xyR p q)ᴴ.mulVec e) = (xyR p q)ᴴ.mulVec e := by
    have h0 : (rotmat p)ᴴ.mulVec (Sum.elim (0 : p → ℂ) (0 : p → ℂ)) = 0 := by
      rw [show Sum.elim (0 : p → ℂ) (0 : p → ℂ) = 0 by funext r; rcases r with r | r <;> rfl, Matrix.mulVec_zero]
    rw [he, xyR_mul, h0, hK]
    rw [show toC (fromBlocks (1 - (xyXi ħ (0 : Matrix (p ⊕ p) (q ⊕ q) ℝ) Y)⁻¹) 0 0 (1 : Matrix (q ⊕ q) (q ⊕ q) ℝ)) =
      fromBlocks (toC (1 - (xyXi ħ (0 : Matrix (p ⊕ p) (q ⊕ q) ℝ) Y)⁻¹)) (toC 0) (toC 0) (toC 1) from fromBlocks_map .., fromBlocks_mulVec, Sum.elim_comp_inl, Sum.elim_comp_inr,
      toC_one, Matrix.one_mulVec, Matrix.mulVec_zero, Matrix.mulVec_zero]
    rw [zero_add, zero_add, show (toC (0 : Matrix (p ⊕ p) (q ⊕ q) ℝ)) = 0 by ext; simp [toC], Matrix.zero_mulVec]
  have h2 : (xyA ħ (0 : Matrix (p ⊕ p) (q ⊕ q) ℝ) Y).mulVec e = (Xmat (p ⊕ q)).mulVec e := by
    unfold xyA
    rw [← Matrix.mulVec_mulVec, ← Matrix.mulVec_mulVec, h1, Matrix.mulVec_mulVec, Matrix.mul_assoc, xyR_unit', Matrix.mul_one]
  refine Matrix.det_eq_zero_of_row_eq_zero (Sum.inr i) fun j => ?_
  have h3 := congrFun h2 (Sum.inl j)
  have h4 : ∀ M : Matrix ((p ⊕ q) ⊕ (p ⊕ q)) ((p ⊕ q) ⊕ (p ⊕ q)) ℂ, M.mulVec e (Sum.inl j) = M (Sum.inl j) (Sum.inr (Sum.inr i)) := by
    intro M
    have : e = Pi.single (Sum.inr (Sum.inr i)) 1 := by
      rw [he]
      funext r
      rcases r with (r | r) | (r | r) <;> simp [Pi.single_apply]
    rw [this]
    simp
  rw [h4, h4] at h3
  show (1 : Matrix (p ⊕ q) (p ⊕ q) ℂ) (Sum.inr i) j - (xyA ħ (0 : Matrix (p ⊕ p) (q ⊕ q) ℝ) Y) (Sum.inl j) (Sum.inr (Sum.inr i)) = 0
  rw [h3]
  unfold Xmat
  rw [fromBlocks_apply₁₂, sub_eq_zero, Matrix.one_apply, Matrix.one_apply]
  simp only [eq_comm]

end Verif.Manifold
