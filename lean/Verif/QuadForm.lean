import Verif.Inverse
import Verif.Homodyne

/-!
# Quadrature wave functions of components: `to_quadrature` and `from_quadrature` (C97)

A component with wires `W` and a Gaussian ansatz is a triple on `W`; each wire is on one of the four sides.  `to_quadrature` and
`from_quadrature` contract the wires of one side after the other with `BtoQ` or its inverse.
-/

namespace Verif.Manifold
open Matrix Verif.Gauss MeasureTheory

variable {W : Type*} [Fintype W] [DecidableEq W]

/-! ## The code -/

/-- The side of a wire: output bra, input bra, output ket, input ket (`mrmustard/physics/wires.py` 163-230). -/
inductive Sd | ob | ib | ok | ik
deriving DecidableEq

/-- Contraction of the wires in `P` of a component with the inputs of a transformation `V` (outputs first), for one batch element and an
ansatz without derived variables: `complex_gaussian_integral_1` (`mrmustard/physics/gaussian_integrals.py` 353-390, 477-504) after `join_Abc`
(block diagonal), the remaining variables in the order of the wires.  `none` if `M` is singular (the code then returns infinities). -/
noncomputable def contractOn (P : W → Prop) [DecidablePred P] (V : Matrix ({w // P w} ⊕ {w // P w}) ({w // P w} ⊕ {w // P w}) ℂ × ({w // P w} ⊕ {w // P w} → ℂ) × ℂ)
    (T : Matrix W W ℂ × (W → ℂ) × ℂ) : Option (Matrix W W ℂ × (W → ℂ) × ℂ) :=
  open Classical in
  let M := fromBlocks (T.1.submatrix Subtype.val Subtype.val) (-1) (-1) V.1.toBlocks₂₂
  let bM := Sum.elim (fun j : {w // P w} => T.2.1 j) (V.2.1 ∘ Sum.inr)
  let D : Matrix W ({w // P w} ⊕ {w // P w}) ℂ := Matrix.of fun w p => match p with
    | Sum.inl j => if P w then 0 else T.1 w j
    | Sum.inr j => if h : P w then V.1 (Sum.inl ⟨w, h⟩) (Sum.inr j) else 0
  let R : Matrix W W ℂ := Matrix.of fun w w' =>
    if h : P w then (if h' : P w' then V.1 (Sum.inl ⟨w, h⟩) (Sum.inl ⟨w', h'⟩) else 0) else if P w' then 0 else T.1 w w'
  let bR : W → ℂ := fun w => if h : P w then V.2.1 (Sum.inl ⟨w, h⟩) else T.2.1 w
  if M.det = 0 then none
  else some (R - D * M⁻¹ * Dᵀ, bR - D.mulVec (M⁻¹.mulVec bM),
    T.2.2 * V.2.2 * ((-1) ^ Fintype.card {w // P w} / M.det) ^ (1 / 2 : ℂ) * Complex.exp (-(1 / 2) * (bM ⬝ᵥ M⁻¹.mulVec bM)))

/-- `BtoQ` on the modes `n`: (quadrature, Bargmann) (`mrmustard/lab/circuit_components_utils/b_to_q.py` 60-73, `mrmustard/physics/triples.py` 762-805). -/
noncomputable def btoqT (n : Type*) [Fintype n] [DecidableEq n] (ħ φ : ℝ) : Matrix (n ⊕ n) (n ⊕ n) ℂ × (n ⊕ n → ℂ) × ℂ :=
  (bqA n ħ φ, 0, bqC ħ (Fintype.card n))

/-- `BtoQ.inverse`: (Bargmann, quadrature) (`mrmustard/lab/circuit_components_utils/b_to_q.py` 79-85). -/
noncomputable def qtobT (n : Type*) [Fintype n] [DecidableEq n] (ħ φ : ℝ) : Option (Matrix (n ⊕ n) (n ⊕ n) ℂ × (n ⊕ n → ℂ) × ℂ) :=
  inverseT (Equiv.refl _) (btoqT n ħ φ)

/-- Complex conjugation of a triple, `ansatz.conj` (`mrmustard/physics/ansatz/polyexp_ansatz.py` 168-174): `adjoint` and `dual` conjugate,
their composition does not. -/
def conjT {κ : Type*} (T : Matrix κ κ ℂ × (κ → ℂ) × ℂ) : Matrix κ κ ℂ × (κ → ℂ) × ℂ := (cj T.1, star T.2.1, (starRingEnd ℂ) T.2.2)

/-- `BtoQ_ob, BtoQ_ib, BtoQ_ok, BtoQ_ik` and `QtoB_ob, …` (`mrmustard/lab/circuit_components.py` 755-758, 299-302). -/
noncomputable def sideT (inv : Bool) (n : Type*) [Fintype n] [DecidableEq n] (ħ φ : ℝ) : Sd → Option (Matrix (n ⊕ n) (n ⊕ n) ℂ × (n ⊕ n → ℂ) × ℂ)
  | .ob => (if inv then qtobT n ħ φ else some (btoqT n ħ φ)).map conjT
  | .ib => ((if inv then qtobT n ħ φ else some (btoqT n ħ φ)).map conjT).map conjT
  | .ok => if inv then qtobT n ħ φ else some (btoqT n ħ φ)
  | .ik => (if inv then qtobT n ħ φ else some (btoqT n ħ φ)).map conjT

/-- One contraction: the wires on the side `d` change their representation. -/
noncomputable def quadStep (inv : Bool) (ħ φ : ℝ) (sd : W → Sd) (d : Sd) (T : Matrix W W ℂ × (W → ℂ) × ℂ) : Option (Matrix W W ℂ × (W → ℂ) × ℂ) :=
  (sideT inv {w // sd w = d} ħ φ d).bind fun V => contractOn (fun w => sd w = d) V T

/-- The contractions in the order `l`: `to_quadrature` for `inv = false`, `from_quadrature` for `inv = true`
(`mrmustard/lab/circuit_components.py` 742-766 and 270-306: the order `ik, ok, ib, ob`; `mrmustard/lab/states/base.py` 355-381 and
`mrmustard/lab/transformations/base.py` 109-128: the sides in another order, given by `>>`). -/
noncomputable def quadSteps (inv : Bool) (ħ φ : ℝ) (sd : W → Sd) : List Sd → Matrix W W ℂ × (W → ℂ) × ℂ → Option (Matrix W W ℂ × (W → ℂ) × ℂ)
  | [], T => some T
  | d :: l, T => (quadStep inv ħ φ sd d T).bind (quadSteps inv ħ φ sd l)

/-! ## Canonical transformations -/

/-- The gradient of the exponent. -/
def grad (T : Matrix W W ℂ × (W → ℂ) × ℂ) (z : W → ℂ) : W → ℂ := T.1.mulVec z + T.2.1

/-- The function of a triple. -/
noncomputable def ev (T : Matrix W W ℂ × (W → ℂ) × ℂ) (z : W → ℂ) : ℂ := bargFun T.1 T.2.1 T.2.2 z

/-- `T'` is the image of `T` under a canonical transformation `f` of position and gradient with generating function `g`. -/
structure Rel (f : (W → ℂ) → (W → ℂ) → (W → ℂ) × (W → ℂ)) (g : (W → ℂ) → (W → ℂ) → ℂ) (χ r : ℂ) (T T' : Matrix W W ℂ × (W → ℂ) × ℂ) : Prop where
  symm : T'.1ᵀ = T'.1
  ex : ∃ (J : Matrix W W ℂ) (j : W → ℂ), J.det ≠ 0 ∧ r ^ 2 * J.det = χ ∧ (∀ z, f z (grad T z) = (J.mulVec z + j, grad T' (J.mulVec z + j))) ∧
    ∀ z, ev T' (J.mulVec z + j) = r * Complex.exp (g z (grad T z)) * ev T z

theorem Rel.trans {f f' : (W → ℂ) → (W → ℂ) → (W → ℂ) × (W → ℂ)} {g g' : (W → ℂ) → (W → ℂ) → ℂ} {χ χ' r r' : ℂ} {T T' T'' : Matrix W W ℂ × (W → ℂ) × ℂ}
    (h : Rel f g χ r T T') (h' : Rel f' g' χ' r' T' T'') :
    Rel (fun z y => f' (f z y).1 (f z y).2) (fun z y => g z y + g' (f z y).1 (f z y).2) (χ * χ') (r * r') T T'' := by
  obtain ⟨J, j, hJ, hr, hf, he⟩ := h.ex
  obtain ⟨J', j', hJ', hr', hf', he'⟩ := h'.ex
  have e : ∀ z, (J' * J).mulVec z + (J'.mulVec j + j') = J'.mulVec (J.mulVec z + j) + j' := fun z => by
    rw [Matrix.mulVec_add, Matrix.mulVec_mulVec]; abel
  refine ⟨h'.symm, J' * J, J'.mulVec j + j', by rw [det_mul]; exact mul_ne_zero hJ' hJ, ?_, fun z => ?_, fun z => ?_⟩
  · rw [det_mul, ← hr, ← hr']; ring
  · rw [e, hf z]; exact hf' _
  · rw [e, he', he, hf z, Complex.exp_add]
    ring

theorem ext_of_affine {A A' : Matrix W W ℂ} {b b' : W → ℂ} (h : ∀ z, A.mulVec z + b = A'.mulVec z + b') : A = A' ∧ b = b' := by
  have hb : b = b' := by have := h 0; simpa using this
  refine ⟨?_, hb⟩
  apply Matrix.mulVec_injective
  funext z
  have := h z
  rw [hb] at this
  exact add_right_cancel this

/-- If the canonical transformation is the identity, the triple changes by a constant. -/
theorem Rel.eq {f : (W → ℂ) → (W → ℂ) → (W → ℂ) × (W → ℂ)} {g : (W → ℂ) → (W → ℂ) → ℂ} {χ r : ℂ} {T T' : Matrix W W ℂ × (W → ℂ) × ℂ}
    (h : Rel f g χ r T T') (hf : ∀ z y, f z y = (z, y)) (hg : ∀ z y, g z y = 0) : r ^ 2 = χ ∧ T' = (T.1, T.2.1, r * T.2.2) := by
  obtain ⟨J, j, hJ, hr, h1, h2⟩ := h.ex
  have e : ∀ z, J.mulVec z + j = z := fun z => by have := h1 z; rw [hf] at this; exact (congrArg Prod.fst this).symm
  have hJ1 : J = 1 ∧ j = 0 := ext_of_affine fun z => by rw [e, Matrix.one_mulVec, add_zero]
  have e2 : ∀ z, T'.1.mulVec z + T'.2.1 = T.1.mulVec z + T.2.1 := fun z => by
    have := h1 z
    rw [hf, e] at this
    exact (congrArg Prod.snd this).symm
  obtain ⟨eA, eb⟩ := ext_of_affine e2
  have ec := h2 0
  rw [e, hg, Complex.exp_zero, mul_one] at ec
  have ec' : T'.2.2 = r * T.2.2 := by
    unfold ev bargFun at ec
    simpa using ec
  refine ⟨by rw [← hr, hJ1.1, det_one, mul_one], ?_⟩
  rw [← eA, ← eb, ← ec']

/-! ## One contraction with a kernel whose blocks are multiples of the identity -/

/-- Position and gradient after a contraction on `P` with the kernel `exp(v q²/2 + s q u + t u²/2)`. -/
noncomputable def stepF (P : W → Prop) [DecidablePred P] (v s t : ℂ) (z y : W → ℂ) : (W → ℂ) × (W → ℂ) :=
  (fun w => if P w then (z w - t * y w) / s else z w, fun w => if P w then v * ((z w - t * y w) / s) + s * y w else y w)

/-- The generating function. -/
noncomputable def stepG (P : W → Prop) [DecidablePred P] (v s t : ℂ) (z y : W → ℂ) : ℂ :=
  ∑ i : {w // P w}, (1 / 2 * v * ((z i - t * y i) / s) ^ 2 - 1 / 2 * z i * y i + 1 / 2 * (z i - t * y i) * y i)

/-- The Jacobian. -/
noncomputable def stepJ (P : W → Prop) [DecidablePred P] (s t : ℂ) (A : Matrix W W ℂ) : Matrix W W ℂ :=
  Matrix.of fun w w' => if P w then ((1 : Matrix W W ℂ) w w' - t * A w w') / s else (1 : Matrix W W ℂ) w w'

theorem stepJ_mulVec (P : W → Prop) [DecidablePred P] (s t : ℂ) (A : Matrix W W ℂ) (z : W → ℂ) (w : W) :
    (stepJ P s t A).mulVec z w = if P w then (z w - t * A.mulVec z w) / s else z w := by
  unfold stepJ Matrix.mulVec dotProduct
  simp only [Matrix.of_apply]
  split_ifs with h
  · have : ∀ x, ((1 : Matrix W W ℂ) w x - t * A w x) / s * z x = ((1 : Matrix W W ℂ) w x * z x - t * (A w x * z x)) / s := fun x => by ring
    simp only [this, ← Finset.sum_div, Finset.sum_sub_distrib, ← Finset.mul_sum]
    simp [Matrix.one_apply]
  · simp [Matrix.one_apply]

theorem stepJ_det (P : W → Prop) [DecidablePred P] (s t : ℂ) (A : Matrix W W ℂ) :
    (stepJ P s t A).det = (1 - t • A.submatrix (Subtype.val : {w // P w} → W) Subtype.val).det / s ^ Fintype.card {w // P w} := by
  rw [Matrix.twoBlockTriangular_det _ P]
  · have e1 : (stepJ P s t A).toSquareBlockProp P = (1 / s : ℂ) • (1 - t • A.submatrix (Subtype.val : {w // P w} → W) Subtype.val) := by
      ext i j
      simp only [Matrix.toSquareBlockProp_def, stepJ, Matrix.of_apply, if_pos i.2, Matrix.smul_apply, Matrix.sub_apply, Matrix.submatrix_apply,
        Matrix.one_apply, Subtype.val_inj, smul_eq_mul]
      ring
    have e2 : (stepJ P s t A).toSquareBlockProp (fun i => ¬P i) = 1 := by
      ext i j
      simp only [Matrix.toSquareBlockProp_def, stepJ, Matrix.of_apply, if_neg i.2, Matrix.one_apply, Subtype.val_inj]
    rw [e1, e2, det_one, mul_one, Matrix.det_smul, one_div, inv_pow]
    ring
  · intro i hi j hj
    simp only [stepJ, Matrix.of_apply, if_neg hi]
    rw [Matrix.one_apply_ne]
    rintro rfl
    exact hi hj

theorem contractOn_none (P : W → Prop) [DecidablePred P] (v s t k : ℂ) (T : Matrix W W ℂ × (W → ℂ) × ℂ) :
    contractOn P (fromBlocks (v • 1) (s • 1) (s • 1) (t • 1), 0, k) T = none ↔
      (1 - t • T.1.submatrix (Subtype.val : {w // P w} → W) Subtype.val).det = 0 := by
  have hd := det_overlap (T.1.submatrix (Subtype.val : {w // P w} → W) Subtype.val) (t • 1)
  rw [Matrix.smul_mul, Matrix.one_mul] at hd
  unfold contractOn
  simp only [toBlocks_fromBlocks₂₂]
  rw [← hd]
  have hn : ((-1 : ℂ) ^ Fintype.card {w // P w}) ≠ 0 := pow_ne_zero _ (by norm_num)
  split_ifs with h
  · simp [h]
  · simp [h]

theorem contractOn_rel (P : W → Prop) [DecidablePred P] {v s t k : ℂ} (hs : s ≠ 0) {T T' : Matrix W W ℂ × (W → ℂ) × ℂ} (hT : T.1ᵀ = T.1)
    (h : contractOn P (fromBlocks (v • 1) (s • 1) (s • 1) (t • 1), 0, k) T = some T') :
    Rel (stepF P v s t) (stepG P v s t) (k ^ 2 / s ^ Fintype.card {w // P w})
      (k * (1 / (1 - t • T.1.submatrix (Subtype.val : {w // P w} → W) Subtype.val).det) ^ (1 / 2 : ℂ)) T T' := by
  have hd := det_overlap (T.1.submatrix (Subtype.val : {w // P w} → W) Subtype.val) (t • 1)
  rw [Matrix.smul_mul, Matrix.one_mul] at hd
  have hdn : (1 - t • T.1.submatrix (Subtype.val : {w // P w} → W) Subtype.val).det ≠ 0 := by
    intro h0
    rw [(contractOn_none P v s t k T).2 h0] at h
    exact absurd h (by simp)
  unfold contractOn at h
  simp only [toBlocks_fromBlocks₂₂] at h
  obtain ⟨M, hM⟩ : ∃ M : Matrix ({w // P w} ⊕ {w // P w}) ({w // P w} ⊕ {w // P w}) ℂ, M = fromBlocks (T.1.submatrix (Subtype.val : {w // P w} → W) Subtype.val) (-1) (-1) (t • (1 : Matrix {w // P w} {w // P w} ℂ)) := ⟨_, rfl⟩
  rw [← hM] at h hd
  have hMd : M.det ≠ 0 := by
    intro h0
    rw [h0, mul_zero] at hd
    exact hdn hd.symm
  rw [if_neg hMd, Option.some_inj] at h
  have hMs : Mᵀ = M := by
    rw [hM, fromBlocks_transpose, Matrix.transpose_submatrix, hT]
    simp
  have hMi : M⁻¹ᵀ = M⁻¹ := by rw [Matrix.transpose_nonsing_inv, hMs]
  obtain ⟨D, hD⟩ : ∃ D : Matrix W ({w // P w} ⊕ {w // P w}) ℂ, D = Matrix.of fun w p => match p with
    | Sum.inl j => if P w then 0 else T.1 w j
    | Sum.inr j => if h : P w then fromBlocks (v • (1 : Matrix {w // P w} {w // P w} ℂ)) (s • (1 : Matrix {w // P w} {w // P w} ℂ)) (s • (1 : Matrix {w // P w} {w // P w} ℂ)) (t • (1 : Matrix {w // P w} {w // P w} ℂ)) (Sum.inl ⟨w, h⟩) (Sum.inr j) else 0 := ⟨_, rfl⟩
  obtain ⟨R, hR⟩ : ∃ R : Matrix W W ℂ, R = Matrix.of fun w w' =>
    if h : P w then (if h' : P w' then fromBlocks (v • (1 : Matrix {w // P w} {w // P w} ℂ)) (s • (1 : Matrix {w // P w} {w // P w} ℂ)) (s • (1 : Matrix {w // P w} {w // P w} ℂ)) (t • (1 : Matrix {w // P w} {w // P w} ℂ)) (Sum.inl ⟨w, h⟩) (Sum.inl ⟨w', h'⟩) else 0) else if P w' then 0 else T.1 w w' := ⟨_, rfl⟩
  obtain ⟨bM, hbM⟩ : ∃ bM : {w // P w} ⊕ {w // P w} → ℂ, bM = Sum.elim (fun j : {w // P w} => T.2.1 j) ((0 : {w // P w} ⊕ {w // P w} → ℂ) ∘ Sum.inr) := ⟨_, rfl⟩
  obtain ⟨bR, hbR⟩ : ∃ bR : W → ℂ, bR = fun w => if h : P w then (0 : {w // P w} ⊕ {w // P w} → ℂ) (Sum.inl ⟨w, h⟩) else T.2.1 w := ⟨_, rfl⟩
  rw [← hD, ← hR, ← hbM, ← hbR] at h
  have hsum : ∀ f : W → ℂ, ∑ w, f w = (∑ i : {w // P w}, f i) + ∑ i : {w // ¬P w}, f i := fun f => (Fintype.sum_subtype_add_sum_subtype P f).symm
  have hDl : ∀ w j, D w (Sum.inl j) = if P w then 0 else T.1 w j := fun w j => by rw [hD]; rfl
  have hDr : ∀ w (j : {w // P w}), D w (Sum.inr j) = if w = j.1 then s else 0 := fun w j => by
    rw [hD]
    simp only [Matrix.of_apply]
    by_cases hw : P w
    · rw [dif_pos hw, fromBlocks_apply₁₂, Matrix.smul_apply, Matrix.one_apply, smul_eq_mul, mul_ite, mul_one, mul_zero]
      simp only [Subtype.ext_iff]
    · rw [dif_neg hw, if_neg]
      rintro rfl
      exact hw j.2
  have hRp : ∀ (i : {w // P w}) (w' : W), R i w' = if i.1 = w' then v else 0 := fun i w' => by
    rw [hR]
    simp only [Matrix.of_apply]
    rw [dif_pos i.2]
    by_cases hw : P w'
    · rw [dif_pos hw, fromBlocks_apply₁₁, Matrix.smul_apply, Matrix.one_apply, smul_eq_mul, mul_ite, mul_one, mul_zero]
      simp only [Subtype.ext_iff]
    · rw [dif_neg hw, if_neg]
      rintro rfl
      exact hw i.2
  have hRn : ∀ (i : {w // ¬P w}) (w' : W), R i w' = if P w' then 0 else T.1 i w' := fun i w' => by
    rw [hR]
    simp only [Matrix.of_apply]
    rw [dif_neg i.2]
  have hRs : Rᵀ = R := by
    ext w w'
    rw [Matrix.transpose_apply]
    by_cases hw : P w
    · rw [hRp ⟨w, hw⟩ w']
      by_cases hw' : P w'
      · rw [hRp ⟨w', hw'⟩ w]
        exact if_congr eq_comm rfl rfl
      · rw [hRn ⟨w', hw'⟩ w, if_pos hw, if_neg]
        rintro rfl
        exact hw' hw
    · rw [hRn ⟨w, hw⟩ w']
      by_cases hw' : P w'
      · rw [hRp ⟨w', hw'⟩ w, if_pos hw', if_neg]
        rintro rfl
        exact hw hw'
      · rw [hRn ⟨w', hw'⟩ w, if_neg hw, if_neg hw']
        exact congrFun (congrFun hT w) w'
  have hA : ∀ w w', T.1 w w' = T.1 w' w := fun w w' => congrFun (congrFun hT w') w
  -- the stationary point
  obtain ⟨jv, hjv⟩ : ∃ jv : W → ℂ, jv = fun w => if P w then -(t * T.2.1 w) / s else 0 := ⟨_, rfl⟩
  have hq : ∀ z w, ((stepJ P s t T.1).mulVec z + jv) w = if P w then (z w - t * grad T z w) / s else z w := fun z w => by
    rw [Pi.add_apply, stepJ_mulVec, hjv]
    unfold grad
    dsimp only
    split_ifs
    · rw [Pi.add_apply]; ring
    · ring
  have hDq : ∀ z, Dᵀ.mulVec ((stepJ P s t T.1).mulVec z + jv) + bM = Sum.elim (fun j : {w // P w} => (∑ i : {w // ¬P w}, T.1 j i * z i) + T.2.1 j) (fun j : {w // P w} => z j - t * grad T z j) := fun z => by
    funext p
    rcases p with j | j
    · rw [Pi.add_apply, hbM, Sum.elim_inl, Sum.elim_inl]
      refine congrArg (· + T.2.1 j) ?_
      show ∑ w, Dᵀ (Sum.inl j) w * _ = _
      rw [hsum]
      simp only [hq, Matrix.transpose_apply, hDl]
      rw [Finset.sum_eq_zero (fun i _ => by rw [if_pos i.2, zero_mul]), zero_add]
      refine Finset.sum_congr rfl fun i _ => ?_
      rw [if_neg i.2, if_neg i.2, hA]
    · rw [Pi.add_apply, hbM, Sum.elim_inr, Sum.elim_inr]
      show ∑ w, Dᵀ (Sum.inr j) w * _ + 0 = _
      simp only [hq, Matrix.transpose_apply, hDr, ite_mul, zero_mul]
      rw [Finset.sum_ite_eq' Finset.univ j.1, if_pos (Finset.mem_univ _), if_pos j.2, add_zero]
      field_simp
  have hy : ∀ z w, grad T z w = (∑ i : {w // P w}, T.1 w i * z i) + (∑ i : {w // ¬P w}, T.1 w i * z i) + T.2.1 w := fun z w => by
    unfold grad
    rw [Pi.add_apply]
    refine congrArg (· + T.2.1 w) ?_
    exact hsum _
  have hMx : ∀ z, M.mulVec (Sum.elim (fun j : {w // P w} => z j) (fun j : {w // P w} => grad T z j)) = -(Dᵀ.mulVec ((stepJ P s t T.1).mulVec z + jv) + bM) := fun z => by
    rw [hDq, hM, fromBlocks_mulVec, Sum.elim_comp_inl, Sum.elim_comp_inr]
    funext p
    rcases p with j | j
    · rw [Sum.elim_inl, Pi.neg_apply, Sum.elim_inl, Matrix.neg_mulVec, Matrix.one_mulVec, Pi.add_apply, Pi.neg_apply, hy]
      show ∑ i : {w // P w}, T.1 j i * z i + _ = _
      ring
    · rw [Sum.elim_inr, Pi.neg_apply, Sum.elim_inr, Matrix.neg_mulVec, Matrix.one_mulVec, Matrix.smul_mulVec, Matrix.one_mulVec, Pi.add_apply, Pi.neg_apply,
        Pi.smul_apply, smul_eq_mul]
      ring
  have hMu : IsUnit M.det := isUnit_iff_ne_zero.2 hMd
  have hinv : ∀ z, M⁻¹.mulVec (Dᵀ.mulVec ((stepJ P s t T.1).mulVec z + jv) + bM) = -Sum.elim (fun j : {w // P w} => z j) (fun j : {w // P w} => grad T z j) := fun z => by
    rw [← neg_eq_iff_eq_neg, ← Matrix.mulVec_neg, ← hMx, Matrix.mulVec_mulVec, Matrix.nonsing_inv_mul _ hMu, Matrix.one_mulVec]
  have hT1 : T'.1 = R - D * M⁻¹ * Dᵀ := by rw [← h]
  have hT2 : T'.2.1 = bR - D.mulVec (M⁻¹.mulVec bM) := by rw [← h]
  have hT3 : T'.2.2 = T.2.2 * k * ((-1) ^ Fintype.card {w // P w} / M.det) ^ (1 / 2 : ℂ) * Complex.exp (-(1 / 2) * (bM ⬝ᵥ M⁻¹.mulVec bM)) := by rw [← h]
  have hroot : (-1) ^ Fintype.card {w // P w} / M.det = 1 / (1 - t • T.1.submatrix (Subtype.val : {w // P w} → W) Subtype.val).det := by
    rw [← hd]
    have h2 : ((-1 : ℂ) ^ Fintype.card {w // P w}) * (-1) ^ Fintype.card {w // P w} = 1 := by rw [← mul_pow]; norm_num
    rw [div_eq_div_iff hMd (mul_ne_zero (pow_ne_zero _ (by norm_num)) hMd), one_mul, ← mul_assoc, h2, one_mul]
  have hgrad : ∀ z, grad T' ((stepJ P s t T.1).mulVec z + jv) = R.mulVec ((stepJ P s t T.1).mulVec z + jv) + bR +
      D.mulVec (Sum.elim (fun j : {w // P w} => z j) (fun j : {w // P w} => grad T z j)) := fun z => by
    have h2 := congrArg D.mulVec (hinv z)
    rw [Matrix.mulVec_neg, Matrix.mulVec_add, Matrix.mulVec_add] at h2
    unfold grad at h2 ⊢
    rw [hT1, hT2, Matrix.sub_mulVec, ← Matrix.mulVec_mulVec, ← Matrix.mulVec_mulVec, ← sub_neg_eq_add _ (D.mulVec _), ← h2]
    abel
  have hRq : ∀ z, (∀ i : {w // P w}, R.mulVec ((stepJ P s t T.1).mulVec z + jv) i = v * ((z i - t * grad T z i) / s)) ∧
      ∀ i : {w // ¬P w}, R.mulVec ((stepJ P s t T.1).mulVec z + jv) i = ∑ j : {w // ¬P w}, T.1 i j * z j := fun z => by
    constructor
    · intro i
      show ∑ w, R i w * _ = _
      simp only [hRp, hq, ite_mul, zero_mul]
      rw [Finset.sum_ite_eq Finset.univ i.1, if_pos (Finset.mem_univ _), if_pos i.2]
    · intro i
      show ∑ w, R i w * _ = _
      rw [hsum]
      simp only [hRn, hq]
      rw [Finset.sum_eq_zero (fun i _ => by rw [if_pos i.2, zero_mul]), zero_add]
      refine Finset.sum_congr rfl fun j _ => ?_
      rw [if_neg j.2, if_neg j.2]
  have hpP : ∀ z, ∀ i : {w // P w}, (R.mulVec ((stepJ P s t T.1).mulVec z + jv) + bR +
      D.mulVec (Sum.elim (fun j : {w // P w} => z j) (fun j : {w // P w} => grad T z j))) i = v * ((z i - t * grad T z i) / s) + s * grad T z i := fun z i => by
    rw [Pi.add_apply, Pi.add_apply, (hRq z).1, hbR]
    dsimp only
    rw [dif_pos i.2, Pi.zero_apply, add_zero]
    refine congrArg (HAdd.hAdd _) ?_
    show ∑ p, D i p * _ = _
    rw [Fintype.sum_sum_type]
    simp only [hDl, hDr, Sum.elim_inl, Sum.elim_inr, if_pos i.2, zero_mul, Finset.sum_const_zero, zero_add, ite_mul]
    rw [Finset.sum_eq_single i, if_pos rfl]
    · intro j _ hj
      rw [if_neg]
      exact fun e => hj (Subtype.ext e.symm)
    · exact fun e => absurd (Finset.mem_univ _) e
  have hpN : ∀ z, ∀ i : {w // ¬P w}, (R.mulVec ((stepJ P s t T.1).mulVec z + jv) + bR +
      D.mulVec (Sum.elim (fun j : {w // P w} => z j) (fun j : {w // P w} => grad T z j))) i = grad T z i := fun z i => by
    rw [Pi.add_apply, Pi.add_apply, (hRq z).2, hbR, hy]
    dsimp only
    rw [dif_neg i.2]
    have : D.mulVec (Sum.elim (fun j : {w // P w} => z j) (fun j : {w // P w} => grad T z j)) i = ∑ j : {w // P w}, T.1 i j * z j := by
      show ∑ p, D i p * _ = _
      rw [Fintype.sum_sum_type]
      simp only [hDl, hDr, Sum.elim_inl, Sum.elim_inr, if_neg i.2]
      rw [Finset.sum_eq_zero (s := Finset.univ) (f := fun x : {w // P w} => (if i.1 = x.1 then s else 0) * grad T z x), add_zero]
      intro j _
      rw [if_neg, zero_mul]
      intro e
      exact i.2 (e ▸ j.2)
    rw [this]
    ring
  refine ⟨?_, stepJ P s t T.1, jv, ?_, ?_, fun z => ?_, fun z => ?_⟩
  · rw [hT1, transpose_sub, transpose_mul, transpose_mul, hMi, transpose_transpose, hRs, Matrix.mul_assoc]
  · rw [stepJ_det]
    exact div_ne_zero hdn (pow_ne_zero _ hs)
  · rw [stepJ_det, mul_pow, sqrt_sq]
    field_simp
  · have h1 : (stepJ P s t T.1).mulVec z + jv = fun w => if P w then (z w - t * grad T z w) / s else z w := funext (hq z)
    refine Prod.ext h1.symm ?_
    dsimp only [stepF]
    rw [hgrad]
    funext w
    split_ifs with hw
    · exact (hpP z ⟨w, hw⟩).symm
    · exact (hpN z ⟨w, hw⟩).symm
  · unfold ev bargFun
    rw [hT3, hroot]
    have hv : 1 / 2 * (((stepJ P s t T.1).mulVec z + jv) ⬝ᵥ T'.1.mulVec ((stepJ P s t T.1).mulVec z + jv)) + T'.2.1 ⬝ᵥ ((stepJ P s t T.1).mulVec z + jv) - 1 / 2 * (bM ⬝ᵥ M⁻¹.mulVec bM) =
        stepG P v s t z (grad T z) + (1 / 2 * (z ⬝ᵥ T.1.mulVec z) + T.2.1 ⬝ᵥ z) := by
      obtain ⟨q, hqd⟩ : ∃ q, q = (stepJ P s t T.1).mulVec z + jv := ⟨_, rfl⟩
      have hqP : ∀ i : {w // P w}, q i = (z i - t * grad T z i) / s := fun i => by rw [hqd, hq, if_pos i.2]
      have hqN : ∀ i : {w // ¬P w}, q i = z i := fun i => by rw [hqd, hq, if_neg i.2]
      have gP : ∀ i : {w // P w}, grad T' q i = v * ((z i - t * grad T z i) / s) + s * grad T z i := fun i => by rw [hqd, hgrad, hpP]
      have gN : ∀ i : {w // ¬P w}, grad T' q i = grad T z i := fun i => by rw [hqd, hgrad, hpN]
      have hi := hinv z
      rw [← hqd] at hi ⊢
      have k1 : q ⬝ᵥ T'.1.mulVec q = q ⬝ᵥ grad T' q - q ⬝ᵥ T'.2.1 := by
        unfold grad; rw [dotProduct_add]; ring
      have k2 : T'.2.1 ⬝ᵥ q = bR ⬝ᵥ q - Dᵀ.mulVec q ⬝ᵥ M⁻¹.mulVec bM := by
        rw [hT2, sub_dotProduct, dotProduct_comm (D.mulVec _), Matrix.dotProduct_mulVec, ← Matrix.mulVec_transpose]
      have k3 : (Dᵀ.mulVec q + bM) ⬝ᵥ M⁻¹.mulVec bM = -(bM ⬝ᵥ Sum.elim (fun j : {w // P w} => z j) (fun j : {w // P w} => grad T z j)) := by
        rw [dotProduct_comm, dotProduct_comm (M⁻¹.mulVec bM), Matrix.dotProduct_mulVec, ← Matrix.mulVec_transpose, hMi, hi, neg_dotProduct, dotProduct_comm]
      rw [add_dotProduct] at k3
      have k4 : bM ⬝ᵥ Sum.elim (fun j : {w // P w} => z j) (fun j : {w // P w} => grad T z j) = ∑ j : {w // P w}, T.2.1 j * z j := by
        rw [hbM, sumElim_dotProduct_sumElim, Pi.zero_comp, zero_dotProduct, add_zero]
        rfl
      have k5 : bR ⬝ᵥ q = ∑ j : {w // ¬P w}, T.2.1 j * z j := by
        show ∑ w, bR w * q w = _
        rw [hsum, hbR]
        simp only
        rw [Finset.sum_eq_zero (fun i _ => by rw [dif_pos i.2, Pi.zero_apply, zero_mul]), zero_add]
        refine Finset.sum_congr rfl fun i _ => ?_
        rw [dif_neg i.2, hqN]
      have k6 : q ⬝ᵥ grad T' q = (∑ i : {w // P w}, (v * ((z i - t * grad T z i) / s) ^ 2 + (z i - t * grad T z i) * grad T z i)) + ∑ i : {w // ¬P w}, z i * grad T z i := by
        show ∑ w, q w * grad T' q w = _
        rw [hsum]
        refine congrArg₂ (· + ·) (Finset.sum_congr rfl fun i _ => ?_) (Finset.sum_congr rfl fun i _ => ?_)
        · rw [hqP, gP]; field_simp
        · rw [hqN, gN]
      have k7 : T.2.1 ⬝ᵥ z = (∑ j : {w // P w}, T.2.1 j * z j) + ∑ j : {w // ¬P w}, T.2.1 j * z j := hsum _
      have k8 : z ⬝ᵥ T.1.mulVec z = z ⬝ᵥ grad T z - T.2.1 ⬝ᵥ z := by
        unfold grad; rw [dotProduct_add, dotProduct_comm z T.2.1]; ring
      have k9 : z ⬝ᵥ grad T z = (∑ i : {w // P w}, z i * grad T z i) + ∑ i : {w // ¬P w}, z i * grad T z i := hsum _
      have k10 : stepG P v s t z (grad T z) = 1 / 2 * (∑ i : {w // P w}, (v * ((z i - t * grad T z i) / s) ^ 2 + (z i - t * grad T z i) * grad T z i)) - 1 / 2 * ∑ i : {w // P w}, z i * grad T z i := by
        unfold stepG
        rw [Finset.mul_sum, Finset.mul_sum, ← Finset.sum_sub_distrib]
        exact Finset.sum_congr rfl fun i _ => by ring
      rw [k1, k6, dotProduct_comm q, k2, k5, k8, k9, k7, k10]
      linear_combination (-1 / 2 : ℂ) * k3 + (1 / 2 : ℂ) * k4
    rw [show T.2.2 * k * (1 / (1 - t • T.1.submatrix (Subtype.val : {w // P w} → W) Subtype.val).det) ^ (1 / 2 : ℂ) * Complex.exp (-(1 / 2) * (bM ⬝ᵥ M⁻¹.mulVec bM)) * Complex.exp (1 / 2 * (((stepJ P s t T.1).mulVec z + jv) ⬝ᵥ T'.1.mulVec ((stepJ P s t T.1).mulVec z + jv)) + T'.2.1 ⬝ᵥ ((stepJ P s t T.1).mulVec z + jv)) =
      T.2.2 * k * (1 / (1 - t • T.1.submatrix (Subtype.val : {w // P w} → W) Subtype.val).det) ^ (1 / 2 : ℂ) * (Complex.exp (-(1 / 2) * (bM ⬝ᵥ M⁻¹.mulVec bM)) * Complex.exp (1 / 2 * (((stepJ P s t T.1).mulVec z + jv) ⬝ᵥ T'.1.mulVec ((stepJ P s t T.1).mulVec z + jv)) + T'.2.1 ⬝ᵥ ((stepJ P s t T.1).mulVec z + jv))) by ring]
    rw [← Complex.exp_add, show ∀ x y : ℂ, -(1 / 2) * x + y = y - 1 / 2 * x from fun x y => by ring, hv, Complex.exp_add]
    ring

end Verif.Manifold
