import Verif.Reproduce
import Verif.PhaseShift

/-!
# Stellar decompositions of kets (C78)

Model of `Ket.formal_stellar_decomposition` and `Ket.physical_stellar_decomposition` (lab/states/ket.py 341-519). The modes are split into the core modes
`m` and the other modes `k`: the model works in the order "core modes, then other modes" into which the code reorders the triple before it starts
and from which it reorders the results at the end. One batch element.
-/

namespace Verif.Manifold
open Matrix Verif.Gauss MeasureTheory
open scoped ComplexOrder MatrixOrder

variable {m k : Type*} [Fintype m] [DecidableEq m] [Fintype k] [DecidableEq k]

/-! ## Specification -/

/-- The Bargmann function of the triple `(A, b, c)`. -/
noncomputable def bargFun {κ : Type*} [Fintype κ] (A : Matrix κ κ ℂ) (b : κ → ℂ) (c : ℂ) (z : κ → ℂ) : ℂ :=
  c * Complex.exp (1 / 2 * (z ⬝ᵥ A.mulVec z) + b ⬝ᵥ z)

/-- The Bargmann function of an operator, with the output variables first. -/
noncomputable def bargOp (A : Matrix (m ⊕ m) (m ⊕ m) ℂ) (b : m ⊕ m → ℂ) (c : ℂ) (z w : m → ℂ) : ℂ := bargFun A b c (Sum.elim z w)

/-- `ψ >> T` for an operator `T` on the modes `m` and a ket on the modes `m` and `k`: `(T ⊗ 1) ψ`. -/
noncomputable def applyOn (T : (m → ℂ) → (m → ℂ) → ℂ) (ψ : (m ⊕ k → ℂ) → ℂ) (z : m ⊕ k → ℂ) : ℂ :=
  ((Real.pi : ℂ) ^ Fintype.card m)⁻¹ * ∫ u : m → ℂ, T (z ∘ Sum.inl) (star u) * ψ (Sum.elim u (z ∘ Sum.inr)) * Complex.exp (-∑ i, (‖u i‖ : ℂ) ^ 2)

/-- A ket is a core state on the modes `m`: projected on the vacuum of the other modes it is a multiple of the vacuum. -/
def IsCore (ψ : (m ⊕ k → ℂ) → ℂ) : Prop := ∃ c, ∀ w : m → ℂ, ψ (Sum.elim w 0) = c

/-- An operator is unitary. -/
def IsUnitaryOp (U : (m → ℂ) → (m → ℂ) → ℂ) : Prop := (∀ z v, opMul (opAdj U) U z v = opId z v) ∧ ∀ z v, opMul U (opAdj U) z v = opId z v

/-! ## The code -/

/-- `As = block([[Om, R_transpose], [R, An]])`, `bs = (0, bn)` (lab/states/ket.py 384-400). -/
def formalCoreA (A : Matrix (m ⊕ k) (m ⊕ k) ℂ) : Matrix (m ⊕ k) (m ⊕ k) ℂ := fromBlocks 0 A.toBlocks₂₁ᵀ A.toBlocks₂₁ A.toBlocks₂₂
/-- `bs` (lab/states/ket.py 399). -/
def coreB (b : m ⊕ k → ℂ) : m ⊕ k → ℂ := Sum.elim 0 (b ∘ Sum.inr)
/-- `At = block([[Am, Im], [Im, Om]])` (lab/states/ket.py 413-414). -/
def formalA (A : Matrix (m ⊕ k) (m ⊕ k) ℂ) : Matrix (m ⊕ m) (m ⊕ m) ℂ := fromBlocks A.toBlocks₁₁ 1 1 0
/-- `bt = (bm, 0)` (lab/states/ket.py 415). -/
def formalB (b : m ⊕ k → ℂ) : m ⊕ m → ℂ := Sum.elim (b ∘ Sum.inl) 0

/-- `Ket.formal_stellar_decomposition` (lab/states/ket.py 341-418): the core ket and the operation. -/
noncomputable def formalStellar (A : Matrix (m ⊕ k) (m ⊕ k) ℂ) (b : m ⊕ k → ℂ) (c : ℂ) : ((m ⊕ k → ℂ) → ℂ) × ((m → ℂ) → (m → ℂ) → ℂ) :=
  (bargFun (formalCoreA A) (coreB b) c, bargOp (formalA A) (formalB b) 1)

/-- `V, λ` is what `eigh(G)` may return: `V` is unitary and `G = V diag(λ) V†`. -/
def IsEigh (G V : Matrix m m ℂ) (lam : m → ℝ) : Prop := Vᴴ * V = 1 ∧ G = V * diagonal (fun i => (lam i : ℂ)) * Vᴴ

/-- `gamma_squared = 1 - Am conj(Am)` (lab/states/ket.py 473). -/
def gammaSq (a : Matrix m m ℂ) : Matrix m m ℂ := 1 - a * cj a
/-- `gamma = V diag(sqrt λ) V†` (lab/states/ket.py 476-481). -/
noncomputable def gammaOf (V : Matrix m m ℂ) (lam : m → ℝ) : Matrix m m ℂ := V * diagonal (fun i => ((Real.sqrt (lam i) : ℝ) : ℂ)) * Vᴴ
/-- `Au` (lab/states/ket.py 486). -/
def physA (a g : Matrix m m ℂ) : Matrix (m ⊕ m) (m ⊕ m) ℂ := fromBlocks a g gᵀ (-cj a)
/-- `bu_in = -conj(Am) gamma_inv_T bm - gamma_inv conj(bm)` (lab/states/ket.py 488-493). -/
noncomputable def physBin (a g : Matrix m m ℂ) (bm : m → ℂ) : m → ℂ := -(cj a * g⁻¹ᵀ).mulVec bm - g⁻¹.mulVec (star bm)
/-- The unitary before renormalisation, with `c = 1` (lab/states/ket.py 494-496). -/
noncomputable def physU1 (a g : Matrix m m ℂ) (bm : m → ℂ) : (m → ℂ) → (m → ℂ) → ℂ := bargOp (physA a g) (Sum.elim bm (physBin a g bm)) 1
/-- The `c` of the unitary after `U /= sqrt(u_renorm)`, where `u_renorm` is the scalar of the triple of `U.contract(U.dual)` (lab/states/ket.py 498-500):
the value at the origin of the Bargmann function of `U† U`. -/
noncomputable def physC (a g : Matrix m m ℂ) (bm : m → ℂ) : ℂ := 1 / (opMul (opAdj (physU1 a g bm)) (physU1 a g bm) 0 0) ^ (1 / 2 : ℂ)
/-- `A_core` (lab/states/ket.py 502-508). -/
noncomputable def physCoreA (A : Matrix (m ⊕ k) (m ⊕ k) ℂ) (g : Matrix m m ℂ) : Matrix (m ⊕ k) (m ⊕ k) ℂ :=
  let R := A.toBlocks₂₁
  let a := A.toBlocks₁₁
  fromBlocks 0 (g⁻¹ * Rᵀ) (R * g⁻¹ᵀ) (A.toBlocks₂₂ + R * ((cj a)⁻¹ - a)⁻¹ * Rᵀ)
/-- `b_core` (lab/states/ket.py 510-512). -/
noncomputable def physCoreB (A : Matrix (m ⊕ k) (m ⊕ k) ℂ) (b : m ⊕ k → ℂ) (g : Matrix m m ℂ) : m ⊕ k → ℂ :=
  Sum.elim 0 (b ∘ Sum.inr - (A.toBlocks₂₁ * g⁻¹ᵀ).mulVec (physBin A.toBlocks₁₁ g (b ∘ Sum.inl)))

/-- `Ket.physical_stellar_decomposition` (lab/states/ket.py 420-519) when `eigh(gamma_squared)` returned `(lam, V)`: the core ket and the unitary.
`none` is the `LinAlgError` of one of the three calls of `inv` (484, 506). -/
noncomputable def physStellar (V : Matrix m m ℂ) (lam : m → ℝ) (A : Matrix (m ⊕ k) (m ⊕ k) ℂ) (b : m ⊕ k → ℂ) (c : ℂ) :
    Option (((m ⊕ k → ℂ) → ℂ) × ((m → ℂ) → (m → ℂ) → ℂ)) :=
  open Classical in
  let a := A.toBlocks₁₁
  let g := gammaOf V lam
  let bm := b ∘ Sum.inl
  if g.det = 0 ∨ (cj a).det = 0 ∨ ((cj a)⁻¹ - a).det = 0 then none
  else some (bargFun (physCoreA A g) (physCoreB A b g) (c / physC a g bm), bargOp (physA a g) (Sum.elim bm (physBin a g bm)) (physC a g bm))

/-! ## The formal decomposition -/

theorem blocks_dot (A11 : Matrix m m ℂ) (A12 : Matrix m k ℂ) (A22 : Matrix k k ℂ) (x : m → ℂ) (y : k → ℂ) :
    Sum.elim x y ⬝ᵥ (fromBlocks A11 A12 A12ᵀ A22).mulVec (Sum.elim x y) = x ⬝ᵥ A11.mulVec x + 2 * (x ⬝ᵥ A12.mulVec y) + y ⬝ᵥ A22.mulVec y := by
  rw [fromBlocks_mulVec, Sum.elim_comp_inl, Sum.elim_comp_inr, sumElim_dotProduct_sumElim, dotProduct_add, dotProduct_add, Matrix.mulVec_transpose,
    dotProduct_comm y (Matrix.vecMul _ _), ← Matrix.dotProduct_mulVec]
  ring

/-- Contracting an operator whose in-in block is `Q` with a ket of the form `c exp(w·(B y) + ½ y·D y + d·y)` evaluates the operator at `w = B y`. -/
theorem applyOn_core {a g Q : Matrix m m ℂ} (hQ : Qᵀ = Q) (sQ : Shrinks Q) (b e : m → ℂ) (t c : ℂ) (B : Matrix m k ℂ) (D : Matrix k k ℂ) (d : k → ℂ) (z : m ⊕ k → ℂ) :
    applyOn (bargOp (fromBlocks a g gᵀ Q) (Sum.elim b e) t) (bargFun (fromBlocks 0 B Bᵀ D) (Sum.elim 0 d) c) z =
      t * c * Complex.exp (1 / 2 * (z ∘ Sum.inl ⬝ᵥ a.mulVec (z ∘ Sum.inl)) + z ∘ Sum.inl ⬝ᵥ g.mulVec (B.mulVec (z ∘ Sum.inr)) +
        1 / 2 * (B.mulVec (z ∘ Sum.inr) ⬝ᵥ Q.mulVec (B.mulVec (z ∘ Sum.inr))) + b ⬝ᵥ z ∘ Sum.inl + e ⬝ᵥ B.mulVec (z ∘ Sum.inr) +
          1 / 2 * (z ∘ Sum.inr ⬝ᵥ D.mulVec (z ∘ Sum.inr)) + d ⬝ᵥ z ∘ Sum.inr) := by
  unfold applyOn
  obtain ⟨x, hx⟩ : ∃ x, x = z ∘ Sum.inl := ⟨_, rfl⟩
  obtain ⟨y, hy⟩ : ∃ y, y = z ∘ Sum.inr := ⟨_, rfl⟩
  rw [← hx, ← hy]
  have key := reproduce hQ sQ (B.mulVec y) (gᵀ.mulVec x + e)
  have ei : ∀ u : m → ℂ, bargOp (fromBlocks a g gᵀ Q) (Sum.elim b e) t x (star u) * bargFun (fromBlocks 0 B Bᵀ D) (Sum.elim 0 d) c (Sum.elim u y) *
      Complex.exp (-∑ i, (‖u i‖ : ℂ) ^ 2) = (t * c * Complex.exp (1 / 2 * (x ⬝ᵥ a.mulVec x) + b ⬝ᵥ x + 1 / 2 * (y ⬝ᵥ D.mulVec y) + d ⬝ᵥ y)) *
        (Complex.exp (1 / 2 * (star u ⬝ᵥ Q.mulVec (star u)) + (gᵀ.mulVec x + e) ⬝ᵥ star u) * Complex.exp (B.mulVec y ⬝ᵥ u) *
          Complex.exp (-∑ i, (‖u i‖ : ℂ) ^ 2)) := by
    intro u
    unfold bargOp bargFun
    rw [blocks_dot, blocks_dot, sumElim_dotProduct_sumElim, sumElim_dotProduct_sumElim, Matrix.zero_mulVec, dotProduct_zero, zero_dotProduct, add_dotProduct,
      Matrix.mulVec_transpose, ← Matrix.dotProduct_mulVec, dotProduct_comm u (B.mulVec y)]
    have hx : ∀ p q r s v : ℂ, t * Complex.exp p * (c * Complex.exp q) * Complex.exp v = t * c * Complex.exp (p + q + v) := fun p q r s v => by
      rw [Complex.exp_add, Complex.exp_add]; ring
    have hx' : ∀ p q r s : ℂ, t * c * Complex.exp p * (Complex.exp q * Complex.exp r * Complex.exp s) = t * c * Complex.exp (p + q + r + s) := fun p q r s => by
      rw [Complex.exp_add, Complex.exp_add, Complex.exp_add]; ring
    rw [hx _ _ 0 0, hx']
    refine congrArg (HMul.hMul _) (congrArg Complex.exp ?_)
    ring
  simp only [ei]
  rw [integral_const_mul, mul_left_comm, key, mul_assoc, ← Complex.exp_add]
  refine congrArg (HMul.hMul _) (congrArg Complex.exp ?_)
  rw [add_dotProduct, Matrix.mulVec_transpose, ← Matrix.dotProduct_mulVec]
  ring

theorem shrinks_zero' : Shrinks (0 : Matrix m m ℂ) := shrinks_zero

/-- The blocks of a symmetric matrix. -/
theorem symm_blocks {A : Matrix (m ⊕ k) (m ⊕ k) ℂ} (hA : Aᵀ = A) : A = fromBlocks A.toBlocks₁₁ A.toBlocks₂₁ᵀ A.toBlocks₂₁ A.toBlocks₂₂ ∧
    A.toBlocks₁₁ᵀ = A.toBlocks₁₁ ∧ A.toBlocks₂₂ᵀ = A.toBlocks₂₂ := by
  have h := hA
  rw [← fromBlocks_toBlocks A, fromBlocks_transpose, fromBlocks_inj] at h
  refine ⟨?_, h.1, h.2.2.2⟩
  conv_lhs => rw [← fromBlocks_toBlocks A, ← h.2.1]

/-- **C78 (formal decomposition)** For every ket (every symmetric `A`, every `b` and `c`), the formal stellar decomposition returns a core state and an operation
on the core modes that maps it to the given ket. -/
theorem C78_formal {A : Matrix (m ⊕ k) (m ⊕ k) ℂ} (hA : Aᵀ = A) (b : m ⊕ k → ℂ) (c : ℂ) :
    IsCore (formalStellar A b c).1 ∧ ∀ z, applyOn (formalStellar A b c).2 (formalStellar A b c).1 z = bargFun A b c z := by
  refine ⟨⟨c, fun w => ?_⟩, fun z => ?_⟩
  · have := blocks_dot (0 : Matrix m m ℂ) A.toBlocks₂₁ᵀ A.toBlocks₂₂ w (0 : k → ℂ)
    rw [transpose_transpose] at this
    show bargFun (formalCoreA A) (coreB b) c _ = _
    unfold bargFun formalCoreA coreB
    rw [this, sumElim_dotProduct_sumElim]
    simp
  · obtain ⟨e, -, -⟩ := symm_blocks hA
    have := applyOn_core (a := A.toBlocks₁₁) (g := 1) (Q := 0) transpose_zero shrinks_zero (b ∘ Sum.inl) 0 1 c A.toBlocks₂₁ᵀ A.toBlocks₂₂ (b ∘ Sum.inr) z
    rw [transpose_one, transpose_transpose] at this
    refine this.trans ?_
    unfold bargFun
    rw [one_mul]
    refine congrArg (HMul.hMul _) (congrArg Complex.exp ?_)
    have e2 := blocks_dot A.toBlocks₁₁ A.toBlocks₂₁ᵀ A.toBlocks₂₂ (z ∘ Sum.inl) (z ∘ Sum.inr)
    rw [transpose_transpose, ← e, Sum.elim_comp_inl_inr] at e2
    have e3 : b ⬝ᵥ z = b ∘ Sum.inl ⬝ᵥ z ∘ Sum.inl + b ∘ Sum.inr ⬝ᵥ z ∘ Sum.inr := by
      rw [← sumElim_dotProduct_sumElim, Sum.elim_comp_inl_inr, Sum.elim_comp_inl_inr]
    rw [e2, e3, Matrix.zero_mulVec, dotProduct_zero, zero_dotProduct, Matrix.one_mulVec]
    ring

/-! ## The square root `gamma` -/

/-- What the eigendecomposition gives: `gamma` is Hermitian, squares to `1 - a ā`, is invertible and intertwines `ā`. -/
structure Gamma (a g : Matrix m m ℂ) : Prop where
  herm : gᴴ = g
  sq : g * g = 1 - a * cj a
  inv : g * g⁻¹ = 1
  inv' : g⁻¹ * g = 1
  inter : cj a * g = gᵀ * cj a

theorem gamma_of {a V : Matrix m m ℂ} {lam : m → ℝ} (hs : aᵀ = a) (hE : IsEigh (gammaSq a) V lam) (hp : ∀ i, 0 < lam i) : Gamma a (gammaOf V lam) := by
  obtain ⟨h1, h2⟩ := hE
  have h1' : V * Vᴴ = 1 := mul_eq_one_comm.1 h1
  have hD : diagonal (fun i => ((Real.sqrt (lam i) : ℝ) : ℂ)) * diagonal (fun i => ((Real.sqrt (lam i) : ℝ) : ℂ)) = diagonal (fun i => (lam i : ℂ)) := by
    rw [diagonal_mul_diagonal]
    refine congrArg diagonal (funext fun i => ?_)
    rw [← Complex.ofReal_mul, Real.mul_self_sqrt (hp i).le]
  have herm : (gammaOf V lam)ᴴ = gammaOf V lam := by
    unfold gammaOf
    rw [conjTranspose_mul, conjTranspose_mul, conjTranspose_conjTranspose, diagonal_conjTranspose, Matrix.mul_assoc]
    refine congrArg (HMul.hMul V) (congrArg (· * Vᴴ) (congrArg diagonal (funext fun i => ?_)))
    simp
  have sq : gammaOf V lam * gammaOf V lam = 1 - a * cj a := by
    show _ = gammaSq a
    rw [h2, ← hD]
    unfold gammaOf
    calc _ = V * diagonal (fun i => ((Real.sqrt (lam i) : ℝ) : ℂ)) * (Vᴴ * V) * diagonal (fun i => ((Real.sqrt (lam i) : ℝ) : ℂ)) * Vᴴ := by
          simp only [Matrix.mul_assoc]
      _ = _ := by rw [h1, Matrix.mul_one]; simp only [Matrix.mul_assoc]
  have hu : IsUnit (gammaOf V lam).det := by
    rw [isUnit_iff_ne_zero]
    unfold gammaOf
    rw [det_mul, det_mul, det_diagonal]
    have hv : V.det * Vᴴ.det = 1 := by rw [← det_mul, h1', det_one]
    have hv1 : V.det ≠ 0 := fun e => by simp [e] at hv
    have hv2 : Vᴴ.det ≠ 0 := fun e => by simp [e] at hv
    refine mul_ne_zero (mul_ne_zero hv1 (Finset.prod_ne_zero_iff.2 fun i _ => ?_)) hv2
    exact_mod_cast (Real.sqrt_pos.2 (hp i)).ne'
  refine ⟨herm, sq, mul_nonsing_inv _ hu, nonsing_inv_mul _ hu, ?_⟩
  -- the intertwining relation, in the eigenbasis
  have hVt : (Vᵀ) * cj V = 1 := by
    have := congrArg cj h1
    rw [cj_mul, cj_one, cj_conjT] at this
    exact this
  have hVt' : cj V * Vᵀ = 1 := mul_eq_one_comm.1 hVt
  obtain ⟨B, hB⟩ : ∃ B, B = Vᵀ * cj a * V := ⟨_, rfl⟩
  have ea : cj a = cj V * B * Vᴴ := by
    rw [hB]
    calc cj a = (cj V * Vᵀ) * cj a * (V * Vᴴ) := by rw [hVt', h1', Matrix.one_mul, Matrix.mul_one]
      _ = _ := by simp only [Matrix.mul_assoc]
  have hsq' : cj a * (1 - a * cj a) = (1 - a * cj a)ᵀ * cj a := by
    rw [transpose_sub, transpose_one, transpose_mul, hs, show (cj a)ᵀ = cj a by rw [cj_transpose', ← cj_transpose, hs]]
    rw [Matrix.mul_sub, Matrix.sub_mul, Matrix.mul_one, Matrix.one_mul, Matrix.mul_assoc]
  have hBD : B * diagonal (fun i => (lam i : ℂ)) = diagonal (fun i => (lam i : ℂ)) * B := by
    have h3 : gammaSq a = V * diagonal (fun i => (lam i : ℂ)) * Vᴴ := h2
    have h4 : cj a * gammaSq a = (gammaSq a)ᵀ * cj a := hsq'
    rw [h3, transpose_mul, transpose_mul, diagonal_transpose, conjT_transpose] at h4
    rw [hB]
    calc Vᵀ * cj a * V * diagonal (fun i => (lam i : ℂ)) = Vᵀ * (cj a * (V * diagonal (fun i => (lam i : ℂ)) * Vᴴ)) * V := by
          simp only [Matrix.mul_assoc]; rw [h1, Matrix.mul_one]
      _ = Vᵀ * (cj V * (diagonal (fun i => (lam i : ℂ)) * Vᵀ) * cj a) * V := by rw [h4]
      _ = (Vᵀ * cj V) * diagonal (fun i => (lam i : ℂ)) * (Vᵀ * cj a * V) := by simp only [Matrix.mul_assoc]
      _ = _ := by rw [hVt, Matrix.one_mul]
  have hBs : B * diagonal (fun i => ((Real.sqrt (lam i) : ℝ) : ℂ)) = diagonal (fun i => ((Real.sqrt (lam i) : ℝ) : ℂ)) * B := by
    ext i j
    have := congrFun (congrFun hBD i) j
    rw [Matrix.mul_diagonal, Matrix.diagonal_mul] at this ⊢
    by_cases h : B i j = 0
    · simp [h]
    · have : lam i = lam j := by
        have : ((lam j : ℂ) - lam i) * B i j = 0 := by linear_combination this
        rcases mul_eq_zero.1 this with h' | h'
        · exact_mod_cast (sub_eq_zero.1 h').symm
        · exact absurd h' h
      rw [this]; ring
  have et : (gammaOf V lam)ᵀ = cj V * diagonal (fun i => ((Real.sqrt (lam i) : ℝ) : ℂ)) * Vᵀ := by
    unfold gammaOf
    rw [transpose_mul, transpose_mul, diagonal_transpose, conjT_transpose, Matrix.mul_assoc]
  rw [et, ea]
  unfold gammaOf
  calc cj V * B * Vᴴ * (V * diagonal (fun i => ((Real.sqrt (lam i) : ℝ) : ℂ)) * Vᴴ) =
        cj V * (B * ((Vᴴ * V) * diagonal (fun i => ((Real.sqrt (lam i) : ℝ) : ℂ)))) * Vᴴ := by simp only [Matrix.mul_assoc]
    _ = cj V * (diagonal (fun i => ((Real.sqrt (lam i) : ℝ) : ℂ)) * B) * Vᴴ := by rw [h1, Matrix.one_mul, hBs]
    _ = cj V * diagonal (fun i => ((Real.sqrt (lam i) : ℝ) : ℂ)) * (Vᵀ * cj V) * B * Vᴴ := by rw [hVt, Matrix.mul_one]; simp only [Matrix.mul_assoc]
    _ = _ := by simp only [Matrix.mul_assoc]

end Verif.Manifold
