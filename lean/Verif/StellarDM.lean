import Verif.Stellar
import Verif.ChannelXY

/-!
# Stellar decompositions of density matrices (C93)

Model of `DM.formal_stellar_decomposition` (lab/states/dm.py 445-522). The modes are split into the core modes `m` and the other modes `k`; the modes of the
state are listed with the core modes first (the code computes with this order and permutes back at the end). One batch element.
-/

namespace Verif.Manifold
open Matrix Verif.Gauss MeasureTheory
open scoped ComplexOrder MatrixOrder

variable {m k : Type*} [Fintype m] [DecidableEq m] [Fintype k] [DecidableEq k]
variable {p q : Type*} [Fintype p] [DecidableEq p] [Fintype q] [DecidableEq q]

/-! ## Specification -/

/-- `ρ >> Φ` for a map `Φ` on the modes `m` and an operator on the modes `m` and `k`: `(Φ ⊗ 1) ρ`. The first argument of an operator is the ket variable. -/
noncomputable def applyOnDM (Φ : (m → ℂ) → (m → ℂ) → (m → ℂ) → (m → ℂ) → ℂ) (ρ : (m ⊕ k → ℂ) → (m ⊕ k → ℂ) → ℂ) (z w : m ⊕ k → ℂ) : ℂ :=
  applyCh Φ (fun u v => ρ (Sum.elim u (z ∘ Sum.inr)) (Sum.elim v (w ∘ Sum.inr))) (z ∘ Sum.inl) (w ∘ Sum.inl)

/-- A density matrix is a core state on the modes `m`: projected on the vacuum of the other modes it is a multiple of the vacuum. -/
def IsCoreDM (ρ : (m ⊕ k → ℂ) → (m ⊕ k → ℂ) → ℂ) : Prop := ∃ c, ∀ z w : m → ℂ, ρ (Sum.elim z 0) (Sum.elim w 0) = c

/-! ## The code -/

/-- `new_order` (lab/states/dm.py 478-481, 557-568): core bra, core ket, other bra, other ket. -/
def coreFirst (m k : Type*) : (m ⊕ m) ⊕ (k ⊕ k) ≃ (m ⊕ k) ⊕ (m ⊕ k) := Equiv.sumSumSumComm m m k k

/-- The `reshape`, `einsum`, `reshape` that bring (output bra, output ket, input bra, input ket) into the order of the wires of a map
(lab/states/dm.py 512-514, 606-608, 752-754). -/
def mapOrder (p q : Type*) : (p ⊕ q) ⊕ (p ⊕ q) ≃ (p ⊕ p) ⊕ (q ⊕ q) := Equiv.sumSumSumComm p q p q

/-- The state with a triple in the order of `coreFirst`, after `inverse_order` (lab/states/dm.py 501-507). -/
noncomputable def dmOf (N : Matrix ((m ⊕ m) ⊕ (k ⊕ k)) ((m ⊕ m) ⊕ (k ⊕ k)) ℂ) (b : (m ⊕ m) ⊕ (k ⊕ k) → ℂ) (c : ℂ) : (m ⊕ k → ℂ) → (m ⊕ k → ℂ) → ℂ :=
  dmFun (N.submatrix (coreFirst m k).symm (coreFirst m k).symm) (b ∘ (coreFirst m k).symm) c

/-- The map with a triple in the order (output bra, output ket, input bra, input ket) (lab/states/dm.py 512-521). -/
noncomputable def mapOf (N : Matrix ((p ⊕ p) ⊕ (q ⊕ q)) ((p ⊕ p) ⊕ (q ⊕ q)) ℂ) (b : (p ⊕ p) ⊕ (q ⊕ q) → ℂ) (c : ℂ) : (p → ℂ) → (q → ℂ) → (p → ℂ) → (q → ℂ) → ℂ :=
  chanFun (N.submatrix (mapOrder p q) (mapOrder p q)) (b ∘ mapOrder p q) c

/-- `A_core` in the order of `coreFirst` (lab/states/dm.py 492-497). -/
def formalDMCoreA (N : Matrix ((m ⊕ m) ⊕ (k ⊕ k)) ((m ⊕ m) ⊕ (k ⊕ k)) ℂ) : Matrix ((m ⊕ m) ⊕ (k ⊕ k)) ((m ⊕ m) ⊕ (k ⊕ k)) ℂ :=
  fromBlocks 0 N.toBlocks₁₂ N.toBlocks₁₂ᵀ N.toBlocks₂₂
/-- `A_out_in` (lab/states/dm.py 509-511). -/
def formalDMA (N : Matrix ((m ⊕ m) ⊕ (k ⊕ k)) ((m ⊕ m) ⊕ (k ⊕ k)) ℂ) : Matrix ((m ⊕ m) ⊕ (m ⊕ m)) ((m ⊕ m) ⊕ (m ⊕ m)) ℂ :=
  fromBlocks N.toBlocks₁₁ 1 1 0

/-- `DM.formal_stellar_decomposition` (lab/states/dm.py 445-522): the core state and the map. -/
noncomputable def formalDM (A : Matrix ((m ⊕ k) ⊕ (m ⊕ k)) ((m ⊕ k) ⊕ (m ⊕ k)) ℂ) (b : (m ⊕ k) ⊕ (m ⊕ k) → ℂ) (c : ℂ) :
    ((m ⊕ k → ℂ) → (m ⊕ k → ℂ) → ℂ) × ((m → ℂ) → (m → ℂ) → (m → ℂ) → (m → ℂ) → ℂ) :=
  let N := A.submatrix (coreFirst m k) (coreFirst m k)
  let b' := b ∘ coreFirst m k
  (dmOf (formalDMCoreA N) (Sum.elim 0 (b' ∘ Sum.inr)) c, mapOf (formalDMA N) (Sum.elim (b' ∘ Sum.inl) 0) 1)

/-! ## Reordering -/

theorem submatrix_dot {α β : Type*} [Fintype α] [Fintype β] (N : Matrix α α ℂ) (e : β ≃ α) (v : β → ℂ) :
    v ⬝ᵥ (N.submatrix e e).mulVec v = (v ∘ e.symm) ⬝ᵥ N.mulVec (v ∘ e.symm) := by
  have : (N.submatrix e e).mulVec v = N.mulVec (v ∘ e.symm) ∘ e := by
    rw [Matrix.submatrix_mulVec_equiv]
  rw [this]
  simp only [dotProduct, Function.comp]
  rw [← e.sum_comp]
  simp

theorem comp_dot {α β : Type*} [Fintype α] [Fintype β] (b : α → ℂ) (e : β ≃ α) (v : β → ℂ) : (b ∘ e) ⬝ᵥ v = b ⬝ᵥ (v ∘ e.symm) := by
  simp only [dotProduct, Function.comp]
  rw [← e.sum_comp]
  simp

/-- The variables of a density matrix in the order of `coreFirst`. -/
def vars (z w : m ⊕ k → ℂ) : (m ⊕ m) ⊕ (k ⊕ k) → ℂ := Sum.elim (Sum.elim (w ∘ Sum.inl) (z ∘ Sum.inl)) (Sum.elim (w ∘ Sum.inr) (z ∘ Sum.inr))

omit [Fintype m] [Fintype k] [DecidableEq m] [DecidableEq k] in
theorem vars_eq (z w : m ⊕ k → ℂ) : Sum.elim w z ∘ coreFirst m k = vars z w := by
  funext r
  rcases r with (r | r) | (r | r) <;> rfl

omit [DecidableEq m] [DecidableEq k] in
theorem dmOf_eq (N : Matrix ((m ⊕ m) ⊕ (k ⊕ k)) ((m ⊕ m) ⊕ (k ⊕ k)) ℂ) (b : (m ⊕ m) ⊕ (k ⊕ k) → ℂ) (c : ℂ) (z w : m ⊕ k → ℂ) :
    dmOf N b c z w = bargFun N b c (vars z w) := by
  unfold dmOf dmFun bargFun
  rw [submatrix_dot, comp_dot b, Equiv.symm_symm, vars_eq]

omit [DecidableEq m] [DecidableEq k] in
theorem dmFun_coreFirst (A : Matrix ((m ⊕ k) ⊕ (m ⊕ k)) ((m ⊕ k) ⊕ (m ⊕ k)) ℂ) (b : (m ⊕ k) ⊕ (m ⊕ k) → ℂ) (c : ℂ) (z w : m ⊕ k → ℂ) :
    dmFun A b c z w = bargFun (A.submatrix (coreFirst m k) (coreFirst m k)) (b ∘ coreFirst m k) c (vars z w) := by
  rw [← dmOf_eq]
  unfold dmOf
  have e1 : (A.submatrix (coreFirst m k) (coreFirst m k)).submatrix (coreFirst m k).symm (coreFirst m k).symm = A := by ext i j; simp
  have e2 : (b ∘ coreFirst m k) ∘ (coreFirst m k).symm = b := by funext i; simp
  rw [e1, e2]

omit [DecidableEq p] [DecidableEq q] in
theorem mapOf_eq (N : Matrix ((p ⊕ p) ⊕ (q ⊕ q)) ((p ⊕ p) ⊕ (q ⊕ q)) ℂ) (b : (p ⊕ p) ⊕ (q ⊕ q) → ℂ) (c : ℂ) (z : p → ℂ) (z' : q → ℂ) (w : p → ℂ) (w' : q → ℂ) :
    mapOf N b c z z' w w' = bargFun N b c (Sum.elim (Sum.elim w z) (Sum.elim w' z')) := by
  unfold mapOf chanFun dmFun bargFun
  rw [submatrix_dot, comp_dot b]
  have : (Sum.elim (Sum.elim w w') (Sum.elim z z') : (p ⊕ q) ⊕ (p ⊕ q) → ℂ) ∘ (mapOrder p q).symm = Sum.elim (Sum.elim w z) (Sum.elim w' z') := by
    funext r
    rcases r with (r | r) | (r | r) <;> rfl
  rw [this]

/-! ## Maps acting on exponentials -/

/-- Contracting a Gaussian function with an exponential evaluates it. -/
theorem eval_gauss {Q : Matrix q q ℂ} (hQ : Qᵀ = Q) (sQ : Shrinks Q) {f : (q → ℂ) → ℂ} {C : ℂ} {l : q → ℂ}
    (hf : ∀ s, f s = C * Complex.exp (1 / 2 * (s ⬝ᵥ Q.mulVec s) + l ⬝ᵥ s)) (K : ℂ) (x : q → ℂ) :
    ((Real.pi : ℂ) ^ Fintype.card q)⁻¹ * ∫ u : q → ℂ, f (star u) * (K * Complex.exp (x ⬝ᵥ u)) * Complex.exp (-∑ i, (‖u i‖ : ℂ) ^ 2) = K * f x := by
  have h := reproduce hQ sQ x l
  have e : ∀ u : q → ℂ, f (star u) * (K * Complex.exp (x ⬝ᵥ u)) * Complex.exp (-∑ i, (‖u i‖ : ℂ) ^ 2) = (K * C) *
      (Complex.exp (1 / 2 * (star u ⬝ᵥ Q.mulVec (star u)) + l ⬝ᵥ star u) * Complex.exp (x ⬝ᵥ u) * Complex.exp (-∑ i, (‖u i‖ : ℂ) ^ 2)) := fun u => by
    rw [hf]; ring
  simp only [e]
  rw [integral_const_mul, mul_left_comm, h, hf]
  ring

omit [DecidableEq p] [DecidableEq q] in
theorem bargFun_split (P : Matrix p p ℂ) (S : Matrix q p ℂ) (Q : Matrix q q ℂ) (b : p → ℂ) (d : q → ℂ) (c : ℂ) (x : p → ℂ) (y : q → ℂ) :
    bargFun (fromBlocks P Sᵀ S Q) (Sum.elim b d) c (Sum.elim x y) = bargFun P b c x * Complex.exp (1 / 2 * (y ⬝ᵥ Q.mulVec y) + (S.mulVec x + d) ⬝ᵥ y) := by
  unfold bargFun
  rw [fromBlocks_mulVec, Sum.elim_comp_inl, Sum.elim_comp_inr, sumElim_dotProduct_sumElim, sumElim_dotProduct_sumElim, dotProduct_add, dotProduct_add,
    Matrix.mulVec_transpose, dotProduct_comm x (Matrix.vecMul _ _), ← Matrix.dotProduct_mulVec, add_dotProduct, dotProduct_comm (S.mulVec x) y, mul_assoc, ← Complex.exp_add]
  refine congrArg (HMul.hMul _) (congrArg Complex.exp ?_)
  ring

/-- A Gaussian map applied to an exponential is the map evaluated at the exponents. -/
theorem applyCh_exp {P : Matrix (p ⊕ p) (p ⊕ p) ℂ} {S : Matrix (q ⊕ q) (p ⊕ p) ℂ} {Q : Matrix (q ⊕ q) (q ⊕ q) ℂ} (hQ : Qᵀ = Q) (s1 : Shrinks Q.toBlocks₁₁)
    (s2 : Shrinks Q.toBlocks₂₂) (b : p ⊕ p → ℂ) (d : q ⊕ q → ℂ) (c K : ℂ) (x y : q → ℂ) (z w : p → ℂ) {σ : (q → ℂ) → (q → ℂ) → ℂ}
    (hσ : ∀ u v, σ u v = K * Complex.exp (x ⬝ᵥ u + y ⬝ᵥ v)) :
    applyCh (mapOf (fromBlocks P Sᵀ S Q) (Sum.elim b d) c) σ z w = K * mapOf (fromBlocks P Sᵀ S Q) (Sum.elim b d) c z x w y := by
  obtain ⟨eQ, q1, q2⟩ := symm_blocks hQ
  obtain ⟨e, he⟩ : ∃ e, e = S.mulVec (Sum.elim w z) + d := ⟨_, rfl⟩
  obtain ⟨e1, h1⟩ : ∃ e1, e1 = e ∘ Sum.inl := ⟨_, rfl⟩
  obtain ⟨e2, h2⟩ : ∃ e2, e2 = e ∘ Sum.inr := ⟨_, rfl⟩
  have ee : e = Sum.elim e1 e2 := by rw [h1, h2, Sum.elim_comp_inl_inr]
  obtain ⟨B, hB⟩ : ∃ B, B = bargFun P b c (Sum.elim w z) := ⟨_, rfl⟩
  have hf : ∀ s t : q → ℂ, mapOf (fromBlocks P Sᵀ S Q) (Sum.elim b d) c z s w t =
      B * (Complex.exp (1 / 2 * (t ⬝ᵥ Q.toBlocks₁₁.mulVec t) + e1 ⬝ᵥ t) * Complex.exp (1 / 2 * (s ⬝ᵥ Q.toBlocks₂₂.mulVec s) + (Q.toBlocks₂₁.mulVec t + e2) ⬝ᵥ s)) := by
    intro s t
    rw [mapOf_eq, bargFun_split, ← hB, ← he, ee]
    refine congrArg (HMul.hMul _) ?_
    have := bargFun_split Q.toBlocks₁₁ Q.toBlocks₂₁ Q.toBlocks₂₂ e1 e2 1 t s
    rw [← eQ] at this
    unfold bargFun at this
    rw [one_mul, one_mul] at this
    exact this
  unfold applyCh
  have inner : ∀ u : q → ℂ, ((Real.pi : ℂ) ^ Fintype.card q)⁻¹ * (∫ v : q → ℂ, mapOf (fromBlocks P Sᵀ S Q) (Sum.elim b d) c z (star u) w (star v) * σ u v *
      Complex.exp (-∑ i, (‖v i‖ : ℂ) ^ 2)) = (K * Complex.exp (x ⬝ᵥ u)) * mapOf (fromBlocks P Sᵀ S Q) (Sum.elim b d) c z (star u) w y := by
    intro u
    have := eval_gauss q1 s1 (f := fun t => mapOf (fromBlocks P Sᵀ S Q) (Sum.elim b d) c z (star u) w t)
      (C := B * Complex.exp (1 / 2 * (star u ⬝ᵥ Q.toBlocks₂₂.mulVec (star u)) + e2 ⬝ᵥ star u)) (l := e1 + Q.toBlocks₂₁ᵀ.mulVec (star u)) (fun t => by
        rw [hf, mul_assoc, ← Complex.exp_add, ← Complex.exp_add]
        refine congrArg (HMul.hMul _) (congrArg Complex.exp ?_)
        rw [add_dotProduct, add_dotProduct, Matrix.mulVec_transpose, ← Matrix.dotProduct_mulVec, dotProduct_comm (star u) (Q.toBlocks₂₁.mulVec t)]
        ring) (K * Complex.exp (x ⬝ᵥ u)) y
    rw [← this]
    refine congrArg (HMul.hMul _) (integral_congr_ae (.of_forall fun v => ?_))
    simp only []
    rw [hσ, Complex.exp_add]
    ring
  simp only [inner]
  have outer := eval_gauss q2 s2 (f := fun s => mapOf (fromBlocks P Sᵀ S Q) (Sum.elim b d) c z s w y)
    (C := B * Complex.exp (1 / 2 * (y ⬝ᵥ Q.toBlocks₁₁.mulVec y) + e1 ⬝ᵥ y)) (l := Q.toBlocks₂₁.mulVec y + e2) (fun s => by rw [hf]; ring) K x
  rw [← outer]
  refine congrArg (HMul.hMul _) (integral_congr_ae (.of_forall fun v => ?_))
  simp only []
  ring

/-! ## The formal decomposition -/

/-- **C93 (formal decomposition)** For every density matrix (every symmetric `A`, every `b` and `c`), the formal stellar decomposition returns a core state and a map
on the core modes that sends it to the given density matrix. -/
theorem C93_formal {A : Matrix ((m ⊕ k) ⊕ (m ⊕ k)) ((m ⊕ k) ⊕ (m ⊕ k)) ℂ} (hA : Aᵀ = A) (b : (m ⊕ k) ⊕ (m ⊕ k) → ℂ) (c : ℂ) :
    IsCoreDM (formalDM A b c).1 ∧ ∀ z w, applyOnDM (formalDM A b c).2 (formalDM A b c).1 z w = dmFun A b c z w := by
  obtain ⟨N, hN⟩ : ∃ N, N = A.submatrix (coreFirst m k) (coreFirst m k) := ⟨_, rfl⟩
  obtain ⟨b', hb'⟩ : ∃ b', b' = b ∘ coreFirst m k := ⟨_, rfl⟩
  have hNs : Nᵀ = N := by rw [hN, transpose_submatrix, hA]
  obtain ⟨eN, n1, n2⟩ := symm_blocks hNs
  have hR : N.toBlocks₁₂ = N.toBlocks₂₁ᵀ := by
    have := congrArg toBlocks₁₂ eN
    rwa [toBlocks_fromBlocks₁₂] at this
  unfold formalDM
  dsimp only
  rw [← hN, ← hb']
  have hcore : ∀ z w : m ⊕ k → ℂ, dmOf (formalDMCoreA N) (Sum.elim 0 (b' ∘ Sum.inr)) c z w =
      c * Complex.exp (1 / 2 * (Sum.elim (w ∘ Sum.inr) (z ∘ Sum.inr) ⬝ᵥ N.toBlocks₂₂.mulVec (Sum.elim (w ∘ Sum.inr) (z ∘ Sum.inr))) +
        (N.toBlocks₂₁.mulVec (Sum.elim (w ∘ Sum.inl) (z ∘ Sum.inl)) + b' ∘ Sum.inr) ⬝ᵥ Sum.elim (w ∘ Sum.inr) (z ∘ Sum.inr)) := by
    intro z w
    rw [dmOf_eq]
    unfold formalDMCoreA vars
    rw [hR, transpose_transpose, bargFun_split]
    unfold bargFun
    rw [Matrix.zero_mulVec, dotProduct_zero, zero_dotProduct, mul_zero, add_zero, Complex.exp_zero, mul_one]
  refine ⟨⟨c, fun z w => ?_⟩, fun z w => ?_⟩
  · rw [hcore]
    have : (Sum.elim (Sum.elim w (0 : k → ℂ) ∘ Sum.inr) (Sum.elim z (0 : k → ℂ) ∘ Sum.inr)) = 0 := by
      funext r; rcases r with r | r <;> rfl
    rw [this, Matrix.mulVec_zero, dotProduct_zero, dotProduct_zero, mul_zero, add_zero, Complex.exp_zero, mul_one]
  · unfold applyOnDM
    obtain ⟨y, hy⟩ : ∃ y, y = Sum.elim (w ∘ Sum.inr) (z ∘ Sum.inr) := ⟨_, rfl⟩
    obtain ⟨x, hx⟩ : ∃ x, x = N.toBlocks₂₁ᵀ.mulVec y := ⟨_, rfl⟩
    have e0 : (1 : Matrix (m ⊕ m) (m ⊕ m) ℂ) = 1ᵀ := transpose_one.symm
    have key := applyCh_exp (P := N.toBlocks₁₁) (S := (1 : Matrix (m ⊕ m) (m ⊕ m) ℂ)) (Q := 0) transpose_zero
      (show Shrinks (0 : Matrix m m ℂ) from shrinks_zero) (show Shrinks (0 : Matrix m m ℂ) from shrinks_zero) (b' ∘ Sum.inl) 0 1
      (c * Complex.exp (1 / 2 * (y ⬝ᵥ N.toBlocks₂₂.mulVec y) + (b' ∘ Sum.inr) ⬝ᵥ y)) (x ∘ Sum.inr) (x ∘ Sum.inl) (z ∘ Sum.inl) (w ∘ Sum.inl)
      (σ := fun u v => dmOf (formalDMCoreA N) (Sum.elim 0 (b' ∘ Sum.inr)) c (Sum.elim u (z ∘ Sum.inr)) (Sum.elim v (w ∘ Sum.inr))) (fun u v => by
        rw [hcore, mul_assoc, ← Complex.exp_add]
        simp only [Sum.elim_comp_inl, Sum.elim_comp_inr]
        rw [← hy]
        refine congrArg (HMul.hMul _) (congrArg Complex.exp ?_)
        have : N.toBlocks₂₁.mulVec (Sum.elim v u) ⬝ᵥ y = (x ∘ Sum.inr) ⬝ᵥ u + (x ∘ Sum.inl) ⬝ᵥ v := by
          rw [add_comm, ← sumElim_dotProduct_sumElim, Sum.elim_comp_inl_inr, hx, dotProduct_comm, Matrix.mulVec_transpose, ← Matrix.dotProduct_mulVec]
        rw [add_dotProduct, this]
        ring)
    rw [transpose_one] at key
    unfold formalDMA
    rw [key, mapOf_eq, Sum.elim_comp_inl_inr, dmFun_coreFirst, ← hN, ← hb']
    have f1 := bargFun_split N.toBlocks₁₁ (1 : Matrix (m ⊕ m) (m ⊕ m) ℂ) 0 (b' ∘ Sum.inl) 0 1 (Sum.elim (w ∘ Sum.inl) (z ∘ Sum.inl)) x
    rw [transpose_one] at f1
    have f2 := bargFun_split N.toBlocks₁₁ N.toBlocks₂₁ N.toBlocks₂₂ (b' ∘ Sum.inl) (b' ∘ Sum.inr) c (Sum.elim (w ∘ Sum.inl) (z ∘ Sum.inl)) y
    rw [← eN, Sum.elim_comp_inl_inr] at f2
    unfold vars
    rw [f1, ← hy, f2]
    unfold bargFun
    have e1 : Sum.elim (w ∘ Sum.inl) (z ∘ Sum.inl) ⬝ᵥ x = N.toBlocks₂₁.mulVec (Sum.elim (w ∘ Sum.inl) (z ∘ Sum.inl)) ⬝ᵥ y := by
      rw [hx, Matrix.mulVec_transpose, dotProduct_comm, ← Matrix.dotProduct_mulVec, dotProduct_comm]
    rw [Matrix.zero_mulVec, dotProduct_zero, Matrix.one_mulVec, add_zero, e1, add_dotProduct]
    have hxx : ∀ p q r s : ℂ, c * Complex.exp p * (1 * Complex.exp q * Complex.exp r) = c * Complex.exp (p + q + r) := fun p q r s => by
      rw [Complex.exp_add, Complex.exp_add]; ring
    rw [hxx _ _ _ 0, mul_assoc, ← Complex.exp_add]
    refine congrArg (HMul.hMul _) (congrArg Complex.exp ?_)
    ring

/-- A two-mode density matrix whose triple couples every pair of variables. -/
example : IsCoreDM (formalDM (m := Unit) (k := Unit) (Matrix.of fun _ _ => (1 / 8 : ℂ)) (fun _ => Complex.I) 1).1 ∧
    ∀ z w, applyOnDM (formalDM (m := Unit) (k := Unit) (Matrix.of fun _ _ => (1 / 8 : ℂ)) (fun _ => Complex.I) 1).2 (formalDM (m := Unit) (k := Unit) (Matrix.of fun _ _ => (1 / 8 : ℂ)) (fun _ => Complex.I) 1).1 z w =
      dmFun (n := Unit ⊕ Unit) (Matrix.of fun _ _ => (1 / 8 : ℂ)) (fun _ => Complex.I) 1 z w := C93_formal (by ext i j; rfl) _ _

end Verif.Manifold
