import Verif.StellarDMGeneric
import Verif.PhaseShift

/-!
# The physical stellar decomposition of density matrices (C94)

Model of `DM.physical_stellar_decomposition` (lab/states/dm.py 524-652). The state has as many other modes as core modes (otherwise the code raises `ValueError`), so both are
indexed by `m`, the core modes first. One batch element. The loop that contracts one `Dgate` per core mode is modelled by one displacement of all core modes; `core_modes` may
be given in any order: `ord` sends the position of a mode among the sorted core modes to its position in `core_modes`.
-/

namespace Verif.Manifold
open Matrix Verif.Gauss MeasureTheory
open scoped ComplexOrder MatrixOrder

variable {m k p q : Type*} [Fintype m] [DecidableEq m] [Fintype k] [DecidableEq k] [Fintype p] [DecidableEq p] [Fintype q] [DecidableEq q]

/-! ## Specification -/

/-- `ket.dm()`: `|ψ⟩⟨ψ|`. -/
noncomputable def ketDM {n : Type*} (ψ : (n → ℂ) → ℂ) (z w : n → ℂ) : ℂ := ψ z * (starRingEnd ℂ) (ψ (star w))

/-! ## The code -/

/-- `temp = block([[conj(r_core), 0], [0, r_core]])` with `r_core = Sᵀ` (lab/states/dm.py 588-599). -/
def rTemp (S : Matrix m k ℂ) : Matrix (k ⊕ k) (m ⊕ m) ℂ := fromBlocks (cj Sᵀ) 0 0 Sᵀ
/-- `Gamma_phi` (lab/states/dm.py 600). -/
noncomputable def phGamma (S : Matrix m m ℂ) (R : Matrix (m ⊕ m) (m ⊕ m) ℂ) : Matrix (m ⊕ m) (m ⊕ m) ℂ := (rTemp S)⁻¹ * R
/-- `Aphi_in` (lab/states/dm.py 603). -/
noncomputable def phIn (Am G : Matrix (m ⊕ m) (m ⊕ m) ℂ) : Matrix (m ⊕ m) (m ⊕ m) ℂ := G * (Am - Xmat m)⁻¹ * Gᵀ + Xmat m
/-- `Aphi_oi` (lab/states/dm.py 605). -/
noncomputable def phA (Am G : Matrix (m ⊕ m) (m ⊕ m) ℂ) : Matrix ((m ⊕ m) ⊕ (m ⊕ m)) ((m ⊕ m) ⊕ (m ⊕ m)) ℂ := fromBlocks Am Gᵀ G (phIn Am G)

/-- `renorm = phi.contract(TraceOut(...)); phi / renorm.ansatz.c` (lab/states/dm.py 616-617, 647-648): `c` is the value at the origin. -/
noncomputable def renormMap (Φ : (p → ℂ) → (q → ℂ) → (p → ℂ) → (q → ℂ) → ℂ) : (p → ℂ) → (q → ℂ) → (p → ℂ) → (q → ℂ) → ℂ :=
  fun z z' w w' => Φ z z' w w' / trOut Φ 0 0
/-- `dgate_ch.contract(phi)`: the map after the displacement by `γ` (lab/states/dm.py 642-644). -/
noncomputable def afterDisp (γ : q → ℂ) (Φ : (p → ℂ) → (q → ℂ) → (p → ℂ) → (q → ℂ) → ℂ) : (p → ℂ) → (q → ℂ) → (p → ℂ) → (q → ℂ) → ℂ :=
  fun z z' w w' => applyCh Φ (fun u v => dispOp γ u z' * (starRingEnd ℂ) (dispOp γ (star v) (star w'))) z w
/-- `Channel.from_bargmann(..., (phi.ansatz.A, phi.ansatz.b, 1))` (lab/states/dm.py 645-646). -/
noncomputable def unitMap (Φ : (p → ℂ) → (q → ℂ) → (p → ℂ) → (q → ℂ) → ℂ) : (p → ℂ) → (q → ℂ) → (p → ℂ) → (q → ℂ) → ℂ :=
  fun z z' w w' => Φ z z' w w' / Φ 0 0 0 0
/-- `phi` (lab/states/dm.py 610-617, 635-648). -/
noncomputable def phPhi (Am G : Matrix (m ⊕ m) (m ⊕ m) ℂ) (γ : m → ℂ) : (m → ℂ) → (m → ℂ) → (m → ℂ) → (m → ℂ) → ℂ :=
  renormMap (unitMap (afterDisp γ (renormMap (mapOf (phA Am G) 0 1))))

/-- `bcore_m` (lab/states/dm.py 626). -/
noncomputable def phBm (G : Matrix (m ⊕ m) (m ⊕ m) ℂ) (bm : m ⊕ m → ℂ) : m ⊕ m → ℂ := (Gᵀ)⁻¹.mulVec bm
/-- `bcore_n` (lab/states/dm.py 628). -/
noncomputable def phBn (T : Matrix (k ⊕ k) (m ⊕ m) ℂ) (Q : Matrix (m ⊕ m) (m ⊕ m) ℂ) (β : m ⊕ m → ℂ) (bn : k ⊕ k → ℂ) : k ⊕ k → ℂ := bn - (T * Q).mulVec β
/-- The core state before the displacements (lab/states/dm.py 619-636). -/
noncomputable def phCore0 (S a : Matrix m m ℂ) (β βn : m ⊕ m → ℂ) : (m ⊕ m → ℂ) → ℂ :=
  bargFun (fromBlocks 0 S Sᵀ a) (Sum.elim (β ∘ Sum.inr) (βn ∘ Sum.inr)) 1
/-- `Ket.from_bargmann(..., (core.ansatz.A, core.ansatz.b, 1)).normalize()` (lab/states/dm.py 649-652, lab/states/base.py `normalize`). -/
noncomputable def phNormalize {n : Type*} [Fintype n] (ψ : (n → ℂ) → ℂ) : (n → ℂ) → ℂ :=
  let ψ1 := fun z => ψ z / ψ 0
  fun z => ψ1 z / (opTr (ketDM ψ1)) ^ (1 / 2 : ℂ)

/-- `DM.physical_stellar_decomposition` (lab/states/dm.py 524-652), with the result `(V, lam)` of `math.eigh`; `none` if a matrix to be inverted is singular.
The `c` of the state is not used. -/
noncomputable def physDM (ord : m ≃ m) (V : Matrix m m ℂ) (lam : m → ℝ) (A : Matrix ((m ⊕ m) ⊕ (m ⊕ m)) ((m ⊕ m) ⊕ (m ⊕ m)) ℂ) (b : (m ⊕ m) ⊕ (m ⊕ m) → ℂ) :
    Option (((m ⊕ m → ℂ) → ℂ) × ((m → ℂ) → (m → ℂ) → (m → ℂ) → (m → ℂ) → ℂ)) :=
  open Classical in
  let N := A.submatrix (coreFirst m m) (coreFirst m m)
  let b' := b ∘ coreFirst m m
  let Am := N.toBlocks₁₁
  let R := N.toBlocks₂₁
  let red := redA Am R N.toBlocks₂₂
  let S := gammaOf V lam
  let G := phGamma S R
  let β := phBm G (b' ∘ Sum.inl)
  let βn := phBn (rTemp S) (phIn Am G) β (b' ∘ Sum.inr)
  let γ := (β ∘ Sum.inr) ∘ ord
  if (Am - Xmat m).det = 0 ∨ (rTemp S).det = 0 ∨ G.det = 0 then none
  else some (phNormalize (applyOn (dispOp (-γ)) (phCore0 S red.toBlocks₂₂ β βn)), phPhi Am G γ)

/-! ## The map -/

omit [DecidableEq p] [DecidableEq q] in
theorem mapOf_smul (N : Matrix ((p ⊕ p) ⊕ (q ⊕ q)) ((p ⊕ p) ⊕ (q ⊕ q)) ℂ) (b : (p ⊕ p) ⊕ (q ⊕ q) → ℂ) (c d : ℂ) (z : p → ℂ) (z' : q → ℂ) (w : p → ℂ) (w' : q → ℂ) :
    mapOf N b c z z' w w' / d = mapOf N b (c / d) z z' w w' := by
  rw [mapOf_eq, mapOf_eq]
  unfold bargFun
  ring

omit [DecidableEq p] [DecidableEq q] in
theorem mapOf_zero (N : Matrix ((p ⊕ p) ⊕ (q ⊕ q)) ((p ⊕ p) ⊕ (q ⊕ q)) ℂ) (b : (p ⊕ p) ⊕ (q ⊕ q) → ℂ) (c : ℂ) : mapOf N b c 0 0 0 0 = c := by
  rw [mapOf_eq]
  have : (Sum.elim (Sum.elim (0 : p → ℂ) (0 : p → ℂ)) (Sum.elim (0 : q → ℂ) (0 : q → ℂ))) = 0 := by
    funext r
    rcases r with (r | r) | (r | r) <;> rfl
  unfold bargFun
  rw [this, Matrix.mulVec_zero, dotProduct_zero, dotProduct_zero, mul_zero, add_zero, Complex.exp_zero, mul_one]

/-- The linear part of the map. -/
noncomputable def phLin (Am G : Matrix (m ⊕ m) (m ⊕ m) ℂ) (γ : m → ℂ) : (m ⊕ m) ⊕ (m ⊕ m) → ℂ :=
  Sum.elim (Gᵀ.mulVec (Sum.elim (star γ) γ)) ((phIn Am G - Xmat m).mulVec (Sum.elim (star γ) γ))

theorem phIn_symm {Am : Matrix (m ⊕ m) (m ⊕ m) ℂ} (hs : Amᵀ = Am) (G : Matrix (m ⊕ m) (m ⊕ m) ℂ) : (phIn Am G)ᵀ = phIn Am G := by
  unfold phIn
  rw [transpose_add, Xmat_T, transpose_mul, transpose_mul, transpose_transpose, transpose_nonsing_inv, transpose_sub, hs, Xmat_T, Matrix.mul_assoc]

theorem phIn_bk {Am G : Matrix (m ⊕ m) (m ⊕ m) ℂ} (h1 : Bk Am) (h2 : Bk G) : Bk (phIn Am G) :=
  ((h2.mul (h1.sub Bk.X).inv).mul h2.transpose).add Bk.X

theorem phIn_trClass {Am G : Matrix (m ⊕ m) (m ⊕ m) ℂ} (hs : Amᵀ = Am) (h1 : Bk Am) (h2 : Bk G) (ht : TrClass Am) (hG : G.det ≠ 0) : TrClass (phIn Am G) := by
  refine trClass_of fun v hv h0 => ?_
  obtain ⟨y, hy⟩ : ∃ y, y = ((Am - Xmat m)⁻¹ * Gᵀ).mulVec v := ⟨_, rfl⟩
  have hd := tr_det hs ht
  have hyr : RV y := by
    rw [hy]
    exact ((h1.sub Bk.X).inv.mul h2.transpose).mulVec hv
  have e1 : (Am - Xmat m).mulVec y = Gᵀ.mulVec v := by
    rw [hy, Matrix.mulVec_mulVec, ← Matrix.mul_assoc, mul_nonsing_inv _ (isUnit_iff_ne_zero.2 hd), Matrix.one_mul]
  have hy0 : y ≠ 0 := by
    rintro rfl
    rw [Matrix.mulVec_zero] at e1
    refine h0 (Matrix.eq_zero_of_mulVec_eq_zero (M := Gᵀ) ?_ e1.symm)
    rwa [det_transpose]
  have := trClass_rv ht hyr hy0
  rw [e1] at this
  refine lt_of_eq_of_lt (congrArg Complex.re ?_) this
  unfold phIn
  rw [add_sub_cancel_right, Matrix.mul_assoc, ← Matrix.mulVec_mulVec, ← hy, Matrix.dotProduct_mulVec, ← Matrix.mulVec_transpose, dotProduct_comm]

/-- The map of the decomposition is a Gaussian map with the right matrix, trace preserving and with a positive constant. -/
theorem phPhi_eq {Am G : Matrix (m ⊕ m) (m ⊕ m) ℂ} (hs : Amᵀ = Am) (h1 : Bk Am) (h2 : Bk G) (ht : TrClass Am) (s1 : Shrinks (phIn Am G).toBlocks₁₁)
    (s2 : Shrinks (phIn Am G).toBlocks₂₂) (γ : m → ℂ) :
    ∃ c : ℝ, 0 < c ∧ phPhi Am G γ = mapOf (phA Am G) (phLin Am G γ) c ∧ TracePres (mapOf (phA Am G) (phLin Am G γ) c) := by
  obtain ⟨t, ht0, e⟩ := trC_pos hs h1 ht
  have h0 : (0 : (m ⊕ m) ⊕ (m ⊕ m) → ℂ) = Sum.elim (0 : m ⊕ m → ℂ) (0 : m ⊕ m → ℂ) := by funext r; rcases r with r | r <;> rfl
  have tr1 : trOut (mapOf (phA Am G) 0 1) 0 0 = trC Am := by
    rw [h0]
    have := trOut_gauss (Q := phIn Am G) hs ht rfl 0 (b2 := 0) (by rw [Matrix.mulVec_zero]) 1 0 0
    unfold phA
    rw [this]
    simp
  have r1 : renormMap (mapOf (phA Am G) 0 1) = mapOf (phA Am G) 0 (1 / trC Am) := by
    funext z z' w w'
    unfold renormMap
    rw [tr1, mapOf_smul]
  obtain ⟨c2, hc2⟩ : ∃ c2 : ℂ, c2 = 1 / trC Am * Complex.exp (1 / 2 * (Sum.elim (star γ) γ ⬝ᵥ (phIn Am G).mulVec (Sum.elim (star γ) γ)) - γ ⬝ᵥ star γ) := ⟨_, rfl⟩
  have hc20 : c2 ≠ 0 := by
    rw [hc2]
    exact mul_ne_zero (one_div_ne_zero (trC_ne hs ht)) (Complex.exp_ne_zero _)
  have r2 : afterDisp γ (mapOf (phA Am G) 0 (1 / trC Am)) = mapOf (phA Am G) (phLin Am G γ) c2 := by
    funext z z' w w'
    unfold afterDisp
    have := comp_disp (P := Am) (G := G) (phIn_symm hs G) s1 s2 (1 / trC Am) γ z z' w w'
    rw [hc2]
    exact this
  have r3 : unitMap (mapOf (phA Am G) (phLin Am G γ) c2) = mapOf (phA Am G) (phLin Am G γ) 1 := by
    funext z z' w w'
    unfold unitMap
    rw [mapOf_zero, mapOf_smul, div_self hc20]
  obtain ⟨b1, hb1⟩ : ∃ b1, b1 = Gᵀ.mulVec (Sum.elim (star γ) γ) := ⟨_, rfl⟩
  have hb2 : (phIn Am G - Xmat m).mulVec (Sum.elim (star γ) γ) = (G * (Am - Xmat m)⁻¹).mulVec b1 := by
    unfold phIn
    rw [add_sub_cancel_right, hb1, Matrix.mulVec_mulVec]
  have rb1 : RV b1 := by
    rw [hb1]
    exact h2.transpose.mulVec (RV.pv γ)
  have tr4 : ∀ c z w, trOut (mapOf (phA Am G) (phLin Am G γ) c) z w =
      c * trC Am * Complex.exp (-(1 / 2) * (b1 ⬝ᵥ (Am - Xmat m)⁻¹.mulVec b1)) * Complex.exp (z ⬝ᵥ w) := by
    intro c z w
    have := trOut_gauss (Q := phIn Am G) hs ht rfl b1 hb2 c z w
    unfold phA phLin
    rw [← hb1]
    exact this
  obtain ⟨x, hx⟩ : ∃ x : ℝ, x = (b1 ⬝ᵥ (Am - Xmat m)⁻¹.mulVec b1).re := ⟨_, rfl⟩
  have ex : b1 ⬝ᵥ (Am - Xmat m)⁻¹.mulVec b1 = (x : ℂ) := by rw [hx]; exact rv_dot rb1 ((h1.sub Bk.X).inv.mulVec rb1)
  obtain ⟨τ, hτ⟩ : ∃ τ : ℝ, τ = t * Real.exp (-(1 / 2) * x) := ⟨_, rfl⟩
  have hτ0 : 0 < τ := by rw [hτ]; exact mul_pos ht0 (Real.exp_pos _)
  have eτ : trC Am * Complex.exp (-(1 / 2) * (b1 ⬝ᵥ (Am - Xmat m)⁻¹.mulVec b1)) = (τ : ℂ) := by
    rw [e, ex, hτ]
    push_cast
    rfl
  have tr5 : ∀ c z w, trOut (mapOf (phA Am G) (phLin Am G γ) c) z w = c * τ * Complex.exp (z ⬝ᵥ w) := fun c z w => by
    rw [tr4, ← eτ, mul_assoc c]
  refine ⟨1 / τ, one_div_pos.2 hτ0, ?_, fun z w => ?_⟩
  · unfold phPhi
    rw [r1, r2, r3]
    funext z z' w w'
    unfold renormMap
    rw [tr5, mapOf_smul, dotProduct_zero, Complex.exp_zero, one_mul, mul_one]
    push_cast
    rfl
  · rw [tr5]
    push_cast
    rw [one_div, inv_mul_cancel₀ (by exact_mod_cast hτ0.ne'), one_mul]

/-! ## The core state -/

theorem barg_core (S : Matrix m k ℂ) (a : Matrix k k ℂ) (e : m → ℂ) (f : k → ℂ) (c : ℂ) (x : m → ℂ) (y : k → ℂ) :
    bargFun (fromBlocks 0 S Sᵀ a) (Sum.elim e f) c (Sum.elim x y) = c * Complex.exp (1 / 2 * (y ⬝ᵥ a.mulVec y) + f ⬝ᵥ y) * Complex.exp ((e + S.mulVec y) ⬝ᵥ x) := by
  unfold bargFun
  rw [blocks_dot, sumElim_dotProduct_sumElim, Matrix.zero_mulVec, dotProduct_zero, mul_assoc, ← Complex.exp_add, add_dotProduct, dotProduct_comm (S.mulVec y) x]
  refine congrArg (fun e => c * Complex.exp e) ?_
  ring

/-- A displacement of the core modes, up to a constant. -/
theorem disp_core (S : Matrix m k ℂ) (a : Matrix k k ℂ) (e : m → ℂ) (f : k → ℂ) (γ : m → ℂ) (z : m ⊕ k → ℂ) :
    applyOn (dispOp (-γ)) (bargFun (fromBlocks 0 S Sᵀ a) (Sum.elim e f) 1) z / applyOn (dispOp (-γ)) (bargFun (fromBlocks 0 S Sᵀ a) (Sum.elim e f) 1) 0 =
      bargFun (fromBlocks 0 S Sᵀ a) (Sum.elim (e - γ) (f + Sᵀ.mulVec (star γ))) 1 z := by
  have key : ∀ z : m ⊕ k → ℂ, applyOn (dispOp (-γ)) (bargFun (fromBlocks 0 S Sᵀ a) (Sum.elim e f) 1) z =
      Complex.exp (-(γ ⬝ᵥ star γ) / 2 + star γ ⬝ᵥ e) * bargFun (fromBlocks 0 S Sᵀ a) (Sum.elim (e - γ) (f + Sᵀ.mulVec (star γ))) 1 z := by
    intro z
    unfold applyOn
    obtain ⟨x, hx⟩ : ∃ x, x = z ∘ Sum.inl := ⟨_, rfl⟩
    obtain ⟨y, hy⟩ : ∃ y, y = z ∘ Sum.inr := ⟨_, rfl⟩
    have hz : z = Sum.elim x y := by rw [hx, hy, Sum.elim_comp_inl_inr]
    rw [← hx, ← hy, hz]
    simp only [barg_core]
    have hd : ∀ s : m → ℂ, dispOp (-γ) x s = Complex.exp (-(γ ⬝ᵥ star γ) / 2 - γ ⬝ᵥ x) * Complex.exp (1 / 2 * (s ⬝ᵥ (0 : Matrix m m ℂ).mulVec s) + (x + star γ) ⬝ᵥ s) := by
      intro s
      rw [disp_exp, ← Complex.exp_add, ← Complex.exp_add, Matrix.zero_mulVec, dotProduct_zero]
      refine congrArg Complex.exp ?_
      rw [star_neg, neg_dotProduct, dotProduct_neg, neg_dotProduct, add_dotProduct, add_dotProduct, neg_dotProduct, dotProduct_comm s x]
      ring
    have := eval_gauss (Q := (0 : Matrix m m ℂ)) transpose_zero shrinks_zero (f := dispOp (-γ) x) hd
      (1 * Complex.exp (1 / 2 * (y ⬝ᵥ a.mulVec y) + f ⬝ᵥ y)) (e + S.mulVec y)
    rw [this, hd]
    have hx1 : ∀ p q r : ℂ, 1 * Complex.exp p * (Complex.exp q * Complex.exp r) = Complex.exp (p + q + r) := fun p q r => by
      rw [Complex.exp_add, Complex.exp_add]; ring
    have hx2 : ∀ p q r : ℂ, Complex.exp p * (1 * Complex.exp q * Complex.exp r) = Complex.exp (p + q + r) := fun p q r => by
      rw [Complex.exp_add, Complex.exp_add]; ring
    rw [hx1, hx2, Matrix.zero_mulVec, dotProduct_zero]
    refine congrArg Complex.exp ?_
    have e1 : Sᵀ.mulVec (star γ) ⬝ᵥ y = star γ ⬝ᵥ S.mulVec y := by
      rw [Matrix.mulVec_transpose, ← Matrix.dotProduct_mulVec]
    rw [add_dotProduct f, e1, add_dotProduct x, dotProduct_add x, dotProduct_add (star γ), add_dotProduct (e - γ), sub_dotProduct, dotProduct_comm x e, dotProduct_comm x (S.mulVec y)]
    ring
  rw [key, key]
  have h0 : bargFun (fromBlocks 0 S Sᵀ a) (Sum.elim (e - γ) (f + Sᵀ.mulVec (star γ))) 1 0 = 1 := by
    unfold bargFun
    rw [Matrix.mulVec_zero, dotProduct_zero, dotProduct_zero, mul_zero, add_zero, Complex.exp_zero, mul_one]
  rw [h0, mul_one, mul_div_cancel_left₀ _ (Complex.exp_ne_zero _)]

/-- The density matrix of a core ket. -/
theorem ketDM_core (S : Matrix m k ℂ) (a : Matrix k k ℂ) (e : m → ℂ) (f : k → ℂ) (c : ℂ) (z w : m ⊕ k → ℂ) :
    ketDM (bargFun (fromBlocks 0 S Sᵀ a) (Sum.elim e f) c) z w =
      dmOf (fromBlocks 0 (rTemp S)ᵀ (rTemp S) (fromBlocks (cj a) 0 0 a)) (Sum.elim (Sum.elim (star e) e) (Sum.elim (star f) f)) (c * (starRingEnd ℂ) c) z w := by
  obtain ⟨x, y, rfl⟩ : ∃ x y, z = Sum.elim x y := ⟨_, _, (Sum.elim_comp_inl_inr z).symm⟩
  obtain ⟨x', y', rfl⟩ : ∃ x' y', w = Sum.elim x' y' := ⟨_, _, (Sum.elim_comp_inl_inr w).symm⟩
  rw [core_slice]
  unfold ketDM
  have es : star (Sum.elim x' y') = Sum.elim (star x') (star y') := by funext r; rcases r with r | r <;> rfl
  rw [es, barg_core, barg_core, map_mul, map_mul, ← Complex.exp_conj, ← Complex.exp_conj]
  have hx1 : ∀ p q r s : ℂ, c * Complex.exp p * Complex.exp q * ((starRingEnd ℂ) c * Complex.exp r * Complex.exp s) = c * (starRingEnd ℂ) c * Complex.exp (p + q + r + s) := fun p q r s => by
    rw [Complex.exp_add, Complex.exp_add, Complex.exp_add]; ring
  have hx2 : ∀ p q : ℂ, c * (starRingEnd ℂ) c * Complex.exp p * Complex.exp q = c * (starRingEnd ℂ) c * Complex.exp (p + q) := fun p q => by
    rw [Complex.exp_add]; ring
  rw [hx1, hx2]
  refine congrArg (fun e => c * (starRingEnd ℂ) c * Complex.exp e) ?_
  have eT : (rTemp S)ᵀ.mulVec (Sum.elim y' y) = Sum.elim ((cj S).mulVec y') (S.mulVec y) := by
    unfold rTemp
    rw [fromBlocks_transpose, fromBlocks_mulVec]
    simp only [transpose_zero, Matrix.zero_mulVec, add_zero, zero_add, transpose_transpose, Sum.elim_comp_inl, Sum.elim_comp_inr]
    rfl
  have eN : Sum.elim y' y ⬝ᵥ (fromBlocks (cj a) 0 0 a).mulVec (Sum.elim y' y) = y' ⬝ᵥ (cj a).mulVec y' + y ⬝ᵥ a.mulVec y := by
    rw [fromBlocks_mulVec, sumElim_dotProduct_sumElim]
    simp only [Matrix.zero_mulVec, add_zero, zero_add, Sum.elim_comp_inl, Sum.elim_comp_inr]
  have eS : Sum.elim ((cj S).mulVec y') (S.mulVec y) + Sum.elim (star e) e = Sum.elim ((cj S).mulVec y' + star e) (S.mulVec y + e) := by
    funext r; rcases r with r | r <;> rfl
  rw [eT, eN, eS, Sum.elim_comp_inl, Sum.elim_comp_inr, sumElim_dotProduct_sumElim, map_add, map_mul, conj_dot, conj_dot, conj_dot, star_mulVec', star_star, star_star, star_add,
    star_mulVec', star_star]
  have : (starRingEnd ℂ) (1 / 2) = 1 / 2 := by rw [map_div₀, map_one, Complex.conj_ofNat]
  rw [this, add_dotProduct, add_dotProduct, add_dotProduct, add_dotProduct]
  ring

/-! ### Trace class -/

theorem trClass_join {P : Matrix (m ⊕ m) (m ⊕ m) ℂ} {R : Matrix (k ⊕ k) (m ⊕ m) ℂ} {Q : Matrix (k ⊕ k) (k ⊕ k) ℂ}
    (h : ∀ x y, RV x → RV y → ¬ (x = 0 ∧ y = 0) → (x ⬝ᵥ (P - Xmat m).mulVec x + 2 * (R.mulVec x ⬝ᵥ y) + y ⬝ᵥ (Q - Xmat k).mulVec y).re < 0) :
    TrClass ((fromBlocks P Rᵀ R Q).submatrix (coreFirst m k).symm (coreFirst m k).symm) := by
  intro u hu
  have := h _ _ (RV.pv (u ∘ Sum.inl)) (RV.pv (u ∘ Sum.inr)) (fun e => hu (by
    funext r
    rcases r with r | r
    · exact congrFun e.1 (Sum.inr r)
    · exact congrFun e.2 (Sum.inr r)))
  rw [submatrix_dot, Equiv.symm_symm, vars_eq, pv_vars, quad_split]
  rw [Matrix.sub_mulVec, dotProduct_sub, Matrix.sub_mulVec, dotProduct_sub, X_quad, X_quad] at this
  have e : 2 * ∑ i, ‖u i‖ ^ 2 = (2 * ∑ i, (‖(u ∘ Sum.inl) i‖ : ℂ) ^ 2 + 2 * ∑ i, (‖(u ∘ Sum.inr) i‖ : ℂ) ^ 2).re := by
    rw [Fintype.sum_sum_type]
    have : (2 * ∑ i, (‖(u ∘ Sum.inl) i‖ : ℂ) ^ 2 + 2 * ∑ i, (‖(u ∘ Sum.inr) i‖ : ℂ) ^ 2) = ((2 * (∑ i, ‖u (Sum.inl i)‖ ^ 2 + ∑ i, ‖u (Sum.inr i)‖ ^ 2) : ℝ) : ℂ) := by
      push_cast; simp only [Function.comp]; ring
    rw [this, Complex.ofReal_re]
  rw [e, ← sub_neg, ← Complex.sub_re]
  refine lt_of_eq_of_lt (congrArg Complex.re ?_) this
  ring

theorem X_quad_re {v : m ⊕ m → ℂ} (hv : RV v) : 0 ≤ (v ⬝ᵥ (Xmat m).mulVec v).re ∧ (v ≠ 0 → 0 < (v ⬝ᵥ (Xmat m).mulVec v).re) := by
  obtain ⟨u, hu⟩ : ∃ u, u = v ∘ Sum.inr := ⟨_, rfl⟩
  have e : v = Sum.elim (star u) u := by rw [hu]; exact hv
  have er : (v ⬝ᵥ (Xmat m).mulVec v).re = 2 * ∑ i, ‖u i‖ ^ 2 := by
    rw [e, X_quad]
    have : (2 * ∑ i, (‖u i‖ : ℂ) ^ 2) = ((2 * ∑ i, ‖u i‖ ^ 2 : ℝ) : ℂ) := by push_cast; rfl
    rw [this, Complex.ofReal_re]
  rw [er]
  refine ⟨by positivity, fun h0 => ?_⟩
  have hu0 : u ≠ 0 := by
    rintro rfl
    refine h0 ?_
    rw [e]
    funext r
    rcases r with r | r <;> simp
  obtain ⟨i, hi⟩ := Function.ne_iff.1 hu0
  refine mul_pos two_pos (Finset.sum_pos' (fun _ _ => by positivity) ⟨i, Finset.mem_univ _, ?_⟩)
  have : u i ≠ 0 := hi
  positivity

theorem core_trClass {T : Matrix (k ⊕ k) (m ⊕ m) ℂ} {Nc : Matrix (k ⊕ k) (k ⊕ k) ℂ} (hT : Bk T) (h : TrClass (Nc + T * Xmat m * Tᵀ)) :
    TrClass ((fromBlocks 0 Tᵀ T Nc).submatrix (coreFirst m k).symm (coreFirst m k).symm) := by
  refine trClass_join fun x y hx hy h0 => ?_
  obtain ⟨r, hr⟩ : ∃ r, r = Tᵀ.mulVec y := ⟨_, rfl⟩
  have hrr : RV r := by rw [hr]; exact hT.transpose.mulVec hy
  obtain ⟨s, hs⟩ : ∃ s, s = x + -(Xmat m).mulVec r := ⟨_, rfl⟩
  have hsr : RV s := by rw [hs]; exact hx.add (Bk.X.mulVec hrr).neg
  have e1 : T.mulVec x ⬝ᵥ y = x ⬝ᵥ r := by rw [hr, Matrix.mulVec_transpose, dotProduct_comm x, ← Matrix.dotProduct_mulVec, dotProduct_comm]
  have e2 : s ⬝ᵥ (Xmat m).mulVec s = x ⬝ᵥ (Xmat m).mulVec x - 2 * (x ⬝ᵥ r) + r ⬝ᵥ (Xmat m).mulVec r := by
    have f1 : (Xmat m).mulVec ((Xmat m).mulVec r) = r := by rw [Matrix.mulVec_mulVec, Xmat_sq, Matrix.one_mulVec]
    have f2 : (Xmat m).mulVec r ⬝ᵥ (Xmat m).mulVec x = x ⬝ᵥ r := by
      rw [Matrix.dotProduct_mulVec, ← Matrix.mulVec_transpose, Xmat_T, f1, dotProduct_comm]
    rw [hs, Matrix.mulVec_add, Matrix.mulVec_neg, f1, add_dotProduct, dotProduct_add, dotProduct_add, neg_dotProduct, neg_dotProduct, dotProduct_neg, dotProduct_neg, f2,
      dotProduct_comm ((Xmat m).mulVec r) r]
    ring
  have e3 : y ⬝ᵥ (T * Xmat m * Tᵀ).mulVec y = r ⬝ᵥ (Xmat m).mulVec r := by
    rw [← Matrix.mulVec_mulVec, ← hr, ← Matrix.mulVec_mulVec, Matrix.dotProduct_mulVec y, ← Matrix.mulVec_transpose, ← hr]
  have e4 : x ⬝ᵥ ((0 : Matrix (m ⊕ m) (m ⊕ m) ℂ) - Xmat m).mulVec x + 2 * (T.mulVec x ⬝ᵥ y) + y ⬝ᵥ (Nc - Xmat k).mulVec y =
      -(s ⬝ᵥ (Xmat m).mulVec s) + y ⬝ᵥ (Nc + T * Xmat m * Tᵀ - Xmat k).mulVec y := by
    rw [e1, e2, Matrix.sub_mulVec, Matrix.sub_mulVec, Matrix.sub_mulVec, Matrix.add_mulVec, dotProduct_sub, dotProduct_sub, dotProduct_sub, dotProduct_add, e3, Matrix.zero_mulVec,
      dotProduct_zero]
    ring
  rw [e4, Complex.add_re, Complex.neg_re]
  obtain ⟨q1, q2⟩ := X_quad_re hsr
  by_cases hy0 : y = 0
  · have hs0 : s ≠ 0 := by
      rw [hs, hr, hy0, Matrix.mulVec_zero, Matrix.mulVec_zero, neg_zero, add_zero]
      exact fun e => h0 ⟨e, hy0⟩
    have := q2 hs0
    rw [hy0, zero_dotProduct, Complex.zero_re]
    linarith
  · have := trClass_rv h hy hy0
    linarith

end Verif.Manifold
