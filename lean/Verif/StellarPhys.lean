import Verif.Stellar

/-!
# The physical stellar decomposition (C78)
-/

namespace Verif.Manifold
open Matrix Verif.Gauss MeasureTheory
open scoped ComplexOrder MatrixOrder

variable {m k : Type*} [Fintype m] [DecidableEq m] [Fintype k] [DecidableEq k]

/-! ## Consequences of `Gamma` -/

theorem star_mulVec' {p q : Type*} [Fintype q] (M : Matrix p q ℂ) (v : q → ℂ) : star (M.mulVec v) = (cj M).mulVec (star v) := by
  funext i
  simp [Matrix.mulVec, dotProduct, cj, mul_comm]

theorem gamma_cj {a g : Matrix m m ℂ} (h : Gamma a g) : cj g = gᵀ := by
  rw [← cj_conjT, h.herm]

theorem gamma_invT {a g : Matrix m m ℂ} (h : Gamma a g) : g⁻¹ᵀ * gᵀ = 1 ∧ gᵀ * g⁻¹ᵀ = 1 := by
  rw [← transpose_mul, ← transpose_mul, h.inv, h.inv', transpose_one]
  exact ⟨rfl, rfl⟩

/-- `ā γ⁻¹ = γ⁻ᵀ ā`. -/
theorem gamma_inter_inv {a g : Matrix m m ℂ} (h : Gamma a g) : cj a * g⁻¹ = g⁻¹ᵀ * cj a := by
  calc cj a * g⁻¹ = (g⁻¹ᵀ * gᵀ) * cj a * g⁻¹ := by rw [(gamma_invT h).1, Matrix.one_mul]
    _ = g⁻¹ᵀ * (gᵀ * cj a) * g⁻¹ := by simp only [Matrix.mul_assoc]
    _ = g⁻¹ᵀ * cj a * (g * g⁻¹) := by rw [← h.inter]; simp only [Matrix.mul_assoc]
    _ = _ := by rw [h.inv, Matrix.mul_one]

theorem gamma_cj_inv {a g : Matrix m m ℂ} (h : Gamma a g) : cj g⁻¹ = g⁻¹ᵀ := by
  rw [cj_inv, gamma_cj h, transpose_nonsing_inv]

/-- `a γ⁻ᵀ = γ⁻¹ a`. -/
theorem gamma_inter_inv' {a g : Matrix m m ℂ} (h : Gamma a g) : a * g⁻¹ᵀ = g⁻¹ * a := by
  have := congrArg cj (gamma_inter_inv h)
  rw [cj_mul, cj_mul, cj_cj, gamma_cj_inv h] at this
  rw [this, ← gamma_cj_inv h, cj_cj]

theorem gamma_shrinks {a g : Matrix m m ℂ} (hs : aᵀ = a) (h : Gamma a g) : Shrinks (-cj a) := by
  refine shrinks_of (B := g) (C := g⁻¹) ?_ h.inv'
  rw [conjTranspose_neg, neg_mul_neg', conjT_cj, hs, h.herm, h.sq, add_sub_cancel]

theorem cj_symm {a : Matrix m m ℂ} (hs : aᵀ = a) : (cj a)ᵀ = cj a := by rw [cj_transpose', ← cj_transpose, hs]

/-- The inverse of `ā⁻¹ - a`. -/
theorem gamma_sandwich {a g : Matrix m m ℂ} (h : Gamma a g) (hd : (cj a).det ≠ 0) : ((cj a)⁻¹ - a) * (g⁻¹ᵀ * cj a * g⁻¹) = 1 := by
  have i1 : (cj a)⁻¹ * cj a = 1 := nonsing_inv_mul _ (isUnit_iff_ne_zero.2 hd)
  rw [← gamma_inter_inv h]
  calc ((cj a)⁻¹ - a) * (cj a * g⁻¹ * g⁻¹) = ((cj a)⁻¹ * cj a - a * cj a) * (g⁻¹ * g⁻¹) := by rw [Matrix.sub_mul, Matrix.sub_mul]; simp only [Matrix.mul_assoc]
    _ = g * (g * g⁻¹) * g⁻¹ := by rw [i1, ← h.sq]; simp only [Matrix.mul_assoc]
    _ = 1 := by rw [h.inv, Matrix.mul_one, h.inv]

/-! ## Displaced unitaries -/

/-- `D(β) F`. -/
noncomputable def dispLeft (β : m → ℂ) (F : (m → ℂ) → (m → ℂ) → ℂ) (z w : m → ℂ) : ℂ :=
  Complex.exp (β ⬝ᵥ z - (∑ i, (‖β i‖ : ℂ) ^ 2) / 2) * F (z - star β) w

theorem norm_dot (β : m → ℂ) : ∑ i, (‖β i‖ : ℂ) ^ 2 = β ⬝ᵥ star β := by
  refine Finset.sum_congr rfl fun i _ => ?_
  rw [Pi.star_apply, Complex.star_def, Complex.mul_conj, Complex.normSq_eq_norm_sq]
  push_cast; rfl

theorem conj_dot (x y : m → ℂ) : (starRingEnd ℂ) (x ⬝ᵥ y) = star x ⬝ᵥ star y := by
  simp [dotProduct]

theorem conj_norms (β : m → ℂ) : (starRingEnd ℂ) (∑ i, (‖β i‖ : ℂ) ^ 2) = ∑ i, (‖β i‖ : ℂ) ^ 2 := by
  simp

theorem dispLeft_isometry (β : m → ℂ) (F : (m → ℂ) → (m → ℂ) → ℂ) (z v : m → ℂ) :
    opMul (opAdj (dispLeft β F)) (dispLeft β F) z v = opMul (opAdj F) F z v := by
  unfold opMul
  refine congrArg (HMul.hMul _) ?_
  rw [← integral_sub_right_eq_self (μ := volume) (fun u : m → ℂ => opAdj F z (star u) * F u v * Complex.exp (-∑ i, (‖u i‖ : ℂ) ^ 2)) (star β)]
  refine integral_congr_ae (.of_forall fun u => ?_)
  simp only [opAdj, dispLeft, star_star, map_mul, ← Complex.exp_conj]
  have hx : ∀ p q r s t : ℂ, Complex.exp p * s * (Complex.exp q * t) * Complex.exp r = s * t * Complex.exp (p + q + r) := fun p q r s t => by
    rw [Complex.exp_add, Complex.exp_add]; ring
  rw [hx]
  have e : star (star (u - star β)) = u - star β := star_star _
  refine congrArg₂ (· * ·) rfl (congrArg Complex.exp ?_)
  rw [map_sub, map_div₀, conj_norms, conj_dot, norm_dot β, norm_dot u, norm_dot (u - star β), Complex.conj_ofNat, star_sub, star_star, sub_dotProduct, dotProduct_sub,
    dotProduct_sub, dotProduct_comm (star β) β, dotProduct_comm u β]
  ring

theorem dispLeft_coisometry (β : m → ℂ) (F : (m → ℂ) → (m → ℂ) → ℂ) (hF : ∀ z v, opMul F (opAdj F) z v = opId z v) (z v : m → ℂ) :
    opMul (dispLeft β F) (opAdj (dispLeft β F)) z v = opId z v := by
  have key := hF (z - star β) (v - β)
  unfold opMul at key ⊢
  have ei : ∀ u : m → ℂ, dispLeft β F z (star u) * opAdj (dispLeft β F) u v * Complex.exp (-∑ i, (‖u i‖ : ℂ) ^ 2) =
      Complex.exp (β ⬝ᵥ z + star β ⬝ᵥ v - β ⬝ᵥ star β) * (F (z - star β) (star u) * opAdj F u (v - β) * Complex.exp (-∑ i, (‖u i‖ : ℂ) ^ 2)) := by
    intro u
    simp only [opAdj, dispLeft, map_mul, ← Complex.exp_conj]
    rw [show star v - star β = star (v - β) from (star_sub v β).symm]
    have hx : ∀ p q r s t : ℂ, Complex.exp p * s * (Complex.exp q * t) * r = Complex.exp (p + q) * (s * t * r) := fun p q r s t => by
      rw [Complex.exp_add]; ring
    rw [hx, map_sub, map_div₀, conj_norms, conj_dot, norm_dot β, Complex.conj_ofNat, star_star]
    refine congrArg₂ (· * ·) (congrArg Complex.exp ?_) rfl
    ring
  simp only [ei]
  rw [integral_const_mul, mul_left_comm, key]
  unfold opId
  rw [← Complex.exp_add]
  refine congrArg Complex.exp ?_
  show _ + (z - star β) ⬝ᵥ (v - β) = z ⬝ᵥ v
  rw [sub_dotProduct, dotProduct_sub, dotProduct_sub, dotProduct_comm z β, dotProduct_comm (star β) β]
  ring

theorem symplectic_det {S : Matrix (m ⊕ m) (m ⊕ m) ℝ} (h : Symplectic S) : IsUnit S.det := by
  have := congrArg det h
  rw [det_mul, det_mul, det_transpose] at this
  have hJ : (fromBlocks 0 1 (-1) 0 : Matrix (m ⊕ m) (m ⊕ m) ℝ).det ≠ 0 := by
    intro e
    have hJJ : (fromBlocks 0 1 (-1) 0 : Matrix (m ⊕ m) (m ⊕ m) ℝ) * fromBlocks 0 (-1) 1 0 = 1 := by
      rw [fromBlocks_multiply, ← fromBlocks_one]; simp
    have := congrArg det hJJ
    rw [det_mul, e, zero_mul, det_one] at this
    exact zero_ne_one this
  refine isUnit_iff_ne_zero.2 fun e => ?_
  rw [e, mul_zero] at this
  exact hJ this.symm

theorem fromSymplectic_unitary (S : Matrix (m ⊕ m) (m ⊕ m) ℝ) (h : Symplectic S) : IsUnitaryOp (fromSymplectic S) := by
  refine ⟨C64_isometry S h, fun z v => ?_⟩
  have hi' : S * S⁻¹ = 1 := mul_nonsing_inv _ (symplectic_det h)
  obtain ⟨h', -⟩ := C64_inverse S S⁻¹ h hi' z v
  have e : fromSymplectic S⁻¹ = opAdj (fromSymplectic S) := funext fun z => funext fun v => (C64_inverse S S⁻¹ h hi' z v).2
  have e2 : fromSymplectic S = opAdj (fromSymplectic S⁻¹) := funext fun z => funext fun v => (C64_inverse S⁻¹ S h' (mul_eq_one_comm.1 hi') z v).2
  rw [← e, e2]
  exact C64_isometry S⁻¹ h' z v

/-! ## The operator of the decomposition -/

/-- The displacement. -/
noncomputable def stellarBeta (a g : Matrix m m ℂ) (b : m → ℂ) : m → ℂ := (g⁻¹ * g⁻¹).mulVec (b + a.mulVec (star b))

/-- How far the linear term of the code is from that of a unitary. -/
noncomputable def stellarDelta (a g : Matrix m m ℂ) (b : m → ℂ) : m → ℂ := physBin a g b + g⁻¹ᵀ.mulVec (star b + (cj a).mulVec b)

theorem beta_star {a g : Matrix m m ℂ} (h : Gamma a g) (b : m → ℂ) : star (stellarBeta a g b) = (g⁻¹ᵀ * g⁻¹ᵀ).mulVec (star b + (cj a).mulVec b) := by
  unfold stellarBeta
  rw [star_mulVec', cj_mul, gamma_cj_inv h, star_add, star_mulVec', star_star]

theorem beta_b {a g : Matrix m m ℂ} (h : Gamma a g) (b : m → ℂ) : stellarBeta a g b - a.mulVec (star (stellarBeta a g b)) = b := by
  have e1 : a * (g⁻¹ᵀ * g⁻¹ᵀ) = g⁻¹ * g⁻¹ * a := by
    rw [← Matrix.mul_assoc, gamma_inter_inv' h, Matrix.mul_assoc, gamma_inter_inv' h, Matrix.mul_assoc]
  have e2 : g⁻¹ * g⁻¹ * (1 - a * cj a) = 1 := by
    rw [← h.sq, Matrix.mul_assoc, ← Matrix.mul_assoc g⁻¹ g g, h.inv', Matrix.one_mul, h.inv']
  rw [beta_star h, Matrix.mulVec_mulVec, e1]
  unfold stellarBeta
  rw [← Matrix.mulVec_mulVec _ (g⁻¹ * g⁻¹) a, ← Matrix.mulVec_sub, Matrix.mulVec_add, Matrix.mulVec_mulVec]
  rw [show b + a.mulVec (star b) - (a.mulVec (star b) + (a * cj a).mulVec b) = (1 - a * cj a).mulVec b by
    rw [Matrix.sub_mulVec, Matrix.one_mulVec]; abel]
  rw [Matrix.mulVec_mulVec, e2, Matrix.one_mulVec]

theorem beta_e {a g : Matrix m m ℂ} (h : Gamma a g) (b : m → ℂ) : physBin a g b = stellarDelta a g b - gᵀ.mulVec (star (stellarBeta a g b)) := by
  unfold stellarDelta
  rw [beta_star h, Matrix.mulVec_mulVec, ← Matrix.mul_assoc, (gamma_invT h).2, Matrix.one_mul, add_sub_cancel_right]

theorem physA_unitary {a g : Matrix m m ℂ} (hs : aᵀ = a) (h : Gamma a g) :
    (physA a g)ᵀ = physA a g ∧ physA a g * (physA a g)ᴴ = 1 ∧ IsUnit (physA a g).toBlocks₁₂.det := by
  have e1 : cj a * a + gᵀ * gᵀ = 1 := by
    have := congrArg cj h.sq
    rw [cj_mul, gamma_cj h, sub_eq_add_neg, cj_add, cj_one, cj_neg, cj_mul, cj_cj] at this
    rw [this]; abel
  refine ⟨?_, ?_, ?_⟩
  · unfold physA
    rw [fromBlocks_transpose, hs, transpose_transpose, transpose_neg, cj_symm hs]
  · unfold physA
    rw [fromBlocks_conjTranspose, fromBlocks_multiply, ← fromBlocks_one, conjTranspose_neg, conjT_cj, hs, h.herm, transpose_conjT, gamma_cj h,
      show aᴴ = cj a by rw [← cj_transpose, hs], h.sq]
    refine fromBlocks_inj.2 ⟨by abel, ?_, ?_, ?_⟩
    · have := congrArg cj h.inter
      rw [cj_mul, cj_mul, cj_cj, gamma_cj h, ← gamma_cj h, cj_cj] at this
      rw [gamma_cj h] at this
      rw [this, Matrix.mul_neg, add_neg_cancel]
    · rw [← h.inter, Matrix.neg_mul, add_neg_cancel]
    · rw [neg_mul_neg', add_comm, e1]
  · unfold physA
    rw [toBlocks_fromBlocks₁₂]
    refine isUnit_iff_ne_zero.2 fun e => ?_
    have := congrArg det h.inv
    rw [det_mul, e, zero_mul, det_one] at this
    exact zero_ne_one this

/-- The operator before normalisation is a multiple of a displaced Gaussian unitary times the exponential of a linear form. -/
theorem physU1_eq {a g : Matrix m m ℂ} (hs : aᵀ = a) (h : Gamma a g) (b : m → ℂ) : ∃ V : (m → ℂ) → (m → ℂ) → ℂ, ∃ κ : ℂ, IsUnitaryOp V ∧ κ ≠ 0 ∧
    ∀ z w, physU1 a g b z w = κ * V z w * Complex.exp (stellarDelta a g b ⬝ᵥ w) := by
  obtain ⟨p1, p2, p3⟩ := physA_unitary hs h
  obtain ⟨hS, eS⟩ := C64_converse _ p1 p2 p3
  obtain ⟨S, rfl⟩ : ∃ S, S = au2Symplectic (physA a g) := ⟨_, rfl⟩
  obtain ⟨β, hβ⟩ : ∃ β, β = stellarBeta a g b := ⟨_, rfl⟩
  obtain ⟨u1, u2⟩ := fromSymplectic_unitary _ hS
  have hc := fromSymplecticC_ne hS
  obtain ⟨r, hr⟩ : ∃ r : ℂ, r = 1 / 2 * (star β ⬝ᵥ a.mulVec (star β)) - (β ⬝ᵥ star β) / 2 := ⟨_, rfl⟩
  refine ⟨dispLeft β (fromSymplectic (au2Symplectic (physA a g))), (fromSymplecticC (au2Symplectic (physA a g)))⁻¹ * Complex.exp (-r),
    ⟨fun z v => (dispLeft_isometry _ _ _ _).trans (u1 z v), dispLeft_coisometry _ _ u2⟩, mul_ne_zero (inv_ne_zero hc) (Complex.exp_ne_zero _), fun z w => ?_⟩
  have hb : b = β - a.mulVec (star β) := by rw [hβ, beta_b h]
  have he : physBin a g b = stellarDelta a g b - gᵀ.mulVec (star β) := by rw [hβ, beta_e h]
  obtain ⟨δ, hδ⟩ : ∃ δ, δ = stellarDelta a g b := ⟨_, rfl⟩
  rw [← hδ] at he ⊢
  unfold physU1 bargOp bargFun dispLeft fromSymplectic
  rw [eS, he, one_mul]
  have hx : ∀ p q r s c : ℂ, c ≠ 0 → c⁻¹ * Complex.exp p * (Complex.exp q * (c * Complex.exp r)) * Complex.exp s = Complex.exp (p + q + r + s) := fun p q r s c hc => by
    rw [Complex.exp_add, Complex.exp_add, Complex.exp_add]; field_simp
  rw [hx _ _ _ _ _ hc]
  refine congrArg Complex.exp ?_
  unfold physA
  rw [blocks_dot, blocks_dot, sumElim_dotProduct_sumElim, norm_dot]
  have e1 : (z - star β) ⬝ᵥ a.mulVec (z - star β) = z ⬝ᵥ a.mulVec z - 2 * (a.mulVec (star β) ⬝ᵥ z) + star β ⬝ᵥ a.mulVec (star β) := by
    rw [Matrix.mulVec_sub, sub_dotProduct, dotProduct_sub, dotProduct_sub, dotProduct_comm (a.mulVec (star β)) z,
      Matrix.dotProduct_mulVec (star β) a z, ← Matrix.mulVec_transpose, hs, dotProduct_comm (a.mulVec (star β)) z]
    ring
  have e2 : (z - star β) ⬝ᵥ g.mulVec w = z ⬝ᵥ g.mulVec w - gᵀ.mulVec (star β) ⬝ᵥ w := by
    rw [sub_dotProduct, Matrix.mulVec_transpose, ← Matrix.dotProduct_mulVec]
  rw [e1, e2, hr]
  conv_lhs => rw [hb]
  rw [sub_dotProduct, sub_dotProduct]
  ring

theorem opMul_expand (V : (m → ℂ) → (m → ℂ) → ℂ) (κ : ℂ) (δ z v : m → ℂ) :
    opMul (opAdj fun z w => κ * V z w * Complex.exp (δ ⬝ᵥ w)) (fun z w => κ * V z w * Complex.exp (δ ⬝ᵥ w)) z v =
      ((‖κ‖ ^ 2 : ℝ) : ℂ) * Complex.exp (star δ ⬝ᵥ z + δ ⬝ᵥ v) * opMul (opAdj V) V z v := by
  unfold opMul
  rw [mul_left_comm (((‖κ‖ ^ 2 : ℝ) : ℂ) * Complex.exp (star δ ⬝ᵥ z + δ ⬝ᵥ v)), ← integral_const_mul (((‖κ‖ ^ 2 : ℝ) : ℂ) * Complex.exp (star δ ⬝ᵥ z + δ ⬝ᵥ v))]
  refine congrArg (HMul.hMul (((Real.pi : ℂ) ^ Fintype.card m)⁻¹)) (integral_congr_ae (.of_forall fun u => ?_))
  simp only [opAdj, map_mul, ← Complex.exp_conj, conj_dot, star_star]
  rw [Complex.exp_add, Complex.ofReal_pow, ← Complex.mul_conj']
  ring

/-- `U† U` of the operator before normalisation. -/
theorem physU1_sq {a g : Matrix m m ℂ} (hs : aᵀ = a) (h : Gamma a g) (b : m → ℂ) : ∃ V : (m → ℂ) → (m → ℂ) → ℂ, ∃ κ : ℂ, IsUnitaryOp V ∧ κ ≠ 0 ∧
    (∀ z w, physU1 a g b z w = κ * V z w * Complex.exp (stellarDelta a g b ⬝ᵥ w)) ∧ physC a g b = ((1 / ‖κ‖ : ℝ) : ℂ) ∧
    ∀ z v, opMul (opAdj (physU1 a g b)) (physU1 a g b) z v = ((‖κ‖ ^ 2 : ℝ) : ℂ) * Complex.exp (star (stellarDelta a g b) ⬝ᵥ z + stellarDelta a g b ⬝ᵥ v + z ⬝ᵥ v) := by
  obtain ⟨V, κ, hV, hκ, e⟩ := physU1_eq hs h b
  have e' : physU1 a g b = fun z w => κ * V z w * Complex.exp (stellarDelta a g b ⬝ᵥ w) := funext fun z => funext fun w => e z w
  have key : ∀ z v, opMul (opAdj (physU1 a g b)) (physU1 a g b) z v =
      ((‖κ‖ ^ 2 : ℝ) : ℂ) * Complex.exp (star (stellarDelta a g b) ⬝ᵥ z + stellarDelta a g b ⬝ᵥ v + z ⬝ᵥ v) := fun z v => by
    rw [e', opMul_expand, hV.1, Complex.exp_add _ (z ⬝ᵥ v), ← mul_assoc]
    rfl
  refine ⟨V, κ, hV, hκ, e, ?_, key⟩
  unfold physC
  rw [key, dotProduct_zero, dotProduct_zero, zero_dotProduct, add_zero, add_zero, Complex.exp_zero, mul_one,
    show (1 / 2 : ℂ) = ((1 / 2 : ℝ) : ℂ) by norm_num, ← Complex.ofReal_cpow (by positivity), ← Real.sqrt_eq_rpow, Real.sqrt_sq (norm_nonneg _)]
  push_cast; rfl

theorem bargOp_smul (A : Matrix (m ⊕ m) (m ⊕ m) ℂ) (b : m ⊕ m → ℂ) (c : ℂ) (z w : m → ℂ) : bargOp A b c z w = c * bargOp A b 1 z w := by
  unfold bargOp bargFun; rw [one_mul]

/-- The operator returned is unitary exactly when its linear term is that of a unitary. -/
theorem physU_unitary_iff {a g : Matrix m m ℂ} (hs : aᵀ = a) (h : Gamma a g) (b : m → ℂ) :
    IsUnitaryOp (bargOp (physA a g) (Sum.elim b (physBin a g b)) (physC a g b)) ↔ stellarDelta a g b = 0 := by
  obtain ⟨V, κ, hV, hκ, e, hc, -⟩ := physU1_sq hs h b
  have hn : ‖κ‖ ≠ 0 := norm_ne_zero_iff.2 hκ
  obtain ⟨μ, hμ⟩ : ∃ μ : ℂ, μ = physC a g b * κ := ⟨_, rfl⟩
  have hμ1 : ‖μ‖ = 1 := by rw [hμ, hc, norm_mul, Complex.norm_real, norm_div, norm_one, norm_norm, one_div, inv_mul_cancel₀ hn]
  have eU : bargOp (physA a g) (Sum.elim b (physBin a g b)) (physC a g b) = fun z w => μ * V z w * Complex.exp (stellarDelta a g b ⬝ᵥ w) := by
    funext z w
    rw [bargOp_smul]
    change physC a g b * physU1 a g b z w = _
    rw [e, hμ]; ring
  rw [eU]
  constructor
  · rintro ⟨h1, -⟩
    have := h1 0 (star (stellarDelta a g b))
    rw [opMul_expand, hV.1, hμ1] at this
    simp only [opId, Pi.zero_apply, zero_mul, Finset.sum_const_zero, Complex.exp_zero, dotProduct_zero, zero_add, one_pow, Complex.ofReal_one, one_mul, mul_one] at this
    rw [← norm_dot, ← Complex.ofReal_one, show ∑ i, (‖stellarDelta a g b i‖ : ℂ) ^ 2 = ((∑ i, ‖stellarDelta a g b i‖ ^ 2 : ℝ) : ℂ) by push_cast; rfl,
      ← Complex.ofReal_exp, Complex.ofReal_inj, Real.exp_eq_one_iff] at this
    have h0 := (Finset.sum_eq_zero_iff_of_nonneg fun i _ => by positivity).1 this
    funext i
    have := h0 i (Finset.mem_univ i)
    simpa using this
  · intro h0
    rw [h0]
    refine ⟨fun z v => ?_, fun z v => ?_⟩
    · rw [opMul_expand, hV.1, hμ1]
      simp
    · have hmm : μ * (starRingEnd ℂ) μ = 1 := by rw [Complex.mul_conj', hμ1]; simp
      rw [← hV.2]
      unfold opMul
      refine congrArg (HMul.hMul _) (integral_congr_ae (.of_forall fun u => ?_))
      simp only [opAdj, map_mul, zero_dotProduct, Complex.exp_zero, mul_one, map_one]
      linear_combination (V z (star u) * (starRingEnd ℂ) (V (star v) (star u)) * Complex.exp (-∑ i, (‖u i‖ : ℂ) ^ 2)) * hmm

/-! ## The decomposition -/

omit [DecidableEq m] [DecidableEq k] in
/-- The core block of a matrix that shrinks shrinks. -/
theorem shrinks_block {A : Matrix (m ⊕ k) (m ⊕ k) ℂ} (h : Shrinks A) : Shrinks A.toBlocks₁₁ := by
  intro w hw
  have := h (Sum.elim w 0) (fun e => hw (by simpa using congrArg (· ∘ Sum.inl) e))
  rw [Fintype.sum_sum_type, Fintype.sum_sum_type] at this
  simp only [Sum.elim_inl, Sum.elim_inr, Pi.zero_apply, norm_zero, ne_eq, OfNat.ofNat_ne_zero, not_false_eq_true, zero_pow, Finset.sum_const_zero, add_zero] at this
  have e : ∀ i, A.mulVec (Sum.elim w 0) (Sum.inl i) = A.toBlocks₁₁.mulVec w i := fun i => by
    simp [Matrix.mulVec, dotProduct, toBlocks₁₁]
  simp only [e] at this
  refine lt_of_le_of_lt ?_ this
  have : 0 ≤ ∑ x, ‖A.mulVec (Sum.elim w 0) (Sum.inr x)‖ ^ 2 := Finset.sum_nonneg fun i _ => by positivity
  linarith

/-- For a normalisable ket the eigenvalues of `1 - a ā` are positive. -/
theorem eigs_pos {a V : Matrix m m ℂ} {lam : m → ℝ} (hs : aᵀ = a) (ha : Shrinks a) (hE : IsEigh (gammaSq a) V lam) (i : m) : 0 < lam i := by
  obtain ⟨h1, h2⟩ := hE
  obtain ⟨v, hv⟩ : ∃ v, v = V.mulVec (Pi.single i 1) := ⟨_, rfl⟩
  have hn : star v ⬝ᵥ v = 1 := by
    have := norm_mulVec V (Pi.single i (1 : ℂ))
    rw [h1, Matrix.one_mulVec] at this
    have e0 := norm_dot v
    rw [dotProduct_comm] at e0
    rw [← e0, hv]
    push_cast at this
    rw [this]
    simp
  have hv0 : v ≠ 0 := fun e => by rw [e] at hn; simp at hn
  have hG : star v ⬝ᵥ (gammaSq a).mulVec v = lam i := by
    rw [h2, hv, Matrix.mulVec_mulVec, Matrix.mul_assoc, h1, Matrix.mul_one, star_mulVec', ← Matrix.mulVec_mulVec, Matrix.dotProduct_mulVec, ← Matrix.mulVec_transpose,
      Matrix.mulVec_mulVec]
    have : Vᵀ * cj V = 1 := by
      have := congrArg cj h1
      rw [cj_mul, cj_one, cj_conjT] at this
      exact this
    rw [this, Matrix.one_mulVec]
    simp
  have hg : star v ⬝ᵥ (gammaSq a).mulVec v = ((∑ j, ‖v j‖ ^ 2 - ∑ j, ‖(cj a).mulVec v j‖ ^ 2 : ℝ) : ℂ) := by
    unfold gammaSq
    rw [Matrix.sub_mulVec, Matrix.one_mulVec, dotProduct_sub, Complex.ofReal_sub, norm_mulVec, conjT_cj, hs]
    have := norm_dot v
    rw [dotProduct_comm] at this
    rw [← this]; push_cast; rfl
  have hsh := ha (star v) (by simpa using hv0)
  have e1 : ∀ j, ‖a.mulVec (star v) j‖ = ‖(cj a).mulVec v j‖ := fun j => by
    have := congrFun (star_mulVec' (cj a) v) j
    rw [cj_cj] at this
    rw [← this, Pi.star_apply, norm_star]
  simp only [e1, Pi.star_apply, norm_star] at hsh
  rw [hG] at hg
  have := Complex.ofReal_inj.1 hg
  linarith

/-- **C78 (physical decomposition)** For every normalisable ket whose core block is invertible, the physical stellar decomposition returns a core state and an operator
that maps it to the given ket, whatever eigendecomposition `eigh` returned. -/
theorem C78_physical {A : Matrix (m ⊕ k) (m ⊕ k) ℂ} (hA : Aᵀ = A) (sA : Shrinks A) (b : m ⊕ k → ℂ) (c : ℂ) {V : Matrix m m ℂ} {lam : m → ℝ}
    (hE : IsEigh (1 - A.toBlocks₁₁ * cj A.toBlocks₁₁) V lam) (hd : A.toBlocks₁₁.det ≠ 0) :
    ∃ core U, physStellar V lam A b c = some (core, U) ∧ IsCore core ∧ ∀ z, applyOn U core z = bargFun A b c z := by
  obtain ⟨eA, hs, -⟩ := symm_blocks hA
  have hg := gamma_of hs hE (eigs_pos hs (shrinks_block sA) hE)
  obtain ⟨g, hgd⟩ : ∃ g, g = gammaOf V lam := ⟨_, rfl⟩
  rw [← hgd] at hg
  have hdc : (cj A.toBlocks₁₁).det ≠ 0 := by rw [det_cj]; simpa using hd
  have hsw := gamma_sandwich hg hdc
  have hds : ((cj A.toBlocks₁₁)⁻¹ - A.toBlocks₁₁).det ≠ 0 := fun e => by
    have := congrArg det hsw
    rw [det_mul, e, zero_mul, det_one] at this
    exact zero_ne_one this
  have hdg : g.det ≠ 0 := fun e => by
    have := congrArg det hg.inv
    rw [det_mul, e, zero_mul, det_one] at this
    exact zero_ne_one this
  obtain ⟨W, κ, -, hκ, -, hc, -⟩ := physU1_sq hs hg (b ∘ Sum.inl)
  have hc0 : physC A.toBlocks₁₁ g (b ∘ Sum.inl) ≠ 0 := by
    rw [hc]
    exact_mod_cast (one_div_pos.2 (norm_pos_iff.2 hκ)).ne'
  refine ⟨bargFun (physCoreA A g) (physCoreB A b g) (c / physC A.toBlocks₁₁ g (b ∘ Sum.inl)),
    bargOp (physA A.toBlocks₁₁ g) (Sum.elim (b ∘ Sum.inl) (physBin A.toBlocks₁₁ g (b ∘ Sum.inl))) (physC A.toBlocks₁₁ g (b ∘ Sum.inl)), ?_, ?_, fun z => ?_⟩
  · unfold physStellar
    simp only []
    rw [← hgd, if_neg (by simp only [hdg, hdc, hds, or_self, not_false_eq_true])]
  · refine ⟨c / physC A.toBlocks₁₁ g (b ∘ Sum.inl), fun w => ?_⟩
    have := blocks_dot (0 : Matrix m m ℂ) (g⁻¹ * A.toBlocks₂₁ᵀ) (A.toBlocks₂₂ + A.toBlocks₂₁ * ((cj A.toBlocks₁₁)⁻¹ - A.toBlocks₁₁)⁻¹ * A.toBlocks₂₁ᵀ) w (0 : k → ℂ)
    rw [transpose_mul, transpose_transpose] at this
    unfold bargFun physCoreA physCoreB
    simp only []
    rw [this, sumElim_dotProduct_sumElim]
    simp
  · have e1 : ((cj A.toBlocks₁₁)⁻¹ - A.toBlocks₁₁)⁻¹ = g⁻¹ᵀ * cj A.toBlocks₁₁ * g⁻¹ := inv_eq_right_inv hsw
    have key := applyOn_core (a := A.toBlocks₁₁) (g := g) (Q := -cj A.toBlocks₁₁) (by rw [transpose_neg, cj_symm hs]) (gamma_shrinks hs hg) (b ∘ Sum.inl)
      (physBin A.toBlocks₁₁ g (b ∘ Sum.inl)) (physC A.toBlocks₁₁ g (b ∘ Sum.inl)) (c / physC A.toBlocks₁₁ g (b ∘ Sum.inl)) (g⁻¹ * A.toBlocks₂₁ᵀ)
      (A.toBlocks₂₂ + A.toBlocks₂₁ * ((cj A.toBlocks₁₁)⁻¹ - A.toBlocks₁₁)⁻¹ * A.toBlocks₂₁ᵀ)
      (b ∘ Sum.inr - (A.toBlocks₂₁ * g⁻¹ᵀ).mulVec (physBin A.toBlocks₁₁ g (b ∘ Sum.inl))) z
    rw [transpose_mul, transpose_transpose] at key
    refine key.trans ?_
    rw [mul_div_cancel₀ _ hc0]
    unfold bargFun
    refine congrArg (HMul.hMul _) (congrArg Complex.exp ?_)
    have e2 := blocks_dot A.toBlocks₁₁ A.toBlocks₂₁ᵀ A.toBlocks₂₂ (z ∘ Sum.inl) (z ∘ Sum.inr)
    rw [transpose_transpose, ← eA, Sum.elim_comp_inl_inr] at e2
    have e3 : b ⬝ᵥ z = b ∘ Sum.inl ⬝ᵥ z ∘ Sum.inl + b ∘ Sum.inr ⬝ᵥ z ∘ Sum.inr := by
      rw [← sumElim_dotProduct_sumElim, Sum.elim_comp_inl_inr, Sum.elim_comp_inl_inr]
    obtain ⟨x, hx⟩ : ∃ x, x = z ∘ Sum.inl := ⟨_, rfl⟩
    obtain ⟨y, hy⟩ : ∃ y, y = z ∘ Sum.inr := ⟨_, rfl⟩
    obtain ⟨R, hR⟩ : ∃ R, R = A.toBlocks₂₁ := ⟨_, rfl⟩
    obtain ⟨e, he⟩ : ∃ e, e = physBin A.toBlocks₁₁ g (b ∘ Sum.inl) := ⟨_, rfl⟩
    rw [e2, e3, e1, ← hx, ← hy, ← hR, ← he]
    have f1 : g.mulVec ((g⁻¹ * Rᵀ).mulVec y) = Rᵀ.mulVec y := by rw [Matrix.mulVec_mulVec, ← Matrix.mul_assoc, hg.inv, Matrix.one_mul]
    have f2 : ((g⁻¹ * Rᵀ).mulVec y) ⬝ᵥ (-cj A.toBlocks₁₁).mulVec ((g⁻¹ * Rᵀ).mulVec y) = -(y ⬝ᵥ (R * (g⁻¹ᵀ * cj A.toBlocks₁₁ * g⁻¹) * Rᵀ).mulVec y) := by
      rw [Matrix.neg_mulVec, dotProduct_neg, Matrix.mulVec_mulVec, dotProduct_comm, ← transpose_transpose (g⁻¹ * Rᵀ)]
      rw [dotProduct_comm, Matrix.mulVec_transpose, ← Matrix.dotProduct_mulVec, Matrix.mulVec_mulVec, transpose_mul, transpose_transpose, transpose_mul, transpose_transpose]
      simp only [Matrix.mul_assoc]
    have f3 : (R * g⁻¹ᵀ).mulVec e ⬝ᵥ y = e ⬝ᵥ (g⁻¹ * Rᵀ).mulVec y := by
      rw [show R * g⁻¹ᵀ = (g⁻¹ * Rᵀ)ᵀ by rw [transpose_mul, transpose_transpose], Matrix.mulVec_transpose, ← Matrix.dotProduct_mulVec]
    rw [f1, f2, sub_dotProduct, f3, Matrix.add_mulVec, dotProduct_add]
    ring

/-- **C78 (singular core block)** When the core block is singular the call raises, although the formal decomposition exists. -/
theorem C78_singular {A : Matrix (m ⊕ k) (m ⊕ k) ℂ} (b : m ⊕ k → ℂ) (c : ℂ) (V : Matrix m m ℂ) (lam : m → ℝ) (hd : A.toBlocks₁₁.det = 0) :
    physStellar V lam A b c = none := by
  unfold physStellar
  simp only []
  rw [if_pos]
  exact .inr (.inl (by rw [det_cj, hd, map_zero]))

/-- **C78 (unitarity)** The operator of the decomposition is unitary exactly when the input part of its linear term is `-γ⁻ᵀ (b̄ + ā b)`. -/
theorem C78_unitary {A : Matrix (m ⊕ k) (m ⊕ k) ℂ} (hA : Aᵀ = A) (sA : Shrinks A) (b : m ⊕ k → ℂ) (c : ℂ) {V : Matrix m m ℂ} {lam : m → ℝ}
    (hE : IsEigh (1 - A.toBlocks₁₁ * cj A.toBlocks₁₁) V lam) {core : (m ⊕ k → ℂ) → ℂ} {U : (m → ℂ) → (m → ℂ) → ℂ} (hr : physStellar V lam A b c = some (core, U)) :
    IsUnitaryOp U ↔ (cj A.toBlocks₁₁ * (gammaOf V lam)⁻¹ᵀ).mulVec (b ∘ Sum.inl) + (gammaOf V lam)⁻¹.mulVec (star (b ∘ Sum.inl)) =
      (gammaOf V lam)⁻¹ᵀ.mulVec (star (b ∘ Sum.inl) + (cj A.toBlocks₁₁).mulVec (b ∘ Sum.inl)) := by
  obtain ⟨eA, hs, -⟩ := symm_blocks hA
  have hg := gamma_of hs hE (eigs_pos hs (shrinks_block sA) hE)
  have hU : U = bargOp (physA A.toBlocks₁₁ (gammaOf V lam)) (Sum.elim (b ∘ Sum.inl) (physBin A.toBlocks₁₁ (gammaOf V lam) (b ∘ Sum.inl)))
      (physC A.toBlocks₁₁ (gammaOf V lam) (b ∘ Sum.inl)) := by
    unfold physStellar at hr
    simp only [] at hr
    split_ifs at hr
    simp only [Option.some.injEq, Prod.mk.injEq] at hr
    exact hr.2.symm
  rw [hU, physU_unitary_iff hs hg]
  unfold stellarDelta physBin
  constructor
  · intro h
    rw [← sub_eq_zero, ← neg_eq_zero, ← h]; abel
  · intro h
    rw [← h]; abel

end Verif.Manifold
