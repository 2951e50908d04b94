import Verif.StellarDMSchur
import Verif.ChannelCP

/-!
# Gaussian maps acting on core states (C94)

What the two physical decompositions of density matrices have in common: a map with matrix `[[Am, Gᵀ], [G, Q]]` acting on a core state with matrix `[[0, Tᵀ], [T, Nc]]`.
-/

namespace Verif.Manifold
open Matrix Verif.Gauss MeasureTheory
open scoped ComplexOrder MatrixOrder

variable {n m k p q : Type*} [Fintype n] [DecidableEq n] [Fintype m] [DecidableEq m] [Fintype k] [DecidableEq k] [Fintype p] [DecidableEq p] [Fintype q] [DecidableEq q]

/-! ## Trace preservation -/

theorem trOut_gauss {Am : Matrix (p ⊕ p) (p ⊕ p) ℂ} {G : Matrix (q ⊕ q) (p ⊕ p) ℂ} {Q : Matrix (q ⊕ q) (q ⊕ q) ℂ} (hs : Amᵀ = Am) (hA : TrClass Am)
    (hQ : Q = G * (Am - Xmat p)⁻¹ * Gᵀ + Xmat q) (b1 : p ⊕ p → ℂ) {b2 : q ⊕ q → ℂ} (hb : b2 = (G * (Am - Xmat p)⁻¹).mulVec b1) (c : ℂ) (z w : q → ℂ) :
    trOut (mapOf (fromBlocks Am Gᵀ G Q) (Sum.elim b1 b2) c) z w =
      c * trC Am * Complex.exp (-(1 / 2) * (b1 ⬝ᵥ (Am - Xmat p)⁻¹.mulVec b1)) * Complex.exp (z ⬝ᵥ w) := by
  obtain ⟨y, hy⟩ : ∃ y, y = Sum.elim w z := ⟨_, rfl⟩
  obtain ⟨D, hD⟩ : ∃ D, D = (Am - Xmat p)⁻¹ := ⟨_, rfl⟩
  have hDs : Dᵀ = D := by rw [hD, transpose_nonsing_inv, transpose_sub, hs, Xmat_T]
  have key := tr_integral hs hA (Gᵀ.mulVec y + b1)
  unfold trOut opTr
  have e : ∀ u : p → ℂ, mapOf (fromBlocks Am Gᵀ G Q) (Sum.elim b1 b2) c u z (star u) w * Complex.exp (-∑ i, (‖u i‖ : ℂ) ^ 2) =
      (c * Complex.exp (1 / 2 * (y ⬝ᵥ Q.mulVec y) + b2 ⬝ᵥ y)) * (Complex.exp (1 / 2 * (Sum.elim (star u) u ⬝ᵥ Am.mulVec (Sum.elim (star u) u)) +
        (Gᵀ.mulVec y + b1) ⬝ᵥ Sum.elim (star u) u) * Complex.exp (-∑ i, (‖u i‖ : ℂ) ^ 2)) := by
    intro u
    rw [mapOf_eq, ← hy, bargFun_split]
    unfold bargFun
    have hx : ∀ x y z t : ℂ, c * Complex.exp x * Complex.exp y * z = c * (Complex.exp (x + y)) * z := fun x y z t => by rw [Complex.exp_add]; ring
    have hx' : ∀ x y z t : ℂ, c * Complex.exp x * (Complex.exp y * z) = c * (Complex.exp (x + y)) * z := fun x y z t => by rw [Complex.exp_add]; ring
    rw [hx _ _ _ 0, hx' _ _ _ 0]
    refine congrArg (fun e => c * Complex.exp e * _) ?_
    rw [add_dotProduct, add_dotProduct, Matrix.mulVec_transpose, ← Matrix.dotProduct_mulVec, dotProduct_comm y (G.mulVec _)]
    ring
  simp only [e]
  rw [integral_const_mul, mul_left_comm, key, ← hD]
  have hx : ∀ x y t : ℂ, c * Complex.exp x * (t * Complex.exp y) = c * t * (Complex.exp (x + y)) := fun x y t => by rw [Complex.exp_add]; ring
  have hx' : ∀ x y t : ℂ, t * Complex.exp x * Complex.exp y = t * (Complex.exp (x + y)) := fun x y t => by rw [Complex.exp_add]; ring
  rw [hx, hx']
  refine congrArg (fun e => c * trC Am * Complex.exp e) ?_
  have e1 : Gᵀ.mulVec y ⬝ᵥ D.mulVec (Gᵀ.mulVec y) = y ⬝ᵥ (G * D * Gᵀ).mulVec y := by
    rw [Matrix.mulVec_transpose, ← Matrix.dotProduct_mulVec, ← Matrix.mulVec_transpose, Matrix.mulVec_mulVec, Matrix.mulVec_mulVec, Matrix.mul_assoc]
  have e2 : Gᵀ.mulVec y ⬝ᵥ D.mulVec b1 = (G * D).mulVec b1 ⬝ᵥ y := by
    rw [Matrix.mulVec_transpose, ← Matrix.dotProduct_mulVec, Matrix.mulVec_mulVec, dotProduct_comm]
  have e3 : b1 ⬝ᵥ D.mulVec (Gᵀ.mulVec y) = Gᵀ.mulVec y ⬝ᵥ D.mulVec b1 := by
    rw [Matrix.dotProduct_mulVec b1, ← Matrix.mulVec_transpose, hDs, dotProduct_comm]
  have e4 : y ⬝ᵥ (Xmat q).mulVec y = 2 * (z ⬝ᵥ w) := by
    rw [hy, Xmat_elim, sumElim_dotProduct_sumElim, dotProduct_comm w z]
    ring
  rw [hQ, ← hD, hb, ← hD, Matrix.mulVec_add, add_dotProduct, dotProduct_add, dotProduct_add, e3, e2, e1, Matrix.add_mulVec, dotProduct_add, e4]
  ring

/-! ## Composition with a displacement -/

theorem disp_exp (γ u w : n → ℂ) : dispOp γ u w = Complex.exp (-(γ ⬝ᵥ star γ) / 2 - star γ ⬝ᵥ w) * Complex.exp ((w + γ) ⬝ᵥ u) := by
  unfold dispOp
  rw [← Complex.exp_add, norm_dot, add_dotProduct, dotProduct_comm w u]
  refine congrArg Complex.exp ?_
  show -(γ ⬝ᵥ star γ) / 2 + u ⬝ᵥ w + γ ⬝ᵥ u - star γ ⬝ᵥ w = _
  ring

/-- A Gaussian map after a displacement: `φ ∘ D(γ)`. -/
theorem comp_disp {P : Matrix (p ⊕ p) (p ⊕ p) ℂ} {G : Matrix (q ⊕ q) (p ⊕ p) ℂ} {Q : Matrix (q ⊕ q) (q ⊕ q) ℂ} (hQ : Qᵀ = Q) (s1 : Shrinks Q.toBlocks₁₁)
    (s2 : Shrinks Q.toBlocks₂₂) (c : ℂ) (γ : q → ℂ) (z : p → ℂ) (z' : q → ℂ) (w : p → ℂ) (w' : q → ℂ) :
    applyCh (mapOf (fromBlocks P Gᵀ G Q) 0 c) (fun u v => dispOp γ u z' * (starRingEnd ℂ) (dispOp γ (star v) (star w'))) z w =
      mapOf (fromBlocks P Gᵀ G Q) (Sum.elim (Gᵀ.mulVec (Sum.elim (star γ) γ)) ((Q - Xmat q).mulVec (Sum.elim (star γ) γ)))
        (c * Complex.exp (1 / 2 * (Sum.elim (star γ) γ ⬝ᵥ Q.mulVec (Sum.elim (star γ) γ)) - γ ⬝ᵥ star γ)) z z' w w' := by
  have h0 : (0 : (p ⊕ p) ⊕ (q ⊕ q) → ℂ) = Sum.elim (0 : p ⊕ p → ℂ) (0 : q ⊕ q → ℂ) := by funext r; rcases r with r | r <;> rfl
  rw [h0]
  rw [applyCh_exp hQ s1 s2 0 0 c (Complex.exp (-(γ ⬝ᵥ star γ) - star γ ⬝ᵥ z' - γ ⬝ᵥ w')) (z' + γ) (w' + star γ) z w (fun u v => by
    rw [disp_exp, disp_exp, map_mul, ← Complex.exp_conj, ← Complex.exp_conj, ← Complex.exp_add, ← Complex.exp_add, ← Complex.exp_add, ← Complex.exp_add]
    refine congrArg Complex.exp ?_
    rw [map_sub, map_div₀, map_neg, conj_dot, conj_dot, conj_dot, Complex.conj_ofNat, star_star, star_star, star_add, star_star, star_star,
      dotProduct_comm (star γ) γ]
    ring)]
  obtain ⟨g, hg⟩ : ∃ g, g = Sum.elim (star γ) γ := ⟨_, rfl⟩
  obtain ⟨y, hy⟩ : ∃ y, y = Sum.elim w' z' := ⟨_, rfl⟩
  obtain ⟨x, hx⟩ : ∃ x, x = Sum.elim w z := ⟨_, rfl⟩
  have e0 : Sum.elim (w' + star γ) (z' + γ) = y + g := by rw [hy, hg]; funext r; rcases r with r | r <;> rfl
  rw [mapOf_eq, mapOf_eq, ← hg, ← hx, ← hy, e0, bargFun_split, bargFun_split]
  unfold bargFun
  have hx1 : ∀ a b d : ℂ, Complex.exp a * (c * Complex.exp b * Complex.exp d) = c * Complex.exp (a + b + d) := fun a b d => by
    rw [Complex.exp_add, Complex.exp_add]; ring
  have hx2 : ∀ a b d : ℂ, c * Complex.exp a * Complex.exp b * Complex.exp d = c * Complex.exp (a + b + d) := fun a b d => by
    rw [Complex.exp_add, Complex.exp_add]; ring
  rw [hx1, hx2]
  refine congrArg (fun e => c * Complex.exp e) ?_
  have e1 : y ⬝ᵥ (Xmat q).mulVec g = star γ ⬝ᵥ z' + γ ⬝ᵥ w' := by
    rw [hy, hg, Xmat_elim, sumElim_dotProduct_sumElim, dotProduct_comm w', dotProduct_comm z']
    ring
  have e2 : (Q - Xmat q).mulVec g ⬝ᵥ y = y ⬝ᵥ Q.mulVec g - (star γ ⬝ᵥ z' + γ ⬝ᵥ w') := by
    rw [dotProduct_comm, Matrix.sub_mulVec, dotProduct_sub, e1]
  have e3 : Gᵀ.mulVec g ⬝ᵥ x = G.mulVec x ⬝ᵥ g := by
    rw [Matrix.mulVec_transpose, ← Matrix.dotProduct_mulVec, dotProduct_comm]
  have e4 : g ⬝ᵥ Q.mulVec y = y ⬝ᵥ Q.mulVec g := by
    rw [Matrix.dotProduct_mulVec, ← Matrix.mulVec_transpose, hQ, dotProduct_comm]
  rw [zero_dotProduct, add_zero, add_zero, add_dotProduct (G.mulVec x), e2, e3, Matrix.mulVec_add, add_dotProduct y g, dotProduct_add y, dotProduct_add g, dotProduct_add (G.mulVec x), e4]
  ring

/-! ## The action on a core state -/

/-- A slice of a core state is an exponential in the core variables. -/
theorem core_slice (T : Matrix (k ⊕ k) (m ⊕ m) ℂ) (Nc : Matrix (k ⊕ k) (k ⊕ k) ℂ) (e1 : m ⊕ m → ℂ) (e2 : k ⊕ k → ℂ) (cc : ℂ) (u v : m → ℂ) (z w : k → ℂ) :
    dmOf (fromBlocks 0 Tᵀ T Nc) (Sum.elim e1 e2) cc (Sum.elim u z) (Sum.elim v w) = cc * Complex.exp (1 / 2 * (Sum.elim w z ⬝ᵥ Nc.mulVec (Sum.elim w z)) + e2 ⬝ᵥ Sum.elim w z) *
      Complex.exp (((Tᵀ.mulVec (Sum.elim w z) + e1) ∘ Sum.inr) ⬝ᵥ u + ((Tᵀ.mulVec (Sum.elim w z) + e1) ∘ Sum.inl) ⬝ᵥ v) := by
  rw [dmOf_eq]
  unfold vars
  simp only [Sum.elim_comp_inl, Sum.elim_comp_inr]
  obtain ⟨y, hy⟩ : ∃ y, y = Sum.elim w z := ⟨_, rfl⟩
  rw [bargFun_split, ← hy]
  unfold bargFun
  rw [Matrix.zero_mulVec, dotProduct_zero, mul_zero, zero_add, add_comm (_ ⬝ᵥ u), ← sumElim_dotProduct_sumElim, Sum.elim_comp_inl_inr, mul_assoc, mul_assoc, ← Complex.exp_add,
    ← Complex.exp_add]
  refine congrArg (fun e => cc * Complex.exp e) ?_
  rw [add_dotProduct, add_dotProduct, Matrix.mulVec_transpose, ← Matrix.dotProduct_mulVec, dotProduct_comm y (T.mulVec _)]
  ring

theorem act_slice {Am : Matrix (m ⊕ m) (m ⊕ m) ℂ} {G Q : Matrix (m ⊕ m) (m ⊕ m) ℂ} (hQ : Qᵀ = Q) (s1 : Shrinks Q.toBlocks₁₁) (s2 : Shrinks Q.toBlocks₂₂)
    (b1 b2 : m ⊕ m → ℂ) (c : ℂ) (T : Matrix (k ⊕ k) (m ⊕ m) ℂ) (Nc : Matrix (k ⊕ k) (k ⊕ k) ℂ) (e1 : m ⊕ m → ℂ) (e2 : k ⊕ k → ℂ) (cc : ℂ) (z w : m ⊕ k → ℂ) :
    applyOnDM (mapOf (fromBlocks Am Gᵀ G Q) (Sum.elim b1 b2) c) (dmOf (fromBlocks 0 Tᵀ T Nc) (Sum.elim e1 e2) cc) z w =
      cc * Complex.exp (1 / 2 * (Sum.elim (w ∘ Sum.inr) (z ∘ Sum.inr) ⬝ᵥ Nc.mulVec (Sum.elim (w ∘ Sum.inr) (z ∘ Sum.inr))) + e2 ⬝ᵥ Sum.elim (w ∘ Sum.inr) (z ∘ Sum.inr)) *
        mapOf (fromBlocks Am Gᵀ G Q) (Sum.elim b1 b2) c (z ∘ Sum.inl) ((Tᵀ.mulVec (Sum.elim (w ∘ Sum.inr) (z ∘ Sum.inr)) + e1) ∘ Sum.inr) (w ∘ Sum.inl)
          ((Tᵀ.mulVec (Sum.elim (w ∘ Sum.inr) (z ∘ Sum.inr)) + e1) ∘ Sum.inl) := by
  unfold applyOnDM
  exact applyCh_exp hQ s1 s2 b1 b2 c _ _ _ _ _ (fun u v => core_slice T Nc e1 e2 cc u v _ _)

theorem act_core {Am : Matrix (m ⊕ m) (m ⊕ m) ℂ} {G Q : Matrix (m ⊕ m) (m ⊕ m) ℂ} (hQ : Qᵀ = Q) (s1 : Shrinks Q.toBlocks₁₁) (s2 : Shrinks Q.toBlocks₂₂)
    (b1 b2 : m ⊕ m → ℂ) (c : ℂ) (T : Matrix (k ⊕ k) (m ⊕ m) ℂ) (Nc : Matrix (k ⊕ k) (k ⊕ k) ℂ) (e1 : m ⊕ m → ℂ) (e2 : k ⊕ k → ℂ) (cc : ℂ) (z w : m ⊕ k → ℂ) :
    applyOnDM (mapOf (fromBlocks Am Gᵀ G Q) (Sum.elim b1 b2) c) (dmOf (fromBlocks 0 Tᵀ T Nc) (Sum.elim e1 e2) cc) z w =
      dmOf (fromBlocks Am (T * G)ᵀ (T * G) (Nc + T * Q * Tᵀ)) (Sum.elim (b1 + Gᵀ.mulVec e1) (e2 + T.mulVec (Q.mulVec e1 + b2)))
        (cc * c * Complex.exp (1 / 2 * (e1 ⬝ᵥ Q.mulVec e1) + b2 ⬝ᵥ e1)) z w := by
  rw [act_slice hQ s1 s2, dmOf_eq, mapOf_eq]
  unfold vars
  obtain ⟨y, hy⟩ : ∃ y, y = Sum.elim (w ∘ Sum.inr) (z ∘ Sum.inr) := ⟨_, rfl⟩
  obtain ⟨x, hx⟩ : ∃ x, x = Sum.elim (w ∘ Sum.inl) (z ∘ Sum.inl) := ⟨_, rfl⟩
  rw [← hy, ← hx, Sum.elim_comp_inl_inr, bargFun_split, bargFun_split]
  unfold bargFun
  have hx1 : ∀ a b d : ℂ, cc * Complex.exp a * (c * Complex.exp b * Complex.exp d) = cc * c * Complex.exp (a + b + d) := fun a b d => by
    rw [Complex.exp_add, Complex.exp_add]; ring
  have hx2 : ∀ a b d : ℂ, cc * c * Complex.exp a * Complex.exp b * Complex.exp d = cc * c * Complex.exp (a + b + d) := fun a b d => by
    rw [Complex.exp_add, Complex.exp_add]; ring
  rw [hx1, hx2]
  refine congrArg (fun e => cc * c * Complex.exp e) ?_
  obtain ⟨t, ht⟩ : ∃ t, t = Tᵀ.mulVec y := ⟨_, rfl⟩
  have f1 : (T * G).mulVec x ⬝ᵥ y = G.mulVec x ⬝ᵥ t := by
    rw [ht, ← Matrix.mulVec_mulVec, Matrix.mulVec_transpose, dotProduct_comm (G.mulVec x), ← Matrix.dotProduct_mulVec, dotProduct_comm]
  have f2 : ∀ a : m ⊕ m → ℂ, T.mulVec a ⬝ᵥ y = a ⬝ᵥ t := fun a => by
    rw [ht, Matrix.mulVec_transpose, dotProduct_comm a, ← Matrix.dotProduct_mulVec, dotProduct_comm]
  have f3 : Gᵀ.mulVec e1 ⬝ᵥ x = G.mulVec x ⬝ᵥ e1 := by
    rw [Matrix.mulVec_transpose, ← Matrix.dotProduct_mulVec, dotProduct_comm]
  have f4 : e1 ⬝ᵥ Q.mulVec t = t ⬝ᵥ Q.mulVec e1 := by
    rw [Matrix.dotProduct_mulVec, ← Matrix.mulVec_transpose, hQ, dotProduct_comm]
  have f5 : y ⬝ᵥ (T * Q * Tᵀ).mulVec y = t ⬝ᵥ Q.mulVec t := by
    rw [← Matrix.mulVec_mulVec, ← ht, ← Matrix.mulVec_mulVec, dotProduct_comm, f2, dotProduct_comm]
  rw [← ht, add_dotProduct (b1), f3, add_dotProduct ((T * G).mulVec x), f1, add_dotProduct e2, f2, add_dotProduct (Q.mulVec e1), Matrix.add_mulVec, dotProduct_add y, f5,
    Matrix.mulVec_add, add_dotProduct t e1, dotProduct_add t, dotProduct_add e1, f4, add_dotProduct (G.mulVec x), dotProduct_add (G.mulVec x), dotProduct_add b2,
    dotProduct_comm (Q.mulVec e1) t]
  ring

/-! ## The trace -/

omit [DecidableEq m] [DecidableEq k] in
theorem double_integral' {H : (m ⊕ k → ℂ) → ℂ} (hi : Integrable H) : ∫ t : k → ℂ, ∫ s : m → ℂ, H (Sum.elim s t) = ∫ v : m ⊕ k → ℂ, H v := by
  have mp := volume_measurePreserving_sumPiEquivProdPi (fun _ : m ⊕ k => ℂ)
  rw [← mp.symm.integral_comp' H]
  rw [Measure.volume_eq_prod, integral_prod_symm]
  · refine integral_congr_ae (.of_forall fun t => integral_congr_ae (.of_forall fun s => ?_))
    refine congrArg H ?_
    funext r
    rcases r with i | i <;> rfl
  · rw [← Measure.volume_eq_prod]
    exact (mp.symm.integrable_comp_emb (MeasurableEquiv.measurableEmbedding _)).2 hi

omit [DecidableEq m] [DecidableEq k] in
/-- The trace is the trace of the reduced operator. -/
theorem opTr_red {ρ : (m ⊕ k → ℂ) → (m ⊕ k → ℂ) → ℂ} (hi : Integrable fun u : m ⊕ k → ℂ => ρ u (star u) * Complex.exp (-∑ i, (‖u i‖ : ℂ) ^ 2)) :
    opTr ρ = opTr (redFun ρ) := by
  have h := double_integral' hi
  unfold opTr
  rw [← h, Fintype.card_sum, pow_add, mul_inv, mul_comm (((Real.pi : ℂ) ^ Fintype.card m)⁻¹), mul_assoc, ← integral_const_mul]
  refine congrArg (HMul.hMul _) (integral_congr_ae (.of_forall fun t => ?_))
  dsimp only
  unfold redFun opTr
  rw [mul_assoc, ← integral_mul_const]
  refine congrArg (HMul.hMul _) (integral_congr_ae (.of_forall fun s => ?_))
  dsimp only
  have e : star (Sum.elim s t) = Sum.elim (star s) (star t) := by funext r; rcases r with r | r <;> rfl
  rw [e, Fintype.sum_sum_type, neg_add, Complex.exp_add, mul_assoc]
  simp only [Sum.elim_inl, Sum.elim_inr]

/-- A trace-preserving Gaussian map does not change the reduced operator of the other modes. -/
theorem act_red {Am : Matrix (m ⊕ m) (m ⊕ m) ℂ} {G Q : Matrix (m ⊕ m) (m ⊕ m) ℂ} (hQ : Qᵀ = Q) (s1 : Shrinks Q.toBlocks₁₁) (s2 : Shrinks Q.toBlocks₂₂)
    (b1 b2 : m ⊕ m → ℂ) (c : ℂ) (hT : TracePres (mapOf (fromBlocks Am Gᵀ G Q) (Sum.elim b1 b2) c)) (T : Matrix (k ⊕ k) (m ⊕ m) ℂ) (Nc : Matrix (k ⊕ k) (k ⊕ k) ℂ)
    (e1 : m ⊕ m → ℂ) (e2 : k ⊕ k → ℂ) (cc : ℂ) (z w : k → ℂ) :
    redFun (applyOnDM (mapOf (fromBlocks Am Gᵀ G Q) (Sum.elim b1 b2) c) (dmOf (fromBlocks 0 Tᵀ T Nc) (Sum.elim e1 e2) cc)) z w =
      redFun (dmOf (fromBlocks 0 Tᵀ T Nc) (Sum.elim e1 e2) cc) z w := by
  unfold redFun
  obtain ⟨y, hy⟩ : ∃ y, y = Sum.elim w z := ⟨_, rfl⟩
  obtain ⟨K, hK⟩ : ∃ K, K = cc * Complex.exp (1 / 2 * (y ⬝ᵥ Nc.mulVec y) + e2 ⬝ᵥ y) := ⟨_, rfl⟩
  obtain ⟨l, hl⟩ : ∃ l, l = Tᵀ.mulVec y + e1 := ⟨_, rfl⟩
  simp only [act_slice hQ s1 s2, core_slice, Sum.elim_comp_inl, Sum.elim_comp_inr]
  rw [← hy, ← hl, ← hK]
  have h1 := hT (l ∘ Sum.inr) (l ∘ Sum.inl)
  unfold trOut at h1
  have h2 : opTr (fun u v : m → ℂ => K * mapOf (fromBlocks Am Gᵀ G Q) (Sum.elim b1 b2) c u (l ∘ Sum.inr) v (l ∘ Sum.inl)) = K * Complex.exp ((l ∘ Sum.inr) ⬝ᵥ (l ∘ Sum.inl)) := by
    rw [← h1]
    unfold opTr
    simp only [mul_assoc]
    rw [integral_const_mul, mul_left_comm]
  rw [h2]
  have key := eval_gauss (Q := (0 : Matrix m m ℂ)) transpose_zero shrinks_zero (f := fun s => Complex.exp ((l ∘ Sum.inl) ⬝ᵥ s)) (C := 1) (l := l ∘ Sum.inl)
    (fun s => by rw [Matrix.zero_mulVec, dotProduct_zero, mul_zero, zero_add, one_mul]) K (l ∘ Sum.inr)
  rw [dotProduct_comm (l ∘ Sum.inr), ← key]
  unfold opTr
  refine congrArg (HMul.hMul _) (integral_congr_ae (.of_forall fun u => ?_))
  dsimp only
  rw [Complex.exp_add]
  ring

/-! ## Complete positivity -/

/-- The Choi operator of a map: the operator on the output and input modes with the same Bargmann function. -/
def choiOp (Φ : (p → ℂ) → (q → ℂ) → (p → ℂ) → (q → ℂ) → ℂ) (z w : p ⊕ q → ℂ) : ℂ := Φ (z ∘ Sum.inl) (z ∘ Sum.inr) (w ∘ Sum.inl) (w ∘ Sum.inr)

theorem choi_dmOf (N : Matrix ((p ⊕ p) ⊕ (q ⊕ q)) ((p ⊕ p) ⊕ (q ⊕ q)) ℂ) (b : (p ⊕ p) ⊕ (q ⊕ q) → ℂ) (c : ℂ) (z w : p ⊕ q → ℂ) :
    choiOp (mapOf N b c) z w = dmOf N b c z w := by
  unfold choiOp
  rw [mapOf_eq, dmOf_eq]
  rfl

/-- The off-diagonal block of a matrix in the order of the wires. -/
theorem block12_order (P : Matrix (p ⊕ p) (p ⊕ p) ℂ) (S : Matrix (p ⊕ p) (q ⊕ q) ℂ) (R : Matrix (q ⊕ q) (p ⊕ p) ℂ) (Q : Matrix (q ⊕ q) (q ⊕ q) ℂ) :
    ((fromBlocks P S R Q).submatrix (coreFirst p q).symm (coreFirst p q).symm).toBlocks₁₂ =
      fromBlocks P.toBlocks₁₂ S.toBlocks₁₂ R.toBlocks₁₂ Q.toBlocks₁₂ := by
  ext i j
  rcases i with i | i <;> rcases j with j | j <;> rfl

theorem bk_order {P : Matrix (p ⊕ p) (p ⊕ p) ℂ} {R : Matrix (q ⊕ q) (p ⊕ p) ℂ} {Q : Matrix (q ⊕ q) (q ⊕ q) ℂ} (h1 : Bk P) (h2 : Bk R) (h3 : Bk Q) :
    Bk ((fromBlocks P Rᵀ R Q).submatrix (coreFirst p q).symm (coreFirst p q).symm) := by
  have h4 := h2.transpose
  rw [bk_iff] at *
  intro i j
  rcases i with (i | i) | (i | i) <;> rcases j with (j | j) | (j | j)
  all_goals first
    | exact h1 (Sum.inl _) (Sum.inl _)
    | exact h1 (Sum.inl _) (Sum.inr _)
    | exact h1 (Sum.inr _) (Sum.inl _)
    | exact h1 (Sum.inr _) (Sum.inr _)
    | exact h2 (Sum.inl _) (Sum.inl _)
    | exact h2 (Sum.inl _) (Sum.inr _)
    | exact h2 (Sum.inr _) (Sum.inl _)
    | exact h2 (Sum.inr _) (Sum.inr _)
    | exact h3 (Sum.inl _) (Sum.inl _)
    | exact h3 (Sum.inl _) (Sum.inr _)
    | exact h3 (Sum.inr _) (Sum.inl _)
    | exact h3 (Sum.inr _) (Sum.inr _)
    | exact h4 (Sum.inl _) (Sum.inl _)
    | exact h4 (Sum.inl _) (Sum.inr _)
    | exact h4 (Sum.inr _) (Sum.inl _)
    | exact h4 (Sum.inr _) (Sum.inr _)

theorem symm_order {P : Matrix (p ⊕ p) (p ⊕ p) ℂ} {R : Matrix (q ⊕ q) (p ⊕ p) ℂ} {Q : Matrix (q ⊕ q) (q ⊕ q) ℂ} (h1 : Pᵀ = P) (h3 : Qᵀ = Q) :
    ((fromBlocks P Rᵀ R Q).submatrix (coreFirst p q).symm (coreFirst p q).symm)ᵀ = (fromBlocks P Rᵀ R Q).submatrix (coreFirst p q).symm (coreFirst p q).symm := by
  rw [transpose_submatrix, fromBlocks_transpose, h1, h3, transpose_transpose]

theorem rv_order {b1 : p ⊕ p → ℂ} {b2 : q ⊕ q → ℂ} (h1 : RV b1) (h2 : RV b2) : RV (Sum.elim b1 b2 ∘ (coreFirst p q).symm) := by
  rw [rv_iff] at *
  funext i
  rcases i with i | i
  · exact congrFun h1 i
  · exact congrFun h2 i

/-- A Gaussian operator is positive exactly if its off-diagonal block is. -/
theorem opPos_dmOf {P : Matrix (p ⊕ p) (p ⊕ p) ℂ} {R : Matrix (q ⊕ q) (p ⊕ p) ℂ} {Q : Matrix (q ⊕ q) (q ⊕ q) ℂ} (s1 : Pᵀ = P) (s3 : Qᵀ = Q) (h1 : Bk P) (h2 : Bk R) (h3 : Bk Q)
    {b1 : p ⊕ p → ℂ} {b2 : q ⊕ q → ℂ} (r1 : RV b1) (r2 : RV b2) {c : ℝ} (hc : 0 < c) :
    OpPos (dmOf (fromBlocks P Rᵀ R Q) (Sum.elim b1 b2) c) ↔ (fromBlocks P.toBlocks₁₂ Rᵀ.toBlocks₁₂ R.toBlocks₁₂ Q.toBlocks₁₂).PosSemidef := by
  unfold dmOf
  rw [← C66_is_positive_exact (symm_order s1 s3) (bk_order h1 h2 h3) (rv_iff.1 (rv_order r1 r2)) hc,
    isPositive_iff (gamma_herm (symm_order s1 s3) (bk_order h1 h2 h3)) le_rfl, block12_order]
  simp

end Verif.Manifold
