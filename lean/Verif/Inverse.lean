import Verif.Stellar

/-!
# `Transformation.inverse` (C96)

`mrmustard/lab/transformations/base.py` 130-190.  An operator is given by its Bargmann function at (outputs, inputs); for a channel or a
map the wires are (bra, ket) pairs, so that the same product of kernels composes channels.
-/

namespace Verif.Manifold
open Matrix Verif.Gauss Verif.Fock

variable {ι W : Type*} [Fintype ι] [DecidableEq ι] [Fintype W] [DecidableEq W]

/-- Bargmann function of a transformation with triple `(A, b, c)` whose wires, in the order of the ansatz, are `W`; `e` lists the output
wires, then the input wires (`wires.output.indices`, `wires.input.indices`). -/
noncomputable def transFun (e : ι ⊕ ι ≃ W) (T : Matrix W W ℂ × (W → ℂ) × ℂ) (z w : ι → ℂ) : ℂ :=
  bargFun T.1 T.2.1 T.2.2 (Sum.elim z w ∘ e.symm)

/-- Exchange of the output wires and the input wires, `dual` (`mrmustard/lab/circuit_components.py` 113-135: the index order
`ib + ob + ik + ok`). -/
def swapIO (e : ι ⊕ ι ≃ W) : W ≃ W := e.symm.trans ((Equiv.sumComm ι ι).trans e)

/-- `M` in `Transformation.inverse` (`mrmustard/lab/transformations/base.py` 163-173), from `A_orig` and `A_inv`. -/
def invM (e : ι ⊕ ι ≃ W) (A Ai : Matrix W W ℂ) : Matrix (ι ⊕ ι) (ι ⊕ ι) ℂ :=
  fromBlocks (A.submatrix (e ∘ Sum.inl) (e ∘ Sum.inl)) (-1) (-1) (Ai.submatrix (e ∘ Sum.inr) (e ∘ Sum.inr))

/-- `Transformation.inverse` (`mrmustard/lab/transformations/base.py` 130-190) for one batch element of an ansatz without derived
variables: the triple of the inverse; `none` if one of the two matrices passed to `math.inv` is singular. -/
noncomputable def inverseT (e : ι ⊕ ι ≃ W) (T : Matrix W W ℂ × (W → ℂ) × ℂ) : Option (Matrix W W ℂ × (W → ℂ) × ℂ) :=
  open Classical in
  let A := cj ((cj T.1).submatrix (swapIO e) (swapIO e))
  let b := star (star T.2.1 ∘ swapIO e)
  let bi := (-A⁻¹).mulVec b
  let M := invM e T.1 A⁻¹
  let cb := Sum.elim (T.2.1 ∘ e ∘ Sum.inl) (bi ∘ e ∘ Sum.inr)
  if A.det = 0 ∨ M.det = 0 then none
  else some (A⁻¹, bi, 1 / T.2.2 * (Complex.I • M).det ^ (1 / 2 : ℂ) * Complex.exp (1 / 2 * (cb ⬝ᵥ M⁻¹.mulVec cb)))

/-- The contraction of the inputs of one transformation with the outputs of another as the code computes it, whether or not the integral
converges (`mrmustard/physics/gaussian_integrals.py` 353-390, the closed form of C16), as a function of the remaining variables. -/
noncomputable def formalMul (T U : Matrix (ι ⊕ ι) (ι ⊕ ι) ℂ × (ι ⊕ ι → ℂ) × ℂ) (z v : ι → ℂ) : ℂ :=
  let M := fromBlocks U.1.toBlocks₁₁ (-1) (-1) T.1.toBlocks₂₂
  let β := Sum.elim (U.1.toBlocks₁₂.mulVec v + U.2.1 ∘ Sum.inl) (T.1.toBlocks₂₁.mulVec z + T.2.1 ∘ Sum.inr)
  T.2.2 * U.2.2 * ((-1) ^ Fintype.card ι / M.det) ^ (1 / 2 : ℂ) *
    Complex.exp (1 / 2 * (z ⬝ᵥ T.1.toBlocks₁₁.mulVec z) + (T.2.1 ∘ Sum.inl) ⬝ᵥ z + (1 / 2 * (v ⬝ᵥ U.1.toBlocks₂₂.mulVec v) + (U.2.1 ∘ Sum.inr) ⬝ᵥ v)
      - 1 / 2 * (β ⬝ᵥ M⁻¹.mulVec β))

/-! ## The algebra -/

/-- Data of the inverse in blocks: `A = [[a, g], [gᵀ, d]]`, `A⁻¹ = [[d', Kᵀ], [K, a']]`. -/
structure InvBlocks (a g d d' K a' : Matrix ι ι ℂ) : Prop where
  sa : aᵀ = a
  sd : dᵀ = d
  sd' : d'ᵀ = d'
  sa' : a'ᵀ = a'
  h11 : a * d' + g * K = 1
  h12 : a * Kᵀ + g * a' = 0
  h21 : gᵀ * d' + d * K = 0
  h22 : gᵀ * Kᵀ + d * a' = 1

variable {a g d d' K a' : Matrix ι ι ℂ}

theorem dot_T (P : Matrix ι ι ℂ) (x y : ι → ℂ) : x ⬝ᵥ P.mulVec y = y ⬝ᵥ Pᵀ.mulVec x := by
  rw [Matrix.mulVec_transpose, dotProduct_comm y, ← Matrix.dotProduct_mulVec]

/-- Reverse relations (`A⁻¹ A = 1`). -/
theorem InvBlocks.rev (h : InvBlocks a g d d' K a') : d' * a + Kᵀ * gᵀ = 1 ∧ d' * g + Kᵀ * d = 0 ∧ K * a + a' * gᵀ = 0 ∧ K * g + a' * d = 1 := by
  have t1 := congrArg transpose h.h11
  have t2 := congrArg transpose h.h12
  have t3 := congrArg transpose h.h21
  have t4 := congrArg transpose h.h22
  simp only [transpose_add, transpose_mul, transpose_transpose, transpose_one, transpose_zero, h.sa, h.sd, h.sd', h.sa'] at t1 t2 t3 t4
  exact ⟨t1, by rw [← t3], t2, t4⟩

/-- The closed form of the exponent of `V ∘ U`. -/
theorem inv_exponent (h : InvBlocks a g d d' K a') (hK : IsUnit K.det) (bo bi z w : ι → ℂ) :
    let tO := d'.mulVec bo + Kᵀ.mulVec bi
    let ti := K.mulVec bo + a'.mulVec bi
    ∃ p q : ι → ℂ, (fromBlocks a (-1) (-1) d').mulVec (Sum.elim p q) = Sum.elim (g.mulVec w + bo) (Kᵀ.mulVec z + -tO) ∧
      1 / 2 * (z ⬝ᵥ a'.mulVec z) + (-ti) ⬝ᵥ z + (1 / 2 * (w ⬝ᵥ d.mulVec w) + bi ⬝ᵥ w) + 1 / 2 * (bo ⬝ᵥ tO + bi ⬝ᵥ ti) -
        1 / 2 * (Sum.elim (g.mulVec w + bo) (Kᵀ.mulVec z + -tO) ⬝ᵥ Sum.elim p q) = z ⬝ᵥ w := by
  intro tO ti
  obtain ⟨q, hq⟩ : ∃ q, K.mulVec q = a'.mulVec z - ti - w := by
    refine ⟨K⁻¹.mulVec (a'.mulVec z - ti - w), ?_⟩
    rw [Matrix.mulVec_mulVec, Matrix.mul_nonsing_inv _ hK, Matrix.one_mulVec]
  obtain ⟨p, hp⟩ : ∃ p, p = tO + d'.mulVec q - Kᵀ.mulVec z := ⟨_, rfl⟩
  -- the two equations `A x = b + y`
  have hw : w = a'.mulVec z - ti - K.mulVec q := by rw [hq]; abel
  have e1 : a.mulVec p - g.mulVec w = bo + q := by
    have : a.mulVec p - g.mulVec w = (a * d' + g * K).mulVec bo + (a * Kᵀ + g * a').mulVec bi + (a * d' + g * K).mulVec q
        - (a * Kᵀ + g * a').mulVec z := by
      rw [hp, hw]
      simp only [tO, ti, Matrix.mulVec_add, Matrix.mulVec_sub, Matrix.add_mulVec, Matrix.mulVec_mulVec]
      abel
    rw [this, h.h11, h.h12]
    simp
  have e2 : gᵀ.mulVec p - d.mulVec w = bi - z := by
    have : gᵀ.mulVec p - d.mulVec w = (gᵀ * d' + d * K).mulVec bo + (gᵀ * Kᵀ + d * a').mulVec bi + (gᵀ * d' + d * K).mulVec q
        - (gᵀ * Kᵀ + d * a').mulVec z := by
      rw [hp, hw]
      simp only [tO, ti, Matrix.mulVec_add, Matrix.mulVec_sub, Matrix.add_mulVec, Matrix.mulVec_mulVec]
      abel
    rw [this, h.h21, h.h22]
    simp
  refine ⟨p, q, ?_, ?_⟩
  · rw [fromBlocks_mulVec, Sum.elim_comp_inl, Sum.elim_comp_inr]
    refine congrArg₂ Sum.elim ?_ ?_
    · rw [Matrix.neg_mulVec, Matrix.one_mulVec]
      have : a.mulVec p = bo + q + g.mulVec w := by rw [← e1]; abel
      rw [this]; abel
    · rw [Matrix.neg_mulVec, Matrix.one_mulVec, hp]; abel
  · rw [sumElim_dotProduct_sumElim]
    have s2 := congrArg (fun x => w ⬝ᵥ x) e2
    have s4 := congrArg (fun x => z ⬝ᵥ x) hw
    have s5 := congrArg (fun x => bo ⬝ᵥ x) hp
    have s6 := congrArg (fun x => bi ⬝ᵥ x) hw
    simp only [tO, ti, dotProduct_sub, dotProduct_add, dotProduct_neg, neg_dotProduct, add_dotProduct, Matrix.mulVec_add, Matrix.mulVec_sub] at *
    have c1 : g.mulVec w ⬝ᵥ p = w ⬝ᵥ gᵀ.mulVec p := by rw [dotProduct_comm, dot_T]
    have c2 : Kᵀ.mulVec z ⬝ᵥ q = z ⬝ᵥ K.mulVec q := by rw [dotProduct_comm, dot_T, transpose_transpose]
    have c3 : d'.mulVec bo ⬝ᵥ q = bo ⬝ᵥ d'.mulVec q := by rw [dotProduct_comm, dot_T, h.sd']
    have c4 : Kᵀ.mulVec bi ⬝ᵥ q = bi ⬝ᵥ K.mulVec q := by rw [dotProduct_comm, dot_T, transpose_transpose]
    have c5 : K.mulVec bo ⬝ᵥ z = bo ⬝ᵥ Kᵀ.mulVec z := by rw [dotProduct_comm, dot_T]
    have c6 : a'.mulVec bi ⬝ᵥ z = bi ⬝ᵥ a'.mulVec z := by rw [dotProduct_comm, dot_T, h.sa']
    have c7 : z ⬝ᵥ K.mulVec bo = bo ⬝ᵥ Kᵀ.mulVec z := by rw [dot_T]
    have c8 : z ⬝ᵥ a'.mulVec bi = bi ⬝ᵥ a'.mulVec z := by rw [dot_T, h.sa']
    have c9 : w ⬝ᵥ bi = bi ⬝ᵥ w := dotProduct_comm _ _
    have c10 : w ⬝ᵥ z = z ⬝ᵥ w := dotProduct_comm _ _
    rw [c1, c2, c3, c4, c5, c6]
    rw [c7, c8] at s4
    rw [c9, c10] at s2
    linear_combination (-1 / 2) * s2 - (1 / 2) * s4 - (1 / 2) * s5 + (1 / 2) * s6

/-- `1 - d' a` and `1 - d a'`. -/
theorem InvBlocks.one_sub (h : InvBlocks a g d d' K a') : 1 - d' * a = Kᵀ * gᵀ ∧ 1 - d * a' = gᵀ * Kᵀ := by
  obtain ⟨r1, -, -, -⟩ := h.rev
  exact ⟨by rw [← r1]; abel, by rw [← h.h22]; abel⟩

/-- The roles of a transformation and of its inverse can be exchanged. -/
theorem InvBlocks.swap (h : InvBlocks a g d d' K a') : InvBlocks a' K d' d g a := by
  obtain ⟨r1, r2, r3, r4⟩ := h.rev
  refine ⟨h.sa', h.sd', h.sd, h.sa, ?_, ?_, ?_, ?_⟩
  · rw [add_comm]; exact r4
  · rw [add_comm]; exact r3
  · rw [add_comm]; exact r2
  · rw [add_comm]; exact r1

/-- The product of two Gaussian kernels with `κ` for the constant of the integral. -/
noncomputable def mulK (κ : ℂ) (T U : Matrix (ι ⊕ ι) (ι ⊕ ι) ℂ × (ι ⊕ ι → ℂ) × ℂ) (z v : ι → ℂ) : ℂ :=
  let M := fromBlocks U.1.toBlocks₁₁ (-1) (-1) T.1.toBlocks₂₂
  let β := Sum.elim (U.1.toBlocks₁₂.mulVec v + U.2.1 ∘ Sum.inl) (T.1.toBlocks₂₁.mulVec z + T.2.1 ∘ Sum.inr)
  T.2.2 * U.2.2 * κ *
    Complex.exp (1 / 2 * (z ⬝ᵥ T.1.toBlocks₁₁.mulVec z) + (T.2.1 ∘ Sum.inl) ⬝ᵥ z + (1 / 2 * (v ⬝ᵥ U.1.toBlocks₂₂.mulVec v) + (U.2.1 ∘ Sum.inr) ⬝ᵥ v)
      - 1 / 2 * (β ⬝ᵥ M⁻¹.mulVec β))

theorem formalMul_eq (T U : Matrix (ι ⊕ ι) (ι ⊕ ι) ℂ × (ι ⊕ ι → ℂ) × ℂ) (z v : ι → ℂ) :
    formalMul T U z v = mulK (((-1) ^ Fintype.card ι / (fromBlocks U.1.toBlocks₁₁ (-1) (-1) T.1.toBlocks₂₂).det) ^ (1 / 2 : ℂ)) T U z v := rfl

theorem bargOp_blocks (p q r s : Matrix ι ι ℂ) (hq : qᵀ = r) (x y : ι → ℂ) (c : ℂ) (z w : ι → ℂ) :
    bargOp (fromBlocks p q r s) (Sum.elim x y) c z w =
      c * Complex.exp (1 / 2 * (z ⬝ᵥ p.mulVec z) + z ⬝ᵥ q.mulVec w + 1 / 2 * (w ⬝ᵥ s.mulVec w) + (x ⬝ᵥ z + y ⬝ᵥ w)) := by
  unfold bargOp bargFun
  rw [exponent_blocks _ _ _ _ hq, sumElim_dotProduct_sumElim]

/-- The product of Gaussian operators, when the integral converges. -/
theorem opMul_bargOp {p q r s p' q' r' s' : Matrix ι ι ℂ} (hq : qᵀ = r) (hq' : q'ᵀ = r') (hs : sᵀ = s) (hp' : p'ᵀ = p')
    (hN : NegRe (fromBlocks p' (-1) (-1) s)) (x y x' y' : ι → ℂ) (c c' : ℂ) (z v : ι → ℂ) :
    opMul (bargOp (fromBlocks p q r s) (Sum.elim x y) c) (bargOp (fromBlocks p' q' r' s') (Sum.elim x' y') c') z v =
      mulK (gaussConst (fromBlocks p' (-1) (-1) s)) (fromBlocks p q r s, Sum.elim x y, c) (fromBlocks p' q' r' s', Sum.elim x' y', c') z v := by
  have hsy : ∀ i j, (fromBlocks p' (-1) (-1) s) i j = (fromBlocks p' (-1) (-1) s) j i := by
    have : (fromBlocks p' (-1) (-1) s)ᵀ = fromBlocks p' (-1) (-1) s := by
      rw [fromBlocks_transpose, hp', hs, transpose_neg, transpose_one]
    intro i j
    conv_lhs => rw [← this]
    rfl
  have key := integral_complex hsy hN (Sum.elim (q'.mulVec v + x') (r.mulVec z + y)) (D := 0) (fun _ _ => 0) (fun _ => 0) (fun _ _ => 0) 0 (fun _ _ => rfl)
  simp only [amp_zero, one_mul, mul_one] at key
  have ei : ∀ u : ι → ℂ, bargOp (fromBlocks p q r s) (Sum.elim x y) c z (star u) * bargOp (fromBlocks p' q' r' s') (Sum.elim x' y') c' u v *
      Complex.exp (-∑ i, (‖u i‖ : ℂ) ^ 2) = c * c' * Complex.exp (1 / 2 * (z ⬝ᵥ p.mulVec z) + x ⬝ᵥ z + (1 / 2 * (v ⬝ᵥ s'.mulVec v) + y' ⬝ᵥ v)) *
        Complex.exp (cform (fromBlocks p' (-1) (-1) s) (Sum.elim (q'.mulVec v + x') (r.mulVec z + y)) u) := fun u => by
    rw [bargOp_blocks _ _ _ _ hq, bargOp_blocks _ _ _ _ hq']
    have e3 : cform (fromBlocks p' (-1) (-1) s) (Sum.elim (q'.mulVec v + x') (r.mulVec z + y)) u =
        1 / 2 * (u ⬝ᵥ p'.mulVec u) + (u ⬝ᵥ q'.mulVec v + x' ⬝ᵥ u) + (1 / 2 * (star u ⬝ᵥ s.mulVec (star u)) + (z ⬝ᵥ q.mulVec (star u) + y ⬝ᵥ star u)) +
          -∑ i, (‖u i‖ : ℂ) ^ 2 := by
      unfold cform
      rw [overlap_quad]
      have e1 : ∑ i, Sum.elim (q'.mulVec v + x') (r.mulVec z + y) i * pair u i = (q'.mulVec v + x') ⬝ᵥ u + (r.mulVec z + y) ⬝ᵥ star u := by
        rw [Fintype.sum_sum_type]; rfl
      have e2 : u ⬝ᵥ star u = ∑ i, (‖u i‖ : ℂ) ^ 2 := by
        refine Finset.sum_congr rfl fun i _ => ?_
        rw [Pi.star_apply, Complex.star_def, Complex.mul_conj, Complex.normSq_eq_norm_sq]
        push_cast
        rfl
      rw [e1, e2, add_dotProduct, add_dotProduct, dotProduct_comm (q'.mulVec v), dotProduct_comm (r.mulVec z) (star u), dot_T r, ← hq, transpose_transpose]
      ring
    rw [e3]
    simp only [Complex.exp_add]
    ring
  unfold opMul mulK
  simp only [ei]
  rw [MeasureTheory.integral_const_mul, mul_left_comm, key]
  simp only [toBlocks_fromBlocks₁₁, toBlocks_fromBlocks₁₂, toBlocks_fromBlocks₂₁, toBlocks_fromBlocks₂₂, Sum.elim_comp_inl, Sum.elim_comp_inr]
  rw [show ∀ A B C D E : ℂ, A * B * Complex.exp C * (D * Complex.exp (-(1 / 2) * E)) = A * B * D * Complex.exp (C - 1 / 2 * E) from
    fun A B C D E => by rw [sub_eq_add_neg, ← neg_mul, Complex.exp_add]; ring]

/-- The determinant of the overlap matrix. -/
theorem det_overlap (P Q : Matrix ι ι ℂ) : (-1) ^ Fintype.card ι * (fromBlocks P (-1) (-1) Q).det = (1 - Q * P).det := by
  have h : (fromBlocks P (-1) (-1) Q : Matrix (ι ⊕ ι) (ι ⊕ ι) ℂ) * fromBlocks 1 0 P 1 = fromBlocks 0 (-1) (-(1 - Q * P)) Q := by
    rw [fromBlocks_multiply]
    simp
    abel
  have h2 : (fromBlocks 0 (-1) (-(1 - Q * P)) Q : Matrix (ι ⊕ ι) (ι ⊕ ι) ℂ) * fromBlocks 0 1 (-1) 0 = fromBlocks 1 0 (-Q) (-(1 - Q * P)) := by
    rw [fromBlocks_multiply]
    simp
  have h3 : (fromBlocks 0 1 (-1) 0 : Matrix (ι ⊕ ι) (ι ⊕ ι) ℂ).det = 1 := by
    have e : (fromBlocks 1 1 0 1 : Matrix (ι ⊕ ι) (ι ⊕ ι) ℂ) * fromBlocks 1 0 (-1) 1 * fromBlocks 1 1 0 1 = fromBlocks 0 1 (-1) 0 := by
      rw [fromBlocks_multiply, fromBlocks_multiply]
      simp
    rw [← e, det_mul, det_mul, det_fromBlocks_zero₂₁, det_fromBlocks_zero₁₂]
    simp
  have d1 := congrArg det h
  have d2 := congrArg det h2
  rw [det_mul, det_fromBlocks_zero₁₂, det_one, one_mul, mul_one] at d1
  rw [det_mul, h3, mul_one, ← d1, det_fromBlocks_zero₁₂, det_one, one_mul, det_neg] at d2
  rw [d2, ← mul_assoc, ← mul_pow]
  norm_num

/-- `det A · det K = (-1)^m det g` (Jacobi's identity for the block of the inverse). -/
theorem InvBlocks.det_K (h : InvBlocks a g d d' K a') : (fromBlocks a g gᵀ d).det * K.det = (-1) ^ Fintype.card ι * g.det := by
  have e : (fromBlocks a g gᵀ d : Matrix (ι ⊕ ι) (ι ⊕ ι) ℂ) * fromBlocks 1 d' 0 K = fromBlocks a 1 gᵀ 0 := by
    rw [fromBlocks_multiply]
    simp [h.h11, h.h21]
  have e2 : (fromBlocks a 1 gᵀ 0 : Matrix (ι ⊕ ι) (ι ⊕ ι) ℂ) * fromBlocks 0 1 (-1) 0 = fromBlocks (-1) a 0 gᵀ := by
    rw [fromBlocks_multiply]
    simp
  have h3 : (fromBlocks 0 1 (-1) 0 : Matrix (ι ⊕ ι) (ι ⊕ ι) ℂ).det = 1 := by
    have e : (fromBlocks 1 1 0 1 : Matrix (ι ⊕ ι) (ι ⊕ ι) ℂ) * fromBlocks 1 0 (-1) 1 * fromBlocks 1 1 0 1 = fromBlocks 0 1 (-1) 0 := by
      rw [fromBlocks_multiply, fromBlocks_multiply]
      simp
    rw [← e, det_mul, det_mul, det_fromBlocks_zero₂₁, det_fromBlocks_zero₁₂]
    simp
  have d1 := congrArg det e
  have d2 := congrArg det e2
  rw [det_mul, det_fromBlocks_zero₂₁, det_one, one_mul] at d1
  rw [det_mul, h3, mul_one, ← d1, det_fromBlocks_zero₂₁, det_neg, det_one, mul_one, det_transpose] at d2
  exact d2

/-- The triple of the inverse in blocks, with constant `cV`. -/
def invBlk (d' K a' : Matrix ι ι ℂ) (bo bi : ι → ℂ) (cV : ℂ) : Matrix (ι ⊕ ι) (ι ⊕ ι) ℂ × (ι ⊕ ι → ℂ) × ℂ :=
  (fromBlocks a' K Kᵀ d', Sum.elim (-(K.mulVec bo + a'.mulVec bi)) (-(d'.mulVec bo + Kᵀ.mulVec bi)), cV)

/-- `V ∘ U`. -/
theorem mulK_left (h : InvBlocks a g d d' K a') (hK : IsUnit K.det) (bo bi : ι → ℂ) (c cV κ : ℂ) (hM : IsUnit (fromBlocks a (-1) (-1) d').det) (z w : ι → ℂ) :
    mulK κ (invBlk d' K a' bo bi cV) (fromBlocks a g gᵀ d, Sum.elim bo bi, c) z w =
      cV * c * κ * Complex.exp (-(1 / 2 * (bo ⬝ᵥ (d'.mulVec bo + Kᵀ.mulVec bi) + bi ⬝ᵥ (K.mulVec bo + a'.mulVec bi)))) * opId z w := by
  obtain ⟨p, q, h1, h2⟩ := inv_exponent h hK bo bi z w
  unfold mulK invBlk
  simp only [toBlocks_fromBlocks₁₁, toBlocks_fromBlocks₁₂, toBlocks_fromBlocks₂₁, toBlocks_fromBlocks₂₂, Sum.elim_comp_inl, Sum.elim_comp_inr]
  have e : (fromBlocks a (-1) (-1) d')⁻¹.mulVec (Sum.elim (g.mulVec w + bo) (Kᵀ.mulVec z + -(d'.mulVec bo + Kᵀ.mulVec bi))) = Sum.elim p q := by
    rw [← h1, Matrix.mulVec_mulVec, Matrix.nonsing_inv_mul _ hM, Matrix.one_mulVec]
  rw [e]
  have e2 : opId z w = Complex.exp (z ⬝ᵥ w) := rfl
  rw [e2, ← h2, mul_assoc _ (Complex.exp _) (Complex.exp _), ← Complex.exp_add]
  refine congrArg (fun x => cV * c * κ * Complex.exp x) ?_
  ring

/-- `U ∘ V`. -/
theorem mulK_right (h : InvBlocks a g d d' K a') (hg : IsUnit g.det) (bo bi : ι → ℂ) (c cV κ : ℂ) (hM : IsUnit (fromBlocks a' (-1) (-1) d).det) (z w : ι → ℂ) :
    mulK κ (fromBlocks a g gᵀ d, Sum.elim bo bi, c) (invBlk d' K a' bo bi cV) z w =
      cV * c * κ * Complex.exp (-(1 / 2 * (bo ⬝ᵥ (d'.mulVec bo + Kᵀ.mulVec bi) + bi ⬝ᵥ (K.mulVec bo + a'.mulVec bi)))) * opId z w := by
  have key := mulK_left h.swap hg (-(K.mulVec bo + a'.mulVec bi)) (-(d'.mulVec bo + Kᵀ.mulVec bi)) cV c κ hM z w
  have e1 : -(g.mulVec (-(K.mulVec bo + a'.mulVec bi)) + a.mulVec (-(d'.mulVec bo + Kᵀ.mulVec bi))) = bo := by
    have : -(g.mulVec (-(K.mulVec bo + a'.mulVec bi)) + a.mulVec (-(d'.mulVec bo + Kᵀ.mulVec bi))) =
        (a * d' + g * K).mulVec bo + (a * Kᵀ + g * a').mulVec bi := by
      simp only [Matrix.mulVec_neg, Matrix.mulVec_add, Matrix.add_mulVec, Matrix.mulVec_mulVec]
      abel
    rw [this, h.h11, h.h12]
    simp
  have e2 : -(d.mulVec (-(K.mulVec bo + a'.mulVec bi)) + gᵀ.mulVec (-(d'.mulVec bo + Kᵀ.mulVec bi))) = bi := by
    have : -(d.mulVec (-(K.mulVec bo + a'.mulVec bi)) + gᵀ.mulVec (-(d'.mulVec bo + Kᵀ.mulVec bi))) =
        (gᵀ * d' + d * K).mulVec bo + (gᵀ * Kᵀ + d * a').mulVec bi := by
      simp only [Matrix.mulVec_neg, Matrix.mulVec_add, Matrix.add_mulVec, Matrix.mulVec_mulVec]
      abel
    rw [this, h.h21, h.h22]
    simp
  unfold invBlk at key ⊢
  rw [e1, e2] at key
  rw [key, mul_comm c cV]
  refine congrArg (fun x => cV * c * κ * Complex.exp (-(1 / 2 * x)) * opId z w) ?_
  have f1 := congrArg Neg.neg e1
  have f2 := congrArg Neg.neg e2
  rw [neg_neg] at f1 f2
  rw [f1, f2]
  simp only [neg_dotProduct, dotProduct_neg, neg_neg]
  rw [dotProduct_comm _ bi, dotProduct_comm _ bo, add_comm]

/-- A triple with its wires listed as outputs, inputs. -/
def onSum (e : ι ⊕ ι ≃ W) (T : Matrix W W ℂ × (W → ℂ) × ℂ) : Matrix (ι ⊕ ι) (ι ⊕ ι) ℂ × (ι ⊕ ι → ℂ) × ℂ := (T.1.submatrix e e, T.2.1 ∘ e, T.2.2)

theorem transFun_eq (e : ι ⊕ ι ≃ W) (T : Matrix W W ℂ × (W → ℂ) × ℂ) :
    transFun e T = bargOp (onSum e T).1 (onSum e T).2.1 (onSum e T).2.2 := by
  funext z w
  unfold transFun bargOp bargFun onSum
  refine congrArg (fun x => T.2.2 * Complex.exp x) ?_
  dsimp only
  have h1 : (Sum.elim z w ∘ e.symm) ⬝ᵥ T.1.mulVec (Sum.elim z w ∘ e.symm) = Sum.elim z w ⬝ᵥ (T.1.submatrix e e).mulVec (Sum.elim z w) := by
    rw [Matrix.submatrix_mulVec_equiv, comp_equiv_symm_dotProduct]
  have h2 : T.2.1 ⬝ᵥ (Sum.elim z w ∘ e.symm) = (T.2.1 ∘ e) ⬝ᵥ Sum.elim z w := by
    rw [dotProduct_comp_equiv_symm]
  rw [h1, h2]

theorem inv_At (e : ι ⊕ ι ≃ W) (A : Matrix W W ℂ) :
    cj ((cj A).submatrix (swapIO e) (swapIO e)) = A.submatrix (swapIO e) (swapIO e) ∧
    (A.submatrix (swapIO e) (swapIO e))⁻¹.submatrix e e = (A.submatrix e e)⁻¹.submatrix (Equiv.sumComm ι ι) (Equiv.sumComm ι ι) := by
  constructor
  · ext i j; simp [cj]
  · rw [Matrix.inv_submatrix_equiv, Matrix.inv_submatrix_equiv, Matrix.submatrix_submatrix, Matrix.submatrix_submatrix]
    ext i j
    simp [swapIO]

/-- The blocks of `A` and of its inverse. -/
theorem exists_blocks {A : Matrix (ι ⊕ ι) (ι ⊕ ι) ℂ} (hs : Aᵀ = A) (hd : IsUnit A.det) :
    ∃ a g d d' K a', InvBlocks a g d d' K a' ∧ A = fromBlocks a g gᵀ d ∧ A⁻¹ = fromBlocks d' Kᵀ K a' := by
  have hB : (A⁻¹)ᵀ = A⁻¹ := by rw [Matrix.transpose_nonsing_inv, hs]
  have hm := Matrix.mul_nonsing_inv A hd
  generalize A⁻¹ = B at *
  have eA : A = fromBlocks A.toBlocks₁₁ A.toBlocks₁₂ A.toBlocks₂₁ A.toBlocks₂₂ := (fromBlocks_toBlocks A).symm
  have eB : B = fromBlocks B.toBlocks₁₁ B.toBlocks₁₂ B.toBlocks₂₁ B.toBlocks₂₂ := (fromBlocks_toBlocks B).symm
  have sA := hs
  have sB := hB
  rw [eA, fromBlocks_transpose, fromBlocks_inj] at sA
  rw [eB, fromBlocks_transpose, fromBlocks_inj] at sB
  rw [eB] at hm
  conv_lhs at hm => rw [eA]
  rw [fromBlocks_multiply, ← fromBlocks_one, fromBlocks_inj] at hm
  have g21 : A.toBlocks₁₂ᵀ = A.toBlocks₂₁ := sA.2.2.1
  have k12 : B.toBlocks₂₁ᵀ = B.toBlocks₁₂ := sB.2.1
  refine ⟨A.toBlocks₁₁, A.toBlocks₁₂, A.toBlocks₂₂, B.toBlocks₁₁, B.toBlocks₂₁, B.toBlocks₂₂,
    ⟨sA.1, sA.2.2.2, sB.1, sB.2.2.2, hm.1, ?_, ?_, ?_⟩, ?_, ?_⟩
  · rw [k12]; exact hm.2.1
  · rw [g21]; exact hm.2.2.1
  · rw [k12, g21]; exact hm.2.2.2
  · rw [g21]; exact eA
  · rw [k12]; exact eB

/-- What `inverse` computes. -/
theorem inverseT_spec (e : ι ⊕ ι ≃ W) (T : Matrix W W ℂ × (W → ℂ) × ℂ) (hs : T.1ᵀ = T.1) (hd : T.1.det ≠ 0) :
    ∃ a g d d' K a' bo bi, InvBlocks a g d d' K a' ∧ onSum e T = (fromBlocks a g gᵀ d, Sum.elim bo bi, T.2.2) ∧
      (inverseT e T = none ↔ g.det = 0) ∧
      ∀ V, inverseT e T = some V → onSum e V = invBlk d' K a' bo bi V.2.2 ∧ IsUnit g.det ∧ IsUnit K.det ∧
        V.2.2 = 1 / T.2.2 * (Kᵀ * gᵀ).det ^ (1 / 2 : ℂ) *
          Complex.exp (1 / 2 * (bo ⬝ᵥ (d'.mulVec bo + Kᵀ.mulVec bi) + bi ⬝ᵥ (K.mulVec bo + a'.mulVec bi))) ∧
        bo ⬝ᵥ (d'.mulVec bo + Kᵀ.mulVec bi) + bi ⬝ᵥ (K.mulVec bo + a'.mulVec bi) = T.2.1 ⬝ᵥ T.1⁻¹.mulVec T.2.1 ∧
        (Kᵀ * gᵀ).det = (-1) ^ Fintype.card ι * g.det ^ 2 / T.1.det := by
  have hd' : (T.1.submatrix e e).det = T.1.det := Matrix.det_submatrix_equiv_self e _
  obtain ⟨a, g, d, d', K, a', hI, eA, eB⟩ := exists_blocks (A := T.1.submatrix e e) (by rw [transpose_submatrix, hs])
    (isUnit_iff_ne_zero.2 (hd' ▸ hd))
  obtain ⟨bo, hbo⟩ : ∃ x, x = T.2.1 ∘ e ∘ Sum.inl := ⟨_, rfl⟩
  obtain ⟨bi, hbi⟩ : ∃ x, x = T.2.1 ∘ e ∘ Sum.inr := ⟨_, rfl⟩
  have hb : T.2.1 ∘ e = Sum.elim bo bi := by rw [hbo, hbi]; funext i; rcases i with i | i <;> rfl
  obtain ⟨h1, h2⟩ := inv_At e T.1
  have hdet : (T.1.submatrix (swapIO e) (swapIO e)).det = T.1.det := Matrix.det_submatrix_equiv_self _ _
  rw [eB] at h2
  have h2' : (T.1.submatrix (swapIO e) (swapIO e))⁻¹.submatrix e e = fromBlocks a' K Kᵀ d' := by
    rw [h2]; ext i j; rcases i with i | i <;> rcases j with j | j <;> rfl
  have hM : invM e T.1 (T.1.submatrix (swapIO e) (swapIO e))⁻¹ = fromBlocks a (-1) (-1) d' := by
    unfold invM
    congr 1
    · ext i j; exact congrFun (congrFun eA (Sum.inl i)) (Sum.inl j)
    · ext i j; exact congrFun (congrFun h2' (Sum.inr i)) (Sum.inr j)
  have hbb : star (star T.2.1 ∘ swapIO e) = T.2.1 ∘ swapIO e := by funext i; simp
  have hbi' : ((-(T.1.submatrix (swapIO e) (swapIO e))⁻¹).mulVec (T.2.1 ∘ swapIO e)) ∘ e =
      Sum.elim (-(K.mulVec bo + a'.mulVec bi)) (-(d'.mulVec bo + Kᵀ.mulVec bi)) := by
    have : (T.2.1 ∘ swapIO e) = Sum.elim bi bo ∘ e.symm := by
      rw [hbo, hbi]
      funext i
      obtain ⟨j, rfl⟩ := e.surjective i
      rcases j with j | j <;> simp [swapIO]
    rw [this, Matrix.neg_mulVec]
    have e2 := Matrix.submatrix_mulVec_equiv (T.1.submatrix (swapIO e) (swapIO e))⁻¹ (Sum.elim bi bo) e e
    rw [h2', fromBlocks_mulVec, Sum.elim_comp_inl, Sum.elim_comp_inr] at e2
    funext i
    have := congrFun e2 i
    simp only [Function.comp_apply, Pi.neg_apply] at this ⊢
    rw [← this]
    rcases i with i | i <;> simp <;> ring
  have hdM : (-1) ^ Fintype.card ι * (fromBlocks a (-1) (-1) d').det = (Kᵀ * gᵀ).det := by rw [det_overlap, hI.one_sub.1]
  have hK := hI.det_K
  rw [← eA, hd'] at hK
  have h1c : ((-1 : ℂ) ^ Fintype.card ι) ≠ 0 := pow_ne_zero _ (by norm_num)
  have hMz : (fromBlocks a (-1) (-1) d').det = 0 ↔ g.det = 0 := by
    constructor
    · intro h0
      rw [h0, mul_zero, det_mul, det_transpose, det_transpose] at hdM
      rcases mul_eq_zero.1 hdM.symm with h | h
      · rw [h, mul_zero] at hK
        rcases mul_eq_zero.1 hK.symm with h' | h'
        · exact absurd h' h1c
        · exact h'
      · exact h
    · intro h0
      rw [det_mul, det_transpose, det_transpose, h0, mul_zero] at hdM
      rcases mul_eq_zero.1 hdM with h' | h'
      · exact absurd h' h1c
      · exact h'
  refine ⟨a, g, d, d', K, a', bo, bi, hI, by unfold onSum; rw [eA, hb], ?_, ?_⟩
  · unfold inverseT
    dsimp only
    rw [h1, hM, hdet]
    constructor
    · intro h
      by_contra hg
      rw [if_neg (by rw [not_or]; exact ⟨hd, fun h => hg (hMz.1 h)⟩)] at h
      exact absurd h (by simp)
    · intro h
      rw [if_pos (Or.inr (hMz.2 h))]
  · intro V hV
    unfold inverseT at hV
    dsimp only at hV
    rw [h1, hM, hdet, hbb] at hV
    split_ifs at hV with hc
    rw [not_or] at hc
    have hV := Option.some.inj hV
    have hg : g.det ≠ 0 := fun h => hc.2 (hMz.2 h)
    have hKn : K.det ≠ 0 := by
      intro h
      rw [h, mul_zero] at hK
      exact mul_ne_zero h1c hg hK.symm
    have hcb : Sum.elim (T.2.1 ∘ e ∘ Sum.inl) (((-(T.1.submatrix (swapIO e) (swapIO e))⁻¹).mulVec (T.2.1 ∘ swapIO e)) ∘ e ∘ Sum.inr) =
        Sum.elim bo (-(d'.mulVec bo + Kᵀ.mulVec bi)) := by
      rw [← hbo]
      refine congrArg (Sum.elim bo) ?_
      have := congrArg (fun f => f ∘ Sum.inr) hbi'
      simpa [Function.comp_assoc] using this
    rw [hcb] at hV
    obtain ⟨p, q, x1, x2⟩ := inv_exponent hI (isUnit_iff_ne_zero.2 hKn) bo bi 0 0
    simp only [Matrix.mulVec_zero, zero_add, dotProduct_zero, mul_zero, zero_dotProduct, add_zero] at x1 x2
    have hex : Sum.elim bo (-(d'.mulVec bo + Kᵀ.mulVec bi)) ⬝ᵥ (fromBlocks a (-1) (-1) d')⁻¹.mulVec (Sum.elim bo (-(d'.mulVec bo + Kᵀ.mulVec bi))) =
        bo ⬝ᵥ (d'.mulVec bo + Kᵀ.mulVec bi) + bi ⬝ᵥ (K.mulVec bo + a'.mulVec bi) := by
      have : (fromBlocks a (-1) (-1) d')⁻¹.mulVec (Sum.elim bo (-(d'.mulVec bo + Kᵀ.mulVec bi))) = Sum.elim p q := by
        rw [← x1, Matrix.mulVec_mulVec, Matrix.nonsing_inv_mul _ (isUnit_iff_ne_zero.2 hc.2), Matrix.one_mulVec]
      rw [this]
      linear_combination -2 * x2
    have hI2 : (Complex.I • fromBlocks a (-1) (-1) d').det = (Kᵀ * gᵀ).det := by
      rw [det_smul, Fintype.card_sum, ← two_mul, pow_mul, Complex.I_sq, hdM]
    rw [hex, hI2] at hV
    refine ⟨?_, isUnit_iff_ne_zero.2 hg, isUnit_iff_ne_zero.2 hKn, ?_, ?_, ?_⟩
    · rw [← hV]
      unfold onSum invBlk
      dsimp only
      rw [h2', hbi']
    · rw [← hV]
    · have e3 : T.1⁻¹ = (fromBlocks d' Kᵀ K a').submatrix e.symm e.symm := by
        rw [← eB, Matrix.inv_submatrix_equiv, Matrix.submatrix_submatrix]
        simp
      have e4 : T.2.1 = Sum.elim bo bi ∘ e.symm := by rw [← hb]; funext i; simp
      rw [e3, Matrix.submatrix_mulVec_equiv, e4]
      rw [comp_equiv_dotProduct_comp_equiv]
      have : (Sum.elim bo bi ∘ e.symm) ∘ (e.symm).symm = Sum.elim bo bi := by funext i; simp
      rw [this, fromBlocks_mulVec, Sum.elim_comp_inl, Sum.elim_comp_inr, sumElim_dotProduct_sumElim]
    · rw [det_mul, det_transpose, det_transpose]
      rw [eq_div_iff hd]
      linear_combination g.det * hK

end Verif.Manifold
