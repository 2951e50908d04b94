import Verif.InverseProps
import Verif.WiresMatmul

/-!
# `Transformation.inverse` of unitaries, its sign, and its wires (C96)
-/

namespace Verif.Manifold
open Matrix Verif.Gauss Verif.Fock

variable {ι : Type*} [Fintype ι] [DecidableEq ι]

/-- The triple of `Unitary.from_symplectic` (`mrmustard/lab/transformations/base.py` 251-274). -/
noncomputable def sympTriple (S : Matrix (ι ⊕ ι) (ι ⊕ ι) ℝ) : Matrix (ι ⊕ ι) (ι ⊕ ι) ℂ × (ι ⊕ ι → ℂ) × ℂ := (symplectic2Au S, 0, fromSymplecticC S)

theorem transFun_symp (S : Matrix (ι ⊕ ι) (ι ⊕ ι) ℝ) : transFun (Equiv.refl _) (sympTriple S) = fromSymplectic S := by
  funext z w
  unfold transFun bargFun sympTriple fromSymplectic
  simp

/-- **C96 (unitaries)** For the unitary of any symplectic matrix `Transformation.inverse` is defined and returns the adjoint, exactly: the same
operator as `Unitary.inverse`. -/
theorem C96_unitary (S : Matrix (ι ⊕ ι) (ι ⊕ ι) ℝ) (h : Symplectic S) :
    ∃ V, inverseT (Equiv.refl _) (sympTriple S) = some V ∧ ∀ z w, transFun (Equiv.refl _) V z w = opAdj (fromSymplectic S) z w := by
  have hs : (symplectic2Au S)ᵀ = symplectic2Au S := C64_symm S h
  have hu := C64_unitary S h
  obtain ⟨A1, A2, A3, A4, e, -, s2, s3, -, e3, k1, -⟩ := A_blocks h
  have hc := fromSymplecticC_ne h
  have hAA : symplectic2Au S * (symplectic2Au S)ᴴ = 1 := hu
  have hinv : (symplectic2Au S)⁻¹ = cj (symplectic2Au S) := by
    apply inv_eq_right_inv
    rw [← hAA]
    congr 1
    conv_rhs => rw [← hs]
    ext i j; simp [cj]
  have hd : (symplectic2Au S).det ≠ 0 := by
    intro h0
    have := congrArg det hAA
    rw [det_mul, h0, zero_mul, det_one] at this
    exact zero_ne_one this
  obtain ⟨a, g, d, d', K, a', bo, bi, hI, eT, hn, hsome⟩ := inverseT_spec (Equiv.refl (ι ⊕ ι)) (sympTriple S) hs hd
  have eA : symplectic2Au S = fromBlocks a g gᵀ d := congrArg (fun t => t.1) eT
  have eb : (Sum.elim bo bi : ι ⊕ ι → ℂ) = 0 := (congrArg (fun t => t.2.1) eT).symm
  have hbo : bo = 0 := by funext i; exact congrFun eb (Sum.inl i)
  have hbi : bi = 0 := by funext i; exact congrFun eb (Sum.inr i)
  have hB := hI.inv
  rw [← eA, hinv] at hB
  have hKg : K = cj gᵀ ∧ d' = cj a ∧ a' = cj d := by
    rw [eA] at hB
    refine ⟨?_, ?_, ?_⟩
    · ext i j; exact (congrFun (congrFun hB (Sum.inr i)) (Sum.inl j)).symm
    · ext i j; exact (congrFun (congrFun hB (Sum.inl i)) (Sum.inl j)).symm
    · ext i j; exact (congrFun (congrFun hB (Sum.inr i)) (Sum.inr j)).symm
  have hgA : g = A2 := by
    have := eA.symm.trans e
    rw [fromBlocks_inj] at this
    exact this.2.1
  have hgd : g.det = (cj (cS1 S)⁻¹).det := by rw [hgA, ← s3, det_transpose, e3]
  have hg0 : g.det ≠ 0 := by
    rw [hgd, det_cj, det_nonsing_inv, Ring.inverse_eq_inv']
    exact fun h0 => inv_ne_zero (cS1_det_ne h) ((map_eq_zero _).1 h0)
  rcases hq : inverseT (Equiv.refl _) (sympTriple S) with _ | V
  · exact absurd (hn.1 hq) hg0
  · obtain ⟨eV, -, -, hcV, -, -⟩ := hsome V hq
    refine ⟨V, rfl, ?_⟩
    have hc2 : fromSymplecticC S = ((‖g.det‖ ^ (1 / 2 : ℝ) : ℝ) : ℂ) := by
      rw [fromSymplecticC_eq h, hgd, det_cj, RCLike.norm_conj]
    have hgp : 0 < ‖g.det‖ := norm_pos_iff.2 hg0
    have hx : (Kᵀ * gᵀ).det = ((‖g.det‖ ^ 2 : ℝ) : ℂ) := by
      rw [hKg.1, det_mul, det_transpose, det_cj, det_transpose, mul_comm, Complex.mul_conj, Complex.normSq_eq_norm_sq]
    have hcV' : V.2.2 = fromSymplecticC S := by
      rw [hcV, hbo, hbi, hx]
      have e1 : ((‖g.det‖ ^ 2 : ℝ) : ℂ) ^ (1 / 2 : ℂ) = ((‖g.det‖ : ℝ) : ℂ) :=
        sqrt_of_re_pos (by push_cast; rfl) (by rw [Complex.ofReal_re]; exact hgp)
      have e2 : fromSymplecticC S * fromSymplecticC S = ((‖g.det‖ : ℝ) : ℂ) := by
        rw [hc2, ← Complex.ofReal_mul, ← Real.rpow_add hgp]
        norm_num
      rw [e1]
      simp only [zero_dotProduct, add_zero, mul_zero, Complex.exp_zero, mul_one]
      change 1 / fromSymplecticC S * _ = _
      rw [← e2]
      field_simp
    have hcr : (starRingEnd ℂ) (fromSymplecticC S) = fromSymplecticC S := by rw [hc2, Complex.conj_ofReal]
    intro z w
    rw [transFun_eq, eV, hcV', hbo, hbi]
    unfold invBlk opAdj fromSymplectic
    dsimp only
    rw [bargOp_blocks _ _ _ _ rfl, map_mul, hcr, ← Complex.exp_conj, eA, exponent_blocks _ _ _ _ rfl]
    refine congrArg (fun x => fromSymplecticC S * Complex.exp x) ?_
    simp only [Matrix.mulVec_zero, add_zero, neg_zero, zero_dotProduct]
    have hcd : ∀ (P : Matrix ι ι ℂ) (x y : ι → ℂ), (starRingEnd ℂ) (star x ⬝ᵥ P.mulVec (star y)) = x ⬝ᵥ (cj P).mulVec y := by
      intro P x y
      simp only [dotProduct, Matrix.mulVec, map_sum, map_mul, Pi.star_apply, Complex.star_def, Complex.conj_conj, cj, Matrix.map_apply]
    simp only [map_add, map_mul, hcd, map_div₀, map_one, Complex.conj_ofNat]
    rw [hKg.1, hKg.2.1, hKg.2.2, dot_T (cj g) w z]
    have : (cj g)ᵀ = cj gᵀ := rfl
    rw [this]
    ring

end Verif.Manifold

namespace Verif.WireModel

/-- **C96 (wires)** `Transformation.inverse` keeps the wires of the transformation (`self.wires.copy(new_ids=True)`,
`mrmustard/lab/transformations/base.py` 182-190) although input and output modes should be exchanged: whenever a ket output mode is not an
input mode, contracting the transformation with its inverse raises a `ValueError`. -/
theorem C96_wires (X : Wires) (f : Nat → Nat) (w : Wire) (hw : w ∈ X.ws) (hk : w.side = .ket) (ho : w.isOut = true)
    (hn : w.mode ∉ X.input.ket.modes) : matmul X (X.copyNew f) = .error .valueError := by
  have hm : ∀ Y : Wires, w.mode ∈ Y.modes ↔ ∃ v ∈ Y.ws, v.mode = w.mode := by
    intro Y; unfold Wires.modes; rw [List.mem_dedup, List.mem_map]
  have h2 : ((X.copyNew f).output.ket).add (X.output.ket.sub (X.copyNew f).input.ket) = .error .valueError := by
    unfold Wires.add
    rw [if_pos]
    rw [List.any_eq_true]
    refine ⟨{ w with id := f w.id }, ?_, ?_⟩
    · simp only [Wires.ket, Wires.output, Wires.copyNew, List.mem_filter, List.mem_map]
      exact ⟨⟨⟨w, hw, rfl⟩, ho⟩, by simp [hk]⟩
    · rw [List.any_eq_true]
      refine ⟨w, ?_, by simp [Wire.eqv]⟩
      simp only [Wires.sub, List.mem_filter, decide_eq_true_eq]
      refine ⟨?_, ?_⟩
      · simp only [Wires.ket, Wires.output, List.mem_filter]
        exact ⟨⟨hw, ho⟩, by simp [hk]⟩
      · intro h
        apply hn
        rw [hm] at h ⊢
        obtain ⟨v, hv, e⟩ := h
        simp only [Wires.ket, Wires.input, Wires.copyNew, List.mem_filter, List.mem_map] at hv ⊢
        obtain ⟨⟨⟨u, hu, rfl⟩, h3⟩, h4⟩ := hv
        exact ⟨u, ⟨⟨hu, h3⟩, h4⟩, e⟩
  have he : ∀ A B : Wires, ∀ x, A.add B = .error x → x = .valueError := by
    intro A B x h
    unfold Wires.add at h
    split_ifs at h
    cases h
    rfl
  unfold matmul matmulWires
  rcases h1 : ((X.copyNew f).output.bra).add (X.output.bra.sub (X.copyNew f).input.bra) with x | R
  · rw [he _ _ _ h1]; rfl
  · rw [h2]; rfl

/-- A transformation from mode 1 to mode 0. -/
example (f : Nat → Nat) : let X := Wires.mk6 [] [] [0] [1] [] [] id
    matmul X (X.copyNew f) = .error .valueError :=
  C96_wires _ f ⟨.ket, true, 0, 0, .bargmann, 0⟩ (by decide) rfl rfl (by decide)

end Verif.WireModel

namespace Verif.Manifold
open Matrix

/-- A one-mode triple for which `(-1)^m det(g)²/det(A) = -1/3`. -/
noncomputable def exS : Matrix (Fin 1 ⊕ Fin 1) (Fin 1 ⊕ Fin 1) ℂ × (Fin 1 ⊕ Fin 1 → ℂ) × ℂ :=
  (fromBlocks ((2 : ℂ) • 1) 1 1 ((2 : ℂ) • 1), 0, 1)

/-- **C96 (sign)** For `exp(z² + z w + w²)` the inverse exists, but contracting it with the transformation gives minus the identity. -/
theorem C96_minus : ∃ V, inverseT (Equiv.refl _) exS = some V ∧
    ∀ z w, formalMul (onSum (Equiv.refl _) V) (onSum (Equiv.refl _) exS) z w = -opId z w := by
  have hs : exS.1ᵀ = exS.1 := by unfold exS; simp [fromBlocks_transpose]
  have hd : exS.1.det = 3 := by
    rw [← Matrix.det_submatrix_equiv_self (finSumFinEquiv (m := 1) (n := 1)).symm exS.1, Matrix.det_fin_two]
    have e0 : (finSumFinEquiv (m := 1) (n := 1)).symm 0 = Sum.inl 0 := by decide
    have e1 : (finSumFinEquiv (m := 1) (n := 1)).symm 1 = Sum.inr 0 := by decide
    simp only [submatrix_apply, e0, e1]
    simp [exS]
    norm_num
  have hg : (exS.1.submatrix ((Equiv.refl _) ∘ Sum.inl) ((Equiv.refl _) ∘ Sum.inr)).det = 1 := by
    rw [Matrix.det_fin_one]
    simp [exS]
  have hn : inverseT (Equiv.refl _) exS ≠ none := by
    intro h
    rcases (C96_defined _ _ hs).1 h with h | h
    · rw [hd] at h; norm_num at h
    · rw [hg] at h; norm_num at h
  obtain ⟨V, hV⟩ := Option.ne_none_iff_exists'.1 hn
  refine ⟨V, hV, fun z w => ?_⟩
  have h := (C96_formal _ exS V hs (by simp [exS]) hV z w).1
  rw [h, hd, hg, if_pos]
  · unfold opId
    rw [neg_one_mul]
  · have : ((-1 : ℂ) ^ Fintype.card (Fin 1) * 1 ^ 2 / 3) = ((-(1 / 3) : ℝ) : ℂ) := by
      rw [Fintype.card_fin]; push_cast; ring
    rw [this, Complex.arg_ofReal_of_neg (by norm_num)]

end Verif.Manifold
