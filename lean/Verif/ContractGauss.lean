import Verif.ContractKernel

/-!
# Contraction of two ansätze without derived variables, in closed form
-/

namespace Verif.PolyExp
open Verif.Fock Verif.Batch Verif.Gauss PolyExp MeasureTheory

variable {f g : PolyExp} {b1 c1 b2 c2 bo co : List ℕ}

/-- Without derived variables the formula is the value at zero of the integrated variables times a Gaussian factor. -/
theorem cgi_zero {f : PolyExp} (hf : f.WF) (hs : SymAll f) (hd : f.derived = []) {β zi zc : List ℕ} {s : ℝ} (hl : zi.length = zc.length)
    (hn : (zi ++ zc).Nodup) (hlt : ∀ i ∈ zi ++ zc, i < f.numCV) {x y : ℕ → ℂ} (hx : ∀ p, x (pos zi zc p) = 0)
    (hy : ∀ i < (remCV f.numCV zi zc).length, x ((remCV f.numCV zi zc).getD i 0) = y i)
    {bY : Fin zi.length ⊕ Fin zi.length → ℂ}
    (hbY : bY = fun p => f.b β (pos zi zc p) + ∑ i ∈ Finset.range f.numCV, x i * f.A β i (pos zi zc p)) :
    (cgiTrue f zi zc s).termAt β y = f.termAt β x *
      (((-1) ^ zi.length / (gM (f.A β) zi zc s).det) ^ (1 / 2 : ℂ) * Complex.exp (-(1 / 2) * invB (gM (f.A β) zi zc s) bY bY)) := by
  have hNd : f.numCV + f.derived.length = f.N := by have := hf.der; simp only [numCV]; omega
  have hbY' : bY = fun p => f.b β (pos zi zc p) + ∑ i ∈ Finset.range (remCV f.numCV zi zc).length,
      y i * f.A β ((remCV f.numCV zi zc).getD i 0) (pos zi zc p) := by
    rw [hbY]
    funext p
    rw [sum_split hl hn hlt (fun i => x i * f.A β i (pos zi zc p))]
    simp only [hx, zero_mul, Finset.sum_const_zero, zero_add]
    refine congrArg _ (Finset.sum_congr rfl fun i hi => ?_)
    rw [hy i (Finset.mem_range.1 hi)]
  rw [cgiTrue_term hf hs hl hlt y rfl rfl rfl rfl hbY' rfl rfl]
  unfold termAt termVal
  rw [exponent_point hl hn hlt (fun i hi j hj => hs β i (by omega) j (by omega)) (u := fun _ => 0) hx hy, hd, nsum_nil, nsum_nil]
  have e : toF [] = 0 := by ext i; simp [toF]
  rw [e, amp_zero, amp_zero, Complex.exp_add]
  simp only [mul_zero, Finset.sum_const_zero, add_zero]
  ring

/-- The matrix of the Gaussian integral over the shared labels `S`: `[[A_f, -1], [-1, A_g]]`. -/
noncomputable def ovl (f : PolyExp) (β1 : List ℕ) (g : PolyExp) (β2 c1 c2 S : List ℕ) :
    Matrix (Fin S.length ⊕ Fin S.length) (Fin S.length ⊕ Fin S.length) ℂ :=
  Matrix.fromBlocks (Matrix.of fun i j => f.A β1 (c1.idxOf (S.getD i 0)) (c1.idxOf (S.getD j 0))) (-1) (-1)
    (Matrix.of fun i j => g.A β2 (c2.idxOf (S.getD i 0)) (c2.idxOf (S.getD j 0)))

theorem invB_submatrix {κ κ' : Type*} [Fintype κ] [DecidableEq κ] [Fintype κ'] [DecidableEq κ'] (e : κ ≃ κ') (M : Matrix κ' κ' ℂ) (u v : κ' → ℂ) :
    invB (M.submatrix e e) (u ∘ e) (v ∘ e) = invB M u v := by
  unfold invB
  rw [Matrix.inv_submatrix_equiv, Matrix.submatrix_mulVec_equiv, Function.comp_assoc, Equiv.self_comp_symm, Function.comp_id]
  exact Equiv.sum_comp e fun i => u i * (M⁻¹.mulVec v) i

/-- **Contraction without derived variables.**  The shared variables are set to zero, and the Gaussian factor of the integral is multiplied. -/
theorem contract_gauss (hf : f.WF) (hg : g.WF) (sf : SymAll f) (sg : SymAll g) (H : Compat f g b1 c1 b2 c2 bo co)
    (hfd : f.derived = []) (hgd : g.derived = []) {S : List ℕ} (hS : c1.filter (· ∈ c2) = S) (hS0 : S ≠ [])
    (hdet : ∀ o τ1 τ2, InB (outDims b1 b2 bo f.outBatch g.outBatch) o → InB f.lsBatch τ1 → InB g.lsBatch τ2 →
      1e-12 < ‖(ovl f (restrict (· ∈ b1) bo o ++ τ1) g (restrict (· ∈ b2) bo o ++ τ2) c1 c2 S).det‖) :
    ∃ h, f.contract g b1 c1 b2 c2 bo co = some (.finite h) ∧ h.WF ∧ h.numCV = co.length ∧
      h.outBatch = outDims b1 b2 bo f.outBatch g.outBatch ∧
      ∀ o, InB (outDims b1 b2 bo f.outBatch g.outBatch) o → ∀ y, h.call o y = nsum f.lsBatch fun τ1 => nsum g.lsBatch fun τ2 =>
        let M := ovl f (restrict (· ∈ b1) bo o ++ τ1) g (restrict (· ∈ b2) bo o ++ τ2) c1 c2 S
        let u : Fin S.length ⊕ Fin S.length → ℂ := Sum.elim
          (fun p => kernelPt f (restrict (· ∈ b1) bo o ++ τ1) c1 S co y p) fun p => kernelPt g (restrict (· ∈ b2) bo o ++ τ2) c2 S co y p
        f.termAt (restrict (· ∈ b1) bo o ++ τ1) (atLabel c1 S 0 co y) * g.termAt (restrict (· ∈ b2) bo o ++ τ2) (atLabel c2 S 0 co y) *
          (((-1) ^ S.length / M.det) ^ (1 / 2 : ℂ) * Complex.exp (-(1 / 2) * invB M u u)) := by
  subst hS
  obtain ⟨h, hc⟩ : ∃ h, f.contract g b1 c1 b2 c2 bo co = some (.finite h) := by
    obtain ⟨h1, h2⟩ := C16_defined hf hg H
    rcases hres : f.contract g b1 c1 b2 c2 bo co with _ | (_ | h)
    · exact absurd hres h1
    · exfalso
      obtain ⟨_, o, τ1, τ2, ho, ht1, ht2, hd⟩ := h2.1 hres
      exact absurd hd (not_le.2 (hdet o τ1 τ2 ho ht1 ht2))
    · exact ⟨h, rfl⟩
  obtain ⟨JP, r, hJw, hJs, hJn, hJd, hr, hw, hn, ho', hv⟩ := contract_terms hf hg sf sg H hc
  refine ⟨h, hc, hw, hn, ho', ?_⟩
  intro o ho y
  obtain ⟨hd, hcall⟩ := hv o ho
  have hl : (zIdx c1 c2).length = (zcIdx f.numCV c1 c2).length := by rw [zIdx_len, zcIdx_len]
  have hlt : ∀ i ∈ zIdx c1 c2 ++ zcIdx f.numCV c1 c2, i < JP.numCV := by
    intro i hi
    rw [hJn]
    rw [List.mem_append] at hi
    rcases hi with hi | hi
    · have := zIdx_lt H hi; omega
    · exact (zcIdx_range H hi).2
  have hNf : f.N = f.numCV + f.derived.length := by have := hf.der; unfold numCV; omega
  rw [hcall y]
  apply nsum_congr
  intro τ1 h1
  apply nsum_congr
  intro τ2 h2
  obtain ⟨hA, hB, hT⟩ := hd τ1 τ2 h1 h2
  have L := fun i (hi : i < (zIdx c1 c2).length) => zIdx_lab H hi
  have hE : ∀ i < f.numCV + g.numCV, ∀ j < f.numCV + g.numCV, JP.A (o ++ (τ1 ++ τ2)) i j =
      if i < f.numCV ∧ j < f.numCV then f.A (restrict (· ∈ b1) bo o ++ τ1) i j
        else if f.numCV ≤ i ∧ f.numCV ≤ j then g.A (restrict (· ∈ b2) bo o ++ τ2) (i - f.numCV) (j - f.numCV) else 0 := by
    intro i hi j hj
    rw [hA, hNf]
    exact joined_entry _ _ hi hj
  dsimp only
  rw [← hT]
  obtain ⟨X, hX⟩ : ∃ X, X = joinPt f.numCV (atLabel c1 (c1.filter (· ∈ c2)) 0 co y) (atLabel c2 (c1.filter (· ∈ c2)) 0 co y) := ⟨_, rfl⟩
  rw [← hX]
  have hrem : ∀ i < (remCV JP.numCV (zIdx c1 c2) (zcIdx f.numCV c1 c2)).length,
      X ((remCV JP.numCV (zIdx c1 c2) (zcIdx f.numCV c1 c2)).getD i 0) = y (co.idxOf ((leftover c1 c2).getD i 0)) := by
    intro i hi
    rw [hX]
    rw [hJn] at hi ⊢
    exact point_rem H _ _ y i hi
  rcases cgi1_data hr with ⟨_, _, ⟨h0, rfl⟩ | ⟨h0, rfl⟩⟩
  · exfalso
    apply hS0
    have : (zIdx c1 c2).length = 0 := by rw [h0]; rfl
    rw [zIdx_len] at this
    exact List.length_eq_zero_iff.1 this
  · have hz : ∀ p, X (pos (zIdx c1 c2) (zcIdx f.numCV c1 c2) p) = 0 := by
      rintro (p | p)
      · rw [hX]; exact (point_z H 0 0 y p (by rw [← zIdx_len]; exact p.2)).1
      · rw [hX]; exact (point_z H 0 0 y p (by rw [← zIdx_len]; exact p.2)).2
    rw [cgi_zero hJw hJs (by rw [hJd, hfd, hgd]; rfl) hl (zz_nodup H) hlt hz hrem rfl, gM_overlap_eq H hE, Matrix.det_submatrix_equiv_self]
    refine congrArg (HMul.hMul _) (congr (congrArg HMul.hMul ?_) (congrArg Complex.exp (congrArg (HMul.hMul _) ?_)))
    · rw [zIdx_len]; rfl
    rw [← invB_submatrix (Equiv.sumCongr (finCongr (zIdx_len c1 c2)) (finCongr (zIdx_len c1 c2)))]
    have hb : ∀ p, JP.b (o ++ (τ1 ++ τ2)) (pos (zIdx c1 c2) (zcIdx f.numCV c1 c2) p) +
        ∑ i ∈ Finset.range JP.numCV, X i * JP.A (o ++ (τ1 ++ τ2)) i (pos (zIdx c1 c2) (zcIdx f.numCV c1 c2) p) =
        (Sum.elim (fun p : Fin (c1.filter (· ∈ c2)).length => kernelPt f (restrict (· ∈ b1) bo o ++ τ1) c1 (c1.filter (· ∈ c2)) co y p)
          fun p : Fin (c1.filter (· ∈ c2)).length => kernelPt g (restrict (· ∈ b2) bo o ++ τ2) c2 (c1.filter (· ∈ c2)) co y p)
          ((Equiv.sumCongr (finCongr (zIdx_len c1 c2)) (finCongr (zIdx_len c1 c2))) p) := by
      rintro (p | p)
      · obtain ⟨z1, _, z2, _⟩ := L p p.2
        simp only [pos, Sum.elim_inl, Equiv.sumCongr_apply, Sum.map_inl, finCongr_apply, Fin.val_cast, kernelPt]
        rw [z1, hB, hNf]
        beta_reduce
        rw [(joined_b _ _).1 _ z2, hJn, Finset.sum_range_add]
        have e1 : ∑ a ∈ Finset.range g.numCV, X (f.numCV + a) * JP.A (o ++ (τ1 ++ τ2)) (f.numCV + a)
            (c1.idxOf ((c1.filter (· ∈ c2)).getD p 0)) = 0 := by
          apply Finset.sum_eq_zero
          intro a ha
          have ha := Finset.mem_range.1 ha
          rw [hE _ (by omega) _ (by omega), if_neg (by omega), if_neg (by omega), mul_zero]
        rw [e1, add_zero]
        refine congrArg _ (Finset.sum_congr rfl fun a ha => ?_)
        have ha := Finset.mem_range.1 ha
        rw [hE _ (by omega) _ (by omega), if_pos (by omega), hX, joinPt, if_pos ha, mul_comm]
      · obtain ⟨_, z1, _, z2, _⟩ := L p p.2
        simp only [pos, Sum.elim_inr, Equiv.sumCongr_apply, Sum.map_inr, finCongr_apply, Fin.val_cast, kernelPt]
        rw [z1, hB, hNf]
        beta_reduce
        rw [(joined_b _ _).2 _ z2, hJn, Finset.sum_range_add]
        have e1 : ∑ a ∈ Finset.range f.numCV, X a * JP.A (o ++ (τ1 ++ τ2)) a
            (f.numCV + c2.idxOf ((c1.filter (· ∈ c2)).getD p 0)) = 0 := by
          apply Finset.sum_eq_zero
          intro a ha
          have ha := Finset.mem_range.1 ha
          rw [hE _ (by omega) _ (by omega), if_neg (by omega), if_neg (by omega), mul_zero]
        rw [e1, zero_add]
        refine congrArg _ (Finset.sum_congr rfl fun a ha => ?_)
        have ha := Finset.mem_range.1 ha
        rw [hE _ (by omega) _ (by omega), if_neg (by omega), if_pos (by omega), hX, joinPt, if_neg (by omega), mul_comm,
          Nat.add_sub_cancel_left, Nat.add_sub_cancel_left]
    refine congr (congrArg (invB _) ?_) ?_ <;> exact funext hb

end Verif.PolyExp
