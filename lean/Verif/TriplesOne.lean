import Verif.ContractGauss
import Verif.TriplesLaws

/-!
# Contractions with quadratic terms on both sides: squeezers (C54), norms (C57)
-/

namespace Verif.Triples
open Verif.Fock Verif.Batch Verif.Gauss Verif.PolyExp

section det
variable {m : ℕ}

theorem det_ovl (P Q : Matrix (Fin m) (Fin m) ℂ) :
    (Matrix.fromBlocks P (-1) (-1) Q : Matrix (Fin m ⊕ Fin m) (Fin m ⊕ Fin m) ℂ).det = (P * Q - 1).det := by
  have h : (Matrix.fromBlocks P (-1) (-1) Q : Matrix (Fin m ⊕ Fin m) (Fin m ⊕ Fin m) ℂ) * Matrix.fromBlocks 1 Q 0 1 =
      Matrix.fromBlocks P (P * Q - 1) (-1) 0 := by
    rw [Matrix.fromBlocks_multiply]
    simp [sub_eq_add_neg]
  have h1 : (Matrix.fromBlocks P (P * Q - 1) (-1) 0 : Matrix (Fin m ⊕ Fin m) (Fin m ⊕ Fin m) ℂ) *
      (Matrix.fromBlocks 0 1 1 0 : Matrix (Fin m ⊕ Fin m) (Fin m ⊕ Fin m) ℂ) = Matrix.fromBlocks (P * Q - 1) P 0 (-1) := by
    rw [Matrix.fromBlocks_multiply]
    simp
  have d := congrArg Matrix.det h
  rw [Matrix.det_mul, Matrix.det_fromBlocks_zero₂₁, Matrix.det_one, mul_one, mul_one] at d
  have d1 := congrArg Matrix.det h1
  rw [Matrix.det_mul, det_X, Matrix.det_fromBlocks_zero₂₁, Matrix.det_neg, Matrix.det_one, mul_one, Fintype.card_fin] at d1
  rw [d]
  exact mul_right_cancel₀ (pow_ne_zero _ (by norm_num)) d1

theorem det_ovl' (P Q : Matrix (Fin m) (Fin m) ℂ) :
    (-1) ^ m / (Matrix.fromBlocks P (-1) (-1) Q : Matrix (Fin m ⊕ Fin m) (Fin m ⊕ Fin m) ℂ).det = 1 / (1 - P * Q).det := by
  rw [det_ovl, show P * Q - 1 = -(1 - P * Q) by abel, Matrix.det_neg, Fintype.card_fin, ← div_div, div_self (pow_ne_zero _ (by norm_num))]

end det

variable {b1 c1 b2 c2 bo co B B' : List ℕ} {N N' : ℕ} {A A' : List ℕ → ℕ → ℕ → ℂ} {b b' : List ℕ → ℕ → ℂ} {c c' : List ℕ → ℂ}

/-- The linear coefficient of the label `m` when the shared labels are zero. -/
noncomputable def lin (N : ℕ) (A : ℕ → ℕ → ℂ) (b : ℕ → ℂ) (cl : List ℕ) (v : ℕ → ℂ) (m : ℕ) : ℂ :=
  b (cl.idxOf m) + ∑ k ∈ Finset.range N, A k (cl.idxOf m) * v (cl.getD k 0)

theorem kernelPt_lin {S : List ℕ} {β cl : List ℕ} (hc : ∀ k < N, cl.getD k 0 ∈ S ∨ cl.getD k 0 ∈ co) (v : ℕ → ℂ) (p : ℕ) :
    kernelPt (mk B N A b c) β cl S co (fun p => v (co.getD p 0)) p =
      lin N (A β) (b β) cl (fun l => if l ∈ S then 0 else v l) (S.getD p 0) := by
  unfold kernelPt lin
  rw [mk_numCV]
  refine congrArg (HAdd.hAdd _) (Finset.sum_congr rfl fun k hk => ?_)
  refine congrArg (HMul.hMul _) ?_
  unfold atLabel
  beta_reduce
  by_cases h : cl.getD k 0 ∈ S
  · rw [if_pos h, if_pos h]; rfl
  · rw [if_neg h, if_neg h]
    exact idx_co ((hc k (Finset.mem_range.1 hk)).resolve_left h) v

/-- Contraction of two Gaussian ansätze over the shared labels `S`, as an evaluation at labels. -/
theorem gauss_ev {S : List ℕ} (sA : ∀ β, ∀ i < N, ∀ j < N, A β i j = A β j i) (sA' : ∀ β, ∀ i < N', ∀ j < N', A' β i j = A' β j i)
    (H : Compat (mk B N A b c) (mk B' N' A' b' c') b1 c1 b2 c2 bo co) (hS : c1.filter (· ∈ c2) = S) (hS0 : S ≠ [])
    (hdet : ∀ o, InB (bo.map fun d => if d ∈ b1 then Batch.sizeOf b1 B d else Batch.sizeOf b2 B' d) o →
      1e-12 < ‖(ovl (mk B N A b c) (restrict (· ∈ b1) bo o) (mk B' N' A' b' c') (restrict (· ∈ b2) bo o) c1 c2 S).det‖) :
    ContractsTo (mk B N A b c) (mk B' N' A' b' c') b1 c1 b2 c2 bo co fun o v =>
      let β1 := restrict (· ∈ b1) bo o
      let β2 := restrict (· ∈ b2) bo o
      let v0 := fun l => if l ∈ S then 0 else v l
      let M := ovl (mk B N A b c) β1 (mk B' N' A' b' c') β2 c1 c2 S
      let u : Fin S.length ⊕ Fin S.length → ℂ := Sum.elim (fun p => lin N (A β1) (b β1) c1 v0 (S.getD p 0))
        fun p => lin N' (A' β2) (b' β2) c2 v0 (S.getD p 0)
      ev (mk B N A b c) β1 c1 v0 * ev (mk B' N' A' b' c') β2 c2 v0 *
        (((-1) ^ S.length / M.det) ^ (1 / 2 : ℂ) * Complex.exp (-(1 / 2) * invB M u u)) := by
  obtain ⟨h, h1, h2, h3, h4, h5⟩ := contract_gauss mk_wf mk_wf (mk_symm sA) (mk_symm sA') H mk_derived mk_derived hS hS0 (by
    intro o τ1 τ2 ho ht1 ht2
    rw [mk_lsBatch] at ht1 ht2
    cases ht1; cases ht2
    rw [List.append_nil, List.append_nil]
    rw [mk_outBatch, mk_outBatch] at ho
    exact hdet o ho)
  refine ⟨h, h1, h2, h3, h4, ?_⟩
  intro o ho v
  rw [h4] at ho
  have g1 : ∀ k < N, c1.getD k 0 ∈ S ∨ c1.getD k 0 ∈ co := by
    intro k hk
    have hm : c1.getD k 0 ∈ c1 := by
      rw [List.getD_eq_getElem _ _ (by rw [H.lc1, mk_numCV]; exact hk)]; exact List.getElem_mem _
    by_cases hc : c1.getD k 0 ∈ c2
    · left; rw [← hS]; exact mem_sharedL.2 ⟨hm, hc⟩
    · right; exact (mem_co H).2 (Or.inl ⟨hm, hc⟩)
  have g2 : ∀ k < N', c2.getD k 0 ∈ S ∨ c2.getD k 0 ∈ co := by
    intro k hk
    have hm : c2.getD k 0 ∈ c2 := by
      rw [List.getD_eq_getElem _ _ (by rw [H.lc2, mk_numCV]; exact hk)]; exact List.getElem_mem _
    by_cases hc : c2.getD k 0 ∈ c1
    · left; rw [← hS]; exact mem_sharedL.2 ⟨hc, hm⟩
    · right; exact (mem_co H).2 (Or.inr ⟨hm, hc⟩)
  have pt : ∀ (n : ℕ) (cl : List ℕ), (∀ k < n, cl.getD k 0 ∈ S ∨ cl.getD k 0 ∈ co) → ∀ k < n,
      atLabel cl S 0 co (fun p => v (co.getD p 0)) k = if cl.getD k 0 ∈ S then 0 else v (cl.getD k 0) := by
    intro n cl hc k hk
    unfold atLabel
    by_cases h : cl.getD k 0 ∈ S
    · rw [if_pos h, if_pos h]; rfl
    · rw [if_neg h, if_neg h, idx_co ((hc k hk).resolve_left h) v]
  unfold ev
  rw [h5 o ho, mk_lsBatch, mk_lsBatch, nsum_nil, nsum_nil, List.append_nil, List.append_nil]
  dsimp only
  have tc : ∀ {B : List ℕ} {N : ℕ} {A : List ℕ → ℕ → ℕ → ℂ} {b : List ℕ → ℕ → ℂ} {c : List ℕ → ℂ} {β : List ℕ} {z z' : ℕ → ℂ},
      (∀ i < N, z i = z' i) → (mk B N A b c).termAt β z = (mk B N A b c).call β z' := by
    intro B N A b c β z z' hz
    rw [mk_term, ← mk_call]
    exact call_congr (by rw [mk_numCV]; exact hz)
  rw [tc (pt N c1 g1), tc (pt N' c2 g2)]
  refine congrArg (HMul.hMul _) (congrArg (HMul.hMul _) (congrArg Complex.exp (congrArg (HMul.hMul _) ?_)))
  have hu : (Sum.elim (fun p : Fin S.length => kernelPt (mk B N A b c) (restrict (· ∈ b1) bo o) c1 S co (fun p => v (co.getD p 0)) p)
      fun p : Fin S.length => kernelPt (mk B' N' A' b' c') (restrict (· ∈ b2) bo o) c2 S co (fun p => v (co.getD p 0)) p) =
      Sum.elim (fun p : Fin S.length => lin N (A (restrict (· ∈ b1) bo o)) (b (restrict (· ∈ b1) bo o)) c1 (fun l => if l ∈ S then 0 else v l) (S.getD p 0))
        fun p : Fin S.length => lin N' (A' (restrict (· ∈ b2) bo o)) (b' (restrict (· ∈ b2) bo o)) c2 (fun l => if l ∈ S then 0 else v l) (S.getD p 0) := by
    funext p
    rcases p with p | p
    · exact kernelPt_lin g1 v p
    · exact kernelPt_lin g2 v p
  rw [hu]

/-- One shared label `m`: with `p, q` the diagonal entries of the two matrices at `m` and `u, w` the linear coefficients, the integral is
`(1 - p q)^{-1/2} exp((q u² + 2 u w + p w²) / (2 (1 - p q)))`. -/
theorem one_label {m : ℕ} (sA : ∀ β, ∀ i < N, ∀ j < N, A β i j = A β j i) (sA' : ∀ β, ∀ i < N', ∀ j < N', A' β i j = A' β j i)
    (H : Compat (mk B N A b c) (mk B' N' A' b' c') b1 c1 b2 c2 bo co) (hS : c1.filter (· ∈ c2) = [m])
    (hdet : ∀ o, InB (bo.map fun d => if d ∈ b1 then Batch.sizeOf b1 B d else Batch.sizeOf b2 B' d) o →
      1e-12 < ‖1 - A (restrict (· ∈ b1) bo o) (c1.idxOf m) (c1.idxOf m) * A' (restrict (· ∈ b2) bo o) (c2.idxOf m) (c2.idxOf m)‖) :
    ContractsTo (mk B N A b c) (mk B' N' A' b' c') b1 c1 b2 c2 bo co fun o v =>
      let β1 := restrict (· ∈ b1) bo o
      let β2 := restrict (· ∈ b2) bo o
      let p := A β1 (c1.idxOf m) (c1.idxOf m)
      let q := A' β2 (c2.idxOf m) (c2.idxOf m)
      let u := lin N (A β1) (b β1) c1 (Function.update v m 0) m
      let w := lin N' (A' β2) (b' β2) c2 (Function.update v m 0) m
      ev (mk B N A b c) β1 c1 (Function.update v m 0) * ev (mk B' N' A' b' c') β2 c2 (Function.update v m 0) *
        ((1 / (1 - p * q)) ^ (1 / 2 : ℂ) * Complex.exp ((q * u ^ 2 + 2 * u * w + p * w ^ 2) / (2 * (1 - p * q)))) := by
  have hM : ∀ β1 β2, ovl (mk B N A b c) β1 (mk B' N' A' b' c') β2 c1 c2 [m] =
      Matrix.fromBlocks (Matrix.of fun _ _ => A β1 (c1.idxOf m) (c1.idxOf m)) (-1) (-1) (Matrix.of fun _ _ => A' β2 (c2.idxOf m) (c2.idxOf m)) := by
    intro β1 β2
    unfold ovl
    congr 1
    · ext i j; fin_cases i; fin_cases j; rfl
    · ext i j; fin_cases i; fin_cases j; rfl
  have hd : ∀ p q : ℂ, ((1 : Matrix (Fin 1) (Fin 1) ℂ) - (Matrix.of fun _ _ : Fin 1 => p) * Matrix.of fun _ _ : Fin 1 => q).det = 1 - p * q := by
    intro p q
    rw [Matrix.det_fin_one]
    simp [Matrix.mul_apply]
  have hn : ∀ p q : ℂ, ‖(Matrix.fromBlocks (Matrix.of fun _ _ : Fin 1 => p) (-1) (-1) (Matrix.of fun _ _ : Fin 1 => q)).det‖ = ‖1 - p * q‖ := by
    intro p q
    rw [det_ovl, show (Matrix.of fun _ _ : Fin 1 => p) * (Matrix.of fun _ _ : Fin 1 => q) - 1 =
      -(1 - (Matrix.of fun _ _ : Fin 1 => p) * Matrix.of fun _ _ : Fin 1 => q) by abel, Matrix.det_neg, hd]
    rw [norm_mul, norm_pow, norm_neg, norm_one, one_pow, one_mul]
  have key := gauss_ev sA sA' H hS (by simp) (by
    intro o ho
    rw [hM]
    exact (hn _ _).symm ▸ hdet o ho)
  refine key.congr ?_
  intro o v ho
  rw [mk_outBatch, mk_outBatch] at ho
  have hD := hdet o ho
  dsimp only at hD ⊢
  generalize restrict (· ∈ b1) bo o = β1 at *
  generalize restrict (· ∈ b2) bo o = β2 at *
  have hv : (fun l => if l ∈ [m] then 0 else v l) = Function.update v m 0 := by
    funext l
    by_cases h : l = m
    · subst h; simp
    · simp [h]
  rw [hM, hv]
  set p := A β1 (c1.idxOf m) (c1.idxOf m)
  set q := A' β2 (c2.idxOf m) (c2.idxOf m)
  have hD0 : 1 - p * q ≠ 0 := by
    intro h
    rw [h] at hD
    norm_num at hD
  have e1 : (-1) ^ [m].length / (Matrix.fromBlocks (Matrix.of fun _ _ : Fin [m].length => p) (-1) (-1) (Matrix.of fun _ _ : Fin [m].length => q)).det =
      1 / (1 - p * q) := by
    rw [det_ovl']
    exact congrArg _ (hd p q)
  rw [e1]
  refine congrArg (HMul.hMul _) (congrArg (HMul.hMul _) (congrArg Complex.exp ?_))
  have hinv : (Matrix.fromBlocks (Matrix.of fun _ _ : Fin 1 => p) (-1) (-1) (Matrix.of fun _ _ : Fin 1 => q))⁻¹ =
      Matrix.fromBlocks (Matrix.of fun _ _ : Fin 1 => -q / (1 - p * q)) (Matrix.of fun _ _ : Fin 1 => -1 / (1 - p * q))
        (Matrix.of fun _ _ : Fin 1 => -1 / (1 - p * q)) (Matrix.of fun _ _ : Fin 1 => -p / (1 - p * q)) := by
    apply Matrix.inv_eq_right_inv
    rw [Matrix.fromBlocks_multiply, ← Matrix.fromBlocks_one]
    congr 1 <;>
    · ext i j
      fin_cases i; fin_cases j
      simp [Matrix.mul_apply]
      field_simp
      try ring
  have e2 : ∀ u : Fin 1 ⊕ Fin 1 → ℂ, invB (Matrix.fromBlocks (Matrix.of fun _ _ : Fin 1 => p) (-1) (-1) (Matrix.of fun _ _ : Fin 1 => q)) u u =
      -(q * u (.inl 0) ^ 2 + 2 * u (.inl 0) * u (.inr 0) + p * u (.inr 0) ^ 2) / (1 - p * q) := by
    intro u
    rw [← invB_eq_sum, hinv]
    simp only [Fintype.sum_sum_type, Finset.univ_unique, Finset.sum_singleton, Fin.default_eq_zero, Matrix.fromBlocks_apply₁₁,
      Matrix.fromBlocks_apply₁₂, Matrix.fromBlocks_apply₂₁, Matrix.fromBlocks_apply₂₂, Matrix.of_apply]
    field_simp
    ring
  refine (congrArg (HMul.hMul _) (e2 _)).trans ?_
  simp only [Sum.elim_inl, Sum.elim_inr]
  show -(1 / 2) * (-(q * lin N (A β1) (b β1) c1 (Function.update v m 0) m ^ 2 + 2 * lin N (A β1) (b β1) c1 (Function.update v m 0) m *
    lin N' (A' β2) (b' β2) c2 (Function.update v m 0) m + p * lin N' (A' β2) (b' β2) c2 (Function.update v m 0) m ^ 2) / (1 - p * q)) = _
  field_simp

/-- Two shared labels `m0, m1` whose blocks are `[[0, a], [a, 0]]` and `[[0, a'], [a', 0]]`: with `D = 1 - a a'` (`Re D > 0`) and `u, w` the linear
coefficients, the integral is `D⁻¹ exp((a' u₀ u₁ + u₀ w₀ + u₁ w₁ + a w₀ w₁) / D)`. -/
theorem two_label {m0 m1 : ℕ} {a a' : List ℕ → ℂ} (sA : ∀ β, ∀ i < N, ∀ j < N, A β i j = A β j i) (sA' : ∀ β, ∀ i < N', ∀ j < N', A' β i j = A' β j i)
    (H : Compat (mk B N A b c) (mk B' N' A' b' c') b1 c1 b2 c2 bo co) (hS : c1.filter (· ∈ c2) = [m0, m1])
    (h00 : ∀ β, A β (c1.idxOf m0) (c1.idxOf m0) = 0 ∧ A β (c1.idxOf m1) (c1.idxOf m1) = 0 ∧ A β (c1.idxOf m0) (c1.idxOf m1) = a β ∧
      A β (c1.idxOf m1) (c1.idxOf m0) = a β)
    (h00' : ∀ β, A' β (c2.idxOf m0) (c2.idxOf m0) = 0 ∧ A' β (c2.idxOf m1) (c2.idxOf m1) = 0 ∧ A' β (c2.idxOf m0) (c2.idxOf m1) = a' β ∧
      A' β (c2.idxOf m1) (c2.idxOf m0) = a' β)
    (hdet : ∀ o, InB (bo.map fun d => if d ∈ b1 then Batch.sizeOf b1 B d else Batch.sizeOf b2 B' d) o →
      0 < (1 - a (restrict (· ∈ b1) bo o) * a' (restrict (· ∈ b2) bo o)).re ∧
      1e-12 < ‖1 - a (restrict (· ∈ b1) bo o) * a' (restrict (· ∈ b2) bo o)‖ ^ 2) :
    ContractsTo (mk B N A b c) (mk B' N' A' b' c') b1 c1 b2 c2 bo co fun o v =>
      let β1 := restrict (· ∈ b1) bo o
      let β2 := restrict (· ∈ b2) bo o
      let D := 1 - a β1 * a' β2
      let v0 := Function.update (Function.update v m0 0) m1 0
      let u0 := lin N (A β1) (b β1) c1 v0 m0
      let u1 := lin N (A β1) (b β1) c1 v0 m1
      let w0 := lin N' (A' β2) (b' β2) c2 v0 m0
      let w1 := lin N' (A' β2) (b' β2) c2 v0 m1
      ev (mk B N A b c) β1 c1 v0 * ev (mk B' N' A' b' c') β2 c2 v0 *
        (1 / D * Complex.exp ((a' β2 * u0 * u1 + u0 * w0 + u1 * w1 + a β1 * w0 * w1) / D)) := by
  have hM : ∀ β1 β2, ovl (mk B N A b c) β1 (mk B' N' A' b' c') β2 c1 c2 [m0, m1] =
      Matrix.fromBlocks (!![0, a β1; a β1, 0] : Matrix (Fin 2) (Fin 2) ℂ) (-1) (-1) (!![0, a' β2; a' β2, 0] : Matrix (Fin 2) (Fin 2) ℂ) := by
    intro β1 β2
    obtain ⟨r1, r2, r3, r4⟩ := h00 β1
    obtain ⟨r1', r2', r3', r4'⟩ := h00' β2
    unfold ovl
    congr 1
    · ext i j; fin_cases i <;> fin_cases j
      · exact r1
      · exact r3
      · exact r4
      · exact r2
    · ext i j; fin_cases i <;> fin_cases j
      · exact r1'
      · exact r3'
      · exact r4'
      · exact r2'
  have hd : ∀ p q : ℂ, ((1 : Matrix (Fin 2) (Fin 2) ℂ) - (!![0, p; p, 0] : Matrix (Fin 2) (Fin 2) ℂ) * !![0, q; q, 0]).det = (1 - p * q) ^ 2 := by
    intro p q
    rw [Matrix.det_fin_two]
    simp [Matrix.mul_apply]
    ring
  have hn : ∀ p q : ℂ, ‖(Matrix.fromBlocks (!![0, p; p, 0] : Matrix (Fin 2) (Fin 2) ℂ) (-1) (-1) !![0, q; q, 0]).det‖ = ‖1 - p * q‖ ^ 2 := by
    intro p q
    rw [det_ovl, show (!![0, p; p, 0] : Matrix (Fin 2) (Fin 2) ℂ) * !![0, q; q, 0] - 1 =
      -(1 - (!![0, p; p, 0] : Matrix (Fin 2) (Fin 2) ℂ) * !![0, q; q, 0]) by abel, Matrix.det_neg, hd]
    rw [norm_mul, norm_pow, norm_neg, norm_one, one_pow, one_mul, norm_pow]
  have key := gauss_ev sA sA' H hS (by simp) (by
    intro o ho
    rw [hM]
    exact (hn _ _).symm ▸ (hdet o ho).2)
  refine key.congr ?_
  intro o v ho
  rw [mk_outBatch, mk_outBatch] at ho
  obtain ⟨hre, hD⟩ := hdet o ho
  dsimp only at hD hre ⊢
  generalize restrict (· ∈ b1) bo o = β1 at *
  generalize restrict (· ∈ b2) bo o = β2 at *
  have hv : (fun l => if l ∈ [m0, m1] then 0 else v l) = Function.update (Function.update v m0 0) m1 0 := by
    funext l
    by_cases h : l = m1
    · subst h; simp
    · rw [Function.update_of_ne h]
      by_cases h' : l = m0
      · subst h'; simp
      · simp [h, h']
  rw [hM, hv]
  generalize a β1 = p at *
  generalize a' β2 = q at *
  have hD0 : 1 - p * q ≠ 0 := by
    intro h
    rw [h] at hre
    simp at hre
  have e1 : (-1) ^ [m0, m1].length / (Matrix.fromBlocks (!![0, p; p, 0] : Matrix (Fin 2) (Fin 2) ℂ) (-1) (-1) !![0, q; q, 0]).det =
      1 / (1 - p * q) ^ 2 := by
    refine (det_ovl' (m := 2) _ _).trans ?_
    rw [hd p q]
  have e3 : (1 / (1 - p * q) ^ 2) ^ (1 / 2 : ℂ) = 1 / (1 - p * q) := by
    have hre' : 0 < (1 / (1 - p * q)).re := by
      rw [one_div, Complex.inv_re]
      exact div_pos hre (Complex.normSq_pos.2 hD0)
    have harg := Complex.abs_arg_lt_pi_div_two_iff.2 (Or.inl hre')
    rw [abs_lt] at harg
    rw [show 1 / (1 - p * q) ^ 2 = (1 / (1 - p * q)) ^ 2 by rw [div_pow, one_pow], one_div (2 : ℂ)]
    have := Complex.pow_cpow_nat_inv (x := 1 / (1 - p * q)) (n := 2) (by norm_num) (by push_cast; linarith [harg.1]) (by push_cast; linarith [harg.2])
    exact_mod_cast this
  have e4 : ((-1) ^ [m0, m1].length / (Matrix.fromBlocks (!![0, p; p, 0] : Matrix (Fin 2) (Fin 2) ℂ) (-1) (-1) !![0, q; q, 0]).det) ^ (1 / 2 : ℂ) =
      1 / (1 - p * q) := by rw [e1, e3]
  refine congrArg (HMul.hMul _) (congr (congrArg HMul.hMul e4) (congrArg Complex.exp ?_))
  have hinv : (Matrix.fromBlocks (!![0, p; p, 0] : Matrix (Fin 2) (Fin 2) ℂ) (-1) (-1) !![0, q; q, 0])⁻¹ =
      Matrix.fromBlocks (!![0, -q / (1 - p * q); -q / (1 - p * q), 0] : Matrix (Fin 2) (Fin 2) ℂ) (!![-1 / (1 - p * q), 0; 0, -1 / (1 - p * q)] : Matrix (Fin 2) (Fin 2) ℂ)
        (!![-1 / (1 - p * q), 0; 0, -1 / (1 - p * q)] : Matrix (Fin 2) (Fin 2) ℂ) (!![0, -p / (1 - p * q); -p / (1 - p * q), 0] : Matrix (Fin 2) (Fin 2) ℂ) := by
    apply Matrix.inv_eq_right_inv
    rw [Matrix.fromBlocks_multiply, ← Matrix.fromBlocks_one]
    congr 1 <;>
    · ext i j
      fin_cases i <;> fin_cases j <;> simp [Matrix.mul_apply, Fin.sum_univ_two] <;> field_simp <;> try ring
  have e2 : ∀ u : Fin 2 ⊕ Fin 2 → ℂ, invB (Matrix.fromBlocks (!![0, p; p, 0] : Matrix (Fin 2) (Fin 2) ℂ) (-1) (-1) !![0, q; q, 0]) u u =
      -2 * (q * u (.inl 0) * u (.inl 1) + u (.inl 0) * u (.inr 0) + u (.inl 1) * u (.inr 1) + p * u (.inr 0) * u (.inr 1)) / (1 - p * q) := by
    intro u
    rw [← invB_eq_sum, hinv]
    simp only [Fintype.sum_sum_type, Fin.sum_univ_two, Matrix.fromBlocks_apply₁₁,
      Matrix.fromBlocks_apply₁₂, Matrix.fromBlocks_apply₂₁, Matrix.fromBlocks_apply₂₂]
    simp
    field_simp
    ring
  refine (congrArg (HMul.hMul _) (e2 _)).trans ?_
  simp only [Sum.elim_inl, Sum.elim_inr]
  show -(1 / 2) * (-2 * (q * lin N (A β1) (b β1) c1 (Function.update (Function.update v m0 0) m1 0) m0 *
      lin N (A β1) (b β1) c1 (Function.update (Function.update v m0 0) m1 0) m1 + lin N (A β1) (b β1) c1 (Function.update (Function.update v m0 0) m1 0) m0 *
      lin N' (A' β2) (b' β2) c2 (Function.update (Function.update v m0 0) m1 0) m0 + lin N (A β1) (b β1) c1 (Function.update (Function.update v m0 0) m1 0) m1 *
      lin N' (A' β2) (b' β2) c2 (Function.update (Function.update v m0 0) m1 0) m1 + p * lin N' (A' β2) (b' β2) c2 (Function.update (Function.update v m0 0) m1 0) m0 *
      lin N' (A' β2) (b' β2) c2 (Function.update (Function.update v m0 0) m1 0) m1) / (1 - p * q)) = _
  ring

end Verif.Triples
