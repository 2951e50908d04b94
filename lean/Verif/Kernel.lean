import Verif.ContractThm
import Verif.CGIEx

/-!
# Contraction with a kernel

When the block of `A` on the shared variables of one operand is zero (identity, displacement, rotation, beam splitter, coherent states,
damping, the output side of the attenuator, …), `contract` is a substitution: no convergence hypothesis and no choice of a
square root enters.
-/

namespace Verif.PolyExp
open Verif.Fock Verif.Batch Verif.Gauss PolyExp MeasureTheory

/-- The exponent at a point whose integrated coordinates are `u`. -/
theorem exponent_point {n : ℕ} {A : ℕ → ℕ → ℂ} {b : ℕ → ℂ} {zi zc : List ℕ} (hl : zi.length = zc.length) (hn : (zi ++ zc).Nodup)
    (hlt : ∀ i ∈ zi ++ zc, i < n) (hs : ∀ i < n, ∀ j < n, A i j = A j i) {u : Fin zi.length ⊕ Fin zi.length → ℂ} {x y : ℕ → ℂ}
    (hu : ∀ p, x (pos zi zc p) = u p) (hy : ∀ i < (remCV n zi zc).length, x ((remCV n zi zc).getD i 0) = y i) :
    1 / 2 * ∑ i ∈ Finset.range n, ∑ j ∈ Finset.range n, x i * x j * A i j + ∑ i ∈ Finset.range n, x i * b i =
      (1 / 2 * ∑ i ∈ Finset.range (remCV n zi zc).length, ∑ j ∈ Finset.range (remCV n zi zc).length,
          y i * y j * A ((remCV n zi zc).getD i 0) ((remCV n zi zc).getD j 0) +
        ∑ i ∈ Finset.range (remCV n zi zc).length, y i * b ((remCV n zi zc).getD i 0)) +
      (1 / 2 * ∑ p, ∑ q, A (pos zi zc p) (pos zi zc q) * u p * u q + ∑ p, (b (pos zi zc p) +
        ∑ i ∈ Finset.range (remCV n zi zc).length, y i * A ((remCV n zi zc).getD i 0) (pos zi zc p)) * u p) := by
  set R := (remCV n zi zc).length with hR
  set r := remCV n zi zc with hr
  have hpl : ∀ p, pos zi zc p < n := fun p => hlt _ (pos_mem hl p)
  have hrl : ∀ i < R, r.getD i 0 < n := fun i hi => remCV_lt hi
  have q1 : ∑ i ∈ Finset.range n, ∑ j ∈ Finset.range n, x i * x j * A i j =
      ∑ p, ∑ q, A (pos zi zc p) (pos zi zc q) * u p * u q +
      2 * ∑ p, (∑ i ∈ Finset.range R, y i * A (r.getD i 0) (pos zi zc p)) * u p +
      ∑ i ∈ Finset.range R, ∑ j ∈ Finset.range R, y i * y j * A (r.getD i 0) (r.getD j 0) := by
    rw [sum_split hl hn hlt]
    simp only [sum_split hl hn hlt, Finset.sum_add_distrib]
    have a1 : ∑ p, ∑ q, x (pos zi zc p) * x (pos zi zc q) * A (pos zi zc p) (pos zi zc q) =
        ∑ p, ∑ q, A (pos zi zc p) (pos zi zc q) * u p * u q := by
      refine Finset.sum_congr rfl fun p _ => Finset.sum_congr rfl fun q _ => ?_
      rw [hu, hu]; ring
    have a2 : ∑ p, ∑ i ∈ Finset.range R, x (pos zi zc p) * x (r.getD i 0) * A (pos zi zc p) (r.getD i 0) =
        ∑ p, (∑ i ∈ Finset.range R, y i * A (r.getD i 0) (pos zi zc p)) * u p := by
      refine Finset.sum_congr rfl fun p _ => ?_
      rw [Finset.sum_mul]
      refine Finset.sum_congr rfl fun i hi => ?_
      have hi := Finset.mem_range.1 hi
      rw [hu, hy i hi, hs _ (hpl p) _ (hrl i hi)]; ring
    have a3 : ∑ i ∈ Finset.range R, ∑ p, x (r.getD i 0) * x (pos zi zc p) * A (r.getD i 0) (pos zi zc p) =
        ∑ p, (∑ i ∈ Finset.range R, y i * A (r.getD i 0) (pos zi zc p)) * u p := by
      rw [Finset.sum_comm]
      refine Finset.sum_congr rfl fun p _ => ?_
      rw [Finset.sum_mul]
      refine Finset.sum_congr rfl fun i hi => ?_
      have hi := Finset.mem_range.1 hi
      rw [hu, hy i hi]; ring
    have a4 : ∑ i ∈ Finset.range R, ∑ j ∈ Finset.range R, x (r.getD i 0) * x (r.getD j 0) * A (r.getD i 0) (r.getD j 0) =
        ∑ i ∈ Finset.range R, ∑ j ∈ Finset.range R, y i * y j * A (r.getD i 0) (r.getD j 0) := by
      refine Finset.sum_congr rfl fun i hi => Finset.sum_congr rfl fun j hj => ?_
      rw [hy i (Finset.mem_range.1 hi), hy j (Finset.mem_range.1 hj)]
    rw [a1, a2, a3, a4]; ring
  have q2 : ∑ i ∈ Finset.range n, x i * b i = ∑ p, b (pos zi zc p) * u p + ∑ i ∈ Finset.range R, y i * b (r.getD i 0) := by
    rw [sum_split hl hn hlt]
    refine congr (congrArg HAdd.hAdd ?_) ?_
    · refine Finset.sum_congr rfl fun p _ => ?_
      rw [hu]; ring
    · refine Finset.sum_congr rfl fun i hi => ?_
      rw [hy i (Finset.mem_range.1 hi)]
  rw [q1, q2]
  simp only [add_mul, Finset.sum_add_distrib]
  ring

/-- If the quadratic form in the integrated variables can be completed at the point `u`, the result of the formula is the value at `u`. -/
theorem cgi_point {f : PolyExp} (hf : f.WF) (hs : SymAll f) {β zi zc : List ℕ} {s : ℝ} (hl : zi.length = zc.length)
    (hn : (zi ++ zc).Nodup) (hlt : ∀ i ∈ zi ++ zc, i < f.numCV) {u : Fin zi.length ⊕ Fin zi.length → ℂ} {x y : ℕ → ℂ}
    (hu : ∀ p, x (pos zi zc p) = u p)
    (hy : ∀ i < (remCV f.numCV zi zc).length, x ((remCV f.numCV zi zc).getD i 0) = y i)
    {bY : Fin zi.length ⊕ Fin zi.length → ℂ}
    (hbY : bY = fun p => f.b β (pos zi zc p) + ∑ i ∈ Finset.range (remCV f.numCV zi zc).length,
      y i * f.A β ((remCV f.numCV zi zc).getD i 0) (pos zi zc p))
    (hdet : (gM (f.A β) zi zc s).det = (-1) ^ zi.length)
    (h1 : 1 / 2 * ∑ p, ∑ q, f.A β (pos zi zc p) (pos zi zc q) * u p * u q + ∑ p, bY p * u p = -(1 / 2) * invB (gM (f.A β) zi zc s) bY bY)
    (h2 : ∀ i < f.derived.length, ∀ j < f.derived.length, invB (gM (f.A β) zi zc s) (fun p => f.A β (f.numCV + i) (pos zi zc p))
      (fun p => f.A β (f.numCV + j) (pos zi zc p)) = 0)
    (h3 : ∀ j < f.derived.length, ∑ p, f.A β (f.numCV + j) (pos zi zc p) * u p =
      -invB (gM (f.A β) zi zc s) (fun p => f.A β (f.numCV + j) (pos zi zc p)) bY) :
    (cgiTrue f zi zc s).termAt β y = f.termAt β x := by
  have hNd : f.numCV + f.derived.length = f.N := by have := hf.der; simp only [numCV]; omega
  have hpl : ∀ p, pos zi zc p < f.numCV := fun p => hlt _ (pos_mem hl p)
  rw [cgiTrue_term hf hs hl hlt y rfl rfl rfl rfl hbY rfl rfl, hdet]
  unfold termAt termVal
  rw [exponent_point hl hn hlt (fun i hi j hj => hs β i (by omega) j (by omega)) hu hy]
  rw [hbY] at h1
  beta_reduce at h1
  rw [h1, ← hbY, ← nsum_mul_left]
  apply nsum_congr
  intro k _
  rw [div_self (pow_ne_zero _ (by norm_num)), Complex.one_cpow, mul_one, mul_assoc]
  refine congrArg (HMul.hMul _) (congrArg (HMul.hMul _) ?_)
  refine amp_congr _ (fun i hi j hj => ?_) (fun j hj => ?_) _
  · rw [h2 i hi j hj, sub_zero]
  · rw [sum_split hl hn hlt, sub_eq_add_neg, ← h3 j hj]
    have e1 : ∑ p, f.A β (pos zi zc p) (f.numCV + j) * x (pos zi zc p) = ∑ p, f.A β (f.numCV + j) (pos zi zc p) * u p := by
      refine Finset.sum_congr rfl fun p _ => ?_
      rw [hu p, hs β _ (by have := hpl p; omega) _ (by omega)]
    have e2 : ∑ a ∈ Finset.range (remCV f.numCV zi zc).length, f.A β ((remCV f.numCV zi zc).getD a 0) (f.numCV + j) * x ((remCV f.numCV zi zc).getD a 0)
        = ∑ a ∈ Finset.range (remCV f.numCV zi zc).length, f.A β ((remCV f.numCV zi zc).getD a 0) (f.numCV + j) * y a := by
      refine Finset.sum_congr rfl fun a ha => ?_
      rw [hy a (Finset.mem_range.1 ha)]
    rw [e1, e2]
    ring

section block
variable {m : ℕ}

theorem block_inv_zc (F : Matrix (Fin m) (Fin m) ℂ) :
    (Matrix.fromBlocks F (-1) (-1) 0)⁻¹ = Matrix.fromBlocks 0 (-1) (-1) (-F) := by
  apply Matrix.inv_eq_right_inv
  rw [Matrix.fromBlocks_multiply]
  simp [Matrix.fromBlocks_one]

theorem block_inv_z (G : Matrix (Fin m) (Fin m) ℂ) :
    (Matrix.fromBlocks 0 (-1) (-1) G)⁻¹ = Matrix.fromBlocks (-G) (-1) (-1) 0 := by
  apply Matrix.inv_eq_right_inv
  rw [Matrix.fromBlocks_multiply]
  simp [Matrix.fromBlocks_one]

theorem block_det_zc (F : Matrix (Fin m) (Fin m) ℂ) : (Matrix.fromBlocks F (-1) (-1) 0 : Matrix (Fin m ⊕ Fin m) (Fin m ⊕ Fin m) ℂ).det = (-1) ^ m := by
  have h : (Matrix.fromBlocks F (-1) (-1) 0 * (Matrix.fromBlocks 0 1 1 0 : Matrix (Fin m ⊕ Fin m) (Fin m ⊕ Fin m) ℂ)).det = 1 := by
    rw [Matrix.fromBlocks_multiply]
    simp only [Matrix.mul_zero, Matrix.mul_one, zero_add, add_zero]
    rw [Matrix.det_fromBlocks_zero₂₁]
    simp [Matrix.det_neg, ← mul_pow]
  rw [Matrix.det_mul, det_X] at h
  have h2 : ((-1 : ℂ) ^ m) * (-1) ^ m = 1 := by rw [← mul_pow]; norm_num
  calc _ = (Matrix.fromBlocks F (-1) (-1) 0 : Matrix (Fin m ⊕ Fin m) (Fin m ⊕ Fin m) ℂ).det * (((-1 : ℂ) ^ m) * (-1) ^ m) := by rw [h2, mul_one]
    _ = (-1) ^ m := by rw [← mul_assoc, h, one_mul]

theorem block_det_z (G : Matrix (Fin m) (Fin m) ℂ) : (Matrix.fromBlocks 0 (-1) (-1) G : Matrix (Fin m ⊕ Fin m) (Fin m ⊕ Fin m) ℂ).det = (-1) ^ m := by
  have h : (Matrix.fromBlocks 0 (-1) (-1) G * (Matrix.fromBlocks 0 1 1 0 : Matrix (Fin m ⊕ Fin m) (Fin m ⊕ Fin m) ℂ)).det = 1 := by
    rw [Matrix.fromBlocks_multiply]
    simp only [Matrix.mul_zero, Matrix.mul_one, zero_add, add_zero]
    rw [Matrix.det_fromBlocks_zero₁₂]
    simp [Matrix.det_neg, ← mul_pow]
  rw [Matrix.det_mul, det_X] at h
  have h2 : ((-1 : ℂ) ^ m) * (-1) ^ m = 1 := by rw [← mul_pow]; norm_num
  calc _ = (Matrix.fromBlocks 0 (-1) (-1) G : Matrix (Fin m ⊕ Fin m) (Fin m ⊕ Fin m) ℂ).det * (((-1 : ℂ) ^ m) * (-1) ^ m) := by rw [h2, mul_one]
    _ = (-1) ^ m := by rw [← mul_assoc, h, one_mul]

theorem invB_zc (F : Matrix (Fin m) (Fin m) ℂ) (u v : Fin m ⊕ Fin m → ℂ) :
    invB (Matrix.fromBlocks F (-1) (-1) 0) u v = -(∑ i, u (.inl i) * v (.inr i)) - (∑ i, u (.inr i) * v (.inl i)) -
      ∑ i, ∑ j, u (.inr i) * F i j * v (.inr j) := by
  rw [← invB_eq_sum, block_inv_zc]
  simp only [Fintype.sum_sum_type, Matrix.fromBlocks_apply₁₁, Matrix.fromBlocks_apply₁₂, Matrix.fromBlocks_apply₂₁, Matrix.fromBlocks_apply₂₂,
    Matrix.zero_apply, Matrix.neg_apply, Matrix.one_apply, mul_neg, neg_mul, mul_ite, mul_one, mul_zero, zero_mul, ite_mul,
    Finset.sum_neg_distrib, Finset.sum_ite_eq, Finset.mem_univ, if_true, Finset.sum_const_zero, zero_add, Finset.sum_add_distrib]
  ring

theorem invB_z (G : Matrix (Fin m) (Fin m) ℂ) (u v : Fin m ⊕ Fin m → ℂ) :
    invB (Matrix.fromBlocks 0 (-1) (-1) G) u v = -(∑ i, u (.inl i) * v (.inr i)) - (∑ i, u (.inr i) * v (.inl i)) -
      ∑ i, ∑ j, u (.inl i) * G i j * v (.inl j) := by
  rw [← invB_eq_sum, block_inv_z]
  simp only [Fintype.sum_sum_type, Matrix.fromBlocks_apply₁₁, Matrix.fromBlocks_apply₁₂, Matrix.fromBlocks_apply₂₁, Matrix.fromBlocks_apply₂₂,
    Matrix.zero_apply, Matrix.neg_apply, Matrix.one_apply, mul_neg, neg_mul, mul_ite, mul_one, mul_zero, zero_mul, ite_mul,
    Finset.sum_neg_distrib, Finset.sum_ite_eq, Finset.mem_univ, if_true, Finset.sum_const_zero, add_zero, Finset.sum_add_distrib]
  ring

end block

theorem gM_zc {A : ℕ → ℕ → ℂ} {zi zc : List ℕ} (hz : ∀ i < zi.length, ∀ j < zi.length, A (zc.getD i 0) (zc.getD j 0) = 0)
    (hx : ∀ i < zi.length, ∀ j < zi.length, A (zi.getD i 0) (zc.getD j 0) = 0)
    (hx' : ∀ i < zi.length, ∀ j < zi.length, A (zc.getD i 0) (zi.getD j 0) = 0) :
    gM A zi zc (-1) = Matrix.fromBlocks (Matrix.of fun i j : Fin zi.length => A (zi.getD i 0) (zi.getD j 0)) (-1) (-1) 0 := by
  ext p q
  rcases p with i | i <;> rcases q with j | j <;>
    simp only [gM, pos, Matrix.add_apply, Matrix.of_apply, Matrix.smul_apply, Sum.elim_inl, Sum.elim_inr, Matrix.fromBlocks_apply₁₁,
      Matrix.fromBlocks_apply₁₂, Matrix.fromBlocks_apply₂₁, Matrix.fromBlocks_apply₂₂, hz i i.2 j j.2, hx i i.2 j j.2, hx' i i.2 j j.2,
      Matrix.zero_apply, Matrix.neg_apply, smul_zero, add_zero, zero_add, neg_zero, smul_eq_mul, Complex.ofReal_neg, Complex.ofReal_one, neg_mul, one_mul, neg_zero]

theorem gM_z {A : ℕ → ℕ → ℂ} {zi zc : List ℕ} (hz : ∀ i < zi.length, ∀ j < zi.length, A (zi.getD i 0) (zi.getD j 0) = 0)
    (hx : ∀ i < zi.length, ∀ j < zi.length, A (zi.getD i 0) (zc.getD j 0) = 0)
    (hx' : ∀ i < zi.length, ∀ j < zi.length, A (zc.getD i 0) (zi.getD j 0) = 0) :
    gM A zi zc (-1) = Matrix.fromBlocks 0 (-1) (-1) (Matrix.of fun i j : Fin zi.length => A (zc.getD i 0) (zc.getD j 0)) := by
  ext p q
  rcases p with i | i <;> rcases q with j | j <;>
    simp only [gM, pos, Matrix.add_apply, Matrix.of_apply, Matrix.smul_apply, Sum.elim_inl, Sum.elim_inr, Matrix.fromBlocks_apply₁₁,
      Matrix.fromBlocks_apply₁₂, Matrix.fromBlocks_apply₂₁, Matrix.fromBlocks_apply₂₂, hz i i.2 j j.2, hx i i.2 j j.2, hx' i i.2 j j.2,
      Matrix.zero_apply, Matrix.neg_apply, smul_zero, add_zero, zero_add, neg_zero, smul_eq_mul, Complex.ofReal_neg, Complex.ofReal_one, neg_mul, one_mul, neg_zero]

/-- The block of the conjugated variables vanishes: the formula substitutes the linear form of the `zc` variables for the `zi` variables. -/
theorem cgi_kernel_zc {f : PolyExp} (hf : f.WF) (hs : SymAll f) {β zi zc : List ℕ} (hl : zi.length = zc.length)
    (hn : (zi ++ zc).Nodup) (hlt : ∀ i ∈ zi ++ zc, i < f.numCV)
    (hz : ∀ i < zi.length, ∀ j < zi.length, f.A β (zc.getD i 0) (zc.getD j 0) = 0)
    (hx : ∀ i < zi.length, ∀ j < zi.length, f.A β (zi.getD i 0) (zc.getD j 0) = 0)
    (hd : ∀ j < f.derived.length, ∀ i < zi.length, f.A β (f.numCV + j) (zc.getD i 0) = 0) {x y : ℕ → ℂ}
    (hx1 : ∀ i < zi.length, x (zi.getD i 0) = f.b β (zc.getD i 0) + ∑ a ∈ Finset.range (remCV f.numCV zi zc).length,
      y a * f.A β ((remCV f.numCV zi zc).getD a 0) (zc.getD i 0))
    (hx2 : ∀ i < zi.length, x (zc.getD i 0) = 0)
    (hy : ∀ i < (remCV f.numCV zi zc).length, x ((remCV f.numCV zi zc).getD i 0) = y i) :
    (gM (f.A β) zi zc (-1)).det = (-1) ^ zi.length ∧ (cgiTrue f zi zc (-1)).termAt β y = f.termAt β x := by
  have hNd : f.numCV + f.derived.length = f.N := by have := hf.der; simp only [numCV]; omega
  have hpl : ∀ p, pos zi zc p < f.numCV := fun p => hlt _ (pos_mem hl p)
  have hx' : ∀ i < zi.length, ∀ j < zi.length, f.A β (zc.getD i 0) (zi.getD j 0) = 0 := by
    intro i hi j hj
    have h1 := hpl (.inl ⟨j, hj⟩)
    have h2 := hpl (.inr ⟨i, hi⟩)
    simp only [pos, Sum.elim_inl, Sum.elim_inr] at h1 h2
    rw [hs β _ (by omega) _ (by omega), hx j hj i hi]
  have hM := gM_zc hz hx hx'
  have hdet : (gM (f.A β) zi zc (-1)).det = (-1) ^ zi.length := by rw [hM, block_det_zc]
  refine ⟨hdet, cgi_point hf hs hl hn hlt (u := Sum.elim (fun i => x (zi.getD i 0)) fun _ => 0) ?_ hy rfl hdet ?_ ?_ ?_⟩
  · rintro (i | i)
    · rfl
    · exact hx2 i i.2
  · rw [hM, invB_zc]
    simp only [Fintype.sum_sum_type, Sum.elim_inl, Sum.elim_inr, pos, mul_zero, Finset.sum_const_zero, add_zero, Matrix.of_apply]
    have e : ∀ i : Fin zi.length, x (zi.getD i 0) = f.b β (zc.getD i 0) + ∑ a ∈ Finset.range (remCV f.numCV zi zc).length,
      y a * f.A β ((remCV f.numCV zi zc).getD a 0) (zc.getD i 0) := fun i => hx1 i i.2
    simp only [← e]
    have e1 : ∀ (a : Fin zi.length → ℂ), ∑ i : Fin zi.length, x (zi.getD i 0) * a i = ∑ i : Fin zi.length, a i * x (zi.getD i 0) :=
      fun a => Finset.sum_congr rfl fun i _ => mul_comm _ _
    rw [e1]
    have e2 : ∑ i : Fin zi.length, ∑ j : Fin zi.length, x (zi.getD i 0) * f.A β (zi.getD i 0) (zi.getD j 0) * x (zi.getD j 0) =
        ∑ i : Fin zi.length, ∑ j : Fin zi.length, f.A β (zi.getD i 0) (zi.getD j 0) * x (zi.getD i 0) * x (zi.getD j 0) :=
      Finset.sum_congr rfl fun i _ => Finset.sum_congr rfl fun j _ => by ring
    rw [e2]
    try simp only [Finset.sum_const_zero, mul_zero, zero_mul, add_zero, zero_add]
    ring
  · intro i hi j hj
    rw [hM, invB_zc]
    simp only [pos, Sum.elim_inl, Sum.elim_inr]
    have e : ∀ k < f.derived.length, ∀ a : Fin zi.length, f.A β (f.numCV + k) (zc.getD a 0) = 0 := fun k hk a => hd k hk a a.2
    simp only [e i hi, e j hj, zero_mul, mul_zero, Finset.sum_const_zero, sub_zero, neg_zero]
  · intro j hj
    rw [hM, invB_zc]
    simp only [Fintype.sum_sum_type, Sum.elim_inl, Sum.elim_inr, pos, mul_zero, Finset.sum_const_zero, add_zero]
    have e : ∀ a : Fin zi.length, f.A β (f.numCV + j) (zc.getD a 0) = 0 := fun a => hd j hj a a.2
    simp only [e, zero_mul, Finset.sum_const_zero, sub_zero, neg_neg]
    exact Finset.sum_congr rfl fun i _ => by rw [hx1 i i.2]

/-- The same with the roles of the two blocks exchanged. -/
theorem cgi_kernel_z {f : PolyExp} (hf : f.WF) (hs : SymAll f) {β zi zc : List ℕ} (hl : zi.length = zc.length)
    (hn : (zi ++ zc).Nodup) (hlt : ∀ i ∈ zi ++ zc, i < f.numCV)
    (hz : ∀ i < zi.length, ∀ j < zi.length, f.A β (zi.getD i 0) (zi.getD j 0) = 0)
    (hx : ∀ i < zi.length, ∀ j < zi.length, f.A β (zi.getD i 0) (zc.getD j 0) = 0)
    (hd : ∀ j < f.derived.length, ∀ i < zi.length, f.A β (f.numCV + j) (zi.getD i 0) = 0) {x y : ℕ → ℂ}
    (hx1 : ∀ i < zi.length, x (zc.getD i 0) = f.b β (zi.getD i 0) + ∑ a ∈ Finset.range (remCV f.numCV zi zc).length,
      y a * f.A β ((remCV f.numCV zi zc).getD a 0) (zi.getD i 0))
    (hx2 : ∀ i < zi.length, x (zi.getD i 0) = 0)
    (hy : ∀ i < (remCV f.numCV zi zc).length, x ((remCV f.numCV zi zc).getD i 0) = y i) :
    (gM (f.A β) zi zc (-1)).det = (-1) ^ zi.length ∧ (cgiTrue f zi zc (-1)).termAt β y = f.termAt β x := by
  have hNd : f.numCV + f.derived.length = f.N := by have := hf.der; simp only [numCV]; omega
  have hpl : ∀ p, pos zi zc p < f.numCV := fun p => hlt _ (pos_mem hl p)
  have hx' : ∀ i < zi.length, ∀ j < zi.length, f.A β (zc.getD i 0) (zi.getD j 0) = 0 := by
    intro i hi j hj
    have h1 := hpl (.inl ⟨j, hj⟩)
    have h2 := hpl (.inr ⟨i, hi⟩)
    simp only [pos, Sum.elim_inl, Sum.elim_inr] at h1 h2
    rw [hs β _ (by omega) _ (by omega), hx j hj i hi]
  have hM := gM_z hz hx hx'
  have hdet : (gM (f.A β) zi zc (-1)).det = (-1) ^ zi.length := by rw [hM, block_det_z]
  refine ⟨hdet, cgi_point hf hs hl hn hlt (u := Sum.elim (fun _ => 0) fun i => x (zc.getD i 0)) ?_ hy rfl hdet ?_ ?_ ?_⟩
  · rintro (i | i)
    · exact hx2 i i.2
    · rfl
  · rw [hM, invB_z]
    simp only [Fintype.sum_sum_type, Sum.elim_inl, Sum.elim_inr, pos, mul_zero, Finset.sum_const_zero, zero_add, Matrix.of_apply]
    have e : ∀ i : Fin zi.length, x (zc.getD i 0) = f.b β (zi.getD i 0) + ∑ a ∈ Finset.range (remCV f.numCV zi zc).length,
      y a * f.A β ((remCV f.numCV zi zc).getD a 0) (zi.getD i 0) := fun i => hx1 i i.2
    simp only [← e]
    have e1 : ∀ (a : Fin zi.length → ℂ), ∑ i : Fin zi.length, x (zc.getD i 0) * a i = ∑ i : Fin zi.length, a i * x (zc.getD i 0) :=
      fun a => Finset.sum_congr rfl fun i _ => mul_comm _ _
    rw [e1]
    have e2 : ∑ i : Fin zi.length, ∑ j : Fin zi.length, x (zc.getD i 0) * f.A β (zc.getD i 0) (zc.getD j 0) * x (zc.getD j 0) =
        ∑ i : Fin zi.length, ∑ j : Fin zi.length, f.A β (zc.getD i 0) (zc.getD j 0) * x (zc.getD i 0) * x (zc.getD j 0) :=
      Finset.sum_congr rfl fun i _ => Finset.sum_congr rfl fun j _ => by ring
    rw [e2]
    try simp only [Finset.sum_const_zero, mul_zero, zero_mul, add_zero, zero_add]
    ring
  · intro i hi j hj
    rw [hM, invB_z]
    simp only [pos, Sum.elim_inl, Sum.elim_inr]
    have e : ∀ k < f.derived.length, ∀ a : Fin zi.length, f.A β (f.numCV + k) (zi.getD a 0) = 0 := fun k hk a => hd k hk a a.2
    simp only [e i hi, e j hj, zero_mul, mul_zero, Finset.sum_const_zero, sub_zero, neg_zero]
  · intro j hj
    rw [hM, invB_z]
    simp only [Fintype.sum_sum_type, Sum.elim_inl, Sum.elim_inr, pos, mul_zero, Finset.sum_const_zero, zero_add]
    have e : ∀ a : Fin zi.length, f.A β (f.numCV + j) (zi.getD a 0) = 0 := fun a => hd j hj a a.2
    simp only [e, zero_mul, Finset.sum_const_zero, sub_zero, neg_zero, zero_sub, neg_neg]
    exact Finset.sum_congr rfl fun i _ => by rw [hx1 i i.2]

end Verif.PolyExp
