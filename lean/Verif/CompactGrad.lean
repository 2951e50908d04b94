import Verif.CompactProps
import Verif.AmpDeriv
import Mathlib.Analysis.Complex.RealDeriv

/-!
# The compact diagonal strategy: the backward pass (math/lattice/strategies/compactFock/diagonal_grad.py, C80)
-/

namespace Verif.Compact
open Verif.Fock Verif.FastDiag

/-- The entries of the arrays `arr..._dA` and `arr..._dB`: one matrix and one vector each (diagonal_grad.py 290-299). -/
abbrev Grad : Type := (ℕ → ℕ → ℂ) × (ℕ → ℂ)

/-- `calc_dA_dB` (diagonal_grad.py 18-37), with `G_in` multiplied by `K_l` as its callers do (116, 236). -/
noncomputable def calcGrad (A : ℕ → ℕ → ℂ) (B : ℕ → ℂ) (M : ℕ) (pivot : ℕ → ℕ) (val : ℂ) (valG : Grad) (Gin : ℕ → ℂ) (GinG : ℕ → Grad) (i : ℕ) : Grad :=
  (fun x y => (valG.1 x y * B i + ∑ l ∈ Finset.range (2 * M), Fock.sq (pivot l) * A i l * (GinG l).1 x y + if x = i ∧ y < 2 * M then Fock.sq (pivot y) * Gin y else 0) / Fock.sq (pivot i + 1),
   fun x => (valG.2 x * B i + (if x = i then val else 0) + ∑ l ∈ Finset.range (2 * M), Fock.sq (pivot l) * A i l * (GinG l).2 x) / Fock.sq (pivot i + 1))

/-- `use_diag_pivot_grad` (diagonal_grad.py 200-257); `F` are the arrays of amplitudes kept by the forward pass. -/
noncomputable def diagNextGrad (A : ℕ → ℕ → ℂ) (B : ℕ → ℂ) (M : ℕ) (F : Arrs ℂ) (p : List ℕ) (st : Arrs Grad) (i : ℕ) : Grad :=
  calcGrad A B M (twice p) (F.a0 p) (st.a0 p) (readDiag F p) (readDiag st p) i
/-- `use_offDiag_pivot_grad` (diagonal_grad.py 40-197). -/
noncomputable def offNextGrad (A : ℕ → ℕ → ℂ) (B : ℕ → ℂ) (M : ℕ) (F : Arrs ℂ) (p : List ℕ) (d : ℕ) (st : Arrs Grad) (i : ℕ) : Grad :=
  calcGrad A B M (twiceOff p d) (F.a1 (2 * d) p) (st.a1 (2 * d) p) (readOff M F p d) (readOff M st p d) i

/-- `fock_representation_diagonal_grad` (diagonal_grad.py 260-378): all arrays of derivatives start at zero. -/
noncomputable def grads (A : ℕ → ℕ → ℂ) (B : ℕ → ℂ) (cut : List ℕ) (F : Arrs ℂ) : Arrs Grad :=
  sweep cut (diagNextGrad A B cut.length F) (offNextGrad A B cut.length F) (initArrs cut.length 0)

/-- `hermite_renormalized_diagonal_jax_bwd` (jax_vjps/hermite.py 292-329, inputValidation.py 82-100), for one column of `B`: the cotangents of `A`, `B` and `C`
for the cotangent `g` of the array. -/
noncomputable def backward (A : ℕ → ℕ → ℂ) (B : ℕ → ℂ) (c : ℂ) (cut : List ℕ) (F : Arrs ℂ) (g : List ℕ → ℂ) : Grad × ℂ :=
  let G := grads A B cut F
  let ix := prodL (cut.map List.range)
  ((fun x y => (ix.map fun p => g p * (G.a0 p).1 x y).sum, fun x => (ix.map fun p => g p * (G.a0 p).2 x).sum), (ix.map fun p => g p * (F.a0 p / c)).sum)

/-- The derivative in the direction `(H, β)` predicted by a gradient. -/
noncomputable def Grad.dir (G : Grad) (D : ℕ) (H : ℕ → ℕ → ℂ) (β : ℕ → ℂ) : ℂ :=
  ∑ x ∈ Finset.range D, ∑ y ∈ Finset.range D, G.1 x y * H x y + ∑ x ∈ Finset.range D, G.2 x * β x

/-- A gradient predicts the derivative of the amplitude `k` in all symmetric directions. -/
def IsGrad (A : ℕ → ℕ → ℂ) (B : ℕ → ℂ) (c : ℂ) (D : ℕ) (k : ℕ →₀ ℕ) (G : Grad) : Prop :=
  ∀ H β, Symm D H → G.dir D H β = mulQ D H β (amp D A B c) k

theorem calcGrad_dir {A : ℕ → ℕ → ℂ} {B : ℕ → ℂ} {M : ℕ} {pivot : ℕ → ℕ} {val : ℂ} {valG : Grad} {Gin : ℕ → ℂ} {GinG : ℕ → Grad} {i : ℕ} (hi : i < 2 * M) (H : ℕ → ℕ → ℂ) (β : ℕ → ℂ) :
    Fock.sq (pivot i + 1) * (calcGrad A B M pivot val valG Gin GinG i).dir (2 * M) H β =
      (β i * val + B i * valG.dir (2 * M) H β) + ∑ l ∈ Finset.range (2 * M), (H i l * (Fock.sq (pivot l) * Gin l) + A i l * (Fock.sq (pivot l) * (GinG l).dir (2 * M) H β)) := by
  have hs : Fock.sq (pivot i + 1) ≠ 0 := sq_ne_zero (by omega)
  have hd : ∀ a b : ℂ, Fock.sq (pivot i + 1) * (a / Fock.sq (pivot i + 1) * b) = a * b := fun a b => by field_simp
  unfold Grad.dir calcGrad
  simp only []
  rw [mul_add, Finset.mul_sum, Finset.mul_sum]
  simp only [Finset.mul_sum, hd, add_mul, Finset.sum_add_distrib, mul_add, Finset.sum_mul, ite_mul, zero_mul]
  have e1 : ∑ x ∈ Finset.range (2 * M), ∑ y ∈ Finset.range (2 * M), (if x = i ∧ y < 2 * M then Fock.sq (pivot y) * Gin y * H x y else 0) =
      ∑ y ∈ Finset.range (2 * M), H i y * (Fock.sq (pivot y) * Gin y) := by
    rw [Finset.sum_comm]
    refine Finset.sum_congr rfl fun y hy => ?_
    have hy := Finset.mem_range.1 hy
    simp only [hy, and_true]
    rw [Finset.sum_ite_eq', if_pos (Finset.mem_range.2 hi), mul_comm]
  have e2 : ∑ x ∈ Finset.range (2 * M), (if x = i then val * β x else 0) = β i * val := by
    rw [Finset.sum_ite_eq', if_pos (Finset.mem_range.2 hi), mul_comm]
  have e3 : ∑ x ∈ Finset.range (2 * M), ∑ y ∈ Finset.range (2 * M), ∑ l ∈ Finset.range (2 * M), Fock.sq (pivot l) * A i l * (GinG l).1 x y * H x y =
      ∑ l ∈ Finset.range (2 * M), ∑ x ∈ Finset.range (2 * M), ∑ y ∈ Finset.range (2 * M), A i l * (Fock.sq (pivot l) * ((GinG l).1 x y * H x y)) := by
    rw [Finset.sum_congr rfl fun x _ => Finset.sum_comm, Finset.sum_comm]
    exact Finset.sum_congr rfl fun l _ => Finset.sum_congr rfl fun x _ => Finset.sum_congr rfl fun y _ => by ring
  have e4 : ∑ x ∈ Finset.range (2 * M), ∑ l ∈ Finset.range (2 * M), Fock.sq (pivot l) * A i l * (GinG l).2 x * β x =
      ∑ l ∈ Finset.range (2 * M), ∑ x ∈ Finset.range (2 * M), A i l * (Fock.sq (pivot l) * ((GinG l).2 x * β x)) := by
    rw [Finset.sum_comm]
    refine Finset.sum_congr rfl fun l _ => Finset.sum_congr rfl fun x _ => by ring
  have e5 : ∑ x ∈ Finset.range (2 * M), ∑ y ∈ Finset.range (2 * M), valG.1 x y * B i * H x y = ∑ x ∈ Finset.range (2 * M), ∑ y ∈ Finset.range (2 * M), B i * (valG.1 x y * H x y) :=
    Finset.sum_congr rfl fun x _ => Finset.sum_congr rfl fun y _ => by ring
  have e6 : ∑ x ∈ Finset.range (2 * M), valG.2 x * B i * β x = ∑ x ∈ Finset.range (2 * M), B i * (valG.2 x * β x) :=
    Finset.sum_congr rfl fun x _ => by ring
  rw [e1, e2, e3, e4, e5, e6]
  ring

theorem calcGrad_ok {A : ℕ → ℕ → ℂ} {B : ℕ → ℂ} {c : ℂ} {M : ℕ} (hA : Symm (2 * M) A) {k : ℕ →₀ ℕ} {pivot : ℕ → ℕ} (hk : ∀ l, pivot l = k l) {val : ℂ} (hv : val = amp (2 * M) A B c k)
    {valG : Grad} (hvG : IsGrad A B c (2 * M) k valG) {Gin : ℕ → ℂ} (hG : ∀ l < 2 * M, 0 < k l → Gin l = amp (2 * M) A B c (dn k l)) {GinG : ℕ → Grad}
    (hGG : ∀ l < 2 * M, 0 < k l → IsGrad A B c (2 * M) (dn k l) (GinG l)) {i : ℕ} (hi : i < 2 * M) :
    IsGrad A B c (2 * M) (up k i) (calcGrad A B M pivot val valG Gin GinG i) := by
  intro H β hH
  have hs : Fock.sq (pivot i + 1) ≠ 0 := sq_ne_zero (by omega)
  have h := raise_mulQ_amp (A := A) (b := B) (A' := H) (b' := β) c hi k
  unfold Fock.raise at h
  refine mul_left_cancel₀ hs ?_
  rw [calcGrad_dir hi, hk i, h, hv, hvG H β hH]
  refine congrArg (_ + ·) (Finset.sum_congr rfl fun l hl => ?_)
  have hl := Finset.mem_range.1 hl
  rw [symA_of_symm hA hi hl, symA_of_symm hH hi hl, hk l]
  unfold low
  rcases Nat.eq_zero_or_pos (k l) with h0 | h0
  · rw [h0]; simp [Fock.sq]
  · rw [hG l hl h0, hGG l hl h0 H β hH]

/-- Every entry of the array of derivatives is the gradient of the amplitude. -/
theorem grads_a0 (A : ℕ → ℕ → ℂ) (B : ℕ → ℂ) (c : ℂ) (cut : List ℕ) (hA : Symm (2 * cut.length) A) {p : List ℕ} (hp : InBox cut p) :
    IsGrad A B c (2 * cut.length) (P p) ((grads A B cut (amps A B c cut)).a0 p) := by
  obtain ⟨D, E, hG, hF⟩ := sweep_good (diagStep_amps (B := B) (c := c) hA) (offStep_amps (B := B) (c := c) hA) (amp_zero (D := 2 * cut.length) (A := A) (b := B) c).symm
  have hG : Good (fun k v => v = amp (2 * cut.length) A B c k) cut (amps A B c cut) D E := hG
  refine sweep_a0 (R := IsGrad A B c (2 * cut.length)) ?_ ?_ ?_ hp
  · intro q st hq hc h0 hr i hi
    exact calcGrad_ok hA (fun l => by rw [P_apply]; rfl) (good_a0 hG (hF _) hq) h0 (fun l hl h => readDiag_ok hG (hF _) hq hc hl (by rwa [P_apply] at h))
      (fun l hl h => hr l hl (by rwa [P_apply] at h)) hi
  · intro q d st hq hd hc h0 hr i hi
    exact calcGrad_ok hA (fun l => by rw [up_apply, P_apply]; rfl)
      (pivotOff_ok hG (fun h => (hF (q.sum + 1)).d q hq (by omega) h) hq hd hc) h0 (fun l hl h => readOff_ok hG (hF _) hq hd hc hl h) hr hi
  · intro H β _
    unfold Grad.dir mulQ low
    simp [Fock.sq]

variable {𝕜 : Type*} [NontriviallyNormedField 𝕜] [NormedAlgebra 𝕜 ℂ]

theorem hasDeriv_listSum {ι : Type} (L : List ι) {f : ι → 𝕜 → ℂ} {f' : ι → ℂ} {t : 𝕜} (h : ∀ p ∈ L, HasDerivAt (f p) (f' p) t) :
    HasDerivAt (fun t => (L.map fun p => f p t).sum) (L.map f').sum t := by
  induction L with
  | nil => simpa using hasDerivAt_const t (0 : ℂ)
  | cons p L ih =>
    simp only [List.map_cons, List.sum_cons]
    exact (h p (by simp)).add (ih fun q hq => h q (by simp [hq]))

theorem mem_box {cut p : List ℕ} : p ∈ prodL (cut.map List.range) ↔ InBox cut p := by
  have h := mem_dictParams cut p.sum p
  unfold dictParams at h
  rw [List.mem_filter] at h
  simpa using h

theorem listSum_dir {ι : Type} (L : List ι) (g : ι → ℂ) (G : ι → Grad) (D : ℕ) (H : ℕ → ℕ → ℂ) (β : ℕ → ℂ) :
    Grad.dir (fun x y => (L.map fun p => g p * (G p).1 x y).sum, fun x => (L.map fun p => g p * (G p).2 x).sum) D H β = (L.map fun p => g p * (G p).dir D H β).sum := by
  induction L with
  | nil => simp [Grad.dir]
  | cons p L ih =>
    rw [List.map_cons, List.sum_cons, ← ih]
    unfold Grad.dir
    simp only [List.map_cons, List.sum_cons, add_mul, Finset.sum_add_distrib, mul_add, Finset.mul_sum, mul_assoc]
    ring

/-- **C80** The backward pass of the diagonal is the gradient: along every differentiable family of triples with symmetric `A` and for every cotangent `g`, the derivative of
`Σ_p g_p · out_p` is `Σ dLdA A' + Σ dLdB B' + dLdC C'`. (`A`, `B` in the order of the strategy, that is after `reorder_AB_bargmann`.) -/
theorem C80_diagonal_backward (A : 𝕜 → ℕ → ℕ → ℂ) (B : 𝕜 → ℕ → ℂ) (c : 𝕜 → ℂ) (A' : ℕ → ℕ → ℂ) (B' : ℕ → ℂ) (c' : ℂ) (t₀ : 𝕜) (cut : List ℕ) (g : List ℕ → ℂ)
    (hsym : ∀ t, Symm (2 * cut.length) (A t)) (hc0 : c t₀ ≠ 0) (hA : ∀ i < 2 * cut.length, ∀ j < 2 * cut.length, HasDerivAt (fun t => A t i j) (A' i j) t₀)
    (hB : ∀ i < 2 * cut.length, HasDerivAt (fun t => B t i) (B' i) t₀) (hc : HasDerivAt c c' t₀) :
    let grad := backward (A t₀) (B t₀) (c t₀) cut (amps (A t₀) (B t₀) (c t₀) cut) g
    HasDerivAt (fun t => ((prodL (cut.map List.range)).map fun p => g p * (amps (A t) (B t) (c t) cut).a0 p).sum)
      (∑ i ∈ Finset.range (2 * cut.length), ∑ j ∈ Finset.range (2 * cut.length), grad.1.1 i j * A' i j + ∑ i ∈ Finset.range (2 * cut.length), grad.1.2 i * B' i + grad.2 * c') t₀ := by
  intro grad
  have hA's : Symm (2 * cut.length) A' := fun i hi j hj => by
    refine (hA i hi j hj).unique ?_
    have : (fun t => A t i j) = fun t => A t j i := funext fun t => hsym t i hi j hj
    rw [this]
    exact hA j hj i hi
  have key : ∀ p ∈ prodL (cut.map List.range), HasDerivAt (fun t => g p * (amps (A t) (B t) (c t) cut).a0 p)
      (g p * ((grads (A t₀) (B t₀) cut (amps (A t₀) (B t₀) (c t₀) cut)).a0 p).dir (2 * cut.length) A' B' + c' * (g p * ((amps (A t₀) (B t₀) (c t₀) cut).a0 p / c t₀))) t₀ := by
    intro p hp
    have hp := mem_box.1 hp
    have hB : Below (2 * cut.length) (P p) := fun i hi => by
      rw [P_apply, List.getD_eq_default _ _ (by rw [hp.1]; omega)]
    have h := (hasDeriv_amp hA ‹_› hc (P p) hB).const_mul (g p)
    simp only [fun t => amps_a0 (A t) (B t) (c t) cut (hsym t) hp]
    refine h.congr_deriv ?_
    rw [grads_a0 _ _ _ _ (hsym t₀) hp A' B' hA's, amp_smul _ _ _ (c t₀)]
    field_simp
  refine (hasDeriv_listSum _ key).congr_deriv ?_
  rw [List.sum_map_add, ← listSum_dir, List.sum_map_mul_left, mul_comm c']
  rfl

end Verif.Compact
