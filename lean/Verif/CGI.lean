import Verif.PolyExpAnd
import Verif.GaussComplex

/-!
# Model of `complex_gaussian_integral_1` and `PolyExpAnsatz.trace`

The formula of the code is shown to be the actual integral over `ℂ^m` (C48), derived variables included.
-/

namespace Verif.PolyExp
open Verif.Fock Verif.Batch Verif.Gauss PolyExp MeasureTheory

/-- physics/gaussian_integrals.py:467 `idx = idx_z + idx_zconj`: position in the list of variables of the `p`-th integrated
variable (`inl`: in `idx_z`, `inr`: in `idx_zconj`). -/
def pos (zi zc : List ℕ) : Fin zi.length ⊕ Fin zi.length → ℕ := Sum.elim (fun i => zi.getD i 0) (fun i => zc.getD i 0)

/-- physics/gaussian_integrals.py:477-486: `M = A[idx, idx] + X * measure`, `X = [[0, 1], [1, 0]]`. -/
noncomputable def gM (A : ℕ → ℕ → ℂ) (zi zc : List ℕ) (s : ℝ) : Matrix (Fin zi.length ⊕ Fin zi.length) (Fin zi.length ⊕ Fin zi.length) ℂ :=
  Matrix.of (fun p q => A (pos zi zc p) (pos zi zc q)) + (s : ℂ) • Matrix.fromBlocks 0 1 1 0

/-- What `complex_gaussian_integral_1` returns: arrays, or arrays filled with infinity. -/
inductive Res
  | infinite
  | finite (f : PolyExp)

/-- physics/gaussian_integrals.py:476 `not_idx`. -/
def notIdx (N : ℕ) (zi zc : List ℕ) : List ℕ := (List.range N).filter (· ∉ zi ++ zc)

/-- physics/gaussian_integrals.py:353-389 `true_branch_complex_gaussian_integral_1` (with 487-489: `D`, `R`, `bR`).
`math.inv` and `math.solve` are exact; `√` is the principal square root. -/
noncomputable def cgiTrue (f : PolyExp) (zi zc : List ℕ) (s : ℝ) : PolyExp :=
  let r := notIdx f.N zi zc
  let P := pos zi zc
  let M (β : List ℕ) := gM (f.A β) zi zc s
  let bM (β : List ℕ) : Fin zi.length ⊕ Fin zi.length → ℂ := fun p => f.b β (P p)
  let Dr (β : List ℕ) (i : ℕ) : Fin zi.length ⊕ Fin zi.length → ℂ := fun p => f.A β (r.getD i 0) (P p)
  { batch := f.batch
    linSup := f.linSup
    N := r.length
    A := fun β i j => f.A β (r.getD i 0) (r.getD j 0) - ∑ p, ∑ q, Dr β i p * (M β)⁻¹ p q * Dr β j q
    b := fun β i => f.b β (r.getD i 0) - ∑ p, Dr β i p * ((M β)⁻¹.mulVec (bM β)) p
    derived := f.derived
    c := fun β k => f.c β k * ((((-1) ^ zi.length / (M β).det) ^ (1 / 2 : ℂ)) *
      Complex.exp (-(1 / 2) * ∑ p, bM β p * ((M β)⁻¹.mulVec (bM β)) p)) }

/-- physics/gaussian_integrals.py:413-504 `complex_gaussian_integral_1`.  `none`: ValueError.  All batch elements must have
`|det M| > 1e-12` (math/backend_numpy.py:228-237 `cond.all()`), otherwise every entry of the result is infinite (392-410).
Simplifications: `c` itself instead of its logarithm; negative indices are not modelled; the superposition flag, which the
function does not see, is carried along. -/
noncomputable def cgi1 (f : PolyExp) (zi zc : List ℕ) (s : ℝ) : Option Res :=
  open Classical in
  if zi.length ≠ zc.length then none
  else if (zi ++ zc).any (· ≥ f.numCV) then none
  else if zi ++ zc = [] then some (.finite f)
  else if ∀ β ∈ ndindex f.batch, ‖(gM (f.A β) zi zc s).det‖ > 1e-12 then some (.finite (cgiTrue f zi zc s))
  else some .infinite

/-- physics/ansatz/polyexp_ansatz.py:586-615 `PolyExpAnsatz.trace`. -/
noncomputable def PolyExp.trace (f : PolyExp) (zi zc : List ℕ) (s : ℝ) : Option Res :=
  if zi.length ≠ zc.length then none
  else if ¬ (zi ++ zc).Nodup then none
  else if zi.any (· ≥ f.numCV) || zc.any (· ≥ f.numCV) then none
  else cgi1 f zi zc s

/-! ### Specification -/

/-- `A` is symmetric. -/
def SymAll (f : PolyExp) : Prop := ∀ β, ∀ i < f.N, ∀ j < f.N, f.A β i j = f.A β j i

/-- The point `x` has the integrated variables equal to `w` (at the positions `zi`) and `w̄` (at the positions `zc`). -/
def Holds (zi zc : List ℕ) (w : Fin zi.length → ℂ) (x : ℕ → ℂ) : Prop :=
  (∀ i : Fin zi.length, x (zi.getD i 0) = w i) ∧ ∀ i : Fin zi.length, x (zc.getD i 0) = (starRingEnd ℂ) (w i)

/-- The integral of the term at `β` converges absolutely: the real part of the quadratic exponent, measure included, is negative
definite in the integrated variables. -/
def Conv (f : PolyExp) (β zi zc : List ℕ) (s : ℝ) : Prop :=
  ∀ w : Fin zi.length → ℂ, w ≠ 0 → ∀ x : ℕ → ℂ, Holds zi zc w x → (∀ j, j ∉ zi → j ∉ zc → x j = 0) →
    (1 / 2 * ∑ i ∈ Finset.range f.numCV, ∑ j ∈ Finset.range f.numCV, x i * x j * f.A β i j).re + s * ∑ i, ‖w i‖ ^ 2 < 0

/-! ### Splitting sums -/

theorem sum_pos (zi zc : List ℕ) (hl : zi.length = zc.length) (F : ℕ → ℂ) :
    ∑ p, F (pos zi zc p) = ((zi ++ zc).map F).sum := by
  rw [Fintype.sum_sum_type, List.map_append, List.sum_append, ← sum_getD, ← sum_getD]
  refine congr (congrArg HAdd.hAdd ?_) ?_
  · exact Fin.sum_univ_eq_sum_range (fun i => F (zi.getD i 0)) zi.length
  · rw [← hl]
    exact Fin.sum_univ_eq_sum_range (fun i => F (zc.getD i 0)) zi.length

theorem pos_mem {zi zc : List ℕ} (hl : zi.length = zc.length) (p) : pos zi zc p ∈ zi ++ zc := by
  rcases p with i | i
  · simp only [pos, Sum.elim_inl, List.mem_append]
    left
    rw [List.getD_eq_getElem?_getD, List.getElem?_eq_getElem i.2]; exact List.getElem_mem i.2
  · simp only [pos, Sum.elim_inr, List.mem_append]
    right
    have hi : (i : ℕ) < zc.length := hl ▸ i.2
    rw [List.getD_eq_getElem?_getD, List.getElem?_eq_getElem hi]; exact List.getElem_mem hi

theorem pos_inj {zi zc : List ℕ} (hl : zi.length = zc.length) (hn : (zi ++ zc).Nodup) : Function.Injective (pos zi zc) := by
  rw [List.nodup_append] at hn
  obtain ⟨h1, h2, h3⟩ := hn
  have g1 : ∀ i : Fin zi.length, zi.getD i 0 = zi[(i : ℕ)] := fun i => by
    rw [List.getD_eq_getElem?_getD, List.getElem?_eq_getElem i.2]; rfl
  have g2 : ∀ i : Fin zi.length, zc.getD i 0 = zc[(i : ℕ)]'(hl ▸ i.2) := fun i => by
    rw [List.getD_eq_getElem?_getD, List.getElem?_eq_getElem (hl ▸ i.2)]; rfl
  intro p q hpq
  rcases p with i | i <;> rcases q with j | j <;> simp only [pos, Sum.elim_inl, Sum.elim_inr, g1, g2] at hpq
  · rw [h1.getElem_inj_iff] at hpq; rw [Fin.ext hpq]
  · exact absurd hpq (h3 _ (List.getElem_mem _) _ (List.getElem_mem _))
  · exact absurd hpq.symm (h3 _ (List.getElem_mem _) _ (List.getElem_mem _))
  · rw [h2.getElem_inj_iff] at hpq; rw [Fin.ext hpq]

/-- Remaining continuous variables. -/
def remCV (n : ℕ) (zi zc : List ℕ) : List ℕ := (List.range n).filter (· ∉ zi ++ zc)

theorem sum_split {n : ℕ} {zi zc : List ℕ} (hl : zi.length = zc.length) (hn : (zi ++ zc).Nodup) (hlt : ∀ i ∈ zi ++ zc, i < n) (F : ℕ → ℂ) :
    ∑ i ∈ Finset.range n, F i = ∑ p, F (pos zi zc p) + ∑ x ∈ Finset.range (remCV n zi zc).length, F ((remCV n zi zc).getD x 0) := by
  rw [sum_pos _ _ hl, sum_getD, ← List.sum_append, ← List.map_append]
  exact (sum_perm (perm_split hn hlt) F).symm

theorem notIdx_eq {n d N : ℕ} {zi zc : List ℕ} (hN : n + d = N) (hlt : ∀ i ∈ zi ++ zc, i < n) :
    notIdx N zi zc = remCV n zi zc ++ List.range' n d := by
  unfold notIdx remCV
  rw [← hN, show List.range (n + d) = List.range n ++ List.range' n d by
    rw [List.range_eq_range', List.range_eq_range', ← List.range'_append_1, Nat.zero_add], List.filter_append]
  congr 1
  rw [List.filter_eq_self]
  intro a ha
  rw [List.mem_range'] at ha
  obtain ⟨i, _, rfl⟩ := ha
  simp only [decide_eq_true_eq]
  intro h
  have := hlt _ h
  omega

theorem remCV_lt {n : ℕ} {zi zc : List ℕ} {x : ℕ} (hx : x < (remCV n zi zc).length) : (remCV n zi zc).getD x 0 < n := by
  have : (remCV n zi zc).getD x 0 ∈ remCV n zi zc := by
    rw [List.getD_eq_getElem?_getD, List.getElem?_eq_getElem hx]; exact List.getElem_mem hx
  unfold remCV at this
  rw [List.mem_filter, List.mem_range] at this
  exact this.1

theorem remCV_notMem {n : ℕ} {zi zc : List ℕ} {x : ℕ} (hx : x < (remCV n zi zc).length) : (remCV n zi zc).getD x 0 ∉ zi ++ zc := by
  have : (remCV n zi zc).getD x 0 ∈ remCV n zi zc := by
    rw [List.getD_eq_getElem?_getD, List.getElem?_eq_getElem hx]; exact List.getElem_mem hx
  have h2 : ∀ a ∈ remCV n zi zc, a ∉ zi ++ zc := by
    intro a ha
    unfold remCV at ha
    rw [List.mem_filter] at ha
    exact of_decide_eq_true ha.2
  exact h2 _ this

theorem Holds.pos {zi zc : List ℕ} {w : Fin zi.length → ℂ} {x : ℕ → ℂ} (h : Holds zi zc w x) (p) : x (pos zi zc p) = pair w p := by
  rcases p with i | i
  · exact h.1 i
  · exact h.2 i

theorem measure_quad {m : ℕ} (w : Fin m → ℂ) :
    ∑ p, ∑ q, (Matrix.fromBlocks 0 1 1 0 : Matrix (Fin m ⊕ Fin m) (Fin m ⊕ Fin m) ℂ) p q * pair w p * pair w q = 2 * ((∑ i, ‖w i‖ ^ 2 : ℝ) : ℂ) := by
  have e : ∀ i, w i * (starRingEnd ℂ) (w i) = ((‖w i‖ ^ 2 : ℝ) : ℂ) := fun i => by
    rw [Complex.mul_conj, Complex.normSq_eq_norm_sq]
  simp only [Fintype.sum_sum_type, Matrix.fromBlocks_apply₁₁, Matrix.fromBlocks_apply₁₂, Matrix.fromBlocks_apply₂₁, Matrix.fromBlocks_apply₂₂,
    Matrix.zero_apply, zero_mul, Finset.sum_const_zero, zero_add, add_zero, Matrix.one_apply, ite_mul, one_mul, Finset.sum_ite_eq, Finset.mem_univ, if_true,
    pair, Sum.elim_inl, Sum.elim_inr]
  rw [Complex.ofReal_sum, two_mul]
  refine congr (congrArg HAdd.hAdd ?_) ?_
  · exact Finset.sum_congr rfl fun i _ => e i
  · exact Finset.sum_congr rfl fun i _ => by rw [mul_comm]; exact e i

theorem gM_quad (A : ℕ → ℕ → ℂ) (zi zc : List ℕ) (s : ℝ) (w : Fin zi.length → ℂ) :
    ∑ p, ∑ q, gM A zi zc s p q * pair w p * pair w q =
      ∑ p, ∑ q, A (pos zi zc p) (pos zi zc q) * pair w p * pair w q + 2 * ((s * ∑ i, ‖w i‖ ^ 2 : ℝ) : ℂ) := by
  have e : ∀ p q, gM A zi zc s p q * pair w p * pair w q = A (pos zi zc p) (pos zi zc q) * pair w p * pair w q +
      s * ((Matrix.fromBlocks 0 1 1 0 : Matrix (Fin zi.length ⊕ Fin zi.length) (Fin zi.length ⊕ Fin zi.length) ℂ) p q * pair w p * pair w q) := by
    intro p q
    simp only [gM, Matrix.add_apply, Matrix.of_apply, Matrix.smul_apply, smul_eq_mul]
    ring
  simp only [e, Finset.sum_add_distrib, ← Finset.mul_sum]
  rw [measure_quad]
  push_cast
  ring

/-- The exponent as a function of the integrated variables. -/
theorem exponent_split {n : ℕ} {A : ℕ → ℕ → ℂ} {b : ℕ → ℂ} {zi zc : List ℕ} (s : ℝ) (hl : zi.length = zc.length) (hn : (zi ++ zc).Nodup)
    (hlt : ∀ i ∈ zi ++ zc, i < n) (hs : ∀ i < n, ∀ j < n, A i j = A j i) {w : Fin zi.length → ℂ} {x y : ℕ → ℂ} (hw : Holds zi zc w x)
    (hy : ∀ i < (remCV n zi zc).length, x ((remCV n zi zc).getD i 0) = y i) :
    (1 / 2 * ∑ i ∈ Finset.range n, ∑ j ∈ Finset.range n, x i * x j * A i j + ∑ i ∈ Finset.range n, x i * b i) + ((s * ∑ i, ‖w i‖ ^ 2 : ℝ) : ℂ) =
      (1 / 2 * ∑ i ∈ Finset.range (remCV n zi zc).length, ∑ j ∈ Finset.range (remCV n zi zc).length,
          y i * y j * A ((remCV n zi zc).getD i 0) ((remCV n zi zc).getD j 0) +
        ∑ i ∈ Finset.range (remCV n zi zc).length, y i * b ((remCV n zi zc).getD i 0)) +
      cform (gM A zi zc s) (fun p => b (pos zi zc p) +
        ∑ i ∈ Finset.range (remCV n zi zc).length, y i * A ((remCV n zi zc).getD i 0) (pos zi zc p)) w := by
  set R := (remCV n zi zc).length with hR
  set r := remCV n zi zc with hr
  have hpl : ∀ p, pos zi zc p < n := fun p => hlt _ (pos_mem hl p)
  have hrl : ∀ i < R, r.getD i 0 < n := fun i hi => remCV_lt hi
  unfold cform
  rw [gM_quad]
  have q1 : ∑ i ∈ Finset.range n, ∑ j ∈ Finset.range n, x i * x j * A i j =
      ∑ p, ∑ q, A (pos zi zc p) (pos zi zc q) * pair w p * pair w q +
      2 * ∑ p, (∑ i ∈ Finset.range R, y i * A (r.getD i 0) (pos zi zc p)) * pair w p +
      ∑ i ∈ Finset.range R, ∑ j ∈ Finset.range R, y i * y j * A (r.getD i 0) (r.getD j 0) := by
    rw [sum_split hl hn hlt]
    simp only [sum_split hl hn hlt, Finset.sum_add_distrib]
    have a1 : ∑ p, ∑ q, x (pos zi zc p) * x (pos zi zc q) * A (pos zi zc p) (pos zi zc q) =
        ∑ p, ∑ q, A (pos zi zc p) (pos zi zc q) * pair w p * pair w q := by
      refine Finset.sum_congr rfl fun p _ => Finset.sum_congr rfl fun q _ => ?_
      rw [hw.pos, hw.pos]; ring
    have a2 : ∑ p, ∑ i ∈ Finset.range R, x (pos zi zc p) * x (r.getD i 0) * A (pos zi zc p) (r.getD i 0) =
        ∑ p, (∑ i ∈ Finset.range R, y i * A (r.getD i 0) (pos zi zc p)) * pair w p := by
      refine Finset.sum_congr rfl fun p _ => ?_
      rw [Finset.sum_mul]
      refine Finset.sum_congr rfl fun i hi => ?_
      have hi := Finset.mem_range.1 hi
      rw [hw.pos, hy i hi, hs _ (hpl p) _ (hrl i hi)]; ring
    have a3 : ∑ i ∈ Finset.range R, ∑ p, x (r.getD i 0) * x (pos zi zc p) * A (r.getD i 0) (pos zi zc p) =
        ∑ p, (∑ i ∈ Finset.range R, y i * A (r.getD i 0) (pos zi zc p)) * pair w p := by
      rw [Finset.sum_comm]
      refine Finset.sum_congr rfl fun p _ => ?_
      rw [Finset.sum_mul]
      refine Finset.sum_congr rfl fun i hi => ?_
      have hi := Finset.mem_range.1 hi
      rw [hw.pos, hy i hi]; ring
    have a4 : ∑ i ∈ Finset.range R, ∑ j ∈ Finset.range R, x (r.getD i 0) * x (r.getD j 0) * A (r.getD i 0) (r.getD j 0) =
        ∑ i ∈ Finset.range R, ∑ j ∈ Finset.range R, y i * y j * A (r.getD i 0) (r.getD j 0) := by
      refine Finset.sum_congr rfl fun i hi => Finset.sum_congr rfl fun j hj => ?_
      rw [hy i (Finset.mem_range.1 hi), hy j (Finset.mem_range.1 hj)]
    rw [a1, a2, a3, a4]; ring
  have q2 : ∑ i ∈ Finset.range n, x i * b i = ∑ p, b (pos zi zc p) * pair w p + ∑ i ∈ Finset.range R, y i * b (r.getD i 0) := by
    rw [sum_split hl hn hlt]
    refine congr (congrArg HAdd.hAdd ?_) ?_
    · refine Finset.sum_congr rfl fun p _ => ?_
      rw [hw.pos]; ring
    · refine Finset.sum_congr rfl fun i hi => ?_
      rw [hy i (Finset.mem_range.1 hi)]
  rw [q1, q2]
  simp only [add_mul, Finset.sum_add_distrib]
  ring

theorem gM_symm {n : ℕ} {A : ℕ → ℕ → ℂ} {zi zc : List ℕ} (s : ℝ) (hl : zi.length = zc.length)
    (hlt : ∀ i ∈ zi ++ zc, i < n) (hs : ∀ i < n, ∀ j < n, A i j = A j i) (p q) : gM A zi zc s p q = gM A zi zc s q p := by
  have hpl : ∀ p, pos zi zc p < n := fun p => hlt _ (pos_mem hl p)
  simp only [gM, Matrix.add_apply, Matrix.of_apply, Matrix.smul_apply]
  rw [hs _ (hpl p) _ (hpl q)]
  congr 2
  rcases p with i | i <;> rcases q with j | j <;> simp [Matrix.one_apply, eq_comm]

theorem Conv.neg {f : PolyExp} {β zi zc : List ℕ} {s : ℝ} (h : Conv f β zi zc s) (hl : zi.length = zc.length) (hn : (zi ++ zc).Nodup)
    (hlt : ∀ i ∈ zi ++ zc, i < f.numCV) (hs : SymAll f) : NegRe (gM (f.A β) zi zc s) := by
  classical
  intro w hw
  let x : ℕ → ℂ := fun j => if hp : ∃ p, pos zi zc p = j then pair w hp.choose else 0
  have hx : ∀ p, x (pos zi zc p) = pair w p := by
    intro p
    have hp : ∃ q, pos zi zc q = pos zi zc p := ⟨p, rfl⟩
    simp only [x, dif_pos hp]
    rw [pos_inj hl hn hp.choose_spec]
  have hH : Holds zi zc w x := ⟨fun i => hx (Sum.inl i), fun i => hx (Sum.inr i)⟩
  have hx0 : ∀ j, j ∉ zi → j ∉ zc → x j = 0 := by
    intro j h1 h2
    have : ¬ ∃ p, pos zi zc p = j := by
      rintro ⟨p, rfl⟩
      have := pos_mem hl p
      rw [List.mem_append] at this
      tauto
    simp only [x, dif_neg this]
  have h1 := h w hw x hH hx0
  have hN : f.numCV ≤ f.N := by unfold numCV; omega
  have key := exponent_split (n := f.numCV) (A := f.A β) (b := fun _ => 0) (y := fun _ => 0) s hl hn hlt
    (fun i hi j hj => hs β i (by omega) j (by omega)) hH (by
      intro i hi
      have h2 := remCV_notMem hi
      rw [List.mem_append] at h2
      push Not at h2
      exact hx0 _ h2.1 h2.2)
  simp only [mul_zero, zero_mul, Finset.sum_const_zero, add_zero, zero_add] at key
  unfold cform at key
  simp only [zero_mul, Finset.sum_const_zero, add_zero] at key
  have hre := congrArg Complex.re key
  rw [Complex.add_re, Complex.ofReal_re] at hre
  rw [hre, show (1 / 2 : ℂ) = ((1 / 2 : ℝ) : ℂ) by norm_num, Complex.re_ofReal_mul] at h1
  linarith

/-- The pairing `uᵀ M⁻¹ v`. -/
noncomputable def invB {κ : Type*} [Fintype κ] [DecidableEq κ] (M : Matrix κ κ ℂ) (u v : κ → ℂ) : ℂ := u ⬝ᵥ M⁻¹.mulVec v

section invB
variable {κ : Type*} [Fintype κ] [DecidableEq κ] {M : Matrix κ κ ℂ}

theorem invB_comm (hs : ∀ p q, M p q = M q p) (u v : κ → ℂ) : invB M u v = invB M v u := by
  have hT : M.transpose = M := by ext p q; exact hs q p
  unfold invB
  rw [Matrix.dotProduct_mulVec, dotProduct_comm, ← Matrix.mulVec_transpose, Matrix.transpose_nonsing_inv, hT]

theorem invB_add_left (u u' v : κ → ℂ) : invB M (fun p => u p + u' p) v = invB M u v + invB M u' v := add_dotProduct u u' _

theorem invB_add_right (u v v' : κ → ℂ) : invB M u (fun p => v p + v' p) = invB M u v + invB M u v' := by
  unfold invB
  rw [← dotProduct_add, ← Matrix.mulVec_add]; rfl

theorem invB_sum_left (R : ℕ) (y : ℕ → ℂ) (D : ℕ → κ → ℂ) (v : κ → ℂ) :
    invB M (fun p => ∑ i ∈ Finset.range R, y i * D i p) v = ∑ i ∈ Finset.range R, y i * invB M (D i) v := by
  unfold invB
  simp only [dotProduct, Finset.sum_mul, Finset.mul_sum]
  rw [Finset.sum_comm]
  refine Finset.sum_congr rfl fun i _ => Finset.sum_congr rfl fun p _ => ?_
  ring

theorem invB_sum_right (hs : ∀ p q, M p q = M q p) (R : ℕ) (y : ℕ → ℂ) (D : ℕ → κ → ℂ) (v : κ → ℂ) :
    invB M v (fun p => ∑ i ∈ Finset.range R, y i * D i p) = ∑ i ∈ Finset.range R, y i * invB M v (D i) := by
  rw [invB_comm hs, invB_sum_left]
  refine Finset.sum_congr rfl fun i _ => ?_
  rw [invB_comm hs]

theorem invB_eq_sum (u v : κ → ℂ) : ∑ p, ∑ q, u p * M⁻¹ p q * v q = invB M u v := by
  unfold invB
  simp only [dotProduct, Matrix.mulVec, Finset.mul_sum]
  refine Finset.sum_congr rfl fun p _ => Finset.sum_congr rfl fun q _ => ?_
  ring

theorem invB_eq_dot (u v : κ → ℂ) : ∑ p, u p * (M⁻¹.mulVec v) p = invB M u v := rfl

end invB

theorem integral_nsum {α : Type*} [MeasureSpace α] (s : List ℕ) (F : List ℕ → α → ℂ) (hF : ∀ k, InB s k → Integrable (F k)) :
    Integrable (fun w => nsum s fun k => F k w) ∧ ∫ w, (nsum s fun k => F k w) = nsum s fun k => ∫ w, F k w := by
  have hF' : ∀ k ∈ ndindex s, Integrable (F k) := fun k hk => hF k (mem_ndindex.1 hk)
  unfold nsum
  generalize ndindex s = l at hF'
  induction l with
  | nil => simp
  | cons a l ih =>
    obtain ⟨h1, h2⟩ := ih fun k hk => hF' k (List.mem_cons_of_mem _ hk)
    have ha := hF' a List.mem_cons_self
    simp only [List.map_cons, List.sum_cons]
    exact ⟨ha.add h1, by rw [integral_add ha h1, h2]⟩

theorem InB.length {s k : List ℕ} (h : InB s k) : k.length = s.length := List.Forall₂.length_eq h

theorem gM_card (zi : List ℕ) : Fintype.card (Fin zi.length) = zi.length := Fintype.card_fin _

/-- The result of the formula, in closed form. -/
theorem cgiTrue_term {f : PolyExp} (hf : f.WF) (hs : SymAll f) {β zi zc : List ℕ} {s : ℝ} (hl : zi.length = zc.length)
    (hlt : ∀ i ∈ zi ++ zc, i < f.numCV) (y : ℕ → ℂ) {r : List ℕ} (hr : r = remCV f.numCV zi zc)
    {M : Matrix (Fin zi.length ⊕ Fin zi.length) (Fin zi.length ⊕ Fin zi.length) ℂ} (hM : M = gM (f.A β) zi zc s)
    {Dv E : ℕ → Fin zi.length ⊕ Fin zi.length → ℂ} {bY : Fin zi.length ⊕ Fin zi.length → ℂ} {a0 : ℕ → ℂ} {K : ℂ}
    (hDv : Dv = fun i p => f.A β (r.getD i 0) (pos zi zc p)) (hEv : E = fun j p => f.A β (f.numCV + j) (pos zi zc p))
    (hbY : bY = fun p => f.b β (pos zi zc p) + ∑ i ∈ Finset.range r.length, y i * Dv i p)
    (ha0 : a0 = fun j => ∑ x ∈ Finset.range r.length, f.A β (r.getD x 0) (f.numCV + j) * y x + f.b β (f.numCV + j))
    (hK : K = 1 / 2 * ∑ i ∈ Finset.range r.length, ∑ j ∈ Finset.range r.length, y i * y j * f.A β (r.getD i 0) (r.getD j 0) +
      ∑ i ∈ Finset.range r.length, y i * f.b β (r.getD i 0)) :
    (cgiTrue f zi zc s).termAt β y = nsum f.derived fun k =>
      Complex.exp (K + -(1 / 2) * invB M bY bY) * (f.c β k * ((-1) ^ zi.length / M.det) ^ (1 / 2 : ℂ)) *
        amp f.derived.length (fun i j => f.A β (f.numCV + i) (f.numCV + j) - invB M (E i) (E j)) (fun j => a0 j - invB M (E j) bY) 1 (toF k) := by
  subst hK ha0 hbY hDv hEv hr
  set n := f.numCV with hnn
  set d := f.derived.length with hd
  have hNd : n + d = f.N := by have := hf.der; simp only [hnn, hd, numCV]; omega
  have hnN : n ≤ f.N := by omega
  set r := remCV n zi zc with hr
  set A := f.A β with hA
  set b := f.b β with hb
  have hsA : ∀ i < f.N, ∀ j < f.N, A i j = A j i := fun i hi j hj => hs β i hi j hj
  have hMs : ∀ p q, M p q = M q p := hM ▸ gM_symm s hl hlt (fun i hi j hj => hsA i (by omega) j (by omega))
  let bM : Fin zi.length ⊕ Fin zi.length → ℂ := fun p => b (pos zi zc p)
  let Dv : ℕ → Fin zi.length ⊕ Fin zi.length → ℂ := fun i p => A (r.getD i 0) (pos zi zc p)
  let E : ℕ → Fin zi.length ⊕ Fin zi.length → ℂ := fun j p => A (n + j) (pos zi zc p)
  let bY : Fin zi.length ⊕ Fin zi.length → ℂ := fun p => bM p + ∑ i ∈ Finset.range r.length, y i * Dv i p
  let a0 : ℕ → ℂ := fun j => ∑ x ∈ Finset.range r.length, A (r.getD x 0) (n + j) * y x + b (n + j)
  let K : ℂ := 1 / 2 * ∑ i ∈ Finset.range r.length, ∑ j ∈ Finset.range r.length, y i * y j * A (r.getD i 0) (r.getD j 0) +
    ∑ i ∈ Finset.range r.length, y i * b (r.getD i 0)
  let Add : ℕ → ℕ → ℂ := fun i j => A (n + i) (n + j)
  change _ = nsum f.derived fun k => Complex.exp (K + -(1 / 2) * invB M bY bY) * (f.c β k * ((-1) ^ zi.length / M.det) ^ (1 / 2 : ℂ)) *
        amp d (fun i j => Add i j - invB M (E i) (E j)) (fun j => a0 j - invB M (E j) bY) 1 (toF k)
  subst hM
  set M := gM A zi zc s with hM
  -- left-hand side
  have hni : notIdx f.N zi zc = r ++ List.range' n d := notIdx_eq hNd hlt
  have hlen : (notIdx f.N zi zc).length = r.length + d := by rw [hni]; simp
  have rg : ∀ i < r.length, (notIdx f.N zi zc).getD i 0 = r.getD i 0 := by
    intro i hi
    rw [hni, List.getD_eq_getElem?_getD, List.getD_eq_getElem?_getD, List.getElem?_append_left hi]
  have rdd : ∀ i < d, (notIdx f.N zi zc).getD (r.length + i) 0 = n + i := by
    intro i hi
    rw [hni, List.getD_eq_getElem?_getD, List.getElem?_append_right (by omega), List.getElem?_range' (by omega)]
    simp
  have hcv : (cgiTrue f zi zc s).numCV = r.length := by
    simp only [numCV, cgiTrue, hlen]; omega
  unfold termAt termVal
  rw [hcv, ← nsum_mul_left]
  change nsum f.derived _ = _
  have hD : ∀ i < r.length, (fun p => f.A β ((notIdx f.N zi zc).getD i 0) (pos zi zc p)) = Dv i := by
    intro i hi; funext p; rw [rg i hi]
  have hE : ∀ i < d, (fun p => f.A β ((notIdx f.N zi zc).getD (r.length + i) 0) (pos zi zc p)) = E i := by
    intro i hi; funext p; rw [rdd i hi]
  have hexp : 1 / 2 * ∑ i ∈ Finset.range r.length, ∑ j ∈ Finset.range r.length, y i * y j * (cgiTrue f zi zc s).A β i j +
      ∑ i ∈ Finset.range r.length, y i * (cgiTrue f zi zc s).b β i + -(1 / 2) * invB M bM bM = K + -(1 / 2) * invB M bY bY := by
    have hA' : ∀ i < r.length, ∀ j < r.length, (cgiTrue f zi zc s).A β i j = A (r.getD i 0) (r.getD j 0) - invB M (Dv i) (Dv j) := by
      intro i hi j hj
      simp only [cgiTrue]
      rw [invB_eq_sum (u := fun p => f.A β ((notIdx f.N zi zc).getD i 0) (pos zi zc p)) (v := fun p => f.A β ((notIdx f.N zi zc).getD j 0) (pos zi zc p)),
        hD i hi, hD j hj, rg i hi, rg j hj]
    have hb' : ∀ i < r.length, (cgiTrue f zi zc s).b β i = b (r.getD i 0) - invB M (Dv i) bM := by
      intro i hi
      simp only [cgiTrue]
      rw [invB_eq_dot (u := fun p => f.A β ((notIdx f.N zi zc).getD i 0) (pos zi zc p)), hD i hi, rg i hi]
    have s1 : ∑ i ∈ Finset.range r.length, ∑ j ∈ Finset.range r.length, y i * y j * (cgiTrue f zi zc s).A β i j =
        ∑ i ∈ Finset.range r.length, ∑ j ∈ Finset.range r.length, y i * y j * A (r.getD i 0) (r.getD j 0) -
        ∑ i ∈ Finset.range r.length, ∑ j ∈ Finset.range r.length, y i * (y j * invB M (Dv i) (Dv j)) := by
      rw [← Finset.sum_sub_distrib]
      refine Finset.sum_congr rfl fun i hi => ?_
      rw [← Finset.sum_sub_distrib]
      refine Finset.sum_congr rfl fun j hj => ?_
      rw [hA' i (Finset.mem_range.1 hi) j (Finset.mem_range.1 hj)]; ring
    have s2 : ∑ i ∈ Finset.range r.length, y i * (cgiTrue f zi zc s).b β i =
        ∑ i ∈ Finset.range r.length, y i * b (r.getD i 0) - ∑ i ∈ Finset.range r.length, y i * invB M (Dv i) bM := by
      rw [← Finset.sum_sub_distrib]
      refine Finset.sum_congr rfl fun i hi => ?_
      rw [hb' i (Finset.mem_range.1 hi)]; ring
    have s3 : invB M bY bY = invB M bM bM + 2 * ∑ i ∈ Finset.range r.length, y i * invB M (Dv i) bM +
        ∑ i ∈ Finset.range r.length, ∑ j ∈ Finset.range r.length, y i * (y j * invB M (Dv i) (Dv j)) := by
      have h1 : invB M bY bY = invB M bM bM + invB M bM (fun p => ∑ i ∈ Finset.range r.length, y i * Dv i p) +
          (invB M (fun p => ∑ i ∈ Finset.range r.length, y i * Dv i p) bM +
            invB M (fun p => ∑ i ∈ Finset.range r.length, y i * Dv i p) (fun p => ∑ i ∈ Finset.range r.length, y i * Dv i p)) := by
        rw [← invB_add_right, ← invB_add_right, ← invB_add_left]
      rw [h1, invB_comm hMs bM (fun p => ∑ i ∈ Finset.range r.length, y i * Dv i p), invB_sum_left, invB_sum_left]
      have s4 : ∑ i ∈ Finset.range r.length, ∑ j ∈ Finset.range r.length, y i * (y j * invB M (Dv i) (Dv j)) =
          ∑ i ∈ Finset.range r.length, y i * ∑ j ∈ Finset.range r.length, y j * invB M (Dv i) (Dv j) := by
        simp only [Finset.mul_sum]
      rw [s4]
      simp only [invB_sum_right hMs]
      ring
    rw [s1, s2, s3]
    simp only [K]
    ring
  apply nsum_congr
  intro k _
  rw [← hexp, Complex.exp_add _ (-(1 / 2) * invB M bM bM)]
  have hamp : amp (cgiTrue f zi zc s).derived.length (fun i j => (cgiTrue f zi zc s).A β (r.length + i) (r.length + j))
      (fun j => ∑ a ∈ Finset.range r.length, (cgiTrue f zi zc s).A β a (r.length + j) * y a + (cgiTrue f zi zc s).b β (r.length + j)) 1 (toF k) =
      amp d (fun i j => Add i j - invB M (E i) (E j)) (fun j => a0 j - invB M (E j) bY) 1 (toF k) := by
    change amp d _ _ 1 (toF k) = _
    refine amp_congr _ (fun i hi j hj => ?_) (fun j hj => ?_) _
    · simp only [cgiTrue]
      rw [invB_eq_sum (u := fun p => f.A β ((notIdx f.N zi zc).getD (r.length + i) 0) (pos zi zc p))
        (v := fun p => f.A β ((notIdx f.N zi zc).getD (r.length + j) 0) (pos zi zc p)), hE i hi, hE j hj, rdd i hi, rdd j hj]
    · have c1 : ∑ x ∈ Finset.range r.length, (cgiTrue f zi zc s).A β x (r.length + j) * y x =
          ∑ x ∈ Finset.range r.length, A (r.getD x 0) (n + j) * y x - ∑ x ∈ Finset.range r.length, y x * invB M (E j) (Dv x) := by
        rw [← Finset.sum_sub_distrib]
        refine Finset.sum_congr rfl fun x hx => ?_
        have hx := Finset.mem_range.1 hx
        simp only [cgiTrue]
        rw [invB_eq_sum (u := fun p => f.A β ((notIdx f.N zi zc).getD x 0) (pos zi zc p))
          (v := fun p => f.A β ((notIdx f.N zi zc).getD (r.length + j) 0) (pos zi zc p)), hE j hj, hD x hx, rg x hx, rdd j hj, invB_comm hMs]
        ring
      have c2 : (cgiTrue f zi zc s).b β (r.length + j) = b (n + j) - invB M (E j) bM := by
        simp only [cgiTrue]
        rw [invB_eq_dot (u := fun p => f.A β ((notIdx f.N zi zc).getD (r.length + j) 0) (pos zi zc p)), hE j hj, rdd j hj]
      have c3 : invB M (E j) bY = invB M (E j) bM + ∑ x ∈ Finset.range r.length, y x * invB M (E j) (Dv x) := by
        rw [← invB_sum_right hMs, ← invB_add_right]
      rw [c1, c2, c3]
      simp only [a0]
      ring
  rw [hamp]
  change _ * (f.c β k * ((((-1) ^ zi.length / M.det) ^ (1 / 2 : ℂ)) * Complex.exp (-(1 / 2) * invB M bM bM)) * _) = _
  ring

theorem term_integral {f : PolyExp} (hf : f.WF) (hs : SymAll f) {β zi zc : List ℕ} {s : ℝ} (hl : zi.length = zc.length) (hn : (zi ++ zc).Nodup)
    (hlt : ∀ i ∈ zi ++ zc, i < f.numCV) (hneg : NegRe (gM (f.A β) zi zc s)) (ε : ℂ)
    (hε : ((-1) ^ zi.length / (gM (f.A β) zi zc s).det) ^ (1 / 2 : ℂ) = ε * gaussConst (gM (f.A β) zi zc s))
    (y : ℕ → ℂ) (W : (Fin zi.length → ℂ) → ℕ → ℂ) (hW : ∀ w, Holds zi zc w (W w))
    (hy : ∀ w, ∀ i < (remCV f.numCV zi zc).length, W w ((remCV f.numCV zi zc).getD i 0) = y i) :
    Integrable (fun w => f.termAt β (W w) * Complex.exp ((s * ∑ i, ‖w i‖ ^ 2 : ℝ) : ℂ)) ∧
    (cgiTrue f zi zc s).termAt β y =
      ε * (((Real.pi : ℂ) ^ zi.length)⁻¹ * ∫ w, f.termAt β (W w) * Complex.exp ((s * ∑ i, ‖w i‖ ^ 2 : ℝ) : ℂ)) := by
  set n := f.numCV with hnn
  set d := f.derived.length with hd
  have hNd : n + d = f.N := by have := hf.der; simp only [hnn, hd, numCV]; omega
  have hnN : n ≤ f.N := by omega
  set r := remCV n zi zc with hr
  set A := f.A β with hA
  set b := f.b β with hb
  set M := gM A zi zc s with hM
  have hsA : ∀ i < f.N, ∀ j < f.N, A i j = A j i := fun i hi j hj => hs β i hi j hj
  have hMs : ∀ p q, M p q = M q p := gM_symm s hl hlt (fun i hi j hj => hsA i (by omega) j (by omega))
  have hpl : ∀ p, pos zi zc p < n := fun p => hlt _ (pos_mem hl p)
  have hrl : ∀ i < r.length, r.getD i 0 < n := fun i hi => remCV_lt hi
  -- data
  let bM : Fin zi.length ⊕ Fin zi.length → ℂ := fun p => b (pos zi zc p)
  let Dv : ℕ → Fin zi.length ⊕ Fin zi.length → ℂ := fun i p => A (r.getD i 0) (pos zi zc p)
  let E : ℕ → Fin zi.length ⊕ Fin zi.length → ℂ := fun j p => A (n + j) (pos zi zc p)
  let bY : Fin zi.length ⊕ Fin zi.length → ℂ := fun p => bM p + ∑ i ∈ Finset.range r.length, y i * Dv i p
  let a0 : ℕ → ℂ := fun j => ∑ x ∈ Finset.range r.length, A (r.getD x 0) (n + j) * y x + b (n + j)
  let K : ℂ := 1 / 2 * ∑ i ∈ Finset.range r.length, ∑ j ∈ Finset.range r.length, y i * y j * A (r.getD i 0) (r.getD j 0) +
    ∑ i ∈ Finset.range r.length, y i * b (r.getD i 0)
  let Add : ℕ → ℕ → ℂ := fun i j => A (n + i) (n + j)
  -- the integrand
  have hint : ∀ w, f.termAt β (W w) * Complex.exp ((s * ∑ i, ‖w i‖ ^ 2 : ℝ) : ℂ) =
      nsum f.derived fun k => Complex.exp K * f.c β k *
        (amp d Add (fun j => a0 j + ∑ p, E j p * pair w p) 1 (toF k) * Complex.exp (cform M bY w)) := by
    intro w
    unfold termAt termVal
    rw [mul_assoc, mul_comm (nsum _ _), ← mul_assoc, ← Complex.exp_add,
      exponent_split s hl hn hlt (fun i hi j hj => hsA i (by omega) j (by omega)) (hW w) (hy w), Complex.exp_add, ← nsum_mul_left]
    apply nsum_congr
    intro k _
    have e : amp f.derived.length (fun i j => f.A β (f.numCV + i) (f.numCV + j))
        (fun j => ∑ a ∈ Finset.range f.numCV, f.A β a (f.numCV + j) * W w a + f.b β (f.numCV + j)) 1 (toF k) =
        amp d Add (fun j => a0 j + ∑ p, E j p * pair w p) 1 (toF k) := by
      refine amp_congr _ (fun i _ j _ => rfl) (fun j hj => ?_) _
      simp only [a0, E]
      rw [sum_split hl hn hlt]
      have e1 : ∑ p, f.A β (pos zi zc p) (n + j) * W w (pos zi zc p) = ∑ p, A (n + j) (pos zi zc p) * pair w p := by
        refine Finset.sum_congr rfl fun p _ => ?_
        rw [(hW w).pos, hs β _ (by have := hpl p; omega) _ (by omega)]
      have e2 : ∑ x ∈ Finset.range r.length, f.A β (r.getD x 0) (n + j) * W w (r.getD x 0) = ∑ x ∈ Finset.range r.length, A (r.getD x 0) (n + j) * y x := by
        refine Finset.sum_congr rfl fun x hx => ?_
        rw [hy w x (Finset.mem_range.1 hx)]
      rw [e1, e2]
      ring
    rw [e]
    ring
  have hbelow : ∀ k, InB f.derived k → Below d (toF k) := fun k hk => toF_below k (by rw [InB.length hk])
  have hI : ∀ k, InB f.derived k → Integrable fun w : Fin zi.length → ℂ => Complex.exp K * f.c β k *
        (amp d Add (fun j => a0 j + ∑ p, E j p * pair w p) 1 (toF k) * Complex.exp (cform M bY w)) :=
    fun k hk => (integrable_complex hMs hneg bY Add a0 E (toF k) (hbelow k hk)).const_mul _
  obtain ⟨i1, i2⟩ := integral_nsum f.derived (fun k (w : Fin zi.length → ℂ) => Complex.exp K * f.c β k *
        (amp d Add (fun j => a0 j + ∑ p, E j p * pair w p) 1 (toF k) * Complex.exp (cform M bY w))) hI
  refine ⟨i1.congr (Filter.Eventually.of_forall fun w => (hint w).symm), ?_⟩
  simp only [hint]
  rw [i2, ← nsum_mul_left, ← nsum_mul_left]
  -- right-hand side through the closed form
  have hR : ∀ k, InB f.derived k → ε * (((Real.pi : ℂ) ^ zi.length)⁻¹ * ∫ w : Fin zi.length → ℂ, Complex.exp K * f.c β k *
        (amp d Add (fun j => a0 j + ∑ p, E j p * pair w p) 1 (toF k) * Complex.exp (cform M bY w))) =
      Complex.exp (K + -(1 / 2) * invB M bY bY) * (f.c β k * ((-1) ^ zi.length / M.det) ^ (1 / 2 : ℂ)) *
        amp d (fun i j => Add i j - invB M (E i) (E j)) (fun j => a0 j - invB M (E j) bY) 1 (toF k) := by
    intro k hk
    have := integral_complex hMs hneg bY Add a0 E (toF k) (hbelow k hk)
    rw [gM_card] at this
    rw [integral_const_mul, Complex.exp_add K, hε]
    have e : ∀ a b c x : ℂ, a * (b * (c * x)) = a * c * (b * x) := fun a b c x => by ring
    rw [e, this]
    unfold invB
    ring
  rw [nsum_congr hR]
  exact cgiTrue_term hf hs hl hlt y hr hM rfl rfl rfl rfl rfl

end Verif.PolyExp
