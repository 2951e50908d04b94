import Verif.AmpDeriv
import Verif.Beamsplitter
import Mathlib.Analysis.Complex.RealDeriv
import Mathlib.Analysis.SpecialFunctions.ExpDeriv
import Mathlib.Analysis.SpecialFunctions.Trigonometric.Deriv
import Mathlib.Analysis.SpecialFunctions.Trigonometric.DerivHyp
import Mathlib.Analysis.SpecialFunctions.Sqrt
import Mathlib.Tactic.FieldSimp
import Mathlib.Tactic.Linarith

/-!
# Gradients of the squeezing and beamsplitter strategies (C62)

The backward passes receive the array `G` returned by the forward pass.  Where the code indexes `G` with a
negative coordinate, numba wraps around or reads outside the buffer; the value read is always multiplied by zero.
The model takes a function `rd` that returns the entries of `G` at valid indices and anything elsewhere.
-/

namespace Verif.Fock

/-- `tuple_setitem(index, i, index[i] - 1)` (math/lattice/utils.py). -/
def lowerZ (l : List ℤ) (i : ℕ) : List ℤ := l.set i (l.getD i 0 - 1)

/-- A valid index as the tuple of integers the code uses. -/
def toZ (index : List ℕ) : List ℤ := index.map (fun n : ℕ => (n : ℤ))

/-- math/lattice/steps.py:145-171 `vanilla_step_grad`, the vector `db`. -/
noncomputable def stepGradB (rd : List ℤ → ℂ) (index : List ℕ) (i : ℕ) : ℂ :=
  sq (index.getD i 0) * rd (lowerZ (toZ index) i)

/-- math/lattice/steps.py:145-171 `vanilla_step_grad`, the matrix `dA`.  `SQRT[n]` is the exact square root; the
entries below the diagonal are never written (all callers pass a zero buffer). -/
noncomputable def stepGradA (rd : List ℤ → ℂ) (index : List ℕ) (i j : ℕ) : ℂ :=
  let pivot := lowerZ (toZ index) i
  if i = j then 1 / 2 * sq (((toZ index).getD i 0 * pivot.getD i 0).toNat) * rd (lowerZ pivot i)
  else if i < j then sq (((toZ index).getD i 0 * pivot.getD j 0).toNat) * rd (lowerZ pivot j)
  else 0

/-- The accumulation `dLdA += dA * dLdG[index]` over a list of indices. -/
noncomputable def accA {ι : Type*} (rd : List ℤ → ℂ) (ix : ι → List ℕ) (g : ι → ℂ) (l : List ι) : ℕ → ℕ → ℂ :=
  l.foldl (fun acc x => fun i j => acc i j + stepGradA rd (ix x) i j * g x) (fun _ _ => 0)

/-- math/lattice/strategies/squeezer.py:149-191 `squeezed_vjp`: `(dL/dr, dL/dphi)`. -/
noncomputable def squeezedVjp (M : ℕ) (rd : List ℤ → ℂ) (g : ℕ → ℂ) (r φ : ℝ) : ℝ × ℝ :=
  let dLdA := accA rd (fun m => [m]) g (pyRange 2 M 2)
  let tanh : ℂ := (Real.tanh r : ℂ)
  let dtanh : ℂ := ((1 / Real.cosh r ^ 2 : ℝ) : ℂ)
  let e := Complex.exp (Complex.I * φ)
  let dLdC := ((List.range M).map fun (m : ℕ) => rd [(m : ℤ)] * g m).sum
  (2 * (-(dLdA 0 0) * e * dtanh - starRingEnd ℂ dLdC * (1 / 2) * tanh).re,
   2 * (-(dLdA 0 0) * Complex.I * e * tanh).re)

/-- math/lattice/strategies/squeezer.py:68-123 `squeezer_vjp`: the indices visited. -/
def squeezerVjpIdx (M N : ℕ) : List (ℕ × ℕ) :=
  ((pyRange 2 M 2).map fun m => (m, 0)) ++
    (List.range M).flatMap fun m => ((pyRange 1 N 1).filter fun n => (m + n) % 2 == 0).map fun n => (m, n)

/-- math/lattice/strategies/squeezer.py:68-123 `squeezer_vjp`: `(dL/dr, dL/dphi)`. -/
noncomputable def squeezerVjp (M N : ℕ) (rd : List ℤ → ℂ) (g : ℕ × ℕ → ℂ) (r φ : ℝ) : ℝ × ℝ :=
  let dLdA := accA rd (fun p => [p.1, p.2]) g (squeezerVjpIdx M N)
  let dLdC := ((List.range M).flatMap fun (m : ℕ) => (List.range N).map fun (n : ℕ) =>
    rd [(m : ℤ), (n : ℤ)] * g (m, n)).sum
  let dsech : ℂ := ((-Real.tanh r / Real.cosh r : ℝ) : ℂ)
  let dtanh : ℂ := ((1 / Real.cosh r ^ 2 : ℝ) : ℂ)
  let tanh : ℂ := (Real.tanh r : ℂ)
  let e := Complex.exp (Complex.I * φ)
  let ec := Complex.exp (-Complex.I * φ)
  (2 * (-(dLdA 0 0) * e * dtanh + dLdA 0 1 * dsech + dLdA 1 1 * ec * dtanh -
      starRingEnd ℂ dLdC * (1 / 2) * tanh).re,
   2 * (-(dLdA 0 0) * Complex.I * e * tanh - dLdA 1 1 * Complex.I * ec * tanh).re)

/-- math/lattice/strategies/beamsplitter.py:208-226 (`beamsplitter_vjp`): the indices visited. -/
def bsVjpIdx (sh : Ix4) : List Ix4 :=
  ((List.range sh.1).flatMap fun m => ((List.range (min sh.2.1 (sh.2.2.1 - m))).filter fun n =>
    decide (0 < m + n ∧ m + n < sh.2.2.1)).map fun n => (m, n, m + n, 0)) ++
  ((List.range sh.1).flatMap fun (m : ℕ) => (List.range sh.2.1).flatMap fun (n : ℕ) =>
    ((pyRange (m + n - sh.2.2.2) (min sh.2.2.1 (m + n)) 1).filter fun (p : ℕ) =>
      decide (0 < m + n - p ∧ m + n - p < sh.2.2.2)).map fun p => (m, n, p, m + n - p))

/-- math/lattice/strategies/beamsplitter.py:174-240 `beamsplitter_vjp`: `(dL/dtheta, dL/dphi)`. -/
noncomputable def bsVjp (sh : Ix4) (rd : List ℤ → ℂ) (g : Ix4 → ℂ) (θ φ : ℝ) : ℝ × ℝ :=
  let dLdA := accA rd (fun x : Ix4 => [x.1, x.2.1, x.2.2.1, x.2.2.2]) g (bsVjpIdx sh)
  let st : ℂ := (Real.sin θ : ℂ)
  let ct : ℂ := (Real.cos θ : ℂ)
  let e := Complex.exp (Complex.I * φ)
  let em := Complex.exp (-Complex.I * φ)
  (2 * (-st * dLdA 0 2 - ct * em * dLdA 0 3 + ct * e * dLdA 1 2 - st * dLdA 1 3).re,
   2 * (Complex.I * st * em * dLdA 0 3 + Complex.I * st * e * dLdA 1 2).re)

/-! ## Proofs -/

theorem sq_mul (a b : ℕ) : sq (a * b) = sq a * sq b := by
  unfold sq; rw [Nat.cast_mul, Real.sqrt_mul (Nat.cast_nonneg a)]; push_cast; rfl

theorem toZ_getD (l : List ℕ) (i : ℕ) : (toZ l).getD i 0 = (l.getD i 0 : ℤ) := by
  unfold toZ
  simp only [List.getD_eq_getElem?_getD, List.getElem?_map]
  cases l[i]? <;> simp

theorem lowerZ_toZ {l : List ℕ} {i : ℕ} (h : l.getD i 0 ≠ 0) :
    lowerZ (toZ l) i = toZ (l.set i (l.getD i 0 - 1)) := by
  unfold lowerZ
  rw [toZ_getD]
  unfold toZ
  rw [List.map_set]
  congr 1; omega

theorem set_le {l : List ℕ} (i : ℕ) (j : ℕ) : (l.set i (l.getD i 0 - 1)).getD j 0 ≤ l.getD j 0 := by
  simp only [List.getD_eq_getElem?_getD, List.getElem?_set]
  split_ifs with h1 h2
  · subst h1; simp
  · simp
  · exact le_rfl

theorem stepGradA_eq {F : (ℕ →₀ ℕ) → ℂ} {rd : List ℤ → ℂ} {index : List ℕ}
    (hrd : ∀ idx : List ℕ, idx.length = index.length → (∀ j, idx.getD j 0 ≤ index.getD j 0) →
      rd (toZ idx) = F (toF idx)) (i j : ℕ) :
    stepGradA rd index i j = if i = j then 1 / 2 * low i (low i F) (toF index)
      else if i < j then low i (low j F) (toF index) else 0 := by
  unfold stepGradA low
  beta_reduce
  by_cases h : index.getD i 0 = 0
  · simp only [toZ_getD, toF_apply, h]; simp
  · rw [lowerZ_toZ h, toF_apply, dn_toF]
    simp only [toZ_getD, toF_apply]
    have key : ∀ j, sq (((index.getD i 0 : ℤ) * ((index.set i (index.getD i 0 - 1)).getD j 0 : ℤ)).toNat) *
        rd (lowerZ (toZ (index.set i (index.getD i 0 - 1))) j) = sq (index.getD i 0) *
        (sq ((index.set i (index.getD i 0 - 1)).getD j 0) *
          F (dn (toF (index.set i (index.getD i 0 - 1))) j)) := by
      intro j
      rw [← Nat.cast_mul, Int.toNat_natCast, sq_mul]
      by_cases h2 : (index.set i (index.getD i 0 - 1)).getD j 0 = 0
      · rw [h2]; simp
      · rw [lowerZ_toZ h2, hrd _ (by simp) (fun l => (set_le _ _).trans (set_le _ _)), dn_toF]; ring
    split_ifs with h1 h3
    · subst h1; rw [mul_assoc, key]
    · exact key j
    · rfl

theorem accA_eq {ι : Type*} (rd : List ℤ → ℂ) (ix : ι → List ℕ) (g : ι → ℂ) (l : List ι) (i j : ℕ) :
    accA rd ix g l i j = (l.map fun x => stepGradA rd (ix x) i j * g x).sum := by
  unfold accA
  have : ∀ a : ℕ → ℕ → ℂ, (l.foldl (fun acc x => fun i j => acc i j + stepGradA rd (ix x) i j * g x) a) i j =
      a i j + (l.map fun x => stepGradA rd (ix x) i j * g x).sum := by
    induction l with
    | nil => intro a; simp
    | cons x l ih => intro a; rw [List.foldl_cons, ih]; simp [add_assoc]
  rw [this, zero_add]

theorem list_sum_eq {ι : Type*} [DecidableEq ι] (l : List ι) (hl : l.Nodup) (s : Finset ι) (F : ι → ℂ)
    (h1 : ∀ x ∈ l, x ∈ s) (h0 : ∀ x ∈ s, x ∉ l → F x = 0) : (l.map F).sum = ∑ x ∈ s, F x := by
  rw [← List.sum_toFinset F hl]
  refine Finset.sum_subset (fun x hx => h1 x (List.mem_toFinset.1 hx)) fun x hx hn => h0 x hx ?_
  rwa [List.mem_toFinset] at hn

theorem degree_dn_lt {k : ℕ →₀ ℕ} {i : ℕ} (h : k i ≠ 0) : k.degree = (dn k i).degree + 1 := by
  rw [← degree_up, up_dn h]

theorem low_low_odd {D A b} (c : ℂ) (hA : Symm D A) (hb : ∀ i < D, b i = 0) (k : ℕ →₀ ℕ)
    (hk : k.support ⊆ Finset.range D) (hodd : k.degree % 2 = 1) (i j : ℕ) :
    low i (low j (amp D A b c)) k = 0 := by
  unfold low
  by_cases h1 : k i = 0
  · rw [h1]; simp
  by_cases h2 : dn k i j = 0
  · rw [h2]; simp
  have e1 := degree_dn_lt h1
  have e2 := degree_dn_lt h2
  have hsub : (dn (dn k i) j).support ⊆ Finset.range D := by
    intro x hx
    apply hk
    simp only [dn, Finsupp.mem_support_iff, Finsupp.tsub_apply] at hx ⊢
    omega
  rw [amp_parity c hA hb _ hsub (by omega)]; simp

theorem low_low_zero (F : (ℕ →₀ ℕ) → ℂ) (i j : ℕ) : low i (low j F) 0 = 0 := by simp [low]

theorem hasDerivAt_re {f : ℝ → ℂ} {f' : ℂ} {x : ℝ} (h : HasDerivAt f f' x) :
    HasDerivAt (fun t => (f t).re) f'.re x :=
  (Complex.reCLM.hasFDerivAt.comp_hasDerivAt x h)

theorem support_toF {l : List ℕ} {D : ℕ} (h : l.length ≤ D) : (toF l).support ⊆ Finset.range D := by
  intro x hx
  simp only [Finsupp.mem_support_iff, toF_apply] at hx
  have := lt_of_getD_ne hx
  simp; omega

theorem below_toF {l : List ℕ} {D : ℕ} (h : l.length ≤ D) : Below D (toF l) := by
  intro i hi
  rw [toF_apply, List.getD_eq_getElem?_getD, List.getElem?_eq_none (by omega)]; rfl

/-! ### Derivatives of the triples -/

theorem hasDerivAt_tanhC (r : ℝ) :
    HasDerivAt (fun r : ℝ => ((Real.sinh r / Real.cosh r : ℝ) : ℂ)) ((1 / Real.cosh r ^ 2 : ℝ) : ℂ) r := by
  have h := ((Real.hasDerivAt_sinh r).div (Real.hasDerivAt_cosh r) (Real.cosh_pos r).ne').ofReal_comp
  refine h.congr_deriv ?_
  have := Real.cosh_sq r
  congr 2
  nlinarith [this]

theorem hasDerivAt_sechC (r : ℝ) :
    HasDerivAt (fun r : ℝ => ((1 / Real.cosh r : ℝ) : ℂ)) ((-Real.tanh r / Real.cosh r : ℝ) : ℂ) r := by
  have h := ((hasDerivAt_const r (1 : ℝ)).div (Real.hasDerivAt_cosh r) (Real.cosh_pos r).ne').ofReal_comp
  refine h.congr_deriv ?_
  rw [Real.tanh_eq_sinh_div_cosh]
  congr 1
  have := (Real.cosh_pos r).ne'
  field_simp; ring

theorem hasDerivAt_sqC (r : ℝ) :
    HasDerivAt squeezingC (-(1 / 2) * (Real.tanh r : ℂ) * squeezingC r) r := by
  have hc := Real.cosh_pos r
  have hs : Real.sqrt (Real.cosh r) ≠ 0 := (Real.sqrt_pos.2 hc).ne'
  have h := ((hasDerivAt_const r (1 : ℝ)).div ((Real.hasDerivAt_cosh r).sqrt hc.ne') hs).ofReal_comp
  refine h.congr_deriv ?_
  unfold squeezingC
  rw [Real.tanh_eq_sinh_div_cosh]
  have hss := Real.mul_self_sqrt hc.le
  generalize Real.sqrt (Real.cosh r) = x at *
  rw [← hss]
  push_cast
  have hx : (x : ℂ) ≠ 0 := by exact_mod_cast hs
  generalize (Real.sinh r : ℂ) = y
  field_simp
  ring

theorem hasDerivAt_expI (φ : ℝ) :
    HasDerivAt (fun φ : ℝ => Complex.exp (Complex.I * φ)) (Complex.I * Complex.exp (Complex.I * φ)) φ := by
  have h := ((hasDerivAt_id φ).ofReal_comp.const_mul Complex.I).cexp
  refine h.congr_deriv ?_
  simp; ring

theorem hasDerivAt_expNI (φ : ℝ) :
    HasDerivAt (fun φ : ℝ => Complex.exp (-Complex.I * φ)) (-Complex.I * Complex.exp (-Complex.I * φ)) φ := by
  have h := ((hasDerivAt_id φ).ofReal_comp.const_mul (-Complex.I)).cexp
  refine h.congr_deriv ?_
  simp; ring

/-! ### The three backward passes -/

theorem symm_squeezingA (r φ : ℝ) : Symm 2 (squeezingA r φ) := by
  intro i hi j hj
  interval_cases i <;> interval_cases j <;> rfl

theorem mulQ_two (A : ℕ → ℕ → ℂ) (h : A 0 1 = A 1 0) (F : (ℕ →₀ ℕ) → ℂ) (k) :
    mulQ 2 A (fun _ => 0) F k = A 0 0 * (1 / 2 * low 0 (low 0 F) k) + A 0 1 * low 0 (low 1 F) k +
      A 1 1 * (1 / 2 * low 1 (low 1 F) k) := by
  unfold mulQ
  simp only [Finset.sum_range_succ, Finset.sum_range_zero, ← h, low_comm 1 0 F k]
  ring

/-- The scalar whose derivative the backward pass of a two-index gate must return: with the cotangent `g` of the
array, `L(r) = Re ∑ g[m,n] G(r)[m,n]`. -/
noncomputable def loss2 (M N : ℕ) (g G : ℕ × ℕ → ℂ) : ℝ :=
  (∑ p ∈ Finset.range M ×ˢ Finset.range N, g p * G p).re

/-- The same for one index. -/
noncomputable def loss1 (M : ℕ) (g G : ℕ → ℂ) : ℝ := (∑ m ∈ Finset.range M, g m * G m).re

/-- The same for four indices. -/
noncomputable def loss4 (sh : Ix4) (g G : Ix4 → ℂ) : ℝ :=
  (∑ x ∈ Finset.range sh.1 ×ˢ Finset.range sh.2.1 ×ˢ Finset.range sh.2.2.1 ×ˢ Finset.range sh.2.2.2,
    g x * G x).re

theorem squeezerVjpIdx_mem {M N : ℕ} (hN : 0 < N) (p : ℕ × ℕ) : p ∈ squeezerVjpIdx M N ↔
    p.1 < M ∧ p.2 < N ∧ (p.1 + p.2) % 2 = 0 ∧ p ≠ (0, 0) := by
  obtain ⟨a, d⟩ := p
  simp only [squeezerVjpIdx, List.mem_append, List.mem_flatMap, List.mem_range, List.mem_map, List.mem_filter,
    Prod.mk.injEq, mem_pyRange (show 0 < 2 by omega), mem_pyRange (show 0 < 1 by omega), beq_iff_eq, ne_eq]
  constructor
  · rintro (⟨x, ⟨i, hi, hlt⟩, rfl, rfl⟩ | ⟨x, hx, y, ⟨⟨i, hi, hlt⟩, hpar⟩, rfl, rfl⟩)
    · omega
    · omega
  · rintro ⟨h1, h2, h3, h4⟩
    by_cases hd : d = 0
    · exact Or.inl ⟨a, ⟨(a - 2) / 2, by omega, h1⟩, rfl, hd.symm⟩
    · exact Or.inr ⟨a, h1, d, ⟨⟨d - 1, by omega, h2⟩, h3⟩, rfl, rfl⟩

theorem squeezerVjpIdx_nodup (M N : ℕ) : (squeezerVjpIdx M N).Nodup := by
  unfold squeezerVjpIdx
  rw [List.nodup_append]
  refine ⟨?_, ?_, ?_⟩
  · have : ((pyRange 2 M 2).map fun m => (m, 0)).Pairwise Lt2 := by
      rw [List.pairwise_map]; exact (pairwise_pyRange (by omega)).imp (fun h => Or.inl h)
    exact List.Pairwise.imp (R := Lt2) (S := (· ≠ ·)) (fun h e => Lt2.irrefl _ (e ▸ h)) this
  · have := pairwise_nested (l := List.range M) (fun m => (pyRange 1 N 1).filter fun n => (m + n) % 2 == 0)
      List.pairwise_lt_range (fun m => (pairwise_pyRange (by omega)).filter _)
    exact List.Pairwise.imp (R := Lt2) (S := (· ≠ ·)) (fun h e => Lt2.irrefl _ (e ▸ h)) this
  · intro a ha b hb e
    obtain ⟨m, _, rfl⟩ := List.mem_map.1 ha
    obtain ⟨x, _, hx⟩ := List.mem_flatMap.1 hb
    obtain ⟨y, hy, rfl⟩ := List.mem_map.1 hx
    have := (mem_pyRange (by omega)).1 (List.mem_filter.1 hy).1
    obtain ⟨i, hi, _⟩ := this
    have := congrArg Prod.snd e
    simp only at this
    omega

theorem degree_toF2 (m n : ℕ) : (toF [m, n]).degree = m + n := by
  rw [Finsupp.degree_apply, Finset.sum_subset (support_toF (D := 2) (by simp))
    (by intro x _ hx; simpa using hx)]
  simp [Finset.sum_range_succ]

theorem degree_toF1 (m : ℕ) : (toF [m]).degree = m := by
  rw [Finsupp.degree_apply, Finset.sum_subset (support_toF (D := 1) (by simp))
    (by intro x _ hx; simpa using hx)]
  simp

theorem sum_flatMap_range (M N : ℕ) (F : ℕ × ℕ → ℂ) :
    ((List.range M).flatMap fun (m : ℕ) => (List.range N).map fun (n : ℕ) => F (m, n)).sum =
      ∑ p ∈ Finset.range M ×ˢ Finset.range N, F p := by
  rw [Finset.sum_product]
  induction M with
  | zero => simp
  | succ M ih =>
    rw [List.range_succ, List.flatMap_append, List.sum_append, ih, Finset.sum_range_succ]
    refine congrArg _ ?_
    rw [List.flatMap_singleton, ← List.sum_toFinset _ List.nodup_range, List.toFinset_range]

/-- The accumulated gradient of `squeezer_vjp`. -/
theorem squeezer_dLdA {M N : ℕ} {A : ℕ → ℕ → ℂ} {c : ℂ} (hA : Symm 2 A) (hN : 0 < N) {rd : List ℤ → ℂ}
    (g : ℕ × ℕ → ℂ)
    (hrd : ∀ m < M, ∀ n < N, rd [(m : ℤ), (n : ℤ)] = amp 2 A (fun _ => 0) c (toF [m, n])) (i j : ℕ) :
    accA rd (fun p => [p.1, p.2]) g (squeezerVjpIdx M N) i j =
      ∑ p ∈ Finset.range M ×ˢ Finset.range N, g p *
        (if i = j then 1 / 2 * low i (low i (amp 2 A (fun _ => 0) c)) (toF [p.1, p.2])
          else if i < j then low i (low j (amp 2 A (fun _ => 0) c)) (toF [p.1, p.2]) else 0) := by
  rw [accA_eq]
  have step : ∀ p ∈ squeezerVjpIdx M N, stepGradA rd [p.1, p.2] i j =
      (if i = j then 1 / 2 * low i (low i (amp 2 A (fun _ => 0) c)) (toF [p.1, p.2])
          else if i < j then low i (low j (amp 2 A (fun _ => 0) c)) (toF [p.1, p.2]) else 0) := by
    intro p hp
    obtain ⟨h1, h2, _, _⟩ := (squeezerVjpIdx_mem hN p).1 hp
    refine stepGradA_eq ?_ i j
    intro idx hl hle
    match idx, hl with
    | [a, b], _ =>
      have e0 := hle 0; have e1 := hle 1
      simp at e0 e1
      exact hrd a (by omega) b (by omega)
  have : ((squeezerVjpIdx M N).map fun x => stepGradA rd [x.1, x.2] i j * g x) =
      (squeezerVjpIdx M N).map fun p => g p *
        (if i = j then 1 / 2 * low i (low i (amp 2 A (fun _ => 0) c)) (toF [p.1, p.2])
          else if i < j then low i (low j (amp 2 A (fun _ => 0) c)) (toF [p.1, p.2]) else 0) :=
    List.map_congr_left fun p hp => by rw [step p hp, mul_comm]
  rw [this]
  refine list_sum_eq _ (squeezerVjpIdx_nodup M N) _ _ ?_ ?_
  · intro p hp
    obtain ⟨h1, h2, _, _⟩ := (squeezerVjpIdx_mem hN p).1 hp
    simp [h1, h2]
  · rintro ⟨a, d⟩ hp hn
    simp only [Finset.mem_product, Finset.mem_range] at hp
    rw [squeezerVjpIdx_mem hN] at hn
    have hz : ∀ i j, low i (low j (amp 2 A (fun _ => 0) c)) (toF [a, d]) = 0 := by
      intro i j
      by_cases h0 : (a, d) = (0, 0)
      · obtain ⟨rfl, rfl⟩ := Prod.mk.inj h0
        rw [show toF [0, 0] = 0 from toF_unravel_zero [1, 1], low_low_zero]
      · refine low_low_odd c hA (fun _ _ => rfl) _ (support_toF (by simp)) ?_ i j
        rw [degree_toF2]
        by_contra hc
        exact hn ⟨hp.1, hp.2, by simp only; omega, h0⟩
    simp only [hz]; simp

theorem squeezer_deriv {M N : ℕ} {A : ℝ → ℕ → ℕ → ℂ} {c : ℝ → ℂ} {A' : ℕ → ℕ → ℂ} {κ : ℂ} {x : ℝ}
    (hsym : Symm 2 (A x)) (h01 : A' 0 1 = A' 1 0)
    (hA : ∀ i < 2, ∀ j < 2, HasDerivAt (fun t => A t i j) (A' i j) x) (hc : HasDerivAt c (κ * c x) x)
    (hN : 0 < N) {rd : List ℤ → ℂ} (g : ℕ × ℕ → ℂ)
    (hrd : ∀ m < M, ∀ n < N, rd [(m : ℤ), (n : ℤ)] = amp 2 (A x) (fun _ => 0) (c x) (toF [m, n])) :
    HasDerivAt (fun t => ∑ p ∈ Finset.range M ×ˢ Finset.range N, g p *
        amp 2 (A t) (fun _ => 0) (c t) (toF [p.1, p.2]))
      (accA rd (fun p => [p.1, p.2]) g (squeezerVjpIdx M N) 0 0 * A' 0 0 +
        accA rd (fun p => [p.1, p.2]) g (squeezerVjpIdx M N) 0 1 * A' 0 1 +
        accA rd (fun p => [p.1, p.2]) g (squeezerVjpIdx M N) 1 1 * A' 1 1 +
        ((List.range M).flatMap fun (m : ℕ) => (List.range N).map fun (n : ℕ) =>
          rd [(m : ℤ), (n : ℤ)] * g (m, n)).sum * κ) x := by
  have hd : ∀ p : ℕ × ℕ, HasDerivAt (fun t => amp 2 (A t) (fun _ => 0) (c t) (toF [p.1, p.2]))
      (mulQ 2 A' (fun _ => 0) (amp 2 (A x) (fun _ => 0) (c x)) (toF [p.1, p.2]) +
        κ * c x * amp 2 (A x) (fun _ => 0) 1 (toF [p.1, p.2])) x := fun p =>
    hasDeriv_amp (b := fun _ _ => 0) (b' := fun _ => 0) hA (fun i _ => hasDerivAt_const _ _) hc _
      (below_toF (by simp))
  refine (HasDerivAt.fun_sum fun p _ => (hd p).const_mul (g p)).congr_deriv ?_
  have hs := sum_flatMap_range M N fun p => rd [(p.1 : ℤ), (p.2 : ℤ)] * g p
  simp only at hs
  rw [hs]
  simp only [squeezer_dLdA hsym hN g hrd, Finset.sum_mul]
  rw [← Finset.sum_add_distrib, ← Finset.sum_add_distrib, ← Finset.sum_add_distrib]
  refine Finset.sum_congr rfl fun p hp => ?_
  simp only [Finset.mem_product, Finset.mem_range] at hp
  rw [hrd _ hp.1 _ hp.2, mulQ_two A' h01, amp_smul _ _ _ (c x) (toF [p.1, p.2])]
  simp only [if_true, zero_ne_one, if_false, zero_lt_one]
  ring

theorem re_conj_half (z : ℂ) (x : ℝ) : ((starRingEnd ℂ) z * (1 / 2) * (x : ℂ)).re = (z * (1 / 2) * (x : ℂ)).re := by
  have e : (starRingEnd ℂ) z * (1 / 2) * (x : ℂ) = (starRingEnd ℂ) (z * (1 / 2) * (x : ℂ)) := by
    rw [map_mul, map_mul, Complex.conj_ofReal, map_div₀, map_one, Complex.conj_ofNat]
  rw [e, Complex.conj_re]

/-- **C62 (squeezing gate, `r`)**: the first output of `squeezer_vjp` is exactly twice the derivative with respect
to `r` of `Re ∑ g[m,n] S(r)[m,n]`, for every shape, cotangent and parameters. -/
theorem C62_squeezer_r (M N : ℕ) (hN : 0 < N) (r φ : ℝ) (g : ℕ × ℕ → ℂ) (rd : List ℤ → ℂ)
    (hrd : ∀ m < M, ∀ n < N, rd [(m : ℤ), (n : ℤ)] = squeezer M N r φ (m, n)) :
    HasDerivAt (fun r => loss2 M N g (squeezer M N r φ)) ((squeezerVjp M N rd g r φ).1 / 2) r := by
  have hG : ∀ r, loss2 M N g (squeezer M N r φ) = (∑ p ∈ Finset.range M ×ˢ Finset.range N, g p *
      amp 2 (squeezingA r φ) (fun _ => 0) (squeezingC r) (toF [p.1, p.2])).re := fun r =>
    congrArg Complex.re (Finset.sum_congr rfl fun p hp => by
      simp only [Finset.mem_product, Finset.mem_range] at hp
      rw [← C24_squeezer M N r φ p.1 p.2 hp.1 hp.2])
  simp only [hG]
  have hd := squeezer_deriv (M := M) (N := N) (rd := rd) (A := fun r => squeezingA r φ) (c := squeezingC) (x := r)
    (κ := -(1 / 2) * (Real.tanh r : ℂ))
    (A' := fun i j => if i = 0 ∧ j = 0 then -Complex.exp (Complex.I * φ) * ((1 / Real.cosh r ^ 2 : ℝ) : ℂ)
      else if i = 1 ∧ j = 1 then Complex.exp (-Complex.I * φ) * ((1 / Real.cosh r ^ 2 : ℝ) : ℂ)
      else ((-Real.tanh r / Real.cosh r : ℝ) : ℂ))
    (symm_squeezingA r φ) (by simp) (by
      intro i hi j hj
      interval_cases i <;> interval_cases j <;> simp only [squeezingA]
      · simpa using (hasDerivAt_tanhC r).const_mul (-Complex.exp (Complex.I * φ))
      · simpa using hasDerivAt_sechC r
      · simpa using hasDerivAt_sechC r
      · simpa using (hasDerivAt_tanhC r).const_mul (Complex.exp (-Complex.I * φ))) (hasDerivAt_sqC r) hN g
    (fun m hm n hn => by rw [hrd m hm n hn, C24_squeezer M N r φ m n hm hn])
  refine (hasDerivAt_re hd).congr_deriv ?_
  unfold squeezerVjp
  simp only [true_and, one_ne_zero, zero_ne_one, and_self, and_true, and_false, if_true, if_false]
  generalize ((List.range M).flatMap fun (m : ℕ) => (List.range N).map fun (n : ℕ) =>
          rd [(m : ℤ), (n : ℤ)] * g (m, n)).sum = z
  have hz := re_conj_half z (Real.tanh r)
  rw [mul_div_assoc, Complex.sub_re, hz, ← Complex.sub_re, mul_div_left_comm, div_self two_ne_zero, mul_one]
  congr 1
  ring

/-- **C62 (squeezing gate, `phi`)**. -/
theorem C62_squeezer_phi (M N : ℕ) (hN : 0 < N) (r φ : ℝ) (g : ℕ × ℕ → ℂ) (rd : List ℤ → ℂ)
    (hrd : ∀ m < M, ∀ n < N, rd [(m : ℤ), (n : ℤ)] = squeezer M N r φ (m, n)) :
    HasDerivAt (fun φ => loss2 M N g (squeezer M N r φ)) ((squeezerVjp M N rd g r φ).2 / 2) φ := by
  have hG : ∀ φ, loss2 M N g (squeezer M N r φ) = (∑ p ∈ Finset.range M ×ˢ Finset.range N, g p *
      amp 2 (squeezingA r φ) (fun _ => 0) (squeezingC r) (toF [p.1, p.2])).re := fun φ =>
    congrArg Complex.re (Finset.sum_congr rfl fun p hp => by
      simp only [Finset.mem_product, Finset.mem_range] at hp
      rw [← C24_squeezer M N r φ p.1 p.2 hp.1 hp.2])
  simp only [hG]
  have hd := squeezer_deriv (M := M) (N := N) (rd := rd) (A := fun φ => squeezingA r φ) (c := fun _ => squeezingC r) (x := φ)
    (κ := 0)
    (A' := fun i j => if i = 0 ∧ j = 0 then
        -(Complex.I * Complex.exp (Complex.I * φ)) * ((Real.sinh r / Real.cosh r : ℝ) : ℂ)
      else if i = 1 ∧ j = 1 then
        (-Complex.I * Complex.exp (-Complex.I * φ)) * ((Real.sinh r / Real.cosh r : ℝ) : ℂ)
      else 0)
    (symm_squeezingA r φ) (by simp) (by
      intro i hi j hj
      interval_cases i <;> interval_cases j <;> simp only [squeezingA]
      · simpa using (hasDerivAt_expI φ).neg.mul_const ((Real.sinh r / Real.cosh r : ℝ) : ℂ)
      · simpa using hasDerivAt_const φ (((1 / Real.cosh r : ℝ) : ℂ))
      · simpa using hasDerivAt_const φ (((1 / Real.cosh r : ℝ) : ℂ))
      · simpa using (hasDerivAt_expNI φ).mul_const ((Real.sinh r / Real.cosh r : ℝ) : ℂ))
    (by rw [zero_mul]; exact hasDerivAt_const _ _) hN g
    (fun m hm n hn => by rw [hrd m hm n hn, C24_squeezer M N r φ m n hm hn])
  refine (hasDerivAt_re hd).congr_deriv ?_
  unfold squeezerVjp
  simp only [true_and, one_ne_zero, zero_ne_one, and_self, and_true, and_false, if_true, if_false,
    ← Real.tanh_eq_sinh_div_cosh]
  rw [mul_div_assoc, mul_div_left_comm, div_self two_ne_zero, mul_one]
  congr 1
  ring

/-! ### Squeezed vacuum -/

theorem symm_one (A : ℕ → ℕ → ℂ) : Symm 1 A := by
  intro i hi j hj
  obtain rfl : i = 0 := by omega
  obtain rfl : j = 0 := by omega
  rfl

theorem squeezed_deriv {M : ℕ} {A : ℝ → ℕ → ℕ → ℂ} {c : ℝ → ℂ} {A' : ℂ} {κ : ℂ} {x : ℝ}
    (hA : HasDerivAt (fun t => A t 0 0) A' x) (hc : HasDerivAt c (κ * c x) x) {rd : List ℤ → ℂ} (g : ℕ → ℂ)
    (hrd : ∀ m < M, rd [(m : ℤ)] = amp 1 (A x) (fun _ => 0) (c x) (toF [m])) :
    HasDerivAt (fun t => ∑ m ∈ Finset.range M, g m * amp 1 (A t) (fun _ => 0) (c t) (toF [m]))
      (accA rd (fun m => [m]) g (pyRange 2 M 2) 0 0 * A' +
        ((List.range M).map fun (m : ℕ) => rd [(m : ℤ)] * g m).sum * κ) x := by
  set F := amp 1 (A x) (fun _ => 0) (c x) with hF
  have hd : ∀ m : ℕ, HasDerivAt (fun t => amp 1 (A t) (fun _ => 0) (c t) (toF [m]))
      (mulQ 1 (fun _ _ => A') (fun _ => 0) F (toF [m]) + κ * c x * amp 1 (A x) (fun _ => 0) 1 (toF [m])) x :=
    fun m => hasDeriv_amp (b := fun _ _ => 0) (b' := fun _ => 0) (by
      intro i hi j hj
      obtain rfl : i = 0 := by omega
      obtain rfl : j = 0 := by omega
      exact hA) (fun i _ => hasDerivAt_const _ _) hc _ (below_toF (by simp))
  refine (HasDerivAt.fun_sum fun m _ => (hd m).const_mul (g m)).congr_deriv ?_
  have hacc : accA rd (fun m => [m]) g (pyRange 2 M 2) 0 0 =
      ∑ m ∈ Finset.range M, g m * (1 / 2 * low 0 (low 0 F) (toF [m])) := by
    rw [accA_eq]
    have : ((pyRange 2 M 2).map fun m => stepGradA rd [m] 0 0 * g m) =
        (pyRange 2 M 2).map fun m => g m * (1 / 2 * low 0 (low 0 F) (toF [m])) := by
      refine List.map_congr_left fun m hm => ?_
      obtain ⟨i, hi, hlt⟩ := (mem_pyRange (by omega)).1 hm
      rw [stepGradA_eq (F := F), if_pos rfl, mul_comm]
      intro idx hl hle
      match idx, hl with
      | [a], _ =>
        have e0 := hle 0
        simp at e0
        exact hrd a (by omega)
    rw [this]
    refine list_sum_eq _ ((pairwise_pyRange (by omega)).imp (fun h => Nat.ne_of_lt h)) _ _ ?_ ?_
    · intro m hm
      obtain ⟨i, hi, hlt⟩ := (mem_pyRange (by omega)).1 hm
      simpa using hlt
    · intro m hm hn
      have hm := Finset.mem_range.1 hm
      rw [mem_pyRange (by omega)] at hn
      have : low 0 (low 0 F) (toF [m]) = 0 := by
        by_cases h0 : m = 0
        · subst h0; rw [toF_single_zero, low_low_zero]
        · refine low_low_odd _ (symm_one _) (fun _ _ => rfl) _ (support_toF (by simp)) ?_ 0 0
          rw [degree_toF1]
          by_contra hc
          exact hn ⟨(m - 2) / 2, by omega, hm⟩
      rw [this]; simp
  have hs : ((List.range M).map fun (m : ℕ) => rd [(m : ℤ)] * g m).sum = ∑ m ∈ Finset.range M, rd [(m : ℤ)] * g m := by
    rw [← List.sum_toFinset _ List.nodup_range, List.toFinset_range]
  rw [hacc, hs, Finset.sum_mul, Finset.sum_mul, ← Finset.sum_add_distrib]
  refine Finset.sum_congr rfl fun m hm => ?_
  rw [hrd m (Finset.mem_range.1 hm), hF, amp_smul _ _ _ (c x) (toF [m])]
  unfold mulQ
  simp only [Finset.sum_range_one]
  ring

theorem loss1_squeezed (M : ℕ) (g : ℕ → ℂ) (r φ : ℝ) : loss1 M g (squeezed M r φ) =
    (∑ m ∈ Finset.range M, g m * amp 1 (squeezedA r φ) (fun _ => 0) (squeezingC r) (toF [m])).re :=
  congrArg Complex.re (Finset.sum_congr rfl fun m hm => by
    rw [← C24_squeezed M r φ m (Finset.mem_range.1 hm)])

/-- **C62 (squeezed vacuum, `r`)**: `squeezed_vjp` returns exactly twice the derivative. -/
theorem C62_squeezed_r (M : ℕ) (r φ : ℝ) (g : ℕ → ℂ) (rd : List ℤ → ℂ)
    (hrd : ∀ m < M, rd [(m : ℤ)] = squeezed M r φ m) :
    HasDerivAt (fun r => loss1 M g (squeezed M r φ)) ((squeezedVjp M rd g r φ).1 / 2) r := by
  simp only [loss1_squeezed]
  have hd := squeezed_deriv (M := M) (rd := rd) (A := fun r => squeezedA r φ) (c := squeezingC) (x := r)
    (κ := -(1 / 2) * (Real.tanh r : ℂ)) (A' := -((1 / Real.cosh r ^ 2 : ℝ) : ℂ) * Complex.exp (Complex.I * φ))
    ((hasDerivAt_tanhC r).neg.mul_const _) (hasDerivAt_sqC r) g
    (fun m hm => by rw [hrd m hm, C24_squeezed M r φ m hm])
  refine (hasDerivAt_re hd).congr_deriv ?_
  unfold squeezedVjp
  simp only []
  generalize ((List.range M).map fun (m : ℕ) => rd [(m : ℤ)] * g m).sum = z
  have hz := re_conj_half z (Real.tanh r)
  rw [mul_div_assoc, Complex.sub_re, hz, ← Complex.sub_re, mul_div_left_comm, div_self two_ne_zero, mul_one]
  congr 1
  ring

/-- **C62 (squeezed vacuum, `phi`)**. -/
theorem C62_squeezed_phi (M : ℕ) (r φ : ℝ) (g : ℕ → ℂ) (rd : List ℤ → ℂ)
    (hrd : ∀ m < M, rd [(m : ℤ)] = squeezed M r φ m) :
    HasDerivAt (fun φ => loss1 M g (squeezed M r φ)) ((squeezedVjp M rd g r φ).2 / 2) φ := by
  simp only [loss1_squeezed]
  have hd := squeezed_deriv (M := M) (rd := rd) (A := fun φ => squeezedA r φ) (c := fun _ => squeezingC r) (x := φ)
    (κ := 0) ((hasDerivAt_expI φ).const_mul (-((Real.sinh r / Real.cosh r : ℝ) : ℂ)))
    (by rw [zero_mul]; exact hasDerivAt_const _ _) g
    (fun m hm => by rw [hrd m hm, C24_squeezed M r φ m hm])
  refine (hasDerivAt_re hd).congr_deriv ?_
  unfold squeezedVjp
  simp only [← Real.tanh_eq_sinh_div_cosh]
  rw [mul_div_assoc, mul_div_left_comm, div_self two_ne_zero, mul_one]
  congr 1
  ring

/-- **C62 is false of the code as a gradient**: with cutoff 1 and cotangent 1 the loss is `sech(r)^{1/2}`; what
`squeezed_vjp` returns at `r = 1` is not its derivative. -/
theorem C62_squeezed_not_gradient (φ : ℝ) (rd : List ℤ → ℂ) (hrd : ∀ m < 1, rd [(m : ℕ)] = squeezed 1 1 φ m) :
    ¬ HasDerivAt (fun r => loss1 1 (fun _ => 1) (squeezed 1 r φ)) (squeezedVjp 1 rd (fun _ => 1) 1 φ).1 1 := by
  intro h
  have h2 := C62_squeezed_r 1 1 φ (fun _ => 1) rd hrd
  have e := h.unique h2
  have h0 : (squeezedVjp 1 rd (fun _ => 1) 1 φ).1 = 0 := by linarith
  have hr : rd [(0 : ℤ)] = squeezingC 1 := by
    have := hrd 0 (by omega)
    rw [C24_squeezed 1 1 φ 0 (by omega), toF_single_zero, amp_zero] at this
    exact_mod_cast this
  have hidx : pyRange 2 1 2 = [] := rfl
  unfold squeezedVjp at h0
  simp only [hidx, accA, List.foldl_nil] at h0
  rw [show ((List.range 1).map fun (m : ℕ) => rd [(m : ℤ)] * 1).sum = squeezingC 1 by simp [hr]] at h0
  rw [neg_zero, zero_mul, zero_mul, zero_sub, Complex.neg_re, re_conj_half] at h0
  unfold squeezingC at h0
  have e2 : ((((1 / Real.sqrt (Real.cosh 1) : ℝ) : ℂ)) * (1 / 2) * ((Real.tanh 1 : ℝ) : ℂ)) =
      ((1 / Real.sqrt (Real.cosh 1) * (1 / 2) * Real.tanh 1 : ℝ) : ℂ) := by push_cast; rfl
  rw [e2, Complex.ofReal_re, Real.tanh_eq_sinh_div_cosh] at h0
  have h1 : 0 < Real.sinh 1 := Real.sinh_pos_iff.2 one_pos
  have h3 := Real.cosh_pos 1
  have h4 := Real.sqrt_pos.2 h3
  have : 0 < 1 / Real.sqrt (Real.cosh 1) * (1 / 2) * (Real.sinh 1 / Real.cosh 1) := by positivity
  linarith

/-! ### Beamsplitter -/

theorem mem_bsVjpIdx {sh : Ix4} {m n p q : ℕ} (hQ : 0 < sh.2.2.2) : (m, n, p, q) ∈ bsVjpIdx sh ↔
    m < sh.1 ∧ n < sh.2.1 ∧ p < sh.2.2.1 ∧ q < sh.2.2.2 ∧ m + n = p + q ∧ 0 < m + n := by
  simp only [bsVjpIdx, List.mem_append, List.mem_flatMap, List.mem_range, List.mem_map, List.mem_filter,
    Prod.mk.injEq, decide_eq_true_eq, mem_pyRange (show 0 < 1 by omega)]
  constructor
  · rintro (⟨a, ha, b, ⟨hb, hc⟩, rfl, rfl, rfl, rfl⟩ | ⟨a, ha, b, hb, c, ⟨⟨i, hi, hc⟩, hd⟩, rfl, rfl, rfl, rfl⟩)
    · omega
    · omega
  · rintro ⟨h1, h2, h3, h4, h5, h6⟩
    by_cases hq : q = 0
    · exact Or.inl ⟨m, h1, n, ⟨by omega, by omega⟩, rfl, rfl, by omega, hq.symm⟩
    · exact Or.inr ⟨m, h1, n, h2, p, ⟨⟨p - (m + n - sh.2.2.2), by omega, by omega⟩, by omega, by omega⟩, rfl, rfl,
        rfl, by omega⟩

theorem nodup_bsVjpIdx (sh : Ix4) : (bsVjpIdx sh).Nodup := by
  unfold bsVjpIdx
  rw [List.nodup_append]
  refine ⟨?_, ?_, ?_⟩
  · have := pw3 sh.1 (fun m => (List.range (min sh.2.1 (sh.2.2.1 - m))).filter fun n =>
      decide (0 < m + n ∧ m + n < sh.2.2.1)) (fun m => List.pairwise_lt_range.filter _)
    exact List.Pairwise.imp (R := Lt4) (S := (· ≠ ·)) (fun h e => Lt4.irrefl _ (e ▸ h)) this
  · have := pw4 sh.1 sh.2.1 (fun m n => (pyRange (m + n - sh.2.2.2) (min sh.2.2.1 (m + n)) 1).filter fun (p : ℕ) =>
      decide (0 < m + n - p ∧ m + n - p < sh.2.2.2)) (fun m n => (pairwise_pyRange (by omega)).filter _)
    exact List.Pairwise.imp (R := Lt4) (S := (· ≠ ·)) (fun h e => Lt4.irrefl _ (e ▸ h)) this
  · intro a ha b hb e
    obtain ⟨m, _, hm⟩ := List.mem_flatMap.1 ha
    obtain ⟨n, _, rfl⟩ := List.mem_map.1 hm
    obtain ⟨x, _, hx⟩ := List.mem_flatMap.1 hb
    obtain ⟨y, _, hy⟩ := List.mem_flatMap.1 hx
    obtain ⟨z, hz, rfl⟩ := List.mem_map.1 hy
    have hz := (List.mem_filter.1 hz).2
    simp only [decide_eq_true_eq] at hz
    have := congrArg (fun t : Ix4 => t.2.2.2) e
    simp only at this
    omega

/-- Lowering one output and one input index of a photon-number-conserving array conserves photons. -/
theorem low_low_conserve {θ φ : ℝ} {m n p q : ℕ} (h : m + n ≠ p + q) {i j : ℕ} (hi : i < 2) (hj : 2 ≤ j) (hj4 : j < 4) :
    low i (low j (amp 4 (bsA θ φ) (fun _ => 0) 1)) (toF [m, n, p, q]) = 0 := by
  have hz : ∀ a b c d, a + b ≠ c + d → amp 4 (bsA θ φ) (fun _ => 0) 1 (toF [a, b, c, d]) = 0 := by
    intro a b c d h; rw [← T4_eq_amp, T4_conserve _ _ _ _ h]
  unfold low
  rw [dn_toF, dn_toF]
  by_cases h1 : [m, n, p, q].getD i 0 = 0
  · rw [toF_apply, h1]; simp
  by_cases h2 : ([m, n, p, q].set i ([m, n, p, q].getD i 0 - 1)).getD j 0 = 0
  · rw [toF_apply, toF_apply, h2]; simp
  interval_cases i <;> interval_cases j <;> simp at h1 h2 <;> simp <;> right <;> right <;> apply hz <;> omega

theorem symm_bsA (θ φ : ℝ) : Symm 4 (bsA θ φ) := by
  intro i hi j hj
  interval_cases i <;> interval_cases j <;> simp [bsA]

/-- `mulQ` for a derivative supported on the off-diagonal blocks. -/
theorem mulQ_off (V : ℕ → ℕ → ℂ) (F : (ℕ →₀ ℕ) → ℂ) (k) :
    mulQ 4 (fun i j => if i < 2 ∧ 2 ≤ j then V i (j - 2) else if 2 ≤ i ∧ j < 2 then V j (i - 2) else 0)
      (fun _ => 0) F k = V 0 0 * low 0 (low 2 F) k + V 0 1 * low 0 (low 3 F) k +
        V 1 0 * low 1 (low 2 F) k + V 1 1 * low 1 (low 3 F) k := by
  unfold mulQ
  simp only [Finset.sum_range_succ, Finset.sum_range_zero]
  simp only [low_comm 2 0 F k, low_comm 3 0 F k, low_comm 2 1 F k, low_comm 3 1 F k]
  norm_num
  ring

theorem bs_dLdA {sh : Ix4} {θ φ : ℝ} (hQ : 0 < sh.2.2.2) {rd : List ℤ → ℂ} (g : Ix4 → ℂ)
    (hrd : ∀ m < sh.1, ∀ n < sh.2.1, ∀ p < sh.2.2.1, ∀ q < sh.2.2.2,
      rd [(m : ℤ), (n : ℤ), (p : ℤ), (q : ℤ)] = amp 4 (bsA θ φ) (fun _ => 0) 1 (toF [m, n, p, q])) {i j : ℕ}
    (hi : i < 2) (hj : 2 ≤ j) (hj4 : j < 4) :
    accA rd (fun x : Ix4 => [x.1, x.2.1, x.2.2.1, x.2.2.2]) g (bsVjpIdx sh) i j =
      ∑ x ∈ Finset.range sh.1 ×ˢ Finset.range sh.2.1 ×ˢ Finset.range sh.2.2.1 ×ˢ Finset.range sh.2.2.2, g x *
        low i (low j (amp 4 (bsA θ φ) (fun _ => 0) 1)) (toF [x.1, x.2.1, x.2.2.1, x.2.2.2]) := by
  rw [accA_eq]
  have : ((bsVjpIdx sh).map fun x => stepGradA rd [x.1, x.2.1, x.2.2.1, x.2.2.2] i j * g x) =
      (bsVjpIdx sh).map fun x => g x *
        low i (low j (amp 4 (bsA θ φ) (fun _ => 0) 1)) (toF [x.1, x.2.1, x.2.2.1, x.2.2.2]) := by
    refine List.map_congr_left ?_
    rintro ⟨m, n, p, q⟩ hx
    obtain ⟨h1, h2, h3, h4, _, _⟩ := (mem_bsVjpIdx hQ).1 hx
    rw [stepGradA_eq (F := amp 4 (bsA θ φ) (fun _ => 0) 1), if_neg (by omega), if_pos (by omega), mul_comm]
    intro idx hl hle
    match idx, hl with
    | [a, b, c, d], _ =>
      have e0 := hle 0; have e1 := hle 1; have e2 := hle 2; have e3 := hle 3
      simp at e0 e1 e2 e3
      exact hrd a (by omega) b (by omega) c (by omega) d (by omega)
  rw [this]
  refine list_sum_eq _ (nodup_bsVjpIdx sh) _ _ ?_ ?_
  · rintro ⟨m, n, p, q⟩ hx
    obtain ⟨h1, h2, h3, h4, _, _⟩ := (mem_bsVjpIdx hQ).1 hx
    simp [h1, h2, h3, h4]
  · rintro ⟨m, n, p, q⟩ hx hn
    simp only [Finset.mem_product, Finset.mem_range] at hx
    rw [mem_bsVjpIdx hQ] at hn
    refine mul_eq_zero_of_right _ ?_
    by_cases h : m + n = p + q
    · have h0 : m + n = 0 := by
        by_contra hc
        exact hn ⟨hx.1, hx.2.1, hx.2.2.1, hx.2.2.2, h, by omega⟩
      obtain ⟨rfl, rfl⟩ : m = 0 ∧ n = 0 := by omega
      obtain ⟨rfl, rfl⟩ : p = 0 ∧ q = 0 := by omega
      show low i (low j _) (toF [0, 0, 0, 0]) = 0
      rw [show toF [0, 0, 0, 0] = 0 from toF_unravel_zero [1, 1, 1, 1], low_low_zero]
    · exact low_low_conserve h hi hj hj4

theorem bs_deriv {sh : Ix4} (hQ : 0 < sh.2.2.2) {Θ Φ : ℝ → ℝ} {V : ℕ → ℕ → ℂ} {x : ℝ}
    (hV : ∀ i < 2, ∀ j < 2, HasDerivAt (fun t => bsV (Θ t) (Φ t) i j) (V i j) x) {rd : List ℤ → ℂ} (g : Ix4 → ℂ)
    (hrd : ∀ m < sh.1, ∀ n < sh.2.1, ∀ p < sh.2.2.1, ∀ q < sh.2.2.2,
      rd [(m : ℤ), (n : ℤ), (p : ℤ), (q : ℤ)] = amp 4 (bsA (Θ x) (Φ x)) (fun _ => 0) 1 (toF [m, n, p, q])) :
    HasDerivAt (fun t => (∑ y ∈ Finset.range sh.1 ×ˢ Finset.range sh.2.1 ×ˢ Finset.range sh.2.2.1 ×ˢ
        Finset.range sh.2.2.2, g y * amp 4 (bsA (Θ t) (Φ t)) (fun _ => 0) 1 (toF [y.1, y.2.1, y.2.2.1, y.2.2.2])))
      (V 0 0 * accA rd (fun x : Ix4 => [x.1, x.2.1, x.2.2.1, x.2.2.2]) g (bsVjpIdx sh) 0 2 +
        V 0 1 * accA rd (fun x : Ix4 => [x.1, x.2.1, x.2.2.1, x.2.2.2]) g (bsVjpIdx sh) 0 3 +
        V 1 0 * accA rd (fun x : Ix4 => [x.1, x.2.1, x.2.2.1, x.2.2.2]) g (bsVjpIdx sh) 1 2 +
        V 1 1 * accA rd (fun x : Ix4 => [x.1, x.2.1, x.2.2.1, x.2.2.2]) g (bsVjpIdx sh) 1 3) x := by
  have hd : ∀ y : Ix4, HasDerivAt (fun t => amp 4 (bsA (Θ t) (Φ t)) (fun _ => 0) 1
        (toF [y.1, y.2.1, y.2.2.1, y.2.2.2]))
      (mulQ 4 (fun i j => if i < 2 ∧ 2 ≤ j then V i (j - 2) else if 2 ≤ i ∧ j < 2 then V j (i - 2) else 0)
        (fun _ => 0) (amp 4 (bsA (Θ x) (Φ x)) (fun _ => 0) 1) (toF [y.1, y.2.1, y.2.2.1, y.2.2.2])) x := by
    intro y
    refine hasDeriv_amp_one (b := fun _ _ => 0) ?_ (fun i _ => hasDerivAt_const _ _) _ (below_toF (by simp))
    intro i hi j hj
    unfold bsA
    by_cases h1 : i < 2 ∧ 2 ≤ j
    · simp only [if_pos h1]; exact hV i h1.1 _ (by omega)
    · by_cases h2 : 2 ≤ i ∧ j < 2
      · simp only [if_neg h1, if_pos h2]; exact hV j h2.2 _ (by omega)
      · simp only [if_neg h1, if_neg h2]; exact hasDerivAt_const _ _
  refine (HasDerivAt.fun_sum fun y _ => (hd y).const_mul (g y)).congr_deriv ?_
  rw [bs_dLdA hQ g hrd (by omega) (by omega) (by omega), bs_dLdA hQ g hrd (by omega) (by omega) (by omega),
    bs_dLdA hQ g hrd (by omega) (by omega) (by omega), bs_dLdA hQ g hrd (by omega) (by omega) (by omega)]
  simp only [Finset.mul_sum]
  rw [← Finset.sum_add_distrib, ← Finset.sum_add_distrib, ← Finset.sum_add_distrib]
  refine Finset.sum_congr rfl fun y _ => ?_
  rw [mulQ_off]
  ring

theorem loss4_congr {sh : Ix4} {g G : Ix4 → ℂ} {θ φ : ℝ}
    (h : ∀ m < sh.1, ∀ n < sh.2.1, ∀ p < sh.2.2.1, ∀ q < sh.2.2.2,
      G (m, n, p, q) = amp 4 (bsA θ φ) (fun _ => 0) 1 (toF [m, n, p, q])) :
    loss4 sh g G = (∑ y ∈ Finset.range sh.1 ×ˢ Finset.range sh.2.1 ×ˢ Finset.range sh.2.2.1 ×ˢ
        Finset.range sh.2.2.2, g y * amp 4 (bsA θ φ) (fun _ => 0) 1 (toF [y.1, y.2.1, y.2.2.1, y.2.2.2])).re := by
  refine congrArg Complex.re (Finset.sum_congr rfl ?_)
  rintro ⟨m, n, p, q⟩ hy
  simp only [Finset.mem_product, Finset.mem_range] at hy
  rw [h m hy.1 n hy.2.1 p hy.2.2.1 q hy.2.2.2]

/-- **C62 (beamsplitter)**: for any forward strategy `G(θ, φ)` that returns the Fock amplitudes of the beamsplitter
(`stable_beamsplitter` always does), both outputs of `beamsplitter_vjp` are exactly twice the derivatives of
`Re ∑ g[m,n,p,q] G[m,n,p,q]`. -/
theorem C62_beamsplitter (M N P Q : ℕ) (hQ : 0 < Q) (G : ℝ → ℝ → Ix4 → ℂ)
    (hG : ∀ θ φ, ∀ m < M, ∀ n < N, ∀ p < P, ∀ q < Q,
      G θ φ (m, n, p, q) = amp 4 (bsA θ φ) (fun _ => 0) 1 (toF [m, n, p, q]))
    (θ φ : ℝ) (g : Ix4 → ℂ) (rd : List ℤ → ℂ)
    (hrd : ∀ m < M, ∀ n < N, ∀ p < P, ∀ q < Q,
      rd [(m : ℤ), (n : ℤ), (p : ℤ), (q : ℤ)] = G θ φ (m, n, p, q)) :
    HasDerivAt (fun θ => loss4 (M, N, P, Q) g (G θ φ)) ((bsVjp (M, N, P, Q) rd g θ φ).1 / 2) θ ∧
    HasDerivAt (fun φ => loss4 (M, N, P, Q) g (G θ φ)) ((bsVjp (M, N, P, Q) rd g θ φ).2 / 2) φ := by
  have hrd' : ∀ m < M, ∀ n < N, ∀ p < P, ∀ q < Q,
      rd [(m : ℤ), (n : ℤ), (p : ℤ), (q : ℤ)] = amp 4 (bsA θ φ) (fun _ => 0) 1 (toF [m, n, p, q]) :=
    fun m hm n hn p hp q hq => by rw [hrd m hm n hn p hp q hq, hG θ φ m hm n hn p hp q hq]
  have e : ∀ θ φ, loss4 (M, N, P, Q) g (G θ φ) = _ := fun θ φ =>
    loss4_congr (sh := (M, N, P, Q)) (g := g) (hG θ φ)
  simp only [e]
  have hsin := (Real.hasDerivAt_sin θ).ofReal_comp
  have hcos := (Real.hasDerivAt_cos θ).ofReal_comp
  constructor
  · have hd := bs_deriv (sh := (M, N, P, Q)) (rd := rd) hQ (Θ := fun t => t) (Φ := fun _ => φ) (x := θ)
      (V := fun i j => if i = j then -(Real.sin θ : ℂ) else if i = 0 then
        -Complex.exp (-Complex.I * φ) * (Real.cos θ : ℂ) else Complex.exp (Complex.I * φ) * (Real.cos θ : ℂ)) (by
        intro i hi j hj
        interval_cases i <;> interval_cases j <;> simp only [bsV]
        · simpa using hcos
        · simpa using hsin.const_mul (-Complex.exp (-Complex.I * φ))
        · simpa using hsin.const_mul (Complex.exp (Complex.I * φ))
        · simpa using hcos) g hrd'
    refine (hasDerivAt_re hd).congr_deriv ?_
    unfold bsVjp
    simp only [if_true, zero_ne_one, one_ne_zero, if_false]
    rw [mul_div_assoc, mul_div_left_comm, div_self two_ne_zero, mul_one]
    congr 1
    ring
  · have hd := bs_deriv (sh := (M, N, P, Q)) (rd := rd) hQ (Θ := fun _ => θ) (Φ := fun t => t) (x := φ)
      (V := fun i j => if i = j then 0 else if i = 0 then
        -(-Complex.I * Complex.exp (-Complex.I * φ)) * (Real.sin θ : ℂ)
        else Complex.I * Complex.exp (Complex.I * φ) * (Real.sin θ : ℂ)) (by
        intro i hi j hj
        interval_cases i <;> interval_cases j <;> simp only [bsV]
        · simpa using hasDerivAt_const φ (Real.cos θ : ℂ)
        · simpa using (hasDerivAt_expNI φ).neg.mul_const (Real.sin θ : ℂ)
        · simpa using (hasDerivAt_expI φ).mul_const (Real.sin θ : ℂ)
        · simpa using hasDerivAt_const φ (Real.cos θ : ℂ)) g hrd'
    refine (hasDerivAt_re hd).congr_deriv ?_
    unfold bsVjp
    simp only [if_true, zero_ne_one, one_ne_zero, if_false]
    rw [mul_div_assoc, mul_div_left_comm, div_self two_ne_zero, mul_one]
    congr 1
    ring

/-- The default (`stable`) strategy meets the hypothesis of `C62_beamsplitter`; so does `beamsplitter` when
`P ≤ N`. -/
theorem C62_stable_beamsplitter (M N P Q : ℕ) (hQ : 0 < Q) (θ φ : ℝ) (g : Ix4 → ℂ) (rd : List ℤ → ℂ)
    (hrd : ∀ m < M, ∀ n < N, ∀ p < P, ∀ q < Q,
      rd [(m : ℤ), (n : ℤ), (p : ℤ), (q : ℤ)] = stableBeamsplitter (M, N, P, Q) θ φ (m, n, p, q)) :
    HasDerivAt (fun θ => loss4 (M, N, P, Q) g (stableBeamsplitter (M, N, P, Q) θ φ))
      ((bsVjp (M, N, P, Q) rd g θ φ).1 / 2) θ ∧
    HasDerivAt (fun φ => loss4 (M, N, P, Q) g (stableBeamsplitter (M, N, P, Q) θ φ))
      ((bsVjp (M, N, P, Q) rd g θ φ).2 / 2) φ :=
  C62_beamsplitter M N P Q hQ (stableBeamsplitter (M, N, P, Q))
    (fun θ φ m hm n hn p hp q hq => C23_stable_beamsplitter M N P Q θ φ m n p q hm hn hp hq) θ φ g rd hrd

/-- Concrete instances: reading the array returned by the forward pass itself (a negative or too large index reads
whatever the function holds there). -/
example (r φ : ℝ) (g : ℕ × ℕ → ℂ) : HasDerivAt (fun r => loss2 3 4 g (squeezer 3 4 r φ))
    ((squeezerVjp 3 4 (fun l => squeezer 3 4 r φ ((l.getD 0 0).toNat, (l.getD 1 0).toNat)) g r φ).1 / 2) r :=
  C62_squeezer_r 3 4 (by omega) r φ g _ (fun m _ n _ => by simp)

example (θ φ : ℝ) (g : Ix4 → ℂ) :
    HasDerivAt (fun θ => loss4 (2, 3, 2, 3) g (stableBeamsplitter (2, 3, 2, 3) θ φ))
      ((bsVjp (2, 3, 2, 3) (fun l => stableBeamsplitter (2, 3, 2, 3) θ φ ((l.getD 0 0).toNat, (l.getD 1 0).toNat,
        (l.getD 2 0).toNat, (l.getD 3 0).toNat)) g θ φ).1 / 2) θ :=
  (C62_stable_beamsplitter 2 3 2 3 (by omega) θ φ g _ (fun m _ n _ p _ q _ => by simp)).1

end Verif.Fock
