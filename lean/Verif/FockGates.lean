import Verif.Vanilla
import Mathlib.Analysis.SpecialFunctions.Trigonometric.Basic
import Mathlib.Tactic.IntervalCases

/-!
# Model of the optimised gate strategies: squeezer, squeezed, beamsplitter, stable_beamsplitter (C23, C24)

Tensors are functions on index tuples; a negative coordinate wraps around.
-/

namespace Verif.Fock

/-! ## Generic lemma for loops that fill a tensor -/

theorem fold_fill {ι : Type*} [DecidableEq ι] (lt : ι → ι → Prop) (l : List ι) (hl : l.Pairwise lt)
    (hirr : ∀ a, ¬ lt a a) (hasymm : ∀ a b, lt a b → ¬ lt b a)
    (step : (ι → ℂ) → ι → ℂ) (tgt : ι → ℂ) (G0 : ι → ℂ)
    (hstep : ∀ x ∈ l, ∀ G : ι → ℂ, (∀ y ∈ l, lt y x → G y = tgt y) → (∀ y, y ∉ l → G y = G0 y) →
      step G x = tgt x) :
    ∀ y, (l.foldl (fun G x => Function.update G x (step G x)) G0) y = if y ∈ l then tgt y else G0 y := by
  suffices H : ∀ (pre post : List ι) (G : ι → ℂ), l = pre ++ post →
      (∀ y ∈ pre, G y = tgt y) → (∀ y, y ∉ pre → G y = G0 y) →
      ∀ y, (post.foldl (fun G x => Function.update G x (step G x)) G) y = if y ∈ l then tgt y else G0 y by
    exact H [] l G0 rfl (by simp) (by simp)
  intro pre post
  induction post generalizing pre with
  | nil =>
    intro G e h1 h2 y
    simp only [List.append_nil] at e
    subst e
    by_cases hy : y ∈ l
    · simp [hy, h1 y hy]
    · simp [hy, h2 y hy]
  | cons x post ih =>
    intro G e h1 h2 y
    simp only [List.foldl_cons]
    refine ih (pre ++ [x]) _ (by simp [e]) ?_ ?_ y
    · intro z hz
      by_cases hzx : z = x
      · subst hzx
        rw [Function.update_self]
        apply hstep z (by simp [e]) G
        · intro w hw hlt
          apply h1
          rw [e] at hw hl
          rcases List.mem_append.1 hw with h | h
          · exact h
          · exfalso
            rw [List.pairwise_append] at hl
            rcases List.mem_cons.1 h with rfl | h
            · exact hirr _ hlt
            · exact hasymm _ _ hlt ((List.pairwise_cons.1 hl.2.1).1 w h)
        · intro w hw
          apply h2
          intro h; apply hw; rw [e]; simp [h]
      · rw [Function.update_of_ne hzx]
        apply h1
        simpa [hzx] using hz
    · intro z hz
      have : z ≠ x := by rintro rfl; simp at hz
      rw [Function.update_of_ne this]
      apply h2
      intro h; apply hz; simp [h]

/-- Lexicographic order on pairs. -/
def Lt2 (a b : ℕ × ℕ) : Prop := a.1 < b.1 ∨ (a.1 = b.1 ∧ a.2 < b.2)

/-- Python's `range(start, stop, step)` for natural numbers. -/
def pyRange (start stop step : ℕ) : List ℕ := List.range' start ((stop - start + step - 1) / step) step

theorem mem_pyRange {a b s x : ℕ} (hs : 0 < s) : x ∈ pyRange a b s ↔ ∃ i, x = a + s * i ∧ x < b := by
  unfold pyRange
  rw [List.mem_range']
  constructor
  · rintro ⟨i, hi, rfl⟩
    refine ⟨i, rfl, ?_⟩
    have h1 : i + 1 ≤ (b - a + s - 1) / s := hi
    rw [Nat.le_div_iff_mul_le hs] at h1
    have : s * i + s = (i + 1) * s := by ring
    omega
  · rintro ⟨i, rfl, hlt⟩
    refine ⟨i, ?_, rfl⟩
    show i + 1 ≤ _
    rw [Nat.le_div_iff_mul_le hs]
    have : (i + 1) * s = s * i + s := by ring
    omega

theorem pairwise_pyRange {a b s : ℕ} (hs : 0 < s) : (pyRange a b s).Pairwise (· < ·) :=
  List.pairwise_lt_range' _ hs

theorem pairwise_nested {l : List ℕ} (f : ℕ → List ℕ) (hl : l.Pairwise (· < ·))
    (hf : ∀ m, (f m).Pairwise (· < ·)) : (l.flatMap fun m => (f m).map fun n => (m, n)).Pairwise Lt2 := by
  rw [List.pairwise_flatMap]
  constructor
  · intro m _
    rw [List.pairwise_map]
    exact (hf m).imp (fun h => Or.inr ⟨rfl, h⟩)
  · refine hl.imp ?_
    intro a b hab x hx y hy
    obtain ⟨_, _, rfl⟩ := List.mem_map.1 hx
    obtain ⟨_, _, rfl⟩ := List.mem_map.1 hy
    exact Or.inl hab

theorem Lt2.irrefl (a) : ¬ Lt2 a a := by unfold Lt2; omega
theorem Lt2.asymm (a b) (h : Lt2 a b) : ¬ Lt2 b a := by unfold Lt2 at *; omega

/-! ## Recursions for one, two and four indices -/

theorem dn_toF (l : List ℕ) (i : ℕ) : dn (toF l) i = toF (l.set i (l.getD i 0 - 1)) := by
  ext j
  simp only [dn, Finsupp.tsub_apply, toF_apply, Finsupp.single_apply, List.getD_eq_getElem?_getD,
    List.getElem?_set]
  by_cases h : i = j
  · subst h
    by_cases hl : i < l.length
    · simp [hl]
    · simp [hl]
  · simp [h]

/-! ## Squeezer -/

/-- Python/numba indexing of a matrix with wrap-around. -/
def rd2 (M N : ℕ) (S : ℕ × ℕ → ℂ) (i j : ℤ) : ℂ :=
  S ((if i < 0 then (i + M).toNat else i.toNat), (if j < 0 then (j + N).toNat else j.toNat))

/-- math/lattice/strategies/squeezer.py:53-65: the two loops of `squeezer`, with `t = eitheta_tanhr`,
`tc` its conjugate, `s = sechr` and `c0 = sqrt(sechr)`. -/
noncomputable def squeezerCore (M N : ℕ) (t tc s c0 : ℂ) : ℕ × ℕ → ℂ :=
  let S0 : ℕ × ℕ → ℂ := Function.update (fun _ => 0) (0, 0) c0
  let S1 := ((pyRange 2 M 2).map fun m => (m, 0)).foldl (fun S p =>
    Function.update S p (-(sq (p.1 - 1)) / sq p.1 * t * rd2 M N S ((p.1 : ℤ) - 2) 0)) S0
  ((List.range M).flatMap fun m => ((pyRange (2 - m % 2) N 2).filter fun n => (m + n) % 2 == 0).map
      fun n => (m, n)).foldl (fun S p =>
    Function.update S p (sq (p.2 - 1) / sq p.2 * tc * rd2 M N S p.1 ((p.2 : ℤ) - 2) +
      sq p.1 / sq p.2 * s * rd2 M N S ((p.1 : ℤ) - 1) ((p.2 : ℤ) - 1))) S1

/-- math/lattice/strategies/squeezer.py:28-65 `squeezer(shape, r, theta)`. -/
noncomputable def squeezer (M N : ℕ) (r θ : ℝ) : ℕ × ℕ → ℂ :=
  let t := Complex.exp (Complex.I * θ) * (Real.tanh r : ℂ)
  squeezerCore M N t (starRingEnd ℂ t) ((1 / Real.cosh r : ℝ) : ℂ) ((Real.sqrt (1 / Real.cosh r) : ℝ) : ℂ)

/-- math/lattice/strategies/squeezer.py:126-146 `squeezed(cutoff, r, theta)`. -/
noncomputable def squeezed (M : ℕ) (r θ : ℝ) : ℕ → ℂ :=
  let t := Complex.exp (Complex.I * θ) * (-(Real.tanh r) : ℂ)
  (pyRange 2 M 2).foldl (fun S m => Function.update S m (sq (m - 1) / sq m * t * S (m - 2)))
    (Function.update (fun _ => 0) 0 ((Real.sqrt (1 / Real.cosh r) : ℝ) : ℂ))

/-- physics/triples.py:449-483 `squeezing_gate_Abc` (unbatched): the matrix `A`. -/
noncomputable def squeezingA (r φ : ℝ) (i j : ℕ) : ℂ :=
  match i, j with
  | 0, 0 => -Complex.exp (Complex.I * φ) * (Real.sinh r / Real.cosh r : ℝ)
  | 0, 1 | 1, 0 => (1 / Real.cosh r : ℝ)
  | 1, 1 => Complex.exp (-Complex.I * φ) * (Real.sinh r / Real.cosh r : ℝ)
  | _, _ => 0

/-- physics/triples.py:449-483: the scalar `c`. -/
noncomputable def squeezingC (r : ℝ) : ℂ := ((1 / Real.sqrt (Real.cosh r) : ℝ) : ℂ)

theorem amp2_row {A b c} (hA : Symm 2 A) (hb : b 0 = 0) (m n : ℕ) (hm : m ≠ 0) :
    amp 2 A b c (toF [m, n]) = (A 0 0 * sq (m - 1) * amp 2 A b c (toF [m - 2, n]) +
      A 0 1 * sq n * amp 2 A b c (toF [m - 1, n - 1])) / sq m := by
  rw [amp_rec c hA (i := 0) (by omega) _ (by simpa using hm)]
  simp [dn_toF, Finset.sum_range_succ, hb, Nat.sub_sub]

theorem amp2_col {A b c} (hA : Symm 2 A) (hb : b 1 = 0) (m n : ℕ) (hn : n ≠ 0) :
    amp 2 A b c (toF [m, n]) = (A 1 0 * sq m * amp 2 A b c (toF [m - 1, n - 1]) +
      A 1 1 * sq (n - 1) * amp 2 A b c (toF [m, n - 2])) / sq n := by
  rw [amp_rec c hA (i := 1) (by omega) _ (by simpa using hn)]
  simp [dn_toF, Finset.sum_range_succ, hb, Nat.sub_sub]

/-- Parity: without linear terms the amplitudes of odd total photon number vanish. -/
theorem amp_parity {D A b} (c : ℂ) (hA : Symm D A) (hb : ∀ i < D, b i = 0) (k : ℕ →₀ ℕ)
    (hk : k.support ⊆ Finset.range D) (hodd : k.degree % 2 = 1) : amp D A b c k = 0 := by
  induction hd : k.degree using Nat.strong_induction_on generalizing k with
  | _ d ih =>
    have hne : k ≠ 0 := by rintro rfl; simp at hodd
    obtain ⟨i, hi⟩ := Finsupp.support_nonempty_iff.2 hne
    have hiD : i < D := Finset.mem_range.1 (hk hi)
    have hki : k i ≠ 0 := by simpa using hi
    rw [amp_rec c hA hiD k hki, hb i hiD, zero_mul, zero_add, Finset.sum_eq_zero, zero_div]
    intro j _
    by_cases hz : dn k i j = 0
    · simp [hz]
    · have e1 : k.degree = (dn k i).degree + 1 := by rw [← degree_up, up_dn hki]
      have e2 : (dn k i).degree = (dn (dn k i) j).degree + 1 := by rw [← degree_up, up_dn hz]
      have hsub : (dn (dn k i) j).support ⊆ Finset.range D := by
        intro x hx
        apply hk
        simp only [dn, Finsupp.mem_support_iff, Finsupp.tsub_apply] at hx ⊢
        omega
      rw [ih _ (by omega) _ hsub (by omega) rfl, mul_zero]

theorem amp2_parity {A b} (c : ℂ) (hA : Symm 2 A) (hb : ∀ i < 2, b i = 0) (m n : ℕ)
    (h : (m + n) % 2 = 1) : amp 2 A b c (toF [m, n]) = 0 := by
  have hs : (toF [m, n]).support ⊆ Finset.range 2 := by
    intro x hx
    simp only [Finsupp.mem_support_iff, toF_apply] at hx
    have := lt_of_getD_ne hx
    simpa using this
  apply amp_parity c hA hb _ hs
  have : (toF [m, n]).degree = ∑ i ∈ Finset.range 2, toF [m, n] i := by
    rw [Finsupp.degree_apply]
    exact Finset.sum_subset hs (by intro x _ hx; simpa using hx)
  rw [this]
  simp [Finset.sum_range_succ, h]

theorem squeezerCore_eq (M N : ℕ) (hM : 0 < M) (hN : 0 < N) (t tc s c0 : ℂ) (A : ℕ → ℕ → ℂ)
    (h00 : A 0 0 = -t) (h01 : A 0 1 = s) (h10 : A 1 0 = s) (h11 : A 1 1 = tc) (m n : ℕ) (hm : m < M) (hn : n < N) :
    squeezerCore M N t tc s c0 (m, n) = amp 2 A (fun _ => 0) c0 (toF [m, n]) := by
  have hA : Symm 2 A := by
    intro i hi j hj
    interval_cases i <;> interval_cases j <;> simp [h01, h10]
  set T : ℕ × ℕ → ℂ := fun p => amp 2 A (fun _ => 0) c0 (toF [p.1, p.2]) with hT
  have hT0 : T (0, 0) = c0 := by
    simp only [hT]
    rw [show toF [0, 0] = 0 from toF_unravel_zero [1, 1], amp_zero]
  have hpar : ∀ p : ℕ × ℕ, (p.1 + p.2) % 2 = 1 → T p = 0 :=
    fun p h => amp2_parity c0 hA (fun _ _ => rfl) p.1 p.2 h
  unfold squeezerCore
  -- first column
  set S0 : ℕ × ℕ → ℂ := Function.update (fun _ => 0) (0, 0) c0 with hS0
  have col := fold_fill Lt2 ((pyRange 2 M 2).map fun m => (m, 0))
    (by rw [List.pairwise_map]; exact (pairwise_pyRange (by omega)).imp (fun h => Or.inl h))
    Lt2.irrefl Lt2.asymm
    (fun S p => -(sq (p.1 - 1)) / sq p.1 * t * rd2 M N S ((p.1 : ℤ) - 2) 0) T S0 (by
      rintro ⟨m, n⟩ hx G h1 h2
      obtain ⟨m', hm', e⟩ := List.mem_map.1 hx
      obtain ⟨rfl, rfl⟩ := Prod.mk.inj e
      obtain ⟨i, hi, hlt⟩ := (mem_pyRange (by omega)).1 hm'
      have hr : rd2 M N G ((m' : ℤ) - 2) 0 = T (m' - 2, 0) := by
        unfold rd2
        rw [if_neg (by omega), if_neg (by omega)]
        have : ((m' : ℤ) - 2).toNat = m' - 2 := by omega
        rw [this]
        simp only [Int.toNat_zero]
        by_cases h0 : m' = 2
        · subst h0
          rw [h2, hS0]
          · simp [hT0]
          · simp [mem_pyRange]; intro x h; omega
        · apply h1
          · apply List.mem_map.2
            refine ⟨m' - 2, ?_, rfl⟩
            rw [mem_pyRange (by omega)]
            exact ⟨i - 1, by omega, by omega⟩
          · left; simp; omega
      simp only [hr]
      simp only [hT]
      rw [amp2_row hA rfl m' 0 (by omega), h00]
      simp; ring)
  set S1 := ((pyRange 2 M 2).map fun m => (m, 0)).foldl (fun S p =>
    Function.update S p (-(sq (p.1 - 1)) / sq p.1 * t * rd2 M N S ((p.1 : ℤ) - 2) 0)) S0 with hS1
  -- after the first column, everything outside the second loop is correct
  set L := ((List.range M).flatMap fun m =>
    ((pyRange (2 - m % 2) N 2).filter fun n => (m + n) % 2 == 0).map fun n => (m, n)) with hL
  have memL : ∀ p : ℕ × ℕ, p ∈ L ↔ p.1 < M ∧ p.2 < N ∧ 0 < p.2 ∧ (p.1 + p.2) % 2 = 0 := by
    rintro ⟨a, d⟩
    simp only [hL, List.mem_flatMap, List.mem_range, List.mem_map, List.mem_filter, Prod.mk.injEq,
      mem_pyRange (show 0 < 2 by omega), beq_iff_eq]
    constructor
    · rintro ⟨x, hx, y, ⟨⟨i, hi, hlt⟩, hpar⟩, rfl, rfl⟩
      refine ⟨hx, hlt, by omega, hpar⟩
    · rintro ⟨h1, h2, h3, h4⟩
      exact ⟨a, h1, d, ⟨⟨(d - (2 - a % 2)) / 2, by omega, h2⟩, h4⟩, rfl, rfl⟩
  have out : ∀ p : ℕ × ℕ, p.1 < M → p.2 < N → p ∉ L → S1 p = T p := by
    rintro ⟨a, d⟩ ha hd hp
    rw [col]
    split_ifs with h
    · rfl
    · rw [memL] at hp
      simp only at hp ha hd
      by_cases hz : (a, d) = (0, 0)
      · rw [hz, hS0, Function.update_self, hT0]
      · rw [hS0, Function.update_of_ne hz]
        symm
        apply hpar
        by_contra hc
        simp only at hc
        by_cases hd0 : d = 0
        · subst hd0
          apply h
          apply List.mem_map.2
          refine ⟨a, ?_, rfl⟩
          rw [mem_pyRange (by omega)]
          have : a ≠ 0 := by rintro rfl; exact hz rfl
          exact ⟨(a - 2) / 2, by omega, ha⟩
        · apply hp
          exact ⟨ha, hd, by omega, by omega⟩
  have fin := fold_fill Lt2 L
    (pairwise_nested _ List.pairwise_lt_range (fun m => (pairwise_pyRange (by omega)).filter _))
    Lt2.irrefl Lt2.asymm
    (fun S p => sq (p.2 - 1) / sq p.2 * tc * rd2 M N S p.1 ((p.2 : ℤ) - 2) +
      sq p.1 / sq p.2 * s * rd2 M N S ((p.1 : ℤ) - 1) ((p.2 : ℤ) - 1)) T S1 (by
      rintro ⟨a, d⟩ hx G h1 h2
      obtain ⟨ha, hd, hd0, hp⟩ := (memL _).1 hx
      simp only at ha hd hd0 hp
      have get : ∀ p : ℕ × ℕ, p.1 < M → p.2 < N → Lt2 p (a, d) → G p = T p := by
        intro p hp1 hp2 hlt
        by_cases hm : p ∈ L
        · exact h1 p hm hlt
        · rw [h2 p hm, out p hp1 hp2 hm]
      have r1 : sq (d - 1) * rd2 M N G a ((d : ℤ) - 2) = sq (d - 1) * T (a, d - 2) := by
        by_cases hd1 : d = 1
        · subst hd1; simp
        · congr 1
          unfold rd2
          rw [if_neg (by omega), if_neg (by omega)]
          have e1 : ((d : ℤ) - 2).toNat = d - 2 := by omega
          rw [e1, Int.toNat_natCast]
          exact get _ ha (by simp; omega) (Or.inr ⟨rfl, by simp; omega⟩)
      have r2 : sq a * rd2 M N G ((a : ℤ) - 1) ((d : ℤ) - 1) = sq a * T (a - 1, d - 1) := by
        by_cases ha0 : a = 0
        · subst ha0; simp
        · congr 1
          unfold rd2
          rw [if_neg (by omega), if_neg (by omega)]
          have e1 : ((d : ℤ) - 1).toNat = d - 1 := by omega
          have e2 : ((a : ℤ) - 1).toNat = a - 1 := by omega
          rw [e1, e2]
          exact get _ (by simp; omega) (by simp; omega) (Or.inl (by simp; omega))
      show sq (d - 1) / sq d * tc * rd2 M N G a ((d : ℤ) - 2) +
        sq a / sq d * s * rd2 M N G ((a : ℤ) - 1) ((d : ℤ) - 1) = T (a, d)
      have e : T (a, d) = (s * (sq a * T (a - 1, d - 1)) + tc * (sq (d - 1) * T (a, d - 2))) / sq d := by
        simp only [hT]
        rw [amp2_col hA rfl a d (by omega), h10, h11]; ring
      rw [e, ← r1, ← r2]; ring)
  rw [fin]
  split_ifs with h
  · rfl
  · exact out _ hm hn h

theorem conj_exp_I (θ : ℝ) : starRingEnd ℂ (Complex.exp (Complex.I * θ)) = Complex.exp (-Complex.I * θ) := by
  rw [← Complex.exp_conj]
  simp

/-- **C24 (squeezing gate).** The squeezer strategy returns, at every index inside the shape, the Fock amplitude
of the Bargmann triple of the squeezing gate. -/
theorem C24_squeezer (M N : ℕ) (r θ : ℝ) (m n : ℕ) (hm : m < M) (hn : n < N) :
    squeezer M N r θ (m, n) = amp 2 (squeezingA r θ) (fun _ => 0) (squeezingC r) (toF [m, n]) := by
  have hc : ((Real.sqrt (1 / Real.cosh r) : ℝ) : ℂ) = squeezingC r := by
    simp [squeezingC]
  unfold squeezer
  rw [hc]
  apply squeezerCore_eq M N (by omega) (by omega) _ _ _ _ _ _ _ _ _ m n hm hn
  · simp [squeezingA, Real.tanh_eq_sinh_div_cosh]
  · simp [squeezingA]
  · simp [squeezingA]
  · rw [map_mul, conj_exp_I, Complex.conj_ofReal]
    simp [squeezingA, Real.tanh_eq_sinh_div_cosh]

/-- **C24 (parity).** Entries of the squeezing gate with odd total photon number are exactly zero. -/
theorem C24_squeezer_parity (M N : ℕ) (r θ : ℝ) (m n : ℕ) (hm : m < M) (hn : n < N) (h : (m + n) % 2 = 1) :
    squeezer M N r θ (m, n) = 0 := by
  rw [C24_squeezer M N r θ m n hm hn]
  refine amp2_parity _ ?_ (fun _ _ => rfl) m n h
  intro i hi j hj
  interval_cases i <;> interval_cases j <;> simp [squeezingA]

/-- physics/triples.py:126-150 `squeezed_vacuum_state_Abc` (unbatched): the matrix `A`. -/
noncomputable def squeezedA (r φ : ℝ) (_ _ : ℕ) : ℂ :=
  -(Real.sinh r / Real.cosh r : ℝ) * Complex.exp (Complex.I * φ)

theorem amp1_row {A b c} (hb : b 0 = 0) (m : ℕ) (hm : m ≠ 0) :
    amp 1 A b c (toF [m]) = (A 0 0 * sq (m - 1) * amp 1 A b c (toF [m - 2])) / sq m := by
  have hA : Symm 1 A := by intro i hi j hj; obtain rfl : i = 0 := by omega
                           obtain rfl : j = 0 := by omega
                           rfl
  rw [amp_rec c hA (i := 0) (by omega) _ (by simpa using hm)]
  simp [dn_toF, hb, Nat.sub_sub]

theorem toF_single_zero : toF [0] = 0 := toF_unravel_zero [1]

/-- **C24 (squeezed vacuum).** `squeezed` returns the amplitudes of the squeezed vacuum, at every index. -/
theorem C24_squeezed (M : ℕ) (r θ : ℝ) (m : ℕ) (hm : m < M) :
    squeezed M r θ m = amp 1 (squeezedA r θ) (fun _ => 0) (squeezingC r) (toF [m]) := by
  have hc : ((Real.sqrt (1 / Real.cosh r) : ℝ) : ℂ) = squeezingC r := by
    simp [squeezingC]
  set T : ℕ → ℂ := fun m => amp 1 (squeezedA r θ) (fun _ => 0) (squeezingC r) (toF [m]) with hT
  have hT0 : T 0 = squeezingC r := by simp only [hT]; rw [toF_single_zero, amp_zero]
  have hrec : ∀ m, m ≠ 0 → T m = (squeezedA r θ 0 0 * sq (m - 1) * T (m - 2)) / sq m := by
    intro m hm
    exact amp1_row rfl m hm
  have hodd : ∀ i, T (2 * i + 1) = 0 := by
    intro i
    induction i with
    | zero => rw [hrec _ (by omega)]; simp
    | succ i ih => rw [hrec _ (by omega), show 2 * (i + 1) + 1 - 2 = 2 * i + 1 by omega, ih]; simp
  unfold squeezed
  rw [hc]
  have := fold_fill (· < ·) (pyRange 2 M 2) (pairwise_pyRange (by omega)) (fun _ => lt_irrefl _)
    (fun _ _ h => by omega)
    (fun S m => sq (m - 1) / sq m * (Complex.exp (Complex.I * θ) * (-(Real.tanh r) : ℂ)) * S (m - 2)) T
    (Function.update (fun _ => 0) 0 (squeezingC r)) (by
      intro x hx G h1 h2
      obtain ⟨i, hi, hlt⟩ := (mem_pyRange (by omega)).1 hx
      have hr : G (x - 2) = T (x - 2) := by
        by_cases h0 : x = 2
        · subst h0
          rw [h2]
          · simp [hT0]
          · rw [mem_pyRange (by omega)]; rintro ⟨i, h, _⟩; omega
        · apply h1
          · rw [mem_pyRange (by omega)]
            exact ⟨i - 1, by omega, by omega⟩
          · omega
      simp only [hr]
      rw [hrec x (by omega)]
      simp only [squeezedA, Real.tanh_eq_sinh_div_cosh]
      ring) m
  refine this.trans ?_
  split_ifs with h
  · rfl
  · rw [mem_pyRange (by omega)] at h
    by_cases h0 : m = 0
    · subst h0; rw [Function.update_self]; exact hT0.symm
    · rw [Function.update_of_ne h0]
      have : m % 2 = 1 := by
        by_contra hc
        exact h ⟨(m - 2) / 2, by omega, hm⟩
      have e : m = 2 * (m / 2) + 1 := by omega
      change 0 = T m
      rw [e, hodd]

/-- Sanity check that the specification is not trivial: the two-photon amplitude of a squeezed vacuum. -/
theorem C24_squeezed_two (r θ : ℝ) (M : ℕ) (hM : 2 < M) :
    squeezed M r θ 2 = -(Real.tanh r) * Complex.exp (Complex.I * θ) / sq 2 * squeezingC r := by
  rw [C24_squeezed M r θ 2 hM, amp1_row rfl 2 (by omega)]
  simp only [Nat.sub_self, toF_single_zero, amp_zero, squeezedA, Real.tanh_eq_sinh_div_cosh]
  simp [sq]
  ring

end Verif.Fock
