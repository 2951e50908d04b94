import Verif.FockGates

/-!
# Model of `beamsplitter` and `stable_beamsplitter` (C23)
-/

namespace Verif.Fock

/-- Index tuples of a four-dimensional tensor. -/
abbrev Ix4 := ℕ × ℕ × ℕ × ℕ

/-- Wrap-around of one (possibly negative) coordinate. -/
def wrap1 (n : ℕ) (i : ℤ) : ℕ := if i < 0 then (i + n).toNat else i.toNat

/-- numba indexing of a four-dimensional array with wrap-around of negative indices. -/
def rd4 (sh : Ix4) (G : Ix4 → ℂ) (i j k l : ℤ) : ℂ :=
  G (wrap1 sh.1 i, wrap1 sh.2.1 j, wrap1 sh.2.2.1 k, wrap1 sh.2.2.2 l)

/-- math/lattice/strategies/beamsplitter.py:70-77: index list of the "rank 3" loop of `beamsplitter`
(`for m in range(M): for n in range(N - m): p = m + n; if 0 < p < P`). -/
def bsRank3 (sh : Ix4) : List Ix4 :=
  (List.range sh.1).flatMap fun m => ((List.range (sh.2.1 - m)).filter fun n =>
    decide (0 < m + n ∧ m + n < sh.2.2.1)).map fun n => (m, n, m + n, 0)

/-- math/lattice/strategies/beamsplitter.py:80-84: index list of the "rank 4" loop of `beamsplitter`
(`q = m + n - p`, kept when `0 < q < Q`). -/
def bsRank4 (sh : Ix4) : List Ix4 :=
  (List.range sh.1).flatMap fun (m : ℕ) => (List.range sh.2.1).flatMap fun (n : ℕ) =>
    ((List.range sh.2.2.1).filter fun (p : ℕ) =>
      decide ((0 : ℤ) < (m : ℤ) + (n : ℤ) - (p : ℤ) ∧ (m : ℤ) + (n : ℤ) - (p : ℤ) < (sh.2.2.2 : ℤ))).map fun p => (m, n, p, m + n - p)

/-- math/lattice/strategies/beamsplitter.py:74-77. -/
noncomputable def bsStep3 (sh : Ix4) (ct st : ℂ) (G : Ix4 → ℂ) (x : Ix4) : ℂ :=
  let m : ℤ := x.1; let n : ℤ := x.2.1; let p : ℤ := x.2.2.1
  ct * sq x.1 / sq x.2.2.1 * rd4 sh G (m - 1) n (p - 1) 0 +
    st * sq x.2.1 / sq x.2.2.1 * rd4 sh G m (n - 1) (p - 1) 0

/-- math/lattice/strategies/beamsplitter.py:86-89. -/
noncomputable def bsStep4 (sh : Ix4) (ct stc : ℂ) (G : Ix4 → ℂ) (x : Ix4) : ℂ :=
  let m : ℤ := x.1; let n : ℤ := x.2.1; let p : ℤ := x.2.2.1; let q : ℤ := x.2.2.2
  (-stc) * sq x.1 / sq x.2.2.2 * rd4 sh G (m - 1) n p (q - 1) +
    ct * sq x.2.1 / sq x.2.2.2 * rd4 sh G m (n - 1) p (q - 1)

/-- Running a fill loop: `for x in l: G[x] = step(G, x)`. -/
noncomputable def fill (step : (Ix4 → ℂ) → Ix4 → ℂ) (l : List Ix4) (G : Ix4 → ℂ) : Ix4 → ℂ :=
  l.foldl (fun G x => Function.update G x (step G x)) G

/-- math/lattice/strategies/beamsplitter.py:62-67: the tensor after `G = zeros(shape); G[0,0,0,0] = 1`. -/
noncomputable def bsInit : Ix4 → ℂ := Function.update (fun _ => 0) (0, 0, 0, 0) 1

/-- math/lattice/strategies/beamsplitter.py:36-90 `beamsplitter`, for `ct = cos θ`, `st = sin θ · exp(iφ)` and
`stc = conj st` (lines 62-64). -/
noncomputable def bsCore (sh : Ix4) (ct st stc : ℂ) : Ix4 → ℂ :=
  fill (bsStep4 sh ct stc) (bsRank4 sh) (fill (bsStep3 sh ct st) (bsRank3 sh) bsInit)

/-- math/lattice/strategies/beamsplitter.py:36-90 `beamsplitter(shape, theta, phi)`. -/
noncomputable def beamsplitter (sh : Ix4) (θ φ : ℝ) : Ix4 → ℂ :=
  let ct : ℂ := (Real.cos θ : ℂ)
  let st : ℂ := (Real.sin θ : ℂ) * Complex.exp (Complex.I * φ)
  bsCore sh ct st (starRingEnd ℂ st)

/-- math/lattice/strategies/beamsplitter.py:118-119: index list of the "rank 3" loop of `stable_beamsplitter`
(`for n in range(min(N, P - m))`), indices with `m = n = p = 0` are skipped at line 136. -/
def sbRank3 (sh : Ix4) : List Ix4 :=
  (List.range sh.1).flatMap fun m => ((List.range (min sh.2.1 (sh.2.2.1 - m))).filter fun n =>
    decide (0 < m ∨ 0 < n ∨ 0 < m + n)).map fun n => (m, n, m + n, 0)

/-- math/lattice/strategies/beamsplitter.py:140-144: index list of the "rank 4" loop of `stable_beamsplitter`
(`for p in range(max(0, m + n - Q), min(P, m + n))`, kept when `0 < q < Q`). -/
def sbRank4 (sh : Ix4) : List Ix4 :=
  (List.range sh.1).flatMap fun (m : ℕ) => (List.range sh.2.1).flatMap fun (n : ℕ) =>
    ((pyRange (m + n - sh.2.2.2) (min sh.2.2.1 (m + n)) 1).filter fun (p : ℕ) =>
      decide ((0 : ℤ) < (m : ℤ) + (n : ℤ) - (p : ℤ) ∧ (m : ℤ) + (n : ℤ) - (p : ℤ) < (sh.2.2.2 : ℤ))).map fun p => (m, n, p, m + n - p)

/-- math/lattice/strategies/beamsplitter.py:120-137: average over the available pivots. -/
noncomputable def sbStep3 (sh : Ix4) (ct st : ℂ) (G : Ix4 → ℂ) (x : Ix4) : ℂ :=
  let m : ℤ := x.1; let n : ℤ := x.2.1; let p : ℤ := x.2.2.1
  let v1 := if 0 < m then ct * sq x.2.2.1 / sq x.1 * rd4 sh G (m - 1) n (p - 1) 0 else 0
  let v2 := if 0 < n then st * sq x.2.2.1 / sq x.2.1 * rd4 sh G m (n - 1) (p - 1) 0 else 0
  let v3 := if 0 < p then ct * sq x.1 / sq x.2.2.1 * rd4 sh G (m - 1) n (p - 1) 0 +
    st * sq x.2.1 / sq x.2.2.1 * rd4 sh G m (n - 1) (p - 1) 0 else 0
  let pivots : ℕ := (if 0 < m then 1 else 0) + (if 0 < n then 1 else 0) + (if 0 < p then 1 else 0)
  (v1 + v2 + v3) / (pivots : ℂ)

/-- math/lattice/strategies/beamsplitter.py:145-171: average over the available pivots. -/
noncomputable def sbStep4 (sh : Ix4) (ct st stc : ℂ) (G : Ix4 → ℂ) (x : Ix4) : ℂ :=
  let m : ℤ := x.1; let n : ℤ := x.2.1; let p : ℤ := x.2.2.1; let q : ℤ := x.2.2.2
  let v1 := if 0 < m then ct * sq x.2.2.1 / sq x.1 * rd4 sh G (m - 1) n (p - 1) q -
    stc * sq x.2.2.2 / sq x.1 * rd4 sh G (m - 1) n p (q - 1) else 0
  let v2 := if 0 < n then st * sq x.2.2.1 / sq x.2.1 * rd4 sh G m (n - 1) (p - 1) q +
    ct * sq x.2.2.2 / sq x.2.1 * rd4 sh G m (n - 1) p (q - 1) else 0
  let v3 := if 0 < p then ct * sq x.1 / sq x.2.2.1 * rd4 sh G (m - 1) n (p - 1) q +
    st * sq x.2.1 / sq x.2.2.1 * rd4 sh G m (n - 1) (p - 1) q else 0
  let v4 := if 0 < q then -stc * sq x.1 / sq x.2.2.2 * rd4 sh G (m - 1) n p (q - 1) +
    ct * sq x.2.1 / sq x.2.2.2 * rd4 sh G m (n - 1) p (q - 1) else 0
  let pivots : ℕ := (if 0 < m then 1 else 0) + (if 0 < n then 1 else 0) + (if 0 < p then 1 else 0) +
    (if 0 < q then 1 else 0)
  (v1 + v2 + v3 + v4) / (pivots : ℂ)

noncomputable def sbCore (sh : Ix4) (ct st stc : ℂ) : Ix4 → ℂ :=
  fill (sbStep4 sh ct st stc) (sbRank4 sh) (fill (sbStep3 sh ct st) (sbRank3 sh) bsInit)

/-- math/lattice/strategies/beamsplitter.py:93-172 `stable_beamsplitter(shape, theta, phi)`. -/
noncomputable def stableBeamsplitter (sh : Ix4) (θ φ : ℝ) : Ix4 → ℂ :=
  let ct : ℂ := (Real.cos θ : ℂ)
  let st : ℂ := (Real.sin θ : ℂ) * Complex.exp (Complex.I * φ)
  sbCore sh ct st (starRingEnd ℂ st)

/-- physics/triples.py:486-522 `beamsplitter_gate_Abc` (unbatched): the unitary `V`. -/
noncomputable def bsV (θ φ : ℝ) (i j : ℕ) : ℂ :=
  match i, j with
  | 0, 0 | 1, 1 => (Real.cos θ : ℂ)
  | 0, 1 => -Complex.exp (-Complex.I * φ) * (Real.sin θ : ℂ)
  | 1, 0 => Complex.exp (Complex.I * φ) * (Real.sin θ : ℂ)
  | _, _ => 0

/-- physics/triples.py:486-522 `beamsplitter_gate_Abc` (unbatched): `A = [[0, V], [Vᵀ, 0]]`. -/
noncomputable def bsA (θ φ : ℝ) (i j : ℕ) : ℂ :=
  if i < 2 ∧ 2 ≤ j then bsV θ φ i (j - 2) else if 2 ≤ i ∧ j < 2 then bsV θ φ j (i - 2) else 0

/-! ## Proofs -/

/-- A symmetric four-mode matrix with only off-diagonal block `V`. -/
def offA (ct st stc : ℂ) (i j : ℕ) : ℂ :=
  match i, j with
  | 0, 2 | 2, 0 => ct
  | 0, 3 | 3, 0 => -stc
  | 1, 2 | 2, 1 => st
  | 1, 3 | 3, 1 => ct
  | _, _ => 0

theorem offA_symm (ct st stc) : Symm 4 (offA ct st stc) := by
  intro i hi j hj
  interval_cases i <;> interval_cases j <;> rfl

noncomputable def T4 (ct st stc : ℂ) (x : Ix4) : ℂ :=
  amp 4 (offA ct st stc) (fun _ => 0) 1 (toF [x.1, x.2.1, x.2.2.1, x.2.2.2])

theorem T4_zero (ct st stc) : T4 ct st stc (0, 0, 0, 0) = 1 := by
  unfold T4
  rw [show toF [0, 0, 0, 0] = 0 from toF_unravel_zero [1, 1, 1, 1], amp_zero]

theorem T4_m {ct st stc} (m n p q : ℕ) (h : m ≠ 0) : T4 ct st stc (m, n, p, q) =
    ct * sq p / sq m * T4 ct st stc (m - 1, n, p - 1, q) - stc * sq q / sq m * T4 ct st stc (m - 1, n, p, q - 1) := by
  unfold T4
  rw [amp_rec 1 (offA_symm ct st stc) (i := 0) (by omega) _ (by simpa using h)]
  simp [dn_toF, Finset.sum_range_succ, offA]
  ring

theorem T4_n {ct st stc} (m n p q : ℕ) (h : n ≠ 0) : T4 ct st stc (m, n, p, q) =
    st * sq p / sq n * T4 ct st stc (m, n - 1, p - 1, q) + ct * sq q / sq n * T4 ct st stc (m, n - 1, p, q - 1) := by
  unfold T4
  rw [amp_rec 1 (offA_symm ct st stc) (i := 1) (by omega) _ (by simpa using h)]
  simp [dn_toF, Finset.sum_range_succ, offA]
  ring

theorem T4_p {ct st stc} (m n p q : ℕ) (h : p ≠ 0) : T4 ct st stc (m, n, p, q) =
    ct * sq m / sq p * T4 ct st stc (m - 1, n, p - 1, q) + st * sq n / sq p * T4 ct st stc (m, n - 1, p - 1, q) := by
  unfold T4
  rw [amp_rec 1 (offA_symm ct st stc) (i := 2) (by omega) _ (by simpa using h)]
  simp [dn_toF, Finset.sum_range_succ, offA]
  ring

theorem T4_q {ct st stc} (m n p q : ℕ) (h : q ≠ 0) : T4 ct st stc (m, n, p, q) =
    -stc * sq m / sq q * T4 ct st stc (m - 1, n, p, q - 1) + ct * sq n / sq q * T4 ct st stc (m, n - 1, p, q - 1) := by
  unfold T4
  rw [amp_rec 1 (offA_symm ct st stc) (i := 3) (by omega) _ (by simpa using h)]
  simp [dn_toF, Finset.sum_range_succ, offA]
  ring

/-- Photon-number conservation of the specification. -/
theorem T4_conserve {ct st stc} (m n p q : ℕ) (h : m + n ≠ p + q) : T4 ct st stc (m, n, p, q) = 0 := by
  induction hd : m + n using Nat.strong_induction_on generalizing m n p q with
  | _ d ih =>
    by_cases hm : m = 0
    · by_cases hn : n = 0
      · subst hm hn
        by_cases hp : p = 0
        · rw [T4_q _ _ _ _ (by omega)]; simp
        · rw [T4_p _ _ _ _ hp]; simp
      · rw [T4_n _ _ _ _ hn]
        have e1 : sq p * T4 ct st stc (m, n - 1, p - 1, q) = 0 := by
          by_cases hp : p = 0
          · simp [hp]
          · rw [ih (m + (n - 1)) (by omega) _ _ _ _ (by omega) rfl, mul_zero]
        have e2 : sq q * T4 ct st stc (m, n - 1, p, q - 1) = 0 := by
          by_cases hq : q = 0
          · simp [hq]
          · rw [ih (m + (n - 1)) (by omega) _ _ _ _ (by omega) rfl, mul_zero]
        linear_combination (st / sq n) * e1 + (ct / sq n) * e2
    · rw [T4_m _ _ _ _ hm]
      have e1 : sq p * T4 ct st stc (m - 1, n, p - 1, q) = 0 := by
        by_cases hp : p = 0
        · simp [hp]
        · rw [ih (m - 1 + n) (by omega) _ _ _ _ (by omega) rfl, mul_zero]
      have e2 : sq q * T4 ct st stc (m - 1, n, p, q - 1) = 0 := by
        by_cases hq : q = 0
        · simp [hq]
        · rw [ih (m - 1 + n) (by omega) _ _ _ _ (by omega) rfl, mul_zero]
      linear_combination (ct / sq m) * e1 - (stc / sq m) * e2

/-- Order of the loops: lexicographic in `(m, n, p)`. -/
def Lt4 (a b : Ix4) : Prop :=
  a.1 < b.1 ∨ (a.1 = b.1 ∧ (a.2.1 < b.2.1 ∨ (a.2.1 = b.2.1 ∧ a.2.2.1 < b.2.2.1)))

theorem Lt4.irrefl (a) : ¬ Lt4 a a := by unfold Lt4; omega
theorem Lt4.asymm (a b) (h : Lt4 a b) : ¬ Lt4 b a := by unfold Lt4 at *; omega

theorem pw3 (M : ℕ) (f : ℕ → List ℕ) (hf : ∀ m, (f m).Pairwise (· < ·)) :
    ((List.range M).flatMap fun m => (f m).map fun n => ((m, n, m + n, 0) : Ix4)).Pairwise Lt4 := by
  rw [List.pairwise_flatMap]
  constructor
  · intro m _
    rw [List.pairwise_map]
    exact (hf m).imp (fun h => Or.inr ⟨rfl, Or.inl h⟩)
  · refine List.pairwise_lt_range.imp ?_
    intro a b hab x hx y hy
    obtain ⟨_, _, rfl⟩ := List.mem_map.1 hx
    obtain ⟨_, _, rfl⟩ := List.mem_map.1 hy
    exact Or.inl hab

theorem pw4 (M N : ℕ) (f : ℕ → ℕ → List ℕ) (hf : ∀ m n, (f m n).Pairwise (· < ·)) :
    ((List.range M).flatMap fun m => (List.range N).flatMap fun n =>
      (f m n).map fun p => ((m, n, p, m + n - p) : Ix4)).Pairwise Lt4 := by
  rw [List.pairwise_flatMap]
  constructor
  · intro m _
    rw [List.pairwise_flatMap]
    constructor
    · intro n _
      rw [List.pairwise_map]
      exact (hf m n).imp (fun h => Or.inr ⟨rfl, Or.inr ⟨rfl, h⟩⟩)
    · refine List.pairwise_lt_range.imp ?_
      intro a b hab x hx y hy
      obtain ⟨_, _, rfl⟩ := List.mem_map.1 hx
      obtain ⟨_, _, rfl⟩ := List.mem_map.1 hy
      exact Or.inr ⟨rfl, Or.inl hab⟩
  · refine List.pairwise_lt_range.imp ?_
    intro a b hab x hx y hy
    obtain ⟨_, _, hx⟩ := List.mem_flatMap.1 hx
    obtain ⟨_, _, hy⟩ := List.mem_flatMap.1 hy
    obtain ⟨_, _, rfl⟩ := List.mem_map.1 hx
    obtain ⟨_, _, rfl⟩ := List.mem_map.1 hy
    exact Or.inl hab

theorem mem_bsRank3 {sh : Ix4} {m n p q : ℕ} : (m, n, p, q) ∈ bsRank3 sh ↔
    m < sh.1 ∧ n + m < sh.2.1 ∧ p = m + n ∧ q = 0 ∧ 0 < p ∧ p < sh.2.2.1 := by
  simp only [bsRank3, List.mem_flatMap, List.mem_range, List.mem_map, List.mem_filter, Prod.mk.injEq,
    decide_eq_true_eq]
  constructor
  · rintro ⟨a, ha, b, ⟨hb, hc⟩, rfl, rfl, rfl, rfl⟩
    omega
  · rintro ⟨h1, h2, rfl, rfl, h3, h4⟩
    exact ⟨m, h1, n, ⟨by omega, h3, h4⟩, rfl, rfl, rfl, rfl⟩

theorem mem_bsRank4 {sh : Ix4} {m n p q : ℕ} : (m, n, p, q) ∈ bsRank4 sh ↔
    m < sh.1 ∧ n < sh.2.1 ∧ p < sh.2.2.1 ∧ m + n = p + q ∧ 0 < q ∧ q < sh.2.2.2 := by
  simp only [bsRank4, List.mem_flatMap, List.mem_range, List.mem_map, List.mem_filter, Prod.mk.injEq,
    decide_eq_true_eq]
  constructor
  · rintro ⟨a, ha, b, hb, c, ⟨hc, hd⟩, rfl, rfl, rfl, rfl⟩
    omega
  · rintro ⟨h1, h2, h3, h4, h5, h6⟩
    exact ⟨m, h1, n, h2, p, ⟨h3, by omega, by omega⟩, rfl, rfl, rfl, by omega⟩

theorem mem_sbRank3 {sh : Ix4} {m n p q : ℕ} : (m, n, p, q) ∈ sbRank3 sh ↔
    m < sh.1 ∧ n < sh.2.1 ∧ p = m + n ∧ q = 0 ∧ 0 < p ∧ p < sh.2.2.1 := by
  simp only [sbRank3, List.mem_flatMap, List.mem_range, List.mem_map, List.mem_filter, Prod.mk.injEq,
    decide_eq_true_eq]
  constructor
  · rintro ⟨a, ha, b, ⟨hb, hc⟩, rfl, rfl, rfl, rfl⟩
    omega
  · rintro ⟨h1, h2, rfl, rfl, h3, h4⟩
    exact ⟨m, h1, n, ⟨by omega, by omega⟩, rfl, rfl, rfl, rfl⟩

theorem mem_sbRank4 {sh : Ix4} {m n p q : ℕ} : (m, n, p, q) ∈ sbRank4 sh ↔
    m < sh.1 ∧ n < sh.2.1 ∧ p < sh.2.2.1 ∧ m + n = p + q ∧ 0 < q ∧ q < sh.2.2.2 := by
  simp only [sbRank4, List.mem_flatMap, List.mem_range, List.mem_map, List.mem_filter, Prod.mk.injEq,
    decide_eq_true_eq, mem_pyRange (show 0 < 1 by omega)]
  constructor
  · rintro ⟨a, ha, b, hb, c, ⟨⟨i, hi, hc⟩, hd⟩, rfl, rfl, rfl, rfl⟩
    omega
  · rintro ⟨h1, h2, h3, h4, h5, h6⟩
    exact ⟨m, h1, n, h2, p, ⟨⟨p - (m + n - sh.2.2.2), by omega, by omega⟩, by omega, by omega⟩, rfl, rfl, rfl,
      by omega⟩

theorem wrap1_nat (n i : ℕ) : wrap1 n i = i := by unfold wrap1; simp
theorem wrap1_pred (n : ℕ) {i : ℕ} (h : i ≠ 0) : wrap1 n ((i : ℤ) - 1) = i - 1 := by
  unfold wrap1; rw [if_neg (by omega)]; omega
theorem wrap1_zero (n : ℕ) : wrap1 n 0 = 0 := by simp [wrap1]

/-- Reads of `rd4` guarded by a vanishing factor. -/
theorem rd_guard {k : ℕ} {f x y : ℂ} (h : k ≠ 0 → x = y) : f * sq k * x = f * sq k * y := by
  by_cases hk : k = 0
  · simp [hk]
  · rw [h hk]

/-- Common loop invariant: on which entries the tensor agrees with `V`. -/
theorem fill_eq (step : (Ix4 → ℂ) → Ix4 → ℂ) (l : List Ix4) (hl : l.Pairwise Lt4) (V G0 : Ix4 → ℂ)
    (hstep : ∀ x ∈ l, ∀ G : Ix4 → ℂ, (∀ y ∈ l, Lt4 y x → G y = V y) → (∀ y, y ∉ l → G y = G0 y) →
      step G x = V x) (y : Ix4) : fill step l G0 y = if y ∈ l then V y else G0 y := by
  refine (fold_fill Lt4 l hl Lt4.irrefl Lt4.asymm step V G0 hstep y).trans ?_
  split_ifs <;> rfl

/-- The values actually produced by `beamsplitter`: the amplitude where `p < N`, zero elsewhere. -/
noncomputable def bsVal (N : ℕ) (ct st stc : ℂ) (x : Ix4) : ℂ := if x.2.2.1 < N then T4 ct st stc x else 0

theorem bsCore_eq {sh : Ix4} {ct st stc : ℂ} {m n p q : ℕ} (hm : m < sh.1) (hn : n < sh.2.1) (hp : p < sh.2.2.1)
    (hq : q < sh.2.2.2) : bsCore sh ct st stc (m, n, p, q) = bsVal sh.2.1 ct st stc (m, n, p, q) := by
  obtain ⟨M, N, P, Q⟩ := sh
  simp only at hm hn hp hq ⊢
  set V := bsVal N ct st stc with hV
  have r3 := fill_eq (bsStep3 (M, N, P, Q) ct st) (bsRank3 (M, N, P, Q))
    (pw3 _ _ (fun m => List.pairwise_lt_range.filter _)) V bsInit (by
      rintro ⟨m, n, p, q⟩ hx G h1 h2
      obtain ⟨a1, a2, rfl, rfl, a3, a4⟩ := mem_bsRank3.1 hx
      simp only at a1 a2 a4
      have get : ∀ m' n' p', m' < M → n' + m' < N → p' = m' + n' → p' < P → Lt4 (m', n', p', 0) (m, n, m + n, 0) →
          G (m', n', p', 0) = V (m', n', p', 0) := by
        rintro m' n' p' b1 b2 rfl b3 b4
        by_cases h0 : m' + n' = 0
        · obtain ⟨rfl, rfl⟩ : m' = 0 ∧ n' = 0 := by omega
          rw [h2 _ (by rw [mem_bsRank3]; omega)]
          simp only [Nat.add_zero]
          rw [hV]
          simp [bsVal, bsInit, T4_zero, show 0 < N by omega]
        · exact h1 _ (mem_bsRank3.2 ⟨b1, b2, rfl, rfl, by omega, b3⟩) b4
      have e1 := rd_guard (k := m) (f := ct) (x := rd4 (M, N, P, Q) G ((m : ℤ) - 1) n (((m + n : ℕ) : ℤ) - 1) 0)
        (y := V (m - 1, n, m + n - 1, 0)) (by
          intro h
          unfold rd4
          rw [wrap1_pred _ h, wrap1_nat, wrap1_pred _ (by omega), wrap1_zero]
          exact get _ _ _ (by omega) (by omega) (by omega) (by omega) (Or.inl (by simp; omega)))
      have e2 := rd_guard (k := n) (f := st) (x := rd4 (M, N, P, Q) G m ((n : ℤ) - 1) (((m + n : ℕ) : ℤ) - 1) 0)
        (y := V (m, n - 1, m + n - 1, 0)) (by
          intro h
          unfold rd4
          rw [wrap1_nat, wrap1_pred _ h, wrap1_pred _ (by omega), wrap1_zero]
          exact get _ _ _ (by omega) (by omega) (by omega) (by omega) (Or.inr ⟨rfl, Or.inl (by simp; omega)⟩))
      have e3 : V (m, n, m + n, 0) = T4 ct st stc (m, n, m + n, 0) := by
        rw [hV]; simp [bsVal]; omega
      have e4 : V (m - 1, n, m + n - 1, 0) = T4 ct st stc (m - 1, n, m + n - 1, 0) := by
        rw [hV]; simp [bsVal]; omega
      have e5 : V (m, n - 1, m + n - 1, 0) = T4 ct st stc (m, n - 1, m + n - 1, 0) := by
        rw [hV]; simp [bsVal]; omega
      rw [e3, T4_p _ _ _ _ (by omega), ← e4, ← e5]
      simp only [bsStep3]
      linear_combination (1 / sq (m + n)) * e1 + (1 / sq (m + n)) * e2)
  have out : ∀ m n p q, m < M → n < N → p < P → q < Q → (m, n, p, q) ∉ bsRank4 (M, N, P, Q) →
      fill (bsStep3 (M, N, P, Q) ct st) (bsRank3 (M, N, P, Q)) bsInit (m, n, p, q) = V (m, n, p, q) := by
    intro m n p q b1 b2 b3 b4 b5
    rw [r3]
    split_ifs with h
    · rfl
    · rw [mem_bsRank4] at b5
      rw [mem_bsRank3] at h
      simp only at b5 h
      by_cases hz : ((m, n, p, q) : Ix4) = (0, 0, 0, 0)
      · rw [hz, hV]; simp [bsVal, bsInit, T4_zero, show 0 < N by omega]
      · rw [bsInit, Function.update_of_ne hz]
        symm
        rw [hV]
        unfold bsVal
        simp only
        split_ifs with hpN
        · by_cases hc : m + n = p + q
          · exfalso
            have hq0 : q = 0 := by by_contra hne; exact b5 ⟨b1, b2, b3, hc, by omega, b4⟩
            subst hq0
            have : p ≠ 0 := by
              rintro rfl
              apply hz
              obtain ⟨rfl, rfl⟩ : m = 0 ∧ n = 0 := by omega
              rfl
            exact h ⟨b1, by omega, by omega, rfl, by omega, b3⟩
          · exact T4_conserve _ _ _ _ hc
        · rfl
  have r4 := fill_eq (bsStep4 (M, N, P, Q) ct stc) (bsRank4 (M, N, P, Q))
    (pw4 _ _ _ (fun m n => List.pairwise_lt_range.filter _)) V
    (fill (bsStep3 (M, N, P, Q) ct st) (bsRank3 (M, N, P, Q)) bsInit) (by
      rintro ⟨m, n, p, q⟩ hx G h1 h2
      obtain ⟨a1, a2, a3, a4, a5, a6⟩ := mem_bsRank4.1 hx
      simp only at a1 a2 a3 a6
      have get : ∀ m' n' q', m' < M → n' < N → q' < Q → Lt4 (m', n', p, q') (m, n, p, q) →
          G (m', n', p, q') = V (m', n', p, q') := by
        intro m' n' q' b1 b2 b3 b4
        by_cases hm : (m', n', p, q') ∈ bsRank4 (M, N, P, Q)
        · exact h1 _ hm b4
        · rw [h2 _ hm]; exact out _ _ _ _ b1 b2 a3 b3 hm
      have e1 := rd_guard (k := m) (f := -stc) (x := rd4 (M, N, P, Q) G ((m : ℤ) - 1) n p ((q : ℤ) - 1))
        (y := V (m - 1, n, p, q - 1)) (by
          intro h
          unfold rd4
          rw [wrap1_pred _ h, wrap1_nat, wrap1_nat, wrap1_pred _ (by omega)]
          exact get _ _ _ (by omega) (by omega) (by omega) (Or.inl (by simp; omega)))
      have e2 := rd_guard (k := n) (f := ct) (x := rd4 (M, N, P, Q) G m ((n : ℤ) - 1) p ((q : ℤ) - 1))
        (y := V (m, n - 1, p, q - 1)) (by
          intro h
          unfold rd4
          rw [wrap1_nat, wrap1_pred _ h, wrap1_nat, wrap1_pred _ (by omega)]
          exact get _ _ _ (by omega) (by omega) (by omega) (Or.inr ⟨rfl, Or.inl (by simp; omega)⟩))
      have e3 : V (m, n, p, q) = -stc * sq m / sq q * V (m - 1, n, p, q - 1) +
          ct * sq n / sq q * V (m, n - 1, p, q - 1) := by
        rw [hV]
        unfold bsVal
        simp only
        split_ifs with hpN
        · exact T4_q _ _ _ _ (by omega)
        · ring
      rw [e3]
      simp only [bsStep4]
      linear_combination (1 / sq q) * e1 + (1 / sq q) * e2)
  unfold bsCore
  rw [r4]
  split_ifs with h
  · rfl
  · exact out _ _ _ _ hm hn hp hq h

theorem sbCore_eq {sh : Ix4} {ct st stc : ℂ} {m n p q : ℕ} (hm : m < sh.1) (hn : n < sh.2.1) (hp : p < sh.2.2.1)
    (hq : q < sh.2.2.2) : sbCore sh ct st stc (m, n, p, q) = T4 ct st stc (m, n, p, q) := by
  obtain ⟨M, N, P, Q⟩ := sh
  simp only at hm hn hp hq ⊢
  set V := T4 ct st stc with hV
  have r3 := fill_eq (sbStep3 (M, N, P, Q) ct st) (sbRank3 (M, N, P, Q))
    (pw3 _ _ (fun m => List.pairwise_lt_range.filter _)) V bsInit (by
      rintro ⟨m, n, p, q⟩ hx G h1 h2
      obtain ⟨a1, a2, rfl, rfl, a3, a4⟩ := mem_sbRank3.1 hx
      simp only at a1 a2 a4
      have get : ∀ m' n' p', m' < M → n' < N → p' = m' + n' → p' < P → Lt4 (m', n', p', 0) (m, n, m + n, 0) →
          G (m', n', p', 0) = V (m', n', p', 0) := by
        rintro m' n' p' b1 b2 rfl b3 b4
        by_cases h0 : m' + n' = 0
        · obtain ⟨rfl, rfl⟩ : m' = 0 ∧ n' = 0 := by omega
          rw [h2 _ (by rw [mem_sbRank3]; omega)]
          simp only [Nat.add_zero]
          rw [hV, T4_zero]
          simp [bsInit]
        · exact h1 _ (mem_sbRank3.2 ⟨b1, b2, rfl, rfl, by omega, b3⟩) b4
      have d1 : m ≠ 0 → rd4 (M, N, P, Q) G ((m : ℤ) - 1) n (((m + n : ℕ) : ℤ) - 1) 0 = V (m - 1, n, m + n - 1, 0) := by
          intro h
          unfold rd4
          rw [wrap1_pred _ h, wrap1_nat, wrap1_pred _ (by omega), wrap1_zero]
          exact get _ _ _ (by omega) (by omega) (by omega) (by omega) (Or.inl (by simp; omega))
      have d2 : n ≠ 0 → rd4 (M, N, P, Q) G m ((n : ℤ) - 1) (((m + n : ℕ) : ℤ) - 1) 0 = V (m, n - 1, m + n - 1, 0) := by
          intro h
          unfold rd4
          rw [wrap1_nat, wrap1_pred _ h, wrap1_pred _ (by omega), wrap1_zero]
          exact get _ _ _ (by omega) (by omega) (by omega) (by omega) (Or.inr ⟨rfl, Or.inl (by simp; omega)⟩)
      have e1 := rd_guard (f := ct) d1
      have e2 := rd_guard (f := st) d2
      have v1 : m ≠ 0 → ct * sq (m + n) / sq m * rd4 (M, N, P, Q) G ((m : ℤ) - 1) n (((m + n : ℕ) : ℤ) - 1) 0 =
          V (m, n, m + n, 0) := by
        intro h; rw [d1 h, hV, T4_m _ _ (m + n) _ h]; simp
      have v2 : n ≠ 0 → st * sq (m + n) / sq n * rd4 (M, N, P, Q) G m ((n : ℤ) - 1) (((m + n : ℕ) : ℤ) - 1) 0 =
          V (m, n, m + n, 0) := by
        intro h; rw [d2 h, hV, T4_n _ _ (m + n) _ h]; simp
      have v3 : ct * sq m / sq (m + n) * rd4 (M, N, P, Q) G ((m : ℤ) - 1) n (((m + n : ℕ) : ℤ) - 1) 0 +
          st * sq n / sq (m + n) * rd4 (M, N, P, Q) G m ((n : ℤ) - 1) (((m + n : ℕ) : ℤ) - 1) 0 =
          V (m, n, m + n, 0) := by
        rw [hV, T4_p _ _ (m + n) _ (by omega)]
        linear_combination (1 / sq (m + n)) * e1 + (1 / sq (m + n)) * e2
      simp only [sbStep3]
      rw [if_pos (show (0 : ℤ) < ((m + n : ℕ) : ℤ) by omega), if_pos (show (0 : ℤ) < ((m + n : ℕ) : ℤ) by omega), v3]
      have pos : ∀ k : ℕ, k ≠ 0 → (0 : ℤ) < (k : ℤ) := fun k h => by omega
      have npos : ∀ k : ℕ, k = 0 → ¬ (0 : ℤ) < (k : ℤ) := fun k h => by omega
      by_cases hm0 : m = 0
      · have hn0 : n ≠ 0 := by omega
        simp only [if_neg (npos m hm0), if_pos (pos n hn0)]
        rw [v2 hn0]
        push_cast; ring
      · simp only [if_pos (pos m hm0)]
        rw [v1 hm0]
        by_cases hn0 : n = 0
        · simp only [if_neg (npos n hn0)]
          push_cast; ring
        · simp only [if_pos (pos n hn0)]
          rw [v2 hn0]
          push_cast; ring)
  have out : ∀ m n p q, m < M → n < N → p < P → q < Q → (m, n, p, q) ∉ sbRank4 (M, N, P, Q) →
      fill (sbStep3 (M, N, P, Q) ct st) (sbRank3 (M, N, P, Q)) bsInit (m, n, p, q) = V (m, n, p, q) := by
    intro m n p q b1 b2 b3 b4 b5
    rw [r3]
    split_ifs with h
    · rfl
    · rw [mem_sbRank4] at b5
      rw [mem_sbRank3] at h
      simp only at b5 h
      by_cases hz : ((m, n, p, q) : Ix4) = (0, 0, 0, 0)
      · rw [hz, hV, T4_zero]; simp [bsInit]
      · rw [bsInit, Function.update_of_ne hz]
        symm
        rw [hV]
        apply T4_conserve
        intro hc
        have hq0 : q = 0 := by by_contra hne; exact b5 ⟨b1, b2, b3, hc, by omega, b4⟩
        subst hq0
        have : p ≠ 0 := by
          rintro rfl
          apply hz
          obtain ⟨rfl, rfl⟩ : m = 0 ∧ n = 0 := by omega
          rfl
        exact h ⟨b1, b2, by omega, rfl, by omega, b3⟩
  have r4 := fill_eq (sbStep4 (M, N, P, Q) ct st stc) (sbRank4 (M, N, P, Q))
    (pw4 _ _ _ (fun m n => (pairwise_pyRange (by omega)).filter _)) V
    (fill (sbStep3 (M, N, P, Q) ct st) (sbRank3 (M, N, P, Q)) bsInit) (by
      rintro ⟨m, n, p, q⟩ hx G h1 h2
      obtain ⟨a1, a2, a3, a4, a5, a6⟩ := mem_sbRank4.1 hx
      simp only at a1 a2 a3 a6
      have get : ∀ m' n' p' q', m' < M → n' < N → p' < P → q' < Q → Lt4 (m', n', p', q') (m, n, p, q) →
          G (m', n', p', q') = V (m', n', p', q') := by
        intro m' n' p' q' b1 b2 b3 b4 b5
        by_cases hm : (m', n', p', q') ∈ sbRank4 (M, N, P, Q)
        · exact h1 _ hm b5
        · rw [h2 _ hm]; exact out _ _ _ _ b1 b2 b3 b4 hm
      -- the four neighbours
      have nb1 : m ≠ 0 → p ≠ 0 → rd4 (M, N, P, Q) G ((m : ℤ) - 1) n ((p : ℤ) - 1) q = V (m - 1, n, p - 1, q) := by
        intro h h'
        unfold rd4
        rw [wrap1_pred _ h, wrap1_nat, wrap1_pred _ h', wrap1_nat]
        exact get _ _ _ _ (by omega) (by omega) (by omega) (by omega) (Or.inl (by simp; omega))
      have nb2 : m ≠ 0 → rd4 (M, N, P, Q) G ((m : ℤ) - 1) n p ((q : ℤ) - 1) = V (m - 1, n, p, q - 1) := by
        intro h
        unfold rd4
        rw [wrap1_pred _ h, wrap1_nat, wrap1_nat, wrap1_pred _ (by omega)]
        exact get _ _ _ _ (by omega) (by omega) (by omega) (by omega) (Or.inl (by simp; omega))
      have nb3 : n ≠ 0 → p ≠ 0 → rd4 (M, N, P, Q) G m ((n : ℤ) - 1) ((p : ℤ) - 1) q = V (m, n - 1, p - 1, q) := by
        intro h h'
        unfold rd4
        rw [wrap1_nat, wrap1_pred _ h, wrap1_pred _ h', wrap1_nat]
        exact get _ _ _ _ (by omega) (by omega) (by omega) (by omega) (Or.inr ⟨rfl, Or.inl (by simp; omega)⟩)
      have nb4 : n ≠ 0 → rd4 (M, N, P, Q) G m ((n : ℤ) - 1) p ((q : ℤ) - 1) = V (m, n - 1, p, q - 1) := by
        intro h
        unfold rd4
        rw [wrap1_nat, wrap1_pred _ h, wrap1_nat, wrap1_pred _ (by omega)]
        exact get _ _ _ _ (by omega) (by omega) (by omega) (by omega) (Or.inr ⟨rfl, Or.inl (by simp; omega)⟩)
      have v1 : m ≠ 0 → ct * sq p / sq m * rd4 (M, N, P, Q) G ((m : ℤ) - 1) n ((p : ℤ) - 1) q -
          stc * sq q / sq m * rd4 (M, N, P, Q) G ((m : ℤ) - 1) n p ((q : ℤ) - 1) = V (m, n, p, q) := by
        intro h
        rw [hV, T4_m _ _ _ _ h, nb2 h]
        have := rd_guard (f := ct) (nb1 h)
        linear_combination (1 / sq m) * this
      have v2 : n ≠ 0 → st * sq p / sq n * rd4 (M, N, P, Q) G m ((n : ℤ) - 1) ((p : ℤ) - 1) q +
          ct * sq q / sq n * rd4 (M, N, P, Q) G m ((n : ℤ) - 1) p ((q : ℤ) - 1) = V (m, n, p, q) := by
        intro h
        rw [hV, T4_n _ _ _ _ h, nb4 h]
        have := rd_guard (f := st) (nb3 h)
        linear_combination (1 / sq n) * this
      have v3 : p ≠ 0 → ct * sq m / sq p * rd4 (M, N, P, Q) G ((m : ℤ) - 1) n ((p : ℤ) - 1) q +
          st * sq n / sq p * rd4 (M, N, P, Q) G m ((n : ℤ) - 1) ((p : ℤ) - 1) q = V (m, n, p, q) := by
        intro h
        rw [hV, T4_p _ _ _ _ h]
        have t1 := rd_guard (f := ct) (fun h' => nb1 h' h)
        have t2 := rd_guard (f := st) (fun h' => nb3 h' h)
        linear_combination (1 / sq p) * t1 + (1 / sq p) * t2
      have v4 : -stc * sq m / sq q * rd4 (M, N, P, Q) G ((m : ℤ) - 1) n p ((q : ℤ) - 1) +
          ct * sq n / sq q * rd4 (M, N, P, Q) G m ((n : ℤ) - 1) p ((q : ℤ) - 1) = V (m, n, p, q) := by
        rw [hV, T4_q _ _ _ _ (by omega)]
        have t1 := rd_guard (f := -stc) nb2
        have t2 := rd_guard (f := ct) nb4
        linear_combination (1 / sq q) * t1 + (1 / sq q) * t2
      simp only [sbStep4]
      rw [if_pos (show (0 : ℤ) < (q : ℤ) by omega), if_pos (show (0 : ℤ) < (q : ℤ) by omega), v4]
      have pos : ∀ k : ℕ, k ≠ 0 → (0 : ℤ) < (k : ℤ) := fun k h => by omega
      have npos : ∀ k : ℕ, k = 0 → ¬ (0 : ℤ) < (k : ℤ) := fun k h => by omega
      by_cases hm0 : m = 0
      · have hn0 : n ≠ 0 := by omega
        simp only [if_neg (npos m hm0), if_pos (pos n hn0)]
        rw [v2 hn0]
        by_cases hp0 : p = 0
        · simp only [if_neg (npos p hp0)]
          push_cast; ring
        · simp only [if_pos (pos p hp0)]
          rw [v3 hp0]
          push_cast; ring
      · simp only [if_pos (pos m hm0)]
        rw [v1 hm0]
        by_cases hn0 : n = 0
        · simp only [if_neg (npos n hn0)]
          by_cases hp0 : p = 0
          · simp only [if_neg (npos p hp0)]
            push_cast; ring
          · simp only [if_pos (pos p hp0)]
            rw [v3 hp0]
            push_cast; ring
        · simp only [if_pos (pos n hn0)]
          rw [v2 hn0]
          by_cases hp0 : p = 0
          · simp only [if_neg (npos p hp0)]
            push_cast; ring
          · simp only [if_pos (pos p hp0)]
            rw [v3 hp0]
            push_cast; ring)
  unfold sbCore
  rw [r4]
  split_ifs with h
  · rfl
  · exact out _ _ _ _ hm hn hp hq h

theorem amp_congr_A {D : ℕ} {A A' : ℕ → ℕ → ℂ} {b : ℕ → ℂ} {c : ℂ} (h : ∀ i < D, ∀ j < D, A i j = A' i j) (k) :
    amp D A b c k = amp D A' b c k := by
  have e : expo D A b = expo D A' b := by
    unfold expo
    have : (∑ i ∈ Finset.range D, ∑ j ∈ Finset.range D,
        (MvPolynomial.C (A i j) * (MvPolynomial.X i * MvPolynomial.X j) : MvPolynomial ℕ ℂ)) =
        ∑ i ∈ Finset.range D, ∑ j ∈ Finset.range D, MvPolynomial.C (A' i j) * (MvPolynomial.X i * MvPolynomial.X j) := by
      refine Finset.sum_congr rfl fun i hi => Finset.sum_congr rfl fun j hj => ?_
      rw [h i (Finset.mem_range.1 hi) j (Finset.mem_range.1 hj)]
    rw [this]
  unfold amp
  rw [e]

theorem T4_eq_amp (θ φ : ℝ) (m n p q : ℕ) :
    T4 (Real.cos θ) ((Real.sin θ : ℂ) * Complex.exp (Complex.I * φ))
      (starRingEnd ℂ ((Real.sin θ : ℂ) * Complex.exp (Complex.I * φ))) (m, n, p, q) =
    amp 4 (bsA θ φ) (fun _ => 0) 1 (toF [m, n, p, q]) := by
  unfold T4
  apply amp_congr_A
  intro i hi j hj
  rw [map_mul, conj_exp_I, Complex.conj_ofReal]
  interval_cases i <;> interval_cases j <;> simp [offA, bsA, bsV] <;> ring

/-- **C23 (stable beamsplitter).** Every entry inside any shape is the Fock amplitude of the Bargmann triple of
the beamsplitter gate. -/
theorem C23_stable_beamsplitter (M N P Q : ℕ) (θ φ : ℝ) (m n p q : ℕ) (hm : m < M) (hn : n < N) (hp : p < P)
    (hq : q < Q) : stableBeamsplitter (M, N, P, Q) θ φ (m, n, p, q) =
      amp 4 (bsA θ φ) (fun _ => 0) 1 (toF [m, n, p, q]) := by
  rw [← T4_eq_amp]
  exact sbCore_eq hm hn hp hq

/-- **C23 (beamsplitter, exact behaviour).** The entry at `(m,n,p,q)` is the Fock amplitude when `p` is below
the cutoff `N` of the second output, and it is left at zero otherwise. -/
theorem C23_beamsplitter_exact (M N P Q : ℕ) (θ φ : ℝ) (m n p q : ℕ) (hm : m < M) (hn : n < N) (hp : p < P)
    (hq : q < Q) : beamsplitter (M, N, P, Q) θ φ (m, n, p, q) =
      if p < N then amp 4 (bsA θ φ) (fun _ => 0) 1 (toF [m, n, p, q]) else 0 := by
  rw [← T4_eq_amp]
  have := bsCore_eq (sh := (M, N, P, Q)) (ct := (Real.cos θ : ℂ))
    (st := (Real.sin θ : ℂ) * Complex.exp (Complex.I * φ))
    (stc := starRingEnd ℂ ((Real.sin θ : ℂ) * Complex.exp (Complex.I * φ))) hm hn hp hq
  unfold beamsplitter
  rw [this]
  rfl

/-- **C23 (beamsplitter).** Complete and correct whenever the cutoff `P` of the first input does not exceed the
cutoff `N` of the second output (in particular for equal cutoffs). -/
theorem C23_beamsplitter_partial (M N P Q : ℕ) (hPN : P ≤ N) (θ φ : ℝ) (m n p q : ℕ) (hm : m < M) (hn : n < N)
    (hp : p < P) (hq : q < Q) : beamsplitter (M, N, P, Q) θ φ (m, n, p, q) =
      amp 4 (bsA θ φ) (fun _ => 0) 1 (toF [m, n, p, q]) := by
  rw [C23_beamsplitter_exact M N P Q θ φ m n p q hm hn hp hq, if_pos (by omega)]

/-- **C23 (photon-number conservation).** Both strategies vanish unless `m + n = p + q`, for every shape. -/
theorem C23_conserve (M N P Q : ℕ) (θ φ : ℝ) (m n p q : ℕ) (hm : m < M) (hn : n < N) (hp : p < P)
    (hq : q < Q) (h : m + n ≠ p + q) : beamsplitter (M, N, P, Q) θ φ (m, n, p, q) = 0 ∧
      stableBeamsplitter (M, N, P, Q) θ φ (m, n, p, q) = 0 := by
  constructor
  · rw [C23_beamsplitter_exact M N P Q θ φ m n p q hm hn hp hq, ← T4_eq_amp, T4_conserve _ _ _ _ h]
    simp
  · rw [C23_stable_beamsplitter M N P Q θ φ m n p q hm hn hp hq, ← T4_eq_amp, T4_conserve _ _ _ _ h]

/-- **C23 is false in general**: with shape `(2,2,3,3)` the entry `(1,1,2,0)` (one photon in each output from
two photons in the first input) of a balanced beamsplitter is `√2 cos θ sin θ = 1/√2`, but `beamsplitter` leaves it
at zero, whereas `stable_beamsplitter` computes it. -/
theorem C23_beamsplitter_incomplete (φ : ℝ) :
    beamsplitter (2, 2, 3, 3) (Real.pi / 4) φ (1, 1, 2, 0) = 0 ∧
    stableBeamsplitter (2, 2, 3, 3) (Real.pi / 4) φ (1, 1, 2, 0) ≠ 0 := by
  constructor
  · rw [C23_beamsplitter_exact _ _ _ _ _ _ _ _ _ _ (by omega) (by omega) (by omega) (by omega), if_neg (by omega)]
  · rw [C23_stable_beamsplitter _ _ _ _ _ _ _ _ _ _ (by omega) (by omega) (by omega) (by omega), ← T4_eq_amp,
      T4_m 1 1 2 0 (by omega), T4_n (1 - 1) 1 (2 - 1) 0 (by omega)]
    simp only [Nat.sub_self, Nat.reduceSub, T4_zero, sq_zero, mul_zero, zero_div, zero_mul, sub_zero, add_zero, mul_one]
    have h1 : (Real.sqrt 2 : ℝ) ≠ 0 := by positivity
    refine mul_ne_zero (div_ne_zero (mul_ne_zero ?_ (sq_ne_zero (by omega))) (sq_ne_zero (by omega)))
      (div_ne_zero (mul_ne_zero (mul_ne_zero ?_ (Complex.exp_ne_zero _)) (sq_ne_zero (by omega))) (sq_ne_zero (by omega)))
    · rw [Real.cos_pi_div_four]
      exact_mod_cast div_ne_zero h1 two_ne_zero
    · rw [Real.sin_pi_div_four]
      exact_mod_cast div_ne_zero h1 two_ne_zero

end Verif.Fock
