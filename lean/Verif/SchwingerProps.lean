import Verif.Schwinger
import Mathlib.Analysis.Matrix.Spectrum
import Mathlib.Algebra.Order.BigOperators.Group.List

/-!
# The Schwinger method gives the beamsplitter (C87)
-/

namespace Verif.Fock
open Matrix

/-! ## The loops -/

theorem foldlM_fill {α X : Type*} {f : X → ℂ} (P : α → X → Prop) [∀ a, DecidablePred (P a)] (step : (X → ℂ) → α → Option (X → ℂ)) :
    ∀ (l : List α), (∀ a ∈ l, ∀ U, step U a = some fun x => if P a x then f x else U x) → ∀ U, ∃ U', l.foldlM step U = some U' ∧
      ∀ x, ((∃ a ∈ l, P a x) → U' x = f x) ∧ ((¬ ∃ a ∈ l, P a x) → U' x = U x)
  | [], _, U => ⟨U, rfl, fun x => ⟨fun ⟨a, h, _⟩ => (List.not_mem_nil h).elim, fun _ => rfl⟩⟩
  | a :: l, h, U => by
    obtain ⟨U', h1, h2⟩ := foldlM_fill P step l (fun a ha => h a (List.mem_cons_of_mem _ ha)) (fun x => if P a x then f x else U x)
    refine ⟨U', ?_, fun x => ⟨fun hx => ?_, fun hx => ?_⟩⟩
    · rw [List.foldlM_cons, h a List.mem_cons_self]
      exact h1
    · by_cases hl : ∃ a ∈ l, P a x
      · exact (h2 x).1 hl
      · rw [(h2 x).2 hl]
        obtain ⟨a', ha', hp⟩ := hx
        rcases List.mem_cons.mp ha' with rfl | ha'
        · exact if_pos hp
        · exact absurd ⟨a', ha', hp⟩ hl
    · rw [(h2 x).2 fun ⟨a', ha', hp⟩ => hx ⟨a', List.mem_cons_of_mem _ ha', hp⟩]
      exact if_neg fun hp => hx ⟨a, List.mem_cons_self, hp⟩

theorem mem_swPairs {c1 c2 N : ℕ} {ij : ℕ × ℕ} : ij ∈ swPairs c1 c2 N ↔ (N + 1 - c1 ≤ ij.1 ∧ ij.1 < min (N + 1) c1) ∧ N + 1 - c1 ≤ ij.2 ∧ ij.2 < min (N + 1) c2 := by
  unfold swPairs
  simp only [List.mem_flatMap, List.mem_map, List.mem_range'_1]
  constructor
  · rintro ⟨i, hi, j, hj, rfl⟩
    simp only
    omega
  · intro h
    exact ⟨ij.1, by omega, ij.2, by omega, rfl⟩

theorem swBlock_eq {N : ℕ} (θ φ : ℝ) {EV : (Fin (N + 1) → ℂ) × Matrix (Fin (N + 1)) (Fin (N + 1)) ℂ} (h : IsEig ((θ : ℂ) • swK N φ) EV) :
    swBlock EV = bsBlock N θ φ := block_exp θ φ EV.1 EV.2 h.eig (eig_unitary θ φ h)

/-- For `c1 ≤ c2` the function returns; an entry inside the shape is the amplitude if its second index is below `c1` and the number of photons is at most `max_N`, else zero. -/
theorem C87_wide (θ φ : ℝ) (eig : ∀ N, (Fin (N + 1) → ℂ) × Matrix (Fin (N + 1)) (Fin (N + 1)) ℂ) (he : ∀ N, IsEig ((θ : ℂ) • swK N φ) (eig N)) (c1 c2 : ℕ) (h : c1 ≤ c2)
    (maxN : Option ℕ) : ∃ U, schwinger eig (c1, c2, c1, c2) maxN = some U ∧ ∀ m < c1, ∀ n < c2, ∀ p < c1, ∀ q < c2,
      U (m, n, p, q) = if n < c1 ∧ (∀ M ∈ maxN, m + n ≤ M) then amp 4 (bsA θ φ) (fun _ => 0) 1 (toF [m, n, p, q]) else 0 := by
  unfold schwinger
  rw [if_neg (by simp)]
  simp only
  have hin : ∀ N, ∀ ij ∈ swPairs c1 c2 N, ∀ U : Ix4 → ℂ, swWrite c1 c2 c1 c2 N (swBlock (eig N)) ij U =
      some fun x => if (fun (ij : ℕ × ℕ) x => x = (N - ij.1, ij.1, N - ij.2, ij.2)) ij x then bsT θ φ x.1 x.2.1 x.2.2.1 x.2.2.2 else U x := by
    intro N ij hij U
    rw [mem_swPairs] at hij
    unfold swWrite
    rw [dif_pos (by omega), swBlock_eq θ φ (he N)]
    refine congrArg some (funext fun x => ?_)
    rw [Function.update_apply]
    by_cases hx : x = (N - ij.1, ij.1, N - ij.2, ij.2)
    · rw [if_pos hx, if_pos hx, hx]; rfl
    · rw [if_neg hx, if_neg hx]
  have hout : ∀ N, ∀ U : Ix4 → ℂ, (swPairs c1 c2 N).foldlM (fun U ij => swWrite c1 c2 c1 c2 N (swBlock (eig N)) ij U) U =
      some fun x => if (fun N (x : Ix4) => x.1 + x.2.1 = N ∧ x.2.2.1 + x.2.2.2 = N ∧ (x.2.1, x.2.2.2) ∈ swPairs c1 c2 N) N x then bsT θ φ x.1 x.2.1 x.2.2.1 x.2.2.2 else U x := by
    intro N U
    obtain ⟨U', h1, h2⟩ := foldlM_fill (f := fun x : Ix4 => bsT θ φ x.1 x.2.1 x.2.2.1 x.2.2.2) (fun (ij : ℕ × ℕ) (x : Ix4) => x = (N - ij.1, ij.1, N - ij.2, ij.2))
      (fun U ij => swWrite c1 c2 c1 c2 N (swBlock (eig N)) ij U) (swPairs c1 c2 N) (hin N) U
    rw [h1]
    refine congrArg some (funext fun x => ?_)
    by_cases hx : x.1 + x.2.1 = N ∧ x.2.2.1 + x.2.2.2 = N ∧ (x.2.1, x.2.2.2) ∈ swPairs c1 c2 N
    · rw [if_pos hx]
      refine (h2 x).1 ⟨_, hx.2.2, ?_⟩
      obtain ⟨m, n, p, q⟩ := x
      obtain ⟨e1, e2, -⟩ := hx
      simp only at e1 e2
      show (m, n, p, q) = (N - n, n, N - q, q)
      rw [show N - n = m by omega, show N - q = p by omega]
    · rw [if_neg hx]
      refine (h2 x).2 ?_
      rintro ⟨ij, hij, rfl⟩
      refine hx ⟨?_, ?_, hij⟩ <;> rw [mem_swPairs] at hij <;> simp only <;> omega
  obtain ⟨U, h1, h2⟩ := foldlM_fill (f := fun x : Ix4 => bsT θ φ x.1 x.2.1 x.2.2.1 x.2.2.2)
    (fun N (x : Ix4) => x.1 + x.2.1 = N ∧ x.2.2.1 + x.2.2.2 = N ∧ (x.2.1, x.2.2.2) ∈ swPairs c1 c2 N)
    (fun U N => (swPairs c1 c2 N).foldlM (fun U ij => swWrite c1 c2 c1 c2 N (swBlock (eig N)) ij U) U) (List.range (swSectors c1 c2 maxN)) (fun N _ => hout N) (fun _ => 0)
  refine ⟨U, h1, fun m hm n hn p hp q hq => ?_⟩
  have hiff : (∃ a ∈ List.range (swSectors c1 c2 maxN), m + n = a ∧ p + q = a ∧ (n, q) ∈ swPairs c1 c2 a) ↔ (n < c1 ∧ (∀ M ∈ maxN, m + n ≤ M)) ∧ m + n = p + q := by
    simp only [mem_swPairs, List.mem_range]
    constructor
    · rintro ⟨N, hN, rfl, hpq, h3⟩
      refine ⟨⟨by omega, fun M hM => ?_⟩, by omega⟩
      rw [Option.mem_def] at hM
      rw [hM] at hN
      simp only [swSectors] at hN
      omega
    · rintro ⟨⟨h3, h4⟩, h5⟩
      refine ⟨m + n, ?_, rfl, h5.symm, by omega, by omega, by omega⟩
      rcases maxN with _ | M
      · simp only [swSectors]; omega
      · have := h4 M rfl
        simp only [swSectors]; omega
  by_cases hc : m + n = p + q
  · by_cases hk : n < c1 ∧ (∀ M ∈ maxN, m + n ≤ M)
    · rw [if_pos hk]
      exact (h2 (m, n, p, q)).1 (hiff.mpr ⟨hk, hc⟩)
    · rw [if_neg hk]
      exact (h2 (m, n, p, q)).2 fun hh => hk (hiff.mp hh).1
  · rw [(h2 (m, n, p, q)).2 fun hh => hc (hiff.mp hh).2]
    split_ifs
    · exact (bsT_conserve θ φ hc).symm
    · rfl

/-- For equal cutoffs the array is the beamsplitter. -/
theorem C87_square (θ φ : ℝ) (eig : ∀ N, (Fin (N + 1) → ℂ) × Matrix (Fin (N + 1)) (Fin (N + 1)) ℂ) (he : ∀ N, IsEig ((θ : ℂ) • swK N φ) (eig N)) (c : ℕ) :
    ∃ U, schwinger eig (c, c, c, c) none = some U ∧ ∀ m < c, ∀ n < c, ∀ p < c, ∀ q < c, U (m, n, p, q) = amp 4 (bsA θ φ) (fun _ => 0) 1 (toF [m, n, p, q]) := by
  obtain ⟨U, h1, h2⟩ := C87_wide θ φ eig he c c le_rfl none
  refine ⟨U, h1, fun m hm n hn p hp q hq => ?_⟩
  rw [h2 m hm n hn p hp q hq, if_pos ⟨hn, fun _ h => nomatch h⟩]

/-- Other shapes raise. -/
theorem C87_errors (eig : ∀ N, (Fin (N + 1) → ℂ) × Matrix (Fin (N + 1)) (Fin (N + 1)) ℂ) :
    (∀ c1 c2 c3 c4 maxN, ¬ (c1 = c3 ∧ c2 = c4) → schwinger eig (c1, c2, c3, c4) maxN = none) ∧ ∀ c1 c2, 0 < c2 → c2 < c1 → schwinger eig (c1, c2, c1, c2) none = none := by
  constructor
  · intro c1 c2 c3 c4 maxN h
    unfold schwinger
    rw [if_pos]
    simp only
    by_contra h2
    push Not at h2
    exact h h2
  · intro c1 c2 h0 h
    unfold schwinger
    rw [if_neg (by simp)]
    have hfail : ∀ {α β : Type} (f : β → α → Option β) (l : List α) (a : α), a ∈ l → (∀ b, f b a = none) → ∀ b, l.foldlM f b = none := by
      intro α β f l
      induction l with
      | nil => exact fun a ha => (List.not_mem_nil ha).elim
      | cons x l ih =>
        intro a ha hf b
        rw [List.foldlM_cons]
        rcases List.mem_cons.mp ha with rfl | ha
        · rw [hf]; rfl
        · cases f b x with
          | none => rfl
          | some b' => exact ih a ha hf b'
    refine hfail _ _ c2 (by simp only [swSectors, List.mem_range]; omega) (fun U => ?_) _
    refine hfail _ _ (c2, 0) ?_ (fun U => ?_) _
    · rw [mem_swPairs]
      simp only
      omega
    · unfold swWrite
      rw [dif_neg]
      simp only
      omega

/-- The missing entries of a wide shape: `U[0, 1, 0, 1]` for the shape `(1, 2, 1, 2)` is zero and not `cos θ`. -/
theorem C87_missing (θ φ : ℝ) (eig : ∀ N, (Fin (N + 1) → ℂ) × Matrix (Fin (N + 1)) (Fin (N + 1)) ℂ) (he : ∀ N, IsEig ((θ : ℂ) • swK N φ) (eig N)) :
    ∃ U, schwinger eig (1, 2, 1, 2) none = some U ∧ U (0, 1, 0, 1) = 0 ∧ amp 4 (bsA θ φ) (fun _ => 0) 1 (toF [0, 1, 0, 1]) = (Real.cos θ : ℂ) := by
  obtain ⟨U, h1, h2⟩ := C87_wide θ φ eig he 1 2 (by omega) none
  refine ⟨U, h1, ?_, ?_⟩
  · rw [h2 0 (by omega) 1 (by omega) 0 (by omega) 1 (by omega), if_neg (by omega)]
  · show bsT θ φ 0 1 0 1 = _
    rw [bsT_q, sq0, bsT_zero]
    simp [sq]

/-! ## The hypotheses are met -/

theorem exists_eigh (N : ℕ) (θ φ : ℝ) : ∃ EV, IsEigh ((-Complex.I * (θ : ℂ)) • swK N φ) EV := by
  have hH : ((-Complex.I * (θ : ℂ)) • swK N φ).IsHermitian := by
    show _ᴴ = _
    rw [Matrix.conjTranspose_smul, swK_conjTranspose]
    simp
  refine ⟨(hH.eigenvalues, hH.eigenvectorUnitary), ?_, ?_⟩
  · have h := hH.spectral_theorem
    rw [Unitary.conjStarAlgAut_apply] at h
    have hu : (star (hH.eigenvectorUnitary : Matrix (Fin (N + 1)) (Fin (N + 1)) ℂ)) * (hH.eigenvectorUnitary : Matrix (Fin (N + 1)) (Fin (N + 1)) ℂ) = 1 :=
      Unitary.star_mul_self_of_mem hH.eigenvectorUnitary.2
    refine (congrArg (fun M => M * (hH.eigenvectorUnitary : Matrix (Fin (N + 1)) (Fin (N + 1)) ℂ)) h).trans ?_
    simp only
    rw [Matrix.mul_assoc, hu, Matrix.mul_one]
    rfl
  · exact Unitary.star_mul_self_of_mem hH.eigenvectorUnitary.2

theorem exists_eig (N : ℕ) (θ φ : ℝ) : ∃ EV, IsEig ((θ : ℂ) • swK N φ) EV := by
  by_cases hz : (θ : ℂ) • swK N φ = 0
  · refine ⟨(0, 1), ?_, fun j => ?_, by simp, fun _ => rfl⟩
    · rw [hz]; simp
    · simp only [Matrix.one_apply]
      rw [Finset.sum_eq_single j (fun i _ hi => by rw [if_neg hi]; simp) (fun h => absurd (Finset.mem_univ _) h)]
      simp
  · obtain ⟨⟨E, V⟩, h1, h2⟩ := exists_eigh N θ φ
    refine ⟨(fun i => Complex.I * E i, V), ?_, fun j => ?_, ?_, fun h => absurd h hz⟩
    · have h3 : (θ : ℂ) • swK N φ = Complex.I • ((-Complex.I * (θ : ℂ)) • swK N φ) := by
        rw [smul_smul, ← mul_assoc, mul_neg, Complex.I_mul_I, neg_neg, one_mul]
      rw [h3, Matrix.smul_mul, h1]
      ext i j
      rw [Matrix.smul_apply, Matrix.mul_diagonal, Matrix.mul_diagonal, smul_eq_mul]
      ring
    · have := congrFun (congrFun h2 j) j
      rw [Matrix.mul_apply, Matrix.one_apply_eq] at this
      have e : ∀ k, Vᴴ j k * V k j = ((‖V k j‖ ^ 2 : ℝ) : ℂ) := fun k => by
        rw [Matrix.conjTranspose_apply, ← starRingEnd_apply, mul_comm, Complex.mul_conj, Complex.normSq_eq_norm_sq]
      simp only at this
      simp only [e] at this
      rw [← Complex.ofReal_sum] at this
      exact_mod_cast this
    · intro h0
      have := congrArg Matrix.det h2
      rw [Matrix.det_mul, h0, mul_zero, Matrix.det_one] at this
      exact zero_ne_one this

/-- Every angle and phase meets the hypotheses. -/
example (θ φ : ℝ) (c : ℕ) : ∃ eig U, schwinger eig (c, c, c, c) none = some U ∧ ∀ m < c, ∀ n < c, ∀ p < c, ∀ q < c,
    U (m, n, p, q) = amp 4 (bsA θ φ) (fun _ => 0) 1 (toF [m, n, p, q]) := by
  choose eig he using fun N => exists_eig N θ φ
  exact ⟨eig, C87_square θ φ eig he c⟩

/-! ## Acting on an array -/

/-- The beamsplitter is unchanged when inputs and outputs are exchanged and both pairs are reversed. -/
theorem bsT_rev (θ φ : ℝ) (p : ℕ) : ∀ q m n, bsT θ φ m n p q = bsT θ φ q p n m := by
  have hT : ∀ m n p q, bsT θ φ m n p q = T4 (Real.cos θ) ((Real.sin θ : ℂ) * Complex.exp (Complex.I * φ))
      ((starRingEnd ℂ) ((Real.sin θ : ℂ) * Complex.exp (Complex.I * φ))) (m, n, p, q) := fun m n p q => (T4_eq_amp θ φ m n p q).symm
  simp only [hT]
  generalize (Real.sin θ : ℂ) * Complex.exp (Complex.I * φ) = st
  generalize (starRingEnd ℂ) st = sc
  generalize (Real.cos θ : ℂ) = ct
  induction p with
  | zero =>
    intro q
    induction q with
    | zero =>
      intro m n
      by_cases h : m = 0 ∧ n = 0
      · rw [h.1, h.2]
      · rw [T4_conserve _ _ _ _ (by omega), T4_conserve _ _ _ _ (by omega)]
    | succ q ih =>
      intro m n
      rw [T4_q m n 0 (q + 1) (by omega), T4_m (q + 1) 0 n m (by omega), Nat.add_sub_cancel, ih, ih]
      ring
  | succ p ih =>
    intro q m n
    rw [T4_p m n (p + 1) q (by omega), T4_n q (p + 1) n m (by omega), Nat.add_sub_cancel, ih, ih]
    ring

theorem sectorU_eq {N : ℕ} (θ φ : ℝ) {EV : (Fin (N + 1) → ℝ) × Matrix (Fin (N + 1)) (Fin (N + 1)) ℂ} (h : IsEigh ((-Complex.I * (θ : ℂ)) • swK N φ) EV) :
    sectorU EV = bsBlock N θ φ := by
  refine block_exp θ φ (fun i => Complex.I * EV.1 i) EV.2 ?_ h.unitary
  have h3 : (θ : ℂ) • swK N φ = Complex.I • ((-Complex.I * (θ : ℂ)) • swK N φ) := by
    rw [smul_smul, ← mul_assoc, mul_neg, Complex.I_mul_I, neg_neg, one_mul]
  rw [h3, Matrix.smul_mul, h.eig]
  ext i j
  rw [Matrix.smul_apply, Matrix.mul_diagonal, Matrix.mul_diagonal, smul_eq_mul]
  ring

/-- The photon numbers of the first mode in the sector of `N` photons below the cutoff `c`. -/
def sec (c N : ℕ) : List ℕ := (List.range (N + 1)).filter fun k => k < c ∧ N - k < c

theorem mem_sec {c N k : ℕ} : k ∈ sec c N ↔ k < N + 1 ∧ k < c ∧ N - k < c := by
  simp [sec]

theorem mapM_some {α β : Type*} (f : α → Option β) (g : α → β) : ∀ l : List α, (∀ a ∈ l, f a = some (g a)) → l.mapM f = some (l.map g)
  | [], _ => rfl
  | a :: l, h => by
    rw [List.mapM_cons, h a List.mem_cons_self, mapM_some f g l fun a ha => h a (List.mem_cons_of_mem _ ha)]
    rfl

theorem sectorIdx_square (c N : ℕ) : sectorIdx N c c = some ((sec c N).map fun k => (k, N - k)) := by
  unfold sectorIdx
  have e : ((List.range (N + 1)).filter fun i => max i (N - i) < max c c) = sec c N := by
    unfold sec
    refine List.filter_congr fun k _ => ?_
    simp
  rw [e]
  refine mapM_some _ _ _ fun k hk => ?_
  rw [mem_sec] at hk
  rw [if_pos hk.2]

theorem sec_rows (c N : ℕ) (h : N + 1 < 2 * c) : (if 0 < (sec c N).length ∧ (sec c N).length < N then sec c N else List.range (N + 1)) = sec c N := by
  by_cases hc : N < c
  · have e : sec c N = List.range (N + 1) := by
      unfold sec
      rw [List.filter_eq_self]
      intro k hk
      rw [List.mem_range] at hk
      simp only [decide_eq_true_eq]
      omega
    rw [e, ite_self]
  · refine if_pos ⟨List.length_pos_of_mem (a := c - 1) (mem_sec.mpr (by omega)), ?_⟩
    have hn : (sec c N).Nodup := List.Nodup.filter _ List.nodup_range
    have hsub : (sec c N).toFinset ⊆ Finset.Ico 1 N := by
      intro k hk
      rw [List.mem_toFinset, mem_sec] at hk
      rw [Finset.mem_Ico]
      omega
    have := Finset.card_le_card hsub
    rw [List.toFinset_card_of_nodup hn, Nat.card_Ico] at this
    omega

theorem idxOf_map (L : List ℕ) (N k : ℕ) : (L.map fun k => (k, N - k)).idxOf (k, N - k) = L.idxOf k := by
  induction L with
  | nil => rfl
  | cons a L ih =>
    rw [List.map_cons, List.idxOf_cons, List.idxOf_cons, ih]
    by_cases h : a = k
    · simp [h]
    · have h1 : ((a, N - a) == (k, N - k)) = false := by
        rw [beq_eq_false_iff_ne]
        intro h2
        exact h (Prod.mk.inj h2).1
      have h2 : (a == k) = false := beq_eq_false_iff_ne.mpr h
      rw [h1, h2]

theorem zip_map_self {α β γ : Type*} (g : α → β) (f : β × α → γ) : ∀ L : List α, ((L.map g).zip L).map f = L.map fun k => f (g k, k)
  | [] => rfl
  | a :: L => by
    rw [List.map_cons, List.zip_cons_cons, List.map_cons, List.map_cons, zip_map_self g f L]

theorem applyStep_square (c N : ℕ) (h : N + 1 < 2 * c) (u : Matrix (Fin (N + 1)) (Fin (N + 1)) ℂ) (v : ℕ × ℕ → ℂ) :
    applyStep c c N u v = some fun x => if x.1 < c ∧ x.2 < c ∧ x.1 + x.2 = N then
      ((sec c N).map fun k => v (k, N - k) * u (Fin.ofNat (N + 1) k) (Fin.ofNat (N + 1) x.1)).sum else v x := by
  unfold applyStep
  rw [sectorIdx_square]
  show (if ((sec c N).map fun k => (k, N - k)).length ≠ (if 0 < (sec c N).length ∧ (sec c N).length < N then sec c N else List.range (N + 1)).length then none
    else some fun x => if x ∈ (sec c N).map (fun k => (k, N - k)) then
      ((((sec c N).map fun k => (k, N - k)).zip (if 0 < (sec c N).length ∧ (sec c N).length < N then sec c N else List.range (N + 1))).map fun yr => v yr.1 *
        u (Fin.ofNat (N + 1) yr.2) (Fin.ofNat (N + 1) ((if 0 < (sec c N).length ∧ (sec c N).length < N then sec c N else List.range (N + 1)).getD
          (((sec c N).map fun k => (k, N - k)).idxOf x) 0))).sum else v x) = _
  rw [sec_rows c N h, if_neg (by simp)]
  refine congrArg some (funext fun x => ?_)
  have hm : x ∈ (sec c N).map (fun k => (k, N - k)) ↔ x.1 < c ∧ x.2 < c ∧ x.1 + x.2 = N := by
    rw [List.mem_map]
    constructor
    · rintro ⟨k, hk, rfl⟩
      rw [mem_sec] at hk
      simp only
      omega
    · intro hx
      refine ⟨x.1, mem_sec.mpr (by omega), ?_⟩
      rw [show N - x.1 = x.2 by omega]
  by_cases hx : x.1 < c ∧ x.2 < c ∧ x.1 + x.2 = N
  · rw [if_pos hx, if_pos (hm.mpr hx)]
    have hxe : x = (x.1, N - x.1) := Prod.ext rfl (by simp only; omega)
    have hi : ((sec c N).map fun k => (k, N - k)).idxOf x = (sec c N).idxOf x.1 := by
      conv_lhs => rw [hxe]
      exact idxOf_map _ _ _
    have hk : x.1 ∈ sec c N := mem_sec.mpr (by omega)
    have hg : (sec c N).getD ((sec c N).idxOf x.1) 0 = x.1 := by
      have hlt := List.idxOf_lt_length_of_mem hk
      rw [List.getD_eq_getElem _ _ hlt, List.getElem_idxOf]
    rw [hi, hg]
    rw [zip_map_self]
  · rw [if_neg hx, if_neg fun h2 => hx (hm.mp h2)]

theorem sec_sum (c : ℕ) (x : ℕ × ℕ) (f : ℕ → ℕ → ℂ) (hf : ∀ a b, x.1 + x.2 ≠ a + b → f a b = 0) :
    ((sec c (x.1 + x.2)).map fun k => f k (x.1 + x.2 - k)).sum = ∑ a ∈ Finset.range c, ∑ b ∈ Finset.range c, f a b := by
  have hn : (sec c (x.1 + x.2)).Nodup := List.Nodup.filter _ List.nodup_range
  rw [← List.sum_toFinset _ hn]
  have e : ∀ a ∈ Finset.range c, ∑ b ∈ Finset.range c, f a b = if a ∈ (sec c (x.1 + x.2)).toFinset then f a (x.1 + x.2 - a) else 0 := by
    intro a ha
    rw [Finset.mem_range] at ha
    by_cases h : a ∈ (sec c (x.1 + x.2)).toFinset
    · rw [if_pos h]
      rw [List.mem_toFinset, mem_sec] at h
      refine Finset.sum_eq_single _ (fun b _ hb => hf a b (by omega)) fun h2 => ?_
      exact absurd (Finset.mem_range.mpr h.2.2) h2
    · rw [if_neg h]
      rw [List.mem_toFinset, mem_sec] at h
      refine Finset.sum_eq_zero fun b hb => hf a b fun h2 => h ?_
      rw [Finset.mem_range] at hb
      omega
  rw [Finset.sum_congr rfl e, ← Finset.sum_filter]
  refine Finset.sum_congr ?_ fun _ _ => rfl
  ext k
  rw [Finset.mem_filter, Finset.mem_range]
  constructor
  · intro h
    refine ⟨?_, h⟩
    rw [List.mem_toFinset, mem_sec] at h
    exact h.2.1
  · exact fun h => h.2

theorem apply_loop (θ φ : ℝ) (eigh : ∀ N, (Fin (N + 1) → ℝ) × Matrix (Fin (N + 1)) (Fin (N + 1)) ℂ)
    (he : ∀ N, IsEigh ((-Complex.I * (θ : ℂ)) • swK N φ) (eigh N)) (c : ℕ) (v : ℕ × ℕ → ℂ) : ∀ M, M + 1 ≤ 2 * c →
    ((List.range M).foldlM (fun v N => applyStep c c N (sectorU (eigh N)) v) v) = some fun x => if x.1 < c ∧ x.2 < c ∧ x.1 + x.2 < M then
      ∑ a ∈ Finset.range c, ∑ b ∈ Finset.range c, bsT θ φ x.1 x.2 a b * v (a, b) else v x := by
  intro M
  induction M with
  | zero =>
    intro _
    refine congrArg some (funext fun x => ?_)
    rw [if_neg (by omega)]
  | succ M ih =>
    intro hM
    rw [List.range_succ, List.foldlM_append, ih (by omega)]
    rw [Option.bind_eq_bind, Option.bind_some, List.foldlM_cons, applyStep_square c M (by omega)]
    refine congrArg some (funext fun x => ?_)
    by_cases hx : x.1 < c ∧ x.2 < c ∧ x.1 + x.2 = M
    · rw [if_pos hx, if_pos (by omega)]
      obtain ⟨h1, h2, rfl⟩ := hx
      rw [← sec_sum c x (fun a b => bsT θ φ x.1 x.2 a b * v (a, b)) fun a b hab => by rw [bsT_conserve θ φ hab, zero_mul]]
      refine congrArg List.sum (List.map_congr_left fun k hk => ?_)
      rw [mem_sec] at hk
      simp only
      rw [if_neg (by omega), sectorU_eq θ φ (he (x.1 + x.2)), mul_comm]
      refine congrArg (· * _) ?_
      show bsT θ φ (x.1 + x.2 - k % (x.1 + x.2 + 1)) (k % (x.1 + x.2 + 1)) (x.1 + x.2 - x.1 % (x.1 + x.2 + 1)) (x.1 % (x.1 + x.2 + 1)) = _
      rw [Nat.mod_eq_of_lt hk.1, Nat.mod_eq_of_lt (by omega), bsT_rev, Nat.add_sub_cancel_left]
    · rw [if_neg hx]
      by_cases h2 : x.1 < c ∧ x.2 < c ∧ x.1 + x.2 < M
      · rw [if_pos h2, if_pos (by omega)]
      · rw [if_neg h2, if_neg (by omega)]

/-- `apply_BS_schwinger` on two axes of the same size acts as the beamsplitter cut off at that size. -/
theorem C87_apply {ι : Type*} [DecidableEq ι] (θ φ : ℝ) (eigh : ∀ N, (Fin (N + 1) → ℝ) × Matrix (Fin (N + 1)) (Fin (N + 1)) ℂ)
    (he : ∀ N, IsEigh ((-Complex.I * (θ : ℂ)) • swK N φ) (eigh N)) (c : ℕ) (i j : ι) (arr : (ι → ℕ) → ℂ) (x : ι → ℕ) (hi : x i < c) (hj : x j < c) :
    applyBS eigh c c i j arr x = some (∑ a ∈ Finset.range c, ∑ b ∈ Finset.range c,
      amp 4 (bsA θ φ) (fun _ => 0) 1 (toF [x i, x j, a, b]) * arr (Function.update (Function.update x i a) j b)) := by
  unfold applyBS
  rw [apply_loop θ φ eigh he c _ (c + c - 1) (by omega), Option.map_some]
  refine congrArg some ?_
  dsimp only
  rw [if_pos ⟨hi, hj, by omega⟩]
  rfl

/-- On two axes of different sizes it raises. -/
theorem C87_apply_errors {ι : Type*} [DecidableEq ι] (eigh : ∀ N, (Fin (N + 1) → ℝ) × Matrix (Fin (N + 1)) (Fin (N + 1)) ℂ) (a b : ℕ) (ha : 0 < a) (hb : 0 < b)
    (hab : a ≠ b) (i j : ι) (arr : (ι → ℕ) → ℂ) (x : ι → ℕ) : applyBS eigh a b i j arr x = none := by
  unfold applyBS
  have hfail : ∀ {α β : Type} (f : β → α → Option β) (l : List α) (a : α), a ∈ l → (∀ b, f b a = none) → ∀ b, l.foldlM f b = none := by
    intro α β f l
    induction l with
    | nil => exact fun a ha => (List.not_mem_nil ha).elim
    | cons x l ih =>
      intro a ha hf b
      rw [List.foldlM_cons]
      rcases List.mem_cons.mp ha with rfl | ha
      · rw [hf]; rfl
      · cases f b x with
        | none => rfl
        | some b' => exact ih a ha hf b'
  have hmap : ∀ {α β : Type} (f : α → Option β) (l : List α) (a : α), a ∈ l → f a = none → l.mapM f = none := by
    intro α β f l
    induction l with
    | nil => exact fun a ha => (List.not_mem_nil ha).elim
    | cons x l ih =>
      intro a ha hf
      rw [List.mapM_cons]
      rcases List.mem_cons.mp ha with rfl | ha
      · rw [hf]; rfl
      · cases f x with
        | none => rfl
        | some b' => rw [ih a ha hf]; rfl
  have hidx : sectorIdx (min a b) a b = none := by
    unfold sectorIdx
    rcases lt_or_gt_of_ne hab with h | h
    · refine hmap _ _ a ?_ ?_
      · simp only [List.mem_filter, List.mem_range, decide_eq_true_eq]; omega
      · rw [if_neg (by omega)]
    · refine hmap _ _ 0 ?_ ?_
      · simp only [List.mem_filter, List.mem_range, decide_eq_true_eq]; omega
      · rw [if_neg (by omega)]
  rw [hfail _ _ (min a b) (by rw [List.mem_range]; omega) (fun v => ?_)]
  · rfl
  · unfold applyStep
    rw [hidx]
    rfl

/-- Every angle and phase meets the hypotheses of `C87_apply`. -/
example (θ φ : ℝ) (arr : (Fin 3 → ℕ) → ℂ) : ∃ eigh, applyBS eigh 4 4 (2 : Fin 3) 0 arr ![1, 5, 3] = some (∑ a ∈ Finset.range 4, ∑ b ∈ Finset.range 4,
    amp 4 (bsA θ φ) (fun _ => 0) 1 (toF [3, 1, a, b]) * arr (Function.update (Function.update ![1, 5, 3] 2 a) 0 b)) := by
  choose eigh he using fun N => exists_eigh N θ φ
  exact ⟨eigh, C87_apply θ φ eigh he 4 2 0 arr ![1, 5, 3] (by simp) (by simp)⟩

end Verif.Fock
