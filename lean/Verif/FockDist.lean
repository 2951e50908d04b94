import Verif.ArrayAlg

/-!
# Photon number distributions (C70)

Model of `State.fock_distribution` (lab/states/base.py:446-467).
-/

namespace Verif.Arr
open Verif.Fock Verif.PolyExp

/-- `np.diagonal(a, axis1, axis2)` (math/backend_numpy.py:130-133) for axes `ax1 < ax2`: the two axes are removed and the diagonal is appended as the
last axis. -/
def npDiagonal (a : Arr) (ax1 ax2 : ℕ) : Arr where
  batchDims := a.batchDims
  shape := (a.shape.eraseIdx ax2).eraseIdx ax1 ++ [min (a.shape.getD ax1 0) (a.shape.getD ax2 0)]
  get k := a.get (((k.dropLast).insertIdx ax1 (k.getLastD 0)).insertIdx ax2 (k.getLastD 0))

/-- lab/states/base.py:463-464, the loop over the modes; a negative axis `-j` is `ndim - j`. -/
def diagLoop (n : ℕ) (a : Arr) : ℕ → Arr
  | 0 => a
  | i + 1 => npDiagonal (diagLoop n a i) ((diagLoop n a i).shape.length - (n + 1)) ((diagLoop n a i).shape.length - (1 + i))

/-- `list(product(list(range(c)), repeat=n))` (lab/states/base.py:466). -/
def productList (c : ℕ) : ℕ → List (List ℕ)
  | 0 => [[]]
  | n + 1 => (List.range c).flatMap fun i => (productList c n).map (i :: ·)

/-- lab/states/base.py:446-467 `State.fock_distribution(cutoff)`, as a function of the batch index and the position in the last axis.
`a` is `fock_array(cutoff)`: batch axes, then (for a DM) `n` bra axes and `n` ket axes, or (for a Ket) `n` axes; `sep` is `is_separable`. -/
noncomputable def fockDistribution (ket sep : Bool) (n c : ℕ) (a : Arr) (β : List ℕ) (x : ℕ) : ℂ :=
  if ket then ((‖a.get (β ++ unravel (a.shape.drop β.length) x)‖ ^ 2 : ℝ) : ℂ)
  else if sep then ((‖(diagLoop n a n).get (β ++ unravel ((diagLoop n a n).shape.drop β.length) x)‖ : ℝ) : ℂ)
  else a.get (β ++ (productList c n).getD x [] ++ (productList c n).getD x [])

theorem productList_length (c : ℕ) : ∀ n, (productList c n).length = c ^ n
  | 0 => rfl
  | n + 1 => by
    rw [productList, List.length_flatMap]
    simp [productList_length c n, pow_succ, mul_comm]

/-- A constant-length `flatMap` read at `i * m + j`. -/
theorem flatMap_get {α : Type*} (f : ℕ → List α) (m : ℕ) (hm : ∀ i, (f i).length = m) : ∀ (c i j : ℕ), i < c → j < m →
    ((List.range c).flatMap f)[i * m + j]? = (f i)[j]?
  | 0, i, j, hi, _ => by omega
  | c + 1, i, j, hi, hj => by
    have hl : ((List.range c).flatMap f).length = c * m := by
      rw [List.length_flatMap]; simp [hm]
    rw [List.range_succ, List.flatMap_append]
    by_cases h : i < c
    · rw [List.getElem?_append_left (by rw [hl]; nlinarith), flatMap_get f m hm c i j h hj]
    · obtain rfl : i = c := by omega
      rw [List.getElem?_append_right (by rw [hl]; omega), hl, Nat.add_sub_cancel_left]
      simp

theorem productList_get (c : ℕ) : ∀ (n : ℕ) (ks : List ℕ), InB (List.replicate n c) ks → (productList c n)[ravel (List.replicate n c) ks]? = some ks
  | 0, ks, h => by
    rw [List.replicate_zero] at h
    cases h
    rfl
  | n + 1, ks, h => by
    rw [List.replicate_succ] at h
    cases h with
    | cons hk hr =>
      rename_i k r
      rw [List.replicate_succ, productList]
      have hlt : ravel (List.replicate n c) r < c ^ n := by
        have := (unravel_ravel hr).1
        simpa using this
      have : ravel (c :: List.replicate n c) (k :: r) = k * c ^ n + ravel (List.replicate n c) r := by
        simp [ravel]
      rw [this, flatMap_get _ (c ^ n) (fun i => by rw [List.length_map, productList_length]) c k _ hk hlt, List.getElem?_map,
        productList_get c n r hr]
      rfl

theorem insertIdx_mid {α : Type*} (t : α) (l2 : List α) : ∀ l1 : List α, (l1 ++ l2).insertIdx l1.length t = l1 ++ t :: l2
  | [] => rfl
  | a :: l1 => by
    rw [List.cons_append, List.length_cons, List.insertIdx_succ_cons, insertIdx_mid t l2 l1]
    rfl

theorem eraseIdx_mid {α : Type*} (t : α) (l2 : List α) : ∀ l1 : List α, (l1 ++ t :: l2).eraseIdx l1.length = l1 ++ l2
  | [] => rfl
  | a :: l1 => by
    rw [List.cons_append, List.length_cons, List.eraseIdx_cons_succ, eraseIdx_mid t l2 l1]
    rfl

theorem getD_mid {α : Type*} (t d : α) (l2 l1 : List α) : (l1 ++ t :: l2).getD l1.length d = t := by
  simp [List.getD]

/-- What the loop over the modes computes. -/
theorem diagLoop_spec {n c : ℕ} {a : Arr} {B : List ℕ} (ha : a.shape = B ++ List.replicate n c ++ List.replicate n c) : ∀ i, i ≤ n →
    (diagLoop n a i).shape = B ++ List.replicate (n - i) c ++ List.replicate (n - i) c ++ List.replicate i c ∧
      ∀ β x y d : List ℕ, β.length = B.length → x.length = n - i → y.length = n - i → d.length = i →
        (diagLoop n a i).get (β ++ x ++ y ++ d) = a.get (β ++ (x ++ d.reverse) ++ (y ++ d.reverse))
  | 0, _ => by
    refine ⟨by simp [diagLoop, ha], fun β x y d hβ hx hy hd => ?_⟩
    obtain rfl := List.length_eq_zero_iff.1 hd
    simp [diagLoop]
  | i + 1, hi => by
    obtain ⟨hs, hg⟩ := diagLoop_spec ha i (by omega)
    obtain ⟨m, hm⟩ : ∃ m, n - i = m + 1 := ⟨n - i - 1, by omega⟩
    have hm' : n - (i + 1) = m := by omega
    have hlen : (diagLoop n a i).shape.length = B.length + 2 * (m + 1) + i := by rw [hs, hm]; simp; omega
    have a1 : (diagLoop n a i).shape.length - (n + 1) = B.length + m := by omega
    have a2 : (diagLoop n a i).shape.length - (1 + i) = B.length + m + 1 + m := by omega
    rw [diagLoop, a1, a2, hm']
    have es : (diagLoop n a i).shape = (B ++ List.replicate m c ++ c :: List.replicate m c) ++ c :: List.replicate i c := by
      rw [hs, hm]
      have : List.replicate (m + 1) c = List.replicate m c ++ [c] := List.replicate_succ'
      rw [this]
      simp
    have l1 : (B ++ List.replicate m c).length = B.length + m := by simp
    have l2 : (B ++ List.replicate m c ++ c :: List.replicate m c).length = B.length + m + 1 + m := by simp; omega
    constructor
    · show ((diagLoop n a i).shape.eraseIdx _).eraseIdx _ ++ [min _ _] = _
      have g2 : (diagLoop n a i).shape.getD (B.length + m + 1 + m) 0 = c := by rw [es, ← l2]; exact getD_mid _ _ _ _
      have g1 : (diagLoop n a i).shape.getD (B.length + m) 0 = c := by
        rw [es, ← l1, List.append_assoc (B ++ List.replicate m c), List.cons_append]; exact getD_mid _ _ _ _
      rw [g1, g2, es, ← l2, eraseIdx_mid, ← l1, List.append_assoc (B ++ List.replicate m c), List.cons_append, eraseIdx_mid, min_self]
      simp only [List.append_assoc, List.replicate_succ']
    · intro β x y d hβ hx hy hd
      obtain ⟨d, t, rfl⟩ : ∃ d' t, d = d' ++ [t] := ⟨d.dropLast, d.getLast (by intro h; simp [h] at hd), (List.dropLast_append_getLast _).symm⟩
      have hd' : d.length = i := by simpa using hd
      show (diagLoop n a i).get ((((β ++ x ++ y ++ (d ++ [t])).dropLast).insertIdx _ ((β ++ x ++ y ++ (d ++ [t])).getLastD 0)).insertIdx _
        ((β ++ x ++ y ++ (d ++ [t])).getLastD 0)) = _
      have e1 : (β ++ x ++ y ++ (d ++ [t])).getLastD 0 = t := by rw [← List.append_assoc]; simp
      have e2 : (β ++ x ++ y ++ (d ++ [t])).dropLast = (β ++ x) ++ (y ++ d) := by rw [← List.append_assoc, List.dropLast_concat, List.append_assoc]
      rw [e1, e2]
      have k1 : (β ++ x).length = B.length + m := by simp [hβ, hx]
      have k2 : (β ++ x ++ t :: y).length = B.length + m + 1 + m := by simp [hβ, hx, hy]; omega
      rw [← k1, insertIdx_mid, k1, ← k2, show β ++ x ++ t :: (y ++ d) = (β ++ x ++ t :: y) ++ d by simp, insertIdx_mid]
      have := hg β (x ++ [t]) (y ++ [t]) d hβ (by simp [hx]; omega) (by simp [hy]; omega) hd'
      rw [show β ++ x ++ t :: y ++ t :: d = β ++ (x ++ [t]) ++ (y ++ [t]) ++ d by simp, this]
      simp

/-- **C70 (kets)** For a ket the entry at the position of `(k₀, …, kₙ₋₁)` in C order is `|⟨k|ψ⟩|²`. -/
theorem C70_ket {n c : ℕ} {a : Arr} {B β ks : List ℕ} (sep : Bool) (ha : a.shape = B ++ List.replicate n c) (hβ : InB B β) (hk : InB (List.replicate n c) ks) :
    fockDistribution true sep n c a β (ravel (List.replicate n c) ks) = ((‖a.get (β ++ ks)‖ ^ 2 : ℝ) : ℂ) := by
  have hl : β.length = B.length := hβ.length_eq
  unfold fockDistribution
  rw [if_pos rfl, ha, hl, List.drop_left, (unravel_ravel hk).2]

/-- **C70 (density matrices)** For a density matrix that `is_separable` reports as not separable the entry is `⟨k|ρ|k⟩`. -/
theorem C70_dm {n c : ℕ} {a : Arr} {β ks : List ℕ} (hk : InB (List.replicate n c) ks) :
    fockDistribution false false n c a β (ravel (List.replicate n c) ks) = a.get (β ++ ks ++ ks) := by
  unfold fockDistribution
  rw [if_neg (by simp), if_neg (by simp), List.getD, productList_get c n ks hk]
  rfl

/-- **C70 (separable density matrices: the exact behaviour)** For a density matrix that `is_separable` reports as separable the entry at the position of
`(k₀, …, kₙ₋₁)` is `|⟨kₙ₋₁ … k₀|ρ|kₙ₋₁ … k₀⟩|`: the modes are in reverse order. -/
theorem C70_separable {n c : ℕ} {a : Arr} {B β ks : List ℕ} (ha : a.shape = B ++ List.replicate n c ++ List.replicate n c) (hβ : InB B β)
    (hk : InB (List.replicate n c) ks) :
    fockDistribution false true n c a β (ravel (List.replicate n c) ks) = ((‖a.get (β ++ ks.reverse ++ ks.reverse)‖ : ℝ) : ℂ) := by
  have hl : β.length = B.length := hβ.length_eq
  obtain ⟨hs, hg⟩ := diagLoop_spec ha n le_rfl
  unfold fockDistribution
  rw [if_neg (by simp), if_pos rfl, hs, Nat.sub_self, List.replicate_zero, List.append_nil, List.append_nil, hl, List.drop_left, (unravel_ravel hk).2]
  have := hg β [] [] ks hl (by simp) (by simp) (by have := hk.length_eq; simpa using this)
  simp only [List.append_nil, List.nil_append] at this
  rw [this]

/-- **C70 (agreement)** When the array of the density matrix is the projector on the ket and every basis state and its mode reversal have the same
probability, all three answers agree. -/
theorem C70_agree {n c : ℕ} {a r : Arr} {B β ks : List ℕ} (ha : a.shape = B ++ List.replicate n c)
    (hr : r.shape = B ++ List.replicate n c ++ List.replicate n c)
    (hp : ∀ β k l, InB B β → InB (List.replicate n c) k → InB (List.replicate n c) l → r.get (β ++ k ++ l) = (starRingEnd ℂ) (a.get (β ++ k)) * a.get (β ++ l)) (hβ : InB B β)
    (hk : InB (List.replicate n c) ks) (hsym : ‖a.get (β ++ ks.reverse)‖ = ‖a.get (β ++ ks)‖) (sep : Bool) :
    fockDistribution false sep n c r β (ravel (List.replicate n c) ks) = fockDistribution true sep n c a β (ravel (List.replicate n c) ks) := by
  rw [C70_ket sep ha hβ hk]
  have hk' : InB (List.replicate n c) ks.reverse := by
    have := List.forall₂_reverse_iff.2 hk
    rwa [List.reverse_replicate] at this
  cases sep
  · rw [C70_dm hk, hp β ks ks hβ hk hk, Complex.conj_mul']
    norm_cast
  · rw [C70_separable hr hβ hk, hp _ _ _ hβ hk' hk', norm_mul, hsym, Complex.norm_conj, hsym, pow_two]

/-- **C70 (disagreement)** A ket in a product state of two modes, `|1⟩ ⊗ |0⟩`: the distribution of the ket and of its density matrix differ. -/
theorem C70_disagree : ∃ a r : Arr, a.shape = List.replicate 2 2 ∧ r.shape = List.replicate 2 2 ++ List.replicate 2 2 ∧
    (∀ k l, k.length = 2 → l.length = 2 → r.get (k ++ l) = (starRingEnd ℂ) (a.get k) * a.get l) ∧ (∃ f g : ℕ → ℂ, ∀ i j, a.get [i, j] = f i * g j) ∧
    fockDistribution true true 2 2 a [] 2 = 1 ∧ fockDistribution false true 2 2 r [] 2 = 0 ∧ fockDistribution false true 2 2 r [] 1 = 1 := by
  let ψ : List ℕ → ℂ := fun k => if k = [1, 0] then 1 else 0
  have h10 : InB (List.replicate 2 2) [1, 0] := by unfold InB; simp
  have h01 : InB (List.replicate 2 2) [0, 1] := by unfold InB; simp
  refine ⟨⟨0, List.replicate 2 2, ψ⟩, ⟨0, List.replicate 2 2 ++ List.replicate 2 2, fun k => (starRingEnd ℂ) (ψ (k.take 2)) * ψ (k.drop 2)⟩, rfl, rfl, ?_,
    ⟨fun i => if i = 1 then 1 else 0, fun j => if j = 0 then 1 else 0, ?_⟩, ?_, ?_, ?_⟩
  · intro k l hk hl
    simp [List.take_append, List.drop_append, hk]
  · intro i j
    by_cases h1 : i = 1 <;> by_cases h2 : j = 0 <;> simp [ψ, h1, h2]
  · have := C70_ket (n := 2) (c := 2) (B := []) (β := []) (a := ⟨0, List.replicate 2 2, ψ⟩) true rfl List.Forall₂.nil h10
    simpa [ravel, ψ] using this
  · have := C70_separable (n := 2) (c := 2) (B := []) (β := [])
      (a := ⟨0, List.replicate 2 2 ++ List.replicate 2 2, fun k => (starRingEnd ℂ) (ψ (k.take 2)) * ψ (k.drop 2)⟩) rfl List.Forall₂.nil h10
    simpa [ravel, ψ] using this
  · have := C70_separable (n := 2) (c := 2) (B := []) (β := [])
      (a := ⟨0, List.replicate 2 2 ++ List.replicate 2 2, fun k => (starRingEnd ℂ) (ψ (k.take 2)) * ψ (k.drop 2)⟩) rfl List.Forall₂.nil h01
    simpa [ravel, ψ] using this

end Verif.Arr
