import Verif.RealIntegral

/-!
# Fusing two triples in real variables: `join_Abc_real` (C103)
-/

namespace Verif.RealInt
open Verif.PolyExp

/-! ## The code -/

/-- The general case of `join_Abc_real` (physics/gaussian_integrals.py 145-155): variables in the order fused, remaining of the first, remaining of the second. -/
def joinBoth (t1 t2 : Tri) (i1 i2 : List ℕ) : Tri :=
  let k := i1.length
  let n1 := notIdx t1.n i1
  let n2 := notIdx t2.n i2
  { n := k + n1.length + n2.length
    A := fun x y =>
      if x < k then
        if y < k then t1.A (i1.getD x 0) (i1.getD y 0) + t2.A (i2.getD x 0) (i2.getD y 0)
        else if y < k + n1.length then t1.A (i1.getD x 0) (n1.getD (y - k) 0)
        else t2.A (i2.getD x 0) (n2.getD (y - (k + n1.length)) 0)
      else if x < k + n1.length then
        if y < k then t1.A (n1.getD (x - k) 0) (i1.getD y 0)
        else if y < k + n1.length then t1.A (n1.getD (x - k) 0) (n1.getD (y - k) 0)
        else 0
      else
        if y < k then t2.A (n2.getD (x - (k + n1.length)) 0) (i2.getD y 0)
        else if y < k + n1.length then 0
        else t2.A (n2.getD (x - (k + n1.length)) 0) (n2.getD (y - (k + n1.length)) 0)
    b := fun x =>
      if x < k then t1.b (i1.getD x 0) + t2.b (i2.getD x 0)
      else if x < k + n1.length then t1.b (n1.getD (x - k) 0)
      else t2.b (n2.getD (x - (k + n1.length)) 0)
    c := t1.c * t2.c }

/-- The two special cases (physics/gaussian_integrals.py 139-144): `s` is the triple all of whose variables are fused, used in the order of its own axes, and `t` the other one, fused at `idx`; `math.block` is given the
two off-diagonal blocks in each other's place. -/
def joinOne (s t : Tri) (idx : List ℕ) : Tri :=
  let k := idx.length
  let n := notIdx t.n idx
  { n := k + n.length
    A := fun x y =>
      if x < k then
        if y < k then s.A x y + t.A (idx.getD x 0) (idx.getD y 0)
        else t.A (n.getD x 0) (idx.getD (y - k) 0)
      else
        if y < k then t.A (idx.getD (x - k) 0) (n.getD y 0)
        else t.A (n.getD (x - k) 0) (n.getD (y - k) 0)
    b := fun x => if x < k then s.b x + t.b (idx.getD x 0) else t.b (n.getD (x - k) 0)
    c := s.c * t.c }

/-- `join_Abc_real` (physics/gaussian_integrals.py 86-156) for scalar `c`; `none` if it raises: lists of different lengths or too long, no fused variables (`math.gather` refuses an empty index
array), no remaining variables at all (the blocks of the second triple are then unbound), and in the special cases blocks that do not fit together. -/
def joinAbcReal (t1 t2 : Tri) (i1 i2 : List ℕ) : Option Tri :=
  if i1.length ≠ i2.length then none
  else if t1.n < i1.length ∨ t2.n < i2.length then none
  else if i1 = [] then none
  else if notIdx t1.n i1 = [] then
    if notIdx t2.n i2 = [] then none
    else if (notIdx t2.n i2).length ≠ i2.length then none
    else some (joinOne t1 t2 i2)
  else if notIdx t2.n i2 = [] then
    if (notIdx t1.n i1).length ≠ i1.length then none
    else some (joinOne t2 t1 i1)
  else some (joinBoth t1 t2 i1 i2)

/-! ## Proofs -/

theorem sum_split_range {n : ℕ} {idx : List ℕ} (hn : idx.Nodup) (hlt : ∀ i ∈ idx, i < n) (F : ℕ → ℂ) :
    ∑ i ∈ Finset.range n, F i = ∑ p ∈ Finset.range idx.length, F (idx.getD p 0) + ∑ x ∈ Finset.range (notIdx n idx).length, F ((notIdx n idx).getD x 0) := by
  rw [sum_split' hn hlt, ← Finset.sum_range (fun p => F (idx.getD p 0))]

/-- **C103 (join)** If both triples keep at least one variable, `join_Abc_real` returns the product of the two functions: the fused variables come first, then the remaining variables of the first
and of the second triple. -/
theorem C103_join (t1 t2 : Tri) (i1 i2 : List ℕ) (hl : i1.length = i2.length) (h0 : i1 ≠ []) (hn1 : i1.Nodup) (hn2 : i2.Nodup) (hlt1 : ∀ i ∈ i1, i < t1.n) (hlt2 : ∀ i ∈ i2, i < t2.n)
    (hr1 : notIdx t1.n i1 ≠ []) (hr2 : notIdx t2.n i2 ≠ []) :
    ∃ r, joinAbcReal t1 t2 i1 i2 = some r ∧ r.n = i1.length + (notIdx t1.n i1).length + (notIdx t2.n i2).length ∧
      ∀ z x1 x2 : ℕ → ℂ, (∀ p < i1.length, x1 (i1.getD p 0) = z p ∧ x2 (i2.getD p 0) = z p) →
        (∀ j < (notIdx t1.n i1).length, x1 ((notIdx t1.n i1).getD j 0) = z (i1.length + j)) →
        (∀ j < (notIdx t2.n i2).length, x2 ((notIdx t2.n i2).getD j 0) = z (i1.length + (notIdx t1.n i1).length + j)) → r.eval z = t1.eval x1 * t2.eval x2 := by
  have hle : ∀ {n : ℕ} {i : List ℕ}, i.Nodup → (∀ a ∈ i, a < n) → ¬ n < i.length := fun {n i} hn hlt => by
    have := (List.subperm_of_subset hn (fun a ha => List.mem_range.2 (hlt a ha))).length_le
    rw [List.length_range] at this
    omega
  refine ⟨joinBoth t1 t2 i1 i2, ?_, rfl, fun z x1 x2 hz h1 h2 => ?_⟩
  · unfold joinAbcReal
    rw [if_neg (not_not.2 hl), if_neg (not_or.2 ⟨hle hn1 hlt1, hle hn2 hlt2⟩), if_neg h0, if_neg hr1, if_neg hr2]
  · obtain ⟨k, hk⟩ : ∃ k, k = i1.length := ⟨_, rfl⟩
    obtain ⟨n1, hn1'⟩ : ∃ n1, n1 = notIdx t1.n i1 := ⟨_, rfl⟩
    obtain ⟨n2, hn2'⟩ : ∃ n2, n2 = notIdx t2.n i2 := ⟨_, rfl⟩
    have s1 : ∀ F : ℕ → ℂ, ∑ i ∈ Finset.range t1.n, F i = ∑ p ∈ Finset.range k, F (i1.getD p 0) + ∑ x ∈ Finset.range n1.length, F (n1.getD x 0) := by
      rw [hk, hn1']
      exact sum_split_range hn1 hlt1
    have s2 : ∀ F : ℕ → ℂ, ∑ i ∈ Finset.range t2.n, F i = ∑ p ∈ Finset.range k, F (i2.getD p 0) + ∑ x ∈ Finset.range n2.length, F (n2.getD x 0) := by
      rw [hk, hl, hn2']
      exact sum_split_range hn2 hlt2
    rw [← hk, ← hn1'] at h1
    rw [← hk, ← hn1', ← hn2'] at h2
    rw [← hk] at hz
    -- the joined exponent
    have s3 : ∀ F : ℕ → ℂ, ∑ i ∈ Finset.range (k + n1.length + n2.length), F i = ∑ p ∈ Finset.range k, F p + ∑ x ∈ Finset.range n1.length, F (k + x) +
        ∑ x ∈ Finset.range n2.length, F (k + n1.length + x) := by
      intro F
      rw [Finset.sum_range_add, Finset.sum_range_add]
    have ea : ∀ x < k, ∀ y < k, (joinBoth t1 t2 i1 i2).A x y = t1.A (i1.getD x 0) (i1.getD y 0) + t2.A (i2.getD x 0) (i2.getD y 0) := fun x hx y hy => by
      unfold joinBoth
      dsimp only
      rw [← hk, if_pos hx, if_pos hy]
    have eb : ∀ x < k, ∀ y < n1.length, (joinBoth t1 t2 i1 i2).A x (k + y) = t1.A (i1.getD x 0) (n1.getD y 0) := fun x hx y hy => by
      unfold joinBoth
      dsimp only
      rw [← hk, ← hn1', if_pos hx, if_neg (by omega), if_pos (by omega), Nat.add_sub_cancel_left]
    have ec : ∀ x < k, ∀ y < n2.length, (joinBoth t1 t2 i1 i2).A x (k + n1.length + y) = t2.A (i2.getD x 0) (n2.getD y 0) := fun x hx y hy => by
      unfold joinBoth
      dsimp only
      rw [← hk, ← hn1', ← hn2', if_pos hx, if_neg (by omega), if_neg (by omega), Nat.add_sub_cancel_left]
    have ed : ∀ x < n1.length, ∀ y < k, (joinBoth t1 t2 i1 i2).A (k + x) y = t1.A (n1.getD x 0) (i1.getD y 0) := fun x hx y hy => by
      unfold joinBoth
      dsimp only
      rw [← hk, ← hn1', if_neg (by omega), if_pos (by omega), if_pos hy, Nat.add_sub_cancel_left]
    have ee : ∀ x < n1.length, ∀ y < n1.length, (joinBoth t1 t2 i1 i2).A (k + x) (k + y) = t1.A (n1.getD x 0) (n1.getD y 0) := fun x hx y hy => by
      unfold joinBoth
      dsimp only
      rw [← hk, ← hn1', if_neg (by omega), if_pos (by omega), if_neg (by omega), if_pos (by omega), Nat.add_sub_cancel_left, Nat.add_sub_cancel_left]
    have ef : ∀ x < n1.length, ∀ y, (joinBoth t1 t2 i1 i2).A (k + x) (k + n1.length + y) = 0 := fun x hx y => by
      unfold joinBoth
      dsimp only
      rw [← hk, ← hn1', if_neg (by omega), if_pos (by omega), if_neg (by omega), if_neg (by omega)]
    have eg : ∀ x, ∀ y < k, (joinBoth t1 t2 i1 i2).A (k + n1.length + x) y = t2.A (n2.getD x 0) (i2.getD y 0) := fun x y hy => by
      unfold joinBoth
      dsimp only
      rw [← hk, ← hn1', ← hn2', if_neg (by omega), if_neg (by omega), if_pos hy, Nat.add_sub_cancel_left]
    have eh : ∀ x, ∀ y < n1.length, (joinBoth t1 t2 i1 i2).A (k + n1.length + x) (k + y) = 0 := fun x y hy => by
      unfold joinBoth
      dsimp only
      rw [← hk, ← hn1', if_neg (by omega), if_neg (by omega), if_neg (by omega), if_pos (by omega)]
    have ei : ∀ x y, (joinBoth t1 t2 i1 i2).A (k + n1.length + x) (k + n1.length + y) = t2.A (n2.getD x 0) (n2.getD y 0) := fun x y => by
      unfold joinBoth
      dsimp only
      rw [← hk, ← hn1', ← hn2', if_neg (by omega), if_neg (by omega), if_neg (by omega), if_neg (by omega), Nat.add_sub_cancel_left, Nat.add_sub_cancel_left]
    have fa : ∀ x < k, (joinBoth t1 t2 i1 i2).b x = t1.b (i1.getD x 0) + t2.b (i2.getD x 0) := fun x hx => by
      unfold joinBoth
      dsimp only
      rw [← hk, if_pos hx]
    have fb : ∀ x < n1.length, (joinBoth t1 t2 i1 i2).b (k + x) = t1.b (n1.getD x 0) := fun x hx => by
      unfold joinBoth
      dsimp only
      rw [← hk, ← hn1', if_neg (by omega), if_pos (by omega), Nat.add_sub_cancel_left]
    have fc : ∀ x, (joinBoth t1 t2 i1 i2).b (k + n1.length + x) = t2.b (n2.getD x 0) := fun x => by
      unfold joinBoth
      dsimp only
      rw [← hk, ← hn1', ← hn2', if_neg (by omega), if_neg (by omega), Nat.add_sub_cancel_left]
    have hN : (joinBoth t1 t2 i1 i2).n = k + n1.length + n2.length := by
      rw [hk, hn1', hn2']
      rfl
    have hc : (joinBoth t1 t2 i1 i2).c = t1.c * t2.c := rfl
    have key : 1 / 2 * ∑ i ∈ Finset.range (joinBoth t1 t2 i1 i2).n, ∑ j ∈ Finset.range (joinBoth t1 t2 i1 i2).n, (joinBoth t1 t2 i1 i2).A i j * z i * z j +
        ∑ i ∈ Finset.range (joinBoth t1 t2 i1 i2).n, (joinBoth t1 t2 i1 i2).b i * z i =
        (1 / 2 * ∑ i ∈ Finset.range t1.n, ∑ j ∈ Finset.range t1.n, t1.A i j * x1 i * x1 j + ∑ i ∈ Finset.range t1.n, t1.b i * x1 i) +
        (1 / 2 * ∑ i ∈ Finset.range t2.n, ∑ j ∈ Finset.range t2.n, t2.A i j * x2 i * x2 j + ∑ i ∈ Finset.range t2.n, t2.b i * x2 i) := by
      obtain ⟨J, hJ⟩ : ∃ J, J = joinBoth t1 t2 i1 i2 := ⟨_, rfl⟩
      rw [← hJ] at ea eb ec ed ee ef eg eh ei fa fb fc hN ⊢
      rw [hN]
      have L : ∀ (m : ℕ) (f g : ℕ → ℂ), (∀ p < m, f p = g p) → ∑ p ∈ Finset.range m, f p = ∑ p ∈ Finset.range m, g p := fun m f g h =>
        Finset.sum_congr rfl fun p hp => h p (Finset.mem_range.1 hp)
      -- rows
      have r1 : ∀ p < k, ∑ j ∈ Finset.range (k + n1.length + n2.length), J.A p j * z p * z j =
          ∑ j ∈ Finset.range t1.n, t1.A (i1.getD p 0) j * x1 (i1.getD p 0) * x1 j + ∑ j ∈ Finset.range t2.n, t2.A (i2.getD p 0) j * x2 (i2.getD p 0) * x2 j := fun p hp => by
        rw [s3 fun j => J.A p j * z p * z j, s1 fun j => t1.A (i1.getD p 0) j * x1 (i1.getD p 0) * x1 j, s2 fun j => t2.A (i2.getD p 0) j * x2 (i2.getD p 0) * x2 j, (hz p hp).1, (hz p hp).2]
        rw [L k _ (fun q => t1.A (i1.getD p 0) (i1.getD q 0) * z p * x1 (i1.getD q 0) + t2.A (i2.getD p 0) (i2.getD q 0) * z p * x2 (i2.getD q 0)) fun q hq => by
            rw [ea p hp q hq, (hz q hq).1, (hz q hq).2]; ring,
          L n1.length _ (fun q => t1.A (i1.getD p 0) (n1.getD q 0) * z p * x1 (n1.getD q 0)) fun q hq => by rw [eb p hp q hq, h1 q hq],
          L n2.length _ (fun q => t2.A (i2.getD p 0) (n2.getD q 0) * z p * x2 (n2.getD q 0)) fun q hq => by rw [ec p hp q hq, h2 q hq], Finset.sum_add_distrib]
        ring
      have r2 : ∀ p < n1.length, ∑ j ∈ Finset.range (k + n1.length + n2.length), J.A (k + p) j * z (k + p) * z j =
          ∑ j ∈ Finset.range t1.n, t1.A (n1.getD p 0) j * x1 (n1.getD p 0) * x1 j := fun p hp => by
        rw [s3 fun j => J.A (k + p) j * z (k + p) * z j, s1 fun j => t1.A (n1.getD p 0) j * x1 (n1.getD p 0) * x1 j, h1 p hp]
        rw [L k _ (fun q => t1.A (n1.getD p 0) (i1.getD q 0) * z (k + p) * x1 (i1.getD q 0)) fun q hq => by rw [ed p hp q hq, (hz q hq).1],
          L n1.length _ (fun q => t1.A (n1.getD p 0) (n1.getD q 0) * z (k + p) * x1 (n1.getD q 0)) fun q hq => by rw [ee p hp q hq, h1 q hq],
          L n2.length _ (fun _ => 0) fun q hq => by rw [ef p hp q]; ring, Finset.sum_const_zero, add_zero]
      have r3 : ∀ p < n2.length, ∑ j ∈ Finset.range (k + n1.length + n2.length), J.A (k + n1.length + p) j * z (k + n1.length + p) * z j =
          ∑ j ∈ Finset.range t2.n, t2.A (n2.getD p 0) j * x2 (n2.getD p 0) * x2 j := fun p hp => by
        rw [s3 fun j => J.A (k + n1.length + p) j * z (k + n1.length + p) * z j, s2 fun j => t2.A (n2.getD p 0) j * x2 (n2.getD p 0) * x2 j, h2 p hp]
        rw [L k _ (fun q => t2.A (n2.getD p 0) (i2.getD q 0) * z (k + n1.length + p) * x2 (i2.getD q 0)) fun q hq => by rw [eg p q hq, (hz q hq).2],
          L n1.length _ (fun _ => 0) fun q hq => by rw [eh p q hq]; ring,
          L n2.length _ (fun q => t2.A (n2.getD p 0) (n2.getD q 0) * z (k + n1.length + p) * x2 (n2.getD q 0)) fun q hq => by rw [ei p q, h2 q hq], Finset.sum_const_zero, add_zero]
      rw [s3 fun i => ∑ j ∈ Finset.range (k + n1.length + n2.length), J.A i j * z i * z j, s3 fun i => J.b i * z i, L k _ _ r1, L n1.length _ _ r2, L n2.length _ _ r3, Finset.sum_add_distrib,
        L k (fun i => J.b i * z i) (fun q => t1.b (i1.getD q 0) * x1 (i1.getD q 0) + t2.b (i2.getD q 0) * x2 (i2.getD q 0)) fun q hq => by rw [fa q hq, (hz q hq).1, (hz q hq).2]; ring,
        L n1.length (fun x => J.b (k + x) * z (k + x)) (fun q => t1.b (n1.getD q 0) * x1 (n1.getD q 0)) fun q hq => by rw [fb q hq, h1 q hq],
        L n2.length (fun x => J.b (k + n1.length + x) * z (k + n1.length + x)) (fun q => t2.b (n2.getD q 0) * x2 (n2.getD q 0)) fun q hq => by rw [fc q, h2 q hq], Finset.sum_add_distrib,
        s1 fun i => ∑ j ∈ Finset.range t1.n, t1.A i j * x1 i * x1 j, s1 fun i => t1.b i * x1 i, s2 fun i => ∑ j ∈ Finset.range t2.n, t2.A i j * x2 i * x2 j, s2 fun i => t2.b i * x2 i]
      ring
    unfold Tri.eval
    rw [key, hc, Complex.exp_add]
    ring


theorem notIdx_length {n : ℕ} {idx : List ℕ} (hn : idx.Nodup) (hlt : ∀ i ∈ idx, i < n) : idx.length + (notIdx n idx).length = n := by
  have h := sum_split_range hn hlt (fun _ => 1)
  simp only [Finset.sum_const, Finset.card_range, nsmul_eq_mul, mul_one] at h
  exact_mod_cast h.symm

/-- What the special cases compute, when the blocks fit and the block between the fused and the remaining variables of `t` is its own transpose. -/
theorem joinOne_eval (s t : Tri) (idx : List ℕ) (hs : s.n = idx.length) (hn : idx.Nodup) (hlt : ∀ i ∈ idx, i < t.n) (hsz : (notIdx t.n idx).length = idx.length)
    (hX : ∀ p < idx.length, ∀ q < idx.length, t.A ((notIdx t.n idx).getD p 0) (idx.getD q 0) = t.A (idx.getD p 0) ((notIdx t.n idx).getD q 0))
    (z x : ℕ → ℂ) (hz : ∀ p < idx.length, x (idx.getD p 0) = z p) (h1 : ∀ j < idx.length, x ((notIdx t.n idx).getD j 0) = z (idx.length + j)) :
    (joinOne s t idx).eval z = s.eval z * t.eval x := by
  obtain ⟨k, hk⟩ : ∃ k, k = idx.length := ⟨_, rfl⟩
  obtain ⟨n1, hn1⟩ : ∃ n1, n1 = notIdx t.n idx := ⟨_, rfl⟩
  have s1 : ∀ F : ℕ → ℂ, ∑ i ∈ Finset.range t.n, F i = ∑ p ∈ Finset.range k, F (idx.getD p 0) + ∑ x ∈ Finset.range k, F (n1.getD x 0) := by
    intro F
    have := sum_split_range hn hlt F
    rw [hsz, ← hk, ← hn1] at this
    exact this
  have s2 : ∀ F : ℕ → ℂ, ∑ i ∈ Finset.range (k + k), F i = ∑ p ∈ Finset.range k, F p + ∑ x ∈ Finset.range k, F (k + x) := fun F => Finset.sum_range_add _ _ _
  rw [← hk, ← hn1] at h1 hX
  rw [← hk] at hz hs
  have ea : ∀ p < k, ∀ q < k, (joinOne s t idx).A p q = s.A p q + t.A (idx.getD p 0) (idx.getD q 0) := fun p hp q hq => by
    unfold joinOne
    dsimp only
    rw [← hk, if_pos hp, if_pos hq]
  have eb : ∀ p < k, ∀ q < k, (joinOne s t idx).A p (k + q) = t.A (idx.getD p 0) (n1.getD q 0) := fun p hp q hq => by
    unfold joinOne
    dsimp only
    rw [← hk, if_pos hp, if_neg (by omega), Nat.add_sub_cancel_left, ← hn1, hX p hp q hq]
  have ec : ∀ p < k, ∀ q < k, (joinOne s t idx).A (k + p) q = t.A (n1.getD p 0) (idx.getD q 0) := fun p hp q hq => by
    unfold joinOne
    dsimp only
    rw [← hk, if_neg (by omega), if_pos hq, Nat.add_sub_cancel_left, ← hn1, hX p hp q hq]
  have ed : ∀ p q, (joinOne s t idx).A (k + p) (k + q) = t.A (n1.getD p 0) (n1.getD q 0) := fun p q => by
    unfold joinOne
    dsimp only
    rw [← hk, if_neg (by omega), if_neg (by omega), Nat.add_sub_cancel_left, Nat.add_sub_cancel_left, ← hn1]
  have fa : ∀ p < k, (joinOne s t idx).b p = s.b p + t.b (idx.getD p 0) := fun p hp => by
    unfold joinOne
    dsimp only
    rw [← hk, if_pos hp]
  have fb : ∀ p, (joinOne s t idx).b (k + p) = t.b (n1.getD p 0) := fun p => by
    unfold joinOne
    dsimp only
    rw [← hk, if_neg (by omega), Nat.add_sub_cancel_left, ← hn1]
  have hN : (joinOne s t idx).n = k + k := by
    show idx.length + (notIdx t.n idx).length = _
    rw [hsz, hk]
  have hc : (joinOne s t idx).c = s.c * t.c := rfl
  obtain ⟨J, hJ⟩ : ∃ J, J = joinOne s t idx := ⟨_, rfl⟩
  rw [← hJ] at ea eb ec ed fa fb hN hc ⊢
  have L : ∀ (m : ℕ) (f g : ℕ → ℂ), (∀ p < m, f p = g p) → ∑ p ∈ Finset.range m, f p = ∑ p ∈ Finset.range m, g p := fun m f g h =>
    Finset.sum_congr rfl fun p hp => h p (Finset.mem_range.1 hp)
  have key : 1 / 2 * ∑ i ∈ Finset.range J.n, ∑ j ∈ Finset.range J.n, J.A i j * z i * z j + ∑ i ∈ Finset.range J.n, J.b i * z i =
      (1 / 2 * ∑ i ∈ Finset.range s.n, ∑ j ∈ Finset.range s.n, s.A i j * z i * z j + ∑ i ∈ Finset.range s.n, s.b i * z i) +
      (1 / 2 * ∑ i ∈ Finset.range t.n, ∑ j ∈ Finset.range t.n, t.A i j * x i * x j + ∑ i ∈ Finset.range t.n, t.b i * x i) := by
    rw [hN, hs]
    have r1 : ∀ p < k, ∑ j ∈ Finset.range (k + k), J.A p j * z p * z j =
        ∑ j ∈ Finset.range k, s.A p j * z p * z j + ∑ j ∈ Finset.range t.n, t.A (idx.getD p 0) j * x (idx.getD p 0) * x j := fun p hp => by
      rw [s2 fun j => J.A p j * z p * z j, s1 fun j => t.A (idx.getD p 0) j * x (idx.getD p 0) * x j, hz p hp]
      rw [L k (fun j => J.A p j * z p * z j) (fun q => s.A p q * z p * z q + t.A (idx.getD p 0) (idx.getD q 0) * z p * x (idx.getD q 0)) fun q hq => by rw [ea p hp q hq, hz q hq]; ring,
        L k (fun x => J.A p (k + x) * z p * z (k + x)) (fun q => t.A (idx.getD p 0) (n1.getD q 0) * z p * x (n1.getD q 0)) fun q hq => by rw [eb p hp q hq, h1 q hq], Finset.sum_add_distrib]
      ring
    have r2 : ∀ p < k, ∑ j ∈ Finset.range (k + k), J.A (k + p) j * z (k + p) * z j = ∑ j ∈ Finset.range t.n, t.A (n1.getD p 0) j * x (n1.getD p 0) * x j := fun p hp => by
      rw [s2 fun j => J.A (k + p) j * z (k + p) * z j, s1 fun j => t.A (n1.getD p 0) j * x (n1.getD p 0) * x j, h1 p hp]
      rw [L k (fun j => J.A (k + p) j * z (k + p) * z j) (fun q => t.A (n1.getD p 0) (idx.getD q 0) * z (k + p) * x (idx.getD q 0)) fun q hq => by rw [ec p hp q hq, hz q hq],
        L k (fun x => J.A (k + p) (k + x) * z (k + p) * z (k + x)) (fun q => t.A (n1.getD p 0) (n1.getD q 0) * z (k + p) * x (n1.getD q 0)) fun q hq => by rw [ed p q, h1 q hq]]
    rw [s2 fun i => ∑ j ∈ Finset.range (k + k), J.A i j * z i * z j, s2 fun i => J.b i * z i, L k (fun i => ∑ j ∈ Finset.range (k + k), J.A i j * z i * z j) _ r1,
      L k (fun p => ∑ j ∈ Finset.range (k + k), J.A (k + p) j * z (k + p) * z j) _ r2, Finset.sum_add_distrib,
      L k (fun i => J.b i * z i) (fun q => s.b q * z q + t.b (idx.getD q 0) * x (idx.getD q 0)) fun q hq => by rw [fa q hq, hz q hq]; ring,
      L k (fun y => J.b (k + y) * z (k + y)) (fun q => t.b (n1.getD q 0) * x (n1.getD q 0)) fun q hq => by rw [fb q, h1 q hq], Finset.sum_add_distrib,
      s1 fun i => ∑ j ∈ Finset.range t.n, t.A i j * x i * x j, s1 fun i => t.b i * x i]
    ring
  unfold Tri.eval
  rw [key, hc, Complex.exp_add]
  ring

/-- **C103 (when the join returns)** For two non-empty index lists of one length, without repetitions and in range, `join_Abc_real` returns exactly when both triples keep a variable, or one is fused
completely and the other has twice as many variables. -/
theorem C103_join_defined (t1 t2 : Tri) (i1 i2 : List ℕ) (hl : i1.length = i2.length) (h0 : i1 ≠ []) (hn1 : i1.Nodup) (hn2 : i2.Nodup) (hlt1 : ∀ i ∈ i1, i < t1.n) (hlt2 : ∀ i ∈ i2, i < t2.n) :
    (joinAbcReal t1 t2 i1 i2).isSome ↔ (i1.length < t1.n ∧ i1.length < t2.n) ∨ (t1.n = i1.length ∧ t2.n = 2 * i1.length) ∨ (t2.n = i1.length ∧ t1.n = 2 * i1.length) := by
  have e1 := notIdx_length hn1 hlt1
  have e2 := notIdx_length hn2 hlt2
  have hp : 0 < i1.length := List.length_pos_iff.2 h0
  unfold joinAbcReal
  rw [if_neg (not_not.2 hl), if_neg (not_or.2 ⟨by omega, by omega⟩), if_neg h0]
  simp only [← List.length_eq_zero_iff]
  split_ifs <;> simp <;> omega

/-- **C103 (no index list, lists of different lengths)** are refused. -/
theorem C103_join_refused (t1 t2 : Tri) (i1 i2 : List ℕ) (h : i1.length ≠ i2.length ∨ i1 = []) : joinAbcReal t1 t2 i1 i2 = none := by
  unfold joinAbcReal
  by_cases hl : i1.length = i2.length
  · rw [if_neg (not_not.2 hl), if_pos (h.resolve_left (not_not.2 hl))]
    exact ite_self _
  · rw [if_pos hl]

/-- **C103 (join, one triple fused completely)** If all the variables of one triple are fused, in their own order, and the other triple has twice as many variables, whose block between fused and
remaining variables is its own transpose, the result is the product of the two functions, fused variables first. -/
theorem C103_join_one (s t : Tri) (idx : List ℕ) (h0 : idx ≠ []) (hs : s.n = idx.length) (ht : t.n = 2 * idx.length) (hn : idx.Nodup) (hlt : ∀ i ∈ idx, i < t.n)
    (hX : ∀ p < idx.length, ∀ q < idx.length, t.A ((notIdx t.n idx).getD p 0) (idx.getD q 0) = t.A (idx.getD p 0) ((notIdx t.n idx).getD q 0)) :
    ∃ r, joinAbcReal s t (List.range s.n) idx = some r ∧ joinAbcReal t s idx (List.range s.n) = some r ∧ r.n = t.n ∧
      ∀ z x : ℕ → ℂ, (∀ p < idx.length, x (idx.getD p 0) = z p) → (∀ j < idx.length, x ((notIdx t.n idx).getD j 0) = z (idx.length + j)) → r.eval z = s.eval z * t.eval x := by
  have e2 := notIdx_length hn hlt
  have hp : 0 < idx.length := List.length_pos_iff.2 h0
  have hsz : (notIdx t.n idx).length = idx.length := by omega
  have hr : notIdx s.n (List.range s.n) = [] := by
    unfold notIdx
    rw [List.filter_eq_nil_iff]
    intro a ha
    simpa using ha
  have hne : notIdx t.n idx ≠ [] := by
    rw [← List.length_pos_iff, hsz]
    exact hp
  have hr0 : List.range s.n ≠ [] := by
    rw [← List.length_pos_iff, List.length_range, hs]
    exact hp
  refine ⟨joinOne s t idx, ?_, ?_, ?_, fun z x hz h1 => joinOne_eval s t idx hs hn hlt hsz hX z x hz h1⟩
  · unfold joinAbcReal
    rw [List.length_range, if_neg (not_not.2 hs), if_neg (not_or.2 ⟨lt_irrefl _, by omega⟩), if_neg hr0, if_pos hr, if_neg hne, if_neg (not_not.2 hsz)]
  · unfold joinAbcReal
    rw [List.length_range, if_neg (not_not.2 hs.symm), if_neg (not_or.2 ⟨by omega, lt_irrefl _⟩), if_neg h0, if_neg hne, if_pos hr, if_neg (not_not.2 hsz)]
  · show idx.length + (notIdx t.n idx).length = t.n
    exact e2

/-- The state of the disagreement below: four variables, symmetric, variables 0 and 3 coupled. -/
def exT : Tri := ⟨4, fun i j => if (i = 0 ∧ j = 3) ∨ (i = 3 ∧ j = 0) then 1 else 0, fun _ => 0, 1⟩
/-- The constant function 1 of two variables. -/
def exS : Tri := ⟨2, fun _ _ => 0, fun _ => 0, 1⟩
/-- Two variables, `exp (x₀)`. -/
def exB : Tri := ⟨2, fun _ _ => 0, fun i => if i = 0 then 1 else 0, 1⟩

/-- **C103 (the off-diagonal blocks are exchanged)** Fusing the constant function 1 of two variables with the first two variables of `exp (x₀ x₃)` returns a different function: at
`(1, 0, 0, 1)` the product is `e` and the result 1. -/
theorem C103_join_wrong : ∃ r, joinAbcReal exS exT [0, 1] [0, 1] = some r ∧ exT.Sym ∧ exS.Sym ∧
    r.eval (fun i => if i = 0 ∨ i = 3 then 1 else 0) ≠ exS.eval (fun i => if i = 0 ∨ i = 3 then 1 else 0) * exT.eval (fun i => if i = 0 ∨ i = 3 then 1 else 0) := by
  refine ⟨joinOne exS exT [0, 1], rfl, ?_, fun i _ j _ => rfl, ?_⟩
  · intro i _ j _
    show (if _ then (1 : ℂ) else 0) = if _ then (1 : ℂ) else 0
    refine if_congr ?_ rfl rfl
    tauto
  · have hn : notIdx exT.n [0, 1] = [2, 3] := by decide
    have hN : (joinOne exS exT [0, 1]).n = 4 := by
      show 2 + (notIdx exT.n [0, 1]).length = 4
      rw [hn]
      rfl
    have hA : ∀ i j, (joinOne exS exT [0, 1]).A i j = if i < 2 then if j < 2 then exS.A i j + exT.A ([0, 1].getD i 0) ([0, 1].getD j 0) else exT.A ([2, 3].getD i 0) ([0, 1].getD (j - 2) 0)
        else if j < 2 then exT.A ([0, 1].getD (i - 2) 0) ([2, 3].getD j 0) else exT.A ([2, 3].getD (i - 2) 0) ([2, 3].getD (j - 2) 0) := fun i j => by
      rw [← hn]
      rfl
    have hb : ∀ i, (joinOne exS exT [0, 1]).b i = 0 := fun i => by
      show (if _ then (0 : ℂ) + 0 else 0) = 0
      split_ifs <;> simp
    unfold Tri.eval
    rw [hN, show (joinOne exS exT [0, 1]).c = 1 from mul_one 1, show exS.n = 2 from rfl, show exT.n = 4 from rfl]
    simp only [hA, hb, Finset.sum_range_succ, Finset.sum_range_zero]
    simp only [exS, exT]
    norm_num
    intro h
    have := congrArg Complex.re h
    rw [show (1 : ℂ) = ((1 : ℝ) : ℂ) from rfl, ← Complex.ofReal_exp, Complex.ofReal_re, Complex.ofReal_re] at this
    have h2 := Real.add_one_lt_exp (x := 1) one_ne_zero
    linarith

/-- **C103 (the order of the completely fused triple is ignored)** Fusing the variables of `exp (x₀)` in the order 1, 0 gives the same result as in the order 0, 1. -/
theorem C103_join_order : joinAbcReal exB exT [1, 0] [0, 1] = joinAbcReal exB exT [0, 1] [0, 1] ∧ (joinAbcReal exB exT [1, 0] [0, 1]).isSome ∧
    exB.eval (fun i => if i = 0 then 1 else 0) ≠ exB.eval (fun i => if i = 1 then 1 else 0) := by
  refine ⟨rfl, rfl, ?_⟩
  unfold Tri.eval
  simp only [exB, Finset.sum_range_succ, Finset.sum_range_zero]
  norm_num
  intro h
  have := congrArg Complex.re h
  rw [show (1 : ℂ) = ((1 : ℝ) : ℂ) from rfl, ← Complex.ofReal_exp, Complex.ofReal_re, Complex.ofReal_re] at this
  have h2 := Real.add_one_lt_exp (x := 1) one_ne_zero
  linarith

/-! ## Concrete cases -/

/-- `C103_join`: fuse variable 3 of `exp (x₀ x₃)` with variable 1 of `exp (x₀)`. -/
example : ∃ r, joinAbcReal exT exB [3] [1] = some r ∧ r.n = 1 + 3 + 1 := by
  obtain ⟨r, h, hn, -⟩ := C103_join exT exB [3] [1] rfl (by decide) (by decide) (by decide) (by decide) (by decide) (by decide) (by decide)
  exact ⟨r, h, hn⟩

/-- `C103_join_one`: `exp (x₀)` fused completely with variables 1 and 0 of `exp (x₀ x₃)`, where the coupling is a diagonal entry of the block. -/
example : ∃ r, joinAbcReal exB exT [0, 1] [1, 0] = some r := by
  obtain ⟨r, h, -⟩ := C103_join_one exB exT [1, 0] (by decide) rfl rfl (by decide) (by decide) (by
    intro p hp q hq
    have hp : p < 2 := hp
    have hq : q < 2 := hq
    have hn : notIdx exT.n [1, 0] = [2, 3] := by decide
    rw [hn]
    interval_cases p <;> interval_cases q <;> simp [exT])
  exact ⟨r, h⟩

example : (joinAbcReal exS exT [0, 1] [0, 2]).isSome ∧ joinAbcReal exB exS [0, 1] [1, 0] = none := ⟨rfl, rfl⟩

end Verif.RealInt
