import Verif.FastDiagProps

/-!
# The compact diagonal strategy: model (math/lattice/strategies/compactFock/diagonal_amps.py, C79; diagonal_grad.py, C80)

One column of `B` (the code also accepts a matrix `B` whose columns are treated independently). Arrays are functions of their indices.
-/

namespace Verif.Compact
open Verif.Fock Verif.FastDiag

/-- The five arrays (diagonal_amps.py 212-233): `a0` holds the amplitudes `[a,a,b,b,...]`, `a1 i` those with one more photon in axis `i`, `a2 d` those with two more in
axis `2 d`, `a1010 d e` and `a1001 d e` those with one more in axis `2 d` and one more in axis `2 i`, `2 i + 1`, where `i = d + 1 + e`. -/
structure Arrs (α : Type) where
  /-- `arr0` -/
  a0 : List ℕ → α
  /-- `arr1` -/
  a1 : ℕ → List ℕ → α
  /-- `arr2` -/
  a2 : ℕ → List ℕ → α
  /-- `arr1010` -/
  a1010 : ℕ → ℕ → List ℕ → α
  /-- `arr1001` -/
  a1001 : ℕ → ℕ → List ℕ → α

/-- `tuple_setitem(params, d, params[d] + 1)` (diagonal_amps.py 79). -/
def raise (p : List ℕ) (d : ℕ) : List ℕ := p.set d (p.getD d 0 + 1)

/-- What `use_diag_pivot` reads into `G_in` (diagonal_amps.py 121-127; diagonal_grad.py 226-233). -/
def readDiag {α : Type} [Zero α] (st : Arrs α) (p : List ℕ) (i : ℕ) : α :=
  if 0 < p.getD (i / 2) 0 then st.a1 (i + 1 - 2 * (i % 2)) (lower p (i / 2)) else 0

/-- What `use_offDiag_pivot` reads into `G_in` (diagonal_amps.py 57-71; diagonal_grad.py 92-113). -/
def readOff {α : Type} [Zero α] (M : ℕ) (st : Arrs α) (p : List ℕ) (d j : ℕ) : α :=
  if j = 2 * d then st.a0 p
  else if j = 2 * d + 1 then (if 0 < p.getD d 0 then st.a2 d (lower p d) else 0)
  else if d < j / 2 ∧ j / 2 < M ∧ 0 < p.getD (j / 2) 0 then
    (if j % 2 = 0 then st.a1001 d (j / 2 - d - 1) (lower p (j / 2)) else st.a1010 d (j / 2 - d - 1) (lower p (j / 2)))
  else 0

/-- What `use_diag_pivot` writes, `next i` being the value computed for axis `i` (diagonal_amps.py 135-139; diagonal_grad.py 238-255). The loop writes distinct entries,
none of which it reads. -/
def writeDiag {α : Type} (cut p : List ℕ) (next : ℕ → α) (st : Arrs α) : Arrs α :=
  { st with a1 := fun i q => if q = p ∧ i < 2 * cut.length ∧ p.getD (i / 2) 0 + 1 < cut.getD (i / 2) 0 ∧ (i ≠ 1 ∨ p.getD 0 0 + 2 < cut.getD 0 0) then next i else st.a1 i q }

/-- What `use_offDiag_pivot` writes (diagonal_amps.py 78-92; diagonal_grad.py 117-185). -/
def writeOff {α : Type} (cut p : List ℕ) (d : ℕ) (next : ℕ → α) (st : Arrs α) : Arrs α :=
  { st with
    a0 := Function.update st.a0 (raise p d) (next (2 * d + 1))
    a2 := fun d' q => if d' = d ∧ q = p ∧ p.getD d 0 + 2 < cut.getD d 0 then next (2 * d) else st.a2 d' q
    a1010 := fun d' e q => if d' = d ∧ q = p ∧ d + 1 + e < cut.length ∧ p.getD (d + 1 + e) 0 + 1 < cut.getD (d + 1 + e) 0 then next (2 * (d + 1 + e)) else st.a1010 d' e q
    a1001 := fun d' e q => if d' = d ∧ q = p ∧ d + 1 + e < cut.length ∧ p.getD (d + 1 + e) 0 + 1 < cut.getD (d + 1 + e) 0 then next (2 * (d + 1 + e) + 1) else st.a1001 d' e q }

/-- `cutoffs[0] == 1 or params[0] < cutoffs[0] - 1` (diagonal_amps.py 179; diagonal_grad.py 305). -/
def diagCond (cut p : List ℕ) : Prop := cut.getD 0 0 = 1 ∨ p.getD 0 0 < cut.getD 0 0 - 1
/-- `np.all(params[:d] == 0) and params[d] < cutoffs[d] - 1` (diagonal_amps.py 183; diagonal_grad.py 321). -/
def offCond (cut p : List ℕ) (d : ℕ) : Prop := (∀ x ∈ p.take d, x = 0) ∧ p.getD d 0 < cut.getD d 0 - 1

instance (cut p : List ℕ) : Decidable (diagCond cut p) := inferInstanceAs (Decidable (_ ∨ _))
instance (cut p : List ℕ) (d : ℕ) : Decidable (offCond cut p d) := inferInstanceAs (Decidable (_ ∧ _))

/-- The list stored under `s` by `construct_dict_params`: the indices of an array of shape `cutoffs` of sum `s`, in lexicographic order (helperFunctions.py 30-45). -/
def dictParams (cut : List ℕ) (s : ℕ) : List (List ℕ) := (prodL (cut.map List.range)).filter fun p => p.sum = s

/-- The body of the double loop (diagonal_amps.py 178-196; diagonal_grad.py 304-346). -/
def visit {α : Type} (cut : List ℕ) (diagNext : List ℕ → Arrs α → ℕ → α) (offNext : List ℕ → ℕ → Arrs α → ℕ → α) (st : Arrs α) (p : List ℕ) : Arrs α :=
  (List.range cut.length).foldl (fun st d => if offCond cut p d then writeOff cut p d (offNext p d st) st else st)
    (if diagCond cut p then writeDiag cut p (diagNext p st) st else st)

/-- The double loop (diagonal_amps.py 175-197; diagonal_grad.py 301-351). -/
def sweep {α : Type} (cut : List ℕ) (diagNext : List ℕ → Arrs α → ℕ → α) (offNext : List ℕ → ℕ → Arrs α → ℕ → α) (st : Arrs α) : Arrs α :=
  (List.range cut.sum).foldl (fun st s => (dictParams cut s).foldl (visit cut diagNext offNext) st) st

/-- The arrays before the loop: zeros, except `arr0[0,...,0]` (diagonal_amps.py 212-235). -/
def initArrs {α : Type} [Zero α] (M : ℕ) (x : α) : Arrs α :=
  { a0 := Function.update (fun _ => 0) (List.replicate M 0) x, a1 := fun _ _ => 0, a2 := fun _ _ => 0, a1010 := fun _ _ _ => 0, a1001 := fun _ _ _ => 0 }

/-- `pivot = repeat_twice(params)` (helperFunctions.py 14-27). -/
def twice (p : List ℕ) (j : ℕ) : ℕ := p.getD (j / 2) 0
/-- `pivot[2 d] += 1` (diagonal_amps.py 45-46). -/
def twiceOff (p : List ℕ) (d j : ℕ) : ℕ := if j = 2 * d then p.getD (j / 2) 0 + 1 else p.getD (j / 2) 0

/-- `(GB[i] + A[i] @ G_in) / K_i[i]` with `G_in` multiplied by `K_l` (diagonal_amps.py 47-55, 73-92). -/
noncomputable def nextVal (A : ℕ → ℕ → ℂ) (B : ℕ → ℂ) (M : ℕ) (pivot : ℕ → ℕ) (val : ℂ) (Gin : ℕ → ℂ) (i : ℕ) : ℂ :=
  (val * B i + ∑ l ∈ Finset.range (2 * M), A i l * (Fock.sq (pivot l) * Gin l)) / Fock.sq (pivot i + 1)

/-- `use_diag_pivot` (diagonal_amps.py 97-141). -/
noncomputable def diagNext (A : ℕ → ℕ → ℂ) (B : ℕ → ℂ) (M : ℕ) (p : List ℕ) (st : Arrs ℂ) (i : ℕ) : ℂ :=
  nextVal A B M (twice p) (st.a0 p) (readDiag st p) i
/-- `use_offDiag_pivot` (diagonal_amps.py 18-94). -/
noncomputable def offNext (A : ℕ → ℕ → ℂ) (B : ℕ → ℂ) (M : ℕ) (p : List ℕ) (d : ℕ) (st : Arrs ℂ) (i : ℕ) : ℂ :=
  nextVal A B M (twiceOff p d) (st.a1 (2 * d) p) (readOff M st p d) i

/-- `fock_representation_diagonal_amps` (diagonal_amps.py 144-248). -/
noncomputable def amps (A : ℕ → ℕ → ℂ) (B : ℕ → ℂ) (G0 : ℂ) (cut : List ℕ) : Arrs ℂ :=
  sweep cut (diagNext A B cut.length) (offNext A B cut.length) (initArrs cut.length G0)

/-- `math.hermite_renormalized_diagonal(A, b, c, cutoffs)` with `reorderedAB` (backend_numpy.py 367-375, 423-432; inputValidation.py 61-79): `none` is the `ValueError` for a
matrix that is not symmetric. The matrix `A` has `2 len(cutoffs)` rows and columns. -/
noncomputable def diagonal (A : ℕ → ℕ → ℂ) (b : ℕ → ℂ) (c : ℂ) (cut : List ℕ) : Option (List ℕ → ℂ) :=
  open Classical in
  let M := cut.length
  let A' := fun i j => A (perm M i) (perm M j)
  let b' := fun i => b (perm M i)
  if Symm (2 * M) A' then some (amps A' b' c cut).a0 else none

/-! ## The invariant -/

/-- The photon numbers `[a,a,b,b,...]`. -/
def P (p : List ℕ) : ℕ →₀ ℕ := (dup p).toFinsupp

/-- Indices of an array of shape `cut`. -/
def InBox (cut p : List ℕ) : Prop := p.length = cut.length ∧ ∀ i < cut.length, p.getD i 0 < cut.getD i 0

theorem P_apply (p : List ℕ) (j : ℕ) : P p j = p.getD (j / 2) 0 := by
  unfold P
  rw [List.toFinsupp_apply]
  rcases Nat.even_or_odd' j with ⟨i, rfl | rfl⟩
  · rw [(dup_getD p i).1, show 2 * i / 2 = i by omega]
  · rw [(dup_getD p i).2, show (2 * i + 1) / 2 = i by omega]

theorem up_apply (k : ℕ →₀ ℕ) (i x : ℕ) : up k i x = if x = i then k x + 1 else k x := by
  unfold up
  rw [Finsupp.add_apply, Finsupp.single_apply]
  split_ifs <;> omega

theorem dn_apply (k : ℕ →₀ ℕ) (i x : ℕ) : dn k i x = if x = i then k x - 1 else k x := by
  unfold dn
  rw [Finsupp.tsub_apply, Finsupp.single_apply]
  split_ifs <;> omega

theorem raise_getD (p : List ℕ) (d x : ℕ) (hd : d < p.length) : (raise p d).getD x 0 = if x = d then p.getD x 0 + 1 else p.getD x 0 := by
  unfold raise
  by_cases h : x = d
  · subst h; rw [if_pos rfl, List.getD_eq_getElem _ _ (by simpa using hd), List.getElem_set_self]
  · rw [if_neg h]
    by_cases hx : x < p.length
    · rw [List.getD_eq_getElem _ _ (by simpa using hx), List.getElem_set_ne (Ne.symm h), List.getD_eq_getElem _ _ hx]
    · rw [List.getD_eq_default _ _ (by simpa using hx), List.getD_eq_default _ _ (by omega)]

theorem length_raise (p : List ℕ) (d : ℕ) : (raise p d).length = p.length := by simp [raise]

theorem list_ext_getD {p q : List ℕ} (h : p.length = q.length) (h' : ∀ i, p.getD i 0 = q.getD i 0) : p = q := by
  refine List.ext_getElem h fun i h1 h2 => ?_
  have := h' i
  rwa [List.getD_eq_getElem _ _ h1, List.getD_eq_getElem _ _ h2] at this

theorem raise_lower {p : List ℕ} {d : ℕ} (h : 0 < p.getD d 0) : raise (lower p d) d = p := by
  have hd : d < p.length := by
    by_contra hc
    rw [List.getD_eq_default _ _ (by omega)] at h
    omega
  refine list_ext_getD (by rw [length_raise, length_lower]) fun i => ?_
  rw [raise_getD _ _ _ (by rwa [length_lower]), lower_getD]
  split_ifs with h1
  · subst h1; omega
  · rfl

/-- Every entry that was computed is right: `D` are the indices whose diagonal pivot was used, `E` those whose off-diagonal pivots were used. -/
structure Good {α : Type} (R : (ℕ →₀ ℕ) → α → Prop) (cut : List ℕ) (st : Arrs α) (D : List ℕ → Prop) (E : List ℕ → ℕ → Prop) : Prop where
  zero : R 0 (st.a0 (List.replicate cut.length 0))
  a0 : ∀ q d, E q d → R (P (raise q d)) (st.a0 (raise q d))
  a1 : ∀ q i, D q → i < 2 * cut.length → q.getD (i / 2) 0 + 1 < cut.getD (i / 2) 0 → (i ≠ 1 ∨ q.getD 0 0 + 2 < cut.getD 0 0) → R (up (P q) i) (st.a1 i q)
  a2 : ∀ q d, E q d → q.getD d 0 + 2 < cut.getD d 0 → R (up (up (P q) (2 * d)) (2 * d)) (st.a2 d q)
  a1010 : ∀ q d e, E q d → d + 1 + e < cut.length → q.getD (d + 1 + e) 0 + 1 < cut.getD (d + 1 + e) 0 → R (up (up (P q) (2 * d)) (2 * (d + 1 + e))) (st.a1010 d e q)
  a1001 : ∀ q d e, E q d → d + 1 + e < cut.length → q.getD (d + 1 + e) 0 + 1 < cut.getD (d + 1 + e) 0 → R (up (up (P q) (2 * d)) (2 * (d + 1 + e) + 1)) (st.a1001 d e q)

/-- All pivots of the indices of sum below `s` were used. -/
structure Full (cut : List ℕ) (D : List ℕ → Prop) (E : List ℕ → ℕ → Prop) (s : ℕ) : Prop where
  d : ∀ q, InBox cut q → q.sum < s → diagCond cut q → D q
  e : ∀ q d, InBox cut q → q.sum < s → d < cut.length → offCond cut q d → E q d

theorem offCond_iff {cut p : List ℕ} {d : ℕ} (hp : InBox cut p) (hd : d < cut.length) : offCond cut p d ↔ (∀ j < d, p.getD j 0 = 0) ∧ p.getD d 0 + 1 < cut.getD d 0 := by
  unfold offCond
  refine and_congr ⟨fun h j hj => ?_, fun h x hx => ?_⟩ (by omega)
  · have hl : j < p.length := by rw [hp.1]; omega
    rw [List.getD_eq_getElem _ _ hl]
    refine h _ ?_
    rw [List.mem_take_iff_getElem]
    exact ⟨j, by omega, rfl⟩
  · obtain ⟨j, hj, rfl⟩ := List.mem_take_iff_getElem.1 hx
    have := h j (by omega)
    rwa [List.getD_eq_getElem _ _ (by omega)] at this

theorem lower_box {cut p : List ℕ} (hp : InBox cut p) (j : ℕ) : InBox cut (lower p j) := by
  refine ⟨by rw [length_lower, hp.1], fun i hi => ?_⟩
  have := hp.2 i hi
  rw [lower_getD]
  split_ifs with h
  · subst h; omega
  · exact this

theorem P_zero (M : ℕ) : P (List.replicate M 0) = 0 := by
  ext j
  rw [P_apply]
  by_cases h : j / 2 < M
  · rw [List.getD_eq_getElem _ _ (by simpa using h)]; simp
  · rw [List.getD_eq_default _ _ (by simpa using h)]; rfl

section
variable {α : Type} [Zero α] {R : (ℕ →₀ ℕ) → α → Prop} {cut : List ℕ} {st : Arrs α} {D : List ℕ → Prop} {E : List ℕ → ℕ → Prop} {p : List ℕ}

omit [Zero α] in
/-- The diagonal entries whose predecessor was visited. -/
theorem good_a0 (hG : Good R cut st D E) (hF : Full cut D E p.sum) (hp : InBox cut p) : R (P p) (st.a0 p) := by
  by_cases h0 : ∃ d, d < cut.length ∧ p.getD d 0 ≠ 0
  · classical
    obtain ⟨hd, hn⟩ := Nat.find_spec h0
    have hmin : ∀ j < Nat.find h0, p.getD j 0 = 0 := fun j hj => by
      have := Nat.find_min h0 hj
      by_contra hc
      exact this ⟨by omega, hc⟩
    obtain ⟨d, hdd⟩ : ∃ d, d = Nat.find h0 := ⟨_, rfl⟩
    rw [← hdd] at hd hn hmin
    have hs := lower_sum p d (by omega)
    have hb := lower_box hp d
    have := hG.a0 _ _ (hF.e (lower p d) d hb (by omega) hd ((offCond_iff hb hd).2 ⟨fun j hj => by rw [lower_getD, if_neg (by omega), hmin j hj],
      by have := hp.2 d hd; rw [lower_getD, if_pos rfl]; omega⟩))
    rwa [raise_lower (by omega)] at this
  · have : p = List.replicate cut.length 0 := by
      refine list_ext_getD (by simp [hp.1]) fun i => ?_
      by_cases hi : i < cut.length
      · rw [List.getD_eq_getElem (List.replicate _ _) _ (by simpa using hi)]
        by_contra hc
        exact h0 ⟨i, hi, by simpa using hc⟩
      · rw [List.getD_eq_default _ _ (by rw [hp.1]; omega), List.getD_eq_default _ _ (by simp; omega)]
    rw [this, P_zero]
    exact hG.zero

theorem readDiag_ok (hG : Good R cut st D E) (hF : Full cut D E p.sum) (hp : InBox cut p) (hc : diagCond cut p) {l : ℕ} (hl : l < 2 * cut.length) (h0 : 0 < p.getD (l / 2) 0) :
    R (dn (P p) l) (readDiag st p l) := by
  unfold readDiag
  rw [if_pos h0]
  have hb := lower_box hp (l / 2)
  have hs := lower_sum p (l / 2) h0
  have hlt := hp.2 (l / 2) (by omega)
  have hdc : diagCond cut (lower p (l / 2)) := by
    unfold diagCond at hc ⊢
    rw [lower_getD]
    split_ifs with h
    · rw [← h] at h0 ⊢; omega
    · exact hc
  have e : dn (P p) l = up (P (lower p (l / 2))) (l + 1 - 2 * (l % 2)) := by
    ext x
    rw [dn_apply, up_apply, P_apply, P_apply, lower_getD]
    rcases eq_or_ne (x / 2) (l / 2) with hx | hx
    · rw [hx]; split_ifs <;> omega
    · split_ifs <;> omega
  rw [e]
  refine hG.a1 _ _ (hF.d _ hb (by omega) hdc) (by omega) ?_ ?_
  · rw [show (l + 1 - 2 * (l % 2)) / 2 = l / 2 by omega, lower_getD, if_pos rfl]; omega
  · by_cases h1 : l + 1 - 2 * (l % 2) = 1
    · right
      have hl0 : l / 2 = 0 := by omega
      rw [hl0] at h0 hlt ⊢
      rw [lower_getD, if_pos rfl]
      unfold diagCond at hc
      omega
    · exact .inl h1

theorem readOff_ok (hG : Good R cut st D E) (hF : Full cut D E p.sum) (hp : InBox cut p) {d : ℕ} (hd : d < cut.length) (hc : offCond cut p d) {l : ℕ} (hl : l < 2 * cut.length)
    (h0 : 0 < up (P p) (2 * d) l) : R (dn (up (P p) (2 * d)) l) (readOff cut.length st p d l) := by
  obtain ⟨c1, c2⟩ := (offCond_iff hp hd).1 hc
  unfold readOff
  by_cases h1 : l = 2 * d
  · rw [if_pos h1, h1]
    have : dn (up (P p) (2 * d)) (2 * d) = P p := by
      ext x; rw [dn_apply, up_apply]; split_ifs <;> omega
    rw [this]
    exact good_a0 hG hF hp
  · rw [if_neg h1]
    rw [up_apply, if_neg h1, P_apply] at h0
    have hb := lower_box hp (l / 2)
    have hs := lower_sum p (l / 2) h0
    have hlt := hp.2 (l / 2) (by omega)
    have hdl : d ≤ l / 2 := by
      by_contra hcon
      rw [c1 _ (by omega)] at h0
      omega
    have hoc : offCond cut (lower p (l / 2)) d := by
      rw [offCond_iff hb hd]
      refine ⟨fun j hj => by rw [lower_getD, if_neg (by omega), c1 j hj], ?_⟩
      rw [lower_getD]
      split_ifs with h
      · rw [← h]; omega
      · exact c2
    have hE := hF.e _ d hb (by omega) hd hoc
    by_cases h2 : l = 2 * d + 1
    · have hl2 : l / 2 = d := by omega
      rw [hl2] at h0 hE
      rw [if_pos h2, if_pos h0]
      have e : dn (up (P p) (2 * d)) l = up (up (P (lower p d)) (2 * d)) (2 * d) := by
        ext x
        rw [dn_apply, up_apply, up_apply, up_apply, P_apply, P_apply, lower_getD]
        rcases eq_or_ne (x / 2) (d) with hx | hx
        · rw [hx]; split_ifs <;> omega
        · split_ifs <;> omega
      rw [e]
      refine hG.a2 _ _ hE ?_
      rw [lower_getD, if_pos rfl]; omega
    · rw [if_neg h2, if_pos ⟨by omega, by omega, h0⟩]
      have ee : d + 1 + (l / 2 - d - 1) = l / 2 := by omega
      have hw : (lower p (l / 2)).getD (d + 1 + (l / 2 - d - 1)) 0 + 1 < cut.getD (d + 1 + (l / 2 - d - 1)) 0 := by
        rw [ee, lower_getD, if_pos rfl]; omega
      split_ifs with h3
      · have e : dn (up (P p) (2 * d)) l = up (up (P (lower p (l / 2))) (2 * d)) (2 * (l / 2) + 1) := by
          ext x
          rw [dn_apply, up_apply, up_apply, up_apply, P_apply, P_apply, lower_getD]
          rcases eq_or_ne (x / 2) (l / 2) with hx | hx
          · rw [hx]; split_ifs <;> omega
          · split_ifs <;> omega
        rw [e]
        have := hG.a1001 _ d (l / 2 - d - 1) hE (by omega) hw
        rwa [ee] at this
      · have e : dn (up (P p) (2 * d)) l = up (up (P (lower p (l / 2))) (2 * d)) (2 * (l / 2)) := by
          ext x
          rw [dn_apply, up_apply, up_apply, up_apply, P_apply, P_apply, lower_getD]
          rcases eq_or_ne (x / 2) (l / 2) with hx | hx
          · rw [hx]; split_ifs <;> omega
          · split_ifs <;> omega
        rw [e]
        have := hG.a1010 _ d (l / 2 - d - 1) hE (by omega) hw
        rwa [ee] at this

omit [Zero α] in
/-- The off-diagonal pivot was written by the diagonal one. -/
theorem pivotOff_ok (hG : Good R cut st D E) (hD : diagCond cut p → D p) (hp : InBox cut p) {d : ℕ} (hd : d < cut.length) (hc : offCond cut p d) :
    R (up (P p) (2 * d)) (st.a1 (2 * d) p) := by
  obtain ⟨c1, c2⟩ := (offCond_iff hp hd).1 hc
  refine hG.a1 _ _ (hD ?_) (by omega) (by rw [show 2 * d / 2 = d by omega]; exact c2) (.inl (by omega))
  unfold diagCond
  rcases Nat.eq_zero_or_pos d with h | h
  · subst h; omega
  · have h1 := c1 0 h
    have h2 := hp.2 0 (by omega)
    omega

end

end Verif.Compact
