import Verif.CompactGrad
import Verif.FastDiagMain

/-!
# The compact strategy with one leftover mode (math/lattice/strategies/compactFock/singleLeftoverMode_amps.py, singleLeftoverMode_grad.py; C81, C82)

The five arrays hold blocks, indexed by the photon numbers `m`, `n` of the two axes of the leftover mode; axis `i` of the detected modes is axis `i + 2` of `A` and `B`.
-/

namespace Verif.Compact
open Verif.Fock Verif.FastDiag

/-- A block of shape `(cutoff_leftoverMode, cutoff_leftoverMode)`. -/
abbrev Blk (β : Type) : Type := ℕ → ℕ → β

/-- Keep the entries below the cutoff `c0`, as the loops of `write_block` do. -/
def cutBlk {β : Type} [Zero β] (c0 : ℕ) (f : Blk β) : Blk β := fun m n => if m < c0 ∧ n < c0 then f m n else 0

/-- One entry written by `write_block` (singleLeftoverMode_amps.py 20-73): the four cases of the code differ in whether the entries of axes `0` and `1` are present. -/
noncomputable def nextBlk (A : ℕ → ℕ → ℂ) (B : ℕ → ℂ) (M : ℕ) (pivot : ℕ → ℕ) (val : Blk ℂ) (Gin : ℕ → Blk ℂ) (i m n : ℕ) : ℂ :=
  (val m n * B (i + 2) + ((if 0 < m then A (i + 2) 0 * (val (m - 1) n * Fock.sq m) else 0) + (if 0 < n then A (i + 2) 1 * (val m (n - 1) * Fock.sq n) else 0) +
    ∑ l ∈ Finset.range (2 * M), A (i + 2) (l + 2) * (Fock.sq (pivot l) * Gin l m n))) / Fock.sq (pivot i + 1)

/-- `use_diag_pivot` (singleLeftoverMode_amps.py 224-286); the reads are those of `readDiag`, block by block. -/
noncomputable def diagNextBlk (A : ℕ → ℕ → ℂ) (B : ℕ → ℂ) (M c0 : ℕ) (p : List ℕ) (st : Arrs (Blk ℂ)) (i : ℕ) : Blk ℂ :=
  cutBlk c0 (nextBlk A B M (twice p) (st.a0 p) (readDiag st p) i)
/-- `use_offDiag_pivot` (singleLeftoverMode_amps.py 100-221). -/
noncomputable def offNextBlk (A : ℕ → ℕ → ℂ) (B : ℕ → ℂ) (M c0 : ℕ) (p : List ℕ) (d : ℕ) (st : Arrs (Blk ℂ)) (i : ℕ) : Blk ℂ :=
  cutBlk c0 (nextBlk A B M (twiceOff p d) (st.a1 (2 * d) p) (readOff M st p d) i)

/-- The index `m - 1` of an axis of length `c0`: `-1` is the last entry. -/
def prevIx (c0 m : ℕ) : ℕ := if m = 0 then c0 - 1 else m - 1

/-- `b[(m, n)] = v`. -/
def setBlk {β : Type} (b : Blk β) (m n : ℕ) (v : β) : Blk β := fun m' n' => if m' = m ∧ n' = n then v else b m' n'

/-- The loops that fill the first block (singleLeftoverMode_amps.py 323-334; singleLeftoverMode_grad.py 602-635): first column, then row after row. -/
def fillFirst {β : Type} (c0 : ℕ) (s1 : Blk β → ℕ → β) (s2 : Blk β → ℕ → ℕ → β) (b : Blk β) : Blk β :=
  let b1 := (List.range (c0 - 1)).foldl (fun b m => setBlk b (m + 1) 0 (s1 b m)) b
  (List.range c0).foldl (fun b m => (List.range (c0 - 1)).foldl (fun b n => setBlk b m (n + 1) (s2 b m n)) b) b1

/-- The first column (singleLeftoverMode_amps.py 325-327). -/
noncomputable def colStep (A : ℕ → ℕ → ℂ) (B : ℕ → ℂ) (c0 : ℕ) (b : Blk ℂ) (m : ℕ) : ℂ :=
  (b m 0 * B 0 + Fock.sq m * A 0 0 * b (prevIx c0 m) 0) / Fock.sq (m + 1)
/-- The rows (singleLeftoverMode_amps.py 330-334). -/
noncomputable def rowStep (A : ℕ → ℕ → ℂ) (B : ℕ → ℂ) (c0 : ℕ) (b : Blk ℂ) (m n : ℕ) : ℂ :=
  (b m n * B 1 + Fock.sq m * A 1 0 * b (prevIx c0 m) n + Fock.sq n * A 1 1 * b m (prevIx c0 n)) / Fock.sq (n + 1)

/-- `fock_representation_1leftoverMode_amps` (singleLeftoverMode_amps.py 289-421) with leftover cutoff `c0` and the cutoffs `cut` of the other modes. -/
noncomputable def ampsLeft (A : ℕ → ℕ → ℂ) (B : ℕ → ℂ) (G0 : ℂ) (c0 : ℕ) (cut : List ℕ) : Arrs (Blk ℂ) :=
  sweep cut (diagNextBlk A B cut.length c0) (offNextBlk A B cut.length c0)
    (initArrs cut.length (fillFirst c0 (colStep A B c0) (rowStep A B c0) (setBlk (fun _ _ => 0) 0 0 G0)))

/-- `math.hermite_renormalized_1leftoverMode` of the JAX back end (backend_jax.py 524-534; jax_vjps/hermite.py 343-386; inputValidation.py 103-121): `none` is a `ValueError`
(no detected mode, or `A` not symmetric). The result is indexed by `m`, `n` and the outcome. -/
noncomputable def leftoverJax (A : ℕ → ℕ → ℂ) (b : ℕ → ℂ) (c : ℂ) (oc : ℕ) (pnr : List ℕ) (reordered : Bool) : Option (ℕ → ℕ → List ℕ → ℂ) :=
  open Classical in
  let L := pnr.length + 1
  let A' := if reordered then fun i j => A (perm L i) (perm L j) else A
  let b' := if reordered then fun i => b (perm L i) else b
  if Symm (2 * L) A' ∧ 1 < L then some fun m n p => (ampsLeft A' b' c (oc + 1) (pnr.map (· + 1))).a0 p m n else none

/-- The same function of the numpy back end (backend_numpy.py 434-446), as it is called by the back-end manager (backend_manager.py 759-787), whose last positional argument
`reorderedAB` is received as `stable`. -/
noncomputable def leftoverNumpy (A : ℕ → ℕ → ℂ) (b : ℕ → ℂ) (c : ℂ) (oc : ℕ) (pnr : List ℕ) (reordered : Bool) : Option (ℕ → ℕ → List ℕ → ℂ) :=
  (fastDiagonal A b c oc pnr reordered).map fun out m n p => out p m n

/-! ## Correctness -/

/-- The photon numbers with `m` and `n` in the axes of the leftover mode. -/
noncomputable def ext (m n : ℕ) (k : ℕ →₀ ℕ) : ℕ →₀ ℕ := Finsupp.single 0 m + Finsupp.single 1 n + k.embDomain ⟨(· + 2), fun _ _ h => Nat.add_right_cancel h⟩

theorem ext_zero (m n k) : ext m n k 0 = m := by
  unfold ext
  rw [Finsupp.add_apply, Finsupp.add_apply, Finsupp.embDomain_notin_range _ _ _ (by simp)]
  simp
theorem ext_one (m n k) : ext m n k 1 = n := by
  unfold ext
  rw [Finsupp.add_apply, Finsupp.add_apply, Finsupp.embDomain_notin_range _ _ _ (by rintro ⟨x, hx⟩; have : x + 2 = 1 := hx; omega)]
  simp
theorem ext_add (m n k) (l : ℕ) : ext m n k (l + 2) = k l := by
  unfold ext
  have : Finsupp.embDomain ⟨(· + 2), fun _ _ h => Nat.add_right_cancel h⟩ k (l + 2) = k l := Finsupp.embDomain_apply_self ⟨(· + 2), _⟩ k l
  rw [Finsupp.add_apply, Finsupp.add_apply, this]
  simp

theorem ext_ext {k k' : ℕ →₀ ℕ} (h0 : k 0 = k' 0) (h1 : k 1 = k' 1) (h : ∀ l, k (l + 2) = k' (l + 2)) : k = k' := by
  ext x
  rcases x with _ | _ | x
  · exact h0
  · exact h1
  · exact h x

theorem up_ext (m n k l) : up (ext m n k) (l + 2) = ext m n (up k l) := by
  refine ext_ext ?_ ?_ fun x => ?_
  · rw [up_apply, ext_zero, ext_zero]; simp
  · rw [up_apply, ext_one, ext_one, if_neg (by omega)]
  · rw [up_apply, ext_add, ext_add, up_apply]; simp only [Nat.add_right_cancel_iff]
theorem dn_ext (m n k l) : dn (ext m n k) (l + 2) = ext m n (dn k l) := by
  refine ext_ext ?_ ?_ fun x => ?_
  · rw [dn_apply, ext_zero, ext_zero]; simp
  · rw [dn_apply, ext_one, ext_one, if_neg (by omega)]
  · rw [dn_apply, ext_add, ext_add, dn_apply]; simp only [Nat.add_right_cancel_iff]
theorem dn_ext_zero (m n k) : dn (ext m n k) 0 = ext (m - 1) n k := by
  refine ext_ext ?_ ?_ fun x => ?_
  · rw [dn_apply, ext_zero, ext_zero]; simp
  · rw [dn_apply, ext_one, ext_one, if_neg (by omega)]
  · rw [dn_apply, ext_add, ext_add, if_neg (by omega)]
theorem dn_ext_one (m n k) : dn (ext m n k) 1 = ext m (n - 1) k := by
  refine ext_ext ?_ ?_ fun x => ?_
  · rw [dn_apply, ext_zero, ext_zero, if_neg (by omega)]
  · rw [dn_apply, ext_one, ext_one]; simp
  · rw [dn_apply, ext_add, ext_add, if_neg (by omega)]
theorem up_ext_zero (m n k) : up (ext m n k) 0 = ext (m + 1) n k := by
  refine ext_ext ?_ ?_ fun x => ?_
  · rw [up_apply, ext_zero, ext_zero]; simp
  · rw [up_apply, ext_one, ext_one, if_neg (by omega)]
  · rw [up_apply, ext_add, ext_add, if_neg (by omega)]
theorem up_ext_one (m n k) : up (ext m n k) 1 = ext m (n + 1) k := by
  refine ext_ext ?_ ?_ fun x => ?_
  · rw [up_apply, ext_zero, ext_zero, if_neg (by omega)]
  · rw [up_apply, ext_one, ext_one]; simp
  · rw [up_apply, ext_add, ext_add, if_neg (by omega)]
theorem ext_zero_zero : ext 0 0 0 = 0 := by
  refine ext_ext ?_ ?_ fun x => ?_
  · rw [ext_zero]; rfl
  · rw [ext_one]; rfl
  · rw [ext_add]; rfl

/-- Every entry of a block is right. -/
def BlkR {β : Type} (R : (ℕ →₀ ℕ) → β → Prop) (c0 : ℕ) (k : ℕ →₀ ℕ) (b : Blk β) : Prop := ∀ m < c0, ∀ n < c0, R (ext m n k) (b m n)

/-- The entry `l` of a vector over all axes whose first two entries are `x`, `y`. -/
def cons2 {β : Type} (x y : β) (f : ℕ → β) : ℕ → β
  | 0 => x
  | 1 => y
  | l + 2 => f l

theorem sum_cons2 (M : ℕ) (f : ℕ → ℂ) : ∑ l ∈ Finset.range (2 * (M + 1)), f l = f 0 + f 1 + ∑ l ∈ Finset.range (2 * M), f (l + 2) := by
  rw [show 2 * (M + 1) = 2 * M + 1 + 1 by ring, Finset.sum_range_succ', Finset.sum_range_succ']
  ring

theorem nextBlk_eq (A : ℕ → ℕ → ℂ) (B : ℕ → ℂ) (M : ℕ) (pivot : ℕ → ℕ) (val : Blk ℂ) (Gin : ℕ → Blk ℂ) (i m n : ℕ) :
    nextBlk A B M pivot val Gin i m n = nextVal A B (M + 1) (cons2 m n pivot) (val m n) (cons2 (val (m - 1) n) (val m (n - 1)) fun l => Gin l m n) (i + 2) := by
  unfold nextBlk nextVal
  rw [sum_cons2]
  simp only [cons2]
  refine congrArg (· / _) (congrArg (_ + ·) (congrArg (· + _) ?_))
  have z : Fock.sq 0 = 0 := by simp [Fock.sq]
  rcases Nat.eq_zero_or_pos m with rfl | hm <;> rcases Nat.eq_zero_or_pos n with rfl | hn
  · simp [Fock.sq]
  · rw [if_pos hn, if_neg (by omega), z]; ring
  · rw [if_pos hm, if_neg (by omega), z]; ring
  · rw [if_pos hm, if_pos hn]; ring

theorem cons2_ext {pivot : ℕ → ℕ} {k : ℕ →₀ ℕ} (hk : ∀ l, pivot l = k l) (m n l : ℕ) : cons2 m n pivot l = ext m n k l := by
  rcases l with _ | _ | l
  · exact (ext_zero _ _ _).symm
  · exact (ext_one _ _ _).symm
  · rw [ext_add]; exact hk l

theorem nextBlk_ok {A : ℕ → ℕ → ℂ} {B : ℕ → ℂ} {c : ℂ} {M c0 : ℕ} (hA : Symm (2 * (M + 1)) A) {k : ℕ →₀ ℕ} {pivot : ℕ → ℕ} (hk : ∀ l, pivot l = k l) {val : Blk ℂ}
    (hv : BlkR (fun k v => v = amp (2 * (M + 1)) A B c k) c0 k val) {Gin : ℕ → Blk ℂ} (hG : ∀ l < 2 * M, 0 < k l → BlkR (fun k v => v = amp (2 * (M + 1)) A B c k) c0 (dn k l) (Gin l))
    {i : ℕ} (hi : i < 2 * M) : BlkR (fun k v => v = amp (2 * (M + 1)) A B c k) c0 (up k i) (cutBlk c0 (nextBlk A B M pivot val Gin i)) := by
  intro m hm n hn
  simp only [cutBlk, hm, hn, and_self, if_true]
  rw [nextBlk_eq, hv m hm n hn, ← up_ext]
  refine nextVal_eq hA (cons2_ext hk m n) (fun l hl h0 => ?_) (by omega)
  rcases l with _ | _ | l
  · rw [dn_ext_zero]; exact hv _ (by omega) n hn
  · rw [dn_ext_one]; exact hv m hm _ (by omega)
  · rw [dn_ext]
    rw [ext_add] at h0
    exact hG l (by omega) h0 m hm n hn

/-- The loops fill the first block. -/
theorem fillFirst_ok {β : Type} {R : (ℕ →₀ ℕ) → β → Prop} {c0 : ℕ} {s1 : Blk β → ℕ → β} {s2 : Blk β → ℕ → ℕ → β} {b : Blk β} (h0 : R (ext 0 0 0) (b 0 0))
    (h1 : ∀ b m, m + 1 < c0 → R (ext m 0 0) (b m 0) → (0 < m → R (ext (m - 1) 0 0) (b (m - 1) 0)) → R (ext (m + 1) 0 0) (s1 b m))
    (h2 : ∀ b m n, m < c0 → n + 1 < c0 → R (ext m n 0) (b m n) → (0 < m → R (ext (m - 1) n 0) (b (m - 1) n)) → (0 < n → R (ext m (n - 1) 0) (b m (n - 1))) → R (ext m (n + 1) 0) (s2 b m n)) :
    BlkR R c0 0 (fillFirst c0 s1 s2 b) := by
  have e1 : ∀ j, j ≤ c0 - 1 → ∀ m ≤ j, R (ext m 0 0) ((List.range j).foldl (fun b m => setBlk b (m + 1) 0 (s1 b m)) b m 0) := by
    intro j
    induction j with
    | zero => exact fun _ m hm => by obtain rfl : m = 0 := by omega
                                     exact h0
    | succ j ih =>
      intro hj m hm
      have ih := ih (by omega)
      rw [List.range_succ, List.foldl_append, List.foldl_cons, List.foldl_nil]
      unfold setBlk
      by_cases h : m = j + 1
      · rw [if_pos ⟨h, rfl⟩, h]
        exact h1 _ j (by omega) (ih j le_rfl) fun hp => ih (j - 1) (by omega)
      · rw [if_neg (by simp [h])]
        exact ih m (by omega)
  have row : ∀ (b : Blk β) (m : ℕ), m < c0 → R (ext m 0 0) (b m 0) → (0 < m → ∀ n < c0, R (ext (m - 1) n 0) (b (m - 1) n)) → ∀ j, j ≤ c0 - 1 →
      (∀ n ≤ j, R (ext m n 0) ((List.range j).foldl (fun b n => setBlk b m (n + 1) (s2 b m n)) b m n)) ∧
      ∀ m' n, m' ≠ m → (List.range j).foldl (fun b n => setBlk b m (n + 1) (s2 b m n)) b m' n = b m' n := by
    intro b m hm hb hprev j
    induction j with
    | zero => exact fun _ => ⟨fun n hn => by obtain rfl : n = 0 := by omega
                                             exact hb, fun _ _ _ => rfl⟩
    | succ j ih =>
      intro hj
      obtain ⟨i1, i2⟩ := ih (by omega)
      rw [List.range_succ, List.foldl_append, List.foldl_cons, List.foldl_nil]
      refine ⟨fun n hn => ?_, fun m' n hne => ?_⟩
      · unfold setBlk
        by_cases h : n = j + 1
        · rw [if_pos ⟨rfl, h⟩, h]
          refine h2 _ m j hm (by omega) (i1 j le_rfl) (fun hp => ?_) fun hp => i1 _ (by omega)
          have := i2 (m - 1) j (by omega)
          unfold setBlk at this
          rw [this]
          exact hprev hp j (by omega)
        · rw [if_neg (by simp [h])]
          exact i1 n (by omega)
      · unfold setBlk
        rw [if_neg (by simp [hne])]
        exact i2 m' n hne
  have e2 : ∀ j, j ≤ c0 → (∀ m < j, ∀ n < c0, R (ext m n 0) ((List.range j).foldl (fun b m => (List.range (c0 - 1)).foldl (fun b n => setBlk b m (n + 1) (s2 b m n)) b)
        ((List.range (c0 - 1)).foldl (fun b m => setBlk b (m + 1) 0 (s1 b m)) b) m n)) ∧
      ∀ m, j ≤ m → m < c0 → R (ext m 0 0) ((List.range j).foldl (fun b m => (List.range (c0 - 1)).foldl (fun b n => setBlk b m (n + 1) (s2 b m n)) b)
        ((List.range (c0 - 1)).foldl (fun b m => setBlk b (m + 1) 0 (s1 b m)) b) m 0) := by
    intro j
    induction j with
    | zero => exact fun _ => ⟨fun m hm => absurd hm (by omega), fun m _ hm => e1 _ le_rfl m (by omega)⟩
    | succ j ih =>
      intro hj
      obtain ⟨i1, i2⟩ := ih (by omega)
      rw [List.range_succ, List.foldl_append, List.foldl_cons, List.foldl_nil]
      obtain ⟨r1, r2⟩ := row _ j (by omega) (i2 j le_rfl (by omega)) (fun hp => i1 (j - 1) (by omega)) (c0 - 1) le_rfl
      refine ⟨fun m hm n hn => ?_, fun m hm hm' => ?_⟩
      · rcases eq_or_ne m j with rfl | hne
        · exact r1 n (by omega)
        · rw [r2 m n hne]; exact i1 m (by omega) n hn
      · rw [r2 m 0 (by omega)]; exact i2 m (by omega) hm'
  exact (e2 c0 le_rfl).1

theorem first_ok {A : ℕ → ℕ → ℂ} {B : ℕ → ℂ} {c : ℂ} {M c0 : ℕ} (hA : Symm (2 * (M + 1)) A) :
    BlkR (fun k v => v = amp (2 * (M + 1)) A B c k) c0 0 (fillFirst c0 (colStep A B c0) (rowStep A B c0) (setBlk (fun _ _ => 0) 0 0 c)) := by
  refine fillFirst_ok ?_ (fun b m hm h hp => ?_) fun b m n hm hn h hm' hn' => ?_
  · rw [ext_zero_zero, amp_zero]; simp [setBlk]
  · unfold colStep
    have e := amp_up (b := B) c hA (i := 0) (by omega) (ext m 0 0)
    rw [up_ext_zero, ext_zero, sum_cons2] at e
    simp only [ext_zero, ext_one, ext_add, Finsupp.coe_zero, Pi.zero_apply, dn_ext_zero] at e
    rw [div_eq_iff (sq_ne_zero (by omega)), mul_comm (amp _ _ _ _ _), e, h]
    have z : Fock.sq 0 = 0 := by simp [Fock.sq]
    simp only [z, mul_zero, zero_mul, Finset.sum_const_zero, add_zero]
    rcases Nat.eq_zero_or_pos m with rfl | h'
    · rw [z]; ring
    · unfold prevIx; rw [if_neg (by omega), hp h']; ring
  · unfold rowStep
    have e := amp_up (b := B) c hA (i := 1) (by omega) (ext m n 0)
    rw [up_ext_one, ext_one, sum_cons2] at e
    simp only [ext_zero, ext_one, ext_add, Finsupp.coe_zero, Pi.zero_apply, dn_ext_zero, dn_ext_one] at e
    rw [div_eq_iff (sq_ne_zero (by omega)), mul_comm (amp _ _ _ _ _), e, h]
    have z : Fock.sq 0 = 0 := by simp [Fock.sq]
    simp only [z, mul_zero, zero_mul, Finset.sum_const_zero, add_zero]
    unfold prevIx
    rcases Nat.eq_zero_or_pos m with rfl | h1 <;> rcases Nat.eq_zero_or_pos n with rfl | h2
    · rw [z]; ring
    · rw [z, if_neg (by omega : ¬ n = 0), hn' h2]; ring
    · rw [z, if_neg (by omega : ¬ m = 0), hm' h1]; ring
    · rw [if_neg (by omega : ¬ m = 0), if_neg (by omega : ¬ n = 0), hm' h1, hn' h2]; ring

theorem diagStep_blk {A : ℕ → ℕ → ℂ} {B : ℕ → ℂ} {c : ℂ} {c0 : ℕ} {cut : List ℕ} (hA : Symm (2 * (cut.length + 1)) A) :
    DiagStep (BlkR (fun k v => v = amp (2 * (cut.length + 1)) A B c k) c0) cut (diagNextBlk A B cut.length c0) := fun _ _ _ _ h0 hr _ hi =>
  nextBlk_ok hA (fun l => by rw [P_apply]; rfl) h0 (fun l hl h => hr l hl (by rwa [P_apply] at h)) hi

theorem offStep_blk {A : ℕ → ℕ → ℂ} {B : ℕ → ℂ} {c : ℂ} {c0 : ℕ} {cut : List ℕ} (hA : Symm (2 * (cut.length + 1)) A) :
    OffStep (BlkR (fun k v => v = amp (2 * (cut.length + 1)) A B c k) c0) cut (offNextBlk A B cut.length c0) := fun _ _ _ _ _ _ h0 hr _ hi =>
  nextBlk_ok hA (fun l => by rw [up_apply, P_apply]; rfl) h0 hr hi

/-- The blocks in the order of the code. -/
theorem ampsLeft_a0 (A : ℕ → ℕ → ℂ) (B : ℕ → ℂ) (c : ℂ) (c0 : ℕ) (cut : List ℕ) (hA : Symm (2 * (cut.length + 1)) A) {p : List ℕ} (hp : InBox cut p) {m n : ℕ} (hm : m < c0) (hn : n < c0) :
    (ampsLeft A B c c0 cut).a0 p m n = amp (2 * (cut.length + 1)) A B c (ext m n (P p)) :=
  sweep_a0 (diagStep_blk hA) (offStep_blk hA) (first_ok hA) hp m hm n hn

theorem ext_P (m n : ℕ) (p : List ℕ) : ext m n (P p) = (m :: n :: dup p).toFinsupp := by
  refine ext_ext ?_ ?_ fun x => ?_
  · rw [ext_zero, List.toFinsupp_apply]; rfl
  · rw [ext_one, List.toFinsupp_apply]; rfl
  · rw [ext_add, List.toFinsupp_apply, P, List.toFinsupp_apply]; rfl

theorem box_succ {pnr p : List ℕ} (h : List.Forall₂ (· ≤ ·) p pnr) : InBox (pnr.map (· + 1)) p := by
  rw [forall2_getD 0 0] at h
  refine ⟨by simpa using h.1, fun i hi => ?_⟩
  rw [List.length_map] at hi
  have := h.2 i (by omega)
  rw [List.getD_eq_getElem (pnr.map (· + 1)) _ (by simpa using hi), List.getElem_map, ← List.getD_eq_getElem _ 0 hi]
  omega

theorem perm_lt {L : ℕ} {i : ℕ} (hi : i < 2 * L) : perm L i < 2 * L := by unfold perm; split_ifs <;> omega

/-- **C81** `math.hermite_renormalized_1leftoverMode` of the JAX back end: for every symmetric `A`, every output cutoff, all detector cutoffs and every outcome `p`, entry `(m, n)` is
the amplitude with `(m, p)` photons in the first half of the variables and `(n, p)` in the second half. -/
theorem C81_leftover (A : ℕ → ℕ → ℂ) (b : ℕ → ℂ) (c : ℂ) (oc : ℕ) (pnr : List ℕ) (hpnr : pnr ≠ []) (hA : Symm (2 * (pnr.length + 1)) A) :
    ∃ out, leftoverJax A b c oc pnr true = some out ∧ ∀ p, List.Forall₂ (· ≤ ·) p pnr → ∀ m n, m ≤ oc → n ≤ oc →
      out m n p = amp (2 * (pnr.length + 1)) A b c ((m :: p) ++ (n :: p)).toFinsupp := by
  have hL : 1 < pnr.length + 1 := by
    have := List.length_pos_of_ne_nil hpnr
    omega
  have hA' : Symm (2 * (pnr.length + 1)) (fun i j => A (perm (pnr.length + 1) i) (perm (pnr.length + 1) j)) := fun i hi j hj => hA _ (perm_lt hi) _ (perm_lt hj)
  refine ⟨_, by unfold leftoverJax; simp only [if_true]; rw [if_pos ⟨hA', hL⟩], fun p hp m n hm hn => ?_⟩
  have hl : (pnr.map (· + 1)).length = pnr.length := List.length_map _
  have h := ampsLeft_a0 (fun i j => A (perm (pnr.length + 1) i) (perm (pnr.length + 1) j)) (fun i => b (perm (pnr.length + 1) i)) c (oc + 1) (pnr.map (· + 1)) (by rw [hl]; exact hA')
    (box_succ hp) (m := m) (n := n) (by omega) (by omega)
  rw [h, ext_P, hl]
  have h2 := amp_interleave (pnr.length + 1) A b c m n p (by rw [hp.length_eq])
  rw [h2]

/-- **C81 (back ends)** The two back ends agree when the output cutoff is large enough for the numpy one (C42) … -/
theorem C81_backends (A : ℕ → ℕ → ℂ) (b : ℕ → ℂ) (c : ℂ) (oc : ℕ) (pnr : List ℕ) (hpnr : pnr ≠ []) (hA : Symm (2 * (pnr.length + 1)) A) (hoc : pnr.length + 2 ≤ 2 * oc) :
    ∃ out out', leftoverJax A b c oc pnr true = some out ∧ leftoverNumpy A b c oc pnr true = some out' ∧
      ∀ p, List.Forall₂ (· ≤ ·) p pnr → ∀ m n, m ≤ oc → n ≤ oc → out m n p = out' m n p := by
  obtain ⟨out, h1, h2⟩ := C81_leftover A b c oc pnr hpnr hA
  obtain ⟨out', h3, h4⟩ := C42_all_outcomes A b c oc pnr true hpnr hA hoc
  refine ⟨out, _, h1, by unfold leftoverNumpy; rw [h3]; rfl, fun p hp m n hm hn => ?_⟩
  rw [h2 p hp m n hm hn]
  exact (h4 p hp m n hm hn).symm

/-- … and the numpy one gives the same result whatever `reorderedAB` is: the flag is received as `stable`, and the input is always reordered. -/
theorem C81_numpy_ignores_flag (A : ℕ → ℕ → ℂ) (b : ℕ → ℂ) (c : ℂ) (oc : ℕ) (pnr : List ℕ) (hpnr : pnr ≠ []) (hA : Symm (2 * (pnr.length + 1)) A) :
    ∃ out out', leftoverNumpy A b c oc pnr true = some out ∧ leftoverNumpy A b c oc pnr false = some out' ∧
      ∀ p, List.Forall₂ (· ≤ ·) p pnr → ∀ m n, m ≤ oc → n ≤ oc → out m n p = out' m n p := by
  obtain ⟨o1, o2, h1, h2, h⟩ := C42_stable_irrelevant A b c oc pnr hpnr hA
  exact ⟨_, _, by unfold leftoverNumpy; rw [h1]; rfl, by unfold leftoverNumpy; rw [h2]; rfl, fun p hp m n hm hn => h p hp m n hm hn⟩

/-- **C81 (flag)** With `reorderedAB = False` the JAX back end takes the variables as interleaved. -/
theorem C81_interleaved (A : ℕ → ℕ → ℂ) (b : ℕ → ℂ) (c : ℂ) (oc : ℕ) (pnr : List ℕ) (hpnr : pnr ≠ []) (hA : Symm (2 * (pnr.length + 1)) A) :
    ∃ out, leftoverJax A b c oc pnr false = some out ∧ ∀ p, List.Forall₂ (· ≤ ·) p pnr → ∀ m n, m ≤ oc → n ≤ oc →
      out m n p = amp (2 * (pnr.length + 1)) A b c (m :: n :: p.flatMap fun x => [x, x]).toFinsupp := by
  have hL : 1 < pnr.length + 1 := by
    have := List.length_pos_of_ne_nil hpnr
    omega
  refine ⟨_, by unfold leftoverJax; simp only [Bool.false_eq_true, if_false]; rw [if_pos ⟨hA, hL⟩], fun p hp m n hm hn => ?_⟩
  have hl : (pnr.map (· + 1)).length = pnr.length := List.length_map _
  have h := ampsLeft_a0 A b c (oc + 1) (pnr.map (· + 1)) (by rw [hl]; exact hA) (box_succ hp) (m := m) (n := n) (by omega) (by omega)
  rw [h, ext_P, hl]
  rfl

/-- **C81 (validation)** No detected mode, or a matrix that is not symmetric: refused by the JAX back end. -/
theorem C81_refused (A : ℕ → ℕ → ℂ) (b : ℕ → ℂ) (c : ℂ) (oc : ℕ) (pnr : List ℕ) (h : pnr = [] ∨ ¬ Symm (2 * (pnr.length + 1)) A) : leftoverJax A b c oc pnr true = none := by
  unfold leftoverJax
  simp only [if_true]
  rw [if_neg]
  rintro ⟨hs, hL⟩
  rcases h with rfl | h
  · simp at hL
  · refine h fun i hi j hj => ?_
    have hinv : ∀ x < 2 * (pnr.length + 1), ∃ y < 2 * (pnr.length + 1), perm (pnr.length + 1) y = x := fun x hx => by
      by_cases h : x < pnr.length + 1
      · exact ⟨2 * x, by omega, by unfold perm; rw [if_pos (by omega)]; omega⟩
      · exact ⟨2 * (x - (pnr.length + 1)) + 1, by omega, by unfold perm; rw [if_neg (by omega)]; omega⟩
    obtain ⟨y, hy, rfl⟩ := hinv i hi
    obtain ⟨w, hw, rfl⟩ := hinv j hj
    exact hs y hy w hw

end Verif.Compact
