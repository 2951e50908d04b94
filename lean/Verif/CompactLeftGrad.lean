import Verif.CompactLeft

/-!
# The compact strategy with one leftover mode: the backward pass (math/lattice/strategies/compactFock/singleLeftoverMode_grad.py, C82)
-/

namespace Verif.Compact
open Verif.Fock Verif.FastDiag

/-- What `calc_dA_dB` adds to row `i` of `dA` at column `y` (singleLeftoverMode_grad.py 38): `l_range` contains axis `0` only for `m > 0` and axis `1` only for `n > 0` (67, 92, 135, 175). -/
noncomputable def rowAdd (M : ℕ) (pivot : ℕ → ℕ) (val : Blk ℂ) (Gin : ℕ → Blk ℂ) (m n : ℕ) : ℕ → ℂ
  | 0 => if 0 < m then val (m - 1) n * Fock.sq m else 0
  | 1 => if 0 < n then val m (n - 1) * Fock.sq n else 0
  | y + 2 => if y < 2 * M then Fock.sq (pivot y) * Gin y m n else 0

/-- One entry written by `write_block_grad` (singleLeftoverMode_grad.py 18-224); the callers multiply `G_in` by `K_l` (366-368, 513-515). -/
noncomputable def calcBlk (A : ℕ → ℕ → ℂ) (B : ℕ → ℂ) (M : ℕ) (pivot : ℕ → ℕ) (val : Blk ℂ) (valG : Blk Grad) (Gin : ℕ → Blk ℂ) (GinG : ℕ → Blk Grad) (i m n : ℕ) : Grad :=
  (fun x y => ((valG m n).1 x y * B (i + 2) + ((if 0 < m then Fock.sq m * A (i + 2) 0 * (valG (m - 1) n).1 x y else 0) + (if 0 < n then Fock.sq n * A (i + 2) 1 * (valG m (n - 1)).1 x y else 0) +
      ∑ l ∈ Finset.range (2 * M), Fock.sq (pivot l) * A (i + 2) (l + 2) * (GinG l m n).1 x y) + if x = i + 2 then rowAdd M pivot val Gin m n y else 0) / Fock.sq (pivot i + 1),
   fun x => ((valG m n).2 x * B (i + 2) + (if x = i + 2 then val m n else 0) + ((if 0 < m then Fock.sq m * A (i + 2) 0 * (valG (m - 1) n).2 x else 0) +
      (if 0 < n then Fock.sq n * A (i + 2) 1 * (valG m (n - 1)).2 x else 0) + ∑ l ∈ Finset.range (2 * M), Fock.sq (pivot l) * A (i + 2) (l + 2) * (GinG l m n).2 x)) / Fock.sq (pivot i + 1))

/-- `use_diag_pivot_grad` (singleLeftoverMode_grad.py 456-545); `F` are the blocks of amplitudes kept by the forward pass. -/
noncomputable def diagNextBlkGrad (A : ℕ → ℕ → ℂ) (B : ℕ → ℂ) (M c0 : ℕ) (F : Arrs (Blk ℂ)) (p : List ℕ) (st : Arrs (Blk Grad)) (i : ℕ) : Blk Grad :=
  cutBlk c0 (calcBlk A B M (twice p) (F.a0 p) (st.a0 p) (readDiag F p) (readDiag st p) i)
/-- `use_offDiag_pivot_grad` (singleLeftoverMode_grad.py 252-453). -/
noncomputable def offNextBlkGrad (A : ℕ → ℕ → ℂ) (B : ℕ → ℂ) (M c0 : ℕ) (F : Arrs (Blk ℂ)) (p : List ℕ) (d : ℕ) (st : Arrs (Blk Grad)) (i : ℕ) : Blk Grad :=
  cutBlk c0 (calcBlk A B M (twiceOff p d) (F.a1 (2 * d) p) (st.a1 (2 * d) p) (readOff M F p d) (readOff M st p d) i)

/-- The first column of the first block (singleLeftoverMode_grad.py 599-611); `f` is the first block of amplitudes. -/
noncomputable def colGrad (A : ℕ → ℕ → ℂ) (B : ℕ → ℂ) (c0 : ℕ) (f : Blk ℂ) (b : Blk Grad) (m : ℕ) : Grad :=
  (fun x y => ((b m 0).1 x y * B 0 + Fock.sq m * A 0 0 * (b (prevIx c0 m) 0).1 x y) / Fock.sq (m + 1) + if x = 0 ∧ y = 0 then Fock.sq m * f (prevIx c0 m) 0 / Fock.sq (m + 1) else 0,
   fun x => ((b m 0).2 x * B 0 + Fock.sq m * A 0 0 * (b (prevIx c0 m) 0).2 x) / Fock.sq (m + 1) + if x = 0 then f m 0 / Fock.sq (m + 1) else 0)
/-- The rows of the first block (singleLeftoverMode_grad.py 613-631). -/
noncomputable def rowGrad (A : ℕ → ℕ → ℂ) (B : ℕ → ℂ) (c0 : ℕ) (f : Blk ℂ) (b : Blk Grad) (m n : ℕ) : Grad :=
  (fun x y => ((b m n).1 x y * B 1 + Fock.sq m * A 1 0 * (b (prevIx c0 m) n).1 x y + Fock.sq n * A 1 1 * (b m (prevIx c0 n)).1 x y) / Fock.sq (n + 1) +
      (if x = 1 ∧ y = 0 then Fock.sq m * f (prevIx c0 m) n / Fock.sq (n + 1) else 0) + if x = 1 ∧ y = 1 then Fock.sq n * f m (prevIx c0 n) / Fock.sq (n + 1) else 0,
   fun x => ((b m n).2 x * B 1 + Fock.sq m * A 1 0 * (b (prevIx c0 m) n).2 x + Fock.sq n * A 1 1 * (b m (prevIx c0 n)).2 x) / Fock.sq (n + 1) + if x = 1 then f m n / Fock.sq (n + 1) else 0)

/-- `fock_representation_1leftoverMode_grad` (singleLeftoverMode_grad.py 548-728): all arrays of derivatives start at zero. -/
noncomputable def gradsLeft (A : ℕ → ℕ → ℂ) (B : ℕ → ℂ) (c0 : ℕ) (cut : List ℕ) (F : Arrs (Blk ℂ)) : Arrs (Blk Grad) :=
  sweep cut (diagNextBlkGrad A B cut.length c0 F) (offNextBlkGrad A B cut.length c0 F)
    (initArrs cut.length (fillFirst c0 (colGrad A B c0 (F.a0 (List.replicate cut.length 0))) (rowGrad A B c0 (F.a0 (List.replicate cut.length 0))) fun _ _ => 0))

/-- `hermite_renormalized_1leftoverMode_jax_bwd` (jax_vjps/hermite.py 397-439, inputValidation.py 124-145): the cotangents of `A`, `B` and `C` for the cotangent `g` of the array. -/
noncomputable def backwardLeft (A : ℕ → ℕ → ℂ) (B : ℕ → ℂ) (c : ℂ) (c0 : ℕ) (cut : List ℕ) (F : Arrs (Blk ℂ)) (g : ℕ → ℕ → List ℕ → ℂ) : Grad × ℂ :=
  let G := gradsLeft A B c0 cut F
  let ix := (List.range c0).flatMap fun m => (List.range c0).flatMap fun n => (prodL (cut.map List.range)).map fun p => (m, n, p)
  ((fun x y => (ix.map fun q => g q.1 q.2.1 q.2.2 * (G.a0 q.2.2 q.1 q.2.1).1 x y).sum, fun x => (ix.map fun q => g q.1 q.2.1 q.2.2 * (G.a0 q.2.2 q.1 q.2.1).2 x).sum),
    (ix.map fun q => g q.1 q.2.1 q.2.2 * (F.a0 q.2.2 q.1 q.2.1 / c)).sum)

/-! ## Correctness -/

theorem sq_zero' : Fock.sq 0 = 0 := by simp [Fock.sq]

theorem ite_pos_sq (m : ℕ) (a : ℂ → ℂ) (h : a 0 = 0) : (if 0 < m then a (Fock.sq m) else 0) = a (Fock.sq m) := by
  rcases Nat.eq_zero_or_pos m with rfl | h'
  · rw [if_neg (by omega), sq_zero', h]
  · rw [if_pos h']

theorem calcBlk_eq (A : ℕ → ℕ → ℂ) (B : ℕ → ℂ) (M : ℕ) (pivot : ℕ → ℕ) (val : Blk ℂ) (valG : Blk Grad) (Gin : ℕ → Blk ℂ) (GinG : ℕ → Blk Grad) (i m n : ℕ) :
    calcBlk A B M pivot val valG Gin GinG i m n = calcGrad A B (M + 1) (cons2 m n pivot) (val m n) (valG m n) (cons2 (val (m - 1) n) (val m (n - 1)) fun l => Gin l m n)
      (cons2 (valG (m - 1) n) (valG m (n - 1)) fun l => GinG l m n) (i + 2) := by
  unfold calcBlk calcGrad
  refine Prod.ext (funext fun x => funext fun y => ?_) (funext fun x => ?_)
  · show _ / _ = _ / _
    rw [sum_cons2]
    have e := ite_pos_sq m (fun s => s * A (i + 2) 0 * (valG (m - 1) n).1 x y) (by ring)
    have e' := ite_pos_sq n (fun s => s * A (i + 2) 1 * (valG m (n - 1)).1 x y) (by ring)
    rw [e, e']
    have er : (if x = i + 2 then rowAdd M pivot val Gin m n y else 0) =
        if x = i + 2 ∧ y < 2 * (M + 1) then Fock.sq (cons2 m n pivot y) * cons2 (val (m - 1) n) (val m (n - 1)) (fun l => Gin l m n) y else 0 := by
      by_cases hx : x = i + 2
      · simp only [hx, if_true, true_and]
        rcases y with _ | _ | y
        · rw [if_pos (by omega)]
          exact (ite_pos_sq m (fun s => val (m - 1) n * s) (by ring)).trans (mul_comm _ _)
        · rw [if_pos (by omega)]
          exact (ite_pos_sq n (fun s => val m (n - 1) * s) (by ring)).trans (mul_comm _ _)
        · simp only [rowAdd, cons2]
          by_cases hy : y < 2 * M
          · rw [if_pos hy, if_pos (by omega)]
          · rw [if_neg hy, if_neg (by omega)]
      · simp [hx]
    rw [er]
    rfl
  · show _ / _ = _ / _
    rw [sum_cons2]
    have e := ite_pos_sq m (fun s => s * A (i + 2) 0 * (valG (m - 1) n).2 x) (by ring)
    have e' := ite_pos_sq n (fun s => s * A (i + 2) 1 * (valG m (n - 1)).2 x) (by ring)
    rw [e, e']
    rfl

theorem calcBlk_ok {A : ℕ → ℕ → ℂ} {B : ℕ → ℂ} {c : ℂ} {M c0 : ℕ} (hA : Symm (2 * (M + 1)) A) {k : ℕ →₀ ℕ} {pivot : ℕ → ℕ} (hk : ∀ l, pivot l = k l) {val : Blk ℂ}
    (hv : BlkR (fun k v => v = amp (2 * (M + 1)) A B c k) c0 k val) {valG : Blk Grad} (hvG : BlkR (IsGrad A B c (2 * (M + 1))) c0 k valG) {Gin : ℕ → Blk ℂ}
    (hG : ∀ l < 2 * M, 0 < k l → BlkR (fun k v => v = amp (2 * (M + 1)) A B c k) c0 (dn k l) (Gin l)) {GinG : ℕ → Blk Grad}
    (hGG : ∀ l < 2 * M, 0 < k l → BlkR (IsGrad A B c (2 * (M + 1))) c0 (dn k l) (GinG l))
    {i : ℕ} (hi : i < 2 * M) : BlkR (IsGrad A B c (2 * (M + 1))) c0 (up k i) (cutBlk c0 (calcBlk A B M pivot val valG Gin GinG i)) := by
  intro m hm n hn
  simp only [cutBlk, hm, hn, and_self, if_true]
  rw [calcBlk_eq, ← up_ext]
  refine calcGrad_ok hA (cons2_ext hk m n) (hv m hm n hn) (hvG m hm n hn) (fun l hl h0 => ?_) (fun l hl h0 => ?_) (by omega)
  · rcases l with _ | _ | l
    · rw [dn_ext_zero]; exact hv _ (by omega) n hn
    · rw [dn_ext_one]; exact hv m hm _ (by omega)
    · rw [dn_ext]
      rw [ext_add] at h0
      exact hG l (by omega) h0 m hm n hn
  · rcases l with _ | _ | l
    · rw [dn_ext_zero]; exact hvG _ (by omega) n hn
    · rw [dn_ext_one]; exact hvG m hm _ (by omega)
    · rw [dn_ext]
      rw [ext_add] at h0
      exact hGG l (by omega) h0 m hm n hn

theorem colGrad_eq (A : ℕ → ℕ → ℂ) (B : ℕ → ℂ) (M c0 : ℕ) (f : Blk ℂ) (b : Blk Grad) (m : ℕ) :
    colGrad A B c0 f b m = calcGrad A B (M + 1) (cons2 m 0 fun _ => 0) (f m 0) (b m 0) (fun _ => f (prevIx c0 m) 0) (fun _ => b (prevIx c0 m) 0) 0 := by
  unfold colGrad calcGrad
  refine Prod.ext (funext fun x => funext fun y => ?_) (funext fun x => ?_)
  · show _ = _ / _
    rw [sum_cons2]
    simp only [cons2, sq_zero', zero_mul, Finset.sum_const_zero, add_zero]
    rcases y with _ | _ | y
    · by_cases hx : x = 0
      · simp [hx, add_div]
      · simp [hx]
    · simp [sq_zero']
    · simp [sq_zero']
  · show _ = _ / _
    rw [sum_cons2]
    simp only [cons2, sq_zero', zero_mul, Finset.sum_const_zero, add_zero]
    split_ifs <;> ring

theorem rowGrad_eq (A : ℕ → ℕ → ℂ) (B : ℕ → ℂ) (M c0 : ℕ) (f : Blk ℂ) (b : Blk Grad) (m n : ℕ) :
    rowGrad A B c0 f b m n = calcGrad A B (M + 1) (cons2 m n fun _ => 0) (f m n) (b m n) (cons2 (f (prevIx c0 m) n) (f m (prevIx c0 n)) fun _ => 0)
      (cons2 (b (prevIx c0 m) n) (b m (prevIx c0 n)) fun _ => 0) 1 := by
  unfold rowGrad calcGrad
  refine Prod.ext (funext fun x => funext fun y => ?_) (funext fun x => ?_)
  · show _ = _ / _
    rw [sum_cons2]
    simp only [cons2, sq_zero', zero_mul, Finset.sum_const_zero, add_zero]
    rcases y with _ | _ | y
    · by_cases hx : x = 1
      · simp [hx, add_div, add_assoc]
      · simp [hx, add_assoc]
    · by_cases hx : x = 1
      · rw [hx, if_neg (by omega), if_pos ⟨rfl, rfl⟩, if_pos ⟨rfl, by omega⟩]; ring
      · simp [hx, add_assoc]
    · simp [sq_zero', add_assoc]
  · show _ = _ / _
    rw [sum_cons2]
    simp only [cons2, sq_zero', zero_mul, Finset.sum_const_zero, add_zero]
    split_ifs <;> ring

theorem firstGrad_ok {A : ℕ → ℕ → ℂ} {B : ℕ → ℂ} {c : ℂ} {M c0 : ℕ} (hA : Symm (2 * (M + 1)) A) {f : Blk ℂ} (hf : BlkR (fun k v => v = amp (2 * (M + 1)) A B c k) c0 0 f) :
    BlkR (IsGrad A B c (2 * (M + 1))) c0 0 (fillFirst c0 (colGrad A B c0 f) (rowGrad A B c0 f) fun _ _ => 0) := by
  refine fillFirst_ok ?_ (fun b m hm h hp => ?_) fun b m n hm hn h hm' hn' => ?_
  · intro H β _
    rw [ext_zero_zero]
    unfold Grad.dir mulQ low
    simp [Fock.sq]
  · rw [colGrad_eq A B M, ← up_ext_zero]
    have hk : ∀ l, cons2 m 0 (fun _ => 0) l = ext m 0 0 l := cons2_ext (k := 0) (fun _ => rfl) m 0
    refine calcGrad_ok hA hk (hf m (by omega) 0 (by omega)) h (fun l hl h0 => ?_) (fun l hl h0 => ?_) (by omega) <;> rw [← hk] at h0
    all_goals
      rcases l with _ | _ | l
      · have h0 : 0 < m := h0
        rw [dn_ext_zero]
        unfold prevIx
        rw [if_neg (by omega)]
        first | exact hp h0 | exact hf (m - 1) (by omega) 0 (by omega)
      · exact absurd h0 (lt_irrefl 0)
      · exact absurd h0 (lt_irrefl 0)
  · rw [rowGrad_eq A B M, ← up_ext_one]
    have hk : ∀ l, cons2 m n (fun _ => 0) l = ext m n 0 l := cons2_ext (k := 0) (fun _ => rfl) m n
    refine calcGrad_ok hA hk (hf m hm n (by omega)) h (fun l hl h0 => ?_) (fun l hl h0 => ?_) (by omega) <;> rw [← hk] at h0
    all_goals
      rcases l with _ | _ | l
      · have h0 : 0 < m := h0
        rw [dn_ext_zero]
        simp only [cons2, prevIx, if_neg (show ¬ m = 0 by omega)]
        first | exact hm' h0 | exact hf (m - 1) (by omega) n (by omega)
      · have h0 : 0 < n := h0
        rw [dn_ext_one]
        simp only [cons2, prevIx, if_neg (show ¬ n = 0 by omega)]
        first | exact hn' h0 | exact hf m (by omega) (n - 1) (by omega)
      · exact absurd h0 (lt_irrefl 0)

theorem zero_box {cut p : List ℕ} (hp : InBox cut p) : InBox cut (List.replicate cut.length 0) := by
  refine ⟨by simp, fun i hi => ?_⟩
  have := hp.2 i hi
  rw [List.getD_replicate _ (h := hi)]
  omega

theorem P_zeros (n : ℕ) : P (List.replicate n 0) = 0 := by
  ext x
  rw [P_apply]
  simp [List.getD_replicate]

/-- Every entry of the array of derivatives is the gradient of the amplitude. -/
theorem gradsLeft_a0 (A : ℕ → ℕ → ℂ) (B : ℕ → ℂ) (c : ℂ) (c0 : ℕ) (cut : List ℕ) (hA : Symm (2 * (cut.length + 1)) A) {p : List ℕ} (hp : InBox cut p) {m n : ℕ} (hm : m < c0) (hn : n < c0) :
    IsGrad A B c (2 * (cut.length + 1)) (ext m n (P p)) ((gradsLeft A B c0 cut (ampsLeft A B c c0 cut)).a0 p m n) := by
  obtain ⟨D, E, hG, hF⟩ := sweep_good (diagStep_blk (B := B) (c := c) (c0 := c0) hA) (offStep_blk (B := B) (c := c) (c0 := c0) hA) (first_ok hA)
  have hG : Good (BlkR (fun k v => v = amp (2 * (cut.length + 1)) A B c k) c0) cut (ampsLeft A B c c0 cut) D E := hG
  have h0 := good_a0 hG (hF _) (zero_box hp)
  rw [P_zeros] at h0
  refine sweep_a0 (R := BlkR (IsGrad A B c (2 * (cut.length + 1))) c0) ?_ ?_ (firstGrad_ok hA h0) hp m hm n hn
  · intro q st hq hc h0 hr i hi
    exact calcBlk_ok hA (fun l => by rw [P_apply]; rfl) (good_a0 hG (hF _) hq) h0 (fun l hl h => readDiag_ok hG (hF _) hq hc hl (by rwa [P_apply] at h))
      (fun l hl h => hr l hl (by rwa [P_apply] at h)) hi
  · intro q d st hq hd hc h0 hr i hi
    exact calcBlk_ok hA (fun l => by rw [up_apply, P_apply]; rfl)
      (pivotOff_ok hG (fun h => (hF (q.sum + 1)).d q hq (by omega) h) hq hd hc) h0 (fun l hl h => readOff_ok hG (hF _) hq hd hc hl h) hr hi

variable {𝕜 : Type*} [NontriviallyNormedField 𝕜] [NormedAlgebra 𝕜 ℂ]

/-- **C82** The backward pass with one leftover mode is the gradient: along every differentiable family of triples with symmetric `A` and for every cotangent `g`, the derivative of
`Σ_{m,n,p} g_{m,n,p} · out_{m,n,p}` is `Σ dLdA A' + Σ dLdB B' + dLdC C'`. (`A`, `B` in the order of the strategy, that is after `reorder_AB_bargmann`.) -/
theorem C82_leftover_backward (A : 𝕜 → ℕ → ℕ → ℂ) (B : 𝕜 → ℕ → ℂ) (c : 𝕜 → ℂ) (A' : ℕ → ℕ → ℂ) (B' : ℕ → ℂ) (c' : ℂ) (t₀ : 𝕜) (c0 : ℕ) (cut : List ℕ) (g : ℕ → ℕ → List ℕ → ℂ)
    (hsym : ∀ t, Symm (2 * (cut.length + 1)) (A t)) (hc0 : c t₀ ≠ 0) (hA : ∀ i < 2 * (cut.length + 1), ∀ j < 2 * (cut.length + 1), HasDerivAt (fun t => A t i j) (A' i j) t₀)
    (hB : ∀ i < 2 * (cut.length + 1), HasDerivAt (fun t => B t i) (B' i) t₀) (hc : HasDerivAt c c' t₀) :
    let grad := backwardLeft (A t₀) (B t₀) (c t₀) c0 cut (ampsLeft (A t₀) (B t₀) (c t₀) c0 cut) g
    HasDerivAt (fun t => ((List.range c0).map fun m => ((List.range c0).map fun n => ((prodL (cut.map List.range)).map fun p => g m n p * (ampsLeft (A t) (B t) (c t) c0 cut).a0 p m n).sum).sum).sum)
      (∑ i ∈ Finset.range (2 * (cut.length + 1)), ∑ j ∈ Finset.range (2 * (cut.length + 1)), grad.1.1 i j * A' i j + ∑ i ∈ Finset.range (2 * (cut.length + 1)), grad.1.2 i * B' i + grad.2 * c') t₀ := by
  intro grad
  have hA's : Symm (2 * (cut.length + 1)) A' := fun i hi j hj => by
    refine (hA i hi j hj).unique ?_
    have : (fun t => A t i j) = fun t => A t j i := funext fun t => hsym t i hi j hj
    rw [this]
    exact hA j hj i hi
  obtain ⟨ix, hix⟩ : ∃ ix, ix = (List.range c0).flatMap fun m => (List.range c0).flatMap fun n => (prodL (cut.map List.range)).map fun p => (m, n, p) := ⟨_, rfl⟩
  have hflat : ∀ f : ℕ → ℕ → List ℕ → ℂ, ((List.range c0).map fun m => ((List.range c0).map fun n => ((prodL (cut.map List.range)).map fun p => f m n p).sum).sum).sum =
      (ix.map fun q => f q.1 q.2.1 q.2.2).sum := by
    intro f
    rw [hix]
    simp only [List.flatMap_def, List.map_flatten, List.map_map, List.sum_flatten, Function.comp_def]
  have key : ∀ q ∈ ix, HasDerivAt (fun t => g q.1 q.2.1 q.2.2 * (ampsLeft (A t) (B t) (c t) c0 cut).a0 q.2.2 q.1 q.2.1)
      (g q.1 q.2.1 q.2.2 * ((gradsLeft (A t₀) (B t₀) c0 cut (ampsLeft (A t₀) (B t₀) (c t₀) c0 cut)).a0 q.2.2 q.1 q.2.1).dir (2 * (cut.length + 1)) A' B' +
        c' * (g q.1 q.2.1 q.2.2 * ((ampsLeft (A t₀) (B t₀) (c t₀) c0 cut).a0 q.2.2 q.1 q.2.1 / c t₀))) t₀ := by
    rintro ⟨m, n, p⟩ hq
    have ⟨hm, hn, hp⟩ : m < c0 ∧ n < c0 ∧ p ∈ prodL (cut.map List.range) := by
      rw [hix] at hq
      simpa using hq
    have hp := mem_box.1 hp
    have hBel : Below (2 * (cut.length + 1)) (ext m n (P p)) := fun i hi => by
      obtain ⟨i, rfl⟩ : ∃ j, i = j + 2 := ⟨i - 2, by omega⟩
      rw [ext_add, P_apply, List.getD_eq_default _ _ (by rw [hp.1]; omega)]
    have h := (hasDeriv_amp hA ‹_› hc (ext m n (P p)) hBel).const_mul (g m n p)
    simp only [fun t => ampsLeft_a0 (A t) (B t) (c t) c0 cut (hsym t) hp hm hn]
    refine h.congr_deriv ?_
    rw [gradsLeft_a0 _ _ _ _ _ (hsym t₀) hp hm hn A' B' hA's, amp_smul _ _ _ (c t₀)]
    field_simp
  have hfun : (fun t => ((List.range c0).map fun m => ((List.range c0).map fun n => ((prodL (cut.map List.range)).map fun p => g m n p * (ampsLeft (A t) (B t) (c t) c0 cut).a0 p m n).sum).sum).sum) =
      fun t => (ix.map fun q => g q.1 q.2.1 q.2.2 * (ampsLeft (A t) (B t) (c t) c0 cut).a0 q.2.2 q.1 q.2.1).sum :=
    funext fun t => hflat fun m n p => g m n p * (ampsLeft (A t) (B t) (c t) c0 cut).a0 p m n
  rw [hfun]
  refine (hasDeriv_listSum _ key).congr_deriv ?_
  have hs := listSum_dir ix (fun q => g q.1 q.2.1 q.2.2) (fun q => (gradsLeft (A t₀) (B t₀) c0 cut (ampsLeft (A t₀) (B t₀) (c t₀) c0 cut)).a0 q.2.2 q.1 q.2.1) (2 * (cut.length + 1)) A' B'
  rw [List.sum_map_add, ← hs, List.sum_map_mul_left, mul_comm c', hix]
  rfl

end Verif.Compact
