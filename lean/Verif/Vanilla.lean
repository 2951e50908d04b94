import Verif.FockRec

/-!
# Model of the vanilla and stable Fock recursions (C19, C20)

Exact complex arithmetic.  A flat numpy array is a list; integer indexing is Python/numba indexing, so a
negative index wraps around (`pyGet`).
-/

namespace Verif.Fock

/-- numba/numpy indexing of a flat array by a possibly negative integer (wrap-around). -/
noncomputable def pyGet (G : List ℂ) (x : ℤ) : ℂ :=
  if 0 ≤ x then G.getD x.toNat 0 else G.getD (x + G.length).toNat 0

/-- `np.ndindex(shape)`: all multi-indices, last index fastest. -/
def ndindex : List ℕ → List (List ℕ)
  | [] => [[]]
  | n :: s => (List.range n).flatMap fun k => (ndindex s).map (k :: ·)

/-- math/lattice/strategies/vanilla/core.py:68-70 (same at 168-170): the loop
`for i in range(D-1, 0, -1): strides[i-1] = strides[i] * shape[i]` starting from ones. -/
def strides (shape : List ℕ) : List ℕ :=
  ((List.range' 1 (shape.length - 1)).reverse).foldl
    (fun st i => st.set (i - 1) (st.getD i 1 * shape.getD i 1)) (List.replicate shape.length 1)

/-- math/lattice/strategies/vanilla/core.py:97-104 and 115-122: the amplitude at a flat index from the
pivot in direction `i`.  `SQRT[n]` is the exact square root. -/
noncomputable def vanillaStep (D : ℕ) (A : ℕ → ℕ → ℂ) (b : ℕ → ℂ) (st : List ℕ) (i : ℕ) (G : List ℂ)
    (flat : ℕ) (index : List ℕ) : ℂ :=
  let pivot : ℤ := (flat : ℤ) - st.getD i 0
  let v0 := b i * pyGet G pivot
  let v1 := v0 + A i i * sq (index.getD i 0 - 1) * pyGet G (pivot - st.getD i 0)
  let v2 := (List.range' (i + 1) (D - (i + 1))).foldl
    (fun v j => v + A i j * sq (index.getD j 0) * pyGet G (pivot - st.getD j 0)) v1
  v2 / sq (index.getD i 0)

/-- math/lattice/strategies/vanilla/core.py:88-94: the direction of the pivot, the first stride not
exceeding the flat index. -/
def pivotDir (st : List ℕ) (flat : ℕ) : ℕ := st.findIdx (fun (s : ℕ) => decide ((flat : ℤ) - (s : ℤ) ≥ 0))

/-- math/lattice/strategies/vanilla/core.py:25-124 `vanilla_numba`, returning the flat tensor.  `G0` is the
initial content of the output buffer (zeros, or the caller's `out`). -/
noncomputable def vanilla (shape : List ℕ) (A : ℕ → ℕ → ℂ) (b : ℕ → ℂ) (c : ℂ) (G0 : List ℂ) : List ℂ :=
  let D := shape.length
  let st := strides shape
  (((ndindex shape).zipIdx).drop 1).foldl (fun G (index, flat) =>
    if flat < st.getD 0 0 then
      G.set flat (vanillaStep D A b st (pivotDir st flat) G flat index)
    else
      G.set flat (vanillaStep D A b st 0 G flat index)) (G0.set 0 c)

/-- math/lattice/strategies/vanilla/core.py:186-211: the average over all pivots. -/
noncomputable def stableStep (D : ℕ) (A : ℕ → ℕ → ℂ) (b : ℕ → ℂ) (st : List ℕ) (G : List ℂ)
    (flat : ℕ) (index : List ℕ) : ℂ :=
  let r := (List.range D).foldl (fun (acc : ℂ × ℕ) i =>
    if index.getD i 0 = 0 then acc else
      let pivot : ℤ := (flat : ℤ) - st.getD i 0
      let v0 := b i * pyGet G pivot
      let v1 := (List.range i).foldl
        (fun v j => v + A i j * sq (index.getD j 0) * pyGet G (pivot - st.getD j 0)) v0
      let v2 := v1 + A i i * sq (index.getD i 0 - 1) * pyGet G (pivot - st.getD i 0)
      let v3 := (List.range' (i + 1) (D - (i + 1))).foldl
        (fun v j => v + A i j * sq (index.getD j 0) * pyGet G (pivot - st.getD j 0)) v2
      (acc.1 + v3 / sq (index.getD i 0), acc.2 + 1)) ((0 : ℂ), 0)
  r.1 / (r.2 : ℂ)

/-- math/lattice/strategies/vanilla/core.py:127-213 `stable_numba`, returning the flat tensor. -/
noncomputable def stable (shape : List ℕ) (A : ℕ → ℕ → ℂ) (b : ℕ → ℂ) (c : ℂ) (G0 : List ℂ) : List ℂ :=
  let D := shape.length
  let st := strides shape
  (((ndindex shape).zipIdx).drop 1).foldl (fun G (index, flat) =>
    G.set flat (stableStep D A b st G flat index)) (G0.set 0 c)

/-! ## Specification of C-order arrays -/

/-- A multi-index within the shape. -/
def InB (shape idx : List ℕ) : Prop := List.Forall₂ (fun k n => k < n) idx shape

/-- Position of a multi-index in a C-ordered flat array (this is what `reshape(shape)[idx]` reads). -/
def ravel : List ℕ → List ℕ → ℕ
  | _ :: s, k :: ks => k * s.prod + ravel s ks
  | _, _ => 0

/-! ## Lemmas -/

/-- Inverse of `ravel`. -/
def unravel : List ℕ → ℕ → List ℕ
  | [], _ => []
  | _ :: s, f => f / s.prod :: unravel s (f % s.prod)

theorem range_mul (n m : ℕ) :
    List.range (n * m) = (List.range n).flatMap (fun k => (List.range m).map (k * m + ·)) := by
  induction n with
  | zero => simp
  | succ n ih => rw [Nat.succ_mul, List.range_add, List.range_succ, List.flatMap_append, ih]; simp

theorem ndindex_eq (shape : List ℕ) : ndindex shape = (List.range shape.prod).map (unravel shape) := by
  induction shape with
  | nil => rfl
  | cons n s ih =>
    rw [ndindex, List.prod_cons, range_mul, List.map_flatMap]
    congr 1
    funext k
    rw [ih, List.map_map, List.map_map]
    apply List.map_congr_left
    intro f hf
    have hf : f < s.prod := by simpa using hf
    have hp : 0 < s.prod := by omega
    simp only [Function.comp, unravel]
    rw [Nat.mul_comm k, Nat.mul_add_div hp, Nat.div_eq_of_lt hf, Nat.mul_add_mod, Nat.mod_eq_of_lt hf]
    simp

theorem ndindex_zipIdx (shape : List ℕ) : ((ndindex shape).zipIdx).drop 1 =
    (List.range' 1 (shape.prod - 1)).map (fun f => (unravel shape f, f)) := by
  rw [ndindex_eq]
  apply List.ext_getElem?
  intro i
  rw [List.getElem?_drop]
  simp only [List.getElem?_zipIdx, List.getElem?_map, List.getElem?_range', List.getElem?_range]
  by_cases h : 1 + i < shape.prod
  · simp [h, show i < shape.prod - 1 by omega]
  · simp [h, show ¬ i < shape.prod - 1 by omega]

theorem length_unravel (shape f) : (unravel shape f).length = shape.length := by
  induction shape generalizing f with
  | nil => rfl
  | cons n s ih => simp [unravel, ih]

theorem unravel_ravel {shape idx : List ℕ} (h : InB shape idx) :
    ravel shape idx < shape.prod ∧ unravel shape (ravel shape idx) = idx := by
  induction h with
  | nil => simp [ravel, unravel]
  | @cons k n ks s hk _ ih =>
    have hp : 0 < s.prod := by omega
    constructor
    · simp only [ravel, List.prod_cons]
      calc k * s.prod + ravel s ks < k * s.prod + s.prod := by omega
        _ = (k + 1) * s.prod := by ring
        _ ≤ n * s.prod := Nat.mul_le_mul_right _ hk
    · simp only [ravel, unravel]
      rw [Nat.mul_comm k, Nat.mul_add_div hp, Nat.div_eq_of_lt ih.1, Nat.mul_add_mod, Nat.mod_eq_of_lt ih.1,
        ih.2]
      simp

/-- Closed form of the strides. -/
def strideSpec : List ℕ → List ℕ
  | [] => []
  | _ :: s => s.prod :: strideSpec s

theorem length_strideSpec (s) : (strideSpec s).length = s.length := by
  induction s with
  | nil => rfl
  | cons n s ih => simp [strideSpec, ih]

theorem strideSpec_get (s : List ℕ) (i : ℕ) (h : i < s.length) :
    (strideSpec s)[i]? = some (s.drop (i + 1)).prod := by
  induction s generalizing i with
  | nil => simp at h
  | cons n s ih =>
    cases i with
    | zero => simp [strideSpec]
    | succ i =>
      simp only [strideSpec, List.getElem?_cons_succ, List.drop_succ_cons]
      exact ih i (by simpa using h)

theorem strides_loop (shape : List ℕ) (m : ℕ) (hm : m + 1 ≤ shape.length) :
    let st := ((List.range' (shape.length - m) m).reverse).foldl
      (fun st i => st.set (i - 1) (st.getD i 1 * shape.getD i 1)) (List.replicate shape.length 1)
    st.length = shape.length ∧ ∀ i, shape.length - m - 1 ≤ i → i < shape.length →
      st[i]? = some (shape.drop (i + 1)).prod := by
  induction m with
  | zero =>
    refine ⟨by simp, ?_⟩
    intro i h1 h2
    have : shape.drop (i + 1) = [] := List.drop_eq_nil_of_le (by omega)
    simp [this, h2]
  | succ m ih =>
    obtain ⟨hl, hg⟩ := ih (by omega)
    have hr : List.range' (shape.length - (m + 1)) (m + 1) =
        (shape.length - (m + 1)) :: List.range' (shape.length - m) m := by
      rw [List.range'_succ]
      congr 2
      omega
    simp only [hr, List.reverse_cons, List.foldl_append, List.foldl_cons, List.foldl_nil]
    set st := ((List.range' (shape.length - m) m).reverse).foldl
      (fun st i => st.set (i - 1) (st.getD i 1 * shape.getD i 1)) (List.replicate shape.length 1)
    refine ⟨by simpa using hl, ?_⟩
    intro i h1 h2
    have hi := hg (shape.length - (m + 1)) (by omega) (by omega)
    by_cases he : shape.length - (m + 1) - 1 = i
    · subst he
      rw [List.getElem?_set_self (by omega), List.getD_eq_getElem?_getD, hi, Option.getD_some]
      congr 1
      have e : shape.length - (m + 1) - 1 + 1 = shape.length - (m + 1) := by omega
      rw [e, List.drop_eq_getElem_cons (by omega : shape.length - (m + 1) < shape.length), List.prod_cons,
        Nat.mul_comm, List.getD_eq_getElem?_getD, List.getElem?_eq_getElem (by omega), Option.getD_some]
    · rw [List.getElem?_set_ne (by omega)]
      exact hg i (by omega) h2

theorem strides_eq (shape : List ℕ) : strides shape = strideSpec shape := by
  by_cases h : shape = []
  · subst h; rfl
  have hpos : 0 < shape.length := List.length_pos_iff.2 h
  have hl := strides_loop shape (shape.length - 1) (by omega)
  have e : shape.length - (shape.length - 1) = 1 := by omega
  rw [e] at hl
  obtain ⟨h1, h2⟩ := hl
  apply List.ext_getElem?
  intro i
  by_cases hi : i < shape.length
  · rw [strideSpec_get shape i hi]
    exact h2 i (by omega) hi
  · have l1 : (strides shape).length ≤ i := by unfold strides; omega
    have l2 : (strideSpec shape).length ≤ i := by rw [length_strideSpec]; omega
    rw [List.getElem?_eq_none l1, List.getElem?_eq_none l2]

/-- `k` as a finitely supported function. -/
noncomputable def toF (idx : List ℕ) : ℕ →₀ ℕ := idx.toFinsupp

@[simp] theorem toF_apply (idx : List ℕ) (i : ℕ) : toF idx i = idx.getD i 0 := rfl

theorem unravel_low {shape : List ℕ} {f j : ℕ} (hf : f < shape.prod)
    (hj : (unravel shape f).getD j 0 ≠ 0) :
    (strideSpec shape).getD j 0 ≤ f ∧
      ∀ i, (unravel shape (f - (strideSpec shape).getD j 0)).getD i 0 =
        (unravel shape f).getD i 0 - if i = j then 1 else 0 := by
  induction shape generalizing f j with
  | nil => simp [unravel] at hj
  | cons n s ih =>
    have hp : 0 < s.prod := by
      rcases Nat.eq_zero_or_pos s.prod with h | h
      · simp [h] at hf
      · exact h
    cases j with
    | zero =>
      simp only [unravel, List.getD_cons_zero, strideSpec] at hj ⊢
      have hle : s.prod ≤ f := by
        by_contra h
        exact hj (Nat.div_eq_of_lt (by omega))
      refine ⟨hle, ?_⟩
      intro i
      cases i with
      | zero =>
        simp only [List.getD_cons_zero, if_true]
        have := Nat.sub_mul_div f s.prod 1
        simpa using this
      | succ i =>
        simp only [List.getD_cons_succ]
        rw [← Nat.mod_eq_sub_mod hle]
        simp
    | succ j =>
      simp only [unravel, List.getD_cons_succ, strideSpec] at hj ⊢
      obtain ⟨h1, h2⟩ := ih (Nat.mod_lt f hp) hj
      have hfe := Nat.div_add_mod f s.prod
      have hlt := Nat.mod_lt f hp
      refine ⟨h1.trans (Nat.mod_le _ _), ?_⟩
      set t := (strideSpec s).getD j 0
      have e : f - t = s.prod * (f / s.prod) + (f % s.prod - t) := by omega
      have hd : (f - t) / s.prod = f / s.prod := by
        rw [e, Nat.mul_add_div hp, Nat.div_eq_of_lt (show f % s.prod - t < s.prod by omega), Nat.add_zero]
      have hm : (f - t) % s.prod = f % s.prod - t := by
        rw [e, Nat.mul_add_mod, Nat.mod_eq_of_lt (by omega)]
      intro i
      cases i with
      | zero => simp [hd]
      | succ i => simp only [List.getD_cons_succ, hm, h2 i]; simp

theorem pivotDir_spec {shape : List ℕ} {f : ℕ} (hf : f < shape.prod) (h0 : 0 < f) :
    pivotDir (strideSpec shape) f < shape.length ∧
      (unravel shape f).getD (pivotDir (strideSpec shape) f) 0 ≠ 0 ∧
      ∀ j < pivotDir (strideSpec shape) f, (unravel shape f).getD j 0 = 0 := by
  induction shape generalizing f with
  | nil => simp at hf; omega
  | cons n s ih =>
    have hp : 0 < s.prod := by
      rcases Nat.eq_zero_or_pos s.prod with h | h
      · simp [h] at hf
      · exact h
    unfold pivotDir
    simp only [strideSpec, List.findIdx_cons]
    by_cases hle : s.prod ≤ f
    · have : decide ((f : ℤ) - (s.prod : ℕ) ≥ 0) = true := decide_eq_true (by omega)
      simp only [this, cond_true]
      refine ⟨by simp, ?_, by simp⟩
      simp only [unravel, List.getD_cons_zero]
      exact (Nat.div_pos hle hp).ne'
    · have : decide ((f : ℤ) - (s.prod : ℕ) ≥ 0) = false := decide_eq_false (by omega)
      simp only [this, cond_false]
      have hlt : f < s.prod := by omega
      obtain ⟨h1, h2, h3⟩ := ih hlt h0
      unfold pivotDir at h1 h2 h3
      refine ⟨by simpa using h1, ?_, ?_⟩
      · simpa [unravel, Nat.mod_eq_of_lt hlt] using h2
      · intro j hj
        cases j with
        | zero => simp [unravel, Nat.div_eq_of_lt hlt]
        | succ j => simpa [unravel, Nat.mod_eq_of_lt hlt] using h3 j (by omega)

/-- Filling a flat array in order, each entry computed from the previous ones. -/
theorem fill_spec {N : ℕ} (step : List ℂ → ℕ → ℂ) (target : ℕ → ℂ)
    (hstep : ∀ G f, 0 < f → f < N → G.length = N → (∀ g < f, G.getD g 0 = target g) →
      step G f = target f) (G0 : List ℂ) (hl : G0.length = N) (hN : 0 < N) (m : ℕ) (hm : m + 1 ≤ N) :
    let R := (List.range' 1 m).foldl (fun G f => G.set f (step G f)) (G0.set 0 (target 0))
    R.length = N ∧ ∀ g < m + 1, R.getD g 0 = target g := by
  induction m with
  | zero =>
    refine ⟨by simpa using hl, ?_⟩
    intro g hg
    have : g = 0 := by omega
    subst this
    simp [List.getD_eq_getElem?_getD, List.getElem?_set_self, hl, hN]
  | succ m ih =>
    obtain ⟨h1, h2⟩ := ih (by omega)
    simp only [List.range'_concat, List.foldl_append, List.foldl_cons, List.foldl_nil, Nat.one_mul]
    set R := (List.range' 1 m).foldl (fun G f => G.set f (step G f)) (G0.set 0 (target 0))
    refine ⟨by simpa using h1, ?_⟩
    intro g hg
    by_cases e : g = 1 + m
    · subst e
      rw [List.getD_eq_getElem?_getD, List.getElem?_set_self (by omega), Option.getD_some]
      exact hstep R (1 + m) (by omega) (by omega) h1 (fun g hg => h2 g (by omega))
    · rw [List.getD_eq_getElem?_getD, List.getElem?_set_ne (by omega), ← List.getD_eq_getElem?_getD]
      exact h2 g (by omega)

theorem toF_low {shape : List ℕ} {f j : ℕ} (hf : f < shape.prod)
    (hj : (unravel shape f).getD j 0 ≠ 0) :
    toF (unravel shape (f - (strideSpec shape).getD j 0)) = dn (toF (unravel shape f)) j := by
  ext i
  rw [toF_apply, (unravel_low hf hj).2 i]
  simp only [dn, Finsupp.tsub_apply, toF_apply, Finsupp.single_apply]
  by_cases h : i = j
  · simp [h]
  · simp [h, Ne.symm h]

/-- Target value of the flat array at position `f`. -/
noncomputable def target (shape : List ℕ) (A : ℕ → ℕ → ℂ) (b : ℕ → ℂ) (c : ℂ) (f : ℕ) : ℂ :=
  amp shape.length A b c (toF (unravel shape f))

theorem read_pivot {shape A b c} {G : List ℂ} {f i : ℕ} (hf : f < shape.prod) (h0 : 0 < f)
    (hG : ∀ g < f, G.getD g 0 = target shape A b c g) (hi : (unravel shape f).getD i 0 ≠ 0)
    (hst : 0 < (strideSpec shape).getD i 0) :
    pyGet G ((f : ℤ) - (strideSpec shape).getD i 0) =
      amp shape.length A b c (dn (toF (unravel shape f)) i) := by
  have hle := (unravel_low hf hi).1
  unfold pyGet
  have e : (f : ℤ) - (strideSpec shape).getD i 0 = ((f - (strideSpec shape).getD i 0 : ℕ) : ℤ) := by omega
  rw [e, if_pos (by omega), Int.toNat_natCast, hG _ (by omega), target, toF_low hf hi]

theorem stride_pos {shape : List ℕ} {i : ℕ} (hp : 0 < shape.prod) (hi : i < shape.length) :
    0 < (strideSpec shape).getD i 0 := by
  rw [List.getD_eq_getElem?_getD, strideSpec_get shape i hi, Option.getD_some]
  have := List.prod_take_mul_prod_drop shape (i + 1)
  rcases Nat.eq_zero_or_pos (shape.drop (i + 1)).prod with h | h
  · rw [h] at this; omega
  · exact h

theorem lt_of_getD_ne {l : List ℕ} {i : ℕ} (h : l.getD i 0 ≠ 0) : i < l.length := by
  by_contra hc
  apply h
  rw [List.getD_eq_getElem?_getD, List.getElem?_eq_none (by omega)]
  rfl

theorem read_neighbour {shape A b c} {G : List ℂ} {f i j : ℕ} (hf : f < shape.prod)
    (hG : ∀ g < f, G.getD g 0 = target shape A b c g) (hi : (unravel shape f).getD i 0 ≠ 0) :
    sq (dn (toF (unravel shape f)) i j) *
        pyGet G ((f : ℤ) - (strideSpec shape).getD i 0 - (strideSpec shape).getD j 0) =
      sq (dn (toF (unravel shape f)) i j) *
        amp shape.length A b c (dn (dn (toF (unravel shape f)) i) j) := by
  by_cases hz : dn (toF (unravel shape f)) i j = 0
  · simp [hz]
  · have hst : 0 < (strideSpec shape).getD i 0 :=
      stride_pos (by omega) (by rw [← length_unravel shape f]; exact lt_of_getD_ne hi)
    have hle := (unravel_low hf hi).1
    have hf' : f - (strideSpec shape).getD i 0 < shape.prod := by omega
    have hj : (unravel shape (f - (strideSpec shape).getD i 0)).getD j 0 ≠ 0 := by
      rw [← toF_apply, toF_low hf hi]; exact hz
    have hle2 := (unravel_low hf' hj).1
    congr 1
    unfold pyGet
    have e : (f : ℤ) - (strideSpec shape).getD i 0 - (strideSpec shape).getD j 0 =
      ((f - (strideSpec shape).getD i 0 - (strideSpec shape).getD j 0 : ℕ) : ℤ) := by omega
    rw [e, if_pos (by omega), Int.toNat_natCast, hG _ (by omega), target, toF_low hf' hj, toF_low hf hi]

theorem foldl_add_eq {α} (l : List α) (g : α → ℂ) (a : ℂ) :
    l.foldl (fun v j => v + g j) a = a + (l.map g).sum := by
  induction l generalizing a with
  | nil => simp
  | cons x l ih => simp [ih, add_assoc]

theorem range'_sum (m n : ℕ) (g : ℕ → ℂ) : ((List.range' m n).map g).sum = ∑ j ∈ Finset.Ico m (m + n), g j := by
  induction n with
  | zero => simp
  | succ n ih =>
    rw [List.range'_concat, List.map_append, List.sum_append, ih, ← Nat.add_assoc,
      Finset.sum_Ico_succ_top (by omega)]
    simp

theorem vanillaStep_eq {shape A b c} (hA : Symm shape.length A) {G : List ℂ} {f i : ℕ}
    (hf : f < shape.prod) (h0 : 0 < f)
    (hG : ∀ g < f, G.getD g 0 = target shape A b c g) (hi : (unravel shape f).getD i 0 ≠ 0)
    (hlow : ∀ j < i, (unravel shape f).getD j 0 = 0) :
    vanillaStep shape.length A b (strideSpec shape) i G f (unravel shape f) = target shape A b c f := by
  have hil : i < shape.length := by rw [← length_unravel shape f]; exact lt_of_getD_ne hi
  have hst : 0 < (strideSpec shape).getD i 0 := stride_pos (by omega) hil
  unfold target
  rw [amp_rec c hA hil _ (by simpa using hi)]
  unfold vanillaStep
  simp only [toF_apply]
  congr 1
  rw [foldl_add_eq, read_pivot hf h0 hG hi hst, range'_sum, add_assoc]
  congr 1
  have hsplit : Finset.range shape.length = Finset.Ico 0 i ∪ ({i} ∪ Finset.Ico (i + 1) shape.length) := by
    ext x; simp; omega
  rw [hsplit, Finset.sum_union, Finset.sum_union, Finset.sum_singleton]
  · rw [Finset.sum_eq_zero (s := Finset.Ico 0 i), zero_add]
    · have e1 : dn (toF (unravel shape f)) i i = (unravel shape f).getD i 0 - 1 := by simp [dn]
      have hn := read_neighbour (j := i) hf hG hi
      rw [e1] at hn ⊢
      rw [mul_assoc, hn, ← mul_assoc, show i + 1 + (shape.length - (i + 1)) = shape.length by omega]
      congr 1
      apply Finset.sum_congr rfl
      intro j hj
      have hj' : i + 1 ≤ j := (Finset.mem_Ico.1 hj).1
      have e2 : dn (toF (unravel shape f)) i j = (unravel shape f).getD j 0 := by
        simp [dn, Finsupp.single_apply, show i ≠ j by omega]
      have hn := read_neighbour (j := j) hf hG hi
      rw [e2] at hn ⊢
      rw [mul_assoc, hn, ← mul_assoc]
    · intro j hj
      have hj' : j < i := (Finset.mem_Ico.1 hj).2
      have : dn (toF (unravel shape f)) i j = 0 := by
        simp only [dn, Finsupp.tsub_apply, toF_apply, hlow j hj']; simp
      rw [this]; simp
  · rw [Finset.disjoint_left]; intro x hx; simp at hx ⊢; omega
  · rw [Finset.disjoint_left]; intro x hx; simp at hx ⊢; omega

theorem toF_unravel_zero (shape : List ℕ) : toF (unravel shape 0) = 0 := by
  ext i
  rw [toF_apply]
  induction shape generalizing i with
  | nil => simp [unravel]
  | cons n s ih =>
    cases i with
    | zero => simp [unravel]
    | succ i => simpa [unravel] using ih i

theorem pivotDir_zero {shape : List ℕ} {f : ℕ} (h : (strideSpec shape).getD 0 0 ≤ f) (hne : shape ≠ []) :
    pivotDir (strideSpec shape) f = 0 := by
  cases shape with
  | nil => exact absurd rfl hne
  | cons n s =>
    unfold pivotDir
    simp only [strideSpec, List.getD_cons_zero, List.findIdx_cons] at h ⊢
    have : decide ((f : ℤ) - (s.prod : ℕ) ≥ 0) = true := decide_eq_true (by omega)
    simp only [this, cond_true]

/-- **C19** `vanilla_numba` returns, at every multi-index within any shape with positive dimensions, the
Fock amplitude of `c · exp(½ zᵀ A z + bᵀ z)`, whatever the initial content of the output buffer. -/
theorem C19_vanilla_correct (shape : List ℕ) (A : ℕ → ℕ → ℂ) (b : ℕ → ℂ) (c : ℂ) (G0 : List ℂ)
    (hlen : G0.length = shape.prod) (hA : Symm shape.length A) (idx : List ℕ) (hidx : InB shape idx) :
    (vanilla shape A b c G0).length = shape.prod ∧
    (vanilla shape A b c G0)[ravel shape idx]? = some (amp shape.length A b c idx.toFinsupp) := by
  obtain ⟨hr, hu⟩ := unravel_ravel hidx
  have hN : 0 < shape.prod := by omega
  have key : vanilla shape A b c G0 = (List.range' 1 (shape.prod - 1)).foldl
      (fun G f => G.set f (vanillaStep shape.length A b (strideSpec shape)
        (pivotDir (strideSpec shape) f) G f (unravel shape f))) (G0.set 0 (target shape A b c 0)) := by
    unfold vanilla
    simp only [strides_eq]
    rw [ndindex_zipIdx, List.foldl_map, target, toF_unravel_zero, amp_zero]
    congr 1
    funext G f
    split_ifs with h
    · rfl
    · by_cases hne : shape = []
      · subst hne; simp [pivotDir, strideSpec]
      · rw [pivotDir_zero (by omega) hne]
  have := fill_spec (N := shape.prod)
    (fun G f => vanillaStep shape.length A b (strideSpec shape) (pivotDir (strideSpec shape) f) G f
      (unravel shape f)) (target shape A b c)
    (by
      intro G f h0 hf _ hG
      obtain ⟨_, h2, h3⟩ := pivotDir_spec hf h0
      exact vanillaStep_eq hA hf h0 hG h2 h3) G0 hlen hN (shape.prod - 1) (by omega)
  rw [← key] at this
  refine ⟨this.1, ?_⟩
  have h := this.2 (ravel shape idx) (by omega)
  rw [List.getD_eq_getElem?_getD, List.getElem?_eq_getElem (by omega), Option.getD_some] at h
  rw [List.getElem?_eq_getElem (by omega), h, target, hu]
  rfl

theorem stableStep_eq {shape A b c} (hA : Symm shape.length A) {G : List ℂ} {f : ℕ}
    (hf : f < shape.prod) (h0 : 0 < f)
    (hG : ∀ g < f, G.getD g 0 = target shape A b c g) :
    stableStep shape.length A b (strideSpec shape) G f (unravel shape f) = target shape A b c f := by
  set T := target shape A b c f with hT
  set idx := unravel shape f with hidx
  have inner : ∀ i, i < shape.length → idx.getD i 0 ≠ 0 →
      (List.foldl (fun v j => v + A i j * sq (idx.getD j 0) *
          pyGet G ((f : ℤ) - (strideSpec shape).getD i 0 - (strideSpec shape).getD j 0))
        (List.foldl (fun v j => v + A i j * sq (idx.getD j 0) *
            pyGet G ((f : ℤ) - (strideSpec shape).getD i 0 - (strideSpec shape).getD j 0))
          (b i * pyGet G ((f : ℤ) - (strideSpec shape).getD i 0)) (List.range i) +
          A i i * sq (idx.getD i 0 - 1) *
            pyGet G ((f : ℤ) - (strideSpec shape).getD i 0 - (strideSpec shape).getD i 0))
        (List.range' (i + 1) (shape.length - (i + 1)))) / sq (idx.getD i 0) = T := by
    intro i hil hi
    have hst : 0 < (strideSpec shape).getD i 0 := stride_pos (by omega) hil
    rw [hT, target, amp_rec c hA hil _ (by simpa using hi)]
    simp only [toF_apply]
    congr 1
    rw [foldl_add_eq, foldl_add_eq, read_pivot hf h0 hG hi hst, range'_sum, List.range_eq_range', range'_sum,
      add_assoc, add_assoc]
    congr 1
    have hsplit : Finset.range shape.length = Finset.Ico 0 i ∪ ({i} ∪ Finset.Ico (i + 1) shape.length) := by
      ext x; simp; omega
    have term : ∀ j, j ≠ i → A i j * sq (idx.getD j 0) *
          pyGet G ((f : ℤ) - (strideSpec shape).getD i 0 - (strideSpec shape).getD j 0) =
        A i j * sq (dn (toF idx) i j) * amp shape.length A b c (dn (dn (toF idx) i) j) := by
      intro j hj
      have e2 : dn (toF idx) i j = idx.getD j 0 := by simp [dn, Finsupp.single_apply, Ne.symm hj]
      have hn := read_neighbour (j := j) hf hG hi
      rw [e2] at hn ⊢
      rw [mul_assoc, hn, ← mul_assoc]
    rw [hsplit, Finset.sum_union, Finset.sum_union, Finset.sum_singleton]
    · congr 1
      · rw [Nat.zero_add]
        apply Finset.sum_congr rfl
        intro j hj
        exact term j (by have := (Finset.mem_Ico.1 hj).2; omega)
      congr 1
      · have e1 : dn (toF idx) i i = idx.getD i 0 - 1 := by simp [dn]
        have hn := read_neighbour (j := i) hf hG hi
        rw [e1] at hn ⊢
        rw [mul_assoc, hn, ← mul_assoc]
      · rw [show i + 1 + (shape.length - (i + 1)) = shape.length by omega]
        apply Finset.sum_congr rfl
        intro j hj
        exact term j (by have := (Finset.mem_Ico.1 hj).1; omega)
    · rw [Finset.disjoint_left]; intro x hx; simp at hx ⊢; omega
    · rw [Finset.disjoint_left]; intro x hx; simp at hx ⊢; omega
  have outer : ∀ m, m ≤ shape.length →
      ∃ n : ℕ, (List.range m).foldl (fun (acc : ℂ × ℕ) i =>
        if idx.getD i 0 = 0 then acc else
          (acc.1 + (List.foldl (fun v j => v + A i j * sq (idx.getD j 0) *
              pyGet G ((f : ℤ) - (strideSpec shape).getD i 0 - (strideSpec shape).getD j 0))
            (List.foldl (fun v j => v + A i j * sq (idx.getD j 0) *
                pyGet G ((f : ℤ) - (strideSpec shape).getD i 0 - (strideSpec shape).getD j 0))
              (b i * pyGet G ((f : ℤ) - (strideSpec shape).getD i 0)) (List.range i) +
              A i i * sq (idx.getD i 0 - 1) *
                pyGet G ((f : ℤ) - (strideSpec shape).getD i 0 - (strideSpec shape).getD i 0))
            (List.range' (i + 1) (shape.length - (i + 1)))) / sq (idx.getD i 0), acc.2 + 1)) ((0 : ℂ), 0) =
        ((n : ℂ) * T, n) ∧ ((∃ i < m, idx.getD i 0 ≠ 0) → 0 < n) := by
    intro m
    induction m with
    | zero => intro _; exact ⟨0, by simp, by simp⟩
    | succ m ih =>
      intro hm
      obtain ⟨n, e, hpos⟩ := ih (by omega)
      rw [List.range_succ, List.foldl_append, e]
      simp only [List.foldl_cons, List.foldl_nil]
      by_cases hz : idx.getD m 0 = 0
      · refine ⟨n, by rw [if_pos hz], ?_⟩
        rintro ⟨i, hi, hne⟩
        apply hpos
        by_cases him : i = m
        · subst him; exact absurd hz hne
        · exact ⟨i, by omega, hne⟩
      · refine ⟨n + 1, ?_, by omega⟩
        rw [if_neg hz, inner m (by omega) hz]
        push_cast
        rw [add_mul, one_mul]
  obtain ⟨n, e, hpos⟩ := outer shape.length le_rfl
  have hn : 0 < n := by
    obtain ⟨h1, h2, _⟩ := pivotDir_spec hf h0
    exact hpos ⟨_, h1, h2⟩
  unfold stableStep
  simp only [] at e ⊢
  rw [e]
  have : (n : ℂ) ≠ 0 := by exact_mod_cast hn.ne'
  field_simp

/-- **C20** `stable_numba` returns the same amplitudes. -/
theorem C20_stable_correct (shape : List ℕ) (A : ℕ → ℕ → ℂ) (b : ℕ → ℂ) (c : ℂ) (G0 : List ℂ)
    (hlen : G0.length = shape.prod) (hA : Symm shape.length A) (idx : List ℕ) (hidx : InB shape idx) :
    (stable shape A b c G0).length = shape.prod ∧
    (stable shape A b c G0)[ravel shape idx]? = some (amp shape.length A b c idx.toFinsupp) := by
  obtain ⟨hr, hu⟩ := unravel_ravel hidx
  have hN : 0 < shape.prod := by omega
  have key : stable shape A b c G0 = (List.range' 1 (shape.prod - 1)).foldl
      (fun G f => G.set f (stableStep shape.length A b (strideSpec shape) G f (unravel shape f)))
      (G0.set 0 (target shape A b c 0)) := by
    unfold stable
    simp only [strides_eq]
    rw [ndindex_zipIdx, List.foldl_map, target, toF_unravel_zero, amp_zero]
  have := fill_spec (N := shape.prod)
    (fun G f => stableStep shape.length A b (strideSpec shape) G f (unravel shape f)) (target shape A b c)
    (by intro G f h0 hf _ hG; exact stableStep_eq hA hf h0 hG) G0 hlen hN (shape.prod - 1) (by omega)
  rw [← key] at this
  refine ⟨this.1, ?_⟩
  have h := this.2 (ravel shape idx) (by omega)
  rw [List.getD_eq_getElem?_getD, List.getElem?_eq_getElem (by omega), Option.getD_some] at h
  rw [List.getElem?_eq_getElem (by omega), h, target, hu]
  rfl

end Verif.Fock
