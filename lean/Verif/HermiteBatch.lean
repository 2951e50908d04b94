import Verif.Gradients

/-!
# Batched renormalised Hermite polynomials and their gradients (C102)

Model of `math.hermite_renormalized` for batched arguments, of the parallel loops it runs, and of the batched backward pass.
-/

namespace Verif.Fock

/-! ## The code -/

/-- An array with batch axes in front: the batch shape and the elements (matrices, vectors or scalars) in C order, so that reshaping the batch axes keeps `els`. -/
structure BArr (α : Type) where
  batch : List ℕ
  els : List α

/-- The array one iteration of the batched loop computes (math/lattice/strategies/vanilla/batch.py 56-60). -/
noncomputable def iteration (stab : Bool) (shape : List ℕ) (A : ℕ → ℕ → ℂ) (b : ℕ → ℂ) (c : ℂ) : List ℂ :=
  if stab then stable shape A b c (List.replicate shape.prod 0) else vanilla shape A b c (List.replicate shape.prod 0)

/-- The elementary assignments of the parallel loop, flat position and value, in the order of the sequential program (math/lattice/strategies/vanilla/batch.py 55-60):
iteration `k` copies its local array to `G[k]`. -/
noncomputable def batchWrites (stab : Bool) (shape : List ℕ) (A : List (ℕ → ℕ → ℂ)) (b : List (ℕ → ℂ)) (c : List ℂ) : List (ℕ × ℂ) :=
  (List.range b.length).flatMap fun k => (List.range shape.prod).map fun f =>
    (k * shape.prod + f, (iteration stab shape (A.getD k 0) (b.getD k 0) (c.getD k 0)).getD f 0)

/-- `vanilla_batch_numba` (math/lattice/strategies/vanilla/batch.py 27-61) with the flat content `G0` of the output buffer.  `σ` is the order in which the threads of `prange` perform the
assignments. -/
noncomputable def vanillaBatch (σ : List (ℕ × ℂ) → List (ℕ × ℂ)) (stab : Bool) (shape : List ℕ) (A : List (ℕ → ℕ → ℂ)) (b : List (ℕ → ℂ)) (c : List ℂ) (G0 : List ℂ) : List ℂ :=
  (σ (batchWrites stab shape A b c)).foldl (fun G w => G.set w.1 w.2) G0

/-- `check_out_shape` (math/backend_manager.py 674-680), `true` if it does not raise. -/
def outFits (out : Option (List ℕ × List ℂ)) (full : List ℕ) : Bool :=
  match out with
  | none => true
  | some o => (List.zip o.1 full).all fun p => ¬ p.1 < p.2

/-- The output buffer handed to the strategy: zeros, or `reshape(out, (D, *shape))`, which raises unless the sizes agree and is a view of the (contiguous) array `out`
(math/backend_manager.py 700, 717; backend_jax.py 485-486 and 498-499: any `out` raises). -/
noncomputable def outBuf (jax : Bool) (out : Option (List ℕ × List ℂ)) (N : ℕ) : Option (List ℂ) :=
  match out with
  | none => some (List.replicate N 0)
  | some o => if jax = true ∨ o.2.length ≠ N then none else some o.2

/-- `math.hermite_renormalized` (math/backend_manager.py 643-727; backend_numpy.py 381-403, backend_jax.py 476-500): shape and flat content of the returned array, `none` if
an exception is raised.  When `out` is given the returned array is a view of it, so its content is that of the result.  Arguments of dimensions no case is written for (for example a batched
`A` with an unbatched `c`) are refused by the compiled strategy. -/
noncomputable def hermite (jax : Bool) (σ : List (ℕ × ℂ) → List (ℕ × ℂ)) (stab : Bool) (A : BArr (ℕ → ℕ → ℂ)) (b : BArr (ℕ → ℂ)) (c : BArr ℂ) (shape : List ℕ)
    (out : Option (List ℕ × List ℂ)) : Option (List ℕ × List ℂ) :=
  if A.batch ≠ [] ∧ b.batch ≠ [] ∧ c.batch ≠ [] then
    if outFits out (A.batch ++ shape) = false then none
    else if b.batch ≠ A.batch then none
    else if c.batch.take A.batch.length ≠ A.batch then none
    else if c.batch.prod ≠ A.batch.prod then none
    else (outBuf jax out (A.batch.prod * shape.prod)).map fun G0 => (A.batch ++ shape, vanillaBatch σ stab shape A.els b.els c.els G0)
  else if A.batch = [] ∧ b.batch ≠ [] then
    if outFits out (b.batch ++ shape) = false then none
    else if ¬(c.batch = [] ∨ c.batch = [1] ∨ c.batch = [b.batch.prod]) then none
    else (outBuf jax out (b.batch.prod * shape.prod)).map fun G0 => (b.batch ++ shape,
      vanillaBatch σ stab shape (List.replicate b.batch.prod (A.els.getD 0 0)) b.els (if c.batch = [b.batch.prod] then c.els else List.replicate b.batch.prod (c.els.getD 0 0)) G0)
  else
    if outFits out shape = false then none
    else if A.batch ≠ [] ∨ b.batch ≠ [] ∨ c.batch ≠ [] then none
    else (outBuf jax out shape.prod).map fun G0 => (shape, if stab then stable shape (A.els.getD 0 0) (b.els.getD 0 0) (c.els.getD 0 0) G0
      else vanilla shape (A.els.getD 0 0) (b.els.getD 0 0) (c.els.getD 0 0) G0)

/-- `vanilla_batch_vjp_numba` (math/lattice/strategies/vanilla/gradients.py 85-116), the backward pass of the batched function (math/jax_vjps/hermite.py 153-169): the slices of the three
gradients at one batch index are kept together.  `sched` is the order in which the iterations of `prange` store their results. -/
noncomputable def batchVjp (sched : List ℕ) (shape : List ℕ) (G : List (List ℂ)) (c : List ℂ) (dLdG : List (List ℂ)) : List ((ℕ → ℕ → ℂ) × (ℕ → ℂ) × ℂ) :=
  sched.foldl (fun acc k => acc.set k (vanillaVjp shape (G.getD k []) (c.getD k 0) (dLdG.getD k []))) (List.replicate G.length (fun _ _ => 0, fun _ => 0, 0))

/-! ## Specification -/

/-- A batched array is well formed if it has one element per batch index. -/
def BArr.WF {α : Type} (a : BArr α) : Prop := a.els.length = a.batch.prod

/-- The element at a batch index. -/
def BArr.at {α : Type} [Zero α] (a : BArr α) (i : List ℕ) : α := a.els.getD (ravel a.batch i) 0

/-- Slice `G[k]` of the flat content of an array with `N` entries per slice. -/
def slice (N : ℕ) (G : List ℂ) (k : ℕ) : List ℂ := (G.drop (k * N)).take N

/-! ## Proofs -/

/-- Writing every position once, in any order. -/
theorem foldl_set {α : Type} (ws : List (ℕ × α)) (G0 : List α) (hn : (ws.map Prod.fst).Nodup) : (ws.foldl (fun G w => G.set w.1 w.2) G0).length = G0.length ∧
    (∀ w ∈ ws, w.1 < G0.length → (ws.foldl (fun G w => G.set w.1 w.2) G0)[w.1]? = some w.2) ∧
    ∀ j, j ∉ ws.map Prod.fst → (ws.foldl (fun G w => G.set w.1 w.2) G0)[j]? = G0[j]? := by
  induction ws generalizing G0 with
  | nil => exact ⟨rfl, fun w hw => absurd hw (by simp), fun _ _ => rfl⟩
  | cons v ws ih =>
    rw [List.map_cons, List.nodup_cons] at hn
    obtain ⟨h1, h2, h3⟩ := ih (G0.set v.1 v.2) hn.2
    rw [List.length_set] at h1 h2
    refine ⟨h1, fun w hw hl => ?_, fun j hj => ?_⟩
    · rcases List.mem_cons.1 hw with rfl | hw
      · rw [List.foldl_cons, h3 _ hn.1, List.getElem?_set_self hl]
      · exact h2 w hw hl
    · rw [List.map_cons, List.mem_cons, not_or] at hj
      rw [List.foldl_cons, h3 j hj.2, List.getElem?_set_ne (Ne.symm hj.1)]

theorem ravel_app : ∀ {s a : List ℕ} (t b : List ℕ), s.length = a.length → ravel (s ++ t) (a ++ b) = ravel s a * t.prod + ravel t b
  | [], [], t, b, _ => by simp [ravel]
  | n :: s, k :: a, t, b, h => by
    simp only [List.cons_append, ravel, List.prod_append]
    rw [ravel_app t b (by simpa using h)]
    ring

theorem flat_inj {N k f k' f' : ℕ} (hf : f < N) (hf' : f' < N) (e : k * N + f = k' * N + f') : k = k' ∧ f = f' := by
  have h1 : (k * N + f) / N = k := by
    rw [add_comm, Nat.add_mul_div_right _ _ (by omega), Nat.div_eq_of_lt hf, zero_add]
  have h2 : (k' * N + f') / N = k' := by
    rw [add_comm, Nat.add_mul_div_right _ _ (by omega), Nat.div_eq_of_lt hf', zero_add]
  have h3 : k = k' := by rw [← h1, ← h2, e]
  subst h3
  exact ⟨rfl, by omega⟩

theorem batchWrites_nodup (stab : Bool) (shape : List ℕ) (A : List (ℕ → ℕ → ℂ)) (b : List (ℕ → ℂ)) (c : List ℂ) : ((batchWrites stab shape A b c).map Prod.fst).Nodup := by
  unfold batchWrites
  rw [List.map_flatMap]
  simp only [List.map_map, Function.comp_def]
  rw [← range_mul]
  exact List.nodup_range

theorem iteration_get {stab : Bool} {shape : List ℕ} {A : ℕ → ℕ → ℂ} (b : ℕ → ℂ) (c : ℂ) (hA : Symm shape.length A) {idx : List ℕ} (h : InB shape idx) :
    (iteration stab shape A b c).getD (ravel shape idx) 0 = amp shape.length A b c (toF idx) := by
  unfold iteration
  cases stab
  · rw [if_neg (by simp), List.getD_eq_getElem?_getD, (C19_vanilla_correct shape A b c _ List.length_replicate hA _ h).2]
    rfl
  · rw [if_pos rfl, List.getD_eq_getElem?_getD, (C20_stable_correct shape A b c _ List.length_replicate hA _ h).2]
    rfl

/-- The loop, in any order. -/
theorem vanillaBatch_get {σ : List (ℕ × ℂ) → List (ℕ × ℂ)} (hσ : ∀ l, (σ l).Perm l) (stab : Bool) (shape : List ℕ) (A : List (ℕ → ℕ → ℂ)) (b : List (ℕ → ℂ)) (c : List ℂ)
    {G0 : List ℂ} (hG : G0.length = b.length * shape.prod) : (vanillaBatch σ stab shape A b c G0).length = b.length * shape.prod ∧
    ∀ k < b.length, ∀ f < shape.prod, (vanillaBatch σ stab shape A b c G0)[k * shape.prod + f]? =
      some ((iteration stab shape (A.getD k 0) (b.getD k 0) (c.getD k 0)).getD f 0) := by
  obtain ⟨h1, h2, _⟩ := foldl_set (σ (batchWrites stab shape A b c)) G0 (((hσ _).map Prod.fst).nodup_iff.2 (batchWrites_nodup stab shape A b c))
  refine ⟨h1.trans hG, fun k hk f hf => ?_⟩
  refine h2 (k * shape.prod + f, _) ((hσ _).mem_iff.2 ?_) ?_
  · exact List.mem_flatMap.2 ⟨k, List.mem_range.2 hk, List.mem_map.2 ⟨f, List.mem_range.2 hf, rfl⟩⟩
  · rw [hG]
    calc k * shape.prod + f < k * shape.prod + shape.prod := by omega
      _ = (k + 1) * shape.prod := by ring
      _ ≤ b.length * shape.prod := Nat.mul_le_mul_right _ hk

/-- The output buffer when a call succeeds. -/
theorem outBuf_len {jax : Bool} {out : Option (List ℕ × List ℂ)} {N : ℕ} {G0 : List ℂ} (h : outBuf jax out N = some G0) : G0.length = N := by
  unfold outBuf at h
  cases out with
  | none =>
    rw [Option.some.injEq] at h
    rw [← h, List.length_replicate]
  | some o =>
    dsimp only at h
    split_ifs at h with h0
    rw [Option.some.injEq] at h
    rw [← h]
    by_contra h1
    exact h0 (Or.inr h1)

/-- **C102 (success)** `math.hermite_renormalized` returns exactly in these cases: `A`, `b` and `c` have the same batch shape (`c` possibly followed by axes of size one); or `A` is not batched
and `b` is, and `c` is a scalar, has one element, or is a vector with as many elements as the batch; or nothing is batched - and in each case `out`, if given, has as many entries as the
result, none of its axes is smaller than the corresponding axis of the result, and the back end is numpy. -/
theorem C102_defined (jax : Bool) (σ : List (ℕ × ℂ) → List (ℕ × ℂ)) (stab : Bool) (A : BArr (ℕ → ℕ → ℂ)) (b : BArr (ℕ → ℂ)) (c : BArr ℂ) (shape : List ℕ)
    (out : Option (List ℕ × List ℂ)) : (hermite jax σ stab A b c shape out).isSome ↔
      ((A.batch ≠ [] ∧ b.batch = A.batch ∧ (∃ e, c.batch = A.batch ++ e ∧ c.batch.prod = A.batch.prod)) ∨
        (A.batch = [] ∧ b.batch ≠ [] ∧ (c.batch = [] ∨ c.batch = [1] ∨ c.batch = [b.batch.prod])) ∨ (A.batch = [] ∧ b.batch = [] ∧ c.batch = [])) ∧
      ∀ o, out = some o → jax = false ∧ o.2.length = b.batch.prod * shape.prod ∧ ∀ p ∈ List.zip o.1 (b.batch ++ shape), p.2 ≤ p.1 := by
  have hfit : ∀ full, outFits out full = false ↔ ∃ o, out = some o ∧ ¬ ∀ p ∈ List.zip o.1 full, p.2 ≤ p.1 := by
    intro full
    unfold outFits
    cases out with
    | none => simp
    | some o => simp
  have hbuf : ∀ N, (outBuf jax out N).isSome ↔ ∀ o, out = some o → jax = false ∧ o.2.length = N := by
    intro N
    unfold outBuf
    cases out with
    | none => simp
    | some o =>
      dsimp only
      split_ifs with h
      · constructor
        · intro h0
          exact absurd h0 (by simp)
        · intro h0
          obtain ⟨h1, h2⟩ := h0 o rfl
          rcases h with h | h
          · rw [h1] at h
            exact absurd h (by simp)
          · exact absurd h2 h
      · rw [not_or, not_not] at h
        refine ⟨fun _ o' ho' => ?_, fun _ => rfl⟩
        rw [← Option.some.inj ho']
        exact ⟨by simpa using h.1, h.2⟩
  have hout : ∀ N full, (∀ o, out = some o → jax = false ∧ o.2.length = N ∧ ∀ p ∈ List.zip o.1 full, p.2 ≤ p.1) ↔
      ¬ outFits out full = false ∧ (outBuf jax out N).isSome := by
    intro N full
    rw [hfit, hbuf]
    constructor
    · intro h
      refine ⟨?_, fun o ho => ⟨(h o ho).1, (h o ho).2.1⟩⟩
      rintro ⟨o, ho, h0⟩
      exact h0 (h o ho).2.2
    · rintro ⟨h1, h2⟩ o ho
      refine ⟨(h2 o ho).1, (h2 o ho).2, ?_⟩
      by_contra h3
      exact h1 ⟨o, ho, h3⟩
  unfold hermite
  split_ifs with h1 h2 h3 h4 h5 h6 h7 h8 hi h9 h10 h11
  · simp only [Option.isSome_none, Bool.false_eq_true, false_iff]
    rintro ⟨h, h'⟩
    rcases h with ⟨_, hb, _⟩ | ⟨h, _⟩ | ⟨h, _⟩
    · rw [hb, hout] at h'
      exact h'.1 h2
    · exact h1.1 h
    · exact h1.1 h
  · simp only [Option.isSome_none, Bool.false_eq_true, false_iff]
    rintro ⟨h, -⟩
    rcases h with ⟨_, hb, _⟩ | ⟨h, _⟩ | ⟨h, _⟩
    · exact h3 hb
    · exact h1.1 h
    · exact h1.1 h
  · simp only [Option.isSome_none, Bool.false_eq_true, false_iff]
    rintro ⟨h, -⟩
    rcases h with ⟨_, hb, e, he, _⟩ | ⟨h, _⟩ | ⟨h, _⟩
    · rw [he, List.take_left] at h4
      exact h4 rfl
    · exact h1.1 h
    · exact h1.1 h
  · simp only [Option.isSome_none, Bool.false_eq_true, false_iff]
    rintro ⟨h, -⟩
    rcases h with ⟨_, hb, e, he, he'⟩ | ⟨h, _⟩ | ⟨h, _⟩
    · exact h5 he'
    · exact h1.1 h
    · exact h1.1 h
  · rw [not_not] at h3 h4 h5
    rw [Option.isSome_map, h3, hout]
    constructor
    · intro h
      refine ⟨Or.inl ⟨h1.1, rfl, c.batch.drop A.batch.length, ?_, h5⟩, h2, h⟩
      conv_lhs => rw [← List.take_append_drop A.batch.length c.batch, h4]
    · exact fun h => h.2.2
  · simp only [Option.isSome_none, Bool.false_eq_true, false_iff]
    rintro ⟨h, h'⟩
    rw [hout] at h'
    exact h'.1 h7
  · rw [Option.isSome_map, hout]
    exact ⟨fun h => ⟨Or.inr (Or.inl ⟨h6.1, h6.2, h8⟩), h7, h⟩, fun h => h.2.2⟩
  · rw [Option.isSome_map, hout]
    exact ⟨fun h => ⟨Or.inr (Or.inl ⟨h6.1, h6.2, h8⟩), h7, h⟩, fun h => h.2.2⟩
  · simp only [Option.isSome_none, Bool.false_eq_true, false_iff]
    rintro ⟨h, -⟩
    rcases h with ⟨h, _⟩ | ⟨_, _, h⟩ | ⟨_, h, _⟩
    · exact h h6.1
    · exact h8 h
    · exact h6.2 h
  · simp only [Option.isSome_none, Bool.false_eq_true, false_iff]
    rintro ⟨h, h'⟩
    rcases h with ⟨h, hb, e, he, _⟩ | ⟨h, hb, _⟩ | ⟨_, hb, _⟩
    · refine h1 ⟨h, hb ▸ h, ?_⟩
      rw [he]
      exact fun h0 => h (List.append_eq_nil_iff.1 h0).1
    · exact h6 ⟨h, hb⟩
    · rw [hb, hout] at h'
      exact h'.1 h9
  · simp only [Option.isSome_none, Bool.false_eq_true, false_iff]
    rintro ⟨h, -⟩
    rcases h with ⟨h, hb, e, he, _⟩ | ⟨h, hb, _⟩ | ⟨ha, hb, hc⟩
    · refine h1 ⟨h, hb ▸ h, ?_⟩
      rw [he]
      exact fun h0 => h (List.append_eq_nil_iff.1 h0).1
    · exact h6 ⟨h, hb⟩
    · rcases h10 with h | h | h
      · exact h ha
      · exact h hb
      · exact h hc
  all_goals
    simp only [not_or, not_not] at h10
    rw [Option.isSome_map, h10.2.1, hout, List.prod_nil, one_mul]
    exact ⟨fun h => ⟨Or.inr (Or.inr ⟨h10.1, rfl, h10.2.2⟩), h9, h⟩, fun h => h.2.2⟩

/-- **C102 (batched)** Whenever the batched function returns - with numpy or jax, the default or the stable strategy, with or without `out`, and whatever the order in which the
threads store their results - the entry of the returned array at batch index `i` and Fock index `k` is the Fock amplitude at `k` of the triple of batch index `i`. -/
theorem C102_batched (jax : Bool) {σ : List (ℕ × ℂ) → List (ℕ × ℂ)} (hσ : ∀ l, (σ l).Perm l) (stab : Bool) (A : BArr (ℕ → ℕ → ℂ)) (b : BArr (ℕ → ℂ)) (c : BArr ℂ)
    (hb : b.WF) (shape : List ℕ) (out : Option (List ℕ × List ℂ)) (hA0 : A.batch ≠ []) (hbatch : b.batch = A.batch) (hcb : c.batch = A.batch)
    (hsym : ∀ i, InB A.batch i → Symm shape.length (A.at i)) (r : List ℕ × List ℂ) (hr : hermite jax σ stab A b c shape out = some r) :
    r.1 = A.batch ++ shape ∧ r.2.length = r.1.prod ∧ ∀ i, InB A.batch i → ∀ k, InB shape k → r.2[ravel r.1 (i ++ k)]? = some (amp shape.length (A.at i) (b.at i) (c.at i) (toF k)) := by
  unfold hermite at hr
  rw [if_pos ⟨hA0, hbatch ▸ hA0, hcb ▸ hA0⟩] at hr
  split_ifs at hr with h1 h2 h3 h4
  obtain ⟨G0, hG0, hr⟩ := Option.map_eq_some_iff.1 hr
  subst hr
  have hlen : b.els.length = A.batch.prod := by rw [hb, hbatch]
  obtain ⟨g1, g2⟩ := vanillaBatch_get hσ stab shape A.els b.els c.els (G0 := G0) (by rw [hlen]; exact outBuf_len hG0)
  refine ⟨rfl, ?_, fun i hi k hk => ?_⟩
  · rw [g1, hlen, List.prod_append]
  · dsimp only
    have hil := (unravel_ravel hi).1
    have hkl := (unravel_ravel hk).1
    have hs := hsym i hi
    unfold BArr.at at hs ⊢
    rw [ravel_app _ _ (List.Forall₂.length_eq hi).symm, g2 _ (by rw [hlen]; exact hil) _ hkl, iteration_get _ _ hs hk, hbatch, hcb]

/-- **C102 (batched b)** If only `b` is batched, every batch index uses the same `A` and `c`. -/
theorem C102_b_batched (jax : Bool) {σ : List (ℕ × ℂ) → List (ℕ × ℂ)} (hσ : ∀ l, (σ l).Perm l) (stab : Bool) (A : BArr (ℕ → ℕ → ℂ)) (b : BArr (ℕ → ℂ)) (c : BArr ℂ)
    (hb : b.WF) (shape : List ℕ) (out : Option (List ℕ × List ℂ)) (hA0 : A.batch = []) (hbatch : b.batch ≠ []) (hcb : c.batch = [])
    (hsym : Symm shape.length (A.at [])) (r : List ℕ × List ℂ) (hr : hermite jax σ stab A b c shape out = some r) :
    r.1 = b.batch ++ shape ∧ r.2.length = r.1.prod ∧ ∀ i, InB b.batch i → ∀ k, InB shape k → r.2[ravel r.1 (i ++ k)]? = some (amp shape.length (A.at []) (b.at i) (c.at []) (toF k)) := by
  unfold hermite at hr
  rw [if_neg (fun h => h.1 hA0), if_pos ⟨hA0, hbatch⟩] at hr
  split_ifs at hr with h1 h2 h3
  · rw [hcb] at h3
    exact absurd h3 (by simp)
  obtain ⟨G0, hG0, hr⟩ := Option.map_eq_some_iff.1 hr
  subst hr
  obtain ⟨g1, g2⟩ := vanillaBatch_get hσ stab shape (List.replicate b.batch.prod (A.els.getD 0 0)) b.els (List.replicate b.batch.prod (c.els.getD 0 0)) (G0 := G0)
    (by rw [hb]; exact outBuf_len hG0)
  have hA1 : A.at [] = A.els.getD 0 0 := by
    unfold BArr.at
    rw [hA0]
    rfl
  have hc1 : c.at [] = c.els.getD 0 0 := by
    unfold BArr.at
    rw [hcb]
    rfl
  refine ⟨rfl, ?_, fun i hi k hk => ?_⟩
  · rw [g1, hb, List.prod_append]
  · dsimp only
    have hil := (unravel_ravel hi).1
    have hkl := (unravel_ravel hk).1
    have e1 : (List.replicate b.batch.prod (A.els.getD 0 0)).getD (ravel b.batch i) 0 = A.at [] := by
      rw [List.getD_eq_getElem?_getD, List.getElem?_replicate, if_pos hil, hA1]
      rfl
    have e2 : (List.replicate b.batch.prod (c.els.getD 0 0)).getD (ravel b.batch i) 0 = c.at [] := by
      rw [List.getD_eq_getElem?_getD, List.getElem?_replicate, if_pos hil, hc1]
      rfl
    rw [ravel_app _ _ (List.Forall₂.length_eq hi).symm, g2 _ (by rw [hb]; exact hil) _ hkl, e1, e2, iteration_get _ _ hsym hk]
    rfl

/-- **C102 (unbatched)** -/
theorem C102_unbatched (jax : Bool) (σ : List (ℕ × ℂ) → List (ℕ × ℂ)) (stab : Bool) (A : BArr (ℕ → ℕ → ℂ)) (b : BArr (ℕ → ℂ)) (c : BArr ℂ)
    (shape : List ℕ) (out : Option (List ℕ × List ℂ)) (hA0 : A.batch = []) (hbatch : b.batch = []) (hcb : c.batch = [])
    (hsym : Symm shape.length (A.at [])) (r : List ℕ × List ℂ) (hr : hermite jax σ stab A b c shape out = some r) :
    r.1 = shape ∧ ∀ k, InB shape k → r.2.length = r.1.prod ∧ r.2[ravel r.1 k]? = some (amp shape.length (A.at []) (b.at []) (c.at []) (toF k)) := by
  unfold hermite at hr
  rw [if_neg (fun h => h.1 hA0), if_neg (fun h => h.2 hbatch)] at hr
  split_ifs at hr with h1 h2
  all_goals
    obtain ⟨G0, hG0, hr⟩ := Option.map_eq_some_iff.1 hr
    subst hr
    unfold BArr.at at hsym ⊢
    rw [hA0] at hsym ⊢
    rw [hbatch, hcb]
    refine ⟨rfl, fun k hk => ?_⟩
  · exact C20_stable_correct shape _ _ _ G0 (outBuf_len hG0) hsym k hk
  · exact C19_vanilla_correct shape _ _ _ G0 (outBuf_len hG0) hsym k hk

/-- The slices of the result of the batched loop. -/
theorem slice_eq {σ : List (ℕ × ℂ) → List (ℕ × ℂ)} (hσ : ∀ l, (σ l).Perm l) (stab : Bool) (shape : List ℕ) (hN : 0 < shape.prod) (A : List (ℕ → ℕ → ℂ)) (b : List (ℕ → ℂ)) (c : List ℂ)
    {G0 : List ℂ} (hG : G0.length = b.length * shape.prod) (hsym : ∀ k < b.length, Symm shape.length (A.getD k 0)) {k : ℕ} (hk : k < b.length) :
    slice shape.prod (vanillaBatch σ stab shape A b c G0) k = vanilla shape (A.getD k 0) (b.getD k 0) (c.getD k 0) (List.replicate shape.prod 0) := by
  obtain ⟨g1, g2⟩ := vanillaBatch_get hσ stab shape A b c hG
  have hit : iteration stab shape (A.getD k 0) (b.getD k 0) (c.getD k 0) = vanilla shape (A.getD k 0) (b.getD k 0) (c.getD k 0) (List.replicate shape.prod 0) := by
    unfold iteration
    cases stab
    · rfl
    · exact stable_eq_vanilla hN List.length_replicate (hsym k hk)
  have hl : (vanilla shape (A.getD k 0) (b.getD k 0) (c.getD k 0) (List.replicate shape.prod 0)).length = shape.prod :=
    (C19_vanilla_correct shape _ _ _ _ List.length_replicate (hsym k hk) _ (grad_ravel_unravel shape 0 hN).1).1
  have hkk : (k + 1) * shape.prod ≤ b.length * shape.prod := Nat.mul_le_mul_right _ hk
  rw [Nat.add_mul, one_mul] at hkk
  apply List.ext_getElem?
  intro f
  unfold slice
  by_cases hf : f < shape.prod
  · rw [List.getElem?_take_of_lt hf, List.getElem?_drop, g2 k hk f hf, hit, List.getD_eq_getElem?_getD, List.getElem?_eq_getElem (by rw [hl]; exact hf)]
    rfl
  · rw [List.getElem?_eq_none (by rw [List.length_take]; omega), List.getElem?_eq_none (by omega)]

theorem batchVjp_get {sched : List ℕ} {shape : List ℕ} {G : List (List ℂ)} {c : List ℂ} {g : List (List ℂ)} (hs : sched.Perm (List.range G.length)) {k : ℕ} (hk : k < G.length) :
    (batchVjp sched shape G c g).getD k 0 = vanillaVjp shape (G.getD k []) (c.getD k 0) (g.getD k []) := by
  have e : batchVjp sched shape G c g = (sched.map fun k => (k, vanillaVjp shape (G.getD k []) (c.getD k 0) (g.getD k []))).foldl (fun G w => G.set w.1 w.2)
      (List.replicate G.length (fun _ _ => 0, fun _ => 0, 0)) := by
    unfold batchVjp
    rw [List.foldl_map]
  have hn : ((sched.map fun k => (k, vanillaVjp shape (G.getD k []) (c.getD k 0) (g.getD k []))).map Prod.fst).Nodup := by
    rw [List.map_map, show (Prod.fst ∘ fun k => (k, vanillaVjp shape (G.getD k []) (c.getD k 0) (g.getD k []))) = id from rfl, List.map_id]
    exact hs.nodup_iff.2 List.nodup_range
  have := (foldl_set _ (List.replicate G.length ((fun _ _ => 0, fun _ => 0, 0) : (ℕ → ℕ → ℂ) × (ℕ → ℂ) × ℂ)) hn).2.1 (k, _)
    (List.mem_map.2 ⟨k, hs.mem_iff.2 (List.mem_range.2 hk), rfl⟩) (by rw [List.length_replicate]; exact hk)
  rw [e, List.getD_eq_getElem?_getD, this]
  rfl

variable {𝕜 : Type*} [NontriviallyNormedField 𝕜] [NormedAlgebra 𝕜 ℂ]

/-- **C102 (gradient)** The backward pass of the batched function: along every differentiable family of batched triples with symmetric `A`, the derivative of `∑ g[i,k] G[i,k]`, where `G` is
the array the batched loop returns, is the sum over the batch of `∑ dL/dA A' + ∑ dL/db b' + dL/dc c'` with the gradients the backward pass returns - for every order in which the threads
of the two loops store their results. -/
theorem C102_vjp {σ : List (ℕ × ℂ) → List (ℕ × ℂ)} (hσ : ∀ l, (σ l).Perm l) (stab : Bool) (n : ℕ) {sched : List ℕ} (hs : sched.Perm (List.range n)) (shape : List ℕ) (hN : 0 < shape.prod)
    (A : 𝕜 → Fin n → ℕ → ℕ → ℂ) (b : 𝕜 → Fin n → ℕ → ℂ) (c : 𝕜 → Fin n → ℂ) (A' : Fin n → ℕ → ℕ → ℂ) (b' : Fin n → ℕ → ℂ) (c' : Fin n → ℂ) (t₀ : 𝕜) (g : Fin n → List ℂ)
    (hg : ∀ i, (g i).length = shape.prod) (hsym : ∀ t i, Symm shape.length (A t i)) (hc0 : ∀ i, c t₀ i ≠ 0)
    (hA : ∀ k, ∀ i < shape.length, ∀ j < shape.length, HasDerivAt (fun t => A t k i j) (A' k i j) t₀)
    (hb : ∀ k, ∀ i < shape.length, HasDerivAt (fun t => b t k i) (b' k i) t₀) (hc : ∀ k, HasDerivAt (fun t => c t k) (c' k) t₀) :
    let G := fun t => vanillaBatch σ stab shape (List.ofFn (A t)) (List.ofFn (b t)) (List.ofFn (c t)) (List.replicate (n * shape.prod) 0)
    let grad := fun i : Fin n => (batchVjp sched shape (List.ofFn fun i : Fin n => slice shape.prod (G t₀) i) (List.ofFn (c t₀)) (List.ofFn g)).getD i 0
    HasDerivAt (fun t => ∑ i : Fin n, pairing shape.prod (g i) (slice shape.prod (G t) i))
      (∑ k : Fin n, (∑ i ∈ Finset.range shape.length, ∑ j ∈ Finset.range shape.length, (grad k).1 i j * A' k i j +
        ∑ i ∈ Finset.range shape.length, (grad k).2.1 i * b' k i + (grad k).2.2 * c' k)) t₀ := by
  intro G grad
  have hget : ∀ {α : Type} [Zero α] (f : Fin n → α) (k : Fin n) (d : α), (List.ofFn f).getD k d = f k := by
    intro α _ f k d
    rw [List.getD_eq_getElem?_getD, List.getElem?_ofFn, dif_pos k.2]
    rfl
  have hget' : ∀ (f : Fin n → List ℂ) (k : Fin n) (d : List ℂ), (List.ofFn f).getD k d = f k := by
    intro f k d
    rw [List.getD_eq_getElem?_getD, List.getElem?_ofFn, dif_pos k.2]
    rfl
  have hsl : ∀ t (k : Fin n), slice shape.prod (G t) k = vanilla shape (A t k) (b t k) (c t k) (List.replicate shape.prod 0) := by
    intro t k
    have := slice_eq hσ stab shape hN (List.ofFn (A t)) (List.ofFn (b t)) (List.ofFn (c t)) (G0 := List.replicate (n * shape.prod) 0) (by simp)
      (fun k hk => by
        rw [List.length_ofFn] at hk
        have := hget (A t) ⟨k, hk⟩ 0
        rw [this]
        exact hsym t _) (k := (k : ℕ)) (by simp)
    rw [hget, hget, hget] at this
    exact this
  have hgrad : ∀ k, grad k = vanillaVjp shape (vanilla shape (A t₀ k) (b t₀ k) (c t₀ k) (List.replicate shape.prod 0)) (c t₀ k) (g k) := by
    intro k
    show (batchVjp _ _ _ _ _).getD (k : ℕ) 0 = _
    rw [batchVjp_get (by rw [List.length_ofFn]; exact hs) (by simp), hget', hget', hget, hsl]
  simp only [hsl, hgrad]
  exact HasDerivAt.fun_sum fun k _ => C61_vanilla_vjp shape hN (fun t => A t k) (fun t => b t k) (fun t => c t k) (A' k) (b' k) (c' k) t₀ (List.replicate shape.prod 0) (g k)
    List.length_replicate (hg k) (fun t => hsym t k) (hc0 k) (hA k) (hb k) (hc k)

/-- A batch of two single-mode triples, cutoff three, assignments performed backwards: the second entry of the second slice is the amplitude at one photon of the second triple. -/
example : ∃ r, hermite false List.reverse false ⟨[2], [fun _ _ => 0, fun _ _ => 1 / 2]⟩ ⟨[2], [fun _ => 1, fun _ => 5]⟩ ⟨[2], [1, 7]⟩ [3] none = some r ∧
    r.1 = [2, 3] ∧ r.2[4]? = some (amp 1 (fun _ _ => 1 / 2) (fun _ => 5) 7 (toF [1])) := by
  have h0 := (C102_defined false List.reverse false ⟨[2], [fun _ _ => 0, fun _ _ => 1 / 2]⟩ ⟨[2], [fun _ => 1, fun _ => 5]⟩ ⟨[2], [1, 7]⟩ [3] none).2
    ⟨Or.inl ⟨by simp, rfl, [], rfl, rfl⟩, fun o ho => absurd ho (by simp)⟩
  obtain ⟨r, hr⟩ := Option.isSome_iff_exists.1 h0
  obtain ⟨h1, _, h3⟩ := C102_batched false (fun l => List.reverse_perm l) false ⟨[2], [fun _ _ => 0, fun _ _ => 1 / 2]⟩ ⟨[2], [fun _ => 1, fun _ => 5]⟩ ⟨[2], [1, 7]⟩ rfl [3] none
    (by simp) rfl rfl (fun i hi => by
      intro a ha b hb
      simp at ha hb
      rw [ha, hb]) r hr
  refine ⟨r, hr, h1, ?_⟩
  have := h3 [1] (List.Forall₂.cons (by norm_num) List.Forall₂.nil) [1] (List.Forall₂.cons (by norm_num) List.Forall₂.nil)
  rw [h1] at this
  exact this

/-- A batched `A` and `b` with a scalar `c` are refused. -/
example (A A' : ℕ → ℕ → ℂ) (b b' : ℕ → ℂ) : hermite false id false ⟨[2], [A, A']⟩ ⟨[2], [b, b']⟩ ⟨[], [1]⟩ [3] none = none := by
  rw [← Option.not_isSome_iff_eq_none, C102_defined]
  simp

/-- A batch of two families of triples. -/
example : ∃ d, HasDerivAt (𝕜 := ℝ) (fun t : ℝ => ∑ i : Fin 2, pairing 3 [1, 2, 3] (slice 3 (vanillaBatch List.reverse true [3] (List.ofFn fun (k : Fin 2) _ _ => (t : ℂ) * (k : ℕ))
    (List.ofFn fun (_ : Fin 2) _ => (t : ℂ)) (List.ofFn fun _ : Fin 2 => 1 + (t : ℂ)) (List.replicate (2 * 3) 0)) i)) d 2 := by
  have ht : HasDerivAt (fun t : ℝ => (t : ℂ)) 1 (2 : ℝ) := (hasDerivAt_id (2 : ℝ)).ofReal_comp
  exact ⟨_, C102_vjp (𝕜 := ℝ) (fun l => List.reverse_perm l) true 2 (sched := [1, 0]) (List.Perm.swap 0 1 []) [3] (by norm_num) (fun t k _ _ => (t : ℂ) * (k : ℕ)) (fun t _ _ => (t : ℂ)) (fun t _ => 1 + (t : ℂ))
    (fun k _ _ => 1 * (k : ℕ)) (fun _ _ => 1) (fun _ => 1) 2 (fun _ => [1, 2, 3]) (fun _ => rfl) (fun t k i _ j _ => rfl) (fun _ => by norm_num)
    (fun k i _ j _ => ht.mul_const _) (fun _ _ _ => ht) (fun _ => ht.const_add 1)⟩

end Verif.Fock
