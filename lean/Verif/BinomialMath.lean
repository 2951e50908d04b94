import Verif.Binomial

/-!
# `math.hermite_renormalized_binomial` (C109)
-/

namespace Verif.Fock

/-- `BackendNumpy.hermite_renormalized_binomial` (mrmustard/math/backend_numpy.py 405-421); `prob` is the setting `AUTOSHAPE_PROBABILITY`.  An argument that is `None` or 0 counts as
not given. -/
noncomputable def binomialNumpy (prob : ℝ) (shape : List ℕ) (A : ℕ → ℕ → ℂ) (b : ℕ → ℂ) (c : ℂ) (maxL2 : Option ℝ) (globalCutoff : Option ℕ)
    (sched : ℕ → List (List ℕ)) : List ℕ → ℂ :=
  open Classical in
  let l2 := match maxL2 with
    | some m => if m = 0 then prob else m
    | none => prob
  let g := match globalCutoff with
    | some (n + 1) => n + 1
    | _ => shape.sum - shape.length + 1
  (binomial shape A b c (some l2) g sched).1

/-- `BackendJax.hermite_renormalized_binomial` (mrmustard/math/backend_jax.py 502-511, mrmustard/math/jax_vjps/hermite.py 185-211): the arguments are passed on as they are; `range(1, None)` is
a `TypeError` (`none`). -/
noncomputable def binomialJax (shape : List ℕ) (A : ℕ → ℕ → ℂ) (b : ℕ → ℂ) (c : ℂ) (maxL2 : Option ℝ) (globalCutoff : Option ℕ)
    (sched : ℕ → List (List ℕ)) : Option (List ℕ → ℂ) :=
  globalCutoff.map fun g => (binomial shape A b c maxL2 g sched).1

/-! ## Specification -/

/-- What the documentation says: all amplitudes of total photon number below `W` are filled, the others are zero, and `W` is the first weight at which the squared norm exceeds `m`, or
`G` if it does not before. -/
structure UpTo (shape : List ℕ) (A : ℕ → ℕ → ℂ) (b : ℕ → ℂ) (c : ℂ) (m : Option ℝ) (G W : ℕ) (T : List ℕ → ℂ) : Prop where
  filled : ∀ idx, InB shape idx → T idx = if idx.sum < W then amp shape.length A b c idx.toFinsupp else 0
  pos : 1 ≤ W
  le : W ≤ G
  first : ∀ v, 1 < v → v < W → ∀ x, m = some x → probBelow shape A b c v ≤ x
  stop : W = G ∨ (1 < W ∧ ∃ x, m = some x ∧ probBelow shape A b c W > x)

/-! ## Proofs -/

theorem sum_le_of_inB {shape idx : List ℕ} (h : InB shape idx) : idx.sum + shape.length ≤ shape.sum := by
  unfold InB at h
  induction h with
  | nil => simp
  | cons h _ ih =>
    simp only [List.sum_cons, List.length_cons]
    omega

theorem binomial_upTo (shape : List ℕ) (hp : ∀ n ∈ shape, 0 < n) (A : ℕ → ℕ → ℂ) (b : ℕ → ℂ) (c : ℂ) (hA : Symm shape.length A) (m : Option ℝ) (G : ℕ) (hG : 0 < G)
    (sched : ℕ → List (List ℕ)) (hs : ∀ w, (sched w).Perm (binomialSubspaceBasis shape w)) : ∃ W, UpTo shape A b c m G W (binomial shape A b c m G sched).1 := by
  obtain ⟨W, h1, h2, h3, -, h5, h6⟩ := C22_binomial shape hp A b c hA m G hG sched hs
  exact ⟨W, h3, h1, h2, h5, h6⟩

/-- **C109** numpy: the tensor is filled up to the given norm or global cutoff, whichever applies first.  The default norm is the setting, the default global cutoff the one that reaches the last
corner. -/
theorem C109_numpy (prob : ℝ) (shape : List ℕ) (hp : ∀ n ∈ shape, 0 < n) (A : ℕ → ℕ → ℂ) (b : ℕ → ℂ) (c : ℂ) (hA : Symm shape.length A)
    (sched : ℕ → List (List ℕ)) (hs : ∀ w, (sched w).Perm (binomialSubspaceBasis shape w)) :
    (∀ m g, m ≠ 0 → 0 < g → ∃ W, UpTo shape A b c (some m) g W (binomialNumpy prob shape A b c (some m) (some g) sched)) ∧
    (∀ g, 0 < g → ∃ W, UpTo shape A b c (some prob) g W (binomialNumpy prob shape A b c none (some g) sched)) ∧
    (∀ m, m ≠ 0 → ∃ W, UpTo shape A b c (some m) (shape.sum - shape.length + 1) W (binomialNumpy prob shape A b c (some m) none sched)) ∧
    ∃ W, UpTo shape A b c (some prob) (shape.sum - shape.length + 1) W (binomialNumpy prob shape A b c none none sched) := by
  have key : ∀ m G, 0 < G → ∃ W, UpTo shape A b c m G W (binomial shape A b c m G sched).1 := fun m G hG => binomial_upTo shape hp A b c hA m G hG sched hs
  refine ⟨fun m g hm hg => ?_, fun g hg => ?_, fun m hm => ?_, ?_⟩
  · obtain ⟨n, rfl⟩ := Nat.exists_eq_succ_of_ne_zero hg.ne'
    unfold binomialNumpy
    dsimp only
    rw [if_neg hm]
    exact key _ _ hg
  · obtain ⟨n, rfl⟩ := Nat.exists_eq_succ_of_ne_zero hg.ne'
    exact key _ _ hg
  · unfold binomialNumpy
    dsimp only
    rw [if_neg hm]
    exact key _ _ (Nat.succ_pos _)
  · exact key _ _ (Nat.succ_pos _)

/-- **C109** If the tensor of the given shape does not exceed the norm, it is returned completely: every entry is the amplitude. -/
theorem C109_complete (prob : ℝ) (shape : List ℕ) (hp : ∀ n ∈ shape, 0 < n) (A : ℕ → ℕ → ℂ) (b : ℕ → ℂ) (c : ℂ) (hA : Symm shape.length A)
    (sched : ℕ → List (List ℕ)) (hs : ∀ w, (sched w).Perm (binomialSubspaceBasis shape w)) (m : ℝ) (hm : m ≠ 0)
    (hle : ((ndindex shape).map fun t => ‖amp shape.length A b c t.toFinsupp‖ ^ 2).sum ≤ m) (idx : List ℕ) (hidx : InB shape idx) :
    binomialNumpy prob shape A b c (some m) none sched idx = amp shape.length A b c idx.toFinsupp := by
  obtain ⟨W, h⟩ := (C109_numpy prob shape hp A b c hA sched hs).2.2.1 m hm
  have hW : W = shape.sum - shape.length + 1 := by
    rcases h.stop with h | ⟨-, x, hx, hgt⟩
    · exact h
    · injection hx with hx
      subst hx
      exfalso
      have : probBelow shape A b c W ≤ ((ndindex shape).map fun t => ‖amp shape.length A b c t.toFinsupp‖ ^ 2).sum := by
        unfold probBelow
        refine List.Sublist.sum_le_sum ((List.filter_sublist (l := ndindex shape)).map _) ?_
        intro x hx
        obtain ⟨t, -, rfl⟩ := List.mem_map.1 hx
        exact sq_nonneg _
      linarith
  rw [h.filled idx hidx, if_pos]
  have := sum_le_of_inB hidx
  omega

/-- **C109** (Disagreement.) A requested norm or cutoff of 0 counts as not given. -/
theorem C109_zero (prob : ℝ) (shape : List ℕ) (A : ℕ → ℕ → ℂ) (b : ℕ → ℂ) (c : ℂ) (sched : ℕ → List (List ℕ)) (m : Option ℝ) (g : Option ℕ) :
    binomialNumpy prob shape A b c (some 0) g sched = binomialNumpy prob shape A b c none g sched ∧
      binomialNumpy prob shape A b c m (some 0) sched = binomialNumpy prob shape A b c m none sched := by
  refine ⟨?_, rfl⟩
  unfold binomialNumpy
  simp

/-- **C109** (Disagreement.) The jax backend: without a global cutoff it raises, and without a norm it never stops early; with both given (not 0) the two backends return the same tensor, whatever
the order of the parallel loops. -/
theorem C109_jax (prob : ℝ) (shape : List ℕ) (hp : ∀ n ∈ shape, 0 < n) (A : ℕ → ℕ → ℂ) (b : ℕ → ℂ) (c : ℂ) (hA : Symm shape.length A)
    (sched sched' : ℕ → List (List ℕ)) (hs : ∀ w, (sched w).Perm (binomialSubspaceBasis shape w)) (hs' : ∀ w, (sched' w).Perm (binomialSubspaceBasis shape w)) :
    (∀ m, binomialJax shape A b c m none sched = none) ∧
    (∀ g, 0 < g → ∃ T, binomialJax shape A b c none (some g) sched = some T ∧
      ∀ idx, InB shape idx → T idx = if idx.sum < g then amp shape.length A b c idx.toFinsupp else 0) ∧
    ∀ m g, m ≠ 0 → 0 < g → ∃ T, binomialJax shape A b c (some m) (some g) sched = some T ∧
      ∀ idx, InB shape idx → T idx = binomialNumpy prob shape A b c (some m) (some g) sched' idx := by
  refine ⟨fun _ => rfl, fun g hg => ⟨_, rfl, fun idx hidx => ?_⟩, fun m g hm hg => ⟨_, rfl, fun idx hidx => ?_⟩⟩
  · obtain ⟨W, h⟩ := binomial_upTo shape hp A b c hA none g hg sched hs
    rcases h.stop with e | ⟨-, x, hx, -⟩
    · dsimp only
      rw [h.filled idx hidx, e]
    · cases hx
  · obtain ⟨W, h⟩ := binomial_upTo shape hp A b c hA (some m) g hg sched hs
    obtain ⟨W', h'⟩ := (C109_numpy prob shape hp A b c hA sched' hs').1 m g hm hg
    have hWW : W = W' := by
      have one : ∀ {V V' : ℕ} {T T' : List ℕ → ℂ}, UpTo shape A b c (some m) g V T → UpTo shape A b c (some m) g V' T' → ¬ V < V' := by
        intro V V' T T' k k' hlt
        rcases k.stop with e | ⟨h1, x, hx, hgt⟩
        · have := k'.le
          omega
        · have := k'.first V h1 hlt x hx
          linarith
      have h1 := one h h'
      have h2 := one h' h
      omega
    dsimp only
    rw [h.filled idx hidx, h'.filled idx hidx, hWW]

/-- The hypotheses are met: a two-mode squeezed state with cutoffs 3 and 2, up to total photon number 2. -/
example (sched : ℕ → List (List ℕ)) (hs : ∀ w, (sched w).Perm (binomialSubspaceBasis [3, 2] w)) (prob : ℝ) :
    ∃ W, UpTo [3, 2] (fun i j => if i = j then 0 else 1 / 2) (fun _ => 0) (1 / 2) (some 1) 3 W
      (binomialNumpy prob [3, 2] (fun i j => if i = j then 0 else 1 / 2) (fun _ => 0) (1 / 2) (some 1) (some 3) sched) :=
  (C109_numpy prob [3, 2] (by decide) _ _ _ (by intro i j _ _; simp [eq_comm]) sched hs).1 1 3 one_ne_zero (by norm_num)

end Verif.Fock
