import Verif.SamplersLaw
import Mathlib.Tactic.FieldSimp
import Mathlib.Tactic.Linarith
import Mathlib.Data.Real.Basic

/-!
# Shape of the samples, order of the rows, and seeds (properties C37 and C50)
-/

namespace Verif.Samplers

open scoped ENNReal

/-- A notion of "this computation can return this value", for any monad. -/
structure Runs (M : Type → Type) [Monad M] where
  can : {α : Type} → M α → α → Prop
  pure : ∀ {α : Type} {a b : α}, can (Pure.pure a : M α) b → b = a
  bind : ∀ {α β : Type} {x : M α} {f : α → M β} {b : β}, can (x >>= f) b → ∃ a, can x a ∧ can (f a) b

/-- Random computations can return the values of positive probability. -/
noncomputable def pmfRuns : Runs PMF where
  can p a := a ∈ p.support
  pure h := by
    erw [PMF.mem_support_pure_iff] at h
    exact h
  bind h := by
    erw [PMF.mem_support_bind_iff] at h
    exact h

/-- Computations that read and write a generator return their result from some state. -/
def stateRuns (G : Type) : Runs (StateM G) where
  can x a := ∃ g g', x g = (a, g')
  pure h := by
    obtain ⟨g, g', h⟩ := h
    exact (congrArg Prod.fst h).symm
  bind h := by
    obtain ⟨g, g', h⟩ := h
    exact ⟨_, ⟨g, _, rfl⟩, ⟨_, g', h⟩⟩

theorem validate_lt {c : ℕ} {tol : ℝ≥0∞} {w : ℕ → ℝ≥0∞} {p : PMF ℕ} (h : validate c tol w = some p) :
    ∀ x ∈ p.support, x < c := by
  unfold validate at h
  split_ifs at h with h'
  intro x hx
  rw [← Option.some.inj h, PMF.mem_support_ofFinset_iff] at hx
  exact Finset.mem_range.mp hx.1

/-- What a result on `k` modes looks like. -/
structure Good (c k n : ℕ) (rows : List Row) : Prop where
  count : rows.length = n
  width : ∀ r ∈ rows, r.length = k
  range : ∀ r ∈ rows, ∀ x ∈ r, x < c

theorem groups_good {M : Type → Type} [Monad M] (R : Runs M) (rec : ℕ → M (Option (List Row)))
    (c k : ℕ) (cnt : ℕ → ℕ) (us : List ℕ) (hus : ∀ x ∈ us, x < c)
    (h : ∀ x ∈ us, ∀ rows, R.can (rec x) (some rows) → Good c k (cnt x) rows)
    (rows : List Row) (hr : R.can (groups rec us) (some rows)) :
    Good c (k + 1) ((us.map cnt).sum) rows
      ∧ rows.map (fun r => r.headD 0) = us.flatMap fun x => List.replicate (cnt x) x := by
  induction us generalizing rows with
  | nil =>
    have := R.pure hr
    cases this
    exact ⟨⟨rfl, by simp, by simp⟩, rfl⟩
  | cons x us ih =>
    obtain ⟨r, h1, h2⟩ := R.bind hr
    cases r with
    | none => exact absurd (R.pure h2) (by simp)
    | some rs =>
      obtain ⟨rest, h3, h4⟩ := R.bind h2
      have h5 := R.pure h4
      cases rest with
      | none => simp at h5
      | some rest =>
        simp only [Option.map_some, Option.some.injEq] at h5
        obtain ⟨⟨g1, g2, g3⟩, g4⟩ := ih (fun y hy => hus y (List.mem_cons_of_mem _ hy))
          (fun y hy => h y (List.mem_cons_of_mem _ hy)) rest h3
        obtain ⟨f1, f2, f3⟩ := h x List.mem_cons_self rs h1
        subst h5
        refine ⟨⟨by simp [f1, g1], ?_, ?_⟩, ?_⟩
        · intro r hr
          rcases List.mem_append.mp hr with hr | hr
          · obtain ⟨t, ht, rfl⟩ := List.mem_map.mp hr
            simp [f2 t ht]
          · exact g2 r hr
        · intro r hr
          rcases List.mem_append.mp hr with hr | hr
          · obtain ⟨t, ht, rfl⟩ := List.mem_map.mp hr
            intro y hy
            rcases List.mem_cons.mp hy with rfl | hy
            · exact hus y List.mem_cons_self
            · exact f3 t ht y hy
          · exact g3 r hr
        · rw [List.map_append, g4, List.flatMap_cons]
          refine congrArg (· ++ _) ?_
          rw [← f1]
          refine List.eq_replicate_iff.mpr ⟨by simp, ?_⟩
          intro b hb
          simp only [List.map_map, List.mem_map, Function.comp_apply, List.headD_cons] at hb
          obtain ⟨_, _, rfl⟩ := hb
          rfl

theorem sum_counts (xs : List ℕ) :
    ((xs.toFinset.sort (· ≤ ·)).map fun x => xs.count x).sum = xs.length := by
  have h1 : (xs.map fun _ => 1).sum = xs.length := by simp
  rw [← h1]
  conv_rhs => rw [Finset.sum_list_map_count, Finset.sum_eq_multiset_sum, ← Finset.sort_eq _ (· ≤ ·),
    Multiset.map_coe, Multiset.sum_coe]
  simp

/-- **C37**: whatever the generator, a successful call returns exactly `n` rows, one column per
mode, and every entry is one of the outcomes `0 … c-1`. -/
theorem C37_shape {M : Type → Type} [Monad M] (R : Runs M)
    (draw : Option ℕ → PMF ℕ → ℕ → M (List ℕ))
    (hdraw : ∀ s p n xs, R.can (draw s p n) xs → xs.length = n ∧ ∀ x ∈ xs, x ∈ p.support)
    (c : ℕ) (tol : ℝ≥0∞) (m : ℕ) (w : Weights) (n : ℕ) (seed : Option ℕ) (rows : List Row)
    (h : R.can (sample draw c tol m w n seed) (some rows)) : Good c (m + 1) n rows := by
  induction m generalizing w n seed rows with
  | zero =>
    rw [sample] at h
    cases hv : validate c tol (fun x => w [x]) with
    | none =>
      rw [hv] at h
      exact absurd (R.pure h) (by simp)
    | some p =>
      rw [hv] at h
      obtain ⟨xs, h1, h2⟩ := R.bind h
      have h3 := Option.some.inj (R.pure h2)
      obtain ⟨d1, d2⟩ := hdraw _ _ _ _ h1
      subst h3
      refine ⟨by simp [d1], by simp, ?_⟩
      intro r hr y hy
      obtain ⟨x, hx, rfl⟩ := List.mem_map.mp hr
      rw [List.mem_singleton] at hy
      subst hy
      exact validate_lt hv y (d2 y hx)
  | succ m ih =>
    rw [sample] at h
    cases hv : validate c tol (marginal w) with
    | none =>
      rw [hv] at h
      exact absurd (R.pure h) (by simp)
    | some p =>
      rw [hv] at h
      obtain ⟨xs, h1, h2⟩ := R.bind h
      obtain ⟨d1, d2⟩ := hdraw _ _ _ _ h1
      have hg := (groups_good R _ c (m + 1) (fun x => xs.count x) _ ?_ ?_ rows h2).1
      · rw [sum_counts, d1] at hg
        exact hg
      · intro x hx
        rw [Finset.mem_sort, List.mem_toFinset] at hx
        exact validate_lt hv x (d2 x hx)
      · intro x _ rs hrs
        exact ih _ _ _ rs hrs

/-- The first column of a multi-mode result: the outcomes drawn for the first mode, sorted. -/
theorem first_column {M : Type → Type} [Monad M] (R : Runs M)
    (draw : Option ℕ → PMF ℕ → ℕ → M (List ℕ))
    (hdraw : ∀ s p n xs, R.can (draw s p n) xs → xs.length = n ∧ ∀ x ∈ xs, x ∈ p.support)
    (c : ℕ) (tol : ℝ≥0∞) (m : ℕ) (p : PMF ℕ) (w : Weights) (xs : List ℕ) (hp : ∀ x ∈ xs, x < c)
    (rows : List Row)
    (h : R.can (groups (fun x => sample draw c tol m (conditional w x (p x)) (xs.count x) none)
            (xs.toFinset.sort (· ≤ ·))) (some rows)) :
    rows.map (fun r => r.headD 0)
      = (xs.toFinset.sort (· ≤ ·)).flatMap fun x => List.replicate (xs.count x) x := by
  refine (groups_good R _ c (m + 1) (fun x => xs.count x) _ ?_ ?_ rows h).2
  · intro x hx
    rw [Finset.mem_sort, List.mem_toFinset] at hx
    exact hp x hx
  · intro x _ rs hrs
    exact C37_shape R draw hdraw c tol m _ _ _ rs hrs

theorem flatMap_replicate_sorted (us : List ℕ) (f : ℕ → ℕ) (h : us.Pairwise (· ≤ ·)) :
    (us.flatMap fun x => List.replicate (f x) x).Pairwise (· ≤ ·) := by
  induction us with
  | nil => simp
  | cons x us ih =>
    rw [List.pairwise_cons] at h
    rw [List.flatMap_cons, List.pairwise_append]
    refine ⟨List.pairwise_replicate.mpr (Or.inr le_rfl), ih h.2, ?_⟩
    intro a ha b hb
    rw [List.mem_replicate] at ha
    rw [List.mem_flatMap] at hb
    obtain ⟨y, hy, hb⟩ := hb
    rw [List.mem_replicate] at hb
    rw [ha.2, hb.2]
    exact h.1 y hy

/-- **C37**, the order of the rows: on two or more modes the rows come sorted by the outcome of the
first mode, so they are not independent draws as a sequence (only as a bag, `C37_joint_law`). -/
theorem C37_rows_sorted {M : Type → Type} [Monad M] (R : Runs M)
    (draw : Option ℕ → PMF ℕ → ℕ → M (List ℕ))
    (hdraw : ∀ s p n xs, R.can (draw s p n) xs → xs.length = n ∧ ∀ x ∈ xs, x ∈ p.support)
    (c : ℕ) (tol : ℝ≥0∞) (m : ℕ) (w : Weights) (n : ℕ) (seed : Option ℕ) (rows : List Row)
    (h : R.can (sample draw c tol (m + 1) w n seed) (some rows)) :
    (rows.map fun r => r.headD 0).Pairwise (· ≤ ·) := by
  rw [sample] at h
  cases hv : validate c tol (marginal w) with
  | none =>
    rw [hv] at h
    exact absurd (R.pure h) (by simp)
  | some p =>
    rw [hv] at h
    obtain ⟨xs, h1, h2⟩ := R.bind h
    obtain ⟨d1, d2⟩ := hdraw _ _ _ _ h1
    rw [first_column R draw hdraw c tol m p w xs (fun x hx => validate_lt hv x (d2 x hx)) rows h2]
    exact flatMap_replicate_sorted _ _ (Finset.pairwise_sort _ _)

theorem ideal_ok (s : Option ℕ) (p : PMF ℕ) (n : ℕ) (xs : List ℕ)
    (h : pmfRuns.can (ideal s p n) xs) : xs.length = n ∧ ∀ x ∈ xs, x ∈ p.support := mem_iid p n xs h

/-- **C37** for the ideal generator: every possible result has `n` rows and `m + 1` columns. -/
theorem C37_shape_ideal (c : ℕ) (tol : ℝ≥0∞) (m : ℕ) (w : Weights) (n : ℕ) (seed : Option ℕ)
    (rows : List Row) (h : some rows ∈ (sample ideal c tol m w n seed).support) :
    rows.length = n ∧ ∀ r ∈ rows, r.length = m + 1 ∧ ∀ x ∈ r, x < c := by
  obtain ⟨h1, h2, h3⟩ := C37_shape pmfRuns ideal ideal_ok c tol m w n seed rows h
  exact ⟨h1, fun r hr => ⟨h2 r hr, h3 r hr⟩⟩

/-- **C37**, rejection: when the first mode has more than the tolerance outside the cutoff, every
call raises. -/
theorem C37_rejects {M : Type → Type} [Monad M] (draw : Option ℕ → PMF ℕ → ℕ → M (List ℕ))
    (c : ℕ) (tol : ℝ≥0∞) (m : ℕ) (w : Weights) (n : ℕ) (seed : Option ℕ)
    (h : (∑ x ∈ Finset.range c, marginal w x) + tol < 1) :
    sample draw c tol (m + 1) w n seed = pure none := by
  have : validate c tol (marginal w) = none := by
    unfold validate
    rw [dif_neg]
    intro h'
    exact absurd h'.1.1 (not_le.mpr h)
  rw [sample, this]

/-- samplers.py 164-182 `_validate_probs` on real numbers: absolute values are taken, the sum is
compared with one (`np.allclose`: `|s - 1| ≤ atol + rtol`), and the list is divided by the sum;
`atol or settings.ATOL` replaces a zero tolerance. -/
noncomputable def validateProbs (atol rtol dflt : ℝ) (ps : List ℝ) : Option (List ℝ) :=
  open scoped Classical in
  if |(ps.map abs).sum - 1| ≤ (if atol = 0 then dflt else atol) + rtol then
    some ((ps.map abs).map (· / (ps.map abs).sum))
  else none

/-- **C37**, validation: an accepted list of probabilities comes back with the same length,
non-negative, summing exactly to one, and each entry within the relative tolerance of the given
one. -/
theorem C37_validated (atol rtol dflt : ℝ) (ps qs : List ℝ)
    (htol : (if atol = 0 then dflt else atol) + rtol < 1)
    (h : validateProbs atol rtol dflt ps = some qs) :
    qs.length = ps.length ∧ (∀ q ∈ qs, 0 ≤ q) ∧ qs.sum = 1
      ∧ ∀ (i : ℕ) (p q : ℝ), ps[i]? = some p → qs[i]? = some q →
          |q - abs p| ≤ ((if atol = 0 then dflt else atol) + rtol) * q := by
  unfold validateProbs at h
  generalize (if atol = 0 then dflt else atol) + rtol = t at h htol ⊢
  split_ifs at h with h1
  · obtain rfl := Option.some.inj h
    have hs : 0 < (ps.map abs).sum := by
      have := (abs_le.mp h1).1
      linarith
    refine ⟨by simp, ?_, ?_, ?_⟩
    · intro q hq
      obtain ⟨a, ha, rfl⟩ := List.mem_map.mp hq
      obtain ⟨b, _, rfl⟩ := List.mem_map.mp ha
      exact div_nonneg (abs_nonneg b) hs.le
    · have : ∀ (l : List ℝ) (t : ℝ), (l.map (· / t)).sum = l.sum / t := by
        intro l t
        induction l with
        | nil => simp
        | cons a l ih => simp [ih, add_div]
      rw [this]
      exact div_self hs.ne'
    · intro i p q hp hq
      simp only [List.getElem?_map, hp, Option.map_some, Option.some.injEq] at hq
      subst hq
      have e : |p| / (ps.map abs).sum - |p| = (1 - (ps.map abs).sum) * (|p| / (ps.map abs).sum) := by
        field_simp
      rw [e, abs_mul, abs_of_nonneg (div_nonneg (abs_nonneg p) hs.le)]
      refine mul_le_mul_of_nonneg_right ?_ (div_nonneg (abs_nonneg p) hs.le)
      rw [abs_sub_comm]
      exact h1

/-- A list that is accepted although it does not sum to one. -/
example : validateProbs (1 / 10) 0 1 [1 / 2, -9 / 16] = some [8 / 17, 9 / 17] := by
  unfold validateProbs
  norm_num [abs_of_neg, abs_of_pos]

/-! ## Seeds -/

/-- A generator with state: `seeded` builds a fresh generator for a seed and leaves the global one
alone; without a seed the global one is used and advanced (samplers.py 132-140). -/
def seeded {G : Type} (mk : ℕ → G) (choice : G → PMF ℕ → ℕ → List ℕ × G) :
    Option ℕ → PMF ℕ → ℕ → StateM G (List ℕ)
  | some s, p, n => fun g => ((choice (mk s) p n).1, g)
  | none, p, n => fun g => choice g p n

/-- A generator returns `n` possible outcomes. -/
def Sound {G : Type} (choice : G → PMF ℕ → ℕ → List ℕ × G) : Prop :=
  ∀ g p n, (choice g p n).1.length = n ∧ ∀ x ∈ (choice g p n).1, x ∈ p.support

theorem seeded_ok {G : Type} (mk : ℕ → G) (choice : G → PMF ℕ → ℕ → List ℕ × G) (hc : Sound choice)
    (s : Option ℕ) (p : PMF ℕ) (n : ℕ) (xs : List ℕ)
    (h : (stateRuns G).can (seeded mk choice s p n) xs) :
    xs.length = n ∧ ∀ x ∈ xs, x ∈ p.support := by
  obtain ⟨g, g', h⟩ := h
  cases s with
  | some s =>
    have : (choice (mk s) p n).1 = xs := congrArg Prod.fst h
    rw [← this]
    exact hc _ _ _
  | none =>
    have : (choice g p n).1 = xs := congrArg Prod.fst h
    rw [← this]
    exact hc _ _ _

/-- **C50**: on one mode a non-zero seed makes the result independent of the global generator, and
leaves that generator as it was. -/
theorem C50_one_mode {G : Type} (mk : ℕ → G) (choice : G → PMF ℕ → ℕ → List ℕ × G) (c : ℕ)
    (tol : ℝ≥0∞) (w : Weights) (n s : ℕ) (hs : s ≠ 0) :
    ∃ res, ∀ g, sample (seeded mk choice) c tol 0 w n (some s) g = (res, g) := by
  have he : effSeed (some s) = some s := by
    cases s with
    | zero => exact absurd rfl hs
    | succ s => rfl
  rw [sample]
  cases hv : validate c tol (fun x => w [x]) with
  | none => exact ⟨none, fun g => rfl⟩
  | some p =>
    simp only [he]
    exact ⟨some ((choice (mk s) p n).1.map fun x => [x]), fun g => rfl⟩

/-- **C50**, what a seed fixes on several modes: the column of the first mode. -/
theorem C50_first_column {G : Type} (mk : ℕ → G) (choice : G → PMF ℕ → ℕ → List ℕ × G)
    (hc : Sound choice) (c : ℕ) (tol : ℝ≥0∞) (m : ℕ) (w : Weights) (n s : ℕ) (hs : s ≠ 0)
    (g g' : G) (rows rows' : List Row)
    (h : (sample (seeded mk choice) c tol (m + 1) w n (some s) g).1 = some rows)
    (h' : (sample (seeded mk choice) c tol (m + 1) w n (some s) g').1 = some rows') :
    rows.map (fun r => r.headD 0) = rows'.map (fun r => r.headD 0) := by
  have he : effSeed (some s) = some s := by
    cases s with
    | zero => exact absurd rfl hs
    | succ s => rfl
  rw [sample] at h h'
  cases hv : validate c tol (marginal w) with
  | none =>
    rw [hv] at h
    cases h
  | some p =>
    rw [hv] at h h'
    simp only [he] at h h'
    have hx : ∀ x ∈ (choice (mk s) p n).1, x < c :=
      fun x hx => validate_lt hv x ((hc _ _ _).2 x hx)
    rw [first_column (stateRuns G) (seeded mk choice) (seeded_ok mk choice hc) c tol m p w
        (choice (mk s) p n).1 hx rows ⟨g, _, Prod.ext h rfl⟩,
      first_column (stateRuns G) (seeded mk choice) (seeded_ok mk choice hc) c tol m p w
        (choice (mk s) p n).1 hx rows' ⟨g', _, Prod.ext h' rfl⟩]

/-- **C50**, disagreement: seed zero is not a seed, it selects the global generator. -/
theorem C50_seed_zero_ignored {M : Type → Type} [Monad M]
    (draw : Option ℕ → PMF ℕ → ℕ → M (List ℕ)) (c : ℕ) (tol : ℝ≥0∞) (m : ℕ) (w : Weights) (n : ℕ) :
    sample draw c tol m w n (some 0) = sample draw c tol m w n none := by
  cases m <;> rfl

/-! ## Examples -/

/-- A fair coin. -/
noncomputable def coin : PMF ℕ :=
  PMF.ofFinset (fun x => if x < 2 then 2⁻¹ else 0) (Finset.range 2)
    (by simp [Finset.sum_range_succ, ENNReal.inv_two_add_inv_two])
    (fun x hx => by
      rw [Finset.mem_range] at hx
      rw [if_neg hx])

theorem coin_apply (x : ℕ) : coin x = if x < 2 then 2⁻¹ else 0 := rfl

/-- Two modes: the first is empty, the second holds zero or one photon with equal probability. -/
noncomputable def twoModes : PMF Row := coin.map fun x => [0, x]

theorem twoModes_inside : Inside twoModes 2 2 := by
  intro r hr
  rw [twoModes, PMF.mem_support_map_iff] at hr
  obtain ⟨x, hx, rfl⟩ := hr
  refine ⟨rfl, ?_⟩
  have : x < 2 := by
    by_contra h
    exact (PMF.mem_support_iff _ _).mp hx (by rw [coin_apply, if_neg h])
  intro y hy
  simp only [List.mem_cons, List.not_mem_nil, or_false] at hy
  omega

theorem twoModes_first : first twoModes = PMF.pure 0 := by
  rw [first, twoModes, PMF.map_comp]
  exact PMF.map_const coin 0

theorem twoModes_apply (x : ℕ) : twoModes [0, x] = coin x := by
  rw [twoModes, map_apply', tsum_eq_single x]
  · simp
  · intro y hy
    rw [if_neg]
    simpa using Ne.symm hy

/-- A generator that returns its state whenever that is a possible outcome. -/
noncomputable def echo : ℕ → PMF ℕ → ℕ → List ℕ × ℕ := fun g p n =>
  open scoped Classical in
  (List.replicate n (if g ∈ p.support then g else p.support_nonempty.some), g + 1)

theorem echo_sound : Sound echo := by
  intro g p n
  refine ⟨by simp [echo], ?_⟩
  intro x hx
  simp only [echo, List.mem_replicate] at hx
  rw [hx.2]
  split_ifs with h
  · exact h
  · exact p.support_nonempty.some_mem

theorem seeded_example (g : ℕ) (hg : g < 2) :
    (sample (seeded id echo) 2 0 1 twoModes 1 (some 7) g).1 = some [[0, g]] := by
  have hne : ∀ r ∈ twoModes.support, r ≠ [] := by
    intro r hr h0
    have := (twoModes_inside r hr).1
    rw [h0] at this
    simp at this
  have hv : validate 2 0 (marginal twoModes) = some (first twoModes) :=
    validate_of_inside 2 0 (first twoModes) _ (fun x => (first_apply twoModes hne x).symm)
      (first_support twoModes_inside)
  have hv2 : validate 2 0 (fun x => conditional twoModes 0 (first twoModes 0) [x]) = some coin := by
    refine validate_of_inside 2 0 coin _ (fun x => ?_) (fun x hx => ?_)
    · rw [conditional, twoModes_apply, twoModes_first, PMF.pure_apply_self, div_one]
    · by_contra h
      exact (PMF.mem_support_iff _ _).mp hx (by rw [coin_apply, if_neg h])
  have hdraw : (echo 7 (first twoModes) 1).1 = [0] := by
    have h0 : (first twoModes).support_nonempty.some = 0 := by
      have h1 : ∀ y ∈ (first twoModes).support, y = 0 := by
        rw [twoModes_first, PMF.support_pure]
        simp
      exact h1 _ (first twoModes).support_nonempty.some_mem
    have h7 : ¬ (7 ∈ (first twoModes).support) := by
      rw [twoModes_first, PMF.support_pure]
      simp
    simp only [echo, if_neg h7, h0]
    rfl
  have hin : (echo g coin 1).1 = [g] := by
    have : g ∈ coin.support := by
      rw [PMF.mem_support_iff, coin_apply, if_pos hg]
      simp
    simp only [echo, if_pos this]
    rfl
  rw [sample, hv]
  change (groups (fun x => sample (seeded id echo) 2 0 0 (conditional twoModes x (first twoModes x))
    (((echo 7 (first twoModes) 1).1).count x) none)
    ((echo 7 (first twoModes) 1).1.toFinset.sort (· ≤ ·)) g).1 = _
  rw [hdraw]
  have hs : ([0] : List ℕ).toFinset.sort (· ≤ ·) = [0] := by simp
  rw [hs]
  simp only [groups]
  rw [sample, hv2]
  change some ((((echo g coin 1).1).map fun x => [x]).map (fun x => 0 :: x) ++ []) = _
  rw [hin]
  rfl

/-- **C50**, disagreement: on two modes the same seed gives different samples when the global
generator is in different states, because the recursive calls are not seeded. -/
theorem C50_disagreement_two_modes :
    Sound echo ∧
    (sample (seeded id echo) 2 0 1 twoModes 1 (some 7) 0).1
      ≠ (sample (seeded id echo) 2 0 1 twoModes 1 (some 7) 1).1 := by
  refine ⟨echo_sound, ?_⟩
  rw [seeded_example 0 (by omega), seeded_example 1 (by omega)]
  simp

/-- The law theorem applies to the two-mode example. -/
example (n : ℕ) : (sample ideal 2 0 1 twoModes n none).map (Option.map bag)
    = (iid twoModes n).map (fun l => some (bag l)) := C37_joint_law 2 0 1 twoModes twoModes_inside n none

/-- Two independent fair modes. -/
noncomputable def fairPair : PMF Row := coin.bind fun x => coin.map fun y => [x, y]

theorem fairPair_inside : Inside fairPair 2 2 := by
  have hc : ∀ x ∈ coin.support, x < 2 := by
    intro x hx
    by_contra h
    exact (PMF.mem_support_iff _ _).mp hx (by rw [coin_apply, if_neg h])
  intro r hr
  rw [fairPair, PMF.mem_support_bind_iff] at hr
  obtain ⟨x, hx, hr⟩ := hr
  rw [PMF.mem_support_map_iff] at hr
  obtain ⟨y, hy, rfl⟩ := hr
  refine ⟨rfl, ?_⟩
  intro z hz
  simp only [List.mem_cons, List.not_mem_nil, or_false] at hz
  rcases hz with rfl | rfl
  · exact hc _ hx
  · exact hc _ hy

/-- **C37**, disagreement: as a sequence the rows are not independent draws; two independent draws of
a pair of fair bits are `[1,0]` then `[0,0]` with positive probability, the sampler never returns
that. -/
theorem C37_disagreement_sequence :
    [[1, 0], [0, 0]] ∈ (iid fairPair 2).support
      ∧ some [[1, 0], [0, 0]] ∉ (sample ideal 2 0 1 fairPair 2 none).support := by
  constructor
  · have hc : ∀ x, x < 2 → x ∈ coin.support := by
      intro x hx
      rw [PMF.mem_support_iff, coin_apply, if_pos hx]
      simp
    have hp : ∀ x y, x < 2 → y < 2 → [x, y] ∈ fairPair.support := by
      intro x y hx hy
      rw [fairPair, PMF.mem_support_bind_iff]
      exact ⟨x, hc x hx, (PMF.mem_support_map_iff _ _ _).mpr ⟨y, hc y hy, rfl⟩⟩
    rw [iid, PMF.mem_support_bind_iff]
    refine ⟨[1, 0], hp 1 0 (by omega) (by omega), (PMF.mem_support_map_iff _ _ _).mpr ⟨[[0, 0]], ?_, rfl⟩⟩
    rw [iid, PMF.mem_support_bind_iff]
    refine ⟨[0, 0], hp 0 0 (by omega) (by omega), (PMF.mem_support_map_iff _ _ _).mpr ⟨[], ?_, rfl⟩⟩
    rw [iid, PMF.mem_support_pure_iff]
  · intro h
    have := C37_rows_sorted pmfRuns ideal ideal_ok 2 0 0 fairPair 2 none _ h
    simp at this

end Verif.Samplers
