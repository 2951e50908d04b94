import Verif.Samplers
import Mathlib.Topology.Algebra.InfiniteSum.ENNReal

/-!
# The distribution of the samples (property C37)
-/

namespace Verif.Samplers

open scoped ENNReal

/-- A normalised photon-number distribution on `k` modes inside the cutoff. -/
def Inside (P : PMF Row) (k c : ℕ) : Prop := ∀ r ∈ P.support, r.length = k ∧ ∀ x ∈ r, x < c

theorem bind_congr_support {α β : Type} (p : PMF α) (f g : α → PMF β)
    (h : ∀ a ∈ p.support, f a = g a) : p.bind f = p.bind g := by
  ext b
  rw [PMF.bind_apply, PMF.bind_apply]
  refine tsum_congr fun a => ?_
  by_cases ha : p a = 0
  · rw [ha, zero_mul, zero_mul]
  · rw [h a ((PMF.mem_support_iff p a).mpr ha)]

theorem validate_of_inside (c : ℕ) (tol : ℝ≥0∞) (q : PMF ℕ) (w : ℕ → ℝ≥0∞)
    (hw : ∀ x, w x = q x) (hq : ∀ x ∈ q.support, x < c) : validate c tol w = some q := by
  have hs : ∑ x ∈ Finset.range c, w x = 1 := by
    rw [Finset.sum_congr rfl (fun x _ => hw x), ← PMF.tsum_coe q]
    refine (tsum_eq_sum fun x hx => ?_).symm
    by_contra h0
    exact hx (Finset.mem_range.mpr (hq x ((PMF.mem_support_iff q x).mpr h0)))
  unfold validate
  rw [dif_pos]
  · refine congrArg some (PMF.ext fun x => ?_)
    rw [PMF.ofFinset_apply, hs, hw, div_one]
    split_ifs with h
    · rfl
    · by_contra h0
      exact h (Finset.mem_range.mpr (hq x ((PMF.mem_support_iff q x).mpr (Ne.symm h0))))
  · rw [hs]
    exact ⟨⟨le_self_add, le_self_add⟩, one_ne_zero, ENNReal.one_ne_top⟩

theorem map_apply' {α β : Type} [DecidableEq β] (f : α → β) (p : PMF α) (b : β) :
    (p.map f) b = ∑' a, if b = f a then p a else 0 := by
  rw [PMF.map_apply]
  refine tsum_congr fun a => ?_
  split_ifs <;> rfl

/-- The law of the first entry. -/
noncomputable def first (P : PMF Row) : PMF ℕ := P.map fun r => r.headD 0

theorem first_apply (P : PMF Row) (hne : ∀ r ∈ P.support, r ≠ []) (x : ℕ) :
    first P x = ∑' r : Row, P (x :: r) := by
  rw [first, map_apply']
  have hinj : Function.Injective (fun r : Row => x :: r) := fun a b h => (List.cons.inj h).2
  refine (hinj.tsum_eq (f := fun a : List ℕ => if x = a.headD 0 then P a else 0) ?_).symm.trans ?_
  · intro r hr
    simp only [Function.mem_support, ne_eq, ite_eq_right_iff, Classical.not_imp] at hr
    cases r with
    | nil => exact absurd rfl (hne [] ((PMF.mem_support_iff P []).mpr hr.2))
    | cons y t =>
      simp only [List.headD_cons] at hr
      exact ⟨t, by rw [hr.1]⟩
  · refine tsum_congr fun r => ?_
    simp

theorem first_support {P : PMF Row} {k c : ℕ} (h : Inside P (k + 1) c) :
    ∀ x ∈ (first P).support, x < c := by
  intro x hx
  rw [first, PMF.mem_support_map_iff] at hx
  obtain ⟨r, hr, rfl⟩ := hx
  obtain ⟨hl, hb⟩ := h r hr
  cases r with
  | nil => simp at hl
  | cons y t => simpa using hb y List.mem_cons_self

theorem first_le (P : PMF Row) (x : ℕ) (r : Row) (h0 : first P x = 0)
    (hne : ∀ r ∈ P.support, r ≠ []) : P (x :: r) = 0 := by
  rw [first_apply P hne, ENNReal.tsum_eq_zero] at h0
  exact h0 r

/-- The conditional law of the other modes given the first outcome. -/
noncomputable def given (P : PMF Row) (x : ℕ) : PMF Row :=
  open scoped Classical in
  if h : (∑' r : Row, P (x :: r)) ≠ 0 then
    PMF.normalize (fun r => P (x :: r)) h (by
      refine ne_top_of_le_ne_top ENNReal.one_ne_top ?_
      rw [← PMF.tsum_coe P]
      exact ENNReal.tsum_comp_le_tsum_of_injective (fun a b h => (List.cons.inj h).2) P)
  else PMF.pure []

theorem given_apply (P : PMF Row) (hne : ∀ r ∈ P.support, r ≠ []) (x : ℕ) (h : first P x ≠ 0)
    (r : Row) : given P x r = P (x :: r) / first P x := by
  rw [first_apply P hne] at h ⊢
  rw [given, dif_pos h, PMF.normalize_apply, div_eq_mul_inv]

theorem given_inside {P : PMF Row} {k c : ℕ} (h : Inside P (k + 1) c) (x : ℕ)
    (hx : first P x ≠ 0) : Inside (given P x) k c := by
  intro r hr
  have hne : ∀ r ∈ P.support, r ≠ [] := by
    intro r hr h0
    have := (h r hr).1
    rw [h0] at this
    simp at this
  rw [PMF.mem_support_iff, given_apply P hne x hx] at hr
  have h1 : P (x :: r) ≠ 0 := by
    intro h0
    rw [h0, ENNReal.zero_div] at hr
    exact hr rfl
  obtain ⟨hl, hb⟩ := h (x :: r) ((PMF.mem_support_iff P _).mpr h1)
  exact ⟨by simpa using hl, fun y hy => hb y (List.mem_cons_of_mem _ hy)⟩

/-- The law of total probability. -/
theorem total (P : PMF Row) (hne : ∀ r ∈ P.support, r ≠ []) :
    (first P).bind (fun x => (given P x).map (x :: ·)) = P := by
  ext r
  rw [PMF.bind_apply]
  cases r with
  | nil =>
    have h0 : P [] = 0 := by
      by_contra h
      exact hne [] ((PMF.mem_support_iff P []).mpr h) rfl
    rw [h0, ENNReal.tsum_eq_zero]
    intro x
    rw [PMF.map_apply]
    simp
  | cons y t =>
    rw [tsum_eq_single y]
    · rw [PMF.map_apply, tsum_eq_single t]
      · rw [if_pos rfl]
        by_cases h0 : first P y = 0
        · rw [h0, zero_mul, first_le P y t h0 hne]
        · rw [given_apply P hne y h0]
          exact ENNReal.mul_div_cancel h0 (PMF.apply_ne_top _ _)
      · intro t' ht'
        rw [if_neg]
        intro h
        exact ht' (List.cons.inj h).2.symm
    · intro x hx
      rw [map_apply']
      have : (∑' a : Row, if y :: t = x :: a then (given P x) a else 0) = 0 := by
        rw [ENNReal.tsum_eq_zero]
        intro a
        rw [if_neg]
        intro h
        exact hx (List.cons.inj h).1.symm
      exact (congrArg _ this).trans (mul_zero _)

theorem mem_iid {α : Type} (p : PMF α) (n : ℕ) (l : List α) (h : l ∈ (iid p n).support) :
    l.length = n ∧ ∀ x ∈ l, x ∈ p.support := by
  induction n generalizing l with
  | zero =>
    rw [iid, PMF.mem_support_pure_iff] at h
    subst h
    simp
  | succ n ih =>
    rw [iid, PMF.mem_support_bind_iff] at h
    obtain ⟨x, hx, h⟩ := h
    rw [PMF.mem_support_map_iff] at h
    obtain ⟨t, ht, rfl⟩ := h
    obtain ⟨h1, h2⟩ := ih t ht
    refine ⟨by simp [h1], ?_⟩
    intro y hy
    rcases List.mem_cons.mp hy with rfl | hy
    · exact hx
    · exact h2 y hy

theorem prod_sort {N : Type} [CommMonoid N] (xs : List ℕ) (f : ℕ → N) :
    ((xs.toFinset.sort (· ≤ ·)).map fun x => f x ^ xs.count x).prod = (xs.map f).prod := by
  conv_rhs => rw [Finset.prod_list_map_count, Finset.prod_eq_multiset_prod, ← Finset.sort_eq _ (· ≤ ·),
    Multiset.map_coe, Multiset.prod_coe]

theorem iid_map {α β : Type} (p : PMF α) (f : α → β) (n : ℕ) :
    iid (p.map f) n = (iid p n).map (List.map f) := by
  induction n with
  | zero => simp only [iid, PMF.pure_map, List.map_nil]
  | succ n ih =>
    simp only [iid]
    rw [PMF.bind_map, PMF.map_bind, ih]
    refine congrArg (PMF.bind p) (funext fun x => ?_)
    simp only [Function.comp_def]
    rw [PMF.map_comp, PMF.map_comp]
    rfl

/-- **C37**: for a normalised state inside the cutoff, on any number of modes, the sampler never
fails and the bag of rows it returns is distributed as `n` independent draws from the joint
photon-number distribution. -/
theorem C37_joint_law (c : ℕ) (tol : ℝ≥0∞) (m : ℕ) (P : PMF Row) (hP : Inside P (m + 1) c) (n : ℕ)
    (seed : Option ℕ) :
    (sample ideal c tol m P n seed).map (Option.map bag) = (iid P n).map (fun l => some (bag l)) := by
  induction m generalizing P n seed with
  | zero =>
    have hne : ∀ r ∈ P.support, r ≠ [] := by
      intro r hr h0
      have := (hP r hr).1
      rw [h0] at this
      simp at this
    have h1 : ∀ x, P [x] = first P x := by
      intro x
      rw [first_apply P hne, tsum_eq_single []]
      intro r hr
      by_contra h0
      have := (hP _ ((PMF.mem_support_iff P _).mpr h0)).1
      simp at this
      exact hr this
    have h2 : (first P).map (fun x => [x]) = P := by
      rw [first, PMF.map_comp]
      conv_rhs => rw [← PMF.bind_pure P]
      rw [← PMF.bind_pure_comp]
      refine bind_congr_support P _ _ fun r hr => ?_
      have := (hP r hr).1
      match r, this with
      | [x], _ => rfl
    rw [sample, validate_of_inside c tol (first P) _ h1 (first_support hP)]
    simp only [ideal]
    conv_rhs => rw [← h2, iid_map, PMF.map_comp]
    erw [PMF.map_bind]
    rw [← PMF.bind_pure_comp]
    refine congrArg (PMF.bind (iid (first P) n)) (funext fun xs => ?_)
    erw [PMF.pure_map]
    rfl
  | succ m ih =>
    have hne : ∀ r ∈ P.support, r ≠ [] := by
      intro r hr h0
      have := (hP r hr).1
      rw [h0] at this
      simp at this
    have h1 : ∀ x, marginal P x = first P x := fun x => (first_apply P hne x).symm
    rw [sample, validate_of_inside c tol (first P) _ h1 (first_support hP)]
    simp only [ideal]
    erw [PMF.map_bind]
    have e1 : (iid (first P) n).bind (fun xs => PMF.map (Option.map bag)
        (groups (fun x => sample ideal c tol m (conditional P x (first P x)) (xs.count x) none)
            (xs.toFinset.sort (· ≤ ·))))
        = (iid (first P) n).bind (fun xs => PMF.map some
            ((xs.map fun x => (PMF.map (fun t => {x :: t}) (given P x) : Law Row)).prod)) := by
      refine bind_congr_support _ _ _ fun xs hxs => ?_
      obtain ⟨_, hs⟩ := mem_iid _ _ _ hxs
      rw [groups_law _ (fun x => (PMF.map (fun t => {t}) (given P x) : Law Row) ^ xs.count x)]
      · rw [← prod_sort xs (fun x => (PMF.map (fun t => {x :: t}) (given P x) : Law Row))]
        refine congrArg (fun z => PMF.map some (List.prod z)) (List.map_congr_left fun x _ => ?_)
        rw [Law.map_pow]
        refine congrArg (fun z : Law Row => z ^ xs.count x) ?_
        rw [PMF.map_comp]
        rfl
      · intro x hx
        have hx' : first P x ≠ 0 := by
          rw [Finset.mem_sort, List.mem_toFinset] at hx
          exact (PMF.mem_support_iff _ _).mp (hs x hx)
        have hc : conditional P x (first P x) = given P x :=
          funext fun r => (given_apply P hne x hx' r).symm
        rw [hc, ih (given P x) (given_inside hP x hx'), ← iid_bag, PMF.map_comp]
        rfl
    refine e1.trans ?_
    rw [← PMF.map_bind, iid_bind_prod]
    have e2 : (first P).bind (fun x => (PMF.map (fun t => {x :: t}) (given P x) : Law Row))
        = (PMF.map (fun r => {r}) P : Law Row) := by
      conv_rhs => rw [← total P hne, PMF.map_bind]
      refine congrArg (PMF.bind (first P)) (funext fun x => ?_)
      rw [PMF.map_comp]
      rfl
    rw [e2, ← iid_bag, PMF.map_comp]
    rfl

end Verif.Samplers
