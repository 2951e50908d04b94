import Mathlib.Data.Finset.Finsupp
import Mathlib.Data.Finsupp.Basic
import Mathlib.Algebra.BigOperators.Ring.Finset
import Mathlib.Data.Complex.Basic
import Mathlib.Algebra.Group.End

/-!
# Kernels on labelled channels (C88)

The specification of composition: a component is a kernel whose outputs and inputs are labelled by channels; composing `A` with `B` joins the
outputs of `A` to the inputs of `B` on the channels they share.  A kernel acts on functions of stacks: on every channel it pops its outputs and pushes its
inputs.  The action turns composition into composition of functions.
-/

namespace Verif.CompV

variable {C : Type*} [DecidableEq C]

/-- The sum over all values below `M` of the channels in `T`. -/
noncomputable def tot (M : ℕ) (T : Finset C) (F : (C → ℕ) → ℂ) : ℂ := ∑ z ∈ T.finsupp fun _ => Finset.range M, F z

/-- `z` on `T`, else `o`. -/
def over (T : Finset C) (z o : C → ℕ) : C → ℕ := fun c => if c ∈ T then z c else o c

theorem tot_congr {M : ℕ} {T : Finset C} {F G : (C → ℕ) → ℂ} (h : ∀ z : C → ℕ, (∀ c ∈ T, z c < M) → (∀ c, c ∉ T → z c = 0) → F z = G z) : tot M T F = tot M T G := by
  refine Finset.sum_congr rfl fun z hz => ?_
  rw [Finset.mem_finsupp_iff] at hz
  refine h _ (fun c hc => Finset.mem_range.mp (hz.2 c hc)) fun c hc => ?_
  by_contra h0
  exact hc (hz.1 (Finsupp.mem_support_iff.mpr h0))

theorem tot_empty (M : ℕ) (F : (C → ℕ) → ℂ) : tot M ∅ F = F fun _ => 0 := by
  unfold tot
  have : (∅ : Finset C).finsupp (fun _ => Finset.range M) = {0} := by
    ext z
    rw [Finset.mem_finsupp_iff, Finset.mem_singleton]
    constructor
    · intro h
      exact Finsupp.support_eq_empty.mp (Finset.subset_empty.mp h.1)
    · rintro rfl
      simp
  rw [this, Finset.sum_singleton]
  rfl

/-- Sums over disjoint sets of channels can be done one after the other. -/
theorem tot_union {M : ℕ} {T U : Finset C} (hd : Disjoint T U) (F : (C → ℕ) → ℂ) :
    tot M (T ∪ U) F = tot M T fun x => tot M U fun y => F (over T x y) := by
  unfold tot
  rw [← Finset.sum_product']
  refine Finset.sum_bij' (fun z _ => (z.filter (· ∈ T), z.filter (· ∈ U))) (fun p _ => p.1 + p.2) ?_ ?_ ?_ ?_ ?_
  · intro z hz
    rw [Finset.mem_finsupp_iff] at hz
    rw [Finset.mem_product, Finset.mem_finsupp_iff, Finset.mem_finsupp_iff]
    refine ⟨⟨fun c hc => ?_, fun c hc => ?_⟩, fun c hc => ?_, fun c hc => ?_⟩
    · rw [Finsupp.support_filter, Finset.mem_filter] at hc
      exact hc.2
    · simp only [Finsupp.filter_apply, if_pos hc]
      exact hz.2 c (Finset.mem_union_left _ hc)
    · rw [Finsupp.support_filter, Finset.mem_filter] at hc
      exact hc.2
    · simp only [Finsupp.filter_apply, if_pos hc]
      exact hz.2 c (Finset.mem_union_right _ hc)
  · intro p hp
    rw [Finset.mem_product, Finset.mem_finsupp_iff, Finset.mem_finsupp_iff] at hp
    rw [Finset.mem_finsupp_iff]
    have h1 : ∀ c, c ∉ T → p.1 c = 0 := fun c hc => by
      by_contra h0
      exact hc (hp.1.1 (Finsupp.mem_support_iff.mpr h0))
    have h2 : ∀ c, c ∉ U → p.2 c = 0 := fun c hc => by
      by_contra h0
      exact hc (hp.2.1 (Finsupp.mem_support_iff.mpr h0))
    refine ⟨fun c hc => ?_, fun c hc => ?_⟩
    · by_contra h
      rw [Finset.mem_union, not_or] at h
      rw [Finsupp.mem_support_iff, Finsupp.add_apply, h1 c h.1, h2 c h.2] at hc
      exact hc rfl
    · rw [Finsupp.add_apply]
      rcases Finset.mem_union.mp hc with h | h
      · rw [h2 c fun h' => Finset.disjoint_left.mp hd h h', add_zero]
        exact hp.1.2 c h
      · rw [h1 c fun h' => Finset.disjoint_left.mp hd h' h, zero_add]
        exact hp.2.2 c h
  · intro z hz
    rw [Finset.mem_finsupp_iff] at hz
    ext c
    simp only [Finsupp.add_apply, Finsupp.filter_apply]
    by_cases h : c ∈ T
    · rw [if_pos h, if_neg fun h' => Finset.disjoint_left.mp hd h h', add_zero]
    · rw [if_neg h, zero_add]
      by_cases h' : c ∈ U
      · rw [if_pos h']
      · rw [if_neg h']
        by_contra h0
        have := hz.1 (Finsupp.mem_support_iff.mpr fun h => h0 h.symm)
        rw [Finset.mem_union] at this
        exact this.elim h h'
  · rintro ⟨x, y⟩ hp
    rw [Finset.mem_product, Finset.mem_finsupp_iff, Finset.mem_finsupp_iff] at hp
    have h1 : ∀ c, c ∉ T → x c = 0 := fun c hc => by
      by_contra h0
      exact hc (hp.1.1 (Finsupp.mem_support_iff.mpr h0))
    have h2 : ∀ c, c ∉ U → y c = 0 := fun c hc => by
      by_contra h0
      exact hc (hp.2.1 (Finsupp.mem_support_iff.mpr h0))
    refine Prod.ext ?_ ?_
    · ext c
      simp only [Finsupp.filter_apply, Finsupp.add_apply]
      by_cases h : c ∈ T
      · rw [if_pos h, h2 c fun h' => Finset.disjoint_left.mp hd h h', add_zero]
      · rw [if_neg h, h1 c h]
    · ext c
      simp only [Finsupp.filter_apply, Finsupp.add_apply]
      by_cases h : c ∈ U
      · rw [if_pos h, h1 c fun h' => Finset.disjoint_left.mp hd h' h, zero_add]
      · rw [if_neg h, h2 c h]
  · intro z hz
    rw [Finset.mem_finsupp_iff] at hz
    refine congrArg F (funext fun c => ?_)
    simp only [over, Finsupp.filter_apply]
    by_cases h : c ∈ T
    · rw [if_pos h, if_pos h]
    · rw [if_neg h]
      by_cases h' : c ∈ U
      · rw [if_pos h']
      · rw [if_neg h']
        by_contra h0
        have := hz.1 (Finsupp.mem_support_iff.mpr h0)
        rw [Finset.mem_union] at this
        exact this.elim h h'

theorem tot_comm (M : ℕ) (T U : Finset C) (F : (C → ℕ) → (C → ℕ) → ℂ) : (tot M T fun x => tot M U fun y => F x y) = tot M U fun y => tot M T fun x => F x y :=
  Finset.sum_comm

theorem tot_mul (M : ℕ) (T : Finset C) (a : ℂ) (F : (C → ℕ) → ℂ) : a * tot M T F = tot M T fun z => a * F z := Finset.mul_sum _ _ _

/-- A kernel: output channels, input channels and a function of the values on them. -/
structure Ker (C : Type*) where
  outs : Finset C
  ins : Finset C
  fn : (C → ℕ) → (C → ℕ) → ℂ

/-- The function depends only on the values on the channels. -/
def Ker.Local (A : Ker C) : Prop := ∀ o o' i i', (∀ c ∈ A.outs, o c = o' c) → (∀ c ∈ A.ins, i c = i' c) → A.fn o i = A.fn o' i'

/-- No channel would be open twice when `A` is followed by `B`. -/
def Ker.Comp (A B : Ker C) : Prop := ∀ c, ¬ (c ∈ B.outs ∧ c ∈ A.outs ∧ c ∉ B.ins) ∧ ¬ (c ∈ A.ins ∧ c ∈ B.ins ∧ c ∉ A.outs)

/-- `A` followed by `B`: the outputs of `A` that are inputs of `B` are joined and summed over. -/
noncomputable def Ker.seq (M : ℕ) (A B : Ker C) : Ker C where
  outs := B.outs ∪ (A.outs \ B.ins)
  ins := A.ins ∪ (B.ins \ A.outs)
  fn := fun o i => tot M (A.outs ∩ B.ins) fun z => A.fn (over (A.outs ∩ B.ins) z o) i * B.fn o (over (A.outs ∩ B.ins) z i)

theorem Ker.seq_local {M : ℕ} {A B : Ker C} (hA : A.Local) (hB : B.Local) : (Ker.seq M A B).Local := by
  intro o o' i i' ho hi
  simp only [Ker.seq, Finset.mem_union, Finset.mem_sdiff] at ho hi ⊢
  refine tot_congr fun z _ _ => ?_
  have h1 : A.fn (over (A.outs ∩ B.ins) z o) i = A.fn (over (A.outs ∩ B.ins) z o') i' := by
    refine hA _ _ _ _ (fun c hc => ?_) fun c hc => hi c (Or.inl hc)
    unfold over
    by_cases h : c ∈ A.outs ∩ B.ins
    · rw [if_pos h, if_pos h]
    · rw [if_neg h, if_neg h]
      refine ho c (Or.inr ⟨hc, fun h' => h (Finset.mem_inter.mpr ⟨hc, h'⟩)⟩)
  have h2 : B.fn o (over (A.outs ∩ B.ins) z i) = B.fn o' (over (A.outs ∩ B.ins) z i') := by
    refine hB _ _ _ _ (fun c hc => ho c (Or.inl hc)) fun c hc => ?_
    unfold over
    by_cases h : c ∈ A.outs ∩ B.ins
    · rw [if_pos h, if_pos h]
    · rw [if_neg h, if_neg h]
      refine hi c (Or.inr ⟨hc, fun h' => h (Finset.mem_inter.mpr ⟨h', hc⟩)⟩)
  rw [h1, h2]

/-! ## The action on stacks -/

/-- One stack of values on every channel. -/
abbrev Stacks (C : Type*) := C → ℕ → ℕ

def top (S : Stacks C) : C → ℕ := fun c => S c 0
def pop (T : Finset C) (S : Stacks C) : Stacks C := fun c => if c ∈ T then fun n => S c (n + 1) else S c
def push (T : Finset C) (z : C → ℕ) (S : Stacks C) : Stacks C := fun c => if c ∈ T then fun n => if n = 0 then z c else S c (n - 1) else S c

/-- The action of a kernel: pop the outputs, push the inputs and sum over them. -/
noncomputable def Ker.act (M : ℕ) (A : Ker C) : Function.End (Stacks C → ℂ) := fun Φ S => tot M A.ins fun z => A.fn (top S) z * Φ (push A.ins z (pop A.outs S))

/-- The action of a composition is the composition of the actions. -/
theorem Ker.act_seq {M : ℕ} {A B : Ker C} (hA : A.Local) (hB : B.Local) (h : A.Comp B) : (Ker.seq M A B).act M = B.act M * A.act M := by
  funext Φ S
  show tot M (A.ins ∪ (B.ins \ A.outs)) (fun w => (tot M (A.outs ∩ B.ins) fun z => A.fn (over (A.outs ∩ B.ins) z (top S)) w *
      B.fn (top S) (over (A.outs ∩ B.ins) z w)) * Φ (push (A.ins ∪ (B.ins \ A.outs)) w (pop (B.outs ∪ (A.outs \ B.ins)) S))) =
    tot M B.ins fun y => B.fn (top S) y * tot M A.ins fun x => A.fn (top (push B.ins y (pop B.outs S))) x * Φ (push A.ins x (pop A.outs (push B.ins y (pop B.outs S))))
  have d1 : Disjoint A.ins (B.ins \ A.outs) := by
    rw [Finset.disjoint_left]
    intro c hc hc'
    rw [Finset.mem_sdiff] at hc'
    exact (h c).2 ⟨hc, hc'⟩
  have d2 : Disjoint (A.outs ∩ B.ins) (B.ins \ A.outs) := by
    rw [Finset.disjoint_left]
    intro c hc hc'
    rw [Finset.mem_sdiff] at hc'
    exact hc'.2 (Finset.mem_inter.mp hc).1
  have e2 : B.ins = (A.outs ∩ B.ins) ∪ (B.ins \ A.outs) := by
    ext c
    simp only [Finset.mem_union, Finset.mem_inter, Finset.mem_sdiff]
    tauto
  rw [tot_union d1]
  conv_rhs => rw [e2]
  rw [tot_union d2]
  rw [← e2]
  simp only [mul_comm (tot M (A.outs ∩ B.ins) _), tot_mul]
  rw [tot_comm M (A.outs ∩ B.ins)]
  rw [tot_comm M A.ins]
  refine tot_congr fun w _ _ => ?_
  rw [tot_comm M A.ins]
  refine tot_congr fun z _ _ => tot_congr fun x _ _ => ?_
  have hAf : A.fn (top (push B.ins (over (A.outs ∩ B.ins) z w) (pop B.outs S))) x = A.fn (over (A.outs ∩ B.ins) z (top S)) (over A.ins x w) := by
    refine hA _ _ _ _ (fun c hc => ?_) fun c hc => ?_
    · unfold top push pop over
      by_cases hb : c ∈ B.ins
      · rw [if_pos hb, if_pos (Finset.mem_inter.mpr ⟨hc, hb⟩), if_pos rfl, if_pos (Finset.mem_inter.mpr ⟨hc, hb⟩)]
      · have hbo : c ∉ B.outs := fun hbo => (h c).1 ⟨hbo, hc, hb⟩
        rw [if_neg hb, if_neg hbo, if_neg fun h' => hb (Finset.mem_inter.mp h').2]
    · unfold over
      rw [if_pos hc]
  have hBf : B.fn (top S) (over (A.outs ∩ B.ins) z (over A.ins x w)) = B.fn (top S) (over (A.outs ∩ B.ins) z w) := by
    refine hB _ _ _ _ (fun _ _ => rfl) fun c hc => ?_
    unfold over
    by_cases ha : c ∈ A.outs
    · rw [if_pos (Finset.mem_inter.mpr ⟨ha, hc⟩), if_pos (Finset.mem_inter.mpr ⟨ha, hc⟩)]
    · have : c ∉ A.outs ∩ B.ins := fun h' => ha (Finset.mem_inter.mp h').1
      rw [if_neg this, if_neg this, if_neg fun hi => (h c).2 ⟨hi, hc, ha⟩]
  have hS : push A.ins x (pop A.outs (push B.ins (over (A.outs ∩ B.ins) z w) (pop B.outs S))) =
      push (A.ins ∪ (B.ins \ A.outs)) (over A.ins x w) (pop (B.outs ∪ (A.outs \ B.ins)) S) := by
    funext c
    have hc := h c
    unfold push pop over
    simp only [Finset.mem_union, Finset.mem_sdiff, Finset.mem_inter]
    by_cases h1 : c ∈ A.outs <;> by_cases h2 : c ∈ B.ins <;> by_cases h3 : c ∈ A.ins <;> by_cases h4 : c ∈ B.outs <;> simp [h1, h2, h3, h4] at hc ⊢
  rw [hAf, hBf, hS]
  ring

/-- The action determines the values of the kernel below the bound. -/
theorem Ker.act_inj {M : ℕ} {A B : Ker C} (hA : A.Local) (hB : B.Local) (ho : A.outs = B.outs) (hi : A.ins = B.ins) (h : A.act M = B.act M) (o i : C → ℕ)
    (hM : ∀ c ∈ A.ins, i c < M) : A.fn o i = B.fn o i := by
  have key : ∀ K : Ker C, K.Local → (∀ c ∈ K.ins, i c < M) →
      K.act M (fun S => if ∀ c ∈ K.ins, S c 0 = i c then 1 else 0) (fun c n => o c) = K.fn o i := by
    intro K hK hKM
    show tot M K.ins (fun z => K.fn (top fun c n => o c) z * _) = _
    unfold tot
    have hi0 : ∃ i0 : C →₀ ℕ, i0 ∈ K.ins.finsupp (fun _ => Finset.range M) ∧ ∀ c ∈ K.ins, i0 c = i c := by
      refine ⟨Finsupp.onFinset K.ins (fun c => if c ∈ K.ins then i c else 0) fun c hc => by by_contra h0; exact hc (if_neg h0), ?_, fun c hc => ?_⟩
      · rw [Finset.mem_finsupp_iff]
        refine ⟨Finsupp.support_onFinset_subset, fun c hc => ?_⟩
        rw [Finsupp.onFinset_apply, if_pos hc]
        exact Finset.mem_range.mpr (hKM c hc)
      · rw [Finsupp.onFinset_apply, if_pos hc]
    obtain ⟨i0, hi0, hi1⟩ := hi0
    rw [Finset.sum_eq_single i0]
    · dsimp only
      rw [if_pos, mul_one]
      · exact hK _ _ _ _ (fun _ _ => rfl) hi1
      · intro c hc
        unfold push
        rw [if_pos hc, if_pos rfl, hi1 c hc]
    · intro z hz hne
      dsimp only
      rw [if_neg, mul_zero]
      intro h0
      refine hne (Finsupp.ext fun c => ?_)
      rw [Finset.mem_finsupp_iff] at hz hi0
      by_cases hc : c ∈ K.ins
      · have := h0 c hc
        unfold push at this
        rw [if_pos hc, if_pos rfl] at this
        rw [this, hi1 c hc]
      · have a : z c = 0 := by by_contra h1; exact hc (hz.1 (Finsupp.mem_support_iff.mpr h1))
        have b : i0 c = 0 := by by_contra h1; exact hc (hi0.1 (Finsupp.mem_support_iff.mpr h1))
        rw [a, b]
    · exact fun h0 => absurd hi0 h0
  rw [← key A hA hM, ← key B hB (by rw [← hi]; exact hM), h, hi]

end Verif.CompV
