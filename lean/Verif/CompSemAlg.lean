import Verif.CompSem

/-!
# Algebra of kernels: associativity, commuting kernels, Hermitian conjugate (C88)
-/

namespace Verif.CompV

variable {C : Type*} [DecidableEq C]

/-- The values vanish for photon numbers from `M` on. -/
def Ker.Below (M : ℕ) (K : Ker C) : Prop := ∀ o i, (∃ c ∈ K.ins, M ≤ i c) ∨ (∃ c ∈ K.outs, M ≤ o c) → K.fn o i = 0

theorem tot_zero {M : ℕ} {T : Finset C} {F : (C → ℕ) → ℂ} (h : ∀ z, F z = 0) : tot M T F = 0 := Finset.sum_eq_zero fun z _ => h z

theorem Ker.seq_below {M : ℕ} {A B : Ker C} (hA : A.Below M) (hB : B.Below M) : (Ker.seq M A B).Below M := by
  intro o i h
  show tot M (A.outs ∩ B.ins) (fun z => A.fn (over (A.outs ∩ B.ins) z o) i * B.fn o (over (A.outs ∩ B.ins) z i)) = 0
  refine tot_zero fun z => ?_
  rcases h with ⟨c, hc, hi⟩ | ⟨c, hc, hi⟩
  · have hc' : c ∈ A.ins ∪ (B.ins \ A.outs) := hc
    rw [Finset.mem_union, Finset.mem_sdiff] at hc'
    rcases hc' with h | ⟨h, h'⟩
    · rw [hA _ _ (Or.inl ⟨c, h, hi⟩), zero_mul]
    · rw [hB o _ (Or.inl ⟨c, h, ?_⟩), mul_zero]
      unfold over
      rw [if_neg fun hm => h' (Finset.mem_inter.mp hm).1]
      exact hi
  · have hc' : c ∈ B.outs ∪ (A.outs \ B.ins) := hc
    rw [Finset.mem_union, Finset.mem_sdiff] at hc'
    rcases hc' with h | ⟨h, h'⟩
    · rw [hB _ _ (Or.inr ⟨c, h, hi⟩), mul_zero]
    · rw [hA _ i (Or.inr ⟨c, h, ?_⟩), zero_mul]
      unfold over
      rw [if_neg fun hm => h' (Finset.mem_inter.mp hm).2]
      exact hi

theorem Ker.eq_of {A B : Ker C} (h1 : A.outs = B.outs) (h2 : A.ins = B.ins) (h3 : ∀ o i, A.fn o i = B.fn o i) : A = B := by
  cases A
  cases B
  simp only at h1 h2 h3
  subst h1 h2
  congr
  funext o i
  exact h3 o i

/-- Kernels with the same channels and the same action are equal. -/
theorem Ker.eq_of_act {M : ℕ} {A B : Ker C} (hA : A.Local) (hB : B.Local) (bA : A.Below M) (bB : B.Below M) (ho : A.outs = B.outs) (hi : A.ins = B.ins)
    (h : A.act M = B.act M) : A = B := by
  refine Ker.eq_of ho hi fun o i => ?_
  by_cases hM : ∀ c ∈ A.ins, i c < M
  · exact Ker.act_inj hA hB ho hi h o i hM
  · push Not at hM
    rw [bA o i (Or.inl hM), bB o i (Or.inl (by rw [← hi]; exact hM))]

/-- **C88** (associativity) composition of operators is associative whenever no channel is open twice on the way. -/
theorem Ker.seq_assoc {M : ℕ} {A B D : Ker C} (hA : A.Local) (hB : B.Local) (hD : D.Local) (bA : A.Below M) (bB : B.Below M) (bD : D.Below M)
    (h1 : A.Comp B) (h2 : (Ker.seq M A B).Comp D) (h3 : B.Comp D) (h4 : A.Comp (Ker.seq M B D)) :
    Ker.seq M (Ker.seq M A B) D = Ker.seq M A (Ker.seq M B D) := by
  have l1 := Ker.seq_local (M := M) hA hB
  have l2 := Ker.seq_local (M := M) hB hD
  refine Ker.eq_of_act (M := M) (Ker.seq_local l1 hD) (Ker.seq_local hA l2) (Ker.seq_below (Ker.seq_below bA bB) bD) (Ker.seq_below bA (Ker.seq_below bB bD)) ?_ ?_ ?_
  · ext c
    have e1 := h1 c
    have e2 := h2 c
    have e3 := h3 c
    have e4 := h4 c
    simp only [Ker.seq, Finset.mem_union, Finset.mem_sdiff] at e1 e2 e3 e4 ⊢
    by_cases a1 : c ∈ A.outs <;> by_cases a2 : c ∈ A.ins <;> by_cases a3 : c ∈ B.outs <;> by_cases a4 : c ∈ B.ins <;> by_cases a5 : c ∈ D.outs <;>
      by_cases a6 : c ∈ D.ins <;> simp [a1, a2, a3, a4, a5, a6] at e1 e2 e3 e4 ⊢
  · ext c
    have e1 := h1 c
    have e2 := h2 c
    have e3 := h3 c
    have e4 := h4 c
    simp only [Ker.seq, Finset.mem_union, Finset.mem_sdiff] at e1 e2 e3 e4 ⊢
    by_cases a1 : c ∈ A.outs <;> by_cases a2 : c ∈ A.ins <;> by_cases a3 : c ∈ B.outs <;> by_cases a4 : c ∈ B.ins <;> by_cases a5 : c ∈ D.outs <;>
      by_cases a6 : c ∈ D.ins <;> simp [a1, a2, a3, a4, a5, a6] at e1 e2 e3 e4 ⊢
  · rw [Ker.act_seq l1 hD h2, Ker.act_seq hA hB h1, Ker.act_seq hA l2 h4, Ker.act_seq hB hD h3, mul_assoc]

/-- No common channel. -/
def Ker.Apart (A B : Ker C) : Prop := ∀ c, (c ∈ A.outs ∨ c ∈ A.ins) → c ∉ B.outs ∧ c ∉ B.ins

theorem Ker.Apart.comp {A B : Ker C} (h : A.Apart B) : A.Comp B := by
  intro c
  have := h c
  tauto

theorem Ker.Apart.symm {A B : Ker C} (h : A.Apart B) : B.Apart A := by
  intro c
  have := h c
  tauto

theorem Ker.Apart.seq_comm {M : ℕ} {A B : Ker C} (h : A.Apart B) : Ker.seq M A B = Ker.seq M B A := by
  have e1 : A.outs ∩ B.ins = ∅ := by
    ext c
    have := h c
    simp only [Finset.mem_inter, Finset.notMem_empty, iff_false]
    tauto
  have e2 : B.outs ∩ A.ins = ∅ := by
    ext c
    have := h c
    simp only [Finset.mem_inter, Finset.notMem_empty, iff_false]
    tauto
  refine Ker.eq_of ?_ ?_ fun o i => ?_
  · ext c
    have := h c
    simp only [Ker.seq, Finset.mem_union, Finset.mem_sdiff]
    tauto
  · ext c
    have := h c
    simp only [Ker.seq, Finset.mem_union, Finset.mem_sdiff]
    tauto
  · simp only [Ker.seq, e1, e2, tot_empty, over, Finset.notMem_empty, if_false]
    exact mul_comm _ _

theorem Ker.Apart.act_comm {M : ℕ} {A B : Ker C} (h : A.Apart B) (hA : A.Local) (hB : B.Local) : B.act M * A.act M = A.act M * B.act M := by
  rw [← Ker.act_seq hA hB h.comp, h.seq_comm, Ker.act_seq hB hA h.symm.comp]

theorem conj_tot (M : ℕ) (T : Finset C) (F : (C → ℕ) → ℂ) : (starRingEnd ℂ) (tot M T F) = tot M T fun z => (starRingEnd ℂ) (F z) := map_sum _ _ _

/-- Renaming the channels of a sum. -/
theorem tot_rename {C' : Type*} [DecidableEq C'] (e : C ≃ C') (M : ℕ) (T : Finset C) (F : (C → ℕ) → ℂ) :
    tot M (T.image e) (fun z => F fun c => z (e c)) = tot M T F := by
  unfold tot
  refine Finset.sum_bij' (fun z _ => Finsupp.equivMapDomain e.symm z) (fun z _ => Finsupp.equivMapDomain e z) ?_ ?_ ?_ ?_ ?_
  · intro z hz
    rw [Finset.mem_finsupp_iff] at hz ⊢
    refine ⟨fun c hc => ?_, fun c hc => ?_⟩
    · rw [Finsupp.mem_support_iff, Finsupp.equivMapDomain_apply] at hc
      have := hz.1 (Finsupp.mem_support_iff.mpr hc)
      rw [Finset.mem_image] at this
      obtain ⟨d, hd, e1⟩ := this
      have : d = c := e.injective (by simpa using e1)
      rw [← this]
      exact hd
    · rw [Finsupp.equivMapDomain_apply]
      exact hz.2 _ (Finset.mem_image.mpr ⟨c, hc, by simp⟩)
  · intro z hz
    rw [Finset.mem_finsupp_iff] at hz ⊢
    refine ⟨fun c hc => ?_, fun c hc => ?_⟩
    · rw [Finsupp.mem_support_iff, Finsupp.equivMapDomain_apply] at hc
      exact Finset.mem_image.mpr ⟨_, hz.1 (Finsupp.mem_support_iff.mpr hc), by simp⟩
    · rw [Finset.mem_image] at hc
      obtain ⟨d, hd, rfl⟩ := hc
      rw [Finsupp.equivMapDomain_apply, e.symm_apply_apply]
      exact hz.2 d hd
  · intro z _
    ext c
    simp
  · intro z _
    ext c
    simp
  · intro z _
    refine congrArg F (funext fun c => ?_)
    rw [Finsupp.equivMapDomain_apply]
    simp

/-- Hermitian conjugate: outputs and inputs exchanged, values conjugated. -/
noncomputable def dualK (K : Ker C) : Ker C where
  outs := K.ins
  ins := K.outs
  fn := fun o i => (starRingEnd ℂ) (K.fn i o)

/-- **C88** the dual of a composition is the composition of the duals in the opposite order. -/
theorem dualK_seq (M : ℕ) (A B : Ker C) : dualK (Ker.seq M A B) = Ker.seq M (dualK B) (dualK A) := by
  refine Ker.eq_of rfl rfl fun o i => ?_
  show (starRingEnd ℂ) (tot M (A.outs ∩ B.ins) fun z => A.fn (over (A.outs ∩ B.ins) z i) o * B.fn i (over (A.outs ∩ B.ins) z o)) =
    tot M (B.ins ∩ A.outs) fun z => (starRingEnd ℂ) (B.fn i (over (B.ins ∩ A.outs) z o)) * (starRingEnd ℂ) (A.fn (over (B.ins ∩ A.outs) z i) o)
  rw [conj_tot, Finset.inter_comm]
  refine tot_congr fun z _ _ => ?_
  rw [map_mul, mul_comm]

theorem dualK_dualK (K : Ker C) : dualK (dualK K) = K := Ker.eq_of rfl rfl fun o i => Complex.conj_conj _

end Verif.CompV
