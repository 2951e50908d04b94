import Verif.MixedCall
import Verif.EinsumPath

/-!
# A sum over an array with matching constraints is an einsum (for C111)
-/

namespace Verif.Mixed
open Verif.Fock Verif.Batch Verif.PolyExp PolyExp Verif.Arr Verif.Arr.Arr

/-- Labels of core axes. -/
def il (c : List ℕ) : List Lab := c.map Lab.int

theorem int_inj {a b : ℕ} : Lab.int a = Lab.int b ↔ a = b := ⟨fun h => by cases h; rfl, fun h => by rw [h]⟩

theorem mem_il {c : List ℕ} {l : ℕ} : Lab.int l ∈ il c ↔ l ∈ c := by
  unfold il
  rw [List.mem_map]
  constructor
  · rintro ⟨a, ha, e⟩
    rwa [← int_inj.1 e]
  · exact fun h => ⟨l, h, rfl⟩

theorem il_nodup {c : List ℕ} (h : c.Nodup) : (il c).Nodup := h.map fun _ _ e => int_inj.1 e

theorem il_idxOf (c : List ℕ) (l : ℕ) : (il c).idxOf (Lab.int l) = c.idxOf l := by
  unfold il
  induction c with
  | nil => rfl
  | cons a c ih =>
    rw [List.map_cons, List.idxOf_cons, List.idxOf_cons, ih]
    by_cases h : a = l
    · subst h; simp
    · have h' : ¬ Lab.int a = Lab.int l := fun e => h (int_inj.1 e)
      have e1 : (Lab.int a == Lab.int l) = false := beq_eq_false_iff_ne.2 h'
      have e2 : (a == l) = false := beq_eq_false_iff_ne.2 h
      rw [e1, e2]

/-- Changing a label that is not summed. -/
theorem sumOver_keep {D : Lab → ℕ} {ls : List Lab} {F : (Lab → ℕ) → ℂ} {σ : Lab → ℕ} {P : (Lab → ℕ) → Prop} {G : (Lab → ℕ) → ℂ} (h0 : P σ)
    (hP : ∀ τ l v, l ∈ ls → P τ → v < D l → P (Function.update τ l v)) (h : ∀ τ, P τ → F τ = G τ) : sumOver D ls F σ = sumOver D ls G σ := by
  induction ls generalizing σ with
  | nil => exact h σ h0
  | cons l ls ih =>
    unfold sumOver
    refine Finset.sum_congr rfl fun v hv => ?_
    exact ih (hP σ l v List.mem_cons_self h0 (Finset.mem_range.1 hv)) (fun τ l' v' hl => hP τ l' v' (List.mem_cons_of_mem _ hl))

theorem nsum_delta (p : ℕ → Bool) (c1 : List ℕ) : ∀ (s : List ℕ) (_ : c1.length = s.length) (_ : c1.Nodup) (D : Lab → ℕ)
    (_ : ∀ j < c1.length, D (Lab.int (c1.getD j 0)) = s.getD j 0) (F : List ℕ → ℂ) (σ : Lab → ℕ),
    nsum s (fun d => if ∀ j < c1.length, p (c1.getD j 0) = false → σ (Lab.int (c1.getD j 0)) = d.getD j 0 then F d else 0) =
      sumOver D (il (c1.filter p)) (fun τ => if inb ((il c1).map τ) s then F ((il c1).map τ) else 0) σ := by
  induction c1 with
  | nil =>
    intro s hs _ D _ F σ
    have : s = [] := List.length_eq_zero_iff.1 hs.symm
    subst this
    rw [nsum_nil, if_pos (by intro j hj; exact absurd hj (Nat.not_lt_zero _))]
    show F [] = if inb [] [] then F [] else 0
    rw [if_pos (inb_iff.2 List.Forall₂.nil)]
  | cons l c1 ih =>
    intro s hs hn D hD F σ
    cases s with
    | nil => cases hs
    | cons n s =>
      rw [List.nodup_cons] at hn
      have hs' : c1.length = s.length := by simpa using hs
      have hDl : D (Lab.int l) = n := by simpa using hD 0 (by simp)
      have hD' : ∀ j < c1.length, D (Lab.int (c1.getD j 0)) = s.getD j 0 := by
        intro j hj
        simpa using hD (j + 1) (by simpa using hj)
      have hlab : ∀ (d : List ℕ) (v : ℕ) (σ : Lab → ℕ), (∀ j < (l :: c1).length, p ((l :: c1).getD j 0) = false → σ (Lab.int ((l :: c1).getD j 0)) = (v :: d).getD j 0) ↔
          (p l = false → σ (Lab.int l) = v) ∧ ∀ j < c1.length, p (c1.getD j 0) = false → σ (Lab.int (c1.getD j 0)) = d.getD j 0 := by
        intro d v σ
        constructor
        · intro h
          refine ⟨fun hp => ?_, fun j hj hp => ?_⟩
          · have := h 0 (by simp)
            simp only [List.getD_cons_zero] at this
            exact this hp
          · have := h (j + 1) (by simpa using hj)
            simp only [List.getD_cons_succ] at this
            exact this hp
        · rintro ⟨h1, h2⟩ j hj hp
          cases j with
          | zero => simp only [List.getD_cons_zero] at hp ⊢; exact h1 hp
          | succ j => simp only [List.getD_cons_succ] at hp ⊢; exact h2 j (by simpa using hj) hp
      have hil : il (l :: c1) = Lab.int l :: il c1 := rfl
      have hinb : ∀ (v : ℕ) (d : List ℕ), inb (v :: d) (n :: s) = true ↔ v < n ∧ inb d s = true := by
        intro v d
        rw [inb_iff, inb_iff, InB, List.forall₂_cons]
        exact Iff.rfl
      have hnot : Lab.int l ∉ il (c1.filter p) := fun h => hn.1 (List.mem_filter.1 (mem_il.1 h)).1
      have keep : ∀ (v : ℕ) (σ : Lab → ℕ), σ (Lab.int l) = v → v < n →
          sumOver D (il (c1.filter p)) (fun τ => if inb ((il c1).map τ) s then F (v :: (il c1).map τ) else 0) σ =
          sumOver D (il (c1.filter p)) (fun τ => if inb ((il (l :: c1)).map τ) (n :: s) then F ((il (l :: c1)).map τ) else 0) σ := by
        intro v σ hv hvn
        refine sumOver_keep (P := fun τ => τ (Lab.int l) = v) hv ?_ ?_
        · intro τ l' v' hl' hτ _
          rw [Function.update_of_ne (fun e : Lab.int l = l' => hnot (by rw [e]; exact hl'))]
          exact hτ
        · intro τ hτ
          rw [hil, List.map_cons, hτ]
          have := hinb v ((il c1).map τ)
          by_cases h : inb ((il c1).map τ) s = true
          · rw [if_pos h, if_pos (this.2 ⟨hvn, h⟩)]
          · rw [if_neg h, if_neg (fun h' => h (this.1 h').2)]
      rw [nsum_cons]
      by_cases hp : p l = true
      · rw [List.filter_cons_of_pos hp]
        show _ = ∑ v ∈ Finset.range (D (Lab.int l)), sumOver D (il (c1.filter p)) _ (Function.update σ (Lab.int l) v)
        rw [hDl]
        refine Finset.sum_congr rfl fun v hv => ?_
        rw [← keep v _ (Function.update_self _ _ _) (Finset.mem_range.1 hv), ← ih s hs' hn.2 D hD' (fun d => F (v :: d))]
        refine nsum_congr fun d _ => ?_
        have e : (∀ j < (l :: c1).length, p ((l :: c1).getD j 0) = false → σ (Lab.int ((l :: c1).getD j 0)) = (v :: d).getD j 0) ↔
            ∀ j < c1.length, p (c1.getD j 0) = false → Function.update σ (Lab.int l) v (Lab.int (c1.getD j 0)) = d.getD j 0 := by
          rw [hlab]
          constructor
          · rintro ⟨_, h⟩ j hj hq
            rw [Function.update_of_ne (fun e : Lab.int (c1.getD j 0) = Lab.int l => hn.1 (by rw [← int_inj.1 e]; exact getD_mem' hj))]
            exact h j hj hq
          · intro h
            refine ⟨fun hq => absurd hp (by rw [hq]; simp), fun j hj hq => ?_⟩
            have := h j hj hq
            rwa [Function.update_of_ne (fun e : Lab.int (c1.getD j 0) = Lab.int l => hn.1 (by rw [← int_inj.1 e]; exact getD_mem' hj))] at this
        by_cases h : ∀ j < (l :: c1).length, p ((l :: c1).getD j 0) = false → σ (Lab.int ((l :: c1).getD j 0)) = (v :: d).getD j 0
        · rw [if_pos h, if_pos (e.1 h)]
        · rw [if_neg h, if_neg (fun h' => h (e.2 h'))]
      · rw [List.filter_cons_of_neg hp]
        have hp' : p l = false := by simpa using hp
        by_cases hv : σ (Lab.int l) < n
        · rw [Finset.sum_eq_single (σ (Lab.int l)), ← keep _ σ rfl hv, ← ih s hs' hn.2 D hD' (fun d => F (σ (Lab.int l) :: d))]
          · refine nsum_congr fun d _ => ?_
            have e := hlab d (σ (Lab.int l)) σ
            by_cases h : ∀ j < (l :: c1).length, p ((l :: c1).getD j 0) = false → σ (Lab.int ((l :: c1).getD j 0)) = (σ (Lab.int l) :: d).getD j 0
            · rw [if_pos h, if_pos (e.1 h).2]
            · rw [if_neg h, if_neg (fun h' => h (e.2 ⟨fun _ => rfl, h'⟩))]
          · intro v _ hne
            exact ToBargmann.nsum_zero _ fun d _ => if_neg fun h => hne ((((hlab d v σ).1 h).1 hp').symm)
          · intro h
            exact absurd (Finset.mem_range.2 hv) h
        · rw [Finset.sum_eq_zero]
          · symm
            rw [sumOver_keep (P := fun τ => τ (Lab.int l) = σ (Lab.int l)) (G := fun _ => 0) rfl]
            · have : ∀ (ls : List Lab) (σ : Lab → ℕ), sumOver D ls (fun _ => 0) σ = 0 := by
                intro ls
                induction ls with
                | nil => intro _; rfl
                | cons a ls ih => intro σ; unfold sumOver; exact Finset.sum_eq_zero fun v _ => ih _
              exact this _ _
            · intro τ l' v' hl' hτ _
              rw [Function.update_of_ne (fun e : Lab.int l = l' => hnot (by rw [e]; exact hl'))]
              exact hτ
            · intro τ hτ
              rw [hil, List.map_cons, hτ]
              exact if_neg fun h => hv ((hinb _ _).1 h).1
          · intro v hv'
            exact ToBargmann.nsum_zero _ fun d _ => if_neg fun h => hv (by rw [((hlab d v σ).1 h).1 hp']; exact Finset.mem_range.1 hv')

end Verif.Mixed
