import Verif.ToBargmann

/-!
# The scalar part of an ansatz and `number >> component` (C112)
-/

namespace Verif.ScalarPart
open Verif.Fock Verif.Batch Verif.PolyExp PolyExp Verif.Arr Verif.ToBargmann Verif.Triples

/-- physics/ansatz/polyexp_ansatz.py:247-258 `scalar`, at one batch index (without the superposition axis): without any variables the coefficients (summed over a superposition,
253), otherwise the value without arguments (255) or at zero (257). -/
noncomputable def scalarB (f : PolyExp) (β : List ℕ) : ℂ :=
  if f.numCV = 0 ∧ f.derived.length = 0 then
    if f.linSup then ∑ l ∈ Finset.range (f.batch.getLastD 0), f.c (β ++ [l]) [] else f.c β []
  else f.call β fun _ => 0

/-- lab/circuit_components.py:945-955 `__rrshift__` (`number >> component`) of a component in Bargmann representation. -/
noncomputable def rrshiftB (x : ℂ) (f : PolyExp) (β : List ℕ) : ℂ := scalarB (f.mul x) β

/-- lab/circuit_components.py:945-955 `__rrshift__` (`number >> component`) of a component in Fock representation. -/
noncomputable def rrshiftF (x : ℂ) (a : Arr) (β : List ℕ) : ℂ := (a.mul x).scalar β

/-- **C112** the special cases without variables agree with the general one: the scalar part is the value at zero. -/
theorem C112_value (f : PolyExp) (β : List ℕ) : scalarB f β = f.call β fun _ => 0 := by
  unfold scalarB
  by_cases h : f.numCV = 0 ∧ f.derived.length = 0
  · rw [if_pos h]
    have hd : f.derived = [] := List.length_eq_zero_iff.1 h.2
    have e : ∀ γ, f.termAt γ (fun _ => 0) = f.c γ [] := by
      intro γ
      unfold PolyExp.termAt termVal
      rw [hd, nsum_nil, h.1]
      have e0 : toF [] = 0 := by ext i; rw [toF_apply]; rfl
      rw [e0, amp_zero, Finset.range_zero, Finset.sum_empty, Finset.sum_empty, mul_zero, add_zero, Complex.exp_zero, one_mul, mul_one]
    unfold PolyExp.call
    simp only [e]
  · rw [if_neg h]

/-- **C112** the scalar part is the amplitude of the vacuum. -/
theorem C112_vacuum (f : PolyExp) (hf : f.WF) (hs : ∀ β, Symm f.N (f.A β)) (β : List ℕ) : scalarB f β = f.fockAmp β (List.replicate f.numCV 0) := by
  rw [C112_value f]
  have h := C58_series f hf hs β fun _ => 0
  have e : List.ofFn (0 : Fin f.numCV → ℕ) = List.replicate f.numCV 0 := List.ofFn_const _ _
  refine (h.unique ?_)
  have h1 := hasSum_single (f := fun k : Fin f.numCV → ℕ => f.fockAmp β (List.ofFn k) * ∏ i : Fin f.numCV, (0 : ℂ) ^ k i / (Real.sqrt ((k i).factorial : ℝ) : ℂ)) 0 (by
    intro k hk
    obtain ⟨i, hi⟩ := Function.ne_iff.1 hk
    beta_reduce
    rw [Finset.prod_eq_zero (Finset.mem_univ i) (by rw [zero_pow hi, zero_div]), mul_zero])
  beta_reduce at h1
  rw [e] at h1
  simpa using h1

/-- **C112** converting to Fock representation, with any cutoffs, does not change the scalar part. -/
theorem C112_toFock (f : PolyExp) (hf : f.WF) (hs : ∀ β, Symm f.N (f.A β)) (shape β : List ℕ) (h0 : 0 ∉ shape) (hl : shape.length = f.numCV)
    (hβ : β.length = f.outBatch.length) : ∃ x, toFock f shape = some x ∧ x.arr.scalar β = scalarB f β := by
  refine ⟨_, if_neg (by rw [not_or]; exact ⟨h0, not_not.2 hl⟩), ?_⟩
  have hz : InB shape (List.replicate shape.length 0) := by
    clear hl
    induction shape with
    | nil => exact List.Forall₂.nil
    | cons s t ih =>
      rw [List.mem_cons, not_or] at h0
      exact List.Forall₂.cons (Nat.pos_of_ne_zero (Ne.symm h0.1)) (ih h0.2)
  have hb : (if f.linSup = true then f.batch.dropLast else f.batch).length = β.length := hβ.symm
  unfold Arr.scalar Arr.core
  dsimp only
  rw [List.drop_left, hb, List.take_left' rfl, List.drop_left' rfl, C58_entries f hf hs shape β _ h0 hl hz, Option.getD_some, C112_vacuum f hf hs, hl]

/-- **C112** converting an array without batches to Bargmann representation does not change the scalar part. -/
theorem C112_toBargmann (a : Arr) (hb : a.batchDims = 0) (h0 : 0 ∉ a.shape) : ∃ f, toBargmann a = some f ∧ scalarB f [] = a.scalar [] := by
  obtain ⟨f, h1, hp, h2, h3, h4⟩ := toBargmann_poly a hb
  have hz : InB a.shape (List.replicate a.shape.length 0) := by
    generalize a.shape = s at h0
    induction s with
    | nil => exact List.Forall₂.nil
    | cons s t ih =>
      rw [List.mem_cons, not_or] at h0
      exact List.Forall₂.cons (Nat.pos_of_ne_zero (Ne.symm h0.1)) (ih h0.2)
  refine ⟨f, h1, ?_⟩
  have hc : a.core = a.shape := by unfold Arr.core; rw [hb]; rfl
  rw [C112_vacuum f hp.wf hp.symm, hp.numCV, hp.fockAmp [] _ (List.length_replicate), h2, if_pos (inb_iff.2 hz), h3]
  unfold Arr.scalar
  rw [hc]
  rfl

/-- **C112** `number >> component` is, in both representations, the number times the amplitude of the vacuum of the component, whatever wires the component has: a number, not a component. -/
theorem C112_rrshift (x : ℂ) (f : PolyExp) (hf : f.WF) (hs : ∀ β, Symm f.N (f.A β)) (a : Arr) (β : List ℕ) :
    rrshiftB x f β = x * f.fockAmp β (List.replicate f.numCV 0) ∧ rrshiftF x a β = x * a.get (β ++ List.replicate a.core.length 0) := by
  constructor
  · unfold rrshiftB
    rw [C112_value, (C27_scalar f x β _).1, ← C112_value f, C112_vacuum f hf hs, mul_comm]
  · exact mul_comm _ _

/-- `2 >> identity gate` is 2. -/
example : rrshiftB 2 (identity 1) [] = 2 ∧ rrshiftF 2 ⟨0, [2, 3], fun k => k.sum + 7⟩ [] = 14 := by
  have hs : ∀ β, Symm (identity 1).N ((identity 1).A β) := fun _ => identity_symm 1
  have hw : (identity 1).WF := ⟨by decide, by intro h; cases h⟩
  constructor
  · unfold rrshiftB
    rw [C112_value, (C27_scalar _ _ _ _).1]
    have e : (identity 1).call [] (fun _ => 0) = 1 := by
      unfold PolyExp.call PolyExp.termAt termVal
      have e0 : toF [] = 0 := by ext i; rw [toF_apply]; rfl
      have e1 : (identity 1).linSup = false := rfl
      have e2 : (identity 1).derived = [] := rfl
      have e3 : (identity 1).c [] [] = 1 := rfl
      rw [e1, if_neg (by simp), e2, nsum_nil, e0, amp_zero, e3]
      simp
    rw [e, one_mul]
  · rw [(C112_rrshift 2 (identity 1) hw hs _ []).2]
    show 2 * (((List.replicate 2 0).sum : ℕ) + 7 : ℂ) = 14
    simp; norm_num

end Verif.ScalarPart
