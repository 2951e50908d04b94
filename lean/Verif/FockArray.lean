import Verif.PolyExpProps
import Verif.PolyExpEval
import Verif.FockJoint

/-!
# Model of `fock_array` on Bargmann ansätze (C58)
-/

namespace Verif.PolyExp
open Verif.Fock Verif.Batch PolyExp

/-- `sum over the superposition axis`, absent for plain ansätze. -/
def PolyExp.supShape (f : PolyExp) : List ℕ := if f.linSup then [f.batch.getLastD 0] else []

/-- lab/circuit_components.py:490-533 `fock_array(shape)` for a Bargmann ansatz, at the batch index `β` (without the superposition axis) and the core
index `k`.  Simplifications: `hermite_renormalized` is the default `vanilla` strategy (math/backend_numpy.py:381-392), batches are independent;
`_check_fock_shape` (768-794) is the test on `shape`: `none` is its ValueError. -/
noncomputable def PolyExp.fockArray (f : PolyExp) (shape : List ℕ) (β k : List ℕ) : Option ℂ :=
  if 0 ∈ shape then none
  else if shape.length ≠ f.numCV then none
  else some (nsum f.supShape fun τ =>
    let A := f.A (β ++ τ)
    let b := f.b (β ++ τ)
    let c := f.c (β ++ τ)
    if f.derived.length = 0 then
      (vanilla shape A b (c []) (List.replicate shape.prod 0)).getD (ravel shape k) 0
    else
      let G := vanilla (shape ++ f.derived) A b 1 (List.replicate (shape ++ f.derived).prod 0)
      nsum f.derived fun d => G.getD (ravel (shape ++ f.derived) (k ++ d)) 0 * c d)

/-- Specification: the Fock amplitude at `k` of `F(z) = ∑_d c_d √d! [w^d] exp(½ (z,w)ᵀ A (z,w) + bᵀ (z,w))`. -/
noncomputable def PolyExp.fockAmp (f : PolyExp) (β k : List ℕ) : ℂ :=
  nsum f.supShape fun τ => nsum f.derived fun d => f.c (β ++ τ) d * amp f.N (f.A (β ++ τ)) (f.b (β ++ τ)) 1 (toF (k ++ d))

theorem vanilla_entry {shape : List ℕ} {A : ℕ → ℕ → ℂ} {b : ℕ → ℂ} {c : ℂ} (hA : Symm shape.length A) {k : List ℕ} (hk : InB shape k) :
    (vanilla shape A b c (List.replicate shape.prod 0)).getD (ravel shape k) 0 = amp shape.length A b c (toF k) := by
  rw [List.getD_eq_getElem?_getD, (C19_vanilla_correct shape A b c _ (by simp) hA k hk).2, Option.getD_some]
  rfl

theorem inB_append {s t k l : List ℕ} (h : InB s k) (h' : InB t l) : InB (s ++ t) (k ++ l) := List.rel_append h h'

/-- **C58**: `fock_array` returns the Fock amplitudes at every index of every valid shape; the amplitude does not depend on the shape. -/
theorem C58_entries (f : PolyExp) (hf : f.WF) (hs : ∀ β, Symm f.N (f.A β)) (shape β k : List ℕ) (h0 : 0 ∉ shape) (hl : shape.length = f.numCV)
    (hk : InB shape k) : f.fockArray shape β k = some (f.fockAmp β k) := by
  unfold PolyExp.fockArray PolyExp.fockAmp
  rw [if_neg h0, if_neg (not_not.2 hl)]
  refine congrArg some (nsum_congr fun τ _ => ?_)
  have hN : (shape ++ f.derived).length = f.N := by
    have := hf.der
    rw [List.length_append, hl]; simp only [PolyExp.numCV]; omega
  split_ifs with hd
  · have e : f.derived = [] := List.length_eq_zero_iff.1 hd
    rw [e, List.append_nil] at hN
    rw [e, nsum_nil, vanilla_entry (by rw [hN]; exact hs _) hk, hN, List.append_nil, amp_smul]
  · refine nsum_congr fun d hd' => ?_
    rw [vanilla_entry (by rw [hN]; exact hs _) (inB_append hk hd'), hN, mul_comm]

/-- Wrong shapes are rejected. -/
theorem C58_errors (f : PolyExp) (shape β k : List ℕ) : f.fockArray shape β k = none ↔ 0 ∈ shape ∨ shape.length ≠ f.numCV := by
  unfold PolyExp.fockArray
  split_ifs with h1 h2 <;> simp [*]

theorem hasSum_nsum {ι : Type*} (s : List ℕ) (F : List ℕ → ι → ℂ) (S : List ℕ → ℂ) (h : ∀ k, InB s k → HasSum (F k) (S k)) :
    HasSum (fun i => nsum s fun k => F k i) (nsum s S) := by
  unfold nsum
  have : ∀ l : List (List ℕ), (∀ k ∈ l, HasSum (F k) (S k)) → HasSum (fun i => (l.map fun k => F k i).sum) (l.map S).sum := by
    intro l
    induction l with
    | nil => intro _; simpa using hasSum_zero
    | cons a l ih =>
      intro hl
      simp only [List.map_cons, List.sum_cons]
      exact (hl a (by simp)).add (ih fun k hk => hl k (by simp [hk]))
  exact this _ fun k hk => h k (mem_ndindex.1 hk)

theorem call_supShape (f : PolyExp) (β : List ℕ) (z : ℕ → ℂ) : f.call β z = nsum f.supShape fun τ => f.termAt (β ++ τ) z := by
  unfold PolyExp.call PolyExp.supShape
  split_ifs with h
  · rw [nsum_cons]; simp only [nsum_nil]
  · rw [nsum_nil, List.append_nil]

/-- **C58**: the Fock amplitudes are the coefficients of the ansatz in the number basis: at every point `z`,
`F(z) = ∑_k F_k ∏ z_i^{k_i} / √k_i!`, and the series converges absolutely. -/
theorem C58_series (f : PolyExp) (hf : f.WF) (hs : ∀ β, Symm f.N (f.A β)) (β : List ℕ) (z : ℕ → ℂ) :
    HasSum (fun k : Fin f.numCV → ℕ => f.fockAmp β (List.ofFn k) * ∏ i : Fin f.numCV, z i ^ k i / (Real.sqrt ((k i).factorial : ℝ) : ℂ)) (f.call β z) := by
  have hN : f.numCV + f.derived.length = f.N := by have := hf.der; simp only [PolyExp.numCV]; omega
  rw [call_supShape]
  have e : ∀ k : Fin f.numCV → ℕ, f.fockAmp β (List.ofFn k) * ∏ i : Fin f.numCV, z i ^ k i / (Real.sqrt ((k i).factorial : ℝ) : ℂ) =
      nsum f.supShape fun τ => nsum f.derived fun d => f.c (β ++ τ) d * (amp f.N (f.A (β ++ τ)) (f.b (β ++ τ)) 1 (J k (toF d)) * wt z k) := by
    intro k
    unfold PolyExp.fockAmp
    rw [← nsum_mul_right]
    refine nsum_congr fun τ _ => ?_
    rw [← nsum_mul_right]
    refine nsum_congr fun d _ => ?_
    rw [toF_ofFn, mul_assoc]
    rfl
  simp only [e]
  refine hasSum_nsum _ _ _ fun τ _ => ?_
  unfold PolyExp.termAt termVal
  rw [← nsum_mul_left]
  refine hasSum_nsum _ _ _ fun d hd => ?_
  have h := (amp_hasSum (n := f.numCV) (m := f.derived.length) (A := f.A (β ++ τ)) (f.b (β ++ τ)) z (by rw [hN]; exact hs _) (toF d)
    (toF_below d (le_of_eq (List.Forall₂.length_eq hd)))).mul_left (f.c (β ++ τ) d)
  rw [hN] at h
  rw [mul_left_comm]
  exact h

end Verif.PolyExp
