import Verif.TriplesEx

/-!
# The Kraus operators of the attenuator (physics/triples.py:902-935, property C55)
-/

namespace Verif.Triples
open Verif.PolyExp Verif.Fock Verif.Batch

variable {B B' : List ℕ} {b1 b2 bo co : List ℕ}

theorem ev_mk3 {A : List ℕ → ℕ → ℕ → ℂ} {b : List ℕ → ℕ → ℂ} {c : List ℕ → ℂ} (β : List ℕ) (x y z : ℕ) (v : ℕ → ℂ) :
    ev (mk B 3 A b c) β [x, y, z] v = Complex.exp (1 / 2 * A β 0 0 * v x ^ 2 + 1 / 2 * A β 1 1 * v y ^ 2 + 1 / 2 * A β 2 2 * v z ^ 2 +
      1 / 2 * (A β 0 1 + A β 1 0) * v x * v y + 1 / 2 * (A β 0 2 + A β 2 0) * v x * v z + 1 / 2 * (A β 1 2 + A β 2 1) * v y * v z +
      b β 0 * v x + b β 1 * v y + b β 2 * v z) * c β := by
  unfold ev
  rw [mk_call]
  simp only [Finset.sum_range_succ, Finset.sum_range_zero, List.getD_cons_zero, List.getD_cons_succ]
  refine congrArg (· * _) (congrArg Complex.exp ?_)
  ring

/-- **C55**: contracting the bond index of the Kraus operators with that of their conjugates (the documented "sum over the bond index")
gives the attenuator, for every efficiency in `[0, 1]`. -/
theorem C55_kraus {η : List ℕ → ℝ} {xb lb xk lk w : ℕ} (hd : [xb, lb, xk, lk, w].Nodup)
    (hη : ∀ o, 0 ≤ η (restrict (· ∈ b1) bo o) ∧ η (restrict (· ∈ b1) bo o) ≤ 1)
    (hz : ∀ o, restrict (· ∈ b2) bo o = restrict (· ∈ b1) bo o)
    (H : Compat (attenuatorKraus B η).conj (attenuatorKraus B η) b1 [xb, lb, w] b2 [xk, lk, w] bo [xb, lb, xk, lk]) :
    ContractsTo (attenuatorKraus B η).conj (attenuatorKraus B η) b1 [xb, lb, w] b2 [xk, lk, w] bo [xb, lb, xk, lk] fun o v =>
      (attenuator [] fun _ => η (restrict (· ∈ b1) bo o)).elim 0 fun h => ev h [] [xb, lb, xk, lk] v := by
  simp only [List.nodup_cons, List.mem_cons, List.not_mem_nil, or_false, not_or] at hd
  obtain ⟨⟨d1, d2, d3, d4⟩, ⟨e1, e2, e3⟩, ⟨f1, f2⟩, g1, _⟩ := hd
  unfold attenuatorKraus at H ⊢
  rw [conj_mk] at H ⊢
  have i1 : List.idxOf w [xb, lb, w] = 2 := by
    rw [List.idxOf_cons_ne _ d4, List.idxOf_cons_ne _ e3]; simp
  have i2 : List.idxOf w [xk, lk, w] = 2 := by
    rw [List.idxOf_cons_ne _ f2, List.idxOf_cons_ne _ g1]; simp
  refine (one_label (m := w) ?_ ?_ H ?_ ?_).congr ?_
  · intro β i hi j hj
    interval_cases i <;> interval_cases j <;> rfl
  · intro β i hi j hj
    interval_cases i <;> interval_cases j <;> rfl
  · simp [d2, d3, d4, e1, e2, e3]
  · intro o ho
    rw [i1, i2]
    simp only [mat_zero_zero, mat_succ, mat_col]
    norm_num
  · intro o v _
    have h := hη o
    dsimp only
    rw [i1, i2, hz o]
    rw [attenuator_def fun o _ => ⟨h.1, h.2⟩, Option.elim_some]
    generalize restrict (· ∈ b1) bo o = β at *
    unfold lin
    rw [i1, i2, ev_mk3, ev_mk3, ev_mk4]
    simp only [Finset.sum_range_succ, Finset.sum_range_zero, List.getD_cons_zero, List.getD_cons_succ, Function.update_self,
      Function.update_of_ne d4, Function.update_of_ne e3, Function.update_of_ne f2, Function.update_of_ne g1, mat_zero_zero, mat_succ, mat_col,
      map_zero, map_neg, map_one, Complex.conj_ofReal, mul_zero, zero_mul, sub_zero, div_one, Complex.one_cpow, mul_one, ← Complex.exp_add, add_zero, one_mul]
    refine congrArg Complex.exp ?_
    have hs : ((Real.sqrt (1 - η β) : ℝ) : ℂ) ^ 2 = 1 - η β := by
      exact_mod_cast congrArg Complex.ofReal (Real.sq_sqrt (by linarith [h.2] : (0 : ℝ) ≤ 1 - η β))
    linear_combination (v lb * v lk) * hs

/-- **C55**: the Kraus operators are those of a beam splitter with the vacuum at its second input, the bond index being the second output. -/
theorem C55_kraus_beamsplitter {θ : List ℕ → ℝ} (β : List ℕ) (hθ : 0 ≤ Real.cos (θ β) ∧ 0 ≤ Real.sin (θ β)) {x l w i : ℕ} (v : ℕ → ℂ) (hi : v i = 0) :
    ev (attenuatorKraus B fun β => Real.cos (θ β) ^ 2) β [x, l, w] v = ev (beamsplitter B θ fun _ => Real.pi) β [x, w, l, i] v := by
  unfold attenuatorKraus beamsplitter
  rw [ev_mk3, ev_mk4]
  have h1 : Real.sqrt (Real.cos (θ β) ^ 2) = Real.cos (θ β) := Real.sqrt_sq hθ.1
  have h2 : Real.sqrt (1 - Real.cos (θ β) ^ 2) = Real.sin (θ β) := by
    rw [← Real.sin_sq, Real.sqrt_sq hθ.2]
  have h3 : ph Real.pi = -1 := by rw [ph, mul_comm]; exact Complex.exp_pi_mul_I
  simp only [mat_zero_zero, mat_succ, mat_col, hi, h1, h2, h3]
  refine congrArg (· * _) (congrArg Complex.exp ?_)
  ring

/-- A batch of three efficiencies. -/
example : ∃ F, ContractsTo (attenuatorKraus [3] fun _ => 1 / 3).conj (attenuatorKraus [3] fun _ => 1 / 3) [7] [0, 1, 4] [7] [2, 3, 4] [7] [0, 1, 2, 3] F :=
  Exists.intro _ (C55_kraus (B := [3]) (η := fun _ => 1 / 3) (by decide) (fun _ => by norm_num) (fun _ => rfl) (by unfold attenuatorKraus; rw [conj_mk]; exact compat_mk (by decide)))

example (v : ℕ → ℂ) (h : v 3 = 0) :
    ev (attenuatorKraus [] fun _ => Real.cos 1 ^ 2) [] [0, 1, 2] v = ev (beamsplitter [] (fun _ => 1) fun _ => Real.pi) [] [0, 2, 1, 3] v :=
  C55_kraus_beamsplitter (B := []) (θ := fun _ => 1) [] ⟨Real.cos_one_pos.le, (Real.sin_pos_of_pos_of_lt_pi one_pos (by linarith [Real.two_le_pi])).le⟩ v h

end Verif.Triples
