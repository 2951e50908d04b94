import Verif.TriplesAct
import Mathlib.Tactic.FieldSimp
import Mathlib.Tactic.LinearCombination

/-!
# The built-in gates acting on arbitrary ansätze (C52), and composition laws
-/

namespace Verif.Triples
open Verif.Fock Verif.Batch Verif.Gauss Verif.PolyExp

variable {f g : PolyExp} {b1 c1 b2 c2 bo co B B' : List ℕ}

@[simp] theorem mat_zero_zero (a : ℂ) (r : List ℂ) (rs : List (List ℂ)) : mat ((a :: r) :: rs) 0 0 = a := rfl
@[simp] theorem mat_succ (r : List ℂ) (rs : List (List ℂ)) (i j : ℕ) : mat (r :: rs) (i + 1) j = mat rs i j := rfl
@[simp] theorem mat_col (a : ℂ) (r : List ℂ) (rs : List (List ℂ)) (j : ℕ) : mat ((a :: r) :: rs) 0 (j + 1) = mat (r :: rs) 0 j := rfl
@[simp] theorem vec_zero (a : ℂ) (r : List ℂ) : vec (a :: r) 0 = a := rfl
@[simp] theorem vec_succ (a : ℂ) (r : List ℂ) (i : ℕ) : vec (a :: r) (i + 1) = vec r i := rfl

/-- **C52** (identity): contracting any ansatz with the identity on any number of modes only renames the labels. -/
theorem C52_identity {n : ℕ} {O I : List ℕ} (hf : f.WF) (sf : SymAll f) (hO : O.length = n) (hI : I.length = n)
    (H : Compat f (identity n) b1 c1 b2 (O ++ I) bo co) (hin : ∀ l ∈ I, l ∈ c1) (hout : ∀ l ∈ O, l ∉ c1) :
    ContractsTo f (identity n) b1 c1 b2 (O ++ I) bo co fun o v =>
      ev f (restrict (· ∈ b1) bo o) c1 fun l => if l ∈ I then v (O.getD (I.idxOf l) 0) else v l := by
  have gO : ∀ i < n, (O ++ I).getD i 0 = O.getD i 0 := fun i hi => List.getD_append _ _ _ _ (by omega)
  have gI : ∀ i < n, (O ++ I).getD (n + i) 0 = I.getD i 0 := fun i hi => by
    rw [List.getD_append_right _ _ _ _ (by omega), hO, Nat.add_sub_cancel_left]
  have mO : ∀ i < n, O.getD i 0 ∉ c1 := fun i hi => hout _ (by rw [List.getD_eq_getElem _ _ (by omega)]; exact List.getElem_mem _)
  have mI : ∀ i < n, I.getD i 0 ∈ c1 := fun i hi => hin _ (by rw [List.getD_eq_getElem _ _ (by omega)]; exact List.getElem_mem _)
  have key := kernel_right (N := 2 * n) (A := fun _ i j => if i + n = j ∨ j + n = i then 1 else 0) (b := fun _ _ => 0) (c := fun _ => 1)
    hf sf (by
      intro β i _ j _
      simp only [or_comm]) H (by
      intro β i hi j hj h1 h2
      have : n ≤ i := by
        by_contra h
        rw [gO i (by omega)] at h1
        exact mO i (by omega) h1
      have : n ≤ j := by
        by_contra h
        rw [gO j (by omega)] at h2
        exact mO j (by omega) h2
      rw [if_neg (by omega)])
  refine key.congr ?_
  intro o v _
  have e0 : ∑ i ∈ Finset.range (2 * n), ∑ j ∈ Finset.range (2 * n), (if (O ++ I).getD i 0 ∈ c1 then 0 else v ((O ++ I).getD i 0)) *
      (if (O ++ I).getD j 0 ∈ c1 then 0 else v ((O ++ I).getD j 0)) * (if i + n = j ∨ j + n = i then (1 : ℂ) else 0) = 0 := by
    apply Finset.sum_eq_zero
    intro i hi
    apply Finset.sum_eq_zero
    intro j hj
    have hi := Finset.mem_range.1 hi
    have hj := Finset.mem_range.1 hj
    by_cases hij : i + n = j ∨ j + n = i
    · rcases hij with rfl | rfl
      · rw [show i + n = n + i by omega, gI i (by omega), if_pos (mI i (by omega))]; ring
      · rw [show j + n = n + j by omega, gI j (by omega), if_pos (mI j (by omega))]; ring
    · rw [if_neg hij, mul_zero]
  rw [e0]
  simp only [mul_zero, Finset.sum_const_zero, add_zero, Complex.exp_zero, mul_one, zero_add]
  apply ev_congr H.lc1
  intro l hl
  have hlO : l ∉ O := fun h => hout l h hl
  by_cases hlI : l ∈ I
  · rw [if_pos hlI, if_pos (by simp [hlI])]
    have hlt : I.idxOf l < n := by rw [← hI]; exact List.idxOf_lt_length_iff.mpr hlI
    have hq : (O ++ I).idxOf l = n + I.idxOf l := by rw [List.idxOf_append_of_notMem hlO, hO]
    rw [hq, Finset.sum_eq_single (I.idxOf l)]
    · rw [if_pos (Or.inl (by omega)), gO _ hlt, if_neg (mO _ hlt), one_mul]
    · intro j _ hj
      rw [if_neg, zero_mul]
      have := Finset.mem_range.1 ‹j ∈ _›
      omega
    · intro h
      exact absurd (Finset.mem_range.2 (by omega)) h
  · rw [if_neg hlI, if_neg]
    simp [hlO, hlI]

/-- **C52** (displacement): `Dgate(α)` maps `F(z)` to `e^{-|α|²/2 + α z} F(z - ᾱ)`. -/
theorem C52_displacement {α : List ℕ → ℂ} {x l : ℕ} (hf : f.WF) (sf : SymAll f)
    (H : Compat f (displacement B α) b1 c1 b2 [x, l] bo co) (hl : l ∈ c1) (hx : x ∉ c1) :
    ContractsTo f (displacement B α) b1 c1 b2 [x, l] bo co fun o v =>
      let a := α (restrict (· ∈ b2) bo o)
      Complex.exp (a * v x - (‖a‖ : ℂ) ^ 2 / 2) *
        ev f (restrict (· ∈ b1) bo o) c1 (Function.update v l (v x - (starRingEnd ℂ) a)) := by
  refine (gate1 hf sf (fun _ => rfl) (fun _ => rfl) H hl hx).congr ?_
  intro o v _
  dsimp only
  rw [← Complex.exp_add]
  refine congr (congrArg HMul.hMul (congrArg Complex.exp ?_)) (congrArg _ ?_)
  · simp only [mat_zero_zero, vec_zero]
    push_cast; ring
  · refine congrArg (Function.update v l) ?_
    simp only [mat_col, mat_zero_zero, vec_succ, vec_zero]
    ring

/-- **C52** (rotation): `Rgate(θ)` maps `F(z)` to `F(e^{iθ} z)`. -/
theorem C52_rotation {θ : List ℕ → ℝ} {x l : ℕ} (hf : f.WF) (sf : SymAll f)
    (H : Compat f (rotation B θ) b1 c1 b2 [x, l] bo co) (hl : l ∈ c1) (hx : x ∉ c1) :
    ContractsTo f (rotation B θ) b1 c1 b2 [x, l] bo co fun o v =>
      ev f (restrict (· ∈ b1) bo o) c1 (Function.update v l (Complex.exp (Complex.I * θ (restrict (· ∈ b2) bo o)) * v x)) := by
  refine (gate1 hf sf (fun _ => rfl) (fun _ => rfl) H hl hx).congr ?_
  intro o v _
  simp only [mat_zero_zero, mat_col, mul_zero, zero_mul, add_zero, zero_add, Complex.exp_zero, one_mul]
  rfl

/-- **C52** (Fock damping): `FockDamping(β)` maps `F(z)` to `F(e^{-β} z)`. -/
theorem C52_damping {d : List ℕ → ℝ} {x l : ℕ} (hf : f.WF) (sf : SymAll f)
    (H : Compat f (fockDamping B d) b1 c1 b2 [x, l] bo co) (hl : l ∈ c1) (hx : x ∉ c1) :
    ContractsTo f (fockDamping B d) b1 c1 b2 [x, l] bo co fun o v =>
      ev f (restrict (· ∈ b1) bo o) c1 (Function.update v l (Complex.exp (-(d (restrict (· ∈ b2) bo o) : ℂ)) * v x)) := by
  refine (gate1 hf sf (fun _ => rfl) (fun _ => rfl) H hl hx).congr ?_
  intro o v _
  simp only [mat_zero_zero, mat_col, mul_zero, zero_mul, add_zero, zero_add, Complex.exp_zero, one_mul]

/-- **C52** (beam splitter): `BSgate(θ, φ)` maps `F(z₀, z₁)` to `F(cos θ z₀ + e^{iφ} sin θ z₁, cos θ z₁ - e^{-iφ} sin θ z₀)`. -/
theorem C52_beamsplitter {θ φ : List ℕ → ℝ} {x0 x1 l0 l1 : ℕ} (hf : f.WF) (sf : SymAll f)
    (H : Compat f (beamsplitter B θ φ) b1 c1 b2 [x0, x1, l0, l1] bo co) (h0 : l0 ∈ c1) (h1 : l1 ∈ c1) (hx0 : x0 ∉ c1) (hx1 : x1 ∉ c1) :
    ContractsTo f (beamsplitter B θ φ) b1 c1 b2 [x0, x1, l0, l1] bo co fun o v =>
      let t := θ (restrict (· ∈ b2) bo o)
      let p := φ (restrict (· ∈ b2) bo o)
      ev f (restrict (· ∈ b1) bo o) c1 (Function.update
        (Function.update v l0 (Real.cos t * v x0 + Complex.exp (Complex.I * p) * Real.sin t * v x1))
        l1 (Real.cos t * v x1 - Complex.exp (-(Complex.I * p)) * Real.sin t * v x0)) := by
  refine (gate2 hf sf ?_ ?_ H h0 h1 hx0 hx1).congr ?_
  · intro β i hi j hj
    interval_cases i <;> interval_cases j <;> rfl
  · intro β i hi j hj
    interval_cases i <;> interval_cases j <;> rfl
  · intro o v _
    dsimp only
    simp only [mat_zero_zero, mat_succ, mat_col, mul_zero, zero_mul, add_zero, zero_add, Complex.exp_zero, one_mul]
    refine congrArg _ ?_
    have e : ph (-φ (restrict (· ∈ b2) bo o)) = Complex.exp (-(Complex.I * φ (restrict (· ∈ b2) bo o))) := by
      unfold ph; push_cast; rw [mul_neg]
    refine congr (congrArg (fun w => Function.update w l1) (congrArg (Function.update v l0) ?_)) ?_
    · rfl
    · rw [e]; ring

/-- **C52** (amplifier): `Amplifier(g)` maps the density operator `F(z̄, z)` to `g⁻¹ e^{(1 - 1/g) z̄ z} F(z̄/√g, z/√g)`. -/
theorem C52_amplifier {G : List ℕ → ℝ} {g : PolyExp} (hg : amplifier B G = some g) {xb lb xk lk : ℕ} (hf : f.WF) (sf : SymAll f)
    (H : Compat f g b1 c1 b2 [xb, lb, xk, lk] bo co) (h0 : lb ∈ c1) (h1 : lk ∈ c1) (hx0 : xb ∉ c1) (hx1 : xk ∉ c1) :
    ContractsTo f g b1 c1 b2 [xb, lb, xk, lk] bo co fun o v =>
      let q := G (restrict (· ∈ b2) bo o)
      Complex.exp ((1 - 1 / q) * v xb * v xk) * (1 / q) *
      ev f (restrict (· ∈ b1) bo o) c1 (Function.update
        (Function.update v lb (1 / (Real.sqrt q : ℝ) * v xb)) lk (1 / (Real.sqrt q : ℝ) * v xk)) := by
  unfold amplifier at hg
  split_ifs at hg with hh
  cases hg
  refine (chan1 hf sf ?_ ?_ H h0 h1 hx0 hx1).congr ?_
  · intro β i hi j hj
    interval_cases i <;> interval_cases j <;> rfl
  · intro β
    exact ⟨rfl, rfl, rfl⟩
  · intro o v _
    dsimp only
    simp only [mat_zero_zero, mat_succ, mat_col, mul_zero, zero_mul, add_zero, zero_add]

end Verif.Triples
