import Verif.TriplesGates

/-!
# State preparation (C53) and composition of gates (C54)
-/

namespace Verif.Triples
open Verif.Fock Verif.Batch Verif.Gauss Verif.PolyExp

variable {f g : PolyExp} {b1 c1 b2 c2 bo co B B' : List ℕ} {N : ℕ} {A : List ℕ → ℕ → ℕ → ℂ} {b : List ℕ → ℕ → ℂ} {c : List ℕ → ℂ}

theorem ev_mk1 (β : List ℕ) (x : ℕ) (v : ℕ → ℂ) :
    ev (mk B 1 A b c) β [x] v = Complex.exp (1 / 2 * A β 0 0 * v x ^ 2 + b β 0 * v x) * c β := by
  unfold ev
  rw [mk_call]
  simp only [Finset.sum_range_succ, Finset.sum_range_zero, List.getD_cons_zero]
  refine congrArg (· * _) (congrArg Complex.exp ?_)
  ring

theorem ev_mk2 (β : List ℕ) (x y : ℕ) (v : ℕ → ℂ) :
    ev (mk B 2 A b c) β [x, y] v = Complex.exp (1 / 2 * A β 0 0 * v x ^ 2 + 1 / 2 * (A β 0 1 + A β 1 0) * v x * v y + 1 / 2 * A β 1 1 * v y ^ 2 +
      b β 0 * v x + b β 1 * v y) * c β := by
  unfold ev
  rw [mk_call]
  simp only [Finset.sum_range_succ, Finset.sum_range_zero, List.getD_cons_zero, List.getD_cons_succ]
  refine congrArg (· * _) (congrArg Complex.exp ?_)
  ring

theorem ev_mk4 (β : List ℕ) (x y z w : ℕ) (v : ℕ → ℂ) :
    ev (mk B 4 A b c) β [x, y, z, w] v = Complex.exp (1 / 2 * A β 0 0 * v x ^ 2 + 1 / 2 * A β 1 1 * v y ^ 2 + 1 / 2 * A β 2 2 * v z ^ 2 +
      1 / 2 * A β 3 3 * v w ^ 2 + 1 / 2 * (A β 0 1 + A β 1 0) * v x * v y + 1 / 2 * (A β 0 2 + A β 2 0) * v x * v z +
      1 / 2 * (A β 0 3 + A β 3 0) * v x * v w + 1 / 2 * (A β 1 2 + A β 2 1) * v y * v z + 1 / 2 * (A β 1 3 + A β 3 1) * v y * v w +
      1 / 2 * (A β 2 3 + A β 3 2) * v z * v w + b β 0 * v x + b β 1 * v y + b β 2 * v z + b β 3 * v w) * c β := by
  unfold ev
  rw [mk_call]
  simp only [Finset.sum_range_succ, Finset.sum_range_zero, List.getD_cons_zero, List.getD_cons_succ]
  refine congrArg (· * _) (congrArg Complex.exp ?_)
  ring

/-! ### Labels of the usual circuits -/

/-- An unbatched state feeding all its variables, in order, into the inputs `I` of a gate with output labels `O`. -/
theorem compat_state {n N' : ℕ} {A' : List ℕ → ℕ → ℕ → ℂ} {b' : List ℕ → ℕ → ℂ} {c' : List ℕ → ℂ} {O I : List ℕ} (hn : I.length = n)
    (hN : O.length + n = N') (hd : (O ++ I).Nodup) (hb : b2.Nodup) (hl : b2.length = B'.length) :
    Compat (mk [] n A b c) (mk B' N' A' b' c') [] I b2 (O ++ I) b2 O := by
  rw [List.nodup_append] at hd
  obtain ⟨d1, d2, d3⟩ := hd
  refine ⟨by simp, hb, by simp [mk_outBatch], by simp [mk_outBatch, hl], by simp, by simp, fun d h => Or.inr h, by simp, d2, ?_, ?_, ?_, ?_, ?_, ?_⟩
  · rw [List.nodup_append]; exact ⟨d1, d2, d3⟩
  · rw [mk_numCV, hn]
  · rw [mk_numCV, List.length_append, hn, hN]
  · rw [List.filter_append]
    have e1 : O.filter (· ∈ I) = [] := by
      rw [List.filter_eq_nil_iff]; intro a ha
      simp only [decide_eq_true_eq]
      exact fun h => d3 a ha a h rfl
    rw [e1, List.nil_append, List.filter_eq_self.2 (fun a ha => by simp [ha]), List.filter_eq_self.2 (fun a ha => by simpa using ha)]
  · have e1 : I.filter (· ∉ O ++ I) = [] := by
      rw [List.filter_eq_nil_iff]; intro a ha; simp [ha]
    have e2 : I.filter (· ∉ I) = [] := by
      rw [List.filter_eq_nil_iff]; intro a ha; simp [ha]
    have e3 : O.filter (· ∉ I) = O := by
      rw [List.filter_eq_self]; intro a ha
      simp only [decide_eq_true_eq]
      exact fun h => d3 a ha a h rfl
    rw [e1, List.nil_append, List.filter_append, e2, e3, List.append_nil]
  · intro h; cases h

theorem restrict_self {b2 o s : List ℕ} (hl : b2.length = s.length) (ho : InB s o) : restrict (· ∈ b2) b2 o = o :=
  restrict_all _ _ _ (by rw [hl]; exact (List.Forall₂.length_eq ho).symm) fun d hd => by simpa using hd

theorem outDims_right (hb : b2.Nodup) (hl : b2.length = B'.length) :
    (b2.map fun d => if d ∈ ([] : List ℕ) then Batch.sizeOf [] ([] : List ℕ) d else Batch.sizeOf b2 B' d) = B' := by
  simp only [List.not_mem_nil, if_false]
  exact map_sizeOf hb hl.symm

/-- **C53** (vacuum): feeding the vacuum of any number of modes into any gate, or any other ansatz built from a triple, evaluates it at zero on
those inputs. -/
theorem C53_vacuum {n N' : ℕ} {A' : List ℕ → ℕ → ℕ → ℂ} {b' : List ℕ → ℕ → ℂ} {c' : List ℕ → ℂ} {O I : List ℕ} (hn : I.length = n)
    (hN : O.length + n = N') (hd : (O ++ I).Nodup) (hb : b2.Nodup) (hl : b2.length = B'.length)
    (hs : ∀ β, ∀ i < N', ∀ j < N', A' β i j = A' β j i) :
    ContractsTo (vacuum n) (mk B' N' A' b' c') [] I b2 (O ++ I) b2 O fun o v =>
      ev (mk B' N' A' b' c') o (O ++ I) fun l => if l ∈ I then 0 else v l := by
  have H := compat_state (A := fun _ _ _ => 0) (b := fun _ _ => 0) (c := fun _ => 1) (A' := A') (b' := b') (c' := c') (B' := B') hn hN hd hb hl
  refine (kernel_left mk_wf (mk_symm hs) (fun _ _ _ _ _ => rfl) H (fun _ _ _ _ _ _ _ => rfl)).congr ?_
  intro o v ho
  rw [mk_outBatch, mk_outBatch, outDims_right hb hl] at ho
  simp only [mul_zero, zero_mul, Finset.sum_const_zero, add_zero, Complex.exp_zero, mul_one, one_mul]
  rw [restrict_self hl ho]

/-- **C53**: `Vacuum >> Dgate(α)` is `Coherent(α)`. -/
theorem C53_coherent {α : List ℕ → ℂ} {x l : ℕ} (hxl : x ≠ l) (hb : b2.Nodup) (hl : b2.length = B.length) :
    ContractsTo (vacuum 1) (displacement B α) [] [l] b2 [x, l] b2 [x] fun o v => ev (coherent B α) o [x] v := by
  refine (C53_vacuum (n := 1) (N' := 2) (O := [x]) (I := [l]) rfl rfl (by simpa using hxl) hb hl ?_).congr ?_
  · intro β i hi j hj
    interval_cases i <;> interval_cases j <;> rfl
  · intro o v _
    unfold coherent
    rw [ev_mk1, List.singleton_append, ev_mk2, if_neg (by simpa using hxl), if_pos (by simp)]
    simp only [mat_zero_zero, mat_succ, mat_col, vec_zero, vec_succ]
    rw [← Complex.exp_add, ← Complex.exp_add]
    congr 1
    push_cast; ring

/-- **C53**: `Vacuum >> Sgate(r, φ)` is `SqueezedVacuum(r, φ)`. -/
theorem C53_squeezed {r φ : List ℕ → ℝ} {x l : ℕ} (hxl : x ≠ l) (hb : b2.Nodup) (hl : b2.length = B.length) :
    ContractsTo (vacuum 1) (squeezing B r φ) [] [l] b2 [x, l] b2 [x] fun o v => ev (squeezedVacuum B r φ) o [x] v := by
  refine (C53_vacuum (n := 1) (N' := 2) (O := [x]) (I := [l]) rfl rfl (by simpa using hxl) hb hl ?_).congr ?_
  · intro β i hi j hj
    interval_cases i <;> interval_cases j <;> rfl
  · intro o v _
    unfold squeezedVacuum
    rw [ev_mk1, List.singleton_append, ev_mk2, if_neg (by simpa using hxl), if_pos (by simp)]
    simp only [mat_zero_zero, mat_succ, mat_col]
    refine congrArg (· * _) (congrArg Complex.exp ?_)
    ring

/-- **C53**: `Vacuum(2 modes) >> S2gate(r, φ)` is `TwoModeSqueezedVacuum(r, φ)`. -/
theorem C53_tmsv {r φ : List ℕ → ℝ} {x y l m : ℕ} (hd : [x, y, l, m].Nodup) (hb : b2.Nodup) (hl : b2.length = B.length) :
    ContractsTo (vacuum 2) (twoModeSqueezing B r φ) [] [l, m] b2 [x, y, l, m] b2 [x, y] fun o v => ev (tmsv B r φ) o [x, y] v := by
  refine (C53_vacuum (n := 2) (N' := 4) (O := [x, y]) (I := [l, m]) rfl rfl hd hb hl ?_).congr ?_
  · intro β i hi j hj
    interval_cases i <;> interval_cases j <;> rfl
  · intro o v _
    simp only [List.nodup_cons, List.mem_cons, List.not_mem_nil, or_false, not_or] at hd
    obtain ⟨⟨d1, d2, d3⟩, ⟨d4, d5⟩, d6, _⟩ := hd
    unfold tmsv
    rw [ev_mk2, show [x, y] ++ [l, m] = [x, y, l, m] from rfl, ev_mk4]
    simp only [List.mem_cons, List.not_mem_nil, or_false, d2, d3, d4, d5, d6, if_true, if_false, or_true, true_or, or_self]
    simp only [mat_zero_zero, mat_succ, mat_col]
    refine congrArg (· * _) (congrArg Complex.exp ?_)
    ring

/-- **C53**: `SqueezedVacuum(r, φ) >> Dgate(α)` is `DisplacedSqueezed(α, r, φ)` (state and gate with the same batch). -/
theorem C53_displaced_squeezed {α : List ℕ → ℂ} {r φ : List ℕ → ℝ} {x l : ℕ}
    (H : Compat (squeezedVacuum B r φ) (displacement B α) b2 [l] b2 [x, l] b2 [x]) (hxl : x ≠ l) :
    ContractsTo (squeezedVacuum B r φ) (displacement B α) b2 [l] b2 [x, l] b2 [x] fun o v => ev (displacedSqueezed B α r φ) o [x] v := by
  refine (C52_displacement mk_wf (mk_symm ?_) H (by simp) (by simpa using hxl)).congr ?_
  · intro β i hi j hj
    interval_cases i; interval_cases j; rfl
  · intro o v ho
    have hl : b2.length = B.length := by have := H.lb1; rwa [squeezedVacuum, mk_outBatch] at this
    unfold squeezedVacuum displacement at ho
    rw [mk_outBatch, mk_outBatch,
      show (b2.map fun d => if d ∈ b2 then Batch.sizeOf b2 B d else Batch.sizeOf b2 B d) = B by
        simp only [ite_self]; exact map_sizeOf H.nb1 hl.symm] at ho
    dsimp only
    rw [restrict_self hl ho]
    unfold displacedSqueezed
    rw [ev_mk1, ev_mk1, Function.update_self]
    simp only [mat_zero_zero, vec_zero, zero_mul, add_zero]
    rw [div_eq_mul_one_div (Complex.exp _) (_ : ℂ)]
    simp only [← mul_assoc, ← Complex.exp_add]
    refine congrArg (· * _) (congrArg Complex.exp ?_)
    have e1 : ((α o).re : ℂ) + Complex.I * (α o).im = α o := by
      rw [mul_comm]; exact Complex.re_add_im _
    have e2 : ((α o).re : ℂ) - Complex.I * (α o).im = (starRingEnd ℂ) (α o) := by
      apply Complex.ext <;> simp
    have e3 : ((α o).re : ℂ) ^ 2 + ((α o).im : ℂ) ^ 2 = (‖α o‖ : ℂ) ^ 2 := by
      have : ‖α o‖ ^ 2 = (α o).re ^ 2 + (α o).im ^ 2 := by
        rw [← Complex.normSq_eq_norm_sq, Complex.normSq_apply]; ring
      exact_mod_cast congrArg Complex.ofReal this.symm
    rw [e1, e2, e3]
    ring

/-! ### Coherent states (C53) -/

/-- A coherent state fed into any ansatz `g` (any gate, channel, dual state, observable …) evaluates `g` at the amplitude. -/
theorem C53_coherent_in {α : List ℕ → ℂ} {l : ℕ} (hg : g.WF) (sg : SymAll g)
    (H : Compat (coherent B α) g b1 [l] b2 c2 bo co) (hl : l ∈ c2) :
    ContractsTo (coherent B α) g b1 [l] b2 c2 bo co fun o v =>
      let a := α (restrict (· ∈ b1) bo o)
      Complex.exp (-(‖a‖ : ℂ) ^ 2 / 2) * ev g (restrict (· ∈ b2) bo o) c2 (Function.update v l a) := by
  refine (state1_left hg sg (fun _ => rfl) H hl).congr ?_
  intro o v _
  dsimp only
  refine congrArg (· * _) (congrArg Complex.exp ?_)
  push_cast; ring

/-- `|a + b|² = |a|² + |b|² + a b̄ + ā b`. -/
theorem norm_add_sq (a b : ℂ) : (‖a + b‖ : ℂ) ^ 2 = (‖a‖ : ℂ) ^ 2 + (‖b‖ : ℂ) ^ 2 + a * (starRingEnd ℂ) b + (starRingEnd ℂ) a * b := by
  rw [← Complex.mul_conj', ← Complex.mul_conj', ← Complex.mul_conj', map_add]
  ring

/-- **C53**: `Coherent(α) >> Dgate(β)` is `e^{(ᾱβ - αβ̄)/2} Coherent(α + β)`, elementwise over the batches. -/
theorem C53_coherent_displaced {α : List ℕ → ℂ} {β : List ℕ → ℂ} {x l : ℕ} (hxl : x ≠ l)
    (H : Compat (coherent B α) (displacement B' β) b1 [l] b2 [x, l] bo co) :
    ContractsTo (coherent B α) (displacement B' β) b1 [l] b2 [x, l] bo co fun o v =>
      let a := α (restrict (· ∈ b1) bo o)
      let b := β (restrict (· ∈ b2) bo o)
      Complex.exp (((starRingEnd ℂ) a * b - a * (starRingEnd ℂ) b) / 2) * ev (coherent [] fun _ => a + b) [] [x] v := by
  refine (C53_coherent_in mk_wf (mk_symm ?_) H (by simp)).congr ?_
  · intro γ i hi j hj
    interval_cases i <;> interval_cases j <;> rfl
  · intro o v _
    dsimp only
    unfold coherent
    rw [ev_mk1, ev_mk2, Function.update_self, Function.update_of_ne hxl]
    simp only [mat_zero_zero, mat_succ, mat_col, vec_zero, vec_succ, ← mul_assoc, ← Complex.exp_add]
    refine congrArg Complex.exp ?_
    push_cast
    rw [norm_add_sq]
    ring

/-- **C53**: `Coherent(α) >> Rgate(θ)` is `Coherent(e^{iθ} α)`. -/
theorem C53_coherent_rotated {α : List ℕ → ℂ} {θ : List ℕ → ℝ} {x l : ℕ} (hxl : x ≠ l)
    (H : Compat (coherent B α) (rotation B' θ) b1 [l] b2 [x, l] bo co) :
    ContractsTo (coherent B α) (rotation B' θ) b1 [l] b2 [x, l] bo co fun o v =>
      ev (coherent [] fun _ => Complex.exp (Complex.I * θ (restrict (· ∈ b2) bo o)) * α (restrict (· ∈ b1) bo o)) [] [x] v := by
  refine (C53_coherent_in mk_wf (mk_symm ?_) H (by simp)).congr ?_
  · intro γ i hi j hj
    interval_cases i <;> interval_cases j <;> rfl
  · intro o v _
    dsimp only
    unfold coherent
    rw [ev_mk1, ev_mk2, Function.update_self, Function.update_of_ne hxl]
    have hn : ‖Complex.exp (Complex.I * θ (restrict (· ∈ b2) bo o))‖ = 1 := by
      rw [mul_comm]; exact Complex.norm_exp_ofReal_mul_I _
    simp only [mat_zero_zero, mat_succ, mat_col, vec_zero, vec_succ, ← mul_assoc, ← Complex.exp_add, norm_mul, hn, one_mul, mul_one]
    refine congrArg Complex.exp ?_
    unfold ph
    push_cast
    ring

/-- **C53**: two coherent states on a beam splitter leave as two coherent states (elementwise over the batches): the amplitudes `(a, b)` become
`(cos θ a - e^{-iφ} sin θ b, e^{iφ} sin θ a + cos θ b)`.  The input is the two-mode product `Coherent(a) >> Coherent(b)`, the ansatz with
`A = 0`, `b = (a, b)`, `c = e^{-(|a|² + |b|²)/2}`. -/
theorem C53_coherent_beamsplitter {a b : List ℕ → ℂ} {θ φ : List ℕ → ℝ} {x0 x1 l0 l1 : ℕ} (hd : [x0, x1, l0, l1].Nodup)
    (H : Compat (mk B 2 (fun _ _ _ => 0) (fun β => vec [a β, b β]) fun β => Complex.exp (-((‖a β‖ : ℂ) ^ 2 + (‖b β‖ : ℂ) ^ 2) / 2))
      (beamsplitter B' θ φ) b1 [l0, l1] b2 [x0, x1, l0, l1] bo co) :
    ContractsTo (mk B 2 (fun _ _ _ => 0) (fun β => vec [a β, b β]) fun β => Complex.exp (-((‖a β‖ : ℂ) ^ 2 + (‖b β‖ : ℂ) ^ 2) / 2))
      (beamsplitter B' θ φ) b1 [l0, l1] b2 [x0, x1, l0, l1] bo co fun o v =>
      let α := a (restrict (· ∈ b1) bo o)
      let β := b (restrict (· ∈ b1) bo o)
      let t := θ (restrict (· ∈ b2) bo o)
      let p := φ (restrict (· ∈ b2) bo o)
      ev (coherent [] fun _ => Real.cos t * α - Complex.exp (-(Complex.I * p)) * Real.sin t * β) [] [x0] v *
        ev (coherent [] fun _ => Complex.exp (Complex.I * p) * Real.sin t * α + Real.cos t * β) [] [x1] v := by
  simp only [List.nodup_cons, List.mem_cons, List.not_mem_nil, or_false, not_or] at hd
  obtain ⟨⟨d1, d2, d3⟩, ⟨d4, d5⟩, d6, _⟩ := hd
  refine (C52_beamsplitter mk_wf (mk_symm fun _ _ _ _ _ => rfl) H (by simp) (by simp) (by simp [d2, d3]) (by simp [d4, d5])).congr ?_
  intro o v _
  dsimp only
  unfold coherent
  generalize restrict (· ∈ b1) bo o = o1
  generalize restrict (· ∈ b2) bo o = o2
  rw [ev_mk1, ev_mk1, ev_mk2, Function.update_self, Function.update_of_ne d6, Function.update_self]
  simp only [vec_zero, vec_succ, mul_zero, zero_mul, zero_add, add_zero]
  simp only [← mul_assoc]
  rw [mul_assoc (Complex.exp _) (Complex.exp _) (Complex.exp _), mul_comm (Complex.exp _ * _), ]
  simp only [mul_assoc, ← Complex.exp_add]
  refine congrArg Complex.exp ?_
  have hc : (Real.cos (θ o2) : ℂ) ^ 2 + (Real.sin (θ o2) : ℂ) ^ 2 = 1 := by exact_mod_cast Real.cos_sq_add_sin_sq _
  have hp : Complex.exp (Complex.I * φ o2) * Complex.exp (-(Complex.I * φ o2)) = 1 := by rw [← Complex.exp_add, add_neg_cancel, Complex.exp_zero]
  have hs : (starRingEnd ℂ) (Complex.exp (Complex.I * φ o2)) = Complex.exp (-(Complex.I * φ o2)) := by
    rw [← Complex.exp_conj]; simp
  have hs' : (starRingEnd ℂ) (Complex.exp (-(Complex.I * φ o2))) = Complex.exp (Complex.I * φ o2) := by
    rw [← Complex.exp_conj]; simp
  rw [Complex.ofReal_mul, Complex.ofReal_mul, Complex.ofReal_pow, Complex.ofReal_pow]
  simp only [← Complex.mul_conj', map_add, map_sub, map_mul, hs, hs', Complex.conj_ofReal, Complex.ofReal_neg, Complex.ofReal_div,
    Complex.ofReal_one, Complex.ofReal_ofNat]
  generalize Complex.exp (Complex.I * φ o2) = P at *
  generalize Complex.exp (-(Complex.I * φ o2)) = Q at *
  generalize (Real.cos (θ o2) : ℂ) = C at *
  generalize (Real.sin (θ o2) : ℂ) = S at *
  linear_combination ((a o1 * (starRingEnd ℂ) (a o1) + b o1 * (starRingEnd ℂ) (b o1)) / 2) * hc +
    (S ^ 2 * (a o1 * (starRingEnd ℂ) (a o1) + b o1 * (starRingEnd ℂ) (b o1)) / 2) * hp

/-! ### Composition of gates (C54) -/

/-- **C54**: `Dgate(α) >> Dgate(β)` is `e^{(ᾱβ - αβ̄)/2} Dgate(α + β)`. -/
theorem C54_displacement {α β : List ℕ → ℂ} {x m l : ℕ} (hxm : x ≠ m) (hxl : x ≠ l)  (hlm : l ≠ m)
    (H : Compat (displacement B α) (displacement B' β) b1 [m, l] b2 [x, m] bo [x, l]) :
    ContractsTo (displacement B α) (displacement B' β) b1 [m, l] b2 [x, m] bo [x, l] fun o v =>
      let a := α (restrict (· ∈ b1) bo o)
      let b := β (restrict (· ∈ b2) bo o)
      Complex.exp (((starRingEnd ℂ) a * b - a * (starRingEnd ℂ) b) / 2) * ev (displacement [] fun _ => a + b) [] [x, l] v := by
  refine (C52_displacement mk_wf (mk_symm ?_) H (by simp) (by simp [hxm, hxl])).congr ?_
  · intro γ i hi j hj
    interval_cases i <;> interval_cases j <;> rfl
  · intro o v _
    dsimp only
    unfold displacement
    rw [ev_mk2, ev_mk2, Function.update_self, Function.update_of_ne hlm]
    simp only [mat_zero_zero, mat_succ, mat_col, vec_zero, vec_succ, ← mul_assoc, ← Complex.exp_add]
    refine congrArg Complex.exp ?_
    push_cast
    rw [norm_add_sq, map_add]
    ring

/-- **C54**: `Rgate(θ) >> Rgate(θ')` is `Rgate(θ + θ')`. -/
theorem C54_rotation {θ θ' : List ℕ → ℝ} {x m l : ℕ} (hxm : x ≠ m) (hxl : x ≠ l)  (hlm : l ≠ m)
    (H : Compat (rotation B θ) (rotation B' θ') b1 [m, l] b2 [x, m] bo [x, l]) :
    ContractsTo (rotation B θ) (rotation B' θ') b1 [m, l] b2 [x, m] bo [x, l] fun o v =>
      ev (rotation [] fun _ => θ (restrict (· ∈ b1) bo o) + θ' (restrict (· ∈ b2) bo o)) [] [x, l] v := by
  refine (C52_rotation mk_wf (mk_symm ?_) H (by simp) (by simp [hxm, hxl])).congr ?_
  · intro γ i hi j hj
    interval_cases i <;> interval_cases j <;> rfl
  · intro o v _
    unfold rotation
    rw [ev_mk2, ev_mk2, Function.update_self, Function.update_of_ne hlm]
    simp only [mat_zero_zero, mat_succ, mat_col]
    refine congrArg (· * _) (congrArg Complex.exp ?_)
    unfold ph
    push_cast
    simp only [mul_add, Complex.exp_add]
    ring

/-- **C54**: `FockDamping(β) >> FockDamping(β')` is `FockDamping(β + β')`. -/
theorem C54_damping {d d' : List ℕ → ℝ} {x m l : ℕ} (hxm : x ≠ m) (hxl : x ≠ l)  (hlm : l ≠ m)
    (H : Compat (fockDamping B d) (fockDamping B' d') b1 [m, l] b2 [x, m] bo [x, l]) :
    ContractsTo (fockDamping B d) (fockDamping B' d') b1 [m, l] b2 [x, m] bo [x, l] fun o v =>
      ev (fockDamping [] fun _ => d (restrict (· ∈ b1) bo o) + d' (restrict (· ∈ b2) bo o)) [] [x, l] v := by
  refine (C52_damping mk_wf (mk_symm ?_) H (by simp) (by simp [hxm, hxl])).congr ?_
  · intro γ i hi j hj
    interval_cases i <;> interval_cases j <;> rfl
  · intro o v _
    unfold fockDamping
    rw [ev_mk2, ev_mk2, Function.update_self, Function.update_of_ne hlm]
    simp only [mat_zero_zero, mat_succ, mat_col]
    refine congrArg (· * _) (congrArg Complex.exp ?_)
    push_cast
    rw [neg_add, Complex.exp_add]
    ring

/-- **C54**: `BSgate(θ, φ) >> BSgate(θ', φ)` is `BSgate(θ + θ', φ)`; with `θ' = -θ` the identity. -/
theorem C54_beamsplitter {θ θ' φ φ' : List ℕ → ℝ} {x0 x1 m0 m1 l0 l1 : ℕ} (hd : [x0, x1, m0, m1, l0, l1].Nodup)
    (H : Compat (beamsplitter B θ φ) (beamsplitter B' θ' φ') b1 [m0, m1, l0, l1] b2 [x0, x1, m0, m1] bo [x0, x1, l0, l1])
    (hφ : ∀ o, φ' (restrict (· ∈ b2) bo o) = φ (restrict (· ∈ b1) bo o)) :
    ContractsTo (beamsplitter B θ φ) (beamsplitter B' θ' φ') b1 [m0, m1, l0, l1] b2 [x0, x1, m0, m1] bo [x0, x1, l0, l1] fun o v =>
      ev (beamsplitter [] (fun _ => θ (restrict (· ∈ b1) bo o) + θ' (restrict (· ∈ b2) bo o)) fun _ => φ (restrict (· ∈ b1) bo o)) []
        [x0, x1, l0, l1] v := by
  simp only [List.nodup_cons, List.mem_cons, List.not_mem_nil, or_false, not_or] at hd
  obtain ⟨⟨d1, d2, d3, d4, d5⟩, ⟨e1, e2, e3, e4⟩, ⟨f1, f2, f3⟩, ⟨g1, g2⟩, h1, _⟩ := hd
  refine (C52_beamsplitter mk_wf (mk_symm ?_) H (by simp) (by simp) (by simp [d2, d3, d4, d5]) (by simp [e1, e2, e3, e4])).congr ?_
  · intro γ i hi j hj
    interval_cases i <;> interval_cases j <;> rfl
  · intro o v _
    dsimp only
    rw [hφ o]
    unfold beamsplitter
    rw [ev_mk4, ev_mk4]
    simp only [Function.update_self, Function.update_of_ne f1, Function.update_of_ne (Ne.symm f2), Function.update_of_ne (Ne.symm f3),
      Function.update_of_ne (Ne.symm g1), Function.update_of_ne (Ne.symm g2)]
    simp only [mat_zero_zero, mat_succ, mat_col]
    generalize restrict (· ∈ b1) bo o = o1
    generalize restrict (· ∈ b2) bo o = o2
    refine congrArg (· * _) (congrArg Complex.exp ?_)
    rw [Real.cos_add, Real.sin_add]
    have e : ph (-φ o1) = Complex.exp (-(Complex.I * φ o1)) := by
      unfold ph; push_cast; rw [mul_neg]
    have hp : Complex.exp (Complex.I * φ o1) * Complex.exp (-(Complex.I * φ o1)) = 1 := by rw [← Complex.exp_add, add_neg_cancel, Complex.exp_zero]
    rw [e]
    unfold ph
    push_cast
    generalize Complex.exp (Complex.I * φ o1) = P at *
    generalize Complex.exp (-(Complex.I * φ o1)) = Q at *
    linear_combination (-(Complex.sin (θ o1) * Complex.sin (θ' o2)) * (v x0 * v l0 + v x1 * v l1)) * hp

/-! ### Channels (C55) -/

/-- The batch index read by each operand is in range. -/
theorem restrict_in (H : Compat f g b1 c1 b2 c2 bo co) {o : List ℕ}
    (ho : InB (bo.map fun d => if d ∈ b1 then Batch.sizeOf b1 f.outBatch d else Batch.sizeOf b2 g.outBatch d) o) :
    InB f.outBatch (restrict (· ∈ b1) bo o) ∧ InB g.outBatch (restrict (· ∈ b2) bo o) := by
  unfold InB at ho
  rw [List.forall₂_map_right_iff] at ho
  constructor
  · exact (bread_eq H.nb1 H.lb1.symm H.ob1 (ho.imp fun i d h hd => by rwa [if_pos hd] at h)).2
  · refine (bread_eq H.nb2 H.lb2.symm H.ob2 (ho.imp fun i d h hd => ?_)).2
    by_cases h1 : d ∈ b1
    · rw [if_pos h1, H.bsz d h1 hd] at h; exact h
    · rwa [if_neg h1] at h

/-- `attenuator` accepts exactly the transmissivities in `[0, 1]`. -/
theorem attenuator_some {η : List ℕ → ℝ} {f : PolyExp} (h : attenuator B η = some f) : ∀ o, InB B o → 0 ≤ η o ∧ η o ≤ 1 := by
  unfold attenuator at h
  split_ifs at h with hh
  push Not at hh
  exact fun o ho => ⟨hh.2 o (mem_ndindex.2 ho), hh.1 o (mem_ndindex.2 ho)⟩

theorem attenuator_def {η : List ℕ → ℝ} (h : ∀ o, InB B o → 0 ≤ η o ∧ η o ≤ 1) :
    attenuator B η = some (mk B 4 (fun β =>
      let e1 : ℂ := (Real.sqrt (η β) : ℝ)
      let e2 : ℂ := 1 - η β
      mat [[0, e1, 0, 0], [e1, 0, 0, e2], [0, 0, 0, e1], [0, e2, e1, 0]])
    (fun _ _ => 0) fun _ => 1) := by
  unfold attenuator
  rw [if_neg]
  push Not
  exact ⟨fun o ho => (h o (mem_ndindex.1 ho)).2, fun o ho => (h o (mem_ndindex.1 ho)).1⟩

/-- **C55**: `Attenuator(η)` maps the density operator (or any operator with a bra and a ket output) `F`.  Here the attenuator comes first and is
followed by any component `g`: the channel substitutes `√η` times its inputs for the variables of `g` and multiplies by `e^{(1-η) z̄ z}`. -/
theorem C55_attenuator_then {η : List ℕ → ℝ} {f : PolyExp} (hf : attenuator B η = some f) {mb lb mk' lk : ℕ} (hg : g.WF) (sg : SymAll g)
    (H : Compat f g b1 [mb, lb, mk', lk] b2 c2 bo co) (h0 : mb ∈ c2) (h1 : mk' ∈ c2) (hx0 : lb ∉ c2) (hx1 : lk ∉ c2) :
    ContractsTo f g b1 [mb, lb, mk', lk] b2 c2 bo co fun o v =>
      let e := η (restrict (· ∈ b1) bo o)
      Complex.exp ((1 - e) * v lb * v lk) *
      ev g (restrict (· ∈ b2) bo o) c2 (Function.update
        (Function.update v mb ((Real.sqrt e : ℝ) * v lb)) mk' ((Real.sqrt e : ℝ) * v lk)) := by
  unfold attenuator at hf
  split_ifs at hf with hh
  cases hf
  refine (chan1_left hg sg ?_ ?_ H h0 h1 hx0 hx1).congr ?_
  · intro β i hi j hj
    interval_cases i <;> interval_cases j <;> rfl
  · intro β
    exact ⟨rfl, rfl, rfl⟩
  · intro o v _
    dsimp only
    simp only [mat_zero_zero, mat_succ, mat_col, mul_zero, zero_mul, add_zero, zero_add, mul_one]

/-- **C55**: `Attenuator(η) >> Attenuator(η')` is `Attenuator(η η')`, which is accepted. -/
theorem C55_attenuator {η η' : List ℕ → ℝ} {f g : PolyExp} (hf : attenuator B η = some f) (hg : attenuator B' η' = some g)
    {xb lb xk lk mb mk' : ℕ} (hd : [xb, xk, mb, mk', lb, lk].Nodup)
    (H : Compat f g b1 [mb, lb, mk', lk] b2 [xb, mb, xk, mk'] bo [xb, lb, xk, lk]) :
    ContractsTo f g b1 [mb, lb, mk', lk] b2 [xb, mb, xk, mk'] bo [xb, lb, xk, lk] fun o v =>
      (attenuator [] fun _ => η (restrict (· ∈ b1) bo o) * η' (restrict (· ∈ b2) bo o)).elim 0 fun h => ev h [] [xb, lb, xk, lk] v := by
  simp only [List.nodup_cons, List.mem_cons, List.not_mem_nil, or_false, not_or] at hd
  obtain ⟨⟨d1, d2, d3, d4, d5⟩, ⟨e1, e2, e3, e4⟩, ⟨f1, f2, f3⟩, ⟨g1, g2⟩, h1, _⟩ := hd
  have hη := attenuator_some hf
  have hη' := attenuator_some hg
  have hg' := attenuator_def hη'
  rw [hg] at hg'
  cases hg'
  have hfb : f.outBatch = B := by
    have := attenuator_def hη
    rw [hf] at this; cases this; exact mk_outBatch
  refine (C55_attenuator_then hf mk_wf (mk_symm ?_) H (by simp) (by simp) (by simp [Ne.symm f2, Ne.symm g1, Ne.symm d4, Ne.symm e3])
    (by simp [Ne.symm f3, Ne.symm g2, Ne.symm d5, Ne.symm e4])).congr ?_
  · intro β i hi j hj
    interval_cases i <;> interval_cases j <;> rfl
  · intro o v ho
    obtain ⟨r1, r2⟩ := restrict_in H ho
    rw [hfb] at r1
    rw [mk_outBatch] at r2
    obtain ⟨p1, p2⟩ := hη _ r1
    obtain ⟨q1, q2⟩ := hη' _ r2
    dsimp only
    rw [attenuator_def fun o _ => ⟨mul_nonneg p1 q1, mul_le_one₀ p2 q1 q2⟩, Option.elim_some, ev_mk4, ev_mk4]
    simp only [Function.update_self, Function.update_of_ne f1, Function.update_of_ne d2, Function.update_of_ne d3, Function.update_of_ne e1,
      Function.update_of_ne e2]
    simp only [mat_zero_zero, mat_succ, mat_col, mul_one, ← Complex.exp_add]
    refine congrArg Complex.exp ?_
    rw [Real.sqrt_mul p1]
    have hs : ((Real.sqrt (η (restrict (· ∈ b1) bo o)) : ℝ) : ℂ) ^ 2 = η (restrict (· ∈ b1) bo o) := by
      exact_mod_cast congrArg Complex.ofReal (Real.sq_sqrt p1)
    push_cast
    linear_combination ((1 - (η' (restrict (· ∈ b2) bo o) : ℂ)) * v lb * v lk) * hs

/-- **C55**: the density operator of `Coherent(α)`, `b = (ᾱ, α)`, `c = e^{-|α|²}`, after `Attenuator(η)` is that of `Coherent(√η α)`. -/
theorem C55_attenuator_coherent {α : List ℕ → ℂ} {η : List ℕ → ℝ} {g : PolyExp} (hg : attenuator B' η = some g) {xb lb xk lk : ℕ}
    (hd : [xb, xk, lb, lk].Nodup)
    (H : Compat (mk B 2 (fun _ _ _ => 0) (fun β => vec [(starRingEnd ℂ) (α β), α β]) fun β => Complex.exp (-(‖α β‖ : ℂ) ^ 2)) g
      b1 [lb, lk] b2 [xb, lb, xk, lk] bo co) :
    ContractsTo (mk B 2 (fun _ _ _ => 0) (fun β => vec [(starRingEnd ℂ) (α β), α β]) fun β => Complex.exp (-(‖α β‖ : ℂ) ^ 2)) g
      b1 [lb, lk] b2 [xb, lb, xk, lk] bo co fun o v =>
      let a := (Real.sqrt (η (restrict (· ∈ b2) bo o)) : ℝ) * α (restrict (· ∈ b1) bo o)
      Complex.exp ((starRingEnd ℂ) a * v xb + a * v xk - (‖a‖ : ℂ) ^ 2) := by
  simp only [List.nodup_cons, List.mem_cons, List.not_mem_nil, or_false, not_or] at hd
  obtain ⟨⟨d1, d2, d3⟩, ⟨d4, d5⟩, d6, _⟩ := hd
  have hη := attenuator_some hg
  have hg' := attenuator_def hη
  rw [hg] at hg'
  cases hg'
  refine (state2_left mk_wf (mk_symm ?_) (fun _ _ _ _ _ => rfl) H (by simp) (by simp)).congr ?_
  · intro β i hi j hj
    interval_cases i <;> interval_cases j <;> rfl
  · intro o v ho
    have r2 := (restrict_in H ho).2
    rw [mk_outBatch] at r2
    obtain ⟨q1, q2⟩ := hη _ r2
    dsimp only
    rw [ev_mk4]
    simp only [Function.update_self, Function.update_of_ne d2, Function.update_of_ne d3, Function.update_of_ne d4, Function.update_of_ne d5,
      Function.update_of_ne d6]
    simp only [mat_zero_zero, mat_succ, mat_col, vec_zero, vec_succ, mul_one, ← Complex.exp_add]
    refine congrArg Complex.exp ?_
    have hs : ((Real.sqrt (η (restrict (· ∈ b2) bo o)) : ℝ) : ℂ) ^ 2 = η (restrict (· ∈ b2) bo o) := by
      exact_mod_cast congrArg Complex.ofReal (Real.sq_sqrt q1)
    simp only [← Complex.mul_conj', map_mul, Complex.conj_ofReal]
    linear_combination (α (restrict (· ∈ b1) bo o) * (starRingEnd ℂ) (α (restrict (· ∈ b1) bo o))) * hs

/-- `amplifier` accepts exactly the gains `≥ 1`. -/
theorem amplifier_some {G : List ℕ → ℝ} {f : PolyExp} (h : amplifier B G = some f) : ∀ o, InB B o → 1 ≤ G o := by
  unfold amplifier at h
  split_ifs at h with hh
  push Not at hh
  exact fun o ho => hh o (mem_ndindex.2 ho)

theorem amplifier_def {G : List ℕ → ℝ} (h : ∀ o, InB B o → 1 ≤ G o) :
    amplifier B G = some (mk B 4 (fun β =>
      let g1 : ℂ := 1 / ((Real.sqrt (G β) : ℝ) : ℂ)
      let g2 : ℂ := 1 - 1 / (G β : ℂ)
      mat [[0, g1, g2, 0], [g1, 0, 0, 0], [g2, 0, 0, g1], [0, 0, g1, 0]])
    (fun _ _ => 0) fun β => 1 / (G β : ℂ)) := by
  unfold amplifier
  rw [if_neg]
  push Not
  exact fun o ho => h o (mem_ndindex.1 ho)

/-- **C55**: `Amplifier(G) >> Amplifier(G')` is `Amplifier(G G')`, which is accepted. -/
theorem C55_amplifier {G G' : List ℕ → ℝ} {f g : PolyExp} (hf : amplifier B G = some f) (hg : amplifier B' G' = some g)
    {xb lb xk lk mb mk' : ℕ} (hd : [xb, xk, mb, mk', lb, lk].Nodup)
    (H : Compat f g b1 [mb, lb, mk', lk] b2 [xb, mb, xk, mk'] bo [xb, lb, xk, lk]) :
    ContractsTo f g b1 [mb, lb, mk', lk] b2 [xb, mb, xk, mk'] bo [xb, lb, xk, lk] fun o v =>
      (amplifier [] fun _ => G (restrict (· ∈ b1) bo o) * G' (restrict (· ∈ b2) bo o)).elim 0 fun h => ev h [] [xb, lb, xk, lk] v := by
  simp only [List.nodup_cons, List.mem_cons, List.not_mem_nil, or_false, not_or] at hd
  obtain ⟨⟨d1, d2, d3, d4, d5⟩, ⟨e1, e2, e3, e4⟩, ⟨f1, f2, f3⟩, ⟨g1, g2⟩, h1, _⟩ := hd
  have hη := amplifier_some hf
  have hη' := amplifier_some hg
  have hf' := amplifier_def hη
  rw [hf] at hf'
  cases hf'
  have hgb : g.outBatch = B' := by
    have := amplifier_def hη'
    rw [hg] at this; cases this; exact mk_outBatch
  refine (C52_amplifier hg mk_wf (mk_symm ?_) H (by simp) (by simp) (by simp [d2, d3, d4, d5])
    (by simp [e1, e2, e3, e4])).congr ?_
  · intro β i hi j hj
    interval_cases i <;> interval_cases j <;> rfl
  · intro o v ho
    obtain ⟨r1, r2⟩ := restrict_in H ho
    rw [hgb] at r2
    rw [mk_outBatch] at r1
    have p1 := hη _ r1
    have q1 := hη' _ r2
    dsimp only
    rw [amplifier_def fun o _ => one_le_mul_of_one_le_of_one_le p1 q1, Option.elim_some, ev_mk4, ev_mk4]
    simp only [Function.update_self, Function.update_of_ne f1, Function.update_of_ne (Ne.symm f2), Function.update_of_ne (Ne.symm f3),
      Function.update_of_ne (Ne.symm g1), Function.update_of_ne (Ne.symm g2)]
    simp only [mat_zero_zero, mat_succ, mat_col]
    rw [Real.sqrt_mul (by linarith)]
    have hs : ((Real.sqrt (G' (restrict (· ∈ b2) bo o)) : ℝ) : ℂ) ^ 2 = G' (restrict (· ∈ b2) bo o) := by
      exact_mod_cast congrArg Complex.ofReal (Real.sq_sqrt (show (0 : ℝ) ≤ _ by linarith))
    have n1 : (G (restrict (· ∈ b1) bo o) : ℂ) ≠ 0 := by exact_mod_cast (by linarith : G (restrict (· ∈ b1) bo o) ≠ 0)
    have n2 : ((Real.sqrt (G (restrict (· ∈ b1) bo o)) : ℝ) : ℂ) ≠ 0 := by
      exact_mod_cast (Real.sqrt_pos.2 (by linarith)).ne'
    have n3 : ((Real.sqrt (G' (restrict (· ∈ b2) bo o)) : ℝ) : ℂ) ≠ 0 := by
      exact_mod_cast (Real.sqrt_pos.2 (by linarith)).ne'
    rw [← hs]
    push_cast
    rw [← hs]
    generalize ((Real.sqrt (G (restrict (· ∈ b1) bo o)) : ℝ) : ℂ) = S at *
    generalize ((Real.sqrt (G' (restrict (· ∈ b2) bo o)) : ℝ) : ℂ) = S' at *
    generalize (G (restrict (· ∈ b1) bo o) : ℂ) = Q at *
    have e : ∀ a b c d : ℂ, Complex.exp a * b * (Complex.exp c * d) = Complex.exp (a + c) * (b * d) := by
      intro a b c d; rw [Complex.exp_add]; ring
    rw [e]
    refine congr (congrArg HMul.hMul (congrArg Complex.exp ?_)) ?_
    · field_simp
      ring
    · field_simp

end Verif.Triples
