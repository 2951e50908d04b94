import Verif.FockArray
import Mathlib.Analysis.Analytic.OfScalars
import Mathlib.Analysis.Analytic.Uniqueness
import Mathlib.Data.Fin.Tuple.Basic
import Mathlib.Analysis.Normed.Module.FiniteDimension
import Mathlib.LinearAlgebra.Complex.FiniteDimensional

/-!
# The function determines its Fock amplitudes
-/

namespace Verif.Fock

/-- One variable: a power series that vanishes everywhere has vanishing coefficients. -/
theorem coeff_zero_one {c : ℕ → ℂ} (h : ∀ z : ℂ, HasSum (fun n => c n * z ^ n) 0) : c = 0 := by
  have hs : ∀ r : NNReal, Summable fun n => ‖FormalMultilinearSeries.ofScalars ℂ c n‖ * (r : ℝ) ^ n := by
    intro r
    have := summable_norm_iff.2 (h (r : ℝ)).summable
    refine this.congr fun n => ?_
    have e : ‖((r : ℝ) : ℂ)‖ = r := by rw [Complex.norm_real]; exact Real.norm_of_nonneg r.2
    rw [norm_mul, norm_pow, e, FormalMultilinearSeries.ofScalars_norm]
  have hp : HasFPowerSeriesOnBall (0 : ℂ → ℂ) (FormalMultilinearSeries.ofScalars ℂ c) 0 ⊤ :=
    ⟨by rw [FormalMultilinearSeries.radius_eq_top_of_summable_norm _ hs], by simp, fun {y} _ => by
      simp only [FormalMultilinearSeries.ofScalars_apply_eq, smul_eq_mul]
      exact h y⟩
  funext n
  have := hp.hasFPowerSeriesAt.apply_eq_zero n 1
  rw [FormalMultilinearSeries.ofScalars_apply_eq] at this
  simpa using this

theorem coeff_zero_many (n : ℕ) : ∀ (a : (Fin n → ℕ) → ℂ), (∀ z : Fin n → ℂ, HasSum (fun k => a k * ∏ i, z i ^ k i) 0) → a = 0 := by
  induction n with
  | zero =>
    intro a h
    funext k
    have h1 := h 0
    have h2 := hasSum_unique (fun k : Fin 0 → ℕ => a k * ∏ i, (0 : Fin 0 → ℂ) i ^ k i)
    have h3 := h1.unique h2
    rw [Finset.univ_eq_empty, Finset.prod_empty, mul_one] at h3
    rw [Subsingleton.elim k (@default (Fin 0 → ℕ) Unique.instInhabited)]
    exact h3.symm
  | succ n ih =>
    intro a h
    have hb : ∀ k0, (fun k' : Fin n → ℕ => a (Fin.cons k0 k')) = 0 := by
      have hz : ∀ z' : Fin n → ℂ, ∀ k0, HasSum (fun k' : Fin n → ℕ => a (Fin.cons k0 k') * ∏ i, z' i ^ k' i) 0 := by
        intro z'
        have hpr : ∀ z0 : ℂ, HasSum (fun x : ℕ × (Fin n → ℕ) => a (Fin.cons x.1 x.2) * (∏ i, z' i ^ x.2 i) * z0 ^ x.1) 0 := by
          intro z0
          have h1 := h (Fin.cons z0 z')
          rw [← (Fin.consEquiv fun _ => ℕ).hasSum_iff] at h1
          have e : (fun k : Fin (n + 1) → ℕ => a k * ∏ i, (Fin.cons z0 z' : Fin (n + 1) → ℂ) i ^ k i) ∘ (Fin.consEquiv fun _ => ℕ) =
              fun x : ℕ × (Fin n → ℕ) => a (Fin.cons x.1 x.2) * (∏ i, z' i ^ x.2 i) * z0 ^ x.1 := by
            funext x
            show a (Fin.cons x.1 x.2) * ∏ i, (Fin.cons z0 z' : Fin (n + 1) → ℂ) i ^ (Fin.cons x.1 x.2 : Fin (n + 1) → ℕ) i = _
            rw [Fin.prod_univ_succ]
            simp only [Fin.cons_zero, Fin.cons_succ]
            ring
          rwa [e] at h1
        have hf : ∀ k0, Summable fun k' : Fin n → ℕ => a (Fin.cons k0 k') * ∏ i, z' i ^ k' i := by
          intro k0
          have := (hpr 1).summable.prod_factor k0
          refine this.congr fun k' => ?_
          rw [one_pow, mul_one]
        have hc : (fun k0 => ∑' k' : Fin n → ℕ, a (Fin.cons k0 k') * ∏ i, z' i ^ k' i) = 0 := by
          apply coeff_zero_one
          intro z0
          have h2 : ∀ k0, HasSum (fun k' : Fin n → ℕ => a (Fin.cons k0 k') * (∏ i, z' i ^ k' i) * z0 ^ k0)
              ((∑' k' : Fin n → ℕ, a (Fin.cons k0 k') * ∏ i, z' i ^ k' i) * z0 ^ k0) := by
            intro k0
            exact HasSum.mul_right (z0 ^ k0) (hf k0).hasSum
          exact HasSum.prod_fiberwise (hpr z0) h2
        intro k0
        have := (hf k0).hasSum
        rwa [show ∑' k' : Fin n → ℕ, a (Fin.cons k0 k') * ∏ i, z' i ^ k' i = 0 from congrFun hc k0] at this
      intro k0
      exact ih _ fun z' => hz z' k0
    funext k
    have := congrFun (hb (k 0)) (Fin.tail k)
    rw [Fin.cons_self_tail] at this
    exact this

end Verif.Fock

namespace Verif.PolyExp
open Verif.Fock Verif.Batch PolyExp

/-- **C58**: two ansätze that are the same function of the same number of variables (possibly with different derived variables, terms or
superposition structure) have the same Fock arrays, for every shape. -/
theorem C58_determined (f g : PolyExp) (hf : f.WF) (hg : g.WF) (sf : ∀ β, Symm f.N (f.A β)) (sg : ∀ β, Symm g.N (g.A β)) (β γ : List ℕ)
    (hn : f.numCV = g.numCV) (h : ∀ z, f.call β z = g.call γ z) (shape k : List ℕ) (hk : InB shape k) :
    f.fockArray shape β k = g.fockArray shape γ k := by
  by_cases h0 : 0 ∈ shape
  · rw [(C58_errors f shape β k).2 (Or.inl h0), (C58_errors g shape γ k).2 (Or.inl h0)]
  by_cases hl : shape.length = f.numCV
  swap
  · rw [(C58_errors f shape β k).2 (Or.inr hl), (C58_errors g shape γ k).2 (Or.inr (hn ▸ hl))]
  rw [C58_entries f hf sf shape β k h0 hl hk, C58_entries g hg sg shape γ k h0 (hl.trans hn) hk]
  refine congrArg some ?_
  obtain ⟨n, hn'⟩ : ∃ n, n = f.numCV := ⟨_, rfl⟩
  have hf' := fun z => C58_series f hf sf β z
  have hg' := fun z => C58_series g hg sg γ z
  rw [← hn, ← hn'] at hg'
  rw [← hn'] at hf'
  have hz := coeff_zero_many n (fun k => (f.fockAmp β (List.ofFn k) - g.fockAmp γ (List.ofFn k)) * ∏ i, 1 / (Real.sqrt ((k i).factorial : ℝ) : ℂ)) (by
    intro z
    have h1 := (hf' fun i => if hi : i < n then z ⟨i, hi⟩ else 0).sub (hg' fun i => if hi : i < n then z ⟨i, hi⟩ else 0)
    rw [h, sub_self] at h1
    refine h1.congr_fun fun k => ?_
    have e : ∀ i : Fin n, (if hi : (i : ℕ) < n then z ⟨i, hi⟩ else 0) = z i := fun i => dif_pos i.2
    simp only [e, Finset.prod_div_distrib, Finset.prod_const_one]
    ring)
  have hkl : k.length = n := by rw [hn', ← hl]; exact List.Forall₂.length_eq hk
  have := congrFun hz (fun i => k.getD i 0)
  have e : List.ofFn (fun i : Fin n => k.getD i 0) = k := by
    apply List.ext_getElem
    · simp [hkl]
    · intro i h1 h2
      rw [List.getElem_ofFn, List.getD_eq_getElem _ _ h2]
  rw [e] at this
  rcases mul_eq_zero.1 this with h1 | h1
  · exact sub_eq_zero.1 h1
  · exfalso
    rw [Finset.prod_eq_zero_iff] at h1
    obtain ⟨i, _, hi⟩ := h1
    exact one_div_ne_zero (sqrt_fact_ne _) hi

end Verif.PolyExp
