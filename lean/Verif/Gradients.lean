import Verif.AmpDeriv
import Mathlib.Analysis.Complex.RealDeriv

/-!
# Gradients of the renormalised Hermite polynomials (C61)

Model of `vanilla_vjp_numba`, the function every automatic gradient of a Fock array goes through.
-/

namespace Verif.Fock

/-- math/lattice/strategies/vanilla/gradients.py:70-72, the vector `db` computed at one index. -/
noncomputable def vjpDb (st : List ℕ) (G : List ℂ) (flat : ℕ) (index : List ℕ) (i : ℕ) : ℂ :=
  sq (index.getD i 0) * pyGet G ((flat : ℤ) - st.getD i 0)

/-- math/lattice/strategies/vanilla/gradients.py:73-79, the matrix `dA` computed at one index.  The buffer
`dA` is reused between indices, but every entry on and above the diagonal is overwritten and the entries below
it stay zero. -/
noncomputable def vjpDA (st : List ℕ) (G : List ℂ) (flat : ℕ) (index : List ℕ) (i j : ℕ) : ℂ :=
  let pivot : ℤ := (flat : ℤ) - st.getD i 0
  if i = j then
    if index.getD i 0 > 1 then
      1 / 2 * sq (index.getD i 0) * sq (index.getD i 0 - 1) * pyGet G (pivot - st.getD i 0)
    else 0
  else if i < j then sq (index.getD i 0) * sq (index.getD j 0) * pyGet G (pivot - st.getD j 0)
  else 0

/-- math/lattice/strategies/vanilla/gradients.py:25-82 `vanilla_vjp_numba` for `G` of shape `shape`, with `G`
and `dLdG` given as their flat contents.  The result is `(dL/dA, dL/db, dL/dc)`. -/
noncomputable def vanillaVjp (shape : List ℕ) (G : List ℂ) (c : ℂ) (dLdG : List ℂ) :
    (ℕ → ℕ → ℂ) × (ℕ → ℂ) × ℂ :=
  let st := strides shape
  let acc := (((ndindex shape).zipIdx).drop 1).foldl
    (fun (acc : (ℕ → ℕ → ℂ) × (ℕ → ℂ)) (index, flat) =>
      (fun i j => acc.1 i j + vjpDA st G flat index i j * dLdG.getD flat 0,
       fun i => acc.2 i + vjpDb st G flat index i * dLdG.getD flat 0)) (fun _ _ => 0, fun _ => 0)
  let dLdc := (List.zipWith (· * ·) G dLdG).sum / c
  (fun i j => (acc.1 i j + acc.1 j i) / 2, acc.2, dLdc)

theorem vjp_fold (st : List ℕ) (G dLdG : List ℂ) (idx : ℕ → List ℕ) (l : List ℕ)
    (a : (ℕ → ℕ → ℂ) × (ℕ → ℂ)) :
    l.foldl (fun (acc : (ℕ → ℕ → ℂ) × (ℕ → ℂ)) f =>
      (fun i j => acc.1 i j + vjpDA st G f (idx f) i j * dLdG.getD f 0,
       fun i => acc.2 i + vjpDb st G f (idx f) i * dLdG.getD f 0)) a =
    (fun i j => a.1 i j + (l.map fun f => vjpDA st G f (idx f) i j * dLdG.getD f 0).sum,
     fun i => a.2 i + (l.map fun f => vjpDb st G f (idx f) i * dLdG.getD f 0).sum) := by
  induction l generalizing a with
  | nil => simp
  | cons x l ih => rw [List.foldl_cons, ih]; simp [add_assoc]

theorem vjpDb_eq {shape A b c} {G : List ℂ} {f i : ℕ} (hf : f < shape.prod)
    (hG : ∀ g < shape.prod, G.getD g 0 = target shape A b c g) :
    vjpDb (strideSpec shape) G f (unravel shape f) i =
      low i (amp shape.length A b c) (toF (unravel shape f)) := by
  unfold vjpDb low
  rw [toF_apply]
  by_cases h : (unravel shape f).getD i 0 = 0
  · rw [h]; simp
  · have h0 : 0 < f := by
      rcases Nat.eq_zero_or_pos f with h0 | h0
      · subst h0
        exact absurd (by rw [← toF_apply, toF_unravel_zero]; rfl) h
      · exact h0
    have hi : i < shape.length := by rw [← length_unravel shape f]; exact lt_of_getD_ne h
    rw [read_pivot hf h0 (fun g hg => hG g (by omega)) h (stride_pos (by omega) hi)]

theorem vjpDA_eq {shape A b c} {G : List ℂ} {f i j : ℕ} (hf : f < shape.prod)
    (hG : ∀ g < shape.prod, G.getD g 0 = target shape A b c g) :
    vjpDA (strideSpec shape) G f (unravel shape f) i j =
      if i = j then 1 / 2 * low i (low i (amp shape.length A b c)) (toF (unravel shape f))
      else if i < j then low i (low j (amp shape.length A b c)) (toF (unravel shape f)) else 0 := by
  unfold vjpDA low
  beta_reduce
  rw [toF_apply]
  by_cases h : (unravel shape f).getD i 0 = 0
  · rw [h]; simp
  · have hn := fun j => read_neighbour (j := j) hf (fun g hg => hG g (by omega)) h
    split_ifs with h1 h2 h3
    · subst h1
      have := hn i
      rw [dn_apply, if_pos rfl, toF_apply] at this ⊢
      linear_combination 1 / 2 * sq ((unravel shape f).getD i 0) * this
    · subst h1
      rw [dn_apply, if_pos rfl, toF_apply, show (unravel shape f).getD i 0 - 1 = 0 by omega]
      simp
    · have := hn j
      rw [dn_apply, if_neg (by omega), toF_apply] at this ⊢
      linear_combination sq ((unravel shape f).getD i 0) * this
    · rfl

theorem vjp_sum_range (N : ℕ) (hN : 0 < N) (F : ℕ → ℂ) (h0 : F 0 = 0) :
    ((List.range' 1 (N - 1)).map F).sum = ∑ f ∈ Finset.range N, F f := by
  rw [range'_sum, show 1 + (N - 1) = N by omega, Finset.range_eq_Ico,
    Finset.sum_eq_sum_Ico_succ_bot hN, h0, zero_add]

theorem sum_zipWith_mul (G g : List ℂ) (N : ℕ) (h1 : G.length = N) (h2 : g.length = N) :
    (List.zipWith (· * ·) G g).sum = ∑ f ∈ Finset.range N, G.getD f 0 * g.getD f 0 := by
  induction N generalizing G g with
  | zero => simp [List.length_eq_zero_iff.1 h1]
  | succ n ih =>
    match G, g, h1, h2 with
    | x :: G, y :: g, h1, h2 =>
      rw [Finset.sum_range_succ', List.zipWith_cons_cons, List.sum_cons,
        ih G g (by simpa using h1) (by simpa using h2)]
      simp [add_comm]

/-- What the function returns, when `G` is a Fock array. -/
theorem vanillaVjp_eq {shape A b c} {G g : List ℂ} (hN : 0 < shape.prod) (hlen : G.length = shape.prod)
    (hg : g.length = shape.prod)
    (hG : ∀ f < shape.prod, G.getD f 0 = target shape A b c f) :
    (∀ i j, (vanillaVjp shape G c g).1 i j = ∑ f ∈ Finset.range shape.prod, g.getD f 0 *
      (1 / 2 * low i (low j (amp shape.length A b c)) (toF (unravel shape f)))) ∧
    (∀ i, (vanillaVjp shape G c g).2.1 i = ∑ f ∈ Finset.range shape.prod, g.getD f 0 *
      low i (amp shape.length A b c) (toF (unravel shape f))) ∧
    (vanillaVjp shape G c g).2.2 = (∑ f ∈ Finset.range shape.prod, g.getD f 0 * target shape A b c f) / c := by
  have key : vanillaVjp shape G c g =
      (fun i j => (((List.range' 1 (shape.prod - 1)).map fun f =>
          vjpDA (strideSpec shape) G f (unravel shape f) i j * g.getD f 0).sum +
        ((List.range' 1 (shape.prod - 1)).map fun f =>
          vjpDA (strideSpec shape) G f (unravel shape f) j i * g.getD f 0).sum) / 2,
       fun i => ((List.range' 1 (shape.prod - 1)).map fun f =>
          vjpDb (strideSpec shape) G f (unravel shape f) i * g.getD f 0).sum,
       (List.zipWith (· * ·) G g).sum / c) := by
    unfold vanillaVjp
    simp only [strides_eq]
    rw [ndindex_zipIdx, List.foldl_map]
    have := vjp_fold (strideSpec shape) G g (unravel shape) (List.range' 1 (shape.prod - 1))
      (fun _ _ => 0, fun _ => 0)
    rw [this]
    simp only [zero_add]
  have z0 : ∀ i (F : (ℕ →₀ ℕ) → ℂ), low i F (toF (unravel shape 0)) = 0 := by
    intro i F; rw [toF_unravel_zero]; simp [low]
  have hA : ∀ i j, ((List.range' 1 (shape.prod - 1)).map fun f =>
      vjpDA (strideSpec shape) G f (unravel shape f) i j * g.getD f 0).sum =
      ∑ f ∈ Finset.range shape.prod, vjpDA (strideSpec shape) G f (unravel shape f) i j * g.getD f 0 := by
    intro i j
    refine vjp_sum_range _ hN (fun f => vjpDA (strideSpec shape) G f (unravel shape f) i j * g.getD f 0) ?_
    beta_reduce
    rw [vjpDA_eq hN hG]
    simp only [z0]; simp
  refine ⟨?_, ?_, ?_⟩
  · intro i j
    rw [key]
    beta_reduce
    simp only []
    rw [hA, hA, ← Finset.sum_add_distrib, Finset.sum_div]
    refine Finset.sum_congr rfl fun f hf => ?_
    have hf := Finset.mem_range.1 hf
    rw [vjpDA_eq hf hG, vjpDA_eq hf hG]
    rcases lt_trichotomy i j with h | h | h
    · rw [if_neg (by omega), if_pos h, if_neg (by omega), if_neg (by omega)]; ring
    · subst h; rw [if_pos rfl]; ring
    · rw [if_neg (by omega), if_neg (by omega), if_neg (by omega), if_pos h, low_comm]; ring
  · intro i
    rw [key]
    simp only []
    rw [vjp_sum_range _ hN (fun f => vjpDb (strideSpec shape) G f (unravel shape f) i * g.getD f 0)
      (by rw [vjpDb_eq hN hG, z0, zero_mul])]
    refine Finset.sum_congr rfl fun f hf => ?_
    rw [vjpDb_eq (Finset.mem_range.1 hf) hG, mul_comm]
  · rw [key]
    simp only []
    rw [sum_zipWith_mul G g _ hlen hg]
    refine congrArg (· / c) (Finset.sum_congr rfl fun f hf => ?_)
    rw [hG f (Finset.mem_range.1 hf), mul_comm]

theorem below_toF_unravel (shape : List ℕ) (f : ℕ) : Below shape.length (toF (unravel shape f)) := by
  intro i hi
  rw [toF_apply, List.getD_eq_getElem?_getD, List.getElem?_eq_none (by rw [length_unravel]; exact hi)]
  rfl

theorem grad_ravel_unravel : ∀ (s : List ℕ) (f : ℕ), f < s.prod → InB s (unravel s f) ∧ ravel s (unravel s f) = f
  | [], f, h => by simp at h; subst h; exact ⟨List.Forall₂.nil, rfl⟩
  | n :: s, f, h => by
    rw [List.prod_cons] at h
    have hp : 0 < s.prod := Nat.pos_of_ne_zero fun h0 => by simp [h0] at h
    obtain ⟨h1, h2⟩ := grad_ravel_unravel s (f % s.prod) (Nat.mod_lt _ hp)
    refine ⟨List.Forall₂.cons (Nat.div_lt_of_lt_mul (by rwa [mul_comm] at h)) h1, ?_⟩
    simp only [unravel, ravel, h2]
    exact Nat.div_add_mod' f s.prod

theorem vanilla_getD {shape A b} {c : ℂ} {G0 : List ℂ} (hlen : G0.length = shape.prod)
    (hA : Symm shape.length A) {f : ℕ} (hf : f < shape.prod) :
    (vanilla shape A b c G0).getD f 0 = target shape A b c f := by
  obtain ⟨hb, hr⟩ := grad_ravel_unravel _ _ hf
  have := (C19_vanilla_correct shape A b c G0 hlen hA _ hb).2
  rw [hr] at this
  rw [List.getD_eq_getElem?_getD, this]
  rfl

/-- The scalar `∑ g[k] G[k]` whose derivative a vector-Jacobian product computes. -/
noncomputable def pairing (N : ℕ) (g G : List ℂ) : ℂ := ∑ f ∈ Finset.range N, g.getD f 0 * G.getD f 0

variable {𝕜 : Type*} [NontriviallyNormedField 𝕜] [NormedAlgebra 𝕜 ℂ]

/-- **C61** Let `A(t)` (symmetric), `b(t)`, `c(t)` be any family of triples depending differentiably on a real
or complex parameter.  Then the derivative of `∑ g[k] G(t)[k]`, where `G(t)` is the array `vanilla_numba`
returns, is `∑ dL/dA[i,j] A'[i,j] + ∑ dL/db[i] b'[i] + dL/dc c'`, with the three gradients `vanilla_vjp_numba`
computes from the array `G`, the scalar `c` and the upstream gradient `g` alone. -/
theorem C61_vanilla_vjp (shape : List ℕ) (hN : 0 < shape.prod) (A : 𝕜 → ℕ → ℕ → ℂ) (b : 𝕜 → ℕ → ℂ) (c : 𝕜 → ℂ)
    (A' : ℕ → ℕ → ℂ) (b' : ℕ → ℂ) (c' : ℂ) (t₀ : 𝕜) (G0 g : List ℂ)
    (hG0 : G0.length = shape.prod) (hg : g.length = shape.prod)
    (hsym : ∀ t, Symm shape.length (A t)) (hc0 : c t₀ ≠ 0)
    (hA : ∀ i < shape.length, ∀ j < shape.length, HasDerivAt (fun t => A t i j) (A' i j) t₀)
    (hb : ∀ i < shape.length, HasDerivAt (fun t => b t i) (b' i) t₀) (hc : HasDerivAt c c' t₀) :
    let G := fun t => vanilla shape (A t) (b t) (c t) G0
    let grad := vanillaVjp shape (G t₀) (c t₀) g
    HasDerivAt (fun t => pairing shape.prod g (G t))
      (∑ i ∈ Finset.range shape.length, ∑ j ∈ Finset.range shape.length, grad.1 i j * A' i j +
        ∑ i ∈ Finset.range shape.length, grad.2.1 i * b' i + grad.2.2 * c') t₀ := by
  intro G grad
  have hGt : ∀ t, pairing shape.prod g (G t) =
      ∑ f ∈ Finset.range shape.prod, g.getD f 0 * target shape (A t) (b t) (c t) f := fun t =>
    Finset.sum_congr rfl fun f hf => by rw [vanilla_getD hG0 (hsym t) (Finset.mem_range.1 hf)]
  have hl : (G t₀).length = shape.prod := by
    have hb := (grad_ravel_unravel shape 0 hN).1
    exact (C19_vanilla_correct shape (A t₀) (b t₀) (c t₀) G0 hG0 (hsym t₀) _ hb).1
  obtain ⟨e1, e2, e3⟩ := vanillaVjp_eq (A := A t₀) (b := b t₀) (c := c t₀) hN hl hg
    (fun f hf => vanilla_getD hG0 (hsym t₀) hf)
  simp only [hGt]
  have hval : ∑ i ∈ Finset.range shape.length, ∑ j ∈ Finset.range shape.length, grad.1 i j * A' i j +
        ∑ i ∈ Finset.range shape.length, grad.2.1 i * b' i + grad.2.2 * c' =
      ∑ f ∈ Finset.range shape.prod, g.getD f 0 *
        (mulQ shape.length A' b' (amp shape.length (A t₀) (b t₀) (c t₀)) (toF (unravel shape f)) +
          c' * amp shape.length (A t₀) (b t₀) 1 (toF (unravel shape f))) := by
    have f1 : ∑ i ∈ Finset.range shape.length, ∑ j ∈ Finset.range shape.length, grad.1 i j * A' i j =
        ∑ f ∈ Finset.range shape.prod, g.getD f 0 * (1 / 2 * ∑ i ∈ Finset.range shape.length,
          ∑ j ∈ Finset.range shape.length, A' i j *
            low i (low j (amp shape.length (A t₀) (b t₀) (c t₀))) (toF (unravel shape f))) := by
      simp only [grad, e1, Finset.sum_mul, Finset.mul_sum]
      rw [Finset.sum_congr rfl fun i _ => Finset.sum_comm, Finset.sum_comm]
      exact Finset.sum_congr rfl fun f _ => Finset.sum_congr rfl fun i _ => Finset.sum_congr rfl fun j _ => by ring
    have f2 : ∑ i ∈ Finset.range shape.length, grad.2.1 i * b' i =
        ∑ f ∈ Finset.range shape.prod, g.getD f 0 * ∑ i ∈ Finset.range shape.length,
          b' i * low i (amp shape.length (A t₀) (b t₀) (c t₀)) (toF (unravel shape f)) := by
      simp only [grad, e2, Finset.sum_mul, Finset.mul_sum]
      rw [Finset.sum_comm]
      exact Finset.sum_congr rfl fun f _ => Finset.sum_congr rfl fun i _ => by ring
    have f3 : grad.2.2 * c' = ∑ f ∈ Finset.range shape.prod, g.getD f 0 *
        (c' * amp shape.length (A t₀) (b t₀) 1 (toF (unravel shape f))) := by
      simp only [grad, e3]
      rw [Finset.sum_div, Finset.sum_mul]
      refine Finset.sum_congr rfl fun f _ => ?_
      unfold target
      rw [amp_smul]
      field_simp
    rw [f1, f2, f3, ← Finset.sum_add_distrib, ← Finset.sum_add_distrib]
    refine Finset.sum_congr rfl fun f _ => ?_
    unfold mulQ; ring
  rw [hval]
  exact HasDerivAt.fun_sum fun f _ =>
    (hasDeriv_amp hA hb hc _ (below_toF_unravel shape f)).const_mul _

/-- The two strategies return the same array. -/
theorem stable_eq_vanilla {shape A b} {c : ℂ} {G0 : List ℂ} (hN : 0 < shape.prod) (hlen : G0.length = shape.prod)
    (hA : Symm shape.length A) : stable shape A b c G0 = vanilla shape A b c G0 := by
  have h0 := (grad_ravel_unravel shape 0 hN).1
  have l1 := (C20_stable_correct shape A b c G0 hlen hA _ h0).1
  have l2 := (C19_vanilla_correct shape A b c G0 hlen hA _ h0).1
  apply List.ext_getElem?
  intro f
  by_cases hf : f < shape.prod
  · obtain ⟨hb, hr⟩ := grad_ravel_unravel _ _ hf
    have e1 := (C20_stable_correct shape A b c G0 hlen hA _ hb).2
    have e2 := (C19_vanilla_correct shape A b c G0 hlen hA _ hb).2
    rw [hr] at e1 e2
    rw [e1, e2]
  · rw [List.getElem?_eq_none (by omega), List.getElem?_eq_none (by omega)]

/-- **C61** The same for the `stable` strategy, whose backward pass is the same function. -/
theorem C61_stable_vjp (shape : List ℕ) (hN : 0 < shape.prod) (A : 𝕜 → ℕ → ℕ → ℂ) (b : 𝕜 → ℕ → ℂ) (c : 𝕜 → ℂ)
    (A' : ℕ → ℕ → ℂ) (b' : ℕ → ℂ) (c' : ℂ) (t₀ : 𝕜) (G0 g : List ℂ)
    (hG0 : G0.length = shape.prod) (hg : g.length = shape.prod)
    (hsym : ∀ t, Symm shape.length (A t)) (hc0 : c t₀ ≠ 0)
    (hA : ∀ i < shape.length, ∀ j < shape.length, HasDerivAt (fun t => A t i j) (A' i j) t₀)
    (hb : ∀ i < shape.length, HasDerivAt (fun t => b t i) (b' i) t₀) (hc : HasDerivAt c c' t₀) :
    let G := fun t => stable shape (A t) (b t) (c t) G0
    let grad := vanillaVjp shape (G t₀) (c t₀) g
    HasDerivAt (fun t => pairing shape.prod g (G t))
      (∑ i ∈ Finset.range shape.length, ∑ j ∈ Finset.range shape.length, grad.1 i j * A' i j +
        ∑ i ∈ Finset.range shape.length, grad.2.1 i * b' i + grad.2.2 * c') t₀ := by
  have e : ∀ t, stable shape (A t) (b t) (c t) G0 = vanilla shape (A t) (b t) (c t) G0 :=
    fun t => stable_eq_vanilla hN hG0 (hsym t)
  intro G grad
  have := C61_vanilla_vjp shape hN A b c A' b' c' t₀ G0 g hG0 hg hsym hc0 hA hb hc
  simp only [G, grad, e]
  exact this

/-- The returned matrix gradient is symmetric, whatever its inputs. -/
theorem C61_symm (shape : List ℕ) (G : List ℂ) (c : ℂ) (g : List ℂ) (i j : ℕ) :
    (vanillaVjp shape G c g).1 i j = (vanillaVjp shape G c g).1 j i := by
  unfold vanillaVjp; simp only []; rw [add_comm]

/-- A concrete family meeting the hypotheses: a 3 × 2 array, `A(t)` constant off-diagonal and linear on the
diagonal, `b(t) = t²`, `c(t) = 1 + t`. -/
example : HasDerivAt (𝕜 := ℝ) (fun t : ℝ => pairing 6 [1, 2, 3, 4, 5, 6]
      (vanilla [3, 2] (fun i j => if i = j then (t : ℂ) else 7) (fun _ => (t : ℂ) * t) (1 + t) (List.replicate 6 0)))
    (let grad := vanillaVjp [3, 2] (vanilla [3, 2] (fun i j => if i = j then ((2 : ℝ) : ℂ) else 7)
        (fun _ => ((2 : ℝ) : ℂ) * (2 : ℝ)) (1 + (2 : ℝ)) (List.replicate 6 0)) (1 + (2 : ℝ)) [1, 2, 3, 4, 5, 6]
     ∑ i ∈ Finset.range 2, ∑ j ∈ Finset.range 2, grad.1 i j * (if i = j then 1 else 0) +
       ∑ i ∈ Finset.range 2, grad.2.1 i * (1 * ((2 : ℝ) : ℂ) + ((2 : ℝ) : ℂ) * 1) + grad.2.2 * 1) 2 := by
  have hid : HasDerivAt (fun t : ℝ => (t : ℂ)) 1 2 := (hasDerivAt_id (2 : ℝ)).ofReal_comp
  refine C61_vanilla_vjp (𝕜 := ℝ) [3, 2] (by decide) (fun t i j => if i = j then (t : ℂ) else 7)
    (fun t _ => (t : ℂ) * t) (fun t => 1 + t) (fun i j => if i = j then 1 else 0)
    (fun _ => 1 * ((2 : ℝ) : ℂ) + ((2 : ℝ) : ℂ) * 1) 1 2 (List.replicate 6 0) _ rfl rfl ?_ ?_ ?_ ?_ ?_
  · intro t i _ j _; simp only [eq_comm]
  · norm_num
  · intro i _ j _
    by_cases h : i = j
    · simpa [h] using hid
    · simpa [h] using hasDerivAt_const (2 : ℝ) (7 : ℂ)
  · intro i _; exact hid.mul hid
  · exact hid.const_add 1

end Verif.Fock
