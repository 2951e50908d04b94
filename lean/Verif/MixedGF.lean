import Verif.MixedRight

/-!
# Contraction across representations with the array on the right: results (C111)
-/

namespace Verif.Mixed
open Verif.Fock Verif.Batch Verif.PolyExp PolyExp Verif.Arr Verif.Arr.Arr Verif.ToBargmann Verif.Triples

variable {f g : PolyExp} {c1 c2 co : List ℕ}

theorem mixed_callR {n : ℕ} (hp : Poly f n) (fb : f.batch = []) (hg : g.WF) (sg : SymAll g) (gl : g.linSup = false) (gb : g.batch = []) (gd : g.derived = [])
    (H : Compat g f [] c1 [] c2 [] co) :
    ∃ h, g.contract f [] c1 [] c2 [] co = some (.finite h) ∧ h.WF ∧ h.numCV = co.length ∧ SymAll h ∧ h.linSup = false ∧ h.batch = [] ∧
      ∀ y, h.call [] y = termVal co.length f.derived (mixA c2 c1 co (g.A [])) (mixB c2 c1 co (g.b [])) (fun d => f.c [] d * g.c [] []) y := by
  obtain ⟨h, hc⟩ := kernel_finite hg hp.wf sg hp.symm H (Or.inr (poly_zero hp _))
  obtain ⟨JP, r, hJw, hJs, hJn, hJd, hr, hw, hn, hsy, hls, hba, hA, hB, hC, hv⟩ := stages hg hp.wf sg hp.symm gl hp.ls gb fb H hc
  refine ⟨h, hc, hw, hn, hsy, hls, hba, fun y => ?_⟩
  have hn2 : c2.length = n := by rw [H.lc2, hp.numCV]
  have hJ := jointR hp gd hA hB
  rw [← hn2, ← H.lc1] at hJ
  have hm := mixed_termR H hJw hJs hJn (by rw [hJd, gd, List.nil_append]) (by rw [hp.der, hn2]) hJ (γ := g.c [] []) (by
    intro k hk
    rw [hC, gd, List.length_nil, List.take_zero, List.drop_zero, mul_comm]) y
  rw [hv y, ← hm]
  rcases cgi1_data hr with ⟨h1, h2, ⟨h0, rfl⟩ | ⟨h0, rfl⟩⟩
  · have hz : zcIdx g.numCV c1 c2 = [] := List.length_eq_zero_iff.1 (by rw [← h1, h0]; rfl)
    rw [h0, hz, cgi_nil hJw hJs]
  · rfl

theorem mixed_ampR {n : ℕ} (hp : Poly f n) (fb : f.batch = []) {a : Arr} (ha : f.derived = a.shape) (hc : f.c [] = a.get) (hg : g.WF) (sg : SymAll g) (gl : g.linSup = false)
    (gb : g.batch = []) (gd : g.derived = []) (H : Compat g f [] c1 [] c2 [] co) :
    ∃ h, g.contract f [] c1 [] c2 [] co = some (.finite h) ∧ h.WF ∧ h.numCV = co.length ∧ SymAll h ∧ h.linSup = false ∧ h.batch = [] ∧
      ∀ shape k, 0 ∉ shape → shape.length = co.length → InB shape k → h.fockArray shape [] k = some (einsumAmp a (g.fockAmp []) c2 c1 co k) := by
  obtain ⟨h, h1, hw, hn, hsy, hls, hba, hv⟩ := mixed_callR hp fb hg sg gl gb gd H
  refine ⟨h, h1, hw, hn, hsy, hls, hba, ?_⟩
  refine amp_of_call (labels H).swap (by rw [← ha, hp.der, H.lc2, hp.numCV]) sg gl gd (by rw [H.lc1]; unfold numCV; rw [gd]; rfl) hw hn hsy ?_
  rw [← ha, ← hc]
  exact hv

/-- lab/circuit_components.py:445-486 `CircuitComponent.contract` of a Bargmann ansatz `g` with an array `a`, without batches; `s1` is `self.auto_shape()`.  The other arguments and the simplifications are
those of `contractFG`. -/
noncomputable def contractGF (dflt : Bool) (g : PolyExp) (a : Arr) (s1 c1 c2 co : List ℕ) : Option Out :=
  if dflt then (toBargmann a).bind fun f => (g.contract f [] c1 [] c2 [] co).map Out.bargmann
  else (toFock g (raise c1 c2 s1 a.shape).1).bind fun b' => (a.reduce (raise c1 c2 s1 a.shape).2).bind fun a' =>
    (Arr.contract b'.arr a' (il c1) (il c2) (il co)).map Out.fock

theorem raise_swap (same : c1.filter (· ∈ c2) = c2.filter (· ∈ c1)) (s t : List ℕ) : raise c1 c2 s t = (raise c2 c1 t s).swap := by
  unfold raise
  rw [← same]
  generalize c1.filter (· ∈ c2) = S
  induction S generalizing s t with
  | nil => rfl
  | cons l S ih =>
    rw [List.foldl_cons, List.foldl_cons]
    refine (ih _ _).trans ?_
    dsimp only
    rw [max_comm]

theorem contract_swap (same : c1.filter (· ∈ c2) = c2.filter (· ∈ c1)) (L : Labels c1 c2 co) (a b : Arr) :
    Arr.contract a b (il c1) (il c2) (il co) = Arr.contract b a (il c2) (il c1) (il co) := by
  unfold Arr.contract
  by_cases h1 : (il c1).length ≠ a.shape.length ∨ (il c2).length ≠ b.shape.length
  · rw [if_pos h1, if_pos h1.symm]
  have h1' : ¬ ((il c2).length ≠ b.shape.length ∨ (il c1).length ≠ a.shape.length) := fun h => h1 h.symm
  rw [if_neg h1, if_neg h1']
  push Not at h1
  have e2 : (∀ l ∈ il co, l ∈ il c1 ++ il c2) ↔ ∀ l ∈ il co, l ∈ il c2 ++ il c1 := by
    simp only [List.mem_append, or_comm]
  by_cases h2 : ∀ l ∈ il co, l ∈ il c1 ++ il c2
  swap
  · rw [if_pos h2, if_pos (fun h => h2 (e2.2 h))]
  rw [if_neg (not_not.2 h2), if_neg (not_not.2 (e2.1 h2)), if_neg (not_not.2 ⟨il_nodup L.n1, il_nodup L.n2, il_nodup L.n0⟩),
    if_neg (not_not.2 ⟨il_nodup L.n2, il_nodup L.n1, il_nodup L.n0⟩)]
  have hd : ∀ (c : List Lab) (s : List ℕ) (l : Lab), c.length = s.length → l ∉ c → dimIn c s l = 0 := by
    intro c s l hl hm
    unfold dimIn
    rw [List.idxOf_eq_length hm, hl, List.getD_eq_default _ _ le_rfl]
  have hcd : cdim a b (il c1) (il c2) = cdim b a (il c2) (il c1) := by
    funext l
    unfold cdim
    by_cases m1 : l ∈ il c1 <;> by_cases m2 : l ∈ il c2
    · rw [if_pos m1, if_pos m2, if_pos m2, if_pos m1, min_comm]
    · rw [if_pos m1, if_neg m2, if_neg m2]
    · rw [if_neg m1, if_pos m2, if_neg m1]
    · rw [if_neg m1, if_neg m2, hd _ _ _ h1.2 m2, hd _ _ _ h1.1 m1]
  rw [hcd, summed_il L, summed_il L.swap, same]
  refine congrArg some ?_
  refine congrArg (Arr.mk _ _) ?_
  funext o
  refine sumOver_congr (il_nodup (L.n2.filter _)) fun τ _ _ => mul_comm _ _

theorem contractGF_fock (same : c1.filter (· ∈ c2) = c2.filter (· ∈ c1)) (L : Labels c1 c2 co) (g : PolyExp) (a : Arr) (s1 : List ℕ) :
    contractGF false g a s1 c1 c2 co = contractFG false a g s1 c2 c1 co := by
  unfold contractGF contractFG
  rw [if_neg (by simp), if_neg (by simp), raise_swap same, Prod.fst_swap, Prod.snd_swap]
  rcases toFock g (raise c2 c1 a.shape s1).2 with _ | b'
  · rcases a.reduce (raise c2 c1 a.shape s1).1 with _ | a' <;> rfl
  rcases a.reduce (raise c2 c1 a.shape s1).1 with _ | a'
  · rfl
  show (Arr.contract b'.arr a' (il c1) (il c2) (il co)).map Out.fock = (Arr.contract a' b'.arr (il c2) (il c1) (il co)).map Out.fock
  rw [contract_swap same L]

/-- **C111** (array on the right) contracting a Gaussian component with one given by an array succeeds with either default representation, and all amplitudes of the result are
the sums, over the photon numbers of the shared wires that the array has, of the products of the amplitudes. -/
theorem C111_right {a : Arr} {g : PolyExp} {s1 c1 c2 co : List ℕ} (hb : a.batchDims = 0) (hg : g.WF) (sg : ∀ β, Symm g.N (g.A β)) (gl : g.linSup = false) (gb : g.batch = [])
    (gd : g.derived = []) (n1 : c1.Nodup) (n2 : c2.Nodup) (h1 : c1.length = g.numCV) (h2 : c2.length = a.shape.length) (same : c1.filter (· ∈ c2) = c2.filter (· ∈ c1))
    (out : co.Perm (c1.filter (· ∉ c2) ++ c2.filter (· ∉ c1))) (hs : s1.length = g.numCV) (h0 : 0 ∉ s1) :
    (∃ h, contractGF true g a s1 c1 c2 co = some (.bargmann (.finite h)) ∧ h.batch = [] ∧ h.numCV = co.length ∧
      ∀ shape k, 0 ∉ shape → shape.length = co.length → InB shape k → (Out.bargmann (.finite h)).amps shape k = some (einsumAmp a (g.fockAmp []) c2 c1 co k)) ∧
    ∃ r, contractGF false g a s1 c1 c2 co = some (.fock r) ∧ r.batchDims = 0 ∧ r.shape = co.map (outSize c2 c1 a.shape s1) ∧
      ∀ k, InB r.shape k → (Out.fock r).amps r.shape k = some (einsumAmp a (g.fockAmp []) c2 c1 co k) := by
  have L : Labels c1 c2 co := ⟨n1, n2, out⟩
  constructor
  · obtain ⟨f, e1, hp, e2, e3, e4⟩ := toBargmann_poly a hb
    have fo : f.outBatch = [] := by unfold outBatch; rw [hp.ls, e4]; rfl
    have go : g.outBatch = [] := by unfold outBatch; rw [gl, gb]; rfl
    have H : Compat g f [] c1 [] c2 [] co := ⟨List.nodup_nil, List.nodup_nil, by rw [go], by rw [fo], rfl, rfl, fun d hd => absurd hd List.not_mem_nil,
      fun d hd => absurd hd List.not_mem_nil, n1, n2, h1, by rw [h2, hp.numCV], same, out, fun h => by rw [gl] at h; cases h⟩
    obtain ⟨h, k1, k2, k3, k4, k5, k6, k7⟩ := mixed_ampR hp e4 e2 e3 hg sg gl gb gd H
    refine ⟨h, ?_, k6, k3, k7⟩
    unfold contractGF
    rw [if_pos rfl, e1, Option.bind_some, k1]
    rfl
  · rw [contractGF_fock same L]
    obtain ⟨r, k1, k2, k3, k4⟩ := fock_amp hb h2 hg sg gl gb gd h1 hs h0 L.swap
    exact ⟨r, k1, k2, k3, fun k hk => congrArg some (k4 k hk)⟩

/-- What the specification says of a matrix whose second axis is the first axis of a Gaussian with two wires: the matrix product. -/
theorem C111_matrix (d1 d2 : ℕ) (A : List ℕ → ℂ) (G : List ℕ → ℂ) (i j : ℕ) (hi : i < d1) :
    einsumAmp ⟨0, [d1, d2], A⟩ G [0, 1] [1, 2] [0, 2] [i, j] = ∑ m ∈ Finset.range d2, A [i, m] * G [m, j] := by
  have e : [0, 1].filter (· ∈ [1, 2]) = [1] := by decide
  unfold einsumAmp
  rw [e]
  show sumOver _ [Lab.int 1] _ _ = _
  unfold sumOver
  rw [dimIn_il]
  refine Finset.sum_congr rfl fun m hm => ?_
  have hm := Finset.mem_range.1 hm
  change m < d2 at hm
  unfold sumOver
  have e1 : (il [0, 1]).map (Function.update (assign (il [0, 2]) [i, j]) (Lab.int 1) m) = [i, m] := rfl
  have e2 : (il [1, 2]).map (Function.update (assign (il [0, 2]) [i, j]) (Lab.int 1) m) = [m, j] := rfl
  beta_reduce
  rw [e1, e2]
  unfold Arr.entry
  rw [if_pos (inb_iff.2 (List.Forall₂.cons hi (List.Forall₂.cons hm List.Forall₂.nil)))]

/-- A matrix on two wires, the second of which is connected to the input of the identity gate. -/
example : ∃ (a : Arr) (g : PolyExp), (∃ h, contractFG true a g [2, 2] [0, 1] [1, 2] [0, 2] = some (.bargmann (.finite h))) ∧
    (∃ r, contractFG false a g [2, 2] [0, 1] [1, 2] [0, 2] = some (.fock r) ∧ r.shape = [2, 2]) ∧
    ∃ r, contractGF false g a [2, 2] [1, 2] [2, 3] [3, 1] = some (.fock r) ∧ r.shape = [3, 2] := by
  have hs : ∀ β, Symm (identity 1).N ((identity 1).A β) := fun _ => identity_symm 1
  refine ⟨⟨0, [2, 3], fun k => k.sum⟩, identity 1, ?_, ?_, ?_⟩
  · obtain ⟨⟨h, e, _⟩, _⟩ := C111_left (a := ⟨0, [2, 3], fun k => k.sum⟩) (g := identity 1) (s2 := [2, 2]) (c1 := [0, 1]) (c2 := [1, 2]) (co := [0, 2]) rfl
      ⟨by decide, by intro h; cases h⟩ hs rfl rfl rfl (by decide) (by decide) rfl rfl (by decide) (by decide) rfl (by decide)
    exact ⟨h, e⟩
  · obtain ⟨_, r, e, _, hr, _⟩ := C111_left (a := ⟨0, [2, 3], fun k => k.sum⟩) (g := identity 1) (s2 := [2, 2]) (c1 := [0, 1]) (c2 := [1, 2]) (co := [0, 2]) rfl
      ⟨by decide, by intro h; cases h⟩ hs rfl rfl rfl (by decide) (by decide) rfl rfl (by decide) (by decide) rfl (by decide)
    exact ⟨r, e, hr.trans (by decide)⟩
  · obtain ⟨_, r, e, _, hr, _⟩ := C111_right (a := ⟨0, [2, 3], fun k => k.sum⟩) (g := identity 1) (s1 := [2, 2]) (c1 := [1, 2]) (c2 := [2, 3]) (co := [3, 1]) rfl
      ⟨by decide, by intro h; cases h⟩ hs rfl rfl rfl (by decide) (by decide) rfl rfl (by decide) (by decide) rfl (by decide)
    exact ⟨r, e, hr.trans (by decide)⟩

end Verif.Mixed
