import Verif.CompAdd

/-!
# Sums of components of the built-in classes (C107, continued)

The generating functions of twelve built-in classes are vectorised, so the theorems of `CompAdd` apply to them.
-/

namespace Verif.CompAdd
open Verif.PolyExp Verif.Fock

/-! ## The code -/

/-- A generating function of one keyword argument (e.g. mrmustard/physics/triples.py 81-123). -/
def gen1 (n : String) (T : List ℕ → (List ℕ → ℂ) → PolyExp) (A : List (String × Tens)) : Option PolyExp :=
  (A.lookup n).map fun x => T x.shape x.data

/-- A generating function of two keyword arguments of the same shape (e.g. mrmustard/physics/triples.py 126-150).  Simplification: arguments of different
shapes, which the code broadcasts, do not occur in `Built`, and give `none`. -/
def gen2 (n m : String) (T : List ℕ → (List ℕ → ℂ) → (List ℕ → ℂ) → PolyExp) (A : List (String × Tens)) : Option PolyExp :=
  (A.lookup n).bind fun x => (A.lookup m).bind fun y => if x.shape = y.shape then some (T x.shape x.data y.data) else none

/-- A generating function of three keyword arguments of the same shape (mrmustard/physics/triples.py 153-190), with the same simplification. -/
def gen3 (n m k : String) (T : List ℕ → (List ℕ → ℂ) → (List ℕ → ℂ) → (List ℕ → ℂ) → PolyExp) (A : List (String × Tens)) : Option PolyExp :=
  (A.lookup n).bind fun x => (A.lookup m).bind fun y => (A.lookup k).bind fun z =>
    if x.shape = y.shape ∧ y.shape = z.shape then some (T x.shape x.data y.data z.data) else none

/-- The real parts: a parameter that is real. -/
def re (f : List ℕ → ℂ) (β : List ℕ) : ℝ := (f β).re

/-- The bases of a ket (mrmustard/lab/states/ket.py 43). -/
def ketMro (n : String) : List String := [n, "Ket", "State", "CircuitComponent"]

/-- The bases of a density matrix (mrmustard/lab/states/dm.py 45). -/
def dmMro (n : String) : List String := [n, "DM", "State", "CircuitComponent"]

/-- The bases of a unitary (mrmustard/lab/transformations/base.py 191, 218). -/
def unitaryMro (n : String) : List String := [n, "Unitary", "Operation", "Transformation", "CircuitComponent"]

/-- mrmustard/lab/states/bargmann_eigenstate.py 63-86. -/
def bargmannEigenCls : Cls :=
  ⟨"BargmannEigenstate", ketMro "BargmannEigenstate", 10, false, gen1 "alpha" Verif.Triples.bargmannEigen, [("alpha", "alpha")], []⟩

/-- mrmustard/lab/states/displaced_squeezed.py 63-108. -/
noncomputable def displacedSqueezedCls : Cls :=
  ⟨"DisplacedSqueezed", ketMro "DisplacedSqueezed", 11, false, gen3 "alpha" "r" "phi" fun B a r φ => Verif.Triples.displacedSqueezed B a (re r) (re φ),
    [("alpha", "alpha"), ("r", "r"), ("phi", "phi")], []⟩

/-- mrmustard/lab/states/quadrature_eigenstate.py 63-96. -/
noncomputable def quadratureEigenCls (hbar : ℝ) : Cls :=
  ⟨"QuadratureEigenstate", ketMro "QuadratureEigenstate", 12, false, gen2 "x" "phi" fun B x φ => Verif.Triples.quadratureEigen hbar B (re x) (re φ),
    [("x", "x"), ("phi", "phi")], []⟩

/-- mrmustard/lab/states/squeezed_vacuum.py 59-91. -/
noncomputable def squeezedVacuumCls : Cls :=
  ⟨"SqueezedVacuum", ketMro "SqueezedVacuum", 13, false, gen2 "r" "phi" fun B r φ => Verif.Triples.squeezedVacuum B (re r) (re φ), [("r", "r"), ("phi", "phi")], []⟩

/-- mrmustard/lab/states/thermal.py 57-78. -/
noncomputable def thermalCls : Cls :=
  ⟨"Thermal", dmMro "Thermal", 14, false, gen1 "nbar" fun B n => Verif.Triples.thermal B (re n), [("nbar", "nbar")], []⟩

/-- mrmustard/lab/states/two_mode_squeezed_vacuum.py 60-90. -/
noncomputable def tmsvCls : Cls :=
  ⟨"TwoModeSqueezedVacuum", ketMro "TwoModeSqueezedVacuum", 15, false, gen2 "r" "phi" fun B r φ => Verif.Triples.tmsv B (re r) (re φ),
    [("r", "r"), ("phi", "phi")], []⟩

/-- mrmustard/lab/transformations/bsgate.py 89-111. -/
noncomputable def bsgateCls : Cls :=
  ⟨"BSgate", unitaryMro "BSgate", 16, false, gen2 "theta" "phi" fun B θ φ => Verif.Triples.beamsplitter B (re θ) (re φ), [("theta", "theta"), ("phi", "phi")], []⟩

/-- mrmustard/lab/transformations/dgate.py 77-93. -/
noncomputable def dgateCls : Cls :=
  ⟨"Dgate", unitaryMro "Dgate", 17, false, gen1 "alpha" Verif.Triples.displacement, [("alpha", "alpha")], []⟩

/-- mrmustard/lab/transformations/rgate.py 55-71. -/
noncomputable def rgateCls : Cls :=
  ⟨"Rgate", unitaryMro "Rgate", 18, false, gen1 "theta" fun B θ => Verif.Triples.rotation B (re θ), [("theta", "theta")], []⟩

/-- mrmustard/lab/transformations/s2gate.py 72-102. -/
noncomputable def s2gateCls : Cls :=
  ⟨"S2gate", unitaryMro "S2gate", 19, false, gen2 "r" "phi" fun B r φ => Verif.Triples.twoModeSqueezing B (re r) (re φ), [("r", "r"), ("phi", "phi")], []⟩

/-- mrmustard/lab/transformations/sgate.py 84-120. -/
noncomputable def sgateCls : Cls :=
  ⟨"Sgate", unitaryMro "Sgate", 20, false, gen2 "r" "phi" fun B r φ => Verif.Triples.squeezing B (re r) (re φ), [("r", "r"), ("phi", "phi")], []⟩

/-- The classes treated here; `hbar` is a setting. -/
noncomputable def classes (hbar : ℝ) : List Cls :=
  [coherentCls, bargmannEigenCls, displacedSqueezedCls, quadratureEigenCls hbar, squeezedVacuumCls, thermalCls, tmsvCls, bsgateCls, dgateCls, rgateCls,
    s2gateCls, sgateCls]

/-! ## Specification -/

/-- The value at `z` of the component of class `k` with these numbers for parameters. -/
noncomputable def single (k : Cls) (l : List (String × ℂ)) (z : ℕ → ℂ) : ℂ :=
  ((k.gen (l.map fun x => (x.1, ⟨[], fun _ => x.2⟩))).map fun f => f.termAt [] z).getD 0

/-! ## Proofs -/

theorem names1 {A : List (String × Tens)} {n : String} (h : A.map (·.1) = [n]) : ∃ x, A = [(n, x)] := by
  rcases A with _ | ⟨⟨a, x⟩, _ | ⟨y, l⟩⟩
  · cases h
  · injection h with h1
    exact ⟨x, by rw [← h1]⟩
  · cases h

theorem names2 {A : List (String × Tens)} {n m : String} (h : A.map (·.1) = [n, m]) : ∃ x y, A = [(n, x), (m, y)] := by
  rcases A with _ | ⟨⟨a, x⟩, A⟩
  · cases h
  · injection h with h1 h2
    obtain ⟨y, rfl⟩ := names1 h2
    exact ⟨x, y, by rw [← h1]⟩

theorem names3 {A : List (String × Tens)} {n m k : String} (h : A.map (·.1) = [n, m, k]) : ∃ x y z, A = [(n, x), (m, y), (k, z)] := by
  rcases A with _ | ⟨⟨a, x⟩, A⟩
  · cases h
  · injection h with h1 h2
    obtain ⟨y, z, rfl⟩ := names2 h2
    exact ⟨x, y, z, by rw [← h1]⟩

theorem vec1 {k : Cls} {n : String} {T : List ℕ → (List ℕ → ℂ) → PolyExp} (hk : k.kw = [(n, n)]) (hg : k.gen = gen1 n T)
    (hb : ∀ B x, (T B x).batch = B) (ht : ∀ B x β z, (T B x).termAt β z = (T [] fun _ => x β).termAt [] z) :
    Vectorised (k.kw.map (·.1)) k.gen (single k) := by
  have key : ∀ x : Tens, k.gen [(n, x)] = some (T x.shape x.data) := fun x => by rw [hg]; simp [gen1]
  constructor
  · intro A hA hs
    obtain ⟨x, rfl⟩ := names1 (by rw [hk] at hA; exact hA)
    refine ⟨_, key x, (hb _ _).trans (hs _ List.mem_cons_self), fun z => ?_⟩
    unfold single
    simp only [List.map_cons, List.map_nil]
    rw [key, ht]
    rfl
  · intro A L hA hs
    obtain ⟨x, rfl⟩ := names1 (by rw [hk] at hA; exact hA)
    refine ⟨_, key x, (hb _ _).trans (hs _ List.mem_cons_self), fun l _ z => ?_⟩
    unfold single
    simp only [List.map_cons, List.map_nil]
    rw [key, ht]
    rfl

theorem vec2 {k : Cls} {n m : String} (hnm : m ≠ n) {T : List ℕ → (List ℕ → ℂ) → (List ℕ → ℂ) → PolyExp} (hk : k.kw = [(n, n), (m, m)]) (hg : k.gen = gen2 n m T)
    (hb : ∀ B x y, (T B x y).batch = B) (ht : ∀ B x y β z, (T B x y).termAt β z = (T [] (fun _ => x β) fun _ => y β).termAt [] z) :
    Vectorised (k.kw.map (·.1)) k.gen (single k) := by
  have key : ∀ x y : Tens, x.shape = y.shape → k.gen [(n, x), (m, y)] = some (T x.shape x.data y.data) := fun x y h => by
    rw [hg]
    unfold gen2
    simp only [List.lookup_cons, beq_false_of_ne hnm, beq_self_eq_true]
    simp [h]
  constructor
  · intro A hA hs
    obtain ⟨x, y, rfl⟩ := names2 (by rw [hk] at hA; exact hA)
    have hx : x.shape = [] := hs (n, x) (by simp)
    have hy : y.shape = [] := hs (m, y) (by simp)
    refine ⟨_, key x y (hx.trans hy.symm), (hb _ _ _).trans hx, fun z => ?_⟩
    unfold single
    simp only [List.map_cons, List.map_nil]
    rw [key ⟨[], fun _ => x.data []⟩ ⟨[], fun _ => y.data []⟩ rfl, ht]
    rfl
  · intro A L hA hs
    obtain ⟨x, y, rfl⟩ := names2 (by rw [hk] at hA; exact hA)
    have hx : x.shape = [L] := hs (n, x) (by simp)
    have hy : y.shape = [L] := hs (m, y) (by simp)
    refine ⟨_, key x y (hx.trans hy.symm), (hb _ _ _).trans hx, fun l _ z => ?_⟩
    unfold single
    simp only [List.map_cons, List.map_nil]
    rw [key ⟨[], fun _ => x.data [l]⟩ ⟨[], fun _ => y.data [l]⟩ rfl, ht]
    rfl

theorem vec3 {k : Cls} {n m o : String} (hnm : m ≠ n) (hno : o ≠ n) (hmo : o ≠ m) {T : List ℕ → (List ℕ → ℂ) → (List ℕ → ℂ) → (List ℕ → ℂ) → PolyExp}
    (hk : k.kw = [(n, n), (m, m), (o, o)]) (hg : k.gen = gen3 n m o T) (hb : ∀ B x y w, (T B x y w).batch = B)
    (ht : ∀ B x y w β z, (T B x y w).termAt β z = (T [] (fun _ => x β) (fun _ => y β) fun _ => w β).termAt [] z) :
    Vectorised (k.kw.map (·.1)) k.gen (single k) := by
  have key : ∀ x y w : Tens, x.shape = y.shape → y.shape = w.shape → k.gen [(n, x), (m, y), (o, w)] = some (T x.shape x.data y.data w.data) := fun x y w h h' => by
    rw [hg]
    unfold gen3
    simp only [List.lookup_cons, beq_false_of_ne hnm, beq_false_of_ne hno, beq_false_of_ne hmo, beq_self_eq_true]
    simp [h, h']
  constructor
  · intro A hA hs
    obtain ⟨x, y, w, rfl⟩ := names3 (by rw [hk] at hA; exact hA)
    have hx : x.shape = [] := hs (n, x) (by simp)
    have hy : y.shape = [] := hs (m, y) (by simp)
    have hw : w.shape = [] := hs (o, w) (by simp)
    refine ⟨_, key x y w (hx.trans hy.symm) (hy.trans hw.symm), (hb _ _ _ _).trans hx, fun z => ?_⟩
    unfold single
    simp only [List.map_cons, List.map_nil]
    rw [key ⟨[], fun _ => x.data []⟩ ⟨[], fun _ => y.data []⟩ ⟨[], fun _ => w.data []⟩ rfl rfl, ht]
    rfl
  · intro A L hA hs
    obtain ⟨x, y, w, rfl⟩ := names3 (by rw [hk] at hA; exact hA)
    have hx : x.shape = [L] := hs (n, x) (by simp)
    have hy : y.shape = [L] := hs (m, y) (by simp)
    have hw : w.shape = [L] := hs (o, w) (by simp)
    refine ⟨_, key x y w (hx.trans hy.symm) (hy.trans hw.symm), (hb _ _ _ _).trans hx, fun l _ z => ?_⟩
    unfold single
    simp only [List.map_cons, List.map_nil]
    rw [key ⟨[], fun _ => x.data [l]⟩ ⟨[], fun _ => y.data [l]⟩ ⟨[], fun _ => w.data [l]⟩ rfl rfl, ht]
    rfl

theorem termAt_mk {B B' : List ℕ} {N : ℕ} {A A' b b' c c'} {β β' : List ℕ} {z : ℕ → ℂ} (hA : A β = A' β') (hb : b β = b' β') (hc : c β = c' β') :
    (Verif.Triples.mk B N A b c).termAt β z = (Verif.Triples.mk B' N A' b' c').termAt β' z := by
  unfold PolyExp.termAt Verif.Triples.mk PolyExp.numCV
  dsimp only
  rw [hA, hb, hc]

theorem classes_ok (hbar : ℝ) : ∀ k ∈ classes hbar, Named k ∧ k.lam = false ∧ Vectorised (k.kw.map (·.1)) k.gen (single k) := by
  unfold classes
  simp only [List.forall_mem_cons, List.not_mem_nil, false_imp_iff, implies_true, and_true]
  have n1 : ∀ {k : Cls} {n : String}, k.kw = [(n, n)] → k.fixed = [] → Named k := fun h h' => ⟨by simp [h], h', by simp [h], by simp [h]⟩
  have n2 : ∀ {k : Cls} {n m : String}, n ≠ m → k.kw = [(n, n), (m, m)] → k.fixed = [] → Named k := fun hn h h' => ⟨by simp [h], h', by simp [h, hn], by simp [h]⟩
  refine ⟨⟨coherent_named, rfl, ?_⟩, ⟨n1 rfl rfl, rfl, ?_⟩, ⟨⟨by simp [displacedSqueezedCls], rfl, by simp [displacedSqueezedCls], by simp [displacedSqueezedCls]⟩, rfl, ?_⟩,
    ⟨n2 (by decide) rfl rfl, rfl, ?_⟩, ⟨n2 (by decide) rfl rfl, rfl, ?_⟩, ⟨n1 rfl rfl, rfl, ?_⟩, ⟨n2 (by decide) rfl rfl, rfl, ?_⟩, ⟨n2 (by decide) rfl rfl, rfl, ?_⟩,
    ⟨n1 rfl rfl, rfl, ?_⟩, ⟨n1 rfl rfl, rfl, ?_⟩, ⟨n2 (by decide) rfl rfl, rfl, ?_⟩, ⟨n2 (by decide) rfl rfl, rfl, ?_⟩⟩
  · exact vec1 (n := "alpha") (T := Verif.Triples.coherent) rfl rfl (fun _ _ => rfl) fun _ _ _ _ => by
      unfold Verif.Triples.coherent
      exact termAt_mk rfl rfl rfl
  · exact vec1 (n := "alpha") (T := Verif.Triples.bargmannEigen) rfl rfl (fun _ _ => rfl) fun _ _ _ _ => by
      unfold Verif.Triples.bargmannEigen
      exact termAt_mk rfl rfl rfl
  · exact vec3 (n := "alpha") (m := "r") (o := "phi") (T := fun B a r φ => Verif.Triples.displacedSqueezed B a (re r) (re φ)) (by decide) (by decide) (by decide) rfl rfl (fun _ _ _ _ => rfl) fun _ _ _ _ _ _ => by
      unfold Verif.Triples.displacedSqueezed
      exact termAt_mk rfl rfl rfl
  · exact vec2 (n := "x") (m := "phi") (T := fun B x φ => Verif.Triples.quadratureEigen hbar B (re x) (re φ)) (by decide) rfl rfl (fun _ _ _ => rfl) fun _ _ _ _ _ => by
      unfold Verif.Triples.quadratureEigen
      exact termAt_mk rfl rfl rfl
  · exact vec2 (n := "r") (m := "phi") (T := fun B r φ => Verif.Triples.squeezedVacuum B (re r) (re φ)) (by decide) rfl rfl (fun _ _ _ => rfl) fun _ _ _ _ _ => by
      unfold Verif.Triples.squeezedVacuum
      exact termAt_mk rfl rfl rfl
  · exact vec1 (n := "nbar") (T := fun B n => Verif.Triples.thermal B (re n)) rfl rfl (fun _ _ => rfl) fun _ _ _ _ => by
      unfold Verif.Triples.thermal
      exact termAt_mk rfl rfl rfl
  · exact vec2 (n := "r") (m := "phi") (T := fun B r φ => Verif.Triples.tmsv B (re r) (re φ)) (by decide) rfl rfl (fun _ _ _ => rfl) fun _ _ _ _ _ => by
      unfold Verif.Triples.tmsv
      exact termAt_mk rfl rfl rfl
  · exact vec2 (n := "theta") (m := "phi") (T := fun B θ φ => Verif.Triples.beamsplitter B (re θ) (re φ)) (by decide) rfl rfl (fun _ _ _ => rfl) fun _ _ _ _ _ => by
      unfold Verif.Triples.beamsplitter
      exact termAt_mk rfl rfl rfl
  · exact vec1 (n := "alpha") (T := Verif.Triples.displacement) rfl rfl (fun _ _ => rfl) fun _ _ _ _ => by
      unfold Verif.Triples.displacement
      exact termAt_mk rfl rfl rfl
  · exact vec1 (n := "theta") (T := fun B θ => Verif.Triples.rotation B (re θ)) rfl rfl (fun _ _ => rfl) fun _ _ _ _ => by
      unfold Verif.Triples.rotation
      exact termAt_mk rfl rfl rfl
  · exact vec2 (n := "r") (m := "phi") (T := fun B r φ => Verif.Triples.twoModeSqueezing B (re r) (re φ)) (by decide) rfl rfl (fun _ _ _ => rfl) fun _ _ _ _ _ => by
      unfold Verif.Triples.twoModeSqueezing
      exact termAt_mk rfl rfl rfl
  · exact vec2 (n := "r") (m := "phi") (T := fun B r φ => Verif.Triples.squeezing B (re r) (re φ)) (by decide) rfl rfl (fun _ _ _ => rfl) fun _ _ _ _ _ => by
      unfold Verif.Triples.squeezing
      exact termAt_mk rfl rfl rfl

variable {W : Type*}

/-- The value of every component made from one of the twelve classes, over every history of sums and assignments: the sum, over the entries of its present
parameters, of the values of the components with these numbers for parameters. -/
theorem C107_builtin_value [DecidableEq W] (hbar : ℝ) (k : Cls) (hk : k ∈ classes hbar) (c : Comp W) (h : Built k c) (z : ℕ → ℂ) :
    c.value z = some (∑ l ∈ Finset.range (terms c), single k (entries c.params l) z) :=
  let ⟨hN, hl, hv⟩ := classes_ok hbar k hk
  C107_value k hN hl (single k) hv c h z

/-- Two components of one of the twelve classes on the same wires, whose parameters are variables with the same bounds or constants in both, can be added, and
the function of the sum is the sum of the functions. -/
theorem C107_builtin_sum [DecidableEq W] (hbar : ℝ) (k : Cls) (hk : k ∈ classes hbar) (newId : ℕ) (a b : Comp W) (ha : Built k a) (hb : Built k b)
    (hw : a.wires = b.wires) (hp : ∀ n p q, a.params.lookup n = some p → b.params.lookup n = some q →
      p.trainable = q.trainable ∧ (p.trainable = true → p.bounds = q.bounds)) :
    ∃ c, add newId a b = .ok c ∧ Built k c ∧ c.wires = a.wires ∧ c.mro = a.mro ∧ terms c = terms a + terms b ∧
      ∀ z, ∃ x y, a.value z = some x ∧ b.value z = some y ∧ c.value z = some (x + y) := by
  obtain ⟨hN, hl, hv⟩ := classes_ok hbar k hk
  obtain ⟨c, hc⟩ := (C107_sum_iff k hN hl (single k) hv newId a b ha hb hw).1.2 hp
  have h := C107_sum k hN hl (single k) hv newId a b c ha hb hc
  exact ⟨c, hc, Built.sum ha hb hc, h.1, h.2.2.1, h.2.2.2.2.1, h.2.2.2.2.2.1⟩

/-- These classes have the keyword arguments listed in `builtins`, and each stays a `Ket`, `DM` or `Unitary` when added. -/
theorem C107_builtin_sig (hbar : ℝ) : ∀ k ∈ classes hbar, ∃ s ∈ builtins, s.name = k.name ∧ HasSig k s ∧ s.name ∉ neverAdd ∧ k.name ∈ k.mro ∧
    ("Ket" ∈ k.mro ∨ "DM" ∈ k.mro ∨ "Unitary" ∈ k.mro) := by
  unfold classes
  simp only [List.forall_mem_cons, List.not_mem_nil, false_imp_iff, implies_true, and_true]
  have h : ∀ (k : Cls) (i : ℕ) (s : Sig), builtins[i]? = some s → s.name = k.name ∧ HasSig k s ∧ s.name ∉ neverAdd ∧ k.name ∈ k.mro ∧ ("Ket" ∈ k.mro ∨ "DM" ∈ k.mro ∨ "Unitary" ∈ k.mro) →
      ∃ s ∈ builtins, s.name = k.name ∧ HasSig k s ∧ s.name ∉ neverAdd ∧ k.name ∈ k.mro ∧ ("Ket" ∈ k.mro ∨ "DM" ∈ k.mro ∨ "Unitary" ∈ k.mro) :=
    fun k i s hi hs => ⟨s, List.mem_of_getElem? hi, hs⟩
  refine ⟨h _ 1 _ rfl ⟨rfl, ⟨rfl, rfl, rfl⟩, by decide, by decide, by decide⟩, h _ 0 _ rfl ⟨rfl, ⟨rfl, rfl, rfl⟩, by decide, by decide, by decide⟩,
    h _ 2 _ rfl ⟨rfl, ⟨rfl, rfl, rfl⟩, by decide, by decide, by decide⟩, h _ 5 _ rfl ⟨rfl, ⟨rfl, rfl, rfl⟩, by decide, show "QuadratureEigenstate" ∈ ketMro "QuadratureEigenstate" by decide,
      Or.inl (show "Ket" ∈ ketMro "QuadratureEigenstate" by decide)⟩,
    h _ 7 _ rfl ⟨rfl, ⟨rfl, rfl, rfl⟩, by decide, by decide, by decide⟩, h _ 8 _ rfl ⟨rfl, ⟨rfl, rfl, rfl⟩, by decide, by decide, by decide⟩,
    h _ 9 _ rfl ⟨rfl, ⟨rfl, rfl, rfl⟩, by decide, by decide, by decide⟩, h _ 12 _ rfl ⟨rfl, ⟨rfl, rfl, rfl⟩, by decide, by decide, by decide⟩,
    h _ 15 _ rfl ⟨rfl, ⟨rfl, rfl, rfl⟩, by decide, by decide, by decide⟩, h _ 24 _ rfl ⟨rfl, ⟨rfl, rfl, rfl⟩, by decide, by decide, by decide⟩,
    h _ 25 _ rfl ⟨rfl, ⟨rfl, rfl, rfl⟩, by decide, by decide, by decide⟩, h _ 26 _ rfl ⟨rfl, ⟨rfl, rfl, rfl⟩, by decide, by decide, by decide⟩⟩

/-- Which of these classes are kets, density matrices and unitaries; no two of them share their generating function, so components of different classes are
never added by adding parameters. -/
theorem C107_builtin_kinds (hbar : ℝ) :
    ((classes hbar).map fun k => (k.name, if "Ket" ∈ k.mro then "Ket" else if "DM" ∈ k.mro then "DM" else if "Unitary" ∈ k.mro then "Unitary" else "")) =
      [("Coherent", "Ket"), ("BargmannEigenstate", "Ket"), ("DisplacedSqueezed", "Ket"), ("QuadratureEigenstate", "Ket"), ("SqueezedVacuum", "Ket"),
        ("Thermal", "DM"), ("TwoModeSqueezedVacuum", "Ket"), ("BSgate", "Unitary"), ("Dgate", "Unitary"), ("Rgate", "Unitary"), ("S2gate", "Unitary"),
        ("Sgate", "Unitary")] ∧ ((classes hbar).map Cls.fnId).Nodup := by
  constructor
  · unfold classes
    simp only [List.map_cons, List.map_nil]
    have h : ∀ (k : Cls) (m : List String) (s t : String), k.mro = m → k.name = s →
        (if "Ket" ∈ m then "Ket" else if "DM" ∈ m then "DM" else if "Unitary" ∈ m then "Unitary" else "") = t →
        (k.name, if "Ket" ∈ k.mro then "Ket" else if "DM" ∈ k.mro then "DM" else if "Unitary" ∈ k.mro then "Unitary" else "") = (s, t) := by
      intro k m s t h1 h2 h3
      rw [h1, h2, h3]
    rw [h coherentCls _ _ "Ket" rfl rfl (by decide), h bargmannEigenCls _ _ "Ket" rfl rfl (by decide), h displacedSqueezedCls _ _ "Ket" rfl rfl (by decide),
      h (quadratureEigenCls hbar) (ketMro "QuadratureEigenstate") _ "Ket" rfl rfl (by decide), h squeezedVacuumCls _ _ "Ket" rfl rfl (by decide), h thermalCls _ _ "DM" rfl rfl (by decide),
      h tmsvCls _ _ "Ket" rfl rfl (by decide), h bsgateCls _ _ "Unitary" rfl rfl (by decide), h dgateCls _ _ "Unitary" rfl rfl (by decide),
      h rgateCls _ _ "Unitary" rfl rfl (by decide), h s2gateCls _ _ "Unitary" rfl rfl (by decide), h sgateCls _ _ "Unitary" rfl rfl (by decide)]
    rfl
  · show ([_, 10, 11, 12, 13, 14, 15, 16, 17, 18, 19, 20] : List ℕ).Nodup
    decide

/-- A rotation gate with a trainable angle. -/
noncomputable def rot (θ : ℂ) : Comp ℕ :=
  ⟨some rgateCls, rgateCls.mro, 0, "Rgate", [("theta", ⟨true, (none, none), ⟨[], fun _ => θ⟩⟩)], .gen 18 rgateCls.gen rgateCls.kw [] false, fun _ => none⟩

theorem rot_built (θ : ℂ) : Built rgateCls (rot θ) := by
  refine Built.new (newId := 0) (w := 0) (given := [("theta", ⟨true, (none, none), ⟨[], fun _ => θ⟩⟩)]) (fun g hg => ?_) rfl
  rw [List.mem_singleton.1 hg]

/-- `Rgate(0, 1, True) + Rgate(0, 2, True)` is a `Unitary` with two terms, whose function is the sum of the two. -/
example : ∃ c, add 0 (rot 1) (rot 2) = .ok c ∧ Built rgateCls c ∧ c.wires = 0 ∧ "Unitary" ∈ c.mro ∧ terms c = 2 ∧
    ∀ z, ∃ x y, (rot 1).value z = some x ∧ (rot 2).value z = some y ∧ c.value z = some (x + y) := by
  obtain ⟨c, h1, h2, h3, h4, h5, h6⟩ := C107_builtin_sum 1 rgateCls (by simp [classes]) 0 (rot 1) (rot 2) (rot_built 1) (rot_built 2) rfl (by
    intro n p q hp hq
    have h1 := List.mem_singleton.1 (mem_lookup hp)
    have h2 := List.mem_singleton.1 (mem_lookup hq)
    injection h1 with _ h1
    injection h2 with _ h2
    rw [h1, h2]
    exact ⟨rfl, fun _ => rfl⟩)
  exact ⟨c, h1, h2, h3, by rw [h4]; decide, h5, h6⟩

end Verif.CompAdd
