import Verif.PathSearch
import Verif.WiresLabels

/-!
# `optimal_path`: the path is usable by `Circuit.contract` and has minimal cost (C12)
-/

namespace Verif.Path
open Verif.WireModel Verif.Circuits Relation

/-! ## Specification -/

/-- Two nodes joined by an edge, in either direction. -/
def Graph.Linked (g : Graph) : ℕ → ℕ → Prop := EqvGen fun a b => (a, b) ∈ g.edges

/-- All nodes of the graph are connected. -/
def Graph.Connected (g : Graph) : Prop := ∀ a ∈ g.nodes.map (·.1), ∀ b ∈ g.nodes.map (·.1), g.Linked a b

/-- A component of a circuit as the optimiser sees it: well-formed wires and one positive dimension per wire. -/
structure OkComp (c : GC) : Prop where
  good : Good c.wires
  len : c.shape.length = c.wires.len
  pos : ∀ s ∈ c.shape, 0 < s

/-! ## Well-formed graphs -/

structure WF (g : Graph) : Prop where
  nodup : (g.nodes.map (·.1)).Nodup
  ends : ∀ e ∈ g.edges, e.1 ∈ g.nodes.map (·.1) ∧ e.2 ∈ g.nodes.map (·.1)
  loops : ∀ e ∈ g.edges, e.1 ≠ e.2

theorem keys_contract {g h : Graph} {e : ℕ × ℕ} (hne : e.1 ≠ e.2) (hc : g.contract e = .ok h) :
    h.nodes.map (·.1) = (g.nodes.map (·.1)).filter (· ≠ e.2) := by
  obtain ⟨A, B, C, hA, hB, -, rfl⟩ := contract_fields hc
  show (dset (dpop g.nodes e.2) e.1 C).map (·.1) = _
  rw [keys_set_of_mem, keys_pop]
  rw [keys_pop, List.mem_filter]
  exact ⟨(dget_isSome g.nodes e.1).1 (by rw [hA]; rfl), by simpa using hne⟩

theorem mem_contractEdges {l : List (ℕ × ℕ)} {u v : ℕ} {x : ℕ × ℕ} : x ∈ contractEdges l u v ↔
    ∃ e ∈ l, e ≠ (u, v) ∧ e ≠ (v, u) ∧ x = (if e.1 = v then u else e.1, if e.2 = v then u else e.2) := by
  unfold contractEdges
  rw [List.mem_dedup, List.mem_map]
  constructor
  · rintro ⟨e, he, rfl⟩
    simp only [List.mem_filter, decide_eq_true_eq] at he
    exact ⟨e, he.1, he.2.1, he.2.2, rfl⟩
  · rintro ⟨e, he, h1, h2, rfl⟩
    exact ⟨e, by simp only [List.mem_filter, decide_eq_true_eq]; exact ⟨he, h1, h2⟩, rfl⟩

theorem contract_edges_eq {g h : Graph} {e : ℕ × ℕ} (hc : g.contract e = .ok h) : h.edges = contractEdges g.edges e.1 e.2 := by
  obtain ⟨A, B, C, -, -, -, rfl⟩ := contract_fields hc
  rfl

theorem contract_solution {g h : Graph} {e : ℕ × ℕ} (hc : g.contract e = .ok h) : h.solution = g.solution ++ [e] := by
  obtain ⟨A, B, C, -, -, -, rfl⟩ := contract_fields hc
  rfl

theorem WF.contract {g h : Graph} (hg : WF g) {e : ℕ × ℕ} (he : e ∈ g.edges) (hc : g.contract e = .ok h) : WF h := by
  have hk := keys_contract (hg.loops e he) hc
  refine ⟨?_, ?_, ?_⟩
  · rw [hk]; exact hg.nodup.filter _
  · intro x hx
    rw [contract_edges_eq hc, mem_contractEdges] at hx
    obtain ⟨e', he', -, -, rfl⟩ := hx
    obtain ⟨h1, h2⟩ := hg.ends e' he'
    obtain ⟨h3, -⟩ := hg.ends e he
    have hne := hg.loops e he
    rw [hk]
    simp only [List.mem_filter, decide_eq_true_eq]
    constructor
    · split
      · exact ⟨h3, hne⟩
      · rename_i h; exact ⟨h1, h⟩
    · split
      · exact ⟨h3, hne⟩
      · rename_i h; exact ⟨h2, h⟩
  · intro x hx
    rw [contract_edges_eq hc, mem_contractEdges] at hx
    obtain ⟨⟨a, b⟩, he', n1, n2, rfl⟩ := hx
    have hab := hg.loops _ he'
    simp only at hab ⊢
    simp only [ne_eq, Prod.mk.injEq, not_and] at n1 n2
    split <;> split <;> rename_i h1 h2
    · exact absurd (h1.trans h2.symm) hab
    · intro h3; exact n2 h1 h3.symm
    · intro h3; exact n1 h3 h2
    · exact hab

theorem contract_nodes_length {g h : Graph} (hg : WF g) {e : ℕ × ℕ} (he : e ∈ g.edges) (hc : g.contract e = .ok h) :
    h.nodes.length + 1 = g.nodes.length := by
  have hk := congrArg List.length (keys_contract (hg.loops e he) hc)
  rw [filter_ne_eq_erase hg.nodup, List.length_erase_of_mem (hg.ends e he).2, List.length_map, List.length_map] at hk
  have : 0 < (g.nodes.map (·.1)).length := List.length_pos_of_mem (hg.ends e he).2
  rw [List.length_map] at this
  omega

theorem linked_of_edge {g : Graph} {a b : ℕ} (h : (a, b) ∈ g.edges) : g.Linked a b := .rel _ _ h

/-- Contracting an edge neither connects nor disconnects anything. -/
theorem connected_contract {g h : Graph} (hg : WF g) {e : ℕ × ℕ} (he : e ∈ g.edges) (hc : g.contract e = .ok h) :
    h.Connected ↔ g.Connected := by
  obtain ⟨u, v⟩ := e
  have hk := keys_contract (hg.loops _ he) hc
  have hE := contract_edges_eq hc
  have hne := hg.loops _ he
  have hu := (hg.ends _ he).1
  simp only at hk hE hne hu
  set f : ℕ → ℕ := fun a => if a = v then u else a with hf
  -- forward: an edge of `g` becomes equality or an edge of `h`
  have fwd : ∀ a b, g.Linked a b → h.Linked (f a) (f b) := by
    intro a b hab
    induction hab with
    | rel a b hab =>
      by_cases h1 : (a, b) = (u, v)
      · cases h1; simp only [hf, if_neg hne, if_true]; exact .refl _
      · by_cases h2 : (a, b) = (v, u)
        · cases h2; simp only [hf, if_neg hne, if_true]; exact .refl _
        · refine .rel _ _ ?_
          rw [hE, mem_contractEdges]
          exact ⟨(a, b), hab, h1, h2, rfl⟩
    | refl a => exact .refl _
    | symm a b _ ih => exact .symm _ _ ih
    | trans a b c _ _ h1 h2 => exact .trans _ _ _ h1 h2
  have self : ∀ a, g.Linked (f a) a := by
    intro a
    by_cases h : a = v
    · subst h; simp only [hf, if_true]; exact .rel _ _ he
    · simp only [hf, if_neg h]; exact .refl _
  have bwd : ∀ a b, h.Linked a b → g.Linked a b := by
    intro a b hab
    induction hab with
    | rel a b hab =>
      rw [hE, mem_contractEdges] at hab
      obtain ⟨⟨x, y⟩, hxy, -, -, heq⟩ := hab
      cases heq
      exact .trans _ _ _ (self x) (.trans _ _ _ (.rel _ _ hxy) (.symm _ _ (self y)))
    | refl a => exact .refl _
    | symm a b _ ih => exact .symm _ _ ih
    | trans a b c _ _ h1 h2 => exact .trans _ _ _ h1 h2
  have hfk : ∀ a ∈ g.nodes.map (·.1), f a ∈ h.nodes.map (·.1) := by
    intro a ha
    rw [hk, List.mem_filter, decide_eq_true_eq]
    by_cases h : a = v
    · subst h; simp only [hf, if_true]; exact ⟨hu, hne⟩
    · simp only [hf, if_neg h]; exact ⟨ha, h⟩
  constructor
  · intro H a ha b hb
    exact .trans _ _ _ (.symm _ _ (self a)) (.trans _ _ _ (bwd _ _ (H _ (hfk a ha) _ (hfk b hb))) (self b))
  · intro H a ha b hb
    rw [hk, List.mem_filter, decide_eq_true_eq] at ha hb
    have := fwd a b (H a ha.1 b hb.1)
    simpa only [hf, if_neg ha.2, if_neg hb.2] using this

/-- What holds of every graph reached by contractions. -/
theorem reach_facts {g h : Graph} (hg : WF g) (hr : ReflTransGen Contracts g h) :
    WF h ∧ (h.Connected ↔ g.Connected) ∧ h.nodes.length + h.solution.length = g.nodes.length + g.solution.length ∧
      (g.nodes ≠ [] → h.nodes ≠ []) ∧
      ∃ p, h.solution = g.solution ++ p ∧ ProperPath (g.nodes.map (·.1)) p := by
  induction hr using ReflTransGen.head_induction_on with
  | refl => exact ⟨hg, Iff.rfl, rfl, id, [], by simp, .done _⟩
  | @head a c hc _ ih =>
    obtain ⟨e, he, hc⟩ := hc
    obtain ⟨i1, i2, i3, i4, p, i5, i6⟩ := ih (hg.contract he hc)
    have hs := contract_solution hc
    have hl := contract_nodes_length hg he hc
    refine ⟨i1, i2.trans (connected_contract hg he hc), ?_, ?_, e :: p, ?_, ?_⟩
    · rw [i3, hs, List.length_append, List.length_singleton]; omega
    · intro _
      refine i4 ?_
      have : e.1 ∈ c.nodes.map (·.1) := by
        rw [keys_contract (hg.loops e he) hc, List.mem_filter]
        exact ⟨(hg.ends e he).1, by simpa using hg.loops e he⟩
      intro h0; rw [h0] at this; simp at this
    · rw [i5, hs]; simp
    · rw [keys_contract (hg.loops e he) hc] at i6
      exact .step _ e.1 e.2 p (hg.ends e he).1 (hg.ends e he).2 (hg.loops e he) i6

/-- A graph without edges is connected iff it has at most one node. -/
theorem connected_no_edges {g : Graph} (hg : WF g) (he : g.edges = []) : g.Connected ↔ g.nodes.length ≤ 1 := by
  have heq : ∀ a b, g.Linked a b → a = b := by
    intro a b hab
    induction hab with
    | rel a b h => rw [he] at h; simp at h
    | refl => rfl
    | symm _ _ _ ih => exact ih.symm
    | trans _ _ _ _ _ h1 h2 => exact h1.trans h2
  have hn := hg.nodup
  constructor
  · intro H
    unfold Graph.Connected at H
    rw [← List.length_map (f := fun p : ℕ × GC => p.1)]
    generalize g.nodes.map (·.1) = l at hn H
    match l with
    | [] => simp
    | [_] => simp
    | x :: y :: l =>
      have := heq x y (H x (by simp) y (by simp))
      rw [List.nodup_cons] at hn
      exact absurd (by rw [this]; simp) hn.1
  · intro hl a ha b hb
    unfold Graph.Connected at *
    rw [← List.length_map (f := fun p : ℕ × GC => p.1)] at hl
    generalize g.nodes.map (·.1) = l at *
    match l, hl with
    | [x], _ =>
      rw [List.mem_singleton] at ha hb
      rw [ha, hb]; exact .refl _

/-! ## The parsed graph -/

theorem mem_outEdges {i j : ℕ} {ob ok : List Int} {Bs : List GC} {e : ℕ × ℕ} (h : e ∈ outEdges i j ob ok Bs) :
    e.1 = i ∧ ∃ k, ∃ hk : k < Bs.length, e.2 = j + k ∧
      ((∃ m ∈ ob, m ∈ (Bs[k]).wires.input.bra.modes) ∨ (∃ m ∈ ok, m ∈ (Bs[k]).wires.input.ket.modes)) := by
  induction Bs generalizing j ob ok with
  | nil => simp [outEdges] at h
  | cons B Bs ih =>
    rw [outEdges, List.mem_append] at h
    rcases h with h | h
    · split at h
      · rename_i hov
        rw [List.mem_singleton] at h
        subst h
        refine ⟨rfl, 0, by simp, rfl, ?_⟩
        rcases hov with hov | hov
        · obtain ⟨m, hm⟩ := List.exists_mem_of_ne_nil _ hov
          rw [List.mem_filter, decide_eq_true_eq] at hm
          exact .inl ⟨m, hm.1, hm.2⟩
        · obtain ⟨m, hm⟩ := List.exists_mem_of_ne_nil _ hov
          rw [List.mem_filter, decide_eq_true_eq] at hm
          exact .inr ⟨m, hm.1, hm.2⟩
      · simp at h
    · obtain ⟨h1, k, hk, h2, h3⟩ := ih h
      refine ⟨h1, k + 1, by simpa using hk, by omega, ?_⟩
      simp only [List.getElem_cons_succ]
      rcases h3 with ⟨m, hm, h3⟩ | ⟨m, hm, h3⟩
      · exact .inl ⟨m, (List.mem_filter.1 hm).1, h3⟩
      · exact .inr ⟨m, (List.mem_filter.1 hm).1, h3⟩

theorem mem_allEdges {n : ℕ} {comps : List GC} {e : ℕ × ℕ} (h : e ∈ allEdges n comps) :
    ∃ i k, ∃ (hi : i < comps.length) (hk : k < comps.length), i < k ∧ e = (n + i, n + k) ∧
      ((∃ m ∈ (comps[i]).wires.output.bra.modes, m ∈ (comps[k]).wires.input.bra.modes) ∨
        (∃ m ∈ (comps[i]).wires.output.ket.modes, m ∈ (comps[k]).wires.input.ket.modes)) := by
  induction comps generalizing n with
  | nil => simp [allEdges] at h
  | cons A comps ih =>
    rw [allEdges, List.mem_append] at h
    rcases h with h | h
    · obtain ⟨h1, k, hk, h2, h3⟩ := mem_outEdges h
      refine ⟨0, k + 1, by simp, by simpa using hk, by omega, ?_, by simpa using h3⟩
      obtain ⟨a, b⟩ := e
      simp only [Prod.mk.injEq] at h1 h2 ⊢
      omega
    · obtain ⟨i, k, hi, hk, hlt, rfl, h3⟩ := ih h
      refine ⟨i + 1, k + 1, by simpa using hi, by simpa using hk, by omega, ?_, by simpa using h3⟩
      simp only [Prod.mk.injEq]; omega

theorem parse_fields {comps : List GC} {g : Graph} (h : parse comps = .ok g) : g = ⟨enumFrom comps, allEdges 0 comps, [], []⟩ := by
  unfold parse at h
  split at h
  · simp at h
  · simp only [Except.ok.injEq] at h
    exact h.symm

theorem parse_wf {comps : List GC} {g : Graph} (h : parse comps = .ok g) : WF g := by
  rw [parse_fields h]
  refine ⟨?_, ?_, ?_⟩
  · show ((enumFrom comps).map (·.1)).Nodup
    rw [keys_enum]; exact List.nodup_range
  · intro e he
    show e.1 ∈ (enumFrom comps).map (·.1) ∧ e.2 ∈ (enumFrom comps).map (·.1)
    rw [keys_enum]
    obtain ⟨i, k, hi, hk, -, rfl, -⟩ := mem_allEdges he
    simp [hi, hk]
  · intro e he
    obtain ⟨i, k, hi, hk, hlt, rfl, -⟩ := mem_allEdges he
    simp; omega

theorem keys_withShapes (g : Graph) (s : ℕ → List ℕ) : (g.withShapes s).nodes.map (·.1) = g.nodes.map (·.1) := by
  simp [Graph.withShapes, Function.comp_def]

theorem withShapes_wf {g : Graph} (h : WF g) (s : ℕ → List ℕ) : WF (g.withShapes s) :=
  ⟨by rw [keys_withShapes]; exact h.nodup, by rw [keys_withShapes]; exact h.ends, h.loops⟩

theorem withShapes_connected (g : Graph) (s : ℕ → List ℕ) : (g.withShapes s).Connected ↔ g.Connected := by
  unfold Graph.Connected Graph.Linked
  rw [keys_withShapes]
  rfl

theorem dget_withShapes (g : Graph) (s : ℕ → List ℕ) (k : ℕ) :
    dget (g.withShapes s).nodes k = (dget g.nodes k).map fun c => { c with shape := s k } := by
  unfold Graph.withShapes
  simp only
  induction g.nodes with
  | nil => rfl
  | cons p l ih =>
    obtain ⟨k', c⟩ := p
    simp only [List.map_cons, dget]
    split
    · rename_i h; subst h; rfl
    · exact ih

/-! ## Costs are positive -/

theorem prod_pos {l : List ℕ} (h : ∀ x ∈ l, 0 < x) : 0 < l.prod := by
  induction l with
  | nil => simp
  | cons a l ih =>
    rw [List.prod_cons]
    exact Nat.mul_pos (h a (by simp)) (ih fun x hx => h x (by simp [hx]))

theorem without_pos {l idx : List ℕ} (h : ∀ x ∈ l, 0 < x) : ∀ x ∈ without l idx, 0 < x := by
  intro x hx
  unfold without at hx
  rw [List.mem_map] at hx
  obtain ⟨p, hp, rfl⟩ := hx
  rw [List.mem_filter] at hp
  obtain ⟨a, i⟩ := p
  rw [List.mk_mem_zipIdx_iff_getElem?] at hp
  exact h a (List.mem_of_getElem? hp.1)

theorem sortedWires_len (W : Wires) : W.sortedWires.length = W.len := (sortedWires_perm W).length_eq

theorem contractionCost_pos {A B : GC} (hA : OkComp A) (hB : OkComp B)
    (hov : (∃ m ∈ A.wires.output.bra.modes, m ∈ B.wires.input.bra.modes) ∨ (∃ m ∈ A.wires.output.ket.modes, m ∈ B.wires.input.ket.modes)) :
    0 < A.contractionCost B := by
  obtain ⟨hlen, -, -, hpair⟩ := C03_contracted_indices A.wires B.wires hA.good hB.good
  unfold GC.contractionCost
  simp only
  split
  · -- both Bargmann: at least one pair is contracted
    have hne : (A.wires.contractedIndices B.wires).1 ≠ [] := by
      have key : ∀ s m, s ≠ Side.classical → Has A.wires s true m → Has B.wires s false m → (A.wires.contractedIndices B.wires).1 ≠ [] := by
        intro s m hs ⟨a, ha, ea⟩ ⟨b, hb, eb⟩ h0
        simp only [Wire.slot, Prod.mk.injEq] at ea eb
        rw [← mem_sortedWires] at ha hb
        obtain ⟨i, hi⟩ := List.getElem?_of_mem ha
        obtain ⟨j, hj⟩ := List.getElem?_of_mem hb
        have := (hpair i j).2 ⟨a, b, hi, hj, ea.2.1, eb.2.1, by rw [ea.1, eb.1], by rw [ea.1]; exact hs, by rw [ea.2.2, eb.2.2]⟩
        rw [h0] at this
        simp at this
      rcases hov with ⟨m, h1, h2⟩ | ⟨m, h1, h2⟩
      · rw [output_bra, mem_modes_blk] at h1
        rw [input_bra, mem_modes_blk] at h2
        exact key .bra m (by simp) h1 h2
      · rw [output_ket, mem_modes_blk] at h1
        rw [input_ket, mem_modes_blk] at h2
        exact key .ket m (by simp) h1 h2
    have : 0 < (A.wires.contractedIndices B.wires).1.length := List.length_pos_iff.2 hne
    positivity
  · have h1 := prod_pos (without_pos (idx := (A.wires.contractedIndices B.wires).1) hA.pos)
    have h2 := prod_pos (without_pos (idx := (A.wires.contractedIndices B.wires).2) hB.pos)
    have h3 : 0 < (((A.wires.contractedIndices B.wires).1.zip (A.wires.contractedIndices B.wires).2).map
        fun p => min (A.shape.getD p.1 0) (B.shape.getD p.2 0)).prod := by
      apply prod_pos
      intro x hx
      rw [List.mem_map] at hx
      obtain ⟨⟨i, j⟩, hp, rfl⟩ := hx
      obtain ⟨a, b, ha, hb, -⟩ := (hpair i j).1 hp
      have hi := (List.getElem?_eq_some_iff.1 ha).1
      have hj := (List.getElem?_eq_some_iff.1 hb).1
      rw [sortedWires_len, ← hA.len] at hi
      rw [sortedWires_len, ← hB.len] at hj
      simp only [List.getD_eq_getElem?_getD, List.getElem?_eq_getElem hi, List.getElem?_eq_getElem hj, Option.getD_some]
      exact lt_min (hA.pos _ (List.getElem_mem hi)) (hB.pos _ (List.getElem_mem hj))
    have := Nat.mul_pos (Nat.mul_pos h1 h2) h3
    omega

theorem parse_edge_pos {comps : List GC} {g : Graph} (h : parse comps = .ok g) (hc : ∀ c ∈ comps, OkComp c) (s : ℕ → List ℕ)
    (hs : ∀ (i : ℕ) (c : GC), comps[i]? = some c → OkComp { c with shape := s i }) (e : ℕ × ℕ) (he : e ∈ (g.withShapes s).edges) :
    0 < (g.withShapes s).edgeCost e := by
  have hg := parse_fields h
  subst hg
  obtain ⟨i, k, hi, hk, hlt, rfl, hov⟩ := mem_allEdges (he : e ∈ allEdges 0 comps)
  unfold Graph.edgeCost
  rw [dget_withShapes, dget_withShapes]
  simp only [dget_enum, Nat.zero_add, List.getElem?_eq_getElem hi, List.getElem?_eq_getElem hk, Option.map_some]
  exact contractionCost_pos (hs i _ (List.getElem?_eq_getElem hi)) (hs k _ (List.getElem?_eq_getElem hk)) hov

/-! ## C12 for `optimal_path` -/

/-- **C12** The path returned by `optimal_path` (for components with well-formed wires and positive shapes, whatever the shape optimisation `reshape`
does as long as dimensions stay positive) is complete, joins at every step two different available components (so that `Circuit.contract` accepts it,
`C10_proper_path`), and no complete sequence of edge contractions of the circuit's graph is cheaper. -/
theorem C12_optimal_path (comps : List GC) (n : ℕ) (bf : Bool) (reshape : Graph → ℕ → List ℕ) (hc : ∀ c ∈ comps, OkComp c)
    (hres : ∀ g, parse comps = .ok g → ∀ (i : ℕ) (c : GC), comps[i]? = some c → OkComp { c with shape := reshape g i })
    (p : List (ℕ × ℕ)) (h : OptimalPath comps n bf reshape (.ok p)) :
    p.length + 1 = comps.length ∧ ProperPath (List.range comps.length) p ∧
      ∃ g best, parse comps = .ok g ∧ g.Connected ∧ Complete (g.withShapes (reshape g)) best ∧ best.solution = p ∧
        ∀ h', Complete (g.withShapes (reshape g)) h' → best.cost ≤ h'.cost := by
  cases h with
  | ok g h r m c hp hrun hnodes hw hopt =>
    obtain ⟨r', hr', hcomp, hmin⟩ := C12_optimal _ n _ (C14_default_codes bf) (parse_edge_pos hp hc _ (hres g hp)) _ hopt
    cases hr'
    have wf := parse_wf hp
    obtain ⟨hreach, hedges⟩ := randomRun_ok hrun _ rfl
    obtain ⟨f1, f2, f3, f4, -⟩ := reach_facts wf hreach
    have hconn : g.Connected := by
      rw [← f2, connected_no_edges f1 hedges, hnodes]
      simp
    have wf' := withShapes_wf wf (reshape g)
    obtain ⟨e1, e2, e3, e4, q, e5, e6⟩ := reach_facts wf' hcomp.1
    have hconn' := (withShapes_connected g (reshape g)).2 hconn
    rw [← e2, connected_no_edges e1 hcomp.2] at hconn'
    have hgn : g.nodes.length = comps.length := by
      rw [parse_fields hp, ← List.length_map (f := fun p : ℕ × GC => p.1)]
      show ((enumFrom comps).map (·.1)).length = _
      rw [keys_enum, List.length_range]
    have hgs : g.solution = [] := by rw [parse_fields hp]
    have hws : (g.withShapes (reshape g)).nodes.length = g.nodes.length := by simp [Graph.withShapes]
    have hwsol : (g.withShapes (reshape g)).solution = [] := hgs
    rw [hws, hwsol, hgn] at e3
    have hg0 : g.nodes ≠ [] := by
      intro h0
      rw [h0] at hgn
      have : h.nodes.length + h.solution.length = 0 := by rw [f3, h0, hgs]; rfl
      rw [hnodes] at this
      simp at this
    have hr0 : r.nodes ≠ [] := e4 (by intro h0; rw [h0] at hws; exact hg0 (List.length_eq_zero_iff.1 hws.symm))
    have : 0 < r.nodes.length := List.length_pos_iff.2 hr0
    refine ⟨by simp at e3; omega, ?_, g, r, hp, hconn, hcomp, rfl, hmin⟩
    rw [hwsol, List.nil_append] at e5
    rw [e5]
    rw [keys_withShapes, parse_fields hp] at e6
    rw [show (Graph.mk (enumFrom comps) (allEdges 0 comps) [] []).nodes = enumFrom comps from rfl, keys_enum] at e6
    exact e6

theorem contract_error {g : Graph} {e : ℕ × ℕ} {x : PErr} (h : g.contract e = .error x) : (∃ y, x = .wires y) ∨ x = .keyError := by
  unfold Graph.contract GC.matmul at h
  split at h
  · split at h
    · rename_i hm
      split at hm
      · cases hm; cases h; exact .inl ⟨_, rfl⟩
      · simp at hm
    · simp at h
  · cases h; exact .inr rfl

/-- **C12** "Circuit has disconnected components." is raised exactly for the (nonempty, accepted) circuits whose graph is not connected, whatever the
random choices (as long as no contraction raises). -/
theorem C12_disconnected (comps : List GC) (n : ℕ) (bf : Bool) (reshape : Graph → ℕ → List ℕ)
    (g : Graph) (hp : parse comps = .ok g) (hno : ∀ x, ¬ Raises g x) (hne : comps ≠ []) :
    (OptimalPath comps n bf reshape (.error .disconnected) → ¬ g.Connected) ∧
    (¬ g.Connected → ∀ r, OptimalPath comps n bf reshape r → r = .error .disconnected) := by
  have wf := parse_wf hp
  have hg0 : g.nodes ≠ [] := by
    rw [parse_fields hp]
    intro h0
    have := congrArg List.length h0
    simp [enumFrom] at this
    exact hne this
  constructor
  · intro h
    cases h with
    | parseFail _ h => rw [hp] at h; simp at h
    | randFail g' _ h hr =>
      rw [hp] at h; cases h
      exact absurd (randomRun_error hr _ rfl) (hno _)
    | disconnected g' h' h hr hl =>
      rw [hp] at h; cases h
      obtain ⟨hreach, hedges⟩ := randomRun_ok hr _ rfl
      obtain ⟨f1, f2, -⟩ := reach_facts wf hreach
      rw [← f2, connected_no_edges f1 hedges]
      omega
    | fail g' h' m c _ h hr hn hw ho =>
      rw [hp] at h; cases h
      obtain ⟨_, _, -, -, hx⟩ := C12_errors _ n _ (C14_default_codes bf) _ ho
      rcases contract_error hx with ⟨y, hy⟩ | hy <;> simp at hy
  · intro hnc r h
    have key : ∀ h', RandomRun g (.ok h') → 1 < h'.nodes.length := by
      intro h' hr
      obtain ⟨hreach, hedges⟩ := randomRun_ok hr _ rfl
      obtain ⟨f1, f2, -⟩ := reach_facts wf hreach
      rw [← f2, connected_no_edges f1 hedges] at hnc
      omega
    cases h with
    | parseFail x h => rw [hp] at h; simp at h
    | randFail g' x h hr =>
      rw [hp] at h; cases h
      exact absurd (randomRun_error hr _ rfl) (hno _)
    | noNodes g' h' h hr hn =>
      rw [hp] at h; cases h
      have := key _ hr; rw [hn] at this; simp at this
    | disconnected => rfl
    | dangling g' h' m c h hr hn =>
      rw [hp] at h; cases h
      have := key _ hr; rw [hn] at this; simp at this
    | fail g' h' m c x h hr hn =>
      rw [hp] at h; cases h
      have := key _ hr; rw [hn] at this; simp at this
    | ok g' h' r' m c h hr hn =>
      rw [hp] at h; cases h
      have := key _ hr; rw [hn] at this; simp at this

/-! ## A concrete circuit: a single-mode ket measured by a bra -/

def exKet : GC := ⟨.poly, Wires.mk6 [] [] [0] [] [] [] id, [5], false, 0⟩
def exBra : GC := ⟨.array, Wires.mk6 [] [] [] [0] [] [] (fun n => n + 100), [3], false, 0⟩
def exShape (_ : Graph) (i : ℕ) : List ℕ := if i = 0 then [5] else [3]

example : (∀ c ∈ [exKet, exBra], OkComp c) ∧ parse [exKet, exBra] = .ok ⟨[(0, exKet), (1, exBra)], [(0, 1)], [], []⟩ ∧
    OptimalPath [exKet, exBra] 0 true exShape (.ok [(0, 1)]) := by
  have hp : parse [exKet, exBra] = .ok ⟨[(0, exKet), (1, exBra)], [(0, 1)], [], []⟩ := by rfl
  have hc : Graph.contract ⟨[(0, exKet), (1, exBra)], [(0, 1)], [], []⟩ (0, 1) = .ok ⟨[(0, ⟨.array, ⟨[]⟩, [], false, 8⟩)], [], [8], [(0, 1)]⟩ := by rfl
  refine ⟨?_, hp, ?_⟩
  · intro c hc
    simp only [List.mem_cons, List.not_mem_nil, or_false] at hc
    rcases hc with rfl | rfl
    · exact ⟨⟨by decide, by decide, by decide⟩, rfl, by decide⟩
    · exact ⟨⟨by decide, by decide, by decide⟩, rfl, by decide⟩
  · refine .ok _ _ ⟨[(0, ⟨.array, ⟨[]⟩, [], false, 8⟩)], [], [8], [(0, 1)]⟩ 0 ⟨.array, ⟨[]⟩, [], false, 8⟩ hp (.step _ _ (0, 1) _ (by simp) hc (.done _ rfl)) rfl rfl ?_
    refine .search _ none _ ((C14_heuristics_inert _ _ (C14_default_codes true) _).2 rfl) (by simp [Graph.withShapes]) (.done none) ?_
    refine .next _ ⟨none, [] ++ [⟨[(0, ⟨.array, ⟨[]⟩, [], false, 8⟩)], [], [8], [(0, 1)]⟩]⟩ _ (.expand none _ [] _ _ (.refl _) trivial (by simp [Graph.withShapes]) ?_) ?_
    · rfl
    · refine .next _ _ _ (.leaf none _ [] _ (.refl _) trivial rfl) ?_
      exact .stop _ _ (.empty _)

end Verif.Path
