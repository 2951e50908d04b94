import Verif.Circuits

/-!
# Model of the contraction-path optimiser: graphs, costs, contraction, search (C12–C14)

`mrmustard/path/branch_and_bound.py` and `optimize.py`.
-/

namespace Verif.Path
open Verif.WireModel Verif.Circuits

inductive PErr
  | wires (e : WireModel.Err)  -- raised by `A.wires @ B.wires`
  | keyError
  | disconnected               -- `ValueError("Circuit has disconnected components.")`
  | dangling                   -- `NotImplementedError("... dangling wires ...")`
  | stopIteration
  deriving DecidableEq

/-- The two ansatz classes. -/
inductive Ans | poly | array
  deriving DecidableEq

/-- `ansatz[0]` of the class names `"PolyExpAnsatz"` and `"ArrayAnsatz"` (branch_and_bound.py:76, 456). -/
def Ans.letter : Ans → Char
  | .poly => 'P'
  | .array => 'A'

/-- branch_and_bound.py:43-65 `GraphComponent`. -/
structure GC where
  ansatz : Ans
  wires : Wires
  shape : List ℕ
  isBS : Bool       -- `name == "BSgate"`
  cost : ℕ

/-- `[s for i, s in enumerate(l) if i not in idx]`. -/
def without (l : List ℕ) (idx : List ℕ) : List ℕ := (l.zipIdx.filter fun p => p.2 ∉ idx).map (·.1)

/-- branch_and_bound.py:82-128 `contraction_cost`.  Natural-number arithmetic: `np.prod` overflow is not modelled, and `len(shape) - m` is not negative for
components whose shape has one entry per wire. -/
def GC.contractionCost (A B : GC) : ℕ :=
  let idx := A.wires.contractedIndices B.wires
  let m := idx.1.length
  let nA := A.shape.length - m
  let nB := B.shape.length - m
  if A.ansatz = .poly ∧ B.ansatz = .poly then
    m * m * m + (m + 1) * m * nA + (m + 1) * m * nB + (m + 1) * m + m * m * m
  else
    (without A.shape idx.1).prod * (without B.shape idx.2).prod *
        ((idx.1.zip idx.2).map fun p => min (A.shape.getD p.1 0) (B.shape.getD p.2 0)).prod
      + (if A.ansatz = .poly then A.shape.prod else 0) + (if B.ansatz = .poly then B.shape.prod else 0)

/-- branch_and_bound.py:130-149 `__matmul__` (the name of the product is never `"BSgate"`). -/
def GC.matmul (A B : GC) : Except PErr GC :=
  match WireModel.matmul A.wires B.wires with
  | .error e => .error (.wires e)
  | .ok (W, perm) =>
    let idx := A.wires.contractedIndices B.wires
    let shape := without A.shape idx.1 ++ without B.shape idx.2
    .ok ⟨if A.ansatz = .poly ∧ B.ansatz = .poly then .poly else .array, W, perm.map fun p => shape.getD p 0, false,
      A.contractionCost B + A.cost + B.cost⟩

/-- branch_and_bound.py:155-175 `Graph`: nodes with their components, directed edges, costs and edges of the contractions made so far.  The `"cost"` attribute
of an edge is recomputed from its components after every change (`assign_costs`, 400-415), so it is a function here. -/
structure Graph where
  nodes : List (ℕ × GC)
  edges : List (ℕ × ℕ)
  costs : List ℕ
  solution : List (ℕ × ℕ)

def Graph.cost (g : Graph) : ℕ := g.costs.sum

/-- branch_and_bound.py:400-410, the cost of one edge. -/
def Graph.edgeCost (g : Graph) (e : ℕ × ℕ) : ℕ :=
  match dget g.nodes e.1, dget g.nodes e.2 with
  | some A, some B => A.contractionCost B
  | _, _ => 0

/-- `nx.contracted_edge(graph, (u, v), self_loops=False)` on the edges: those between `u` and `v` disappear, the others of `v` move to `u`, parallel edges merge. -/
def contractEdges (edges : List (ℕ × ℕ)) (u v : ℕ) : List (ℕ × ℕ) :=
  ((edges.filter fun e => e ≠ (u, v) ∧ e ≠ (v, u)).map fun e => (if e.1 = v then u else e.1, if e.2 = v then u else e.2)).dedup

/-- branch_and_bound.py:326-348 `contract`. -/
def Graph.contract (g : Graph) (e : ℕ × ℕ) : Except PErr Graph :=
  match dget g.nodes e.1, dget g.nodes e.2 with
  | some A, some B => match A.matmul B with
    | .error x => .error x
    | .ok C => .ok ⟨dset (dpop g.nodes e.2) e.1 C, contractEdges g.edges e.1 e.2, g.costs ++ [g.edgeCost e], g.solution ++ [e]⟩
  | _, _ => .error .keyError

/-- `x < bound`, with `none` for the infinite bound. -/
def below (x : ℕ) : Option ℕ → Prop
  | none => True
  | some b => x < b

instance (x : ℕ) (b : Option ℕ) : Decidable (below x b) := by cases b <;> unfold below <;> infer_instance

/-- branch_and_bound.py:351-371 `children`.  (A Python set: graphs are compared by identity, so no two are identified, and its order is arbitrary; the search
below is independent of the order.) -/
def children (g : Graph) (bound : Option ℕ) : Except PErr (List Graph) :=
  (g.edges.filter fun e => below (g.cost + g.edgeCost e) bound).mapM g.contract

/-- branch_and_bound.py:374-397 `grandchildren`. -/
def grandchildren (g : Graph) (bound : Option ℕ) : Except PErr (List Graph) := do
  let cs ← children g bound
  let gs ← cs.mapM fun c => if c.edges = [] then .ok [c] else children c bound
  return gs.flatten

/-! ## Random solutions -/

/-- branch_and_bound.py:418-431 `random_solution`: any sequence of choices; the result is a graph without edges or the exception of a contraction. -/
inductive RandomRun : Graph → Except PErr Graph → Prop
  | done (g : Graph) : g.edges = [] → RandomRun g (.ok g)
  | step (g g' : Graph) (e : ℕ × ℕ) (r : Except PErr Graph) : e ∈ g.edges → g.contract e = .ok g' → RandomRun g' r → RandomRun g r
  | fail (g : Graph) (e : ℕ × ℕ) (x : PErr) : e ∈ g.edges → g.contract e = .error x → RandomRun g (.error x)

/-- branch_and_bound.py:511-514: `n` random solutions, the best one kept.  `none` is the initial graph of infinite cost. -/
inductive RandomPhase (g : Graph) : ℕ → Option Graph → Except PErr (Option Graph) → Prop
  | done (b : Option Graph) : RandomPhase g 0 b (.ok b)
  | step (n : ℕ) (b : Option Graph) (h : Graph) (r : Except PErr (Option Graph)) : RandomRun g (.ok h) →
      RandomPhase g n (if below h.cost (b.map Graph.cost) then some h else b) r → RandomPhase g (n + 1) b r
  | fail (n : ℕ) (b : Option Graph) (x : PErr) : RandomRun g (.error x) → RandomPhase g (n + 1) b (.error x)

/-! ## Branch and bound -/

/-- State of the main loop: best graph so far (`none`: infinite cost) and the queue. -/
structure State where
  best : Option Graph
  queue : List Graph

/-- One iteration of branch_and_bound.py:518-539 popping an *arbitrary* element of the queue (the order of the heap is irrelevant).  `inr` is the end. -/
inductive Step : State → (State ⊕ Except PErr (Option Graph)) → Prop
  | empty (b : Option Graph) : Step ⟨b, []⟩ (.inr (.ok b))
  | early (b : Option Graph) (q rest : List Graph) (c : Graph) : q.Perm (c :: rest) → ¬ below c.cost (b.map Graph.cost) →
      Step ⟨b, q⟩ (.inr (.ok (some c)))
  | leaf (b : Option Graph) (q rest : List Graph) (c : Graph) : q.Perm (c :: rest) → below c.cost (b.map Graph.cost) → c.edges = [] →
      Step ⟨b, q⟩ (.inl ⟨some c, rest.filter fun g => g.cost < c.cost⟩)
  | expand (b : Option Graph) (q rest gs : List Graph) (c : Graph) : q.Perm (c :: rest) → below c.cost (b.map Graph.cost) → c.edges ≠ [] →
      grandchildren c (b.map Graph.cost) = .ok gs → Step ⟨b, q⟩ (.inl ⟨b, rest ++ gs⟩)
  | fail (b : Option Graph) (q rest : List Graph) (c : Graph) (x : PErr) : q.Perm (c :: rest) → below c.cost (b.map Graph.cost) → c.edges ≠ [] →
      grandchildren c (b.map Graph.cost) = .error x → Step ⟨b, q⟩ (.inr (.error x))

/-- A run of the loop to its end. -/
inductive Search : State → Except PErr (Option Graph) → Prop
  | stop (s : State) (r) : Step s (.inr r) → Search s r
  | next (s s' : State) (r) : Step s (.inl s') → Search s' r → Search s r

/-! ## Heuristics -/

/-- The number of edges at a node (`graph.degree`). -/
def Graph.degree (g : Graph) (n : ℕ) : ℕ := g.edges.countP (fun e => e.1 = n) + g.edges.countP (fun e => e.2 = n)

/-- branch_and_bound.py:434-459 `reduce_first` with code `n tA tB`: the first matching edge. -/
def firstMatch (g : Graph) (n : ℕ) (tA tB : Char) : Option (ℕ × ℕ) :=
  (g.nodes.filterMap fun p => if g.degree p.1 = n then
      ((g.edges.filter fun e => e.1 = p.1) ++ (g.edges.filter fun e => e.2 = p.1)).find? (fun e =>
        match dget g.nodes e.1, dget g.nodes e.2 with
        | some A, some B => A.ansatz.letter = tA ∧ B.ansatz.letter = tB
        | _, _ => False)
    else none).head?

/-- branch_and_bound.py:462-476 `heuristic`: repeat `reduce_first` until nothing matches. -/
inductive Heuristic (n : ℕ) (tA tB : Char) : Graph → Except PErr Graph → Prop
  | done (g : Graph) : firstMatch g n tA tB = none → Heuristic n tA tB g (.ok g)
  | step (g g' : Graph) (e : ℕ × ℕ) (r) : firstMatch g n tA tB = some e → g.contract e = .ok g' → Heuristic n tA tB g' r → Heuristic n tA tB g r
  | fail (g : Graph) (e : ℕ × ℕ) (x) : firstMatch g n tA tB = some e → g.contract e = .error x → Heuristic n tA tB g (.error x)

/-- The list of codes, one after the other (branch_and_bound.py:502-503). -/
inductive Heuristics : List (ℕ × Char × Char) → Graph → Except PErr Graph → Prop
  | nil (g : Graph) : Heuristics [] g (.ok g)
  | cons (c : ℕ × Char × Char) (cs) (g g' : Graph) (r) : Heuristic c.1 c.2.1 c.2.2 g (.ok g') → Heuristics cs g' r → Heuristics (c :: cs) g r
  | fail (c : ℕ × Char × Char) (cs) (g : Graph) (x) : Heuristic c.1 c.2.1 c.2.2 g (.error x) → Heuristics (c :: cs) g (.error x)

/-- branch_and_bound.py:479-539 `optimal_contraction`: all possible outcomes (`ok none` would be the placeholder graph of infinite cost). -/
inductive OptimalContraction (g : Graph) (nInit : ℕ) (codes : List (ℕ × Char × Char)) : Except PErr (Option Graph) → Prop
  | heurFail (x) : Heuristics codes g (.error x) → OptimalContraction g nInit codes (.error x)
  | trivial (g' : Graph) : Heuristics codes g (.ok g') → g'.edges = [] → OptimalContraction g nInit codes (.ok (some g'))
  | randFail (g' : Graph) (x) : Heuristics codes g (.ok g') → g'.edges ≠ [] → RandomPhase g' nInit none (.error x) →
      OptimalContraction g nInit codes (.error x)
  | search (g' : Graph) (b : Option Graph) (r) : Heuristics codes g (.ok g') → g'.edges ≠ [] → RandomPhase g' nInit none (.ok b) →
      Search ⟨b, [g']⟩ r → OptimalContraction g nInit codes r

/-! ## Building the graph -/

/-- branch_and_bound.py:296-307, the inner loop: edges from node `i` to the later components that take some of its still unused outputs.  `ob`, `ok` are the output modes
of `wires` not used so far.  (The `break` once no output is left only skips iterations that add nothing.) -/
def outEdges (i : ℕ) : ℕ → List Int → List Int → List GC → List (ℕ × ℕ)
  | _, _, _, [] => []
  | j, ob, ok, B :: rest =>
    let ovb := ob.filter (· ∈ B.wires.input.bra.modes)
    let ovk := ok.filter (· ∈ B.wires.input.ket.modes)
    (if ovb ≠ [] ∨ ovk ≠ [] then [(i, j)] else []) ++
      outEdges i (j + 1) (ob.filter (· ∉ ovb)) (ok.filter (· ∉ ovk)) rest

/-- The outer loop of branch_and_bound.py:292-308. -/
def allEdges : ℕ → List GC → List (ℕ × ℕ)
  | _, [] => []
  | i, A :: rest => outEdges i (i + 1) A.wires.output.bra.modes A.wires.output.ket.modes rest ++ allEdges (i + 1) rest

/-- branch_and_bound.py:312-323 `validate_components`. -/
def validate : List GC → Except PErr Unit
  | [] => .ok ()
  | c :: cs => go c.wires cs
where
  go : Wires → List GC → Except PErr Unit
    | _, [] => .ok ()
    | w, c :: cs => match WireModel.matmul w c.wires with
      | .error e => .error (.wires e)
      | .ok (w', _) => go w' cs

/-- branch_and_bound.py:279-309 `parse_components`. -/
def parse (comps : List GC) : Except PErr Graph :=
  match validate comps with
  | .error e => .error e
  | .ok _ => .ok ⟨enumFrom comps, allEdges 0 comps, [], []⟩

/-- path/optimize.py:43-48: the codes used by default. -/
def defaultCodes (withBF : Bool) : List (ℕ × Char × Char) :=
  if withBF then [(1, 'B', 'B'), (2, 'B', 'B'), (1, 'B', 'F'), (1, 'F', 'B'), (1, 'F', 'F'), (2, 'F', 'F')]
  else [(1, 'B', 'B'), (2, 'B', 'B'), (1, 'F', 'F'), (2, 'F', 'F')]

/-- Replace the shapes of the nodes (the effect of `optimize_fock_shapes`, modelled in `PathShapes`). -/
def Graph.withShapes (g : Graph) (s : ℕ → List ℕ) : Graph :=
  { g with nodes := g.nodes.map fun p => (p.1, { p.2 with shape := s p.1 }) }

/-- path/optimize.py:26-62 `optimal_path`; `reshape` is the shape optimisation of the graph. -/
inductive OptimalPath (comps : List GC) (nInit : ℕ) (withBF : Bool) (reshape : Graph → ℕ → List ℕ) : Except PErr (List (ℕ × ℕ)) → Prop
  | parseFail (x) : parse comps = .error x → OptimalPath comps nInit withBF reshape (.error x)
  | randFail (g : Graph) (x) : parse comps = .ok g → RandomRun g (.error x) → OptimalPath comps nInit withBF reshape (.error x)
  | noNodes (g h : Graph) : parse comps = .ok g → RandomRun g (.ok h) → h.nodes = [] → OptimalPath comps nInit withBF reshape (.error .stopIteration)
  | disconnected (g h : Graph) : parse comps = .ok g → RandomRun g (.ok h) → 1 < h.nodes.length →
      OptimalPath comps nInit withBF reshape (.error .disconnected)
  | dangling (g h : Graph) (n : ℕ) (c : GC) : parse comps = .ok g → RandomRun g (.ok h) → h.nodes = [(n, c)] → c.wires.ws ≠ [] →
      OptimalPath comps nInit withBF reshape (.error .dangling)
  | fail (g h : Graph) (n : ℕ) (c : GC) (x) : parse comps = .ok g → RandomRun g (.ok h) → h.nodes = [(n, c)] → c.wires.ws = [] →
      OptimalContraction (g.withShapes (reshape g)) nInit (defaultCodes withBF) (.error x) → OptimalPath comps nInit withBF reshape (.error x)
  | ok (g h r : Graph) (n : ℕ) (c : GC) : parse comps = .ok g → RandomRun g (.ok h) → h.nodes = [(n, c)] → c.wires.ws = [] →
      OptimalContraction (g.withShapes (reshape g)) nInit (defaultCodes withBF) (.ok (some r)) →
      OptimalPath comps nInit withBF reshape (.ok r.solution)

end Verif.Path
