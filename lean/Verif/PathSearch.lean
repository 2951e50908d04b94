import Mathlib.Data.Multiset.DershowitzManna
import Mathlib.Logic.Relation
import Mathlib.Tactic.Linarith
import Verif.PathGraph

/-!
# The contraction-path search: termination and optimality (C12, C14)
-/

namespace Verif.Path
open Verif.WireModel Verif.Circuits Relation

/-! ## Specification -/

/-- One contraction of an edge of the graph that does not raise. -/
def Contracts (g h : Graph) : Prop := ∃ e ∈ g.edges, g.contract e = .ok h

/-- `h` is the end of a complete sequence of edge contractions of `g`. -/
def Complete (g h : Graph) : Prop := ReflTransGen Contracts g h ∧ h.edges = []

/-- `path` is a complete sequence of edge contractions of `g` and `c` the sum of the costs of the contractions, each computed for the components it joins. -/
inductive PathCost : Graph → List (ℕ × ℕ) → ℕ → Prop
  | done (g : Graph) : g.edges = [] → PathCost g [] 0
  | step (g g' : Graph) (e : ℕ × ℕ) (p : List (ℕ × ℕ)) (c : ℕ) (A B : GC) : e ∈ g.edges → dget g.nodes e.1 = some A → dget g.nodes e.2 = some B →
      g.contract e = .ok g' → PathCost g' p c → PathCost g (e :: p) (A.contractionCost B + c)

/-! ## Single contractions -/

theorem contract_fields {g h : Graph} {e : ℕ × ℕ} (hc : g.contract e = .ok h) :
    ∃ A B C, dget g.nodes e.1 = some A ∧ dget g.nodes e.2 = some B ∧ A.matmul B = .ok C ∧
      h = ⟨dset (dpop g.nodes e.2) e.1 C, contractEdges g.edges e.1 e.2, g.costs ++ [g.edgeCost e], g.solution ++ [e]⟩ := by
  unfold Graph.contract at hc
  split at hc
  · rename_i A B hA hB
    split at hc
    · simp at hc
    · rename_i C hC
      simp only [Except.ok.injEq] at hc
      exact ⟨A, B, C, hA, hB, hC, hc.symm⟩
  · simp at hc

theorem contract_cost {g h : Graph} {e : ℕ × ℕ} (hc : g.contract e = .ok h) : h.cost = g.cost + g.edgeCost e := by
  obtain ⟨A, B, C, -, -, -, rfl⟩ := contract_fields hc
  simp [Graph.cost]

theorem contractEdges_length {l : List (ℕ × ℕ)} {e : ℕ × ℕ} (he : e ∈ l) : (contractEdges l e.1 e.2).length < l.length := by
  unfold contractEdges
  refine lt_of_le_of_lt (List.Sublist.length_le (List.dedup_sublist _)) ?_
  rw [List.length_map]
  refine lt_of_le_of_ne (List.length_filter_le _ _) ?_
  intro h
  have h2 := List.length_filter_eq_length_iff.1 h e he
  simp at h2

theorem contract_edges {g h : Graph} {e : ℕ × ℕ} (he : e ∈ g.edges) (hc : g.contract e = .ok h) : h.edges.length < g.edges.length := by
  obtain ⟨A, B, C, -, -, -, rfl⟩ := contract_fields hc
  exact contractEdges_length he

theorem Contracts.edges {g h : Graph} (hc : Contracts g h) : h.edges.length < g.edges.length := by
  obtain ⟨e, he, h'⟩ := hc; exact contract_edges he h'

theorem Contracts.cost {g h : Graph} (hc : Contracts g h) : g.cost ≤ h.cost := by
  obtain ⟨e, he, h'⟩ := hc; rw [contract_cost h']; omega

theorem reach_cost {g h : Graph} (hr : ReflTransGen Contracts g h) : g.cost ≤ h.cost := by
  induction hr with
  | refl => exact le_rfl
  | tail _ hc ih => exact ih.trans hc.cost

theorem reach_of_no_edges {g h : Graph} (hr : ReflTransGen Contracts g h) (he : g.edges = []) : h = g := by
  rcases ReflTransGen.cases_head hr with h0 | ⟨c, hc, -⟩
  · exact h0.symm
  · obtain ⟨e, hm, -⟩ := hc
    rw [he] at hm; simp at hm

/-! ## `mapM` in `Except` -/

theorem mapM_ok {ε α β : Type*} {f : α → Except ε β} {l : List α} {r : List β} (h : l.mapM f = .ok r) :
    (∀ y ∈ r, ∃ x ∈ l, f x = .ok y) ∧ (∀ x ∈ l, ∃ y ∈ r, f x = .ok y) := by
  induction l generalizing r with
  | nil =>
    simp only [List.mapM_nil, pure, Except.pure, Except.ok.injEq] at h
    subst h; simp
  | cons a l ih =>
    rw [List.mapM_cons] at h
    cases ha : f a with
    | error e => simp [ha, bind, Except.bind] at h
    | ok b =>
      cases hl : l.mapM f with
      | error e => simp [ha, hl, bind, Except.bind] at h
      | ok bs =>
        simp only [ha, hl, bind, Except.bind, pure, Except.pure, Except.ok.injEq] at h
        subst h
        obtain ⟨h1, h2⟩ := ih hl
        refine ⟨?_, ?_⟩
        · intro y hy
          rcases List.mem_cons.1 hy with rfl | hy
          · exact ⟨a, by simp, ha⟩
          · obtain ⟨x, hx, he⟩ := h1 y hy
            exact ⟨x, by simp [hx], he⟩
        · intro x hx
          rcases List.mem_cons.1 hx with rfl | hx
          · exact ⟨b, by simp, ha⟩
          · obtain ⟨y, hy, he⟩ := h2 x hx
            exact ⟨y, by simp [hy], he⟩

theorem children_ok {g : Graph} {bd : Option ℕ} {cs : List Graph} (h : children g bd = .ok cs) :
    (∀ c ∈ cs, Contracts g c ∧ below c.cost bd) ∧ (∀ c, Contracts g c → below c.cost bd → c ∈ cs) := by
  unfold children at h
  obtain ⟨h1, h2⟩ := mapM_ok h
  refine ⟨?_, ?_⟩
  · intro c hc
    obtain ⟨e, he, hc⟩ := h1 c hc
    rw [List.mem_filter, decide_eq_true_eq] at he
    exact ⟨⟨e, he.1, hc⟩, by rw [contract_cost hc]; exact he.2⟩
  · rintro c ⟨e, he, hc⟩ hb
    rw [contract_cost hc] at hb
    obtain ⟨y, hy, hy'⟩ := h2 e (by rw [List.mem_filter, decide_eq_true_eq]; exact ⟨he, hb⟩)
    rw [hc] at hy'
    cases hy'
    exact hy

theorem below_mono {x y : ℕ} {b : Option ℕ} (h : x ≤ y) (hy : below y b) : below x b := by
  cases b with
  | none => trivial
  | some b => exact lt_of_le_of_lt h hy

theorem grandchildren_ok {g : Graph} {bd : Option ℕ} {gs : List Graph} (h : grandchildren g bd = .ok gs) :
    (∀ c ∈ gs, TransGen Contracts g c ∧ below c.cost bd) ∧
    (∀ c d, Contracts g c → c.edges ≠ [] → Contracts c d → below d.cost bd → d ∈ gs) ∧
    (∀ c, Contracts g c → c.edges = [] → below c.cost bd → c ∈ gs) := by
  unfold grandchildren at h
  cases hcs : children g bd with
  | error e => simp [hcs, bind, Except.bind] at h
  | ok cs =>
    simp only [hcs, bind, Except.bind] at h
    cases hgs : cs.mapM (fun c => if c.edges = [] then Except.ok [c] else children c bd) with
    | error e => rw [hgs] at h; simp at h
    | ok gss =>
      rw [hgs] at h
      simp only [pure, Except.pure, Except.ok.injEq] at h
      subst h
      obtain ⟨h1, h2⟩ := children_ok hcs
      obtain ⟨h3, h4⟩ := mapM_ok hgs
      refine ⟨?_, ?_, ?_⟩
      · intro d hd
        obtain ⟨l, hl, hdl⟩ := List.mem_flatten.1 hd
        obtain ⟨c, hc, hcl⟩ := h3 l hl
        obtain ⟨hgc, hbc⟩ := h1 c hc
        by_cases he : c.edges = []
        · rw [if_pos he] at hcl
          cases hcl
          rw [List.mem_singleton] at hdl
          subst hdl
          exact ⟨.single hgc, hbc⟩
        · rw [if_neg he] at hcl
          obtain ⟨hcd, hbd⟩ := (children_ok hcl).1 d hdl
          exact ⟨.tail (.single hgc) hcd, hbd⟩
      · intro c d hgc he hcd hb
        have hc := h2 c hgc (below_mono hcd.cost hb)
        obtain ⟨l, hl, hcl⟩ := h4 c hc
        rw [if_neg he] at hcl
        exact List.mem_flatten.2 ⟨l, hl, (children_ok hcl).2 d hcd hb⟩
      · intro c hgc he hb
        have hc := h2 c hgc hb
        obtain ⟨l, hl, hcl⟩ := h4 c hc
        rw [if_pos he] at hcl
        cases hcl
        exact List.mem_flatten.2 ⟨[c], hl, by simp⟩

/-! ## The invariant of the search -/

structure Inv (g : Graph) (s : State) : Prop where
  best : ∀ b, s.best = some b → Complete g b
  queue : ∀ q ∈ s.queue, ReflTransGen Contracts g q ∧ below q.cost (s.best.map Graph.cost)
  cover : ∀ h, Complete g h → below h.cost (s.best.map Graph.cost) → ∃ q ∈ s.queue, ReflTransGen Contracts q h
  nonempty : s.best = none → s.queue ≠ []

theorem inv_step {g : Graph} {s s' : State} (hi : Inv g s) (hs : Step s (.inl s')) : Inv g s' := by
  cases hs with
  | leaf b q rest c hp hb he =>
    have hmem : ∀ x, x ∈ q ↔ x = c ∨ x ∈ rest := by intro x; rw [hp.mem_iff, List.mem_cons]
    have hrc := (hi.queue c ((hmem c).2 (.inl rfl))).1
    refine ⟨?_, ?_, ?_, by simp⟩
    · intro b' hb'
      cases hb'
      exact ⟨hrc, he⟩
    · intro x hx
      simp only [List.mem_filter, decide_eq_true_eq] at hx
      exact ⟨(hi.queue x ((hmem x).2 (.inr hx.1))).1, hx.2⟩
    · intro h hh hlt
      have hlt' : h.cost < c.cost := hlt
      have : below h.cost (b.map Graph.cost) := below_mono hlt'.le hb
      obtain ⟨x, hx, hr⟩ := hi.cover h hh this
      rcases (hmem x).1 hx with rfl | hx
      · rw [reach_of_no_edges hr he] at hlt'; omega
      · refine ⟨x, ?_, hr⟩
        simp only [List.mem_filter, decide_eq_true_eq]
        exact ⟨hx, lt_of_le_of_lt (reach_cost hr) hlt'⟩
  | expand b q rest gs c hp hb he hg =>
    have hmem : ∀ x, x ∈ q ↔ x = c ∨ x ∈ rest := by intro x; rw [hp.mem_iff, List.mem_cons]
    have hrc := (hi.queue c ((hmem c).2 (.inl rfl))).1
    obtain ⟨g1, g2, g3⟩ := grandchildren_ok hg
    refine ⟨hi.best, ?_, ?_, ?_⟩
    · intro x hx
      rcases List.mem_append.1 hx with hx | hx
      · exact hi.queue x ((hmem x).2 (.inr hx))
      · exact ⟨hrc.trans (g1 x hx).1.to_reflTransGen, (g1 x hx).2⟩
    · intro h hh hlt
      obtain ⟨x, hx, hr⟩ := hi.cover h hh hlt
      rcases (hmem x).1 hx with rfl | hx
      · rcases ReflTransGen.cases_head hr with h0 | ⟨c1, hc1, hr1⟩
        · exact absurd (h0 ▸ hh.2) he
        · by_cases he1 : c1.edges = []
          · have := reach_of_no_edges hr1 he1
            subst this
            exact ⟨h, List.mem_append.2 (.inr (g3 h hc1 he1 hlt)), .refl⟩
          · rcases ReflTransGen.cases_head hr1 with h0 | ⟨c2, hc2, hr2⟩
            · exact absurd (h0 ▸ hh.2) he1
            · exact ⟨c2, List.mem_append.2 (.inr (g2 c1 c2 hc1 he1 hc2 (below_mono (reach_cost hr2) hlt))), hr2⟩
      · exact ⟨x, List.mem_append.2 (.inl hx), hr⟩
    · intro hb0 hnil
      have hb0' : b = none := hb0
      subst hb0'
      have hgs : gs = [] := (List.append_eq_nil_iff.1 hnil).2
      subst hgs
      -- all children exist since the expansion did not raise
      obtain ⟨e, he⟩ := List.exists_mem_of_ne_nil _ he
      have hch : ∃ cs, children c none = .ok cs ∧ ∃ gss, cs.mapM (fun c => if c.edges = [] then Except.ok [c] else children c none) = .ok gss := by
        unfold grandchildren at hg
        cases hcs : children c none with
        | error e => simp [hcs, bind, Except.bind] at hg
        | ok cs =>
          simp only [Option.map_none, hcs, bind, Except.bind] at hg
          refine ⟨cs, rfl, ?_⟩
          cases hgs : cs.mapM (fun c => if c.edges = [] then Except.ok [c] else children c none) with
          | error e => rw [hgs] at hg; simp at hg
          | ok gss => exact ⟨gss, rfl⟩
      obtain ⟨cs, hcs, gss, hgss⟩ := hch
      have hc1 : ∃ c1, Contracts c c1 ∧ c1 ∈ cs := by
        unfold children at hcs
        obtain ⟨y, hy, hy'⟩ := (mapM_ok hcs).2 e (by rw [List.mem_filter, decide_eq_true_eq]; exact ⟨he, trivial⟩)
        exact ⟨y, ⟨e, he, hy'⟩, hy⟩
      obtain ⟨c1, hc1, hm1⟩ := hc1
      by_cases he1 : c1.edges = []
      · have := g3 c1 hc1 he1 trivial
        simp at this
      · obtain ⟨l, -, hl⟩ := (mapM_ok hgss).2 c1 hm1
        rw [if_neg he1] at hl
        obtain ⟨e', he'⟩ := List.exists_mem_of_ne_nil _ he1
        unfold children at hl
        obtain ⟨y, hy, hy'⟩ := (mapM_ok hl).2 e' (by rw [List.mem_filter, decide_eq_true_eq]; exact ⟨he', trivial⟩)
        have := g2 c1 y hc1 he1 ⟨e', he', hy'⟩ trivial
        simp at this

theorem search_result {g : Graph} {s : State} {r : Except PErr (Option Graph)} (hs : Search s r) (hi : Inv g s) (b : Option Graph)
    (hr : r = .ok b) : ∃ h, b = some h ∧ Complete g h ∧ ∀ h', Complete g h' → h.cost ≤ h'.cost := by
  induction hs with
  | stop s r hst =>
    subst hr
    cases hst with
    | empty b =>
      cases b with
      | none => exact absurd rfl (hi.nonempty rfl)
      | some h =>
        refine ⟨h, rfl, hi.best h rfl, ?_⟩
        intro h' hh'
        by_contra hlt
        obtain ⟨q, hq, -⟩ := hi.cover h' hh' (by simpa [below] using hlt)
        simp at hq
    | early b q rest c hp hb =>
      exact absurd (hi.queue c (hp.mem_iff.2 (by simp))).2 hb
  | next s s' r hst _ ih => exact ih (inv_step hi hst) hr

/-! ## The random phase -/

theorem randomRun_ok {g : Graph} {r : Except PErr Graph} (h : RandomRun g r) (x : Graph) (hx : r = .ok x) : Complete g x := by
  induction h with
  | done g he => cases hx; exact ⟨.refl, he⟩
  | step g g' e r he hc _ ih =>
    obtain ⟨h1, h2⟩ := ih hx
    exact ⟨.head ⟨e, he, hc⟩ h1, h2⟩
  | fail g e x he hc => simp at hx

theorem randomPhase_ok {g : Graph} {n : ℕ} {b : Option Graph} {r} (h : RandomPhase g n b r) (b' : Option Graph) (hr : r = .ok b')
    (hb : ∀ x, b = some x → Complete g x) : ∀ x, b' = some x → Complete g x := by
  induction h with
  | done b => cases hr; exact hb
  | step n b h r hrun _ ih =>
    refine ih hr ?_
    intro x hx
    split at hx
    · cases hx; exact randomRun_ok hrun _ rfl
    · exact hb x hx
  | fail n b x hrun => simp at hr

/-! ## C14: the heuristics -/

theorem firstMatch_none (g : Graph) (n : ℕ) (tA tB : Char) (h : tA ∈ ['B', 'F']) : firstMatch g n tA tB = none := by
  unfold firstMatch
  rw [List.head?_eq_none_iff, List.filterMap_eq_nil_iff]
  intro p _
  split
  · rw [List.find?_eq_none]
    intro e _
    have hl : ∀ a : Ans, a.letter ≠ tA := by
      intro a ha
      rw [← ha] at h
      cases a <;> simp [Ans.letter] at h
    split
    · simp [hl]
    · simp
  · rfl

/-- **C14** The heuristics phase with codes of a number and the letters B and F returns the graph unchanged and never raises. -/
theorem C14_heuristics_inert (g : Graph) (codes : List (ℕ × Char × Char)) (hc : ∀ c ∈ codes, c.2.1 ∈ ['B', 'F'] ∧ c.2.2 ∈ ['B', 'F'])
    (r : Except PErr Graph) : Heuristics codes g r ↔ r = .ok g := by
  constructor
  · intro h
    induction h with
    | nil g => rfl
    | cons c cs g g' r h1 _ ih =>
      have hn := firstMatch_none g c.1 c.2.1 c.2.2 (hc c (by simp)).1
      have : g' = g := by
        cases h1 with
        | done _ => rfl
        | step _ g'' e _ hf => rw [hn] at hf; simp at hf
      subst this
      exact ih fun c hm => hc c (by simp [hm])
    | fail c cs g x h1 =>
      have hn := firstMatch_none g c.1 c.2.1 c.2.2 (hc c (by simp)).1
      cases h1 with
      | step _ g'' e _ hf => rw [hn] at hf; simp at hf
      | fail _ e _ hf => rw [hn] at hf; simp at hf
  · rintro rfl
    induction codes with
    | nil => exact .nil g
    | cons c cs ih =>
      exact .cons c cs g g _ (.done g (firstMatch_none g c.1 c.2.1 c.2.2 (hc c (by simp)).1)) (ih fun c hm => hc c (by simp [hm]))

/-- The default codes are of this form. -/
theorem C14_default_codes (b : Bool) : ∀ c ∈ defaultCodes b, c.2.1 ∈ ['B', 'F'] ∧ c.2.2 ∈ ['B', 'F'] := by
  cases b <;> simp [defaultCodes]

/-! ## C12 -/

/-- **C12 (optimality)** For every graph whose edges all have positive cost, and whatever the random initial solutions, the iteration order of the sets
and the order in which the queue hands out its elements: if the optimiser does not raise, its result is a complete contraction of the graph, and no
complete contraction is cheaper. -/
theorem C12_optimal (g : Graph) (n : ℕ) (codes : List (ℕ × Char × Char)) (hcodes : ∀ c ∈ codes, c.2.1 ∈ ['B', 'F'] ∧ c.2.2 ∈ ['B', 'F'])
    (hpos : ∀ e ∈ g.edges, 0 < g.edgeCost e) (b : Option Graph) (h : OptimalContraction g n codes (.ok b)) :
    ∃ h, b = some h ∧ Complete g h ∧ ∀ h', Complete g h' → h.cost ≤ h'.cost := by
  cases h with
  | trivial g' hh he =>
    rw [C14_heuristics_inert g codes hcodes] at hh
    cases hh
    refine ⟨g, rfl, ⟨.refl, he⟩, ?_⟩
    rintro h' ⟨hr, -⟩
    rw [reach_of_no_edges hr he]
  | search g' b0 _ hh he hrand hs =>
    rw [C14_heuristics_inert g codes hcodes] at hh
    cases hh
    have hb0 := randomPhase_ok hrand b0 rfl (by simp)
    refine search_result hs ?_ b rfl
    refine ⟨hb0, ?_, ?_, by simp⟩
    · intro q hq
      rw [List.mem_singleton] at hq
      subst hq
      refine ⟨.refl, ?_⟩
      cases b0 with
      | none => trivial
      | some x =>
        obtain ⟨hr, hx⟩ := hb0 x rfl
        rcases ReflTransGen.cases_head hr with h0 | ⟨c, ⟨e, hem, hce⟩, hr1⟩
        · exact absurd (h0 ▸ hx) he
        · show q.cost < x.cost
          have h1 := contract_cost hce
          have h2 := hpos e hem
          have h3 := reach_cost hr1
          omega
    · intro h' hh' _
      exact ⟨g, by simp, hh'.1⟩

theorem complete_pathCost {g h : Graph} (hc : Complete g h) :
    ∃ p c, PathCost g p c ∧ h.solution = g.solution ++ p ∧ h.cost = g.cost + c := by
  obtain ⟨hr, he⟩ := hc
  induction hr using ReflTransGen.head_induction_on with
  | refl => exact ⟨[], 0, .done _ he, by simp, by simp⟩
  | @head a d hc _ ih =>
    obtain ⟨p, c, h1, h2, h3⟩ := ih
    obtain ⟨e, hem, hce⟩ := hc
    have hcost := contract_cost hce
    obtain ⟨A, B, C, hA, hB, -, hd⟩ := contract_fields hce
    refine ⟨e :: p, _, .step a d e p c A B hem hA hB hce h1, ?_, ?_⟩
    · rw [h2, hd]; simp
    · have : a.edgeCost e = A.contractionCost B := by simp [Graph.edgeCost, hA, hB]
      rw [h3, hcost, this]; omega

theorem pathCost_complete {g : Graph} {p : List (ℕ × ℕ)} {c : ℕ} (h : PathCost g p c) : ∃ h, Complete g h ∧ h.cost = g.cost + c := by
  induction h with
  | done g he => exact ⟨g, ⟨.refl, he⟩, rfl⟩
  | step g g' e p c A B hem hA hB hce _ ih =>
    obtain ⟨h, ⟨h1, h2⟩, h3⟩ := ih
    refine ⟨h, ⟨.head ⟨e, hem, hce⟩ h1, h2⟩, ?_⟩
    have : g.edgeCost e = A.contractionCost B := by simp [Graph.edgeCost, hA, hB]
    rw [h3, contract_cost hce, this]; omega

/-- **C12 (minimal cost)** The recorded solution of the result is a complete path whose summed contraction costs are minimal among all complete paths. -/
theorem C12_minimal_cost (g : Graph) (n : ℕ) (codes : List (ℕ × Char × Char)) (hcodes : ∀ c ∈ codes, c.2.1 ∈ ['B', 'F'] ∧ c.2.2 ∈ ['B', 'F'])
    (hpos : ∀ e ∈ g.edges, 0 < g.edgeCost e) (hsol : g.solution = []) (b : Option Graph) (h : OptimalContraction g n codes (.ok b)) :
    ∃ h c, b = some h ∧ PathCost g h.solution c ∧ h.cost = g.cost + c ∧ ∀ p' c', PathCost g p' c' → c ≤ c' := by
  obtain ⟨r, hr, hcomp, hmin⟩ := C12_optimal g n codes hcodes hpos b h
  obtain ⟨p, c, h1, h2, h3⟩ := complete_pathCost hcomp
  rw [hsol, List.nil_append] at h2
  refine ⟨r, c, hr, h2 ▸ h1, h3, ?_⟩
  intro p' c' hp'
  obtain ⟨h', h4, h5⟩ := pathCost_complete hp'
  have := hmin h' h4
  omega

/-! ### Termination -/

def State.measure (s : State) : Multiset ℕ := (s.queue.map fun g => g.edges.length : List ℕ)

theorem step_measure {s s' : State} (h : Step s (.inl s')) : Multiset.IsDershowitzMannaLT s'.measure s.measure := by
  cases h with
  | leaf b q rest c hp hb he =>
    refine ⟨(((rest.filter fun g => g.cost < c.cost).map fun g => g.edges.length : List ℕ) : Multiset ℕ), 0,
      c.edges.length ::ₘ (((rest.filter fun g => ¬ g.cost < c.cost).map fun g => g.edges.length : List ℕ) : Multiset ℕ), by simp, ?_, ?_, by simp⟩
    · simp [State.measure]
    · unfold State.measure
      rw [Multiset.cons_coe, Multiset.coe_add, Multiset.coe_eq_coe]
      refine (hp.map _).trans ?_
      rw [List.map_cons]
      refine List.Perm.trans ?_ List.perm_middle.symm
      refine List.Perm.cons _ ?_
      rw [← List.map_append]
      refine List.Perm.map _ ?_
      have := List.filter_append_perm (fun g : Graph => decide (g.cost < c.cost)) rest
      refine this.symm.trans (List.Perm.of_eq ?_)
      congr 1
      apply List.filter_congr
      intro x _
      rw [decide_not]
  | expand b q rest gs c hp hb he hg =>
    refine ⟨((rest.map fun g => g.edges.length : List ℕ) : Multiset ℕ), ((gs.map fun g => g.edges.length : List ℕ) : Multiset ℕ),
      {c.edges.length}, by simp, ?_, ?_, ?_⟩
    · simp [State.measure]
    · unfold State.measure
      rw [← Multiset.coe_singleton, Multiset.coe_add, Multiset.coe_eq_coe]
      refine (hp.map _).trans ?_
      rw [List.map_cons]
      exact (List.perm_append_comm (l₁ := [c.edges.length]))
    · intro y hy
      refine ⟨_, Multiset.mem_singleton_self _, ?_⟩
      rw [Multiset.mem_coe, List.mem_map] at hy
      obtain ⟨d, hd, rfl⟩ := hy
      have := ((grandchildren_ok hg).1 d hd).1
      clear hg hp hd
      induction this with
      | single h => exact h.edges
      | tail _ h ih => exact h.edges.trans ih

/-- **C12 (termination of the search)** There is no infinite run of the main loop, whatever is popped from the queue ... -/
theorem C12_search_terminates : WellFounded fun s' s : State => Step s (.inl s') :=
  Subrelation.wf (fun h => step_measure h) (InvImage.wf State.measure Multiset.wellFounded_isDershowitzMannaLT)

/-- ... and from every state, whichever element is popped next, the loop can go on or end. -/
theorem C12_search_progress (b : Option Graph) (q rest : List Graph) (c : Graph) (hp : q.Perm (c :: rest)) :
    (∃ s', Step ⟨b, q⟩ (.inl s')) ∨ (∃ r, Step ⟨b, q⟩ (.inr r)) := by
  by_cases hb : below c.cost (b.map Graph.cost)
  · by_cases he : c.edges = []
    · exact .inl ⟨_, .leaf b q rest c hp hb he⟩
    · cases hg : grandchildren c (b.map Graph.cost) with
      | error x => exact .inr ⟨_, .fail b q rest c x hp hb he hg⟩
      | ok gs => exact .inl ⟨_, .expand b q rest gs c hp hb he hg⟩
  · exact .inr ⟨_, .early b q rest c hp hb⟩

theorem search_total (s : State) : ∃ r, Search s r := by
  induction s using C12_search_terminates.induction with
  | _ s ih =>
    obtain ⟨b, q⟩ := s
    cases q with
    | nil => exact ⟨_, .stop _ _ (.empty b)⟩
    | cons c rest =>
      rcases C12_search_progress b (c :: rest) rest c (.refl _) with ⟨s', hs⟩ | ⟨r, hr⟩
      · obtain ⟨r, hr⟩ := ih s' hs
        exact ⟨r, .next _ _ _ hs hr⟩
      · exact ⟨r, .stop _ _ hr⟩

theorem contracts_wf : WellFounded fun h g : Graph => Contracts g h :=
  Subrelation.wf (fun h => Contracts.edges h) (InvImage.wf (fun g : Graph => g.edges.length) Nat.lt_wfRel.wf)

theorem random_total (g : Graph) : ∃ r, RandomRun g r := by
  induction g using contracts_wf.induction with
  | _ g ih =>
    by_cases he : g.edges = []
    · exact ⟨_, .done g he⟩
    · obtain ⟨e, hm⟩ := List.exists_mem_of_ne_nil _ he
      cases hc : g.contract e with
      | error x => exact ⟨_, .fail g e x hm hc⟩
      | ok g' =>
        obtain ⟨r, hr⟩ := ih g' ⟨e, hm, hc⟩
        exact ⟨r, .step g g' e r hm hc hr⟩

theorem randomPhase_total (g : Graph) (n : ℕ) (b : Option Graph) : ∃ r, RandomPhase g n b r := by
  induction n generalizing b with
  | zero => exact ⟨_, .done b⟩
  | succ n ih =>
    obtain ⟨r, hr⟩ := random_total g
    cases r with
    | error x => exact ⟨_, .fail n b x hr⟩
    | ok h =>
      obtain ⟨r', hr'⟩ := ih (if below h.cost (b.map Graph.cost) then some h else b)
      exact ⟨r', .step n b h r' hr hr'⟩

/-- **C12 (the optimiser always comes to a result)** For every graph there is an outcome; together with `C12_search_terminates` and
`C12_random_terminates` no run is infinite. -/
theorem C12_total (g : Graph) (n : ℕ) (codes : List (ℕ × Char × Char)) (hcodes : ∀ c ∈ codes, c.2.1 ∈ ['B', 'F'] ∧ c.2.2 ∈ ['B', 'F']) :
    ∃ r, OptimalContraction g n codes r := by
  have hh := (C14_heuristics_inert g codes hcodes (.ok g)).2 rfl
  by_cases he : g.edges = []
  · exact ⟨_, .trivial g hh he⟩
  · obtain ⟨r, hr⟩ := randomPhase_total g n none
    cases r with
    | error x => exact ⟨_, .randFail g x hh he hr⟩
    | ok b =>
      obtain ⟨r, hs⟩ := search_total ⟨b, [g]⟩
      exact ⟨r, .search g b r hh he hr hs⟩

/-- **C12 (random solutions)** Contracting random edges cannot go on for ever. -/
theorem C12_random_terminates : WellFounded fun h g : Graph => Contracts g h := contracts_wf

/-! ### Errors -/

theorem mapM_error {ε α β : Type*} {f : α → Except ε β} {l : List α} {x : ε} (h : l.mapM f = .error x) : ∃ a ∈ l, f a = .error x := by
  induction l with
  | nil => simp [pure, Except.pure] at h
  | cons a l ih =>
    rw [List.mapM_cons] at h
    cases ha : f a with
    | error e =>
      simp only [ha, bind, Except.bind, Except.error.injEq] at h
      exact ⟨a, by simp, by rw [ha, h]⟩
    | ok b =>
      cases hl : l.mapM f with
      | error e =>
        simp only [ha, hl, bind, Except.bind, Except.error.injEq] at h
        obtain ⟨a', hm, he⟩ := ih (by rw [hl, h])
        exact ⟨a', by simp [hm], he⟩
      | ok bs => simp [ha, hl, bind, Except.bind, pure, Except.pure] at h

/-- Some contraction of an edge, after some contractions of `g`, raises `x`. -/
def Raises (g : Graph) (x : PErr) : Prop := ∃ h e, ReflTransGen Contracts g h ∧ e ∈ h.edges ∧ h.contract e = .error x

theorem children_error {g : Graph} {bd x} (h : children g bd = .error x) : ∃ e ∈ g.edges, g.contract e = .error x := by
  obtain ⟨e, he, hx⟩ := mapM_error h
  exact ⟨e, (List.mem_filter.1 he).1, hx⟩

theorem grandchildren_error {g : Graph} {bd x} (h : grandchildren g bd = .error x) : Raises g x := by
  unfold grandchildren at h
  cases hcs : children g bd with
  | error e =>
    simp only [hcs, bind, Except.bind, Except.error.injEq] at h
    obtain ⟨e', he, hx⟩ := children_error hcs
    exact ⟨g, e', .refl, he, by rw [hx, h]⟩
  | ok cs =>
    simp only [hcs, bind, Except.bind] at h
    cases hgs : cs.mapM (fun c => if c.edges = [] then Except.ok [c] else children c bd) with
    | ok gss => rw [hgs] at h; simp [pure, Except.pure] at h
    | error e =>
      rw [hgs] at h
      simp only [Except.error.injEq] at h
      obtain ⟨c, hc, hx⟩ := mapM_error hgs
      split at hx
      · simp at hx
      · obtain ⟨e', he, hx⟩ := children_error hx
        exact ⟨c, e', .single ((children_ok hcs).1 c hc).1, he, by rw [hx, h]⟩

theorem search_error {g : Graph} {s : State} {r} (hs : Search s r) (hq : ∀ q ∈ s.queue, ReflTransGen Contracts g q) (x : PErr) (hr : r = .error x) :
    Raises g x := by
  induction hs with
  | stop s r hst =>
    subst hr
    cases hst with
    | fail b q rest c x hp hb he hg =>
      obtain ⟨h, e, h1, h2, h3⟩ := grandchildren_error hg
      exact ⟨h, e, (hq c (hp.mem_iff.2 (by simp))).trans h1, h2, h3⟩
  | next s s' r hst _ ih =>
    refine ih ?_ hr
    cases hst with
    | leaf b q rest c hp hb he =>
      intro y hy
      exact hq y (hp.mem_iff.2 (by simp [(List.mem_filter.1 hy).1]))
    | expand b q rest gs c hp hb he hg =>
      intro y hy
      rcases List.mem_append.1 hy with hy | hy
      · exact hq y (hp.mem_iff.2 (by simp [hy]))
      · exact (hq c (hp.mem_iff.2 (by simp))).trans ((grandchildren_ok hg).1 y hy).1.to_reflTransGen

theorem randomRun_error {g : Graph} {r} (h : RandomRun g r) (x : PErr) (hr : r = .error x) : Raises g x := by
  induction h with
  | done g he => simp at hr
  | step g g' e r he hc _ ih =>
    obtain ⟨h, e', h1, h2, h3⟩ := ih hr
    exact ⟨h, e', .head ⟨e, he, hc⟩ h1, h2, h3⟩
  | fail g e x he hc => cases hr; exact ⟨g, e, .refl, he, hc⟩

/-- **C12 (errors)** The optimiser raises only what the contraction of some edge raises. -/
theorem C12_errors (g : Graph) (n : ℕ) (codes : List (ℕ × Char × Char)) (hcodes : ∀ c ∈ codes, c.2.1 ∈ ['B', 'F'] ∧ c.2.2 ∈ ['B', 'F'])
    (x : PErr) (h : OptimalContraction g n codes (.error x)) : Raises g x := by
  cases h with
  | heurFail _ hh => rw [C14_heuristics_inert g codes hcodes] at hh; simp at hh
  | randFail g' _ hh he hr =>
    rw [C14_heuristics_inert g codes hcodes] at hh
    cases hh
    generalize hb : (none : Option Graph) = b at hr
    generalize hy : (Except.error x : Except PErr (Option Graph)) = y at hr
    clear hb
    induction hr with
    | done b => simp at hy
    | step n b h r _ _ ih => exact ih hy
    | fail n b x' hrun => cases hy; exact randomRun_error hrun _ rfl
  | search g' b _ hh he hr hs =>
    rw [C14_heuristics_inert g codes hcodes] at hh
    cases hh
    exact search_error hs (by simpa using ReflTransGen.refl) x rfl

end Verif.Path
