import Verif.ComponentDual

/-!
# Which contractions of Fock components return (C88)

Whether `>>` and the contraction of a circuit return depends on the wires only.
-/

namespace Verif.CompV

open Verif.WireModel Verif.Arr Verif.Fock Verif.PolyExp Verif.Circuits

theorem contract_of_matmul {M : ℕ} {X Y : FComp} (hX : X.WF M) (hY : Y.WF M) {R : Wires} (h : matmulWires X.wires Y.wires = .ok R) :
    ∃ Z, X.contract Y = some Z ∧ Z.wires = R := by
  have hm := matmul_open hX.good.distinct hY.good.distinct hX.good.inRange hY.good.inRange (sameRepr_of hX hY) h
  obtain ⟨Z, h1, h2, _⟩ := (contract_ker hX hY).2 hm.1
  rw [h] at h2
  exact ⟨Z, h1, (Except.ok.inj h2).symm⟩

theorem rshift_returns {M : ℕ} {g : ℕ → Side × Bool × Int} {f : Nat → Nat} (hf : ∀ n, g (f n) = ((g n).1.swap, (g n).2)) {X Y : FComp} (hX : X.WF M) (hY : Y.WF M)
    (iX : IdOk g X.wires) (iY : IdOk g Y.wires) (nX : X.wires.ws ≠ []) (nY : Y.wires.ws ≠ []) {R : Wires} (h : WireModel.rshift X.wires Y.wires f = .ok R) :
    ∃ Z, X.rshift f Y = .ok Z ∧ Z.wires = R := by
  have plain : matmulWires X.wires Y.wires = .ok R → ∃ Z, ofOpt (X.contract Y) = .ok Z ∧ Z.wires = R := by
    intro h
    obtain ⟨Z, h1, h2⟩ := contract_of_matmul hX hY h
    exact ⟨Z, by rw [h1]; rfl, h2⟩
  have left : (do matmulWires (X.wires.adjoint f) (← matmulWires X.wires Y.wires)) = .ok R →
      ∃ Z, ofOpt (do let a ← X.adjoint f; let z ← X.contract Y; a.contract z) = .ok Z ∧ Z.wires = R := by
    intro h
    cases hm : matmulWires X.wires Y.wires with
    | error e => rw [hm] at h; cases h
    | ok V =>
    rw [hm] at h
    obtain ⟨V', h1, rfl⟩ := contract_of_matmul hX hY hm
    obtain ⟨A, ha, ha2, _⟩ := adjoint_ker hX f
    obtain ⟨a1, a2, a3, a4⟩ := adjoint_wf hX iX hf ha
    obtain ⟨_, k2, _⟩ := contract_wf hX hY iX iY h1
    obtain ⟨Z, z1, z2⟩ := contract_of_matmul a1 k2 (R := R) (by rw [a3]; exact h)
    refine ⟨Z, ?_, z2⟩
    rw [ha, h1]
    simp only [Option.bind_eq_bind, Option.bind_some, z1]
    rfl
  have right : (do matmulWires (← matmulWires X.wires (Y.wires.adjoint f)) Y.wires) = .ok R →
      ∃ Z, ofOpt (do let b ← Y.adjoint f; let z ← X.contract b; z.contract Y) = .ok Z ∧ Z.wires = R := by
    intro h
    obtain ⟨A, ha, ha2, _⟩ := adjoint_ker hY f
    obtain ⟨a1, a2, a3, a4⟩ := adjoint_wf hY iY hf ha
    cases hm : matmulWires X.wires (Y.wires.adjoint f) with
    | error e => rw [hm] at h; cases h
    | ok V =>
    rw [hm] at h
    rw [← a3] at hm
    obtain ⟨V', h1, rfl⟩ := contract_of_matmul hX a1 hm
    obtain ⟨_, k2, _⟩ := contract_wf hX a1 iX a2 h1
    obtain ⟨Z, z1, z2⟩ := contract_of_matmul k2 hY (R := R) h
    refine ⟨Z, ?_, z2⟩
    rw [ha]
    simp only [Option.bind_eq_bind, Option.bind_some, h1, z1]
    rfl
  unfold FComp.rshift
  dsimp only
  rw [if_neg (not_or.mpr ⟨nX, nY⟩)]
  unfold WireModel.rshift at h
  dsimp only at h
  split_ifs at h ⊢
  · exact plain h
  · exact left h
  · exact right h

/-- **C88** (when `>>` returns) `A >> B` of components with wires returns if and only if the wires allow it, and then on the wires that the wires alone determine. -/
theorem C88_rshift_returns {M : ℕ} {g : ℕ → Side × Bool × Int} {f : Nat → Nat} (hf : ∀ n, g (f n) = ((g n).1.swap, (g n).2)) {X Y : FComp} (hX : X.WF M) (hY : Y.WF M)
    (iX : IdOk g X.wires) (iY : IdOk g Y.wires) (nX : X.wires.ws ≠ []) (nY : Y.wires.ws ≠ []) (R : Wires) :
    (∃ Z, X.rshift f Y = .ok Z ∧ Z.wires = R) ↔ WireModel.rshift X.wires Y.wires f = .ok R := by
  refine ⟨?_, rshift_returns hf hX hY iX iY nX nY⟩
  rintro ⟨Z, h, rfl⟩
  exact (rshift_facts hf hX hY iX iY h).2.2.2.2.1

/-- The wires of a component, as a value of the contraction of wires. -/
def valOf (X : FComp) : Val := if X.wires.ws.isEmpty then .scalar else .comp X.wires

/-- A component and its wires. -/
def Same (M : ℕ) (g : ℕ → Side × Bool × Int) (a : ℕ × Val) (X : ℕ × FComp) : Prop := a.1 = X.1 ∧ a.2 = valOf X.2 ∧ X.2.WF M ∧ IdOk g X.2.wires

theorem same_dget {M : ℕ} {g : ℕ → Side × Bool × Int} {d : List (ℕ × Val)} {dX : List (ℕ × FComp)} (h : List.Forall₂ (Same M g) d dX) (i : ℕ) (a : Val)
    (ha : dget d i = some a) : ∃ X, dget dX i = some X ∧ a = valOf X ∧ X.WF M ∧ IdOk g X.wires := by
  induction h with
  | nil => cases ha
  | @cons p P d dX hp _ ih =>
    obtain ⟨k, v⟩ := p
    obtain ⟨k', V⟩ := P
    obtain ⟨rfl, h2, h3, h4⟩ := hp
    unfold dget at ha ⊢
    dsimp only at *
    by_cases hk : k = i
    · rw [if_pos hk] at ha ⊢
      cases ha
      exact ⟨V, rfl, h2, h3, h4⟩
    · rw [if_neg hk] at ha ⊢
      exact ih ha

theorem same_dpop {M : ℕ} {g : ℕ → Side × Bool × Int} {d : List (ℕ × Val)} {dX : List (ℕ × FComp)} (h : List.Forall₂ (Same M g) d dX) (i : ℕ) :
    List.Forall₂ (Same M g) (dpop d i) (dpop dX i) := by
  unfold dpop
  induction h with
  | nil => exact .nil
  | @cons p P d dX hp _ ih =>
    by_cases hk : p.1 = i
    · rw [List.filter_cons_of_neg (by simpa using hk), List.filter_cons_of_neg (by rw [← hp.1]; simpa using hk)]
      exact ih
    · rw [List.filter_cons_of_pos (by simpa using hk), List.filter_cons_of_pos (by rw [← hp.1]; simpa using hk)]
      exact .cons hp ih

theorem same_dset {M : ℕ} {g : ℕ → Side × Bool × Int} {d : List (ℕ × Val)} {dX : List (ℕ × FComp)} (h : List.Forall₂ (Same M g) d dX) (i : ℕ) (X : FComp)
    (hX : X.WF M) (iX : IdOk g X.wires) : List.Forall₂ (Same M g) (dset d i (valOf X)) (dset dX i X) := by
  induction h with
  | nil => exact .cons ⟨rfl, rfl, hX, iX⟩ .nil
  | @cons p P d dX hp hd ih =>
    obtain ⟨k, v⟩ := p
    obtain ⟨k', V⟩ := P
    obtain ⟨rfl, h2, h3, h4⟩ := hp
    unfold dset
    dsimp only at *
    by_cases hk : k = i
    · rw [if_pos hk, if_pos hk]
      exact .cons ⟨rfl, rfl, hX, iX⟩ hd
    · rw [if_neg hk, if_neg hk]
      exact .cons ⟨rfl, h2, h3, h4⟩ ih

theorem steps_returns {M : ℕ} {g : ℕ → Side × Bool × Int} {f : Nat → Nat} (hf : ∀ n, g (f n) = ((g n).1.swap, (g n).2)) (p : List (ℕ × ℕ)) :
    ∀ (d d' : List (ℕ × Val)) (dX : List (ℕ × FComp)), List.Forall₂ (Same M g) d dX → steps (shiftStrict f) d p = .ok d' →
      ∃ dX', steps (FComp.rshift f) dX p = .ok dX' ∧ List.Forall₂ (Same M g) d' dX' := by
  induction p with
  | nil =>
    intro d d' dX hd h
    cases h
    exact ⟨dX, rfl, hd⟩
  | cons ij p ih =>
    intro d d' dX hd h
    obtain ⟨i, j⟩ := ij
    unfold steps at h ⊢
    cases ha : dget d i with
    | none => rw [ha] at h; simp at h
    | some a =>
    cases hb : dget d j with
    | none => rw [ha, hb] at h; simp at h
    | some b =>
    obtain ⟨X, x1, rfl, x3, x4⟩ := same_dget hd i a ha
    obtain ⟨Y, y1, rfl, y3, y4⟩ := same_dget hd j b hb
    simp only [ha, hb, x1, y1] at h ⊢
    cases hc : shiftStrict f (valOf X) (valOf Y) with
    | error e => rw [hc] at h; simp at h
    | ok c =>
      rw [hc] at h
      dsimp only at h
      by_cases nX : X.wires.ws = []
      · unfold valOf at hc
        rw [if_pos (by simpa using nX)] at hc
        simp [shiftStrict] at hc
      by_cases nY : Y.wires.ws = []
      · unfold valOf at hc
        rw [if_neg (by simpa using nX), if_pos (by simpa using nY)] at hc
        simp [shiftStrict] at hc
      have vX : valOf X = .comp X.wires := if_neg (by simpa using nX)
      have vY : valOf Y = .comp Y.wires := if_neg (by simpa using nY)
      rw [vX, vY] at hc
      change shift f (.comp X.wires) (.comp Y.wires) = _ at hc
      simp only [shift] at hc
      cases hr : WireModel.rshift X.wires Y.wires f with
      | error e => rw [hr] at hc; simp at hc
      | ok R =>
        rw [hr] at hc
        obtain ⟨Z, z1, rfl⟩ := rshift_returns hf x3 y3 x4 y4 nX nY hr
        obtain ⟨w, k, _⟩ := rshift_facts hf x3 y3 x4 y4 z1
        have ec : c = valOf Z := (Except.ok.inj hc).symm
        subst ec
        rw [z1]
        exact ih _ _ _ (same_dset (same_dpop hd j) i Z w k) h

/-- **C88** (when a circuit contracts) if the contraction of the wires along a path returns, so does the contraction of the components, on those wires. -/
theorem C88_contract_returns {M : ℕ} {g : ℕ → Side × Bool × Int} {f : Nat → Nat} (hf : ∀ n, g (f n) = ((g n).1.swap, (g n).2)) (Xs : List FComp)
    (hX : ∀ X ∈ Xs, X.WF M ∧ IdOk g X.wires) (p : List (ℕ × ℕ)) (v : Val) (h : Circuits.contract (shiftStrict f) (Xs.map valOf) p = .ok v) :
    ∃ r, Circuits.contract (FComp.rshift f) Xs p = .ok r ∧ v = valOf r := by
  unfold Circuits.contract at h ⊢
  rw [List.length_map] at h
  by_cases hl : p.length + 1 ≠ Xs.length
  · rw [if_pos hl] at h
    cases h
  rw [if_neg hl] at h ⊢
  have hs : List.Forall₂ (Same M g) (enumFrom (Xs.map valOf)) (enumFrom Xs) := by
    unfold enumFrom
    rw [List.zipIdx_map, List.map_map, List.forall₂_map_left_iff, List.forall₂_map_right_iff, List.forall₂_same]
    intro x hx
    have hm := hX _ (List.fst_mem_of_mem_zipIdx hx)
    exact ⟨rfl, rfl, hm.1, hm.2⟩
  cases hst : steps (shiftStrict f) (enumFrom (Xs.map valOf)) p with
  | error e => rw [hst] at h; cases h
  | ok d' =>
    obtain ⟨dX', e, hd⟩ := steps_returns hf p _ _ _ hs hst
    rw [hst] at h
    rw [e]
    cases hd with
    | nil => cases h
    | @cons a A l L hh ht =>
      cases h
      exact ⟨A.2, rfl, hh.2.1⟩

/-! ## A circuit -/

/-- Identifiers that tell the slot: side, direction and mode. -/
def gEx (n : ℕ) : Side × Bool × Int := (if n % 3 = 0 then .ket else if n % 3 = 1 then .bra else .classical, decide (n / 3 % 2 = 1), ((n / 6 : ℕ) : Int))

/-- Identifiers of the adjoint. -/
def fEx (n : ℕ) : ℕ := if n % 3 = 0 then n + 1 else if n % 3 = 1 then n - 1 else n

theorem fEx_ok (n : ℕ) : gEx (fEx n) = ((gEx n).1.swap, (gEx n).2) := by
  rcases (by omega : n % 3 = 0 ∨ n % 3 = 1 ∨ n % 3 = 2) with h | h | h
  · have h0 : fEx n = n + 1 := by simp [fEx, h]
    have h1 : (n + 1) % 3 = 1 := by omega
    have h2 : (n + 1) / 3 = n / 3 := by omega
    have h3 : (n + 1) / 6 = n / 6 := by omega
    simp [gEx, h0, h, h1, h2, h3, Side.swap]
  · have h0 : fEx n = n - 1 := by simp [fEx, h]
    have h1 : (n - 1) % 3 = 0 := by omega
    have h2 : (n - 1) / 3 = n / 3 := by omega
    have h3 : (n - 1) / 6 = n / 6 := by omega
    rw [h0]
    unfold gEx
    rw [h1, h2, h3, h]
    simp [Side.swap]
  · have h0 : fEx n = n := by simp [fEx, h]
    rw [h0]
    simp [gEx, h, Side.swap]

/-- A wire of mode 0 or 1 in the Fock representation. -/
def wEx (s : Side) (o : Bool) (m : ℕ) (ix : ℕ) : Wire := ⟨s, o, m, ix, .fock, (match s with | .ket => 0 | .bra => 1 | .classical => 2) + 3 * (if o then 1 else 0) + 6 * m⟩

/-- A two-mode ket, a gate on mode 0, a channel on mode 1, and the trace of mode 0. -/
noncomputable def exComps : List FComp :=
  [⟨⟨[wEx .ket true 0 0, wEx .ket true 1 1]⟩, ⟨0, [3, 2], fun l => (l.getD 0 0 : ℂ) + Complex.I * (l.getD 1 0 : ℂ)⟩⟩,
   ⟨⟨[wEx .ket true 0 0, wEx .ket false 0 1]⟩, ⟨0, [3, 3], fun l => if l.getD 0 0 = l.getD 1 0 then Complex.I ^ l.getD 0 0 else 0⟩⟩,
   ⟨⟨[wEx .bra true 1 0, wEx .bra false 1 1, wEx .ket true 1 2, wEx .ket false 1 3]⟩, ⟨0, [2, 2, 2, 2], fun l => (l.getD 0 0 + 1 : ℂ) * (l.getD 3 0 : ℂ)⟩⟩,
   ⟨⟨[wEx .bra false 0 0, wEx .ket false 0 1]⟩, ⟨0, [3, 3], fun l => if l.getD 0 0 = l.getD 1 0 then 1 else 0⟩⟩]

instance (W : Wires) (q : Repr) : Decidable (Uniform W q) := inferInstanceAs (Decidable (∀ _ ∈ _, _))
instance (g : ℕ → Side × Bool × Int) (W : Wires) : Decidable (IdOk g W) := inferInstanceAs (Decidable (∀ _ ∈ _, _))

theorem exComps_wf : ∀ X ∈ exComps, X.WF 3 ∧ IdOk gEx X.wires ∧ Regular .fock X.wires := by
  have bal : ∀ W : Wires, (∀ w ∈ W.ws, w.side = .ket ∧ (∃ v ∈ W.ws, v.slot = (.bra, w.isOut, w.mode)) ∨ w.side = .bra ∧ ∃ v ∈ W.ws, v.slot = (.ket, w.isOut, w.mode)) →
      Balanced W := by
    intro W hW _ _ o m
    constructor
    · rintro ⟨w, hw, e⟩
      obtain ⟨h1, h2⟩ | ⟨h1, h2⟩ := hW w hw
      · obtain ⟨v, hv, e'⟩ := h2
        refine ⟨v, hv, ?_⟩
        rw [e']
        simp only [Wire.slot, Prod.mk.injEq] at e
        rw [e.2.1, e.2.2]
      · simp [Wire.slot, h1] at e
    · rintro ⟨w, hw, e⟩
      obtain ⟨h1, h2⟩ | ⟨h1, h2⟩ := hW w hw
      · simp [Wire.slot, h1] at e
      · obtain ⟨v, hv, e'⟩ := h2
        refine ⟨v, hv, ?_⟩
        rw [e']
        simp only [Wire.slot, Prod.mk.injEq] at e
        rw [e.2.1, e.2.2]
  have one : ∀ W : Wires, (∀ w ∈ W.ws, w.side = .ket) → Balanced W := by
    rintro W hW _ ⟨o, m, w, hw, e⟩
    have := hW w hw
    simp [Wire.slot, this] at e
  intro X hX
  simp only [exComps, List.mem_cons, List.not_mem_nil, or_false] at hX
  rcases hX with rfl | rfl | rfl | rfl
  · exact ⟨⟨⟨by decide, by decide, by decide⟩, by decide, by decide, by decide, rfl, rfl, by decide⟩, by decide,
      ⟨⟨by decide, by decide, by decide⟩, by decide, by decide, one _ (by decide), by decide⟩⟩
  · exact ⟨⟨⟨by decide, by decide, by decide⟩, by decide, by decide, by decide, rfl, rfl, by decide⟩, by decide,
      ⟨⟨by decide, by decide, by decide⟩, by decide, by decide, one _ (by decide), by decide⟩⟩
  · exact ⟨⟨⟨by decide, by decide, by decide⟩, by decide, by decide, by decide, rfl, rfl, by decide⟩, by decide,
      ⟨⟨by decide, by decide, by decide⟩, by decide, by decide, bal _ (by decide), by decide⟩⟩
  · exact ⟨⟨⟨by decide, by decide, by decide⟩, by decide, by decide, by decide, rfl, rfl, by decide⟩, by decide,
      ⟨⟨by decide, by decide, by decide⟩, by decide, by decide, bal _ (by decide), by decide⟩⟩

/-- The wires of this circuit. -/
def exVals : List Val := [.comp ⟨[wEx .ket true 0 0, wEx .ket true 1 1]⟩, .comp ⟨[wEx .ket true 0 0, wEx .ket false 0 1]⟩,
  .comp ⟨[wEx .bra true 1 0, wEx .bra false 1 1, wEx .ket true 1 2, wEx .ket false 1 3]⟩, .comp ⟨[wEx .bra false 0 0, wEx .ket false 0 1]⟩]

theorem of_opened {e : Except CErr Val} {l} (h : opened e = some l) (hl : l ≠ []) : ∃ W, e = .ok (.comp W) := by
  match e, h with
  | .ok (.comp W), _ => exact ⟨W, rfl⟩
  | .ok .scalar, h => exact absurd (Option.some.inj h).symm hl

/-- The hypotheses of `C88_paths` are met by two different paths of this circuit, which both return, with the same operator on the open wires of mode 1. -/
example : ∃ r r', Circuits.contract (FComp.rshift fEx) exComps (defaultPath 4) = .ok r ∧
    Circuits.contract (FComp.rshift fEx) exComps [(2, 3), (1, 2), (0, 1)] = .ok r' ∧ r.ker = r'.ker ∧ r.wires.ws ≠ [] := by
  have hv : exComps.map valOf = exVals := rfl
  have o1 : opened (Circuits.contract (shiftStrict fEx) exVals (defaultPath 4)) = some [(.bra, true, 1), (.ket, true, 1)] := by decide
  have o2 : opened (Circuits.contract (shiftStrict fEx) exVals [(2, 3), (1, 2), (0, 1)]) = some [(.bra, true, 1), (.ket, true, 1)] := by decide
  obtain ⟨W, h1⟩ := of_opened o1 (by simp)
  obtain ⟨W', h2⟩ := of_opened o2 (by simp)
  have hX : ∀ X ∈ exComps, X.WF 3 ∧ IdOk gEx X.wires := fun X h => ⟨(exComps_wf X h).1, (exComps_wf X h).2.1⟩
  obtain ⟨r, hr, er⟩ := C88_contract_returns fEx_ok exComps hX _ _ (hv ▸ h1)
  obtain ⟨r', hr', _⟩ := C88_contract_returns fEx_ok exComps hX _ _ (hv ▸ h2)
  have hk := C88_paths fEx_ok exComps exComps_wf (defaultPath 4) [(2, 3), (1, 2), (0, 1)]
    (.step [] 0 1 [2, 3] _ (.step [] 0 2 [3] _ (.step [] 0 3 [] _ (.done 0))))
    (.step [0, 1] 2 3 [] _ (.step [0] 1 2 [] _ (.step [] 0 1 [] _ (.done 0)))) r r' hr hr'
  refine ⟨r, r', hr, hr', hk.1, fun hn => ?_⟩
  unfold valOf at er
  rw [if_pos (by simpa using hn)] at er
  cases er

/-- Identifiers of the dual. -/
def dEx (n : ℕ) : ℕ := if n / 3 % 2 = 0 then n + 3 else n - 3

theorem dEx_ok (n : ℕ) : gEx (dEx n) = ((gEx n).1, !(gEx n).2.1, (gEx n).2.2) := by
  rcases (by omega : n / 3 % 2 = 0 ∨ n / 3 % 2 = 1) with h | h
  · have h0 : dEx n = n + 3 := by simp [dEx, h]
    have h1 : (n + 3) % 3 = n % 3 := by omega
    have h2 : (n + 3) / 3 % 2 = 1 := by omega
    have h3 : (n + 3) / 6 = n / 6 := by omega
    rw [h0]
    unfold gEx
    rw [h1, h2, h3, h]
    simp
  · have h0 : dEx n = n - 3 := by simp [dEx, h]
    have h1 : (n - 3) % 3 = n % 3 := by omega
    have h2 : (n - 3) / 3 % 2 = 0 := by omega
    have h3 : (n - 3) / 6 = n / 6 := by omega
    rw [h0]
    unfold gEx
    rw [h1, h2, h3, h]
    simp

/-- `C88_dual` and `C88_adjoint` on the first two components: the state followed by the gate. -/
example : ∃ X Y Z, X ∈ exComps ∧ Y ∈ exComps ∧ X.contract Y = some Z ∧ (∃ X' Y' V Z', X.dual dEx = some X' ∧ Y.dual dEx = some Y' ∧ Z.dual dEx = some Z' ∧
    Y'.contract X' = some V ∧ V.ker = Z'.ker) := by
  have m0 : exComps[0] ∈ exComps := List.getElem_mem _
  have m1 : exComps[1] ∈ exComps := List.getElem_mem _
  obtain ⟨w0, i0, _⟩ := exComps_wf _ m0
  obtain ⟨w1, i1, _⟩ := exComps_wf _ m1
  have hc : opened ((matmulWires exComps[0].wires exComps[1].wires).toOption.elim (.error .path) fun W => .ok (.comp W)) =
      some [(.ket, true, 0), (.ket, true, 1)] := by decide
  cases hm : matmulWires exComps[0].wires exComps[1].wires with
  | error e => rw [hm] at hc; cases hc
  | ok R =>
    obtain ⟨Z, hz, _⟩ := contract_of_matmul w0 w1 hm
    obtain ⟨X', Y', Z', V, h1, h2, h3, h4, h5, _⟩ := C88_dual dEx_ok w0 w1 i0 i1 hz
    exact ⟨_, _, Z, m0, m1, hz, X', Y', V, Z', h1, h2, h3, h4, h5⟩

end Verif.CompV
