import Verif.ComponentShift
import Mathlib.Algebra.Group.Opposite
import Mathlib.Algebra.GroupWithZero.WithZero

/-!
# Operators of circuits of Fock components (C88)
-/

namespace Verif.CompV

open Verif.WireModel Verif.Arr Verif.Fock Verif.PolyExp Verif.Circuits

/-- **C88** (`@`) `contract` returns exactly when no wire would be open twice, and then the operator of the result is the composition of the operators; two
ways to bracket three components give the same operator whenever all contractions return. -/
theorem C88_contract_assoc {M : ℕ} {g : ℕ → Side × Bool × Int} {X Y Z U V P Q : FComp} (hX : X.WF M) (hY : Y.WF M) (hZ : Z.WF M) (iX : IdOk g X.wires)
    (iY : IdOk g Y.wires) (iZ : IdOk g Z.wires) (h1 : X.contract Y = some U) (h2 : U.contract Z = some P) (h3 : Y.contract Z = some V) (h4 : X.contract V = some Q) :
    P.ker = Q.ker ∧ (∀ s o m, Has P.wires s o m ↔ Has Q.wires s o m) := by
  obtain ⟨c1, w1, i1, _, k1⟩ := contract_wf hX hY iX iY h1
  obtain ⟨c2, w2, i2, _, k2⟩ := contract_wf w1 hZ i1 iZ h2
  obtain ⟨c3, w3, i3, _, k3⟩ := contract_wf hY hZ iY iZ h3
  obtain ⟨c4, w4, i4, _, k4⟩ := contract_wf hX w3 iX i3 h4
  have hk : P.ker = Q.ker := by
    rw [k2, k4, k1, k3]
    refine Ker.seq_assoc X.ker_local Y.ker_local Z.ker_local (FComp.ker_below hX) (FComp.ker_below hY) (FComp.ker_below hZ) (comp_iff.mpr c1) ?_ (comp_iff.mpr c3) ?_
    · rw [← k1]
      exact comp_iff.mpr c2
    · rw [← k3]
      exact comp_iff.mpr c4
  refine ⟨hk, fun s o m => ?_⟩
  cases o
  · rw [← FComp.mem_ins, ← FComp.mem_ins, hk]
  · rw [← FComp.mem_outs, ← FComp.mem_outs, hk]

theorem oneS_self_apart {X : FComp} {s : Side} (hX : OneS X.wires s) : X.ker.Apart (adjK X.ker) := oneS_apart (M := 0) hX hX

/-- **C88** (`>>`) the operator of `A >> B`: the composition if both are on the same sides; if one of them has wires on one side only and the other on both, the
one-sided component together with its adjoint takes part. -/
theorem C88_rshift {M : ℕ} {g : ℕ → Side × Bool × Int} {f : Nat → Nat} (hf : ∀ n, g (f n) = ((g n).1.swap, (g n).2)) {X Y Z : FComp} (hX : X.WF M) (hY : Y.WF M)
    (iX : IdOk g X.wires) (iY : IdOk g Y.wires) (h : X.rshift f Y = .ok Z) :
    Z.WF M ∧
    (Z.ker = Ker.seq M X.ker Y.ker ∧ ((Two X.wires ∧ Two Y.wires) ∨ ∃ s, OneS X.wires s ∧ OneS Y.wires s) ∨
     Z.ker = Ker.seq M (dbl M X.ker) Y.ker ∧ (∃ s, OneS X.wires s) ∧ Two Y.wires ∨
     Z.ker = Ker.seq M X.ker (dbl M Y.ker) ∧ Two X.wires ∧ ∃ s, OneS Y.wires s) := by
  obtain ⟨w, _, _, _, _, hp⟩ := rshift_facts hf hX hY iX iY h
  refine ⟨w, ?_⟩
  have lX := X.ker_local
  have lY := Y.ker_local
  have bX := FComp.ker_below hX
  have bY := FComp.ker_below hY
  rcases hp with ⟨_, h2, h3⟩ | ⟨h1, h2, h3, h4, s, h5⟩ | ⟨h1, h2, h3, h4, s, h5⟩
  · exact Or.inl ⟨h2, h3⟩
  · refine Or.inr (Or.inl ⟨?_, ⟨s, h5⟩, h4⟩)
    have ap := oneS_self_apart h5
    rw [h3]
    unfold dbl
    rw [ap.seq_comm]
    refine (Ker.seq_assoc (adjK_local lX) lX lY (adjK_below bX) bX bY ap.symm.comp ?_ h1 h2).symm
    intro c
    have e1 := h1 c
    have e2 := h2 c
    have e3 := ap c
    simp only [Ker.seq, Finset.mem_union, Finset.mem_sdiff] at e2 ⊢
    by_cases a1 : c ∈ X.ker.outs <;> by_cases a2 : c ∈ X.ker.ins <;> by_cases a3 : c ∈ (adjK X.ker).outs <;> by_cases a4 : c ∈ (adjK X.ker).ins <;>
      by_cases a5 : c ∈ Y.ker.outs <;> by_cases a6 : c ∈ Y.ker.ins <;> simp [a1, a2, a3, a4, a5, a6] at e1 e2 e3 ⊢
  · refine Or.inr (Or.inr ⟨?_, h4, ⟨s, h5⟩⟩)
    have ap := oneS_self_apart h5
    rw [h3]
    unfold dbl
    rw [ap.seq_comm]
    refine Ker.seq_assoc lX (adjK_local lY) lY bX (adjK_below bY) bY h1 h2 ap.symm.comp ?_
    intro c
    have e1 := h1 c
    have e2 := h2 c
    have e3 := ap c
    simp only [Ker.seq, Finset.mem_union, Finset.mem_sdiff] at e2 ⊢
    by_cases a1 : c ∈ X.ker.outs <;> by_cases a2 : c ∈ X.ker.ins <;> by_cases a3 : c ∈ (adjK Y.ker).outs <;> by_cases a4 : c ∈ (adjK Y.ker).ins <;>
      by_cases a5 : c ∈ Y.ker.outs <;> by_cases a6 : c ∈ Y.ker.ins <;> simp [a1, a2, a3, a4, a5, a6] at e1 e2 e3 ⊢

/-! ## Circuits -/

/-- Actions, in circuit order. -/
abbrev Act := (Function.End (Stacks Chan → ℂ))ᵐᵒᵖ

/-- What a (partial) result of a contraction stands for: the action of the operator, together with its adjoint if it is one-sided; and the action of the one-sided
operator itself. -/
def RelV (M : ℕ) (g : ℕ → Side × Bool × Int) (Z : FComp) (x : (Act × WithZero Act) × ((Int → Bi) × Sd)) : Prop :=
  Z.WF M ∧ IdOk g Z.wires ∧ Rel .fock (if Z.wires.ws.isEmpty then .scalar else .comp Z.wires) x.2 ∧
  ((x.1.1 = MulOpposite.op (Z.ker.act M) ∧ x.1.2 = 0 ∧ (Z.wires.ws ≠ [] → Two Z.wires)) ∨
   (x.1.1 = MulOpposite.op (Z.ker.act M * (adjK Z.ker).act M) ∧ x.1.2 = (MulOpposite.op (Z.ker.act M) : Act) ∧ (Z.wires.ws ≠ [] → ∃ s, OneS Z.wires s)))

theorem not_two_one {W : Wires} {s : Side} (h1 : Two W) (h2 : OneS W s) : False := by
  obtain ⟨⟨o, m, hk⟩, o', m', hb⟩ := h1
  have e1 := h2.2.2 _ _ _ hk
  have e2 := h2.2.2 _ _ _ hb
  rw [← e1] at e2
  cases e2

theorem rshift_strict {M : ℕ} {f : Nat → Nat} {X Y Z : FComp} (nX : X.wires.ws ≠ []) (nY : Y.wires.ws ≠ []) (h : WireModel.rshift X.wires Y.wires f = .ok Z.wires) :
    shiftStrict f (if X.wires.ws.isEmpty then .scalar else .comp X.wires) (if Y.wires.ws.isEmpty then .scalar else .comp Y.wires) =
      .ok (if Z.wires.ws.isEmpty then .scalar else .comp Z.wires) := by
  rw [if_neg (by simpa using nX), if_neg (by simpa using nY)]
  show shift f (.comp X.wires) (.comp Y.wires) = _
  simp only [shift, h]

theorem rshift_hom {M : ℕ} {g : ℕ → Side × Bool × Int} {f : Nat → Nat} (hf : ∀ n, g (f n) = ((g n).1.swap, (g n).2)) (X Y Z : FComp)
    (x y : (Act × WithZero Act) × ((Int → Bi) × Sd)) (hx : RelV M g X x) (hy : RelV M g Y y) (h : X.rshift f Y = .ok Z) : RelV M g Z (x * y) := by
  obtain ⟨wX, iX, rX, pX⟩ := hx
  obtain ⟨wY, iY, rY, pY⟩ := hy
  obtain ⟨wZ, iZ, nX, nY, hw, hp⟩ := rshift_facts hf wX wY iX iY h
  have rZ := shiftStrict_hom .fock f _ _ _ _ _ rX rY (rshift_strict (M := M) nX nY hw)
  refine ⟨wZ, iZ, rZ, ?_⟩
  have lX := X.ker_local
  have lY := Y.ker_local
  have laX := adjK_local lX
  have laY := adjK_local lY
  -- sides of the result
  have rX' : Regular .fock X.wires := by
    rw [if_neg (by simpa using nX)] at rX
    exact rX.1
  have rY' : Regular .fock Y.wires := by
    rw [if_neg (by simpa using nY)] at rY
    exact rY.1
  have hop := (rshift_regular rX' rY' f hw).1
  have two : (OnSide X.wires .ket ∨ OnSide Y.wires .ket) → (OnSide X.wires .bra ∨ OnSide Y.wires .bra) → Z.wires.ws ≠ [] → Two Z.wires := by
    intro hk hb hne
    obtain ⟨w, hw'⟩ := List.exists_mem_of_ne_nil _ hne
    have hO : OpenAfter (fun _ => HasAny X.wires) (fun _ => HasAny Y.wires) .ket w.isOut w.mode := by
      cases hs : w.side with
      | ket => exact ((hop w.isOut w.mode).1.mp ⟨w, hw', by simp [Wire.slot, hs]⟩).2
      | bra => exact ((hop w.isOut w.mode).2.1.mp ⟨w, hw', by simp [Wire.slot, hs]⟩).2
      | classical => exact absurd hs (wZ.quantum w hw')
    exact ⟨⟨_, _, (hop _ _).1.mpr ⟨hk, hO⟩⟩, _, _, (hop _ _).2.1.mpr ⟨hb, hO⟩⟩
  rcases hp with ⟨h1, h2, h3⟩ | ⟨h1, h2, h3, h4, s, h5⟩ | ⟨h1, h2, h3, h4, s, h5⟩
  · rcases h3 with ⟨tX, tY⟩ | ⟨s, oX, oY⟩
    · -- both two-sided
      obtain ⟨a1, a2, _⟩ : x.1.1 = MulOpposite.op (X.ker.act M) ∧ x.1.2 = 0 ∧ _ := pX.resolve_right fun h => by
        obtain ⟨s, hs⟩ := h.2.2 nX
        exact not_two_one tX hs
      obtain ⟨b1, b2, _⟩ : y.1.1 = MulOpposite.op (Y.ker.act M) ∧ y.1.2 = 0 ∧ _ := pY.resolve_right fun h => by
        obtain ⟨s, hs⟩ := h.2.2 nY
        exact not_two_one tY hs
      refine Or.inl ⟨?_, ?_, two (Or.inl tX.1) (Or.inl tX.2)⟩
      · show x.1.1 * y.1.1 = _
        rw [a1, b1, h2, Ker.act_seq lX lY h1, MulOpposite.op_mul]
      · show x.1.2 * y.1.2 = 0
        rw [a2, zero_mul]
    · -- both on one side
      obtain ⟨a1, a2, _⟩ := pX.resolve_left fun h => not_two_one (h.2.2 nX) oX
      obtain ⟨b1, b2, _⟩ := pY.resolve_left fun h => not_two_one (h.2.2 nY) oY
      refine Or.inr ⟨?_, ?_, ?_⟩
      · show x.1.1 * y.1.1 = _
        have cm := (oneS_apart (M := M) oX oY).act_comm (M := M) lX laY
        have hc' : (adjK X.ker).Comp (adjK Y.ker) := by
          intro c
          have := h1 (swapC c)
          simp only [adjK, mem_image_swap]
          exact this
        rw [a1, b1, h2, adjK_seq, Ker.act_seq lX lY h1, Ker.act_seq laX laY hc', ← MulOpposite.op_mul]
        refine congrArg _ ?_
        exact Commute.mul_mul_mul_comm cm _ _
      · show x.1.2 * y.1.2 = _
        rw [a2, b2, h2, Ker.act_seq lX lY h1, MulOpposite.op_mul, WithZero.coe_mul]
      · intro hne
        obtain ⟨w, hw'⟩ := List.exists_mem_of_ne_nil _ hne
        have hside : ∀ t o m, Has Z.wires t o m → t = s := by
          intro t o m ht
          have hx := oX.2.2
          have hy := oY.2.2
          cases t with
          | ket =>
            rcases ((hop o m).1.mp ht).1 with ⟨o', m', h'⟩ | ⟨o', m', h'⟩
            · exact hx _ _ _ h'
            · exact hy _ _ _ h'
          | bra =>
            rcases ((hop o m).2.1.mp ht).1 with ⟨o', m', h'⟩ | ⟨o', m', h'⟩
            · exact hx _ _ _ h'
            · exact hy _ _ _ h'
          | classical => exact absurd ht (hop o m).2.2
        have hs := hside w.side w.isOut w.mode ⟨w, hw', rfl⟩
        exact ⟨s, ⟨w.isOut, w.mode, w, hw', by rw [← hs]; rfl⟩, oX.2.1, hside⟩
  · -- the left one is doubled
    obtain ⟨a1, a2, _⟩ := pX.resolve_left fun h => not_two_one (h.2.2 nX) h5
    obtain ⟨b1, b2, _⟩ : y.1.1 = MulOpposite.op (Y.ker.act M) ∧ y.1.2 = 0 ∧ _ := pY.resolve_right fun h => by
      obtain ⟨s, hs⟩ := h.2.2 nY
      exact not_two_one h4 hs
    refine Or.inl ⟨?_, ?_, two (Or.inr h4.1) (Or.inr h4.2)⟩
    · show x.1.1 * y.1.1 = _
      rw [a1, b1, h3, Ker.act_seq laX (Ker.seq_local lX lY) h2, Ker.act_seq lX lY h1, ← MulOpposite.op_mul, mul_assoc]
    · show x.1.2 * y.1.2 = 0
      rw [b2, mul_zero]
  · -- the right one is doubled
    obtain ⟨a1, a2, _⟩ : x.1.1 = MulOpposite.op (X.ker.act M) ∧ x.1.2 = 0 ∧ _ := pX.resolve_right fun h => by
      obtain ⟨s, hs⟩ := h.2.2 nX
      exact not_two_one h4 hs
    obtain ⟨b1, b2, _⟩ := pY.resolve_left fun h => not_two_one (h.2.2 nY) h5
    refine Or.inl ⟨?_, ?_, two (Or.inl h4.1) (Or.inl h4.2)⟩
    · show x.1.1 * y.1.1 = _
      rw [a1, b1, h3, Ker.act_seq (Ker.seq_local lX laY) lY h2, Ker.act_seq lX laY h1, ← MulOpposite.op_mul, mul_assoc]
    · show x.1.2 * y.1.2 = 0
      rw [a2, zero_mul]

theorem two_or_one {W : Wires} (h : Regular .fock W) : Two W ∨ ∃ s, OneS W s := by
  by_cases hk : OnSide W .ket
  · by_cases hb : OnSide W .bra
    · exact Or.inl ⟨hk, hb⟩
    · refine Or.inr ⟨.ket, hk, by simp, fun t o m ht => ?_⟩
      cases t with
      | ket => rfl
      | bra => exact absurd ⟨o, m, ht⟩ hb
      | classical => exact absurd ht (no_classical h.quantum o m)
  · have hb := (regular_someSide h).resolve_left hk
    refine Or.inr ⟨.bra, hb, by simp, fun t o m ht => ?_⟩
    cases t with
    | ket => exact absurd ⟨o, m, ht⟩ hk
    | bra => rfl
    | classical => exact absurd ht (no_classical h.quantum o m)

theorem relV_of {M : ℕ} {g : ℕ → Side × Bool × Int} {X : FComp} (wX : X.WF M) (iX : IdOk g X.wires) (rX : Regular .fock X.wires) : ∃ x, RelV M g X x := by
  have hr : Rel .fock (if X.wires.ws.isEmpty then .scalar else .comp X.wires) (den X.wires, sides X.wires) := by
    rw [if_neg (by simpa using rX.nonempty)]
    exact ⟨rX, rfl, rfl⟩
  rcases two_or_one rX with h | h
  · exact ⟨((MulOpposite.op (X.ker.act M), 0), (den X.wires, sides X.wires)), wX, iX, hr, Or.inl ⟨rfl, rfl, fun _ => h⟩⟩
  · exact ⟨((MulOpposite.op (X.ker.act M * (adjK X.ker).act M), (MulOpposite.op (X.ker.act M) : Act)), (den X.wires, sides X.wires)), wX, iX, hr,
      Or.inr ⟨rfl, rfl, fun _ => h⟩⟩

theorem relV_sameOpen {M : ℕ} {g : ℕ → Side × Bool × Int} {X Y : FComp} {x : (Act × WithZero Act) × ((Int → Bi) × Sd)} (hX : RelV M g X x) (hY : RelV M g Y x) :
    ∀ s o m, Has X.wires s o m ↔ Has Y.wires s o m := by
  obtain ⟨_, _, e, _⟩ := hX
  obtain ⟨_, _, e', _⟩ := hY
  have hsame := rel_sameOpen .fock _ _ _ e e'
  by_cases nX : X.wires.ws = [] <;> by_cases nY : Y.wires.ws = []
  · intro s o m
    simp [Has, nX, nY]
  · rw [if_pos (by simpa using nX), if_neg (by simpa using nY)] at hsame
    exact hsame.elim
  · rw [if_neg (by simpa using nX), if_pos (by simpa using nY)] at hsame
    exact hsame.elim
  · rw [if_neg (by simpa using nX), if_neg (by simpa using nY)] at hsame
    exact hsame

theorem relV_ker {M : ℕ} {g : ℕ → Side × Bool × Int} {X Y : FComp} {x : (Act × WithZero Act) × ((Int → Bi) × Sd)} (hX : RelV M g X x) (hY : RelV M g Y x) :
    X.ker = Y.ker := by
  have ho := relV_sameOpen hX hY
  obtain ⟨wX, _, _, pX⟩ := hX
  obtain ⟨wY, _, _, pY⟩ := hY
  have hact : X.ker.act M = Y.ker.act M := by
    rcases pX with ⟨a1, a2, _⟩ | ⟨a1, a2, _⟩ <;> rcases pY with ⟨b1, b2, _⟩ | ⟨b1, b2, _⟩
    · exact MulOpposite.op_injective (a1.symm.trans b1)
    · exact absurd (b2.symm.trans a2) WithZero.coe_ne_zero
    · exact absurd (a2.symm.trans b2) WithZero.coe_ne_zero
    · exact MulOpposite.op_injective (WithZero.coe_inj.mp (a2.symm.trans b2))
  refine Ker.eq_of_act X.ker_local Y.ker_local (FComp.ker_below wX) (FComp.ker_below wY) ?_ ?_ hact
  · ext ⟨s, m⟩
    cases s <;> simp only [FComp.mem_outs, ho]
  · ext ⟨s, m⟩
    cases s <;> simp only [FComp.mem_ins, ho]

/-- **C88** (circuits) for every circuit of Fock components, all contractions along paths that merge neighbouring segments and that return, return components with
the same open wires and the same operator: the order of the pairwise contractions is not observable in the numbers either. -/
theorem C88_paths {M : ℕ} {g : ℕ → Side × Bool × Int} {f : Nat → Nat} (hf : ∀ n, g (f n) = ((g n).1.swap, (g n).2)) (Xs : List FComp)
    (hX : ∀ X ∈ Xs, X.WF M ∧ IdOk g X.wires ∧ Regular .fock X.wires) (p p' : List (ℕ × ℕ)) (hp : NeighbourPath (List.range Xs.length) p)
    (hp' : NeighbourPath (List.range Xs.length) p') (r r' : FComp) (h : Circuits.contract (FComp.rshift f) Xs p = .ok r)
    (h' : Circuits.contract (FComp.rshift f) Xs p' = .ok r') : r.ker = r'.ker ∧ ∀ s o m, Has r.wires s o m ↔ Has r'.wires s o m := by
  have hrel : ∃ xs, List.Forall₂ (RelV M g) Xs xs := by
    clear hp hp' h h'
    induction Xs with
    | nil => exact ⟨[], .nil⟩
    | cons X Xs ih =>
      obtain ⟨xs, hxs⟩ := ih fun Y hY => hX Y (List.mem_cons_of_mem _ hY)
      obtain ⟨h1, h2, h3⟩ := hX X List.mem_cons_self
      obtain ⟨x, hx⟩ := relV_of h1 h2 h3
      exact ⟨x :: xs, .cons hx hxs⟩
  obtain ⟨xs, hrel⟩ := hrel
  have e := contract_neighbour (FComp.rshift f) (RelV M g) (rshift_hom hf) _ _ hrel p hp r h
  have e' := contract_neighbour (FComp.rshift f) (RelV M g) (rshift_hom hf) _ _ hrel p' hp' r' h'
  exact ⟨relV_ker e e', relV_sameOpen e e'⟩

end Verif.CompV
