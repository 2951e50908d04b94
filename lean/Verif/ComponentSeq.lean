import Verif.ComponentContract

/-!
# `contract` of Fock components composes the operators (C88)
-/

namespace Verif.CompV

open Verif.WireModel Verif.Arr Verif.Fock Verif.PolyExp

theorem Ker.ext' {C : Type*} {A B : Ker C} (h1 : A.outs = B.outs) (h2 : A.ins = B.ins) (h3 : ∀ o i, A.fn o i = B.fn o i) : A = B := by
  cases A
  cases B
  simp only at h1 h2 h3
  subst h1 h2
  congr
  funext o i
  exact h3 o i

theorem getD_le {l : List ℕ} {M : ℕ} (h : ∀ d ∈ l, d ≤ M) (n : ℕ) : l.getD n 0 ≤ M := by
  rw [List.getD_eq_getElem?_getD]
  cases e : l[n]? with
  | none => simp
  | some d => simpa using h d (List.mem_of_getElem? e)

/-- The wire with a label. -/
def wireAt (ws : List Wire) (lbl : List Nat) : Lab → Wire
  | .int n => ws.getD (lbl.idxOf n) default
  | .str _ => default

theorem wireAt_eq {ws : List Wire} {lbl : List Nat} (hn : lbl.Nodup) {i n : ℕ} {a : Wire} (h1 : lbl[i]? = some n) (h2 : ws[i]? = some a) :
    wireAt ws lbl (.int n) = a := by
  unfold wireAt
  dsimp only
  obtain ⟨hi, rfl⟩ := List.getElem?_eq_some_iff.mp h1
  rw [hn.idxOf_getElem i hi, List.getD_eq_getElem?_getD, h2]
  rfl

theorem mem_int {l : List ℕ} {n : ℕ} : Lab.int n ∈ l.map Lab.int ↔ n ∈ l := by
  rw [List.mem_map]
  constructor
  · rintro ⟨m, hm, e⟩
    cases e
    exact hm
  · intro h
    exact ⟨n, h, rfl⟩

theorem nodup_int {l : List ℕ} (h : l.Nodup) : (l.map Lab.int).Nodup := h.map fun _ _ e => by cases e; rfl

/-- **C88** (`contract`) the component returned by `contract` is defined exactly when no wire would be open twice; its operator is the composition of the operators:
outputs of the first are joined to the inputs of the second on the same side and mode, and the photon numbers on them are summed. -/
theorem contract_ker {M : ℕ} {X Y : FComp} (hX : X.WF M) (hY : Y.WF M) :
    (¬ Composable X.wires Y.wires → X.contract Y = none) ∧
    (Composable X.wires Y.wires → ∃ Z, X.contract Y = some Z ∧ matmulWires X.wires Y.wires = .ok Z.wires ∧ Z.arr.batchDims = 0 ∧
      Z.arr.shape.length = Z.wires.len ∧ (∀ d ∈ Z.arr.shape, d ≤ M) ∧ Z.ker = Ker.seq M X.ker Y.ker) := by
  have hs := sameRepr_of hX hY
  have hm := C02_matmul_open_wires X.wires Y.wires hX.good.distinct hY.good.distinct hX.good.inRange hY.good.inRange hs
  constructor
  · intro hc
    have e := hm.2 hc
    unfold FComp.contract matmul
    rw [e]
    rfl
  intro hc
  obtain ⟨R, hR, gR, hopen⟩ := hm.1 hc
  obtain ⟨perm, hperm⟩ := matmul_quantum hX.quantum hY.quantum hR
  obtain ⟨lA, lB, out, hl, nA, nB, dA, dB, hpair, nO, dO, hout⟩ := labels_spec hX hY hR
  -- labels and wires
  have posA : ∀ n ∈ lA, ∃ (i : ℕ) (a : Wire), lA[i]? = some n ∧ X.wires.sortedWires[i]? = some a := by
    intro n hn
    obtain ⟨i, hi, rfl⟩ := List.mem_iff_getElem.mp hn
    have : i < X.wires.sortedWires.length := by rw [length_sortedWires, ← nA]; exact hi
    exact ⟨i, _, List.getElem?_eq_getElem hi, List.getElem?_eq_getElem this⟩
  have posB : ∀ n ∈ lB, ∃ (i : ℕ) (a : Wire), lB[i]? = some n ∧ Y.wires.sortedWires[i]? = some a := by
    intro n hn
    obtain ⟨i, hi, rfl⟩ := List.mem_iff_getElem.mp hn
    have : i < Y.wires.sortedWires.length := by rw [length_sortedWires, ← nB]; exact hi
    exact ⟨i, _, List.getElem?_eq_getElem hi, List.getElem?_eq_getElem this⟩
  have posO : ∀ n ∈ out, ∃ (k : ℕ) (w : Wire), out[k]? = some n ∧ R.sortedWires[k]? = some w := by
    intro n hn
    obtain ⟨i, hi, rfl⟩ := List.mem_iff_getElem.mp hn
    have : i < R.sortedWires.length := by rw [length_sortedWires, ← nO]; exact hi
    exact ⟨i, _, List.getElem?_eq_getElem hi, List.getElem?_eq_getElem this⟩
  have ltA : ∀ {i : ℕ} {a : Wire}, X.wires.sortedWires[i]? = some a → i < X.wires.len := by
    intro i a h
    have := (List.getElem?_eq_some_iff.mp h).1
    rwa [length_sortedWires] at this
  have ltB : ∀ {i : ℕ} {a : Wire}, Y.wires.sortedWires[i]? = some a → i < Y.wires.len := by
    intro i a h
    have := (List.getElem?_eq_some_iff.mp h).1
    rwa [length_sortedWires] at this
  have injA : ∀ {i j n : ℕ}, lA[i]? = some n → lA[j]? = some n → i = j := by
    intro i j n h1 h2
    exact (List.Nodup.getElem_inj_iff dA (hi := (List.getElem?_eq_some_iff.mp h1).1) (hj := (List.getElem?_eq_some_iff.mp h2).1)).mp
      ((List.getElem?_eq_some_iff.mp h1).2.trans (List.getElem?_eq_some_iff.mp h2).2.symm)
  have injB : ∀ {i j n : ℕ}, lB[i]? = some n → lB[j]? = some n → i = j := by
    intro i j n h1 h2
    exact (List.Nodup.getElem_inj_iff dB (hi := (List.getElem?_eq_some_iff.mp h1).1) (hj := (List.getElem?_eq_some_iff.mp h2).1)).mp
      ((List.getElem?_eq_some_iff.mp h1).2.trans (List.getElem?_eq_some_iff.mp h2).2.symm)
  have memA : ∀ {i : ℕ} {a : Wire}, X.wires.sortedWires[i]? = some a → a ∈ X.wires.ws := fun h => mem_sortedWires.mp (List.mem_of_getElem? h)
  have memB : ∀ {i : ℕ} {a : Wire}, Y.wires.sortedWires[i]? = some a → a ∈ Y.wires.ws := fun h => mem_sortedWires.mp (List.mem_of_getElem? h)
  have pairL : ∀ {i j : ℕ} {a b : Wire}, X.wires.sortedWires[i]? = some a → Y.wires.sortedWires[j]? = some b → ContractedPair X.wires Y.wires i j →
      a.isOut = true ∧ b.isOut = false ∧ a.side = b.side ∧ a.mode = b.mode := by
    rintro i j a b ha hb ⟨a', b', ha', hb', h1, h2, h3, _, h5⟩
    rw [ha] at ha'
    rw [hb] at hb'
    cases ha'
    cases hb'
    exact ⟨h1, h2, h3, h5⟩
  have notKeepL : ∀ {i j : ℕ} {a b : Wire}, X.wires.sortedWires[i]? = some a → Y.wires.sortedWires[j]? = some b → ContractedPair X.wires Y.wires i j →
      ¬ KeepL Y.wires a ∧ ¬ KeepR X.wires b := by
    intro i j a b ha hb h
    obtain ⟨h1, h2, h3, h4⟩ := pairL ha hb h
    constructor
    · intro hk
      exact hk h1 ⟨b, memB hb, by simp [Wire.slot, h2, h3, h4]⟩
    · intro hk
      exact hk h2 ⟨a, memA ha, by simp [Wire.slot, h1, h3, h4]⟩
  have pairOfL : ∀ {i : ℕ} {a : Wire}, X.wires.sortedWires[i]? = some a → ¬ KeepL Y.wires a → a.isOut = true ∧ ∃ (j : ℕ) (b : Wire), Y.wires.sortedWires[j]? = some b ∧
      ContractedPair X.wires Y.wires i j := by
    intro i a ha hk
    unfold KeepL at hk
    push Not at hk
    obtain ⟨ho, b, hb, e⟩ := hk
    obtain ⟨j, hj⟩ := List.mem_iff_getElem?.mp (mem_sortedWires.mpr hb)
    simp only [Wire.slot, Prod.mk.injEq] at e
    exact ⟨ho, j, b, hj, a, b, ha, hj, ho, e.2.1, e.1.symm, hX.quantum a (memA ha), e.2.2.symm⟩
  have pairOfR : ∀ {j : ℕ} {b : Wire}, Y.wires.sortedWires[j]? = some b → ¬ KeepR X.wires b → b.isOut = false ∧ ∃ (i : ℕ) (a : Wire), X.wires.sortedWires[i]? = some a ∧
      ContractedPair X.wires Y.wires i j := by
    intro j b hb hk
    unfold KeepR at hk
    push Not at hk
    obtain ⟨ho, a, ha, e⟩ := hk
    obtain ⟨i, hi⟩ := List.mem_iff_getElem?.mp (mem_sortedWires.mpr ha)
    simp only [Wire.slot, Prod.mk.injEq] at e
    exact ⟨ho, i, a, hi, a, b, hi, hb, e.2.1, ho, e.1, hX.quantum a ha, e.2.2⟩
  -- an open wire of the result
  have openW : ∀ w : Wire, (w ∈ X.wires.ws ∧ KeepL Y.wires w) ∨ (w ∈ Y.wires.ws ∧ KeepR X.wires w) → ∃ (k : ℕ) (w' : Wire), R.sortedWires[k]? = some w' ∧ w'.slot = w.slot := by
    intro w hw
    have : Has R w.side w.isOut w.mode := by
      rcases hw with ⟨hw, hk⟩ | ⟨hw, hk⟩
      · cases ho : w.isOut
        · exact (hopen _ _).2.mpr (Or.inl ⟨w, hw, by simp [Wire.slot, ho]⟩)
        · exact (hopen _ _).1.mpr (Or.inr ⟨⟨w, hw, by simp [Wire.slot, ho]⟩, hk ho⟩)
      · cases ho : w.isOut
        · exact (hopen _ _).2.mpr (Or.inr ⟨⟨w, hw, by simp [Wire.slot, ho]⟩, hk ho⟩)
        · exact (hopen _ _).1.mpr (Or.inl ⟨w, hw, by simp [Wire.slot, ho]⟩)
    obtain ⟨w', hw', e⟩ := this
    obtain ⟨k, hk⟩ := List.mem_iff_getElem?.mp (mem_sortedWires.mpr hw')
    exact ⟨k, w', hk, e⟩
  have clash : ∀ {a b : Wire}, a ∈ X.wires.ws → b ∈ Y.wires.ws → KeepL Y.wires a → KeepR X.wires b → a.slot ≠ b.slot := by
    intro a b ha hb ka kb e
    have e' := e
    simp only [Wire.slot, Prod.mk.injEq] at e'
    have hcc := hc a.side a.mode
    cases ho : a.isOut
    · rw [ho] at e'
      have hna := kb e'.2.1.symm
      rw [← e'.1, ← e'.2.2] at hna
      exact hcc.2 ⟨⟨a, ha, by simp [Wire.slot, ho]⟩, ⟨b, hb, by rw [← e]; simp [Wire.slot, ho]⟩, hna⟩
    · exact hcc.1 ⟨⟨b, hb, by rw [← e]; simp [Wire.slot, ho]⟩, ⟨a, ha, by simp [Wire.slot, ho]⟩, ka ho⟩
  have outA : ∀ {i n : ℕ} {a : Wire}, X.wires.sortedWires[i]? = some a → lA[i]? = some n → (n ∈ out ↔ KeepL Y.wires a) := by
    intro i n a ha hn
    constructor
    · intro h
      obtain ⟨k, w, h1, h2⟩ := posO n h
      rcases hout k w h2 with ⟨i', a', h3, h4, h5, h6⟩ | ⟨j, b, h3, h4, h5, h6⟩
      · rw [h1] at h6
        have := injA hn h6.symm
        subst this
        rw [ha] at h3
        cases h3
        exact h4
      · rw [h1] at h6
        exact absurd h4 (notKeepL ha h3 ((hpair i j (ltA ha) (ltB h3)).mp (hn.trans h6))).2
    · intro hk
      obtain ⟨k, w, hw, e⟩ := openW a (Or.inl ⟨memA ha, hk⟩)
      rcases hout k w hw with ⟨i', a', h3, h4, h5, h6⟩ | ⟨j, b, h3, h4, h5, h6⟩
      · have : a' = a := hX.good.distinct.inj (memA h3) (memA ha) ((congrArg Prod.fst h5).trans e)
        subst this
        have : i' = i := by
          have n1 := hX.good.index_of_getElem? h3
          have n2 := hX.good.index_of_getElem? ha
          rw [← n1.2, ← n2.2]
        subst this
        rw [hn] at h6
        exact List.mem_of_getElem? h6
      · exact absurd (e.symm.trans (congrArg Prod.fst h5).symm) (clash (memA ha) (memB h3) hk h4)
  have outB : ∀ {j n : ℕ} {b : Wire}, Y.wires.sortedWires[j]? = some b → lB[j]? = some n → (n ∈ out ↔ KeepR X.wires b) := by
    intro j n b hb hn
    constructor
    · intro h
      obtain ⟨k, w, h1, h2⟩ := posO n h
      rcases hout k w h2 with ⟨i, a, h3, h4, h5, h6⟩ | ⟨j', b', h3, h4, h5, h6⟩
      · rw [h1] at h6
        exact absurd h4 (notKeepL h3 hb ((hpair i j (ltA h3) (ltB hb)).mp (h6.symm.trans hn.symm))).1
      · rw [h1] at h6
        have := injB hn h6.symm
        subst this
        rw [hb] at h3
        cases h3
        exact h4
    · intro hk
      obtain ⟨k, w, hw, e⟩ := openW b (Or.inr ⟨memB hb, hk⟩)
      rcases hout k w hw with ⟨i, a, h3, h4, h5, h6⟩ | ⟨j', b', h3, h4, h5, h6⟩
      · exact absurd ((congrArg Prod.fst h5).trans e) (clash (memA h3) (memB hb) h4 hk)
      · have : b' = b := hY.good.distinct.inj (memB h3) (memB hb) ((congrArg Prod.fst h5).trans e)
        subst this
        have : j' = j := by
          have n1 := hY.good.index_of_getElem? h3
          have n2 := hY.good.index_of_getElem? hb
          rw [← n1.2, ← n2.2]
        subst this
        rw [hn] at h6
        exact List.mem_of_getElem? h6
  have getA : ∀ {i : ℕ} {a : Wire}, X.wires.sortedWires[i]? = some a → ∃ n : ℕ, lA[i]? = some n := by
    intro i a h
    have := ltA h
    rw [← nA] at this
    exact ⟨_, List.getElem?_eq_getElem this⟩
  have getB : ∀ {i : ℕ} {a : Wire}, Y.wires.sortedWires[i]? = some a → ∃ n : ℕ, lB[i]? = some n := by
    intro i a h
    have := ltB h
    rw [← nB] at this
    exact ⟨_, List.getElem?_eq_getElem this⟩
  -- the array
  obtain ⟨r, hr⟩ : ∃ r, Verif.Arr.contract X.arr Y.arr (lA.map Lab.int) (lB.map Lab.int) (out.map Lab.int) = some r := by
    unfold Verif.Arr.contract
    rw [if_neg, if_neg, if_neg]
    · exact ⟨_, rfl⟩
    · rw [not_not]
      exact ⟨nodup_int dA, nodup_int dB, nodup_int dO⟩
    · rw [not_not]
      intro l hl
      obtain ⟨n, hn, rfl⟩ := List.mem_map.mp hl
      rw [List.mem_append, mem_int, mem_int]
      obtain ⟨k, w, h1, h2⟩ := posO n hn
      rcases hout k w h2 with ⟨i, a, _, _, _, h6⟩ | ⟨i, a, _, _, _, h6⟩
      · rw [h1] at h6
        exact Or.inl (List.mem_of_getElem? h6.symm)
      · rw [h1] at h6
        exact Or.inr (List.mem_of_getElem? h6.symm)
    · rw [not_or, not_not, not_not, List.length_map, List.length_map, nA, nB, hX.axes, hY.axes]
      exact ⟨rfl, rfl⟩
  have hcd : ∀ l, cdim X.arr Y.arr (lA.map Lab.int) (lB.map Lab.int) l ≤ M := by
    intro l
    have h1 : dimIn (lA.map Lab.int) X.arr.shape l ≤ M := getD_le hX.dims _
    have h2 : dimIn (lB.map Lab.int) Y.arr.shape l ≤ M := getD_le hY.dims _
    unfold cdim
    split_ifs
    · exact (min_le_left _ _).trans h1
    · exact h1
    · exact h2
  have hval := contract_val hr (fun _ => M) fun l _ => hcd l
  have hrs : r.batchDims = 0 ∧ r.shape = (out.map Lab.int).map (cdim X.arr Y.arr (lA.map Lab.int) (lB.map Lab.int)) := by
    unfold Verif.Arr.contract at hr
    split_ifs at hr
    cases hr
    refine ⟨?_, rfl⟩
    show (strs (out.map Lab.int)).length = 0
    rw [List.length_eq_zero_iff]
    unfold strs
    rw [List.filter_eq_nil_iff]
    intro l hl
    obtain ⟨n, _, rfl⟩ := List.mem_map.mp hl
    simp [Lab.isStr]
  refine ⟨⟨R, r⟩, ?_, hR, hrs.1, ?_, ?_, ?_⟩
  · unfold FComp.contract
    rw [hperm]
    dsimp only
    rw [hl]
    simp only [Option.bind_eq_bind, Option.bind_some]
    rw [hr]
    rfl
  · show r.shape.length = R.len
    rw [hrs.2, List.length_map, List.length_map, nO]
  · intro d hd
    have hd' : d ∈ r.shape := hd
    rw [hrs.2] at hd'
    obtain ⟨l, _, rfl⟩ := List.mem_map.mp hd'
    exact hcd l
  have hO : (FComp.mk R r).ker.outs = (Ker.seq M X.ker Y.ker).outs := by
    ext ⟨s, m⟩
    show (s, m) ∈ _ ↔ (s, m) ∈ Y.ker.outs ∪ (X.ker.outs \ Y.ker.ins)
    rw [FComp.mem_outs, Finset.mem_union, Finset.mem_sdiff, FComp.mem_outs, FComp.mem_outs, FComp.mem_ins]
    exact (hopen s m).1
  have hI : (FComp.mk R r).ker.ins = (Ker.seq M X.ker Y.ker).ins := by
    ext ⟨s, m⟩
    show (s, m) ∈ _ ↔ (s, m) ∈ X.ker.ins ∪ (Y.ker.ins \ X.ker.outs)
    rw [FComp.mem_ins, Finset.mem_union, Finset.mem_sdiff, FComp.mem_ins, FComp.mem_ins, FComp.mem_outs]
    exact (hopen s m).2
  refine Ker.ext' hO hI fun o i => ?_
  obtain ⟨T, hT⟩ : ∃ T, T = X.ker.outs ∩ Y.ker.ins := ⟨_, rfl⟩
  have memT : ∀ {s m}, (s, m) ∈ T ↔ Has X.wires s true m ∧ Has Y.wires s false m := by
    intro s m
    rw [hT, Finset.mem_inter, FComp.mem_outs, FComp.mem_ins]
  obtain ⟨S, hS⟩ : ∃ S, S = summed (lA.map Lab.int) (lB.map Lab.int) (out.map Lab.int) := ⟨_, rfl⟩
  -- the summed labels are those of the contracted wires
  have memS : ∀ l, l ∈ S ↔ ∃ (n i : ℕ) (a : Wire), l = Lab.int n ∧ lA[i]? = some n ∧ X.wires.sortedWires[i]? = some a ∧ ¬ KeepL Y.wires a := by
    intro l
    rw [hS, mem_summed]
    constructor
    · rintro ⟨h1, h2⟩
      rcases h1 with h1 | h1
      · obtain ⟨n, hn, rfl⟩ := List.mem_map.mp h1
        obtain ⟨i, a, e1, e2⟩ := posA n hn
        rw [mem_int, outA e2 e1] at h2
        exact ⟨n, i, a, rfl, e1, e2, h2⟩
      · obtain ⟨n, hn, rfl⟩ := List.mem_map.mp h1
        obtain ⟨j, b, e1, e2⟩ := posB n hn
        rw [mem_int, outB e2 e1] at h2
        obtain ⟨_, i, a, h3, h4⟩ := pairOfR e2 h2
        have := (hpair i j (ltA h3) (ltB e2)).mpr h4
        exact ⟨n, i, a, rfl, this.trans e1, h3, (notKeepL h3 e2 h4).1⟩
    · rintro ⟨n, i, a, rfl, e1, e2, hk⟩
      rw [mem_int, mem_int, mem_int, outA e2 e1]
      exact ⟨Or.inl (List.mem_of_getElem? e1), hk⟩
  obtain ⟨e, he⟩ : ∃ e : Lab → Chan, e = fun l => wchan (wireAt X.wires.sortedWires lA l) := ⟨_, rfl⟩
  have he' : ∀ {i n : ℕ} {a : Wire}, lA[i]? = some n → X.wires.sortedWires[i]? = some a → e (Lab.int n) = wchan a := by
    intro i n a h1 h2
    rw [he]
    dsimp only
    rw [wireAt_eq dA h1 h2]
  have hSe : (S.map e).Nodup := by
    refine List.Nodup.map_on ?_ (hS ▸ nodup_summed (nodup_int dA) (nodup_int dB))
    intro l hl l' hl' ee
    obtain ⟨n, i, a, rfl, e1, e2, hk⟩ := (memS _).mp hl
    obtain ⟨n', i', a', rfl, e1', e2', hk'⟩ := (memS _).mp hl'
    rw [he' e1 e2, he' e1' e2'] at ee
    have : a = a' := by
      refine hX.good.distinct.inj (memA e2) (memA e2') ?_
      simp only [wchan, Prod.mk.injEq] at ee
      simp only [Wire.slot, (pairOfL e2 hk).1, (pairOfL e2' hk').1, ee.1, ee.2]
    subst this
    have hii : i = i' := by
      have n1 := hX.good.index_of_getElem? e2
      have n2 := hX.good.index_of_getElem? e2'
      rw [← n1.2, ← n2.2]
    subst hii
    rw [e1] at e1'
    cases e1'
    rfl
  have hST : (S.map e).toFinset = T := by
    ext ⟨s, m⟩
    rw [List.mem_toFinset, List.mem_map, memT]
    constructor
    · rintro ⟨l, hl, ee⟩
      obtain ⟨n, i, a, rfl, e1, e2, hk⟩ := (memS _).mp hl
      rw [he' e1 e2] at ee
      simp only [wchan, Prod.mk.injEq] at ee
      obtain ⟨ho, _⟩ := pairOfL e2 hk
      unfold KeepL at hk
      push Not at hk
      rw [← ee.1, ← ee.2]
      exact ⟨⟨a, memA e2, by simp [Wire.slot, ho]⟩, hk.2⟩
    · rintro ⟨⟨a, ha, h1⟩, h2⟩
      obtain ⟨i, hi⟩ := List.mem_iff_getElem?.mp (mem_sortedWires.mpr ha)
      obtain ⟨n, hn⟩ := getA hi
      simp only [Wire.slot, Prod.mk.injEq] at h1
      refine ⟨Lab.int n, (memS _).mpr ⟨n, i, a, rfl, hn, hi, fun hk => hk h1.2.1 ?_⟩, ?_⟩
      · rw [h1.1, h1.2.2]
        exact h2
      · rw [he' hn hi]
        simp only [wchan, h1.1, h1.2.2]
  obtain ⟨σ, hσ⟩ : ∃ σ : Lab → ℕ, σ = fun l => if l ∈ lA.map Lab.int then slotVal o i (wireAt X.wires.sortedWires lA l)
    else slotVal o i (wireAt Y.wires.sortedWires lB l) := ⟨_, rfl⟩
  have σA : ∀ {k n : ℕ} {a : Wire}, lA[k]? = some n → X.wires.sortedWires[k]? = some a → σ (Lab.int n) = slotVal o i a := by
    intro k n a h1 h2
    rw [hσ]
    dsimp only
    rw [if_pos (mem_int.mpr (List.mem_of_getElem? h1)), wireAt_eq dA h1 h2]
  have σB : ∀ {k n : ℕ} {b : Wire}, lB[k]? = some n → Y.wires.sortedWires[k]? = some b → KeepR X.wires b → σ (Lab.int n) = slotVal o i b := by
    intro k n b h1 h2 hk
    rw [hσ]
    dsimp only
    rw [if_neg, wireAt_eq dB h1 h2]
    intro h
    obtain ⟨i', a, h3, h4⟩ := posA n (mem_int.mp h)
    exact (notKeepL h4 h2 ((hpair i' k (ltA h4) (ltB h2)).mp (h3.trans h1.symm))).2 hk
  have slotVal_core : ∀ {o i : Chan → ℕ} {v w : Wire}, v.core = w.core → slotVal o i v = slotVal o i w := by
    intro o i v w h
    have := congrArg Prod.fst h
    simp only [Wire.core, Wire.slot, Prod.mk.injEq] at this
    unfold slotVal wchan
    rw [this.1, this.2.1, this.2.2]
  have hout' : (out.map Lab.int).map σ = R.sortedWires.map (slotVal o i) := by
    refine List.ext_getElem? fun k => ?_
    rw [List.getElem?_map, List.getElem?_map, List.getElem?_map]
    cases hw : R.sortedWires[k]? with
    | none =>
      rw [List.getElem?_eq_none_iff, length_sortedWires, ← nO] at hw
      rw [List.getElem?_eq_none_iff.mpr hw]
      rfl
    | some w =>
      rcases hout k w hw with ⟨i', a, h3, h4, h5, h6⟩ | ⟨j, b, h3, h4, h5, h6⟩
      · obtain ⟨n, hn⟩ := getA h3
        rw [h6, hn]
        simp only [Option.map_some]
        rw [σA hn h3, slotVal_core h5]
      · obtain ⟨n, hn⟩ := getB h3
        rw [h6, hn]
        simp only [Option.map_some]
        rw [σB hn h3 h4, slotVal_core h5]
  show r.entry (R.sortedWires.map (slotVal o i)) = tot M (X.ker.outs ∩ Y.ker.ins) fun z =>
    X.arr.entry (X.wires.sortedWires.map (slotVal (over (X.ker.outs ∩ Y.ker.ins) z o) i)) *
      Y.arr.entry (Y.wires.sortedWires.map (slotVal o (over (X.ker.outs ∩ Y.ker.ins) z i)))
  rw [← hout', hval σ, ← hS, sumOver_tot M e _ S σ hSe, hST, ← hT]
  refine tot_congr fun z _ _ => ?_
  have hA : (lA.map Lab.int).map (fun l => if l ∈ S then z (e l) else σ l) = X.wires.sortedWires.map (slotVal (over T z o) i) := by
    refine List.ext_getElem? fun k => ?_
    rw [List.getElem?_map, List.getElem?_map, List.getElem?_map]
    cases hw : X.wires.sortedWires[k]? with
    | none =>
      rw [List.getElem?_eq_none_iff, length_sortedWires, ← nA] at hw
      rw [List.getElem?_eq_none_iff.mpr hw]
      rfl
    | some a =>
      obtain ⟨n, hn⟩ := getA hw
      rw [hn]
      simp only [Option.map_some]
      refine congrArg some ?_
      by_cases hk : KeepL Y.wires a
      · rw [if_neg, σA hn hw]
        · unfold slotVal over
          by_cases ho : a.isOut = true
          · rw [if_pos ho, if_pos ho, if_neg]
            exact fun h => hk ho (memT.mp h).2
          · rw [if_neg ho, if_neg ho]
        · intro h
          rw [hS, mem_summed, mem_int, mem_int, mem_int, outA hw hn] at h
          exact h.2 hk
      · obtain ⟨ho, _⟩ := pairOfL hw hk
        rw [if_pos ((memS _).mpr ⟨n, k, a, rfl, hn, hw, hk⟩), he' hn hw]
        unfold slotVal over
        unfold KeepL at hk
        push Not at hk
        rw [if_pos ho]
        exact (if_pos (memT.mpr ⟨⟨a, memA hw, by simp [Wire.slot, ho]⟩, hk.2⟩)).symm
  have hB : (lB.map Lab.int).map (fun l => if l ∈ S then z (e l) else σ l) = Y.wires.sortedWires.map (slotVal o (over T z i)) := by
    refine List.ext_getElem? fun k => ?_
    rw [List.getElem?_map, List.getElem?_map, List.getElem?_map]
    cases hw : Y.wires.sortedWires[k]? with
    | none =>
      rw [List.getElem?_eq_none_iff, length_sortedWires, ← nB] at hw
      rw [List.getElem?_eq_none_iff.mpr hw]
      rfl
    | some b =>
      obtain ⟨n, hn⟩ := getB hw
      rw [hn]
      simp only [Option.map_some]
      refine congrArg some ?_
      by_cases hk : KeepR X.wires b
      · rw [if_neg, σB hn hw hk]
        · unfold slotVal over
          by_cases ho : b.isOut = true
          · rw [if_pos ho, if_pos ho]
          · rw [if_neg ho, if_neg ho, if_neg]
            exact fun h => hk (by simpa using ho) (memT.mp h).1
        · intro h
          rw [hS, mem_summed, mem_int, mem_int, mem_int, outB hw hn] at h
          exact h.2 hk
      · obtain ⟨ho, i', a, h3, h4⟩ := pairOfR hw hk
        have h5 := ((hpair i' k (ltA h3) (ltB hw)).mpr h4).trans hn
        have h6 := pairL h3 hw h4
        rw [if_pos ((memS _).mpr ⟨n, i', a, rfl, h5, h3, (notKeepL h3 hw h4).1⟩), he' h5 h3]
        have e6 : wchan a = wchan b := by simp only [wchan, h6.2.2.1, h6.2.2.2]
        rw [e6]
        unfold slotVal over
        unfold KeepR at hk
        push Not at hk
        rw [if_neg (by simp [ho])]
        exact (if_pos (memT.mpr ⟨hk.2, ⟨b, memB hw, by simp [Wire.slot, ho]⟩⟩)).symm
  rw [hA, hB]

end Verif.CompV
