import Verif.Mixed

/-!
# Contraction across representations (C111)
-/

namespace Verif.Mixed
open Verif.Fock Verif.Batch Verif.PolyExp PolyExp Verif.Arr Verif.Arr.Arr Verif.ToBargmann Verif.Triples

/-- What `contract` returns: a Bargmann ansatz (or infinities), or an array. -/
inductive Out
  | bargmann (r : Res)
  | fock (r : Arr)

/-- lab/circuit_components.py:450-456: the sizes of the shared axes of both operands are raised to the larger one, pair by pair. -/
def raise (c1 c2 : List ℕ) (s1 s2 : List ℕ) : List ℕ × List ℕ :=
  (c1.filter (· ∈ c2)).foldl (fun st l =>
    let m := max (st.1.getD (c1.idxOf l) 0) (st.2.getD (c2.idxOf l) 0)
    (st.1.set (c1.idxOf l) m, st.2.set (c2.idxOf l) m)) (s1, s2)

/-- lab/circuit_components.py:445-486 `CircuitComponent.contract` of an array `a` with a Bargmann ansatz `g`, without batches; `dflt = true` when
`settings.DEFAULT_REPRESENTATION` is "Bargmann".  `c1`, `c2`, `co` are the labels given by the wires (465-466), `s2` is `other.auto_shape()`; the
`auto_shape` of an array is its shape (77-80 and 387).  Simplification: a component that remembers the triple it was converted from is not covered (see C59). -/
noncomputable def contractFG (dflt : Bool) (a : Arr) (g : PolyExp) (s2 c1 c2 co : List ℕ) : Option Out :=
  if dflt then (toBargmann a).bind fun f => (f.contract g [] c1 [] c2 [] co).map Out.bargmann
  else (a.reduce (raise c1 c2 a.shape s2).1).bind fun a' => (toFock g (raise c1 c2 a.shape s2).2).bind fun b' =>
    (Arr.contract a' b'.arr (il c1) (il c2) (il co)).map Out.fock

/-- The amplitudes of a result, at photon numbers `k` below the cutoffs `shape`. -/
noncomputable def Out.amps (shape k : List ℕ) : Out → Option ℂ
  | .bargmann (.finite h) => h.fockArray shape [] k
  | .bargmann .infinite => none
  | .fock r => some (r.get k)

theorem raise_get {c1 c2 : List ℕ} (n1 : c1.Nodup) (n2 : c2.Nodup) : ∀ (S : List ℕ) (_ : S.Nodup) (_ : ∀ l ∈ S, l ∈ c1 ∧ l ∈ c2) (s t : List ℕ)
    (_ : c1.length = s.length) (_ : c2.length = t.length),
    let R := S.foldl (fun st l =>
      let m := max (st.1.getD (c1.idxOf l) 0) (st.2.getD (c2.idxOf l) 0)
      (st.1.set (c1.idxOf l) m, st.2.set (c2.idxOf l) m)) (s, t)
    R.1.length = s.length ∧ R.2.length = t.length ∧
    (∀ l ∈ c1, R.1.getD (c1.idxOf l) 0 = if l ∈ S then max (s.getD (c1.idxOf l) 0) (t.getD (c2.idxOf l) 0) else s.getD (c1.idxOf l) 0) ∧
    (∀ l ∈ c2, R.2.getD (c2.idxOf l) 0 = if l ∈ S then max (s.getD (c1.idxOf l) 0) (t.getD (c2.idxOf l) 0) else t.getD (c2.idxOf l) 0) := by
  have gs : ∀ (s : List ℕ) (i j m : ℕ), i < s.length → (s.set i m).getD j 0 = if i = j then m else s.getD j 0 := by
    intro s i j m hi
    rw [List.getD_eq_getElem?_getD, List.getElem?_set, List.getD_eq_getElem?_getD]
    by_cases h : i = j
    · rw [if_pos h, if_pos hi, if_pos h]; rfl
    · rw [if_neg h, if_neg h]
  intro S
  induction S with
  | nil => intro _ _ s t _ _; exact ⟨rfl, rfl, fun l _ => by simp, fun l _ => by simp⟩
  | cons a S ih =>
    intro hn hm s t h1 h2
    rw [List.nodup_cons] at hn
    obtain ⟨ma1, ma2⟩ := hm a List.mem_cons_self
    have i1 := List.idxOf_lt_length_of_mem ma1
    have i2 := List.idxOf_lt_length_of_mem ma2
    obtain ⟨q1, q2, q3, q4⟩ := ih hn.2 (fun l hl => hm l (List.mem_cons_of_mem _ hl)) (s.set (c1.idxOf a) (max (s.getD (c1.idxOf a) 0) (t.getD (c2.idxOf a) 0)))
      (t.set (c2.idxOf a) (max (s.getD (c1.idxOf a) 0) (t.getD (c2.idxOf a) 0))) (by rw [List.length_set, h1]) (by rw [List.length_set, h2])
    have g1 : ∀ l ∈ c1, (s.set (c1.idxOf a) (max (s.getD (c1.idxOf a) 0) (t.getD (c2.idxOf a) 0))).getD (c1.idxOf l) 0 =
        if l = a then max (s.getD (c1.idxOf a) 0) (t.getD (c2.idxOf a) 0) else s.getD (c1.idxOf l) 0 := by
      intro l hl
      rw [gs _ _ _ _ (by rw [← h1]; exact i1)]
      refine if_congr ⟨fun e => ?_, fun e => by rw [e]⟩ rfl rfl
      rw [← PolyExp.getD_idxOf hl, ← e, PolyExp.getD_idxOf ma1]
    have g2 : ∀ l ∈ c2, (t.set (c2.idxOf a) (max (s.getD (c1.idxOf a) 0) (t.getD (c2.idxOf a) 0))).getD (c2.idxOf l) 0 =
        if l = a then max (s.getD (c1.idxOf a) 0) (t.getD (c2.idxOf a) 0) else t.getD (c2.idxOf l) 0 := by
      intro l hl
      rw [gs _ _ _ _ (by rw [← h2]; exact i2)]
      refine if_congr ⟨fun e => ?_, fun e => by rw [e]⟩ rfl rfl
      rw [← PolyExp.getD_idxOf hl, ← e, PolyExp.getD_idxOf ma2]
    refine ⟨by rw [List.foldl_cons]; exact q1.trans (List.length_set ..), by rw [List.foldl_cons]; exact q2.trans (List.length_set ..), ?_, ?_⟩
    · intro l hl
      rw [List.foldl_cons]
      refine (q3 l hl).trans ?_
      rw [g1 l hl]
      by_cases hS : l ∈ S
      · have hla : l ≠ a := fun e => hn.1 (e ▸ hS)
        rw [if_pos hS, if_neg hla, g2 l (hm l (List.mem_cons_of_mem _ hS)).2, if_neg hla, if_pos (List.mem_cons_of_mem _ hS)]
      · rw [if_neg hS]
        by_cases hla : l = a
        · rw [if_pos hla, if_pos (by rw [hla]; exact List.mem_cons_self), hla]
        · rw [if_neg hla, if_neg (by rw [List.mem_cons, not_or]; exact ⟨hla, hS⟩)]
    · intro l hl
      rw [List.foldl_cons]
      refine (q4 l hl).trans ?_
      rw [g2 l hl]
      by_cases hS : l ∈ S
      · have hla : l ≠ a := fun e => hn.1 (e ▸ hS)
        rw [if_pos hS, if_neg hla, g1 l (hm l (List.mem_cons_of_mem _ hS)).1, if_neg hla, if_pos (List.mem_cons_of_mem _ hS)]
      · rw [if_neg hS]
        by_cases hla : l = a
        · rw [if_pos hla, if_pos (by rw [hla]; exact List.mem_cons_self), hla]
        · rw [if_neg hla, if_neg (by rw [List.mem_cons, not_or]; exact ⟨hla, hS⟩)]

/-- The sizes of the axes of the result: those of the operand the label comes from. -/
def outSize (c1 c2 s1 s2 : List ℕ) (l : ℕ) : ℕ := if l ∈ c1 then s1.getD (c1.idxOf l) 0 else s2.getD (c2.idxOf l) 0

theorem summed_il {c1 c2 co : List ℕ} (H : Labels c1 c2 co) : summed (il c1) (il c2) (il co) = il (c1.filter (· ∈ c2)) := by
  have e0 : ∀ (c : List ℕ) (P : Lab → Prop) [DecidablePred P], (il c).filter (fun x => decide (P x)) = il (c.filter fun l => decide (P (Lab.int l))) := by
    intro c P _
    unfold il
    rw [List.filter_map]
    rfl
  have e2 : (il c2).filter (· ∉ il c1) = il (c2.filter (· ∉ c1)) := by
    rw [e0]
    refine congrArg il (List.filter_congr fun l _ => ?_)
    exact decide_eq_decide.2 (not_congr mem_il)
  unfold summed
  rw [e2, List.filter_append, e0, e0]
  have f1 : c1.filter (fun l => decide (Lab.int l ∉ il co)) = c1.filter (· ∈ c2) := by
    refine List.filter_congr fun l hl => decide_eq_decide.2 ?_
    rw [mem_il, H.mem]
    tauto
  have f2 : (c2.filter (· ∉ c1)).filter (fun l => decide (Lab.int l ∉ il co)) = [] := by
    rw [List.filter_eq_nil_iff]
    intro l hl h
    rw [List.mem_filter, decide_eq_true_eq] at hl
    rw [decide_eq_true_eq, mem_il, H.mem] at h
    tauto
  rw [f1, f2]
  show _ ++ [] = _
  rw [List.append_nil]

theorem strs_il (c : List ℕ) : strs (il c) = [] := by
  unfold strs
  rw [List.filter_eq_nil_iff]
  intro l hl
  unfold il at hl
  obtain ⟨a, _, rfl⟩ := List.mem_map.1 hl
  simp [Lab.isStr]

theorem fock_amp {a : Arr} {g : PolyExp} {s2 c1 c2 co : List ℕ} (hb : a.batchDims = 0) (h1 : c1.length = a.shape.length) (hg : g.WF) (sg : SymAll g) (gl : g.linSup = false)
    (gb : g.batch = []) (gd : g.derived = []) (h2 : c2.length = g.numCV) (hs : s2.length = g.numCV) (h0 : 0 ∉ s2) (L : Labels c1 c2 co) :
    ∃ r, contractFG false a g s2 c1 c2 co = some (.fock r) ∧ r.batchDims = 0 ∧ r.shape = co.map (outSize c1 c2 a.shape s2) ∧
      ∀ k, InB r.shape k → r.get k = einsumAmp a (g.fockAmp []) c1 c2 co k := by
  have hcore : a.core = a.shape := by unfold Arr.core; rw [hb]; rfl
  have hbat : a.batch = [] := by unfold Arr.batch; rw [hb]; rfl
  have hwf : a.WF := by show a.batchDims ≤ _; rw [hb]; omega
  obtain ⟨q1, q2, q3, q4⟩ := raise_get L.n1 L.n2 (c1.filter (· ∈ c2)) (L.n1.filter _) (fun l hl => mem_sharedL.1 hl) a.shape s2 h1 (by rw [h2, hs])
  change (raise c1 c2 a.shape s2).1.length = _ at q1
  change (raise c1 c2 a.shape s2).2.length = _ at q2
  change ∀ l ∈ c1, (raise c1 c2 a.shape s2).1.getD (c1.idxOf l) 0 = _ at q3
  change ∀ l ∈ c2, (raise c1 c2 a.shape s2).2.getD (c2.idxOf l) 0 = _ at q4
  obtain ⟨R1, hR1⟩ : ∃ R, R = (raise c1 c2 a.shape s2).1 := ⟨_, rfl⟩
  obtain ⟨R2, hR2⟩ : ∃ R, R = (raise c1 c2 a.shape s2).2 := ⟨_, rfl⟩
  rw [← hR1] at q1 q3
  rw [← hR2] at q2 q4
  have r1 : ∀ l ∈ c1, l ∈ c2 → R1.getD (c1.idxOf l) 0 = max (a.shape.getD (c1.idxOf l) 0) (s2.getD (c2.idxOf l) 0) := fun l hl hm => by
    rw [q3 l hl, if_pos (mem_sharedL.2 ⟨hl, hm⟩)]
  have r1' : ∀ l ∈ c1, l ∉ c2 → R1.getD (c1.idxOf l) 0 = a.shape.getD (c1.idxOf l) 0 := fun l hl hm => by
    rw [q3 l hl, if_neg (fun h => hm (mem_sharedL.1 h).2)]
  have r2 : ∀ l ∈ c2, l ∈ c1 → R2.getD (c2.idxOf l) 0 = max (a.shape.getD (c1.idxOf l) 0) (s2.getD (c2.idxOf l) 0) := fun l hl hm => by
    rw [q4 l hl, if_pos (mem_sharedL.2 ⟨hm, hl⟩)]
  have r2' : ∀ l ∈ c2, l ∉ c1 → R2.getD (c2.idxOf l) 0 = s2.getD (c2.idxOf l) 0 := fun l hl hm => by
    rw [q4 l hl, if_neg (fun h => hm (mem_sharedL.1 h).1)]
  have hpos : ∀ l ∈ c2, 0 < s2.getD (c2.idxOf l) 0 := by
    intro l hl
    refine Nat.pos_of_ne_zero fun h => h0 ?_
    rw [← h]
    exact getD_mem' (by rw [hs, ← h2]; exact List.idxOf_lt_length_of_mem hl)
  -- the array of the first operand
  obtain ⟨a', ha'⟩ : ∃ a', a.reduce R1 = some a' := by
    rcases h : a.reduce R1 with _ | a'
    · exfalso
      rcases (C29_error a R1).1 h with h | ⟨_, i, hi, hlt⟩
      · exact h (by rw [q1, hcore])
      · rw [hcore] at hlt
        have hi' : i < c1.length := by rw [h1, ← q1]; exact hi
        have hge : a.shape.getD i 0 ≤ R1.getD i 0 := by
          have e := PolyExp.idxOf_getD L.n1 hi'
          by_cases hm : c1.getD i 0 ∈ c2
          · have := r1 _ (getD_mem' hi') hm
            rw [e] at this
            rw [this]; exact le_max_left _ _
          · have := r1' _ (getD_mem' hi') hm
            rw [e] at this
            rw [this]
        omega
    · exact ⟨a', rfl⟩
  obtain ⟨k1, k2, k3, k4⟩ := C29_reduce a a' hwf R1 ha'
  rw [hb] at k1
  rw [hbat, List.nil_append, hcore] at k4
  have hs1 : a'.shape = R1 := by
    have : a'.core = a'.shape := by unfold Arr.core; rw [k1]; rfl
    rw [← this, k3]
  have he1 : ∀ x, InB R1 x → a'.entry x = a.entry x := by
    intro x hx
    unfold Arr.entry
    rw [hs1, if_pos (inb_iff.2 hx), k4 x hx]
    by_cases h : InB a.shape x
    · rw [if_pos (by rw [List.nil_append]; exact h), if_pos (inb_iff.2 h)]
    · rw [if_neg (by rw [List.nil_append]; exact h), if_neg (fun h' => h (inb_iff.1 h'))]
  -- the array of the second operand
  have h0' : 0 ∉ R2 := by
    intro h
    obtain ⟨i, hi, e⟩ := List.getElem_of_mem h
    have hi' : i < c2.length := by rw [h2, ← hs, ← q2]; exact hi
    have e1 := PolyExp.idxOf_getD L.n2 hi'
    have hp := hpos _ (getD_mem' hi')
    rw [e1] at hp
    have e2 : R2.getD i 0 = 0 := by rw [List.getD_eq_getElem _ _ hi, e]
    by_cases hm : c2.getD i 0 ∈ c1
    · have := r2 _ (getD_mem' hi') hm
      rw [e1, e2] at this
      have := le_max_right (a.shape.getD (c1.idxOf (c2.getD i 0)) 0) (s2.getD i 0)
      omega
    · have := r2' _ (getD_mem' hi') hm
      rw [e1, e2] at this
      omega
  have hl2 : R2.length = g.numCV := by rw [q2, hs]
  obtain ⟨b', hb'⟩ : ∃ b', toFock g R2 = some b' := ⟨_, if_neg (by rw [not_or]; exact ⟨h0', not_not.2 hl2⟩)⟩
  have hb2 : b'.arr.shape = R2 ∧ ∀ x, InB R2 x → b'.arr.entry x = g.fockAmp [] x := by
    unfold toFock at hb'
    rw [if_neg (by rw [not_or]; exact ⟨h0', not_not.2 hl2⟩)] at hb'
    cases hb'
    dsimp only
    rw [gl, gb]
    refine ⟨rfl, fun x hx => ?_⟩
    unfold Arr.entry
    dsimp only
    have e : (if (false = true) then ([] : List ℕ).dropLast else []) = [] := rfl
    rw [e, List.nil_append, if_pos (inb_iff.2 hx)]
    show (g.fockArray R2 [] x).getD 0 = _
    rw [C58_entries g hg sg R2 [] x h0' hl2.symm.symm hx]
    rfl
  obtain ⟨hs2, he2⟩ := hb2
  -- their contraction
  have hsub : ∀ l ∈ il co, l ∈ il c1 ++ il c2 := by
    intro l hl
    obtain ⟨m, hm, rfl⟩ := List.mem_map.1 hl
    rw [List.mem_append, mem_il, mem_il]
    have := L.mem.1 hm
    tauto
  obtain ⟨r, hr⟩ : ∃ r, Arr.contract a' b'.arr (il c1) (il c2) (il co) = some r := by
    unfold Arr.contract
    have n1 : (il c1).length = a'.shape.length := by rw [hs1, q1, ← h1]; exact List.length_map _
    have n2 : (il c2).length = b'.arr.shape.length := by rw [hs2, q2, hs, ← h2]; exact List.length_map _
    rw [if_neg (by rw [not_or]; exact ⟨not_not.2 n1, not_not.2 n2⟩), if_neg (not_not.2 hsub), if_neg (not_not.2 ⟨il_nodup L.n1, il_nodup L.n2, il_nodup L.n0⟩)]
    exact ⟨_, rfl⟩
  have hcd : ∀ l ∈ co, cdim a' b'.arr (il c1) (il c2) (Lab.int l) = outSize c1 c2 a.shape s2 l := by
    intro l hl
    unfold cdim outSize
    rw [hs1, hs2, dimIn_il, dimIn_il]
    by_cases m1 : l ∈ c1
    · have m2 : l ∉ c2 := by have := L.mem.1 hl; tauto
      rw [if_pos (mem_il.2 m1), if_neg (fun h => m2 (mem_il.1 h)), if_pos m1, r1' l m1 m2]
    · have m2 : l ∈ c2 := by have := L.mem.1 hl; tauto
      rw [if_neg (fun h => m1 (mem_il.1 h)), if_neg m1, r2' l m2 m1]
  have hcs : ∀ l ∈ c1, l ∈ c2 → cdim a' b'.arr (il c1) (il c2) (Lab.int l) = max (a.shape.getD (c1.idxOf l) 0) (s2.getD (c2.idxOf l) 0) := by
    intro l m1 m2
    unfold cdim
    rw [hs1, hs2, dimIn_il, dimIn_il, if_pos (mem_il.2 m1), if_pos (mem_il.2 m2), r1 l m1 m2, r2 l m2 m1, min_self]
  obtain ⟨d1, d2, _⟩ := contract_data hr
  have hshape : r.shape = co.map (outSize c1 c2 a.shape s2) := by
    rw [d2]
    unfold il
    rw [List.map_map]
    exact List.map_congr_left fun l hl => hcd l hl
  refine ⟨r, ?_, by rw [d1, strs_il]; rfl, hshape, ?_⟩
  · unfold contractFG
    rw [if_neg (by simp), ← hR1, ← hR2, ha', Option.bind_some, hb', Option.bind_some, hr]
    rfl
  intro k hk
  have hkl : k.length = co.length := by rw [List.Forall₂.length_eq hk, hshape, List.length_map]
  have hkm : (il co).map (assign (il co) k) = k := by
    have e : (il co).map (assign (il co) k) = co.map fun l => k.getD (co.idxOf l) 0 := by
      unfold il
      rw [List.map_map]
      exact List.map_congr_left fun l _ => assign_il co k l
    rw [e]
    refine List.ext_getElem (by rw [List.length_map, hkl]) fun i i1 i2 => ?_
    rw [List.getElem_map, L.n0.idxOf_getElem i (by rw [← hkl]; exact i2), List.getD_eq_getElem _ _ i2]
  have hval := contract_val hr (cdim a' b'.arr (il c1) (il c2)) (fun _ _ => le_refl _) (assign (il co) k)
  rw [hkm, summed_il L] at hval
  have hent : r.entry k = r.get k := by unfold Arr.entry; rw [if_pos (inb_iff.2 hk)]
  rw [← hent, hval]
  unfold einsumAmp
  have hkv : ∀ l ∈ co, assign (il co) k (Lab.int l) < outSize c1 c2 a.shape s2 l := by
    intro l hl
    have hi := List.idxOf_lt_length_of_mem hl
    have := (Arr.inB_iff_getD.1 hk).2 (co.idxOf l) (by rw [hshape, List.length_map]; exact hi)
    rw [assign_il]
    rw [hshape, List.getD_eq_getElem (co.map _) _ (by rw [List.length_map]; exact hi), List.getElem_map, List.getElem_idxOf] at this
    exact this
  -- labels that are not summed keep their values
  have hkeep : ∀ τ : Lab → ℕ, (∀ l, l ∉ il (c1.filter (· ∈ c2)) → τ l = assign (il co) k l) → (∀ l ∈ c1, l ∉ c2 → τ (Lab.int l) < a.shape.getD (c1.idxOf l) 0) ∧
      ∀ l ∈ c2, l ∉ c1 → τ (Lab.int l) < s2.getD (c2.idxOf l) 0 := by
    intro τ hτ
    constructor
    · intro l m1 m2
      rw [hτ _ (fun h => m2 (mem_sharedL.1 (mem_il.1 h)).2)]
      have := hkv l (L.mem.2 (Or.inl ⟨m1, m2⟩))
      unfold outSize at this
      rwa [if_pos m1] at this
    · intro l m2 m1
      rw [hτ _ (fun h => m1 (mem_sharedL.1 (mem_il.1 h)).1)]
      have := hkv l (L.mem.2 (Or.inr ⟨m2, m1⟩))
      unfold outSize at this
      rwa [if_neg m1] at this
  have hin : ∀ (c s : List ℕ) (τ : Lab → ℕ), c.Nodup → c.length = s.length → (∀ l ∈ c, τ (Lab.int l) < s.getD (c.idxOf l) 0) → InB s ((il c).map τ) := by
    intro c s τ hc hl h
    rw [Arr.inB_iff_getD]
    refine ⟨by rw [List.length_map]; unfold il; rw [List.length_map, hl], fun i hi => ?_⟩
    have hi' : i < c.length := by rw [hl]; exact hi
    have := h _ (getD_mem' hi')
    have e := il_map_getD c τ (getD_mem' hi')
    rw [PolyExp.idxOf_getD hc hi'] at this e
    rw [e]
    exact this
  have hS := il_nodup (L.n1.filter (· ∈ c2))
  have hstep : sumOver (cdim a' b'.arr (il c1) (il c2)) (il (c1.filter (· ∈ c2))) (fun τ => a'.entry ((il c1).map τ) * b'.arr.entry ((il c2).map τ)) (assign (il co) k) =
      sumOver (cdim a' b'.arr (il c1) (il c2)) (il (c1.filter (· ∈ c2))) (fun τ => a.entry ((il c1).map τ) * g.fockAmp [] ((il c2).map τ)) (assign (il co) k) := by
    refine sumOver_congr hS fun τ t1 t2 => ?_
    obtain ⟨u1, u2⟩ := hkeep τ t1
    have t2' : ∀ l ∈ c1, l ∈ c2 → τ (Lab.int l) < max (a.shape.getD (c1.idxOf l) 0) (s2.getD (c2.idxOf l) 0) := by
      intro l m1 m2
      have := t2 _ (mem_il.2 (mem_sharedL.2 ⟨m1, m2⟩))
      rwa [hcs l m1 m2] at this
    rw [he1 _ (hin c1 R1 τ L.n1 (by rw [h1, q1]) fun l m1 => by
      by_cases m2 : l ∈ c2
      · rw [r1 l m1 m2]; exact t2' l m1 m2
      · rw [r1' l m1 m2]; exact u1 l m1 m2), he2 _ (hin c2 R2 τ L.n2 (by rw [h2, q2, hs]) fun l m2 => by
      by_cases m1 : l ∈ c1
      · rw [r2 l m2 m1]; exact t2' l m1 m2
      · rw [r2' l m2 m1]; exact u2 l m2 m1)]
  rw [hstep]
  refine (sumOver_mono hS ?_ ?_).symm
  · intro l hl
    obtain ⟨m, hm, rfl⟩ := List.mem_map.1 hl
    obtain ⟨m1, m2⟩ := mem_sharedL.1 hm
    rw [hcs m m1 m2, dimIn_il]
    exact le_max_left _ _
  · rintro τ _ _ ⟨l, hl, hge⟩
    obtain ⟨m, hm, rfl⟩ := List.mem_map.1 hl
    obtain ⟨m1, m2⟩ := mem_sharedL.1 hm
    rw [dimIn_il] at hge
    have hz : a.entry ((il c1).map τ) = 0 := by
      unfold Arr.entry
      refine if_neg fun h => ?_
      have := (Arr.inB_iff_getD.1 (inb_iff.1 h)).2 (c1.idxOf m) (by rw [← h1]; exact List.idxOf_lt_length_of_mem m1)
      rw [il_map_getD c1 τ m1] at this
      omega
    rw [hz, zero_mul]

/-- **C111** (array on the left) contracting a component given by an array with a Gaussian one succeeds with either default representation, and all amplitudes of the result are
the sums, over the photon numbers of the shared wires that the array has, of the products of the amplitudes. -/
theorem C111_left {a : Arr} {g : PolyExp} {s2 c1 c2 co : List ℕ} (hb : a.batchDims = 0) (hg : g.WF) (sg : ∀ β, Symm g.N (g.A β)) (gl : g.linSup = false) (gb : g.batch = [])
    (gd : g.derived = []) (n1 : c1.Nodup) (n2 : c2.Nodup) (h1 : c1.length = a.shape.length) (h2 : c2.length = g.numCV) (same : c1.filter (· ∈ c2) = c2.filter (· ∈ c1))
    (out : co.Perm (c1.filter (· ∉ c2) ++ c2.filter (· ∉ c1))) (hs : s2.length = g.numCV) (h0 : 0 ∉ s2) :
    (∃ h, contractFG true a g s2 c1 c2 co = some (.bargmann (.finite h)) ∧ h.batch = [] ∧ h.numCV = co.length ∧
      ∀ shape k, 0 ∉ shape → shape.length = co.length → InB shape k → (Out.bargmann (.finite h)).amps shape k = some (einsumAmp a (g.fockAmp []) c1 c2 co k)) ∧
    ∃ r, contractFG false a g s2 c1 c2 co = some (.fock r) ∧ r.batchDims = 0 ∧ r.shape = co.map (outSize c1 c2 a.shape s2) ∧
      ∀ k, InB r.shape k → (Out.fock r).amps r.shape k = some (einsumAmp a (g.fockAmp []) c1 c2 co k) := by
  constructor
  · obtain ⟨f, e1, hp, e2, e3, e4⟩ := toBargmann_poly a hb
    have fo : f.outBatch = [] := by unfold outBatch; rw [hp.ls, e4]; rfl
    have go : g.outBatch = [] := by unfold outBatch; rw [gl, gb]; rfl
    have H : Compat f g [] c1 [] c2 [] co := ⟨List.nodup_nil, List.nodup_nil, by rw [fo], by rw [go], rfl, rfl, fun d hd => absurd hd List.not_mem_nil,
      fun d hd => absurd hd List.not_mem_nil, n1, n2, by rw [h1, hp.numCV], h2, same, out, fun h => by rw [hp.ls] at h; cases h⟩
    obtain ⟨h, k1, k2, k3, k4, k5, k6, k7⟩ := mixed_amp hp e4 e2 e3 hg sg gl gb gd H
    refine ⟨h, ?_, k6, k3, k7⟩
    unfold contractFG
    rw [if_pos rfl, e1, Option.bind_some, k1]
    rfl
  · obtain ⟨r, k1, k2, k3, k4⟩ := fock_amp hb h1 hg sg gl gb gd h2 hs h0 ⟨n1, n2, out⟩
    exact ⟨r, k1, k2, k3, fun k hk => congrArg some (k4 k hk)⟩

end Verif.Mixed
