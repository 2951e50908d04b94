import Verif.ContractProps

/-!
# `contract` computes the integral over the shared variables (property C16): the stages put together
-/

namespace Verif.PolyExp
open Verif.Fock Verif.Batch Verif.Gauss PolyExp MeasureTheory

variable {f g : PolyExp} {b1 c1 b2 c2 bo co : List ℕ}

/-! ### The stages of `contract` -/

theorem contract_stages {h : PolyExp} (hc : f.contract g b1 c1 b2 c2 bo co = some (.finite h)) :
    ∃ J r r', joinAbc f g (opLabels b1 f.linSup 0) (opLabels b2 g.linSup 1) (outLabels bo f.linSup g.linSup) = some J ∧
      cgi1 (J.toPolyExp (f.linSup || g.linSup) (f.derived ++ g.derived)) (sharedPos c1 (shared c1 c2))
          ((sharedPos c2 (shared c1 c2)).map (f.numCV + ·)) (-1) = some (.finite r) ∧
      (if f.linSup ∧ g.linSup then mergeLs f g r else some r) = some r' ∧
      r'.reorder (co.map (leftover c1 c2).idxOf) = some h := by
  unfold PolyExp.contract at hc
  by_cases h1 : labelsOk f g b1 c1 b2 c2 bo co
  swap
  · rw [if_pos h1] at hc; cases hc
  rw [if_neg (not_not.2 h1)] at hc
  dsimp only at hc
  split at hc
  · cases hc
  rename_i J hJ
  split at hc
  · cases hc
  · cases hc
  rename_i r hr
  split at hc
  · cases hc
  rename_i r' hr'
  split_ifs at hc with h2
  split at hc
  · cases hc
  rename_i h' hh
  cases hc
  exact ⟨J, r, r', hJ, hr, hr', hh⟩

/-! ### Convergence -/

theorem zIdx_getD (H : Compat f g b1 c1 b2 c2 bo co) {i : ℕ} (hi : i < f.numCV) (h : c1.getD i 0 ∈ c1.filter (· ∈ c2)) :
    (zIdx c1 c2).getD ((c1.filter (· ∈ c2)).idxOf (c1.getD i 0)) 0 = i := by
  have hlt : (c1.filter (· ∈ c2)).idxOf (c1.getD i 0) < (c1.filter (· ∈ c2)).length := List.idxOf_lt_length_iff.mpr h
  unfold zIdx
  rw [List.getD_eq_getElem _ _ (by simpa using hlt), List.getElem_map, List.getElem_idxOf]
  exact idxOf_getD H.nc1 (by rw [H.lc1]; exact hi)

theorem zcIdx_getD (H : Compat f g b1 c1 b2 c2 bo co) {i : ℕ} (hi : i < g.numCV) (h : c2.getD i 0 ∈ c1.filter (· ∈ c2)) :
    (zcIdx f.numCV c1 c2).getD ((c1.filter (· ∈ c2)).idxOf (c2.getD i 0)) 0 = f.numCV + i := by
  have hlt : (c1.filter (· ∈ c2)).idxOf (c2.getD i 0) < (c1.filter (· ∈ c2)).length := List.idxOf_lt_length_iff.mpr h
  unfold zcIdx
  rw [List.getD_eq_getElem _ _ (by simpa using hlt), List.getElem_map, List.getElem_map, List.getElem_idxOf,
    idxOf_getD H.nc2 (by rw [H.lc2]; exact hi)]

theorem zIdx_len (c1 c2 : List ℕ) : (zIdx c1 c2).length = (c1.filter (· ∈ c2)).length := by simp [zIdx]
theorem zcIdx_len (n : ℕ) (c1 c2 : List ℕ) : (zcIdx n c1 c2).length = (c1.filter (· ∈ c2)).length := by simp [zcIdx]

theorem conv_joined (H : Compat f g b1 c1 b2 c2 bo co) (hf : f.WF) (hg : g.WF) {J : Joined} {γ β1 β2 : List ℕ} {ls : Bool}
    (hN : J.N = f.N + g.N)
    (hA : J.A γ = fun i j => dsumA f.N (f.A β1) (g.A β2)
          ((joinPerm f.numCV f.derived.length g.numCV g.derived.length).getD i 0)
          ((joinPerm f.numCV f.derived.length g.numCV g.derived.length).getD j 0))
    (hc : PairConv f β1 g β2 c1 c2 (c1.filter (· ∈ c2))) :
    Conv (J.toPolyExp ls (f.derived ++ g.derived)) γ (zIdx c1 c2) (zcIdx f.numCV c1 c2) (-1) := by
  intro w hw x hx h0
  have hfd := hf.der
  have hgd := hg.der
  have hnum : (J.toPolyExp ls (f.derived ++ g.derived)).numCV = f.numCV + g.numCV := by
    show J.N - (f.derived ++ g.derived).length = _
    rw [hN]
    simp only [List.length_append, numCV]; omega
  have hNf : f.N = f.numCV + f.derived.length := by unfold numCV; omega
  rw [hnum]
  show (1 / 2 * ∑ i ∈ Finset.range (f.numCV + g.numCV), ∑ j ∈ Finset.range (f.numCV + g.numCV), x i * x j * J.A γ i j).re + _ < 0
  rw [hA]
  have q := joined_quad (n1 := f.numCV) (m1 := f.derived.length) (n2 := g.numCV) (m2 := g.derived.length) (f.A β1) (g.A β2) x
  rw [← hNf] at q
  rw [q]
  have hlen := zIdx_len c1 c2
  have hw' : (fun i : Fin (c1.filter (· ∈ c2)).length => w (i.cast hlen.symm)) ≠ 0 := by
    intro e
    apply hw
    funext i
    have := congrFun e (i.cast hlen)
    simpa using this
  have key := hc _ hw'
  have x1 : ∀ i < f.numCV, x i = atLabel c1 (c1.filter (· ∈ c2))
      (padFin fun i : Fin (c1.filter (· ∈ c2)).length => w (i.cast hlen.symm)) [] 0 i := by
    intro i hi
    unfold atLabel
    split_ifs with hm
    · have hlt : (c1.filter (· ∈ c2)).idxOf (c1.getD i 0) < (c1.filter (· ∈ c2)).length := List.idxOf_lt_length_iff.mpr hm
      unfold padFin
      rw [dif_pos hlt]
      have := hx.1 ⟨_, lt_of_lt_of_eq hlt hlen.symm⟩
      rw [zIdx_getD H hi hm] at this
      exact this
    · apply h0
      · rw [zIdx_mem H hi]; exact hm
      · intro hz
        have := zcIdx_range H hz
        omega
  have x2 : ∀ i < g.numCV, x (f.numCV + i) = atLabel c2 (c1.filter (· ∈ c2))
      (padFin fun i : Fin (c1.filter (· ∈ c2)).length => (starRingEnd ℂ) (w (i.cast hlen.symm))) [] 0 i := by
    intro i hi
    unfold atLabel
    split_ifs with hm
    · have hlt : (c1.filter (· ∈ c2)).idxOf (c2.getD i 0) < (c1.filter (· ∈ c2)).length := List.idxOf_lt_length_iff.mpr hm
      unfold padFin
      rw [dif_pos hlt]
      have := hx.2 ⟨_, lt_of_lt_of_eq hlt hlen.symm⟩
      rw [zcIdx_getD H hi hm] at this
      exact this
    · apply h0
      · intro hz
        have := zIdx_lt H hz
        omega
      · rw [zcIdx_mem H hi]; exact hm
  unfold PolyExp.quad at key
  have e1 : ∑ i ∈ Finset.range f.numCV, ∑ j ∈ Finset.range f.numCV, x i * x j * f.A β1 i j =
      ∑ i ∈ Finset.range f.numCV, ∑ j ∈ Finset.range f.numCV,
        atLabel c1 (c1.filter (· ∈ c2)) (padFin fun i : Fin (c1.filter (· ∈ c2)).length => w (i.cast hlen.symm)) [] 0 i *
        atLabel c1 (c1.filter (· ∈ c2)) (padFin fun i : Fin (c1.filter (· ∈ c2)).length => w (i.cast hlen.symm)) [] 0 j * f.A β1 i j := by
    refine Finset.sum_congr rfl fun i hi => Finset.sum_congr rfl fun j hj => ?_
    rw [x1 i (Finset.mem_range.1 hi), x1 j (Finset.mem_range.1 hj)]
  have e2 : ∑ i ∈ Finset.range g.numCV, ∑ j ∈ Finset.range g.numCV, x (f.numCV + i) * x (f.numCV + j) * g.A β2 i j =
      ∑ i ∈ Finset.range g.numCV, ∑ j ∈ Finset.range g.numCV,
        atLabel c2 (c1.filter (· ∈ c2)) (padFin fun i : Fin (c1.filter (· ∈ c2)).length => (starRingEnd ℂ) (w (i.cast hlen.symm))) [] 0 i *
        atLabel c2 (c1.filter (· ∈ c2)) (padFin fun i : Fin (c1.filter (· ∈ c2)).length => (starRingEnd ℂ) (w (i.cast hlen.symm))) [] 0 j *
          g.A β2 i j := by
    refine Finset.sum_congr rfl fun i hi => Finset.sum_congr rfl fun j hj => ?_
    rw [x2 i (Finset.mem_range.1 hi), x2 j (Finset.mem_range.1 hj)]
  rw [e1, e2, mul_add]
  have e3 : ∑ i, ‖w i‖ ^ 2 = ∑ i : Fin (c1.filter (· ∈ c2)).length, ‖w (i.cast hlen.symm)‖ ^ 2 :=
    Fintype.sum_equiv (finCongr hlen) _ _ fun i => by simp
  rw [e3]
  linarith

/-! ### The merge of the two superposition axes -/

theorem unravel_merge' {B β d k : List ℕ} (h : InB B β) (hk : InB d k) {L1 L2 l1 l2 : ℕ} (h1 : l1 < L1) (h2 : l2 < L2) :
    unravel (B ++ [L1, L2] ++ d) (ravel (B ++ [L1 * L2] ++ d) (β ++ [l1 * L2 + l2] ++ k)) = β ++ [l1, l2] ++ k := by
  have hl : B.length = β.length := (List.Forall₂.length_eq h).symm
  have e : ravel (B ++ [L1 * L2] ++ d) (β ++ [l1 * L2 + l2] ++ k) = ravel (B ++ [L1, L2] ++ d) (β ++ [l1, l2] ++ k) := by
    rw [ravel_append (s := B ++ [L1 * L2]) d k (by simp [hl]), ravel_append (s := B ++ [L1, L2]) d k (by simp [hl]),
      ravel_append _ _ hl, ravel_append _ _ hl]
    simp [ravel]
  rw [e]
  exact (unravel_ravel (InB.append (InB.append h (List.Forall₂.cons h1 (List.Forall₂.cons h2 List.Forall₂.nil))) hk)).2

theorem outDims_self (H : Compat f g b1 c1 b2 c2 bo co) (e : bo = b1) : outDims b1 b2 bo f.outBatch g.outBatch = f.outBatch := by
  subst e
  unfold outDims
  rw [List.map_congr_left (g := Batch.sizeOf bo f.outBatch) fun d hd => if_pos hd]
  exact map_sizeOf H.nb1 H.lb1.symm

theorem merged_call {D : List ℕ} {r r' : PolyExp} (hr : r.WF) (hb : r.batch = D ++ (f.lsBatch ++ g.lsBatch))
    (hl : r.linSup = (f.linSup || g.linSup)) (hd : r.derived = f.derived ++ g.derived)
    (hboth : f.linSup = true → g.linSup = true → D = f.outBatch ∧ g.derived = [])
    (hm : (if f.linSup ∧ g.linSup then mergeLs f g r else some r) = some r') :
    r'.WF ∧ r'.outBatch = D ∧ r'.numCV = r.numCV ∧
      ∀ o y, InB D o → r'.call o y = nsum (f.lsBatch ++ g.lsBatch) fun τ => r.termAt (o ++ τ) y := by
  by_cases h : f.linSup = true ∧ g.linSup = true
  · rw [if_pos h] at hm
    obtain ⟨e1, e2⟩ := hboth h.1 h.2
    unfold mergeLs at hm
    dsimp only at hm
    split_ifs at hm with hsz
    cases hm
    have l1 : f.lsBatch = [f.batch.getLastD 0] := by simp [lsBatch, h.1]
    have l2 : g.lsBatch = [g.batch.getLastD 0] := by simp [lsBatch, h.2]
    have ho : f.batch.dropLast = D := by rw [e1]; simp [outBatch, h.1]
    have hd' : r.derived = f.derived := by rw [hd, e2, List.append_nil]
    have hrd := hr.der
    rw [hd'] at hrd
    refine ⟨⟨hrd, by simp⟩, ?_, ?_, ?_⟩
    · simp [outBatch, ho]
    · unfold numCV; dsimp only; rw [hd']
    · intro o y hoD
      rw [call_ls rfl, l1, l2]
      dsimp only
      rw [List.getLastD_concat, sum_range_mul, List.singleton_append, nsum_cons]
      simp only [nsum_cons, nsum_nil]
      refine Finset.sum_congr rfl fun a ha => Finset.sum_congr rfl fun b hb' => ?_
      have ha := Finset.mem_range.1 ha
      have hb' := Finset.mem_range.1 hb'
      rw [ho]
      have hbb : r.batch = D ++ [f.batch.getLastD 0, g.batch.getLastD 0] := by rw [hb, l1, l2]; rfl
      have hol : D.length = o.length := (List.Forall₂.length_eq hoD).symm
      unfold termAt numCV
      dsimp only
      rw [hbb, unravel_merge hoD ha hb', hd']
      apply termVal_congr (fun _ _ _ _ => rfl) (fun _ _ => rfl) _ (fun _ _ => rfl)
      intro k hk
      rw [unravel_merge' hoD hk ha hb']
      have ll : (D ++ [f.batch.getLastD 0, g.batch.getLastD 0]).length = (o ++ [a, b]).length := by simp [hol]
      rw [ll, List.take_left, List.drop_left]
  · rw [if_neg h] at hm
    cases hm
    have hlsb : r.lsBatch = f.lsBatch ++ g.lsBatch := by
      unfold lsBatch
      rw [hl, hb]
      cases h1 : f.linSup <;> cases h2 : g.linSup
      · simp
      · simp [lsBatch, h1, h2]
      · simp [lsBatch, h1, h2]
      · exact absurd ⟨h1, h2⟩ h
    have hob : r.outBatch = D := by
      have := batch_split hr
      rw [hb, hlsb] at this
      exact (List.append_cancel_right this).symm
    refine ⟨hr, hob, rfl, ?_⟩
    intro o y _
    rw [call_eq_nsum, hlsb]

/-- The relative order of the output core labels. -/
theorem out_perm (H : Compat f g b1 c1 b2 c2 bo co) :
    (co.map (leftover c1 c2).idxOf).Perm (List.range (leftover c1 c2).length) := by
  have h1 : co.Perm (leftover c1 c2) := by rw [H.leftover_eq]; exact H.out
  rw [← map_idxOf_range H.left_nodup]
  exact h1.map _

theorem cgi1_wf {r : PolyExp} {p : PolyExp} (hp : p.WF) {zi zc : List ℕ} {s : ℝ} (h : cgi1 p zi zc s = some (.finite r)) :
    r.WF ∧ r.numCV = (remCV p.numCV zi zc).length := by
  obtain ⟨hl, hlt, h | h⟩ := cgi1_data h
  · obtain ⟨h1, rfl⟩ := h
    subst h1
    obtain rfl : zc = [] := List.length_eq_zero_iff.1 hl.symm
    exact ⟨hp, by simp [remCV]⟩
  · obtain ⟨h1, rfl⟩ := h
    have hNd : p.numCV + p.derived.length = p.N := by have := hp.der; simp only [numCV]; omega
    have hni := notIdx_eq hNd hlt
    have hN : (cgiTrue p zi zc s).N = (remCV p.numCV zi zc).length + p.derived.length := by
      show (notIdx p.N zi zc).length = _
      rw [hni]; simp
    refine ⟨⟨?_, hp.ls⟩, ?_⟩
    · show p.derived.length ≤ _
      rw [hN]; omega
    · show (cgiTrue p zi zc s).N - p.derived.length = _
      rw [hN]; omega

/-- The entries of the joined matrix: a direct sum. -/
theorem joined_entry {n1 m1 n2 m2 i j : ℕ} (A1 A2 : ℕ → ℕ → ℂ) (hi : i < n1 + n2) (hj : j < n1 + n2) :
    dsumA (n1 + m1) A1 A2 ((joinPerm n1 m1 n2 m2).getD i 0) ((joinPerm n1 m1 n2 m2).getD j 0) =
      if i < n1 ∧ j < n1 then A1 i j else if n1 ≤ i ∧ n1 ≤ j then A2 (i - n1) (j - n1) else 0 := by
  obtain ⟨p1, p2, _, _⟩ := joinPerm_get n1 m1 n2 m2
  have P : ∀ i, i < n1 + n2 → (joinPerm n1 m1 n2 m2).getD i 0 = if i < n1 then i else n1 + m1 + (i - n1) := by
    intro i hi
    split_ifs with h
    · exact p1 i h
    · have := p2 (i - n1) (by omega)
      rwa [show n1 + (i - n1) = i by omega] at this
  rw [P i hi, P j hj, dsumA]
  by_cases h1 : i < n1 <;> by_cases h2 : j < n1
  · rw [if_pos h1, if_pos h2, if_pos (by omega), if_pos ⟨h1, h2⟩]
  · rw [if_pos h1, if_neg h2, if_neg (by omega), if_neg (by omega), if_neg (by omega), if_neg (by omega)]
  · rw [if_neg h1, if_pos h2, if_neg (by omega), if_neg (by omega), if_neg (by omega), if_neg (by omega)]
  · rw [if_neg h1, if_neg h2, if_neg (by omega), if_pos (by omega), if_neg (by omega), if_pos (by omega),
      Nat.add_sub_cancel_left, Nat.add_sub_cancel_left]

theorem pairIntegral_cast {m n : ℕ} (e : m = n) {s : ℝ} (F : (Fin n → ℂ) → ℂ) :
    pairIntegral m s (fun w => F fun i => w (i.cast e.symm)) = pairIntegral n s F := by
  subst e; rfl

theorem integrable_cast {m n : ℕ} (e : m = n) {s : ℝ} (F : (Fin n → ℂ) → ℂ) :
    (Integrable fun w : Fin m → ℂ => F (fun i => w (i.cast e.symm)) * Complex.exp ((s * ∑ i, ‖w i‖ ^ 2 : ℝ) : ℂ)) ↔
    Integrable fun w : Fin n → ℂ => F w * Complex.exp ((s * ∑ i, ‖w i‖ ^ 2 : ℝ) : ℂ) := by
  subst e; exact Iff.rfl

/-- Everything about the result of `contract` except the value of the normalisation constant: the value of the result is the sum over the two
superpositions of the integrals of the products of the terms, each multiplied by the number `ε` by which the code's square root
differs from the true constant. -/
theorem contract_core {h : PolyExp} (hf : f.WF) (hg : g.WF) (sf : SymAll f) (sg : SymAll g) (H : Compat f g b1 c1 b2 c2 bo co)
    (hc : f.contract g b1 c1 b2 c2 bo co = some (.finite h)) :
    ∃ JP : PolyExp, JP.WF ∧ SymAll JP ∧ JP.numCV = f.numCV + g.numCV ∧
      h.WF ∧ h.numCV = co.length ∧ h.outBatch = outDims b1 b2 bo f.outBatch g.outBatch ∧
      ∀ o, InB (outDims b1 b2 bo f.outBatch g.outBatch) o →
        (∀ τ1 τ2, InB f.lsBatch τ1 → InB g.lsBatch τ2 → ∀ i < f.numCV + g.numCV, ∀ j < f.numCV + g.numCV,
          JP.A (o ++ (τ1 ++ τ2)) i j = if i < f.numCV ∧ j < f.numCV then f.A (restrict (· ∈ b1) bo o ++ τ1) i j
            else if f.numCV ≤ i ∧ f.numCV ≤ j then g.A (restrict (· ∈ b2) bo o ++ τ2) (i - f.numCV) (j - f.numCV) else 0) ∧
        (∀ τ1 τ2, InB f.lsBatch τ1 → InB g.lsBatch τ2 →
          PairConv f (restrict (· ∈ b1) bo o ++ τ1) g (restrict (· ∈ b2) bo o ++ τ2) c1 c2 (c1.filter (· ∈ c2)) →
          Conv JP (o ++ (τ1 ++ τ2)) (zIdx c1 c2) (zcIdx f.numCV c1 c2) (-1)) ∧
        ∀ (ε : List ℕ → List ℕ → ℂ), (∀ τ1 τ2, InB f.lsBatch τ1 → InB g.lsBatch τ2 →
          PairConv f (restrict (· ∈ b1) bo o ++ τ1) g (restrict (· ∈ b2) bo o ++ τ2) c1 c2 (c1.filter (· ∈ c2)) ∧
          (zIdx c1 c2 ≠ [] → ((-1) ^ (zIdx c1 c2).length / (gM (JP.A (o ++ (τ1 ++ τ2))) (zIdx c1 c2) (zcIdx f.numCV c1 c2) (-1)).det) ^ (1 / 2 : ℂ) =
            ε τ1 τ2 * gaussConst (gM (JP.A (o ++ (τ1 ++ τ2))) (zIdx c1 c2) (zcIdx f.numCV c1 c2) (-1))) ∧
          (zIdx c1 c2 = [] → ε τ1 τ2 = 1)) →
          ∀ y, (∀ τ1 τ2, InB f.lsBatch τ1 → InB g.lsBatch τ2 →
            Integrable fun w : Fin (c1.filter (· ∈ c2)).length → ℂ =>
              (f.termAt (restrict (· ∈ b1) bo o ++ τ1) (atLabel c1 (c1.filter (· ∈ c2)) (padFin w) co y) *
              g.termAt (restrict (· ∈ b2) bo o ++ τ2) (atLabel c2 (c1.filter (· ∈ c2)) (padFin fun i => (starRingEnd ℂ) (w i)) co y)) *
              Complex.exp (((-1) * ∑ i, ‖w i‖ ^ 2 : ℝ) : ℂ)) ∧
            h.call o y = nsum f.lsBatch fun τ1 => nsum g.lsBatch fun τ2 => ε τ1 τ2 *
              pairIntegral (c1.filter (· ∈ c2)).length (-1) fun w =>
                f.termAt (restrict (· ∈ b1) bo o ++ τ1) (atLabel c1 (c1.filter (· ∈ c2)) (padFin w) co y) *
                g.termAt (restrict (· ∈ b2) bo o ++ τ2) (atLabel c2 (c1.filter (· ∈ c2)) (padFin fun i => (starRingEnd ℂ) (w i)) co y) := by
  obtain ⟨J, r, r', hJ, hr, hr', hh⟩ := contract_stages hc
  obtain ⟨J', hJ', hJb, hJN, hJv⟩ := contract_join hf hg H.nb1 H.nb2 H.lb1 H.lb2 H.ob1 H.ob2 H.bout H.bsz
  rw [hJ] at hJ'
  cases hJ'
  rw [H.zi_eq, H.zc_eq] at hr
  change cgi1 (J.toPolyExp (f.linSup || g.linSup) (f.derived ++ g.derived)) (zIdx c1 c2) (zcIdx f.numCV c1 c2) (-1) = _ at hr
  have hfd := hf.der
  have hgd := hg.der
  obtain ⟨JP, hJP⟩ : ∃ x, x = J.toPolyExp (f.linSup || g.linSup) (f.derived ++ g.derived) := ⟨_, rfl⟩
  have hnum : JP.numCV = f.numCV + g.numCV := by
    rw [hJP]
    show J.N - (f.derived ++ g.derived).length = _
    rw [hJN]
    simp only [List.length_append, numCV]; omega
  have hJPwf : JP.WF := by
    rw [hJP]
    refine ⟨?_, ?_⟩
    · show (f.derived ++ g.derived).length ≤ J.N
      rw [hJN, List.length_append]; omega
    · intro hls
      show J.batch ≠ []
      change (f.linSup || g.linSup) = true at hls
      rw [hJb]
      intro e
      rw [List.append_eq_nil_iff, List.append_eq_nil_iff] at e
      unfold lsBatch at e
      cases h1 : f.linSup <;> cases h2 : g.linSup <;> simp_all
  have hJPs : SymAll JP := by rw [hJP]; exact joined_symm hf hg sf sg hJ _
  rw [← hJP] at hr
  obtain ⟨hrw, hrn⟩ := cgi1_wf hJPwf hr
  obtain ⟨hrb, hrl, hrd⟩ := cgi1_meta hr
  have hboth : f.linSup = true → g.linSup = true → outDims b1 b2 bo f.outBatch g.outBatch = f.outBatch ∧ g.derived = [] :=
    fun h1 h2 => ⟨outDims_self H (H.both h1 h2).1, (H.both h1 h2).2⟩
  obtain ⟨hw', ho', hn', hv'⟩ := merged_call (D := outDims b1 b2 bo f.outBatch g.outBatch) hrw (by rw [hrb, hJP]; exact hJb)
    (by rw [hrl, hJP]; rfl) (by rw [hrd, hJP]; rfl) hboth hr'
  have hrem : remCV JP.numCV (zIdx c1 c2) (zcIdx f.numCV c1 c2)
      = (List.range (f.numCV + g.numCV)).filter (· ∉ zIdx c1 c2 ++ zcIdx f.numCV c1 c2) := by rw [hnum]; rfl
  have hleft : r'.numCV = (leftover c1 c2).length := by
    rw [hn', hrn, hrem, ← rem_labels H, List.length_map]
  have hperm := out_perm H
  rw [← hleft] at hperm
  have hcol : co.length = r'.numCV := by simpa using hperm.length_eq
  have hco : co.Perm (leftover c1 c2) := by rw [H.leftover_eq]; exact H.out
  have hcon : co.Nodup := (hco.nodup_iff).mpr H.left_nodup
  -- the coordinates of the reordered result
  have hy' : ∀ y : ℕ → ℂ, ∀ i < r'.numCV,
      (fun x => y (co.idxOf ((leftover c1 c2).getD x 0))) ((co.map (leftover c1 c2).idxOf).getD i 0) = y i := by
    intro y i hi
    have hi' : i < co.length := by rw [hcol]; exact hi
    dsimp only
    have hm : co[i] ∈ leftover c1 c2 := hco.mem_iff.mp (List.getElem_mem hi')
    rw [List.getD_eq_getElem (co.map _) _ (by simpa using hi'), List.getElem_map, getD_idxOf hm]
    exact congrArg y (hcon.idxOf_getElem i hi')
  have hre := fun o y => C30_eval r' h hw' _ hperm hh o y
    (fun x => y (co.idxOf ((leftover c1 c2).getD x 0))) (hy' y)
  refine ⟨JP, hJPwf, hJPs, hnum, ?_, ?_, ?_, ?_⟩
  · unfold PolyExp.reorder at hh
    split_ifs at hh
    cases hh
    exact ⟨hw'.der, hw'.ls⟩
  · rw [(hre [] 0).1, hcol]
  · rw [(hre [] 0).2.1, ho']
  · intro o ho
    have hd1 := fun τ1 τ2 h1 h2 => hJv o τ1 τ2 ho h1 h2
    refine ⟨?_, ?_, ?_⟩
    · intro τ1 τ2 h1 h2 i hi j hj
      obtain ⟨_, _, hA, _⟩ := hd1 τ1 τ2 h1 h2
      rw [hJP]
      show J.A _ i j = _
      rw [hA]
      have hNf : f.N = f.numCV + f.derived.length := by unfold numCV; omega
      rw [hNf]
      exact joined_entry _ _ hi hj
    · intro τ1 τ2 h1 h2 hpc
      obtain ⟨_, _, hA, _⟩ := hd1 τ1 τ2 h1 h2
      rw [hJP]
      exact conv_joined H hf hg hJN hA hpc
    · intro ε hε y
      have term : ∀ τ1 τ2, InB f.lsBatch τ1 → InB g.lsBatch τ2 →
          (Integrable fun w : Fin (c1.filter (· ∈ c2)).length → ℂ =>
              (f.termAt (restrict (· ∈ b1) bo o ++ τ1) (atLabel c1 (c1.filter (· ∈ c2)) (padFin w) co y) *
              g.termAt (restrict (· ∈ b2) bo o ++ τ2) (atLabel c2 (c1.filter (· ∈ c2)) (padFin fun i => (starRingEnd ℂ) (w i)) co y)) *
              Complex.exp (((-1) * ∑ i, ‖w i‖ ^ 2 : ℝ) : ℂ)) ∧
          r.termAt (o ++ (τ1 ++ τ2)) (fun x => y (co.idxOf ((leftover c1 c2).getD x 0))) = ε τ1 τ2 *
              pairIntegral (c1.filter (· ∈ c2)).length (-1) fun w =>
                f.termAt (restrict (· ∈ b1) bo o ++ τ1) (atLabel c1 (c1.filter (· ∈ c2)) (padFin w) co y) *
                g.termAt (restrict (· ∈ b2) bo o ++ τ2) (atLabel c2 (c1.filter (· ∈ c2)) (padFin fun i => (starRingEnd ℂ) (w i)) co y) := by
        intro τ1 τ2 h1 h2
        obtain ⟨_, _, hA, hB, hC⟩ := hd1 τ1 τ2 h1 h2
        obtain ⟨hpc, hgc, hg0⟩ := hε τ1 τ2 h1 h2
        have hcv : Conv JP (o ++ (τ1 ++ τ2)) (zIdx c1 c2) (zcIdx f.numCV c1 c2) (-1) := by
          rw [hJP]; exact conv_joined H hf hg hJN hA hpc
        have hlen := zIdx_len c1 c2
        have key := C48_aux hJPwf hJPs (zz_nodup H) hr hcv (ε τ1 τ2) hgc hg0
          (fun x => y (co.idxOf ((leftover c1 c2).getD x 0)))
          (fun w => joinPt f.numCV
            (atLabel c1 (c1.filter (· ∈ c2)) (padFin fun i : Fin (c1.filter (· ∈ c2)).length => w (i.cast hlen.symm)) co y)
            (atLabel c2 (c1.filter (· ∈ c2)) (padFin fun i : Fin (c1.filter (· ∈ c2)).length => (starRingEnd ℂ) (w (i.cast hlen.symm))) co y))
          (by
            intro w
            refine ⟨fun i => ?_, fun i => ?_⟩
            · have hi : (i : ℕ) < (c1.filter (· ∈ c2)).length := lt_of_lt_of_eq i.2 hlen
              rw [(point_z H _ _ y i hi).1]
              unfold padFin
              rw [dif_pos hi]; rfl
            · have hi : (i : ℕ) < (c1.filter (· ∈ c2)).length := lt_of_lt_of_eq i.2 hlen
              rw [(point_z H _ _ y i hi).2]
              unfold padFin
              rw [dif_pos hi]; rfl)
          (by
            intro w i hi
            rw [hrn, hrem] at hi
            rw [hnum]
            exact point_rem H _ _ y i hi)
        have hterm : ∀ z w, JP.termAt (o ++ (τ1 ++ τ2)) (joinPt f.numCV z w) =
            f.termAt (restrict (· ∈ b1) bo o ++ τ1) z * g.termAt (restrict (· ∈ b2) bo o ++ τ2) w := by
          intro z w
          rw [hJP]
          exact (joined_term hf hg hJN hA hB hC z w).2
        simp only [hterm] at key
        exact ⟨(integrable_cast hlen (fun w => f.termAt (restrict (· ∈ b1) bo o ++ τ1) (atLabel c1 (c1.filter (· ∈ c2)) (padFin w) co y) *
            g.termAt (restrict (· ∈ b2) bo o ++ τ2) (atLabel c2 (c1.filter (· ∈ c2)) (padFin fun i => (starRingEnd ℂ) (w i)) co y))).1 key.1,
          key.2.trans (congrArg (HMul.hMul _) (pairIntegral_cast hlen (fun w =>
            f.termAt (restrict (· ∈ b1) bo o ++ τ1) (atLabel c1 (c1.filter (· ∈ c2)) (padFin w) co y) *
            g.termAt (restrict (· ∈ b2) bo o ++ τ2) (atLabel c2 (c1.filter (· ∈ c2)) (padFin fun i => (starRingEnd ℂ) (w i)) co y))))⟩
      refine ⟨fun τ1 τ2 h1 h2 => (term τ1 τ2 h1 h2).1, ?_⟩
      rw [(hre o y).2.2, hv' o _ ho, nsum_append]
      apply nsum_congr
      intro τ1 h1
      apply nsum_congr
      intro τ2 h2
      exact (term τ1 τ2 h1 h2).2

end Verif.PolyExp
