import Verif.Kernel
import Verif.ContractDef

/-!
# Contraction with a kernel: the statement for `contract`
-/

namespace Verif.PolyExp
open Verif.Fock Verif.Batch Verif.Gauss PolyExp MeasureTheory

variable {f g : PolyExp} {b1 c1 b2 c2 bo co : List ℕ}

/-- The stages of `contract`, term by term. -/
theorem contract_terms {h : PolyExp} (hf : f.WF) (hg : g.WF) (sf : SymAll f) (sg : SymAll g) (H : Compat f g b1 c1 b2 c2 bo co)
    (hc : f.contract g b1 c1 b2 c2 bo co = some (.finite h)) :
    ∃ JP r : PolyExp, JP.WF ∧ SymAll JP ∧ JP.numCV = f.numCV + g.numCV ∧ JP.derived = f.derived ++ g.derived ∧
      cgi1 JP (zIdx c1 c2) (zcIdx f.numCV c1 c2) (-1) = some (.finite r) ∧
      h.WF ∧ h.numCV = co.length ∧ h.outBatch = outDims b1 b2 bo f.outBatch g.outBatch ∧
      ∀ o, InB (outDims b1 b2 bo f.outBatch g.outBatch) o →
        (∀ τ1 τ2, InB f.lsBatch τ1 → InB g.lsBatch τ2 →
          JP.A (o ++ (τ1 ++ τ2)) = (fun i j => dsumA f.N (f.A (restrict (· ∈ b1) bo o ++ τ1)) (g.A (restrict (· ∈ b2) bo o ++ τ2))
            ((joinPerm f.numCV f.derived.length g.numCV g.derived.length).getD i 0)
            ((joinPerm f.numCV f.derived.length g.numCV g.derived.length).getD j 0)) ∧
          JP.b (o ++ (τ1 ++ τ2)) = (fun i => dsumB f.N (f.b (restrict (· ∈ b1) bo o ++ τ1)) (g.b (restrict (· ∈ b2) bo o ++ τ2))
            ((joinPerm f.numCV f.derived.length g.numCV g.derived.length).getD i 0)) ∧
          ∀ z w, JP.termAt (o ++ (τ1 ++ τ2)) (joinPt f.numCV z w) =
            f.termAt (restrict (· ∈ b1) bo o ++ τ1) z * g.termAt (restrict (· ∈ b2) bo o ++ τ2) w) ∧
        ∀ y, h.call o y = nsum f.lsBatch fun τ1 => nsum g.lsBatch fun τ2 =>
          r.termAt (o ++ (τ1 ++ τ2)) fun x => y (co.idxOf ((leftover c1 c2).getD x 0)) := by
  obtain ⟨J, r, r', hJ, hr, hr', hh⟩ := contract_stages hc
  obtain ⟨J', hJ', hJb, hJN, hJv⟩ := contract_join hf hg H.nb1 H.nb2 H.lb1 H.lb2 H.ob1 H.ob2 H.bout H.bsz
  rw [hJ] at hJ'
  cases hJ'
  rw [H.zi_eq, H.zc_eq] at hr
  change cgi1 (J.toPolyExp (f.linSup || g.linSup) (f.derived ++ g.derived)) (zIdx c1 c2) (zcIdx f.numCV c1 c2) (-1) = _ at hr
  have hfd := hf.der
  have hgd := hg.der
  obtain ⟨JP, hJP⟩ : ∃ x, x = J.toPolyExp (f.linSup || g.linSup) (f.derived ++ g.derived) := ⟨_, rfl⟩
  have hnum : JP.numCV = f.numCV + g.numCV := by
    rw [hJP]
    show J.N - (f.derived ++ g.derived).length = _
    rw [hJN]
    simp only [List.length_append, numCV]; omega
  have hJPwf : JP.WF := by
    rw [hJP]
    refine ⟨?_, ?_⟩
    · show (f.derived ++ g.derived).length ≤ J.N
      rw [hJN, List.length_append]; omega
    · intro hls
      show J.batch ≠ []
      change (f.linSup || g.linSup) = true at hls
      rw [hJb]
      intro e
      rw [List.append_eq_nil_iff, List.append_eq_nil_iff] at e
      unfold lsBatch at e
      cases h1 : f.linSup <;> cases h2 : g.linSup <;> simp_all
  have hJPs : SymAll JP := by rw [hJP]; exact joined_symm hf hg sf sg hJ _
  rw [← hJP] at hr
  obtain ⟨hrw, hrn⟩ := cgi1_wf hJPwf hr
  obtain ⟨hrb, hrl, hrd⟩ := cgi1_meta hr
  have hboth : f.linSup = true → g.linSup = true → outDims b1 b2 bo f.outBatch g.outBatch = f.outBatch ∧ g.derived = [] :=
    fun h1 h2 => ⟨outDims_self H (H.both h1 h2).1, (H.both h1 h2).2⟩
  obtain ⟨hw', ho', hn', hv'⟩ := merged_call (D := outDims b1 b2 bo f.outBatch g.outBatch) hrw (by rw [hrb, hJP]; exact hJb)
    (by rw [hrl, hJP]; rfl) (by rw [hrd, hJP]; rfl) hboth hr'
  have hrem : remCV JP.numCV (zIdx c1 c2) (zcIdx f.numCV c1 c2)
      = (List.range (f.numCV + g.numCV)).filter (· ∉ zIdx c1 c2 ++ zcIdx f.numCV c1 c2) := by rw [hnum]; rfl
  have hleft : r'.numCV = (leftover c1 c2).length := by
    rw [hn', hrn, hrem, ← rem_labels H, List.length_map]
  have hperm := out_perm H
  rw [← hleft] at hperm
  have hcol : co.length = r'.numCV := by simpa using hperm.length_eq
  have hco : co.Perm (leftover c1 c2) := by rw [H.leftover_eq]; exact H.out
  have hcon : co.Nodup := (hco.nodup_iff).mpr H.left_nodup
  -- the coordinates of the reordered result
  have hy' : ∀ y : ℕ → ℂ, ∀ i < r'.numCV,
      (fun x => y (co.idxOf ((leftover c1 c2).getD x 0))) ((co.map (leftover c1 c2).idxOf).getD i 0) = y i := by
    intro y i hi
    have hi' : i < co.length := by rw [hcol]; exact hi
    dsimp only
    have hm : co[i] ∈ leftover c1 c2 := hco.mem_iff.mp (List.getElem_mem hi')
    rw [List.getD_eq_getElem (co.map _) _ (by simpa using hi'), List.getElem_map, getD_idxOf hm]
    exact congrArg y (hcon.idxOf_getElem i hi')
  have hre := fun o y => C30_eval r' h hw' _ hperm hh o y
    (fun x => y (co.idxOf ((leftover c1 c2).getD x 0))) (hy' y)
  refine ⟨JP, r, hJPwf, hJPs, hnum, by rw [hJP]; rfl, hr, ?_, ?_, ?_, ?_⟩
  · unfold PolyExp.reorder at hh
    split_ifs at hh
    cases hh
    exact ⟨hw'.der, hw'.ls⟩
  · rw [(hre [] 0).1, hcol]
  · rw [(hre [] 0).2.1, ho']
  · intro o ho
    refine ⟨?_, ?_⟩
    · intro τ1 τ2 h1 h2
      obtain ⟨_, _, hA, hB, hC⟩ := hJv o τ1 τ2 ho h1 h2
      refine ⟨by rw [hJP]; exact hA, by rw [hJP]; exact hB, ?_⟩
      intro z w
      rw [hJP]
      exact (joined_term hf hg hJN hA hB hC z w).2
    · intro y
      rw [(hre o y).2.2, hv' o _ ho, nsum_append]

/-- The linear form of the shared variables of a kernel `k`, at the point `y` of the other variables: the coefficient of the `p`-th
shared label in the exponent, `b_l + ∑_l' A_l'l y_l'`. -/
noncomputable def kernelPt (k : PolyExp) (β c S co : List ℕ) (y : ℕ → ℂ) (p : ℕ) : ℂ :=
  k.b β (c.idxOf (S.getD p 0)) + ∑ j ∈ Finset.range k.numCV, k.A β j (c.idxOf (S.getD p 0)) * atLabel c S 0 co y j

/-- The block of `A` on the variables with labels in `S` is zero. -/
def ZeroBlock (k : PolyExp) (c S : List ℕ) : Prop :=
  ∀ β, ∀ i < k.numCV, ∀ j < k.numCV, c.getD i 0 ∈ S → c.getD j 0 ∈ S → k.A β i j = 0

theorem zIdx_lab (H : Compat f g b1 c1 b2 c2 bo co) {i : ℕ} (hi : i < (zIdx c1 c2).length) :
    (zIdx c1 c2).getD i 0 = c1.idxOf ((c1.filter (· ∈ c2)).getD i 0) ∧
    (zcIdx f.numCV c1 c2).getD i 0 = f.numCV + c2.idxOf ((c1.filter (· ∈ c2)).getD i 0) ∧
    c1.idxOf ((c1.filter (· ∈ c2)).getD i 0) < f.numCV ∧ c2.idxOf ((c1.filter (· ∈ c2)).getD i 0) < g.numCV ∧
    c1.getD (c1.idxOf ((c1.filter (· ∈ c2)).getD i 0)) 0 ∈ c1.filter (· ∈ c2) ∧
    c2.getD (c2.idxOf ((c1.filter (· ∈ c2)).getD i 0)) 0 ∈ c1.filter (· ∈ c2) := by
  rw [zIdx_len] at hi
  have hS : (c1.filter (· ∈ c2)).getD i 0 ∈ c1.filter (· ∈ c2) := by
    rw [List.getD_eq_getElem _ _ hi]; exact List.getElem_mem hi
  obtain ⟨m1, m2⟩ := mem_sharedL.mp hS
  refine ⟨?_, ?_, ?_, ?_, ?_, ?_⟩
  · unfold zIdx
    rw [List.getD_eq_getElem _ _ (by simpa using hi), List.getElem_map, List.getD_eq_getElem _ _ hi]
  · unfold zcIdx
    rw [List.getD_eq_getElem _ _ (by simpa using hi), List.getElem_map, List.getElem_map, List.getD_eq_getElem _ _ hi]
  · rw [← H.lc1]; exact List.idxOf_lt_length_iff.mpr m1
  · rw [← H.lc2]; exact List.idxOf_lt_length_iff.mpr m2
  · rw [getD_idxOf m1]; exact hS
  · rw [getD_idxOf m2]; exact hS

/-- Contraction is never infinite when one of the shared blocks is zero. -/
theorem kernel_finite (hf : f.WF) (hg : g.WF) (sf : SymAll f) (sg : SymAll g) (H : Compat f g b1 c1 b2 c2 bo co)
    (hk : ZeroBlock f c1 (c1.filter (· ∈ c2)) ∨ ZeroBlock g c2 (c1.filter (· ∈ c2))) :
    ∃ h, f.contract g b1 c1 b2 c2 bo co = some (.finite h) := by
  obtain ⟨h1, h2⟩ := C16_defined hf hg H
  rcases hres : f.contract g b1 c1 b2 c2 bo co with _ | (_ | h)
  · exact absurd hres h1
  · exfalso
    obtain ⟨_, o, τ1, τ2, ho, ht1, ht2, hd⟩ := h2.1 hres
    have hdet : (overlapMatrix f (restrict (· ∈ b1) bo o ++ τ1) g (restrict (· ∈ b2) bo o ++ τ2) c1 c2).det = (-1) ^ (c1.filter (· ∈ c2)).length := by
      have F : ∀ i : Fin (c1.filter (· ∈ c2)).length, _ := fun i => zIdx_lab H (i := i) (by rw [zIdx_len]; exact i.2)
      rcases hk with hk | hk
      · rw [← block_det_z (Matrix.of fun i j : Fin (c1.filter (· ∈ c2)).length =>
          g.A (restrict (· ∈ b2) bo o ++ τ2) (c2.idxOf ((c1.filter (· ∈ c2)).getD i 0)) (c2.idxOf ((c1.filter (· ∈ c2)).getD j 0)))]
        unfold overlapMatrix
        congr 2
        ext i j
        exact hk _ _ (F i).2.2.1 _ (F j).2.2.1 (F i).2.2.2.2.1 (F j).2.2.2.2.1
      · rw [← block_det_zc (Matrix.of fun i j : Fin (c1.filter (· ∈ c2)).length =>
          f.A (restrict (· ∈ b1) bo o ++ τ1) (c1.idxOf ((c1.filter (· ∈ c2)).getD i 0)) (c1.idxOf ((c1.filter (· ∈ c2)).getD j 0)))]
        unfold overlapMatrix
        congr 2
        ext i j
        exact hk _ _ (F i).2.2.2.1 _ (F j).2.2.2.1 (F i).2.2.2.2.2 (F j).2.2.2.2.2
    rw [hdet, norm_pow, norm_neg, norm_one, one_pow] at hd
    norm_num at hd
  · exact ⟨h, rfl⟩

/-- The entries of the joined arrays that involve an integrated variable. -/
theorem joined_b {n1 m1 n2 m2 : ℕ} (B1 B2 : ℕ → ℂ) :
    (∀ i < n1, dsumB (n1 + m1) B1 B2 ((joinPerm n1 m1 n2 m2).getD i 0) = B1 i) ∧
    ∀ i < n2, dsumB (n1 + m1) B1 B2 ((joinPerm n1 m1 n2 m2).getD (n1 + i) 0) = B2 i := by
  obtain ⟨p1, p2, _, _⟩ := joinPerm_get n1 m1 n2 m2
  constructor
  · intro i hi
    rw [p1 i hi, dsumB, if_pos (by omega)]
  · intro i hi
    rw [p2 i hi, dsumB, if_neg (by omega), Nat.add_sub_cancel_left]

theorem nsum_comm (s t : List ℕ) (F : List ℕ → List ℕ → ℂ) :
    (nsum s fun k => nsum t fun l => F k l) = nsum t fun l => nsum s fun k => F k l := by
  unfold nsum
  generalize ndindex s = A
  generalize ndindex t = B
  induction A with
  | nil => simp
  | cons a A ih => simp only [List.map_cons, List.sum_cons, ih, List.sum_map_add]

/-- **Contraction with a kernel on the right.** -/
theorem contract_kernel_right (hf : f.WF) (hg : g.WF) (sf : SymAll f) (sg : SymAll g) (H : Compat f g b1 c1 b2 c2 bo co)
    (hgd : g.derived = []) (hk : ZeroBlock g c2 (c1.filter (· ∈ c2))) :
    ∃ h, f.contract g b1 c1 b2 c2 bo co = some (.finite h) ∧ h.WF ∧ h.numCV = co.length ∧
      h.outBatch = outDims b1 b2 bo f.outBatch g.outBatch ∧
      ∀ o, InB (outDims b1 b2 bo f.outBatch g.outBatch) o → ∀ y, h.call o y = nsum g.lsBatch fun τ2 =>
        f.call (restrict (· ∈ b1) bo o)
            (atLabel c1 (c1.filter (· ∈ c2)) (kernelPt g (restrict (· ∈ b2) bo o ++ τ2) c2 (c1.filter (· ∈ c2)) co y) co y) *
          g.termAt (restrict (· ∈ b2) bo o ++ τ2) (atLabel c2 (c1.filter (· ∈ c2)) 0 co y) := by
  obtain ⟨h, hc⟩ := kernel_finite hf hg sf sg H (Or.inr hk)
  obtain ⟨JP, r, hJw, hJs, hJn, hJd, hr, hw, hn, ho', hv⟩ := contract_terms hf hg sf sg H hc
  refine ⟨h, hc, hw, hn, ho', ?_⟩
  intro o ho y
  obtain ⟨hd, hcall⟩ := hv o ho
  have hl : (zIdx c1 c2).length = (zcIdx f.numCV c1 c2).length := by rw [zIdx_len, zcIdx_len]
  have hlt : ∀ i ∈ zIdx c1 c2 ++ zcIdx f.numCV c1 c2, i < JP.numCV := by
    intro i hi
    rw [hJn]
    rw [List.mem_append] at hi
    rcases hi with hi | hi
    · have := zIdx_lt H hi; omega
    · exact (zcIdx_range H hi).2
  have hNf : f.N = f.numCV + f.derived.length := by have := hf.der; unfold numCV; omega
  rw [hcall y, nsum_comm]
  apply nsum_congr
  intro τ2 h2
  rw [call_eq_nsum, ← nsum_mul_right]
  apply nsum_congr
  intro τ1 h1
  obtain ⟨hA, hB, hT⟩ := hd τ1 τ2 h1 h2
  have L := fun i (hi : i < (zIdx c1 c2).length) => zIdx_lab H hi
  have hE : ∀ i < f.numCV + g.numCV, ∀ j < f.numCV + g.numCV, JP.A (o ++ (τ1 ++ τ2)) i j =
      if i < f.numCV ∧ j < f.numCV then f.A (restrict (· ∈ b1) bo o ++ τ1) i j
        else if f.numCV ≤ i ∧ f.numCV ≤ j then g.A (restrict (· ∈ b2) bo o ++ τ2) (i - f.numCV) (j - f.numCV) else 0 := by
    intro i hi j hj
    rw [hA, hNf]
    exact joined_entry _ _ hi hj
  rw [← hT]
  obtain ⟨X, hX⟩ : ∃ X, X = joinPt f.numCV
    (atLabel c1 (c1.filter (· ∈ c2)) (kernelPt g (restrict (· ∈ b2) bo o ++ τ2) c2 (c1.filter (· ∈ c2)) co y) co y)
    (atLabel c2 (c1.filter (· ∈ c2)) 0 co y) := ⟨_, rfl⟩
  rw [← hX]
  have hrem : ∀ i < (remCV JP.numCV (zIdx c1 c2) (zcIdx f.numCV c1 c2)).length,
      X ((remCV JP.numCV (zIdx c1 c2) (zcIdx f.numCV c1 c2)).getD i 0) = y (co.idxOf ((leftover c1 c2).getD i 0)) := by
    intro i hi
    rw [hX]
    rw [hJn] at hi ⊢
    exact point_rem H _ _ y i hi
  rcases cgi1_data hr with ⟨_, _, ⟨h0, rfl⟩ | ⟨h0, rfl⟩⟩
  · unfold termAt
    refine termVal_congr (fun _ _ _ _ => rfl) (fun _ _ => rfl) (fun _ _ => rfl) ?_
    intro i hi
    have hz : zcIdx f.numCV c1 c2 = [] := List.length_eq_zero_iff.1 (by rw [← hl, h0]; rfl)
    have e : (remCV r.numCV (zIdx c1 c2) (zcIdx f.numCV c1 c2)) = List.range r.numCV := by
      rw [h0, hz]; unfold remCV; simp
    rw [e] at hrem
    have := hrem i (by simpa using hi)
    rw [List.getD_eq_getElem _ _ (by simpa using hi), List.getElem_range] at this
    exact this.symm
  · have P := fun i (hi : i < (zIdx c1 c2).length) =>
      point_z H (kernelPt g (restrict (· ∈ b2) bo o ++ τ2) c2 (c1.filter (· ∈ c2)) co y) 0 y i (by rw [← zIdx_len]; exact hi)
    refine (cgi_kernel_zc hJw hJs hl (zz_nodup H) hlt ?_ ?_ ?_ ?_ ?_ hrem).2
    · intro i hi j hj
      obtain ⟨_, z1, _, z2, _, z3⟩ := L i hi
      obtain ⟨_, w1, _, w2, _, w3⟩ := L j hj
      rw [z1, w1, hE _ (by omega) _ (by omega), if_neg (by omega), if_pos (by omega), Nat.add_sub_cancel_left, Nat.add_sub_cancel_left]
      exact hk _ _ z2 _ w2 z3 w3
    · intro i hi j hj
      obtain ⟨z1, _, z2, _, _, _⟩ := L i hi
      obtain ⟨_, w1, _, w2, _, w3⟩ := L j hj
      rw [z1, w1, hE _ (by omega) _ (by omega), if_neg (by omega), if_neg (by omega)]
    · intro j hj i hi
      obtain ⟨_, z1, _, z2, _, z3⟩ := L i hi
      rw [hJd, hgd, List.append_nil] at hj
      rw [z1, hA, hJn, hNf]
      dsimp only
      obtain ⟨_, p2, p3, _⟩ := joinPerm_get f.numCV f.derived.length g.numCV g.derived.length
      rw [p3 j hj, p2 _ z2, dsumA, if_neg (by omega), if_neg (by omega)]
    · intro i hi
      obtain ⟨_, z1, _, z2, _, z3⟩ := L i hi
      rw [hX, (P i hi).1, z1, kernelPt]
      refine congr (congrArg HAdd.hAdd ?_) ?_
      · rw [hB, hNf]
        exact ((joined_b _ _).2 _ z2).symm
      · have hs := sum_split hl (zz_nodup H) hlt (fun a => X a * JP.A (o ++ (τ1 ++ τ2)) a (f.numCV + c2.idxOf ((c1.filter (· ∈ c2)).getD i 0)))
        have s0 : ∑ p, X (pos (zIdx c1 c2) (zcIdx f.numCV c1 c2) p) * JP.A (o ++ (τ1 ++ τ2)) (pos (zIdx c1 c2) (zcIdx f.numCV c1 c2) p)
            (f.numCV + c2.idxOf ((c1.filter (· ∈ c2)).getD i 0)) = 0 := by
          apply Finset.sum_eq_zero
          rintro (p | p) _
          · obtain ⟨w1, _, w2, _⟩ := L p p.2
            simp only [pos, Sum.elim_inl]
            rw [w1, hE _ (by omega) _ (by omega), if_neg (by omega), if_neg (by omega), mul_zero]
          · obtain ⟨_, w1, _, w2, _, w3⟩ := L p p.2
            simp only [pos, Sum.elim_inr]
            rw [w1, hE _ (by omega) _ (by omega), if_neg (by omega), if_pos (by omega), Nat.add_sub_cancel_left, Nat.add_sub_cancel_left,
              hk _ _ w2 _ z2 w3 z3, mul_zero]
        rw [s0, zero_add] at hs
        have s1 : ∑ a ∈ Finset.range (remCV JP.numCV (zIdx c1 c2) (zcIdx f.numCV c1 c2)).length,
            y (co.idxOf ((leftover c1 c2).getD a 0)) * JP.A (o ++ (τ1 ++ τ2)) ((remCV JP.numCV (zIdx c1 c2) (zcIdx f.numCV c1 c2)).getD a 0)
              (f.numCV + c2.idxOf ((c1.filter (· ∈ c2)).getD i 0)) =
            ∑ a ∈ Finset.range (remCV JP.numCV (zIdx c1 c2) (zcIdx f.numCV c1 c2)).length,
            X ((remCV JP.numCV (zIdx c1 c2) (zcIdx f.numCV c1 c2)).getD a 0) *
              JP.A (o ++ (τ1 ++ τ2)) ((remCV JP.numCV (zIdx c1 c2) (zcIdx f.numCV c1 c2)).getD a 0)
              (f.numCV + c2.idxOf ((c1.filter (· ∈ c2)).getD i 0)) := by
          refine Finset.sum_congr rfl fun a ha => ?_
          rw [hrem a (Finset.mem_range.1 ha)]
        rw [s1, ← hs, hJn, Finset.sum_range_add]
        have s2 : ∑ a ∈ Finset.range f.numCV, X a * JP.A (o ++ (τ1 ++ τ2)) a (f.numCV + c2.idxOf ((c1.filter (· ∈ c2)).getD i 0)) = 0 := by
          apply Finset.sum_eq_zero
          intro a ha
          have ha := Finset.mem_range.1 ha
          rw [hE _ (by omega) _ (by omega), if_neg (by omega), if_neg (by omega), mul_zero]
        rw [s2, zero_add]
        refine Finset.sum_congr rfl fun a ha => ?_
        have ha := Finset.mem_range.1 ha
        rw [hE _ (by omega) _ (by omega), if_neg (by omega), if_pos (by omega), Nat.add_sub_cancel_left, Nat.add_sub_cancel_left, hX, joinPt,
          if_neg (by omega), Nat.add_sub_cancel_left, mul_comm]
    · intro i hi
      rw [hX, (P i hi).2]; rfl

/-- **Contraction with a kernel on the left.** -/
theorem contract_kernel_left (hf : f.WF) (hg : g.WF) (sf : SymAll f) (sg : SymAll g) (H : Compat f g b1 c1 b2 c2 bo co)
    (hfd : f.derived = []) (hk : ZeroBlock f c1 (c1.filter (· ∈ c2))) :
    ∃ h, f.contract g b1 c1 b2 c2 bo co = some (.finite h) ∧ h.WF ∧ h.numCV = co.length ∧
      h.outBatch = outDims b1 b2 bo f.outBatch g.outBatch ∧
      ∀ o, InB (outDims b1 b2 bo f.outBatch g.outBatch) o → ∀ y, h.call o y = nsum f.lsBatch fun τ1 =>
        f.termAt (restrict (· ∈ b1) bo o ++ τ1) (atLabel c1 (c1.filter (· ∈ c2)) 0 co y) *
          g.call (restrict (· ∈ b2) bo o)
            (atLabel c2 (c1.filter (· ∈ c2)) (kernelPt f (restrict (· ∈ b1) bo o ++ τ1) c1 (c1.filter (· ∈ c2)) co y) co y) := by
  obtain ⟨h, hc⟩ := kernel_finite hf hg sf sg H (Or.inl hk)
  obtain ⟨JP, r, hJw, hJs, hJn, hJd, hr, hw, hn, ho', hv⟩ := contract_terms hf hg sf sg H hc
  refine ⟨h, hc, hw, hn, ho', ?_⟩
  intro o ho y
  obtain ⟨hd, hcall⟩ := hv o ho
  have hl : (zIdx c1 c2).length = (zcIdx f.numCV c1 c2).length := by rw [zIdx_len, zcIdx_len]
  have hlt : ∀ i ∈ zIdx c1 c2 ++ zcIdx f.numCV c1 c2, i < JP.numCV := by
    intro i hi
    rw [hJn]
    rw [List.mem_append] at hi
    rcases hi with hi | hi
    · have := zIdx_lt H hi; omega
    · exact (zcIdx_range H hi).2
  have hNf : f.N = f.numCV + f.derived.length := by have := hf.der; unfold numCV; omega
  rw [hcall y]
  apply nsum_congr
  intro τ1 h1
  rw [call_eq_nsum, ← nsum_mul_left]
  apply nsum_congr
  intro τ2 h2
  obtain ⟨hA, hB, hT⟩ := hd τ1 τ2 h1 h2
  have L := fun i (hi : i < (zIdx c1 c2).length) => zIdx_lab H hi
  have hE : ∀ i < f.numCV + g.numCV, ∀ j < f.numCV + g.numCV, JP.A (o ++ (τ1 ++ τ2)) i j =
      if i < f.numCV ∧ j < f.numCV then f.A (restrict (· ∈ b1) bo o ++ τ1) i j
        else if f.numCV ≤ i ∧ f.numCV ≤ j then g.A (restrict (· ∈ b2) bo o ++ τ2) (i - f.numCV) (j - f.numCV) else 0 := by
    intro i hi j hj
    rw [hA, hNf]
    exact joined_entry _ _ hi hj
  rw [← hT]
  obtain ⟨X, hX⟩ : ∃ X, X = joinPt f.numCV
    (atLabel c1 (c1.filter (· ∈ c2)) 0 co y)
    (atLabel c2 (c1.filter (· ∈ c2)) (kernelPt f (restrict (· ∈ b1) bo o ++ τ1) c1 (c1.filter (· ∈ c2)) co y) co y) := ⟨_, rfl⟩
  rw [← hX]
  have hrem : ∀ i < (remCV JP.numCV (zIdx c1 c2) (zcIdx f.numCV c1 c2)).length,
      X ((remCV JP.numCV (zIdx c1 c2) (zcIdx f.numCV c1 c2)).getD i 0) = y (co.idxOf ((leftover c1 c2).getD i 0)) := by
    intro i hi
    rw [hX]
    rw [hJn] at hi ⊢
    exact point_rem H _ _ y i hi
  rcases cgi1_data hr with ⟨_, _, ⟨h0, rfl⟩ | ⟨h0, rfl⟩⟩
  · unfold termAt
    refine termVal_congr (fun _ _ _ _ => rfl) (fun _ _ => rfl) (fun _ _ => rfl) ?_
    intro i hi
    have hz : zcIdx f.numCV c1 c2 = [] := List.length_eq_zero_iff.1 (by rw [← hl, h0]; rfl)
    have e : (remCV r.numCV (zIdx c1 c2) (zcIdx f.numCV c1 c2)) = List.range r.numCV := by
      rw [h0, hz]; unfold remCV; simp
    rw [e] at hrem
    have := hrem i (by simpa using hi)
    rw [List.getD_eq_getElem _ _ (by simpa using hi), List.getElem_range] at this
    exact this.symm
  · have P := fun i (hi : i < (zIdx c1 c2).length) =>
      point_z H 0 (kernelPt f (restrict (· ∈ b1) bo o ++ τ1) c1 (c1.filter (· ∈ c2)) co y) y i (by rw [← zIdx_len]; exact hi)
    refine (cgi_kernel_z hJw hJs hl (zz_nodup H) hlt ?_ ?_ ?_ ?_ ?_ hrem).2
    · intro i hi j hj
      obtain ⟨z1, _, z2, _, z3, _⟩ := L i hi
      obtain ⟨w1, _, w2, _, w3, _⟩ := L j hj
      rw [z1, w1, hE _ (by omega) _ (by omega), if_pos (by omega)]
      exact hk _ _ z2 _ w2 z3 w3
    · intro i hi j hj
      obtain ⟨z1, _, z2, _, _, _⟩ := L i hi
      obtain ⟨_, w1, _, w2, _, w3⟩ := L j hj
      rw [z1, w1, hE _ (by omega) _ (by omega), if_neg (by omega), if_neg (by omega)]
    · intro j hj i hi
      obtain ⟨z1, _, z2, _, z3, _⟩ := L i hi
      rw [hJd, hfd, List.nil_append] at hj
      rw [z1, hA, hJn, hNf]
      dsimp only
      obtain ⟨p1, _, _, p4⟩ := joinPerm_get f.numCV f.derived.length g.numCV g.derived.length
      have p4' := p4 j hj
      rw [hfd, List.length_nil, Nat.zero_add, Nat.add_zero] at p4'
      rw [p1 _ z2, hfd, List.length_nil, p4', dsumA, if_neg (by omega), if_neg (by omega)]
    · intro i hi
      obtain ⟨z1, zz, z2, _, z3, _⟩ := L i hi
      rw [hX, (P i hi).2, z1, kernelPt]
      refine congr (congrArg HAdd.hAdd ?_) ?_
      · rw [hB, hNf]
        exact ((joined_b _ _).1 _ z2).symm
      · have hs := sum_split hl (zz_nodup H) hlt (fun a => X a * JP.A (o ++ (τ1 ++ τ2)) a (c1.idxOf ((c1.filter (· ∈ c2)).getD i 0)))
        have s0 : ∑ p, X (pos (zIdx c1 c2) (zcIdx f.numCV c1 c2) p) * JP.A (o ++ (τ1 ++ τ2)) (pos (zIdx c1 c2) (zcIdx f.numCV c1 c2) p)
            (c1.idxOf ((c1.filter (· ∈ c2)).getD i 0)) = 0 := by
          apply Finset.sum_eq_zero
          rintro (p | p) _
          · obtain ⟨w1, _, w2, _, w3, _⟩ := L p p.2
            simp only [pos, Sum.elim_inl]
            rw [w1, hE _ (by omega) _ (by omega), if_pos (by omega), hk _ _ w2 _ z2 w3 z3, mul_zero]
          · obtain ⟨_, w1, _, w2, _, w3⟩ := L p p.2
            simp only [pos, Sum.elim_inr]
            rw [w1, hE _ (by omega) _ (by omega), if_neg (by omega), if_neg (by omega), mul_zero]
        rw [s0, zero_add] at hs
        have s1 : ∑ a ∈ Finset.range (remCV JP.numCV (zIdx c1 c2) (zcIdx f.numCV c1 c2)).length,
            y (co.idxOf ((leftover c1 c2).getD a 0)) * JP.A (o ++ (τ1 ++ τ2)) ((remCV JP.numCV (zIdx c1 c2) (zcIdx f.numCV c1 c2)).getD a 0)
              (c1.idxOf ((c1.filter (· ∈ c2)).getD i 0)) =
            ∑ a ∈ Finset.range (remCV JP.numCV (zIdx c1 c2) (zcIdx f.numCV c1 c2)).length,
            X ((remCV JP.numCV (zIdx c1 c2) (zcIdx f.numCV c1 c2)).getD a 0) *
              JP.A (o ++ (τ1 ++ τ2)) ((remCV JP.numCV (zIdx c1 c2) (zcIdx f.numCV c1 c2)).getD a 0)
              (c1.idxOf ((c1.filter (· ∈ c2)).getD i 0)) := by
          refine Finset.sum_congr rfl fun a ha => ?_
          rw [hrem a (Finset.mem_range.1 ha)]
        rw [s1, ← hs, hJn, Finset.sum_range_add]
        have s2 : ∑ a ∈ Finset.range g.numCV, X (f.numCV + a) * JP.A (o ++ (τ1 ++ τ2)) (f.numCV + a) (c1.idxOf ((c1.filter (· ∈ c2)).getD i 0)) = 0 := by
          apply Finset.sum_eq_zero
          intro a ha
          have ha := Finset.mem_range.1 ha
          rw [hE _ (by omega) _ (by omega), if_neg (by omega), if_neg (by omega), mul_zero]
        rw [s2, add_zero]
        refine Finset.sum_congr rfl fun a ha => ?_
        have ha := Finset.mem_range.1 ha
        rw [hE _ (by omega) _ (by omega), if_pos (by omega), hX, joinPt, if_pos ha, mul_comm]
    · intro i hi
      rw [hX, (P i hi).1]; rfl

end Verif.PolyExp
