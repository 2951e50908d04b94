import Verif.ContractKernel
import Verif.ToBargmann

/-!
# The stages of a contraction without batch (for C111)
-/

namespace Verif.Mixed
open Verif.Fock Verif.Batch Verif.PolyExp PolyExp

variable {f g : PolyExp} {c1 c2 co : List ℕ}

theorem cgiTrue_sym {f : PolyExp} (hf : f.WF) (hs : SymAll f) {zi zc : List ℕ} (hl : zi.length = zc.length) (hlt : ∀ i ∈ zi ++ zc, i < f.numCV) (s : ℝ) :
    SymAll (cgiTrue f zi zc s) := by
  have hNd : f.numCV + f.derived.length = f.N := by have := hf.der; simp only [numCV]; omega
  intro β i hi j hj
  have hm : ∀ i < (notIdx f.N zi zc).length, (notIdx f.N zi zc).getD i 0 < f.N := by
    intro i hi
    have : (notIdx f.N zi zc).getD i 0 ∈ notIdx f.N zi zc := by
      rw [List.getD_eq_getElem _ _ hi]; exact List.getElem_mem hi
    unfold notIdx at this
    exact List.mem_range.1 (List.mem_filter.1 this).1
  change i < (notIdx f.N zi zc).length at hi
  change j < (notIdx f.N zi zc).length at hj
  unfold cgiTrue
  dsimp only
  rw [hs β _ (hm i hi) _ (hm j hj), invB_eq_sum, invB_eq_sum, invB_comm]
  exact gM_symm s hl hlt (fun i hi j hj => hs β i (by omega) j (by omega))

theorem reorder_sym {r h : PolyExp} (hr : r.WF) (hs : SymAll r) {o : List ℕ} (ho : o.Perm (List.range r.numCV)) (hh : r.reorder o = some h) : SymAll h := by
  have hNd : r.numCV + r.derived.length = r.N := by have := hr.der; simp only [numCV]; omega
  have hol : o.length = r.numCV := by simpa using ho.length_eq
  unfold PolyExp.reorder at hh
  rw [if_neg (not_not.2 hol)] at hh
  cases hh
  intro β i hi j hj
  have hm : ∀ i < r.N, (o ++ List.range' r.numCV r.derived.length).getD i 0 < r.N := by
    intro i hi
    have hi' : i < (o ++ List.range' r.numCV r.derived.length).length := by simp; omega
    have : (o ++ List.range' r.numCV r.derived.length).getD i 0 ∈ o ++ List.range' r.numCV r.derived.length := by
      rw [List.getD_eq_getElem _ _ hi']; exact List.getElem_mem hi'
    rw [List.mem_append] at this
    rcases this with h | h
    · have := List.mem_range.1 (ho.mem_iff.1 h); omega
    · have := List.mem_range'_1.1 h; omega
  exact hs β _ (hm i hi) _ (hm j hj)

/-- The stages of `contract` for two ansätze without batch and superposition. -/
theorem stages {h : PolyExp} (hf : f.WF) (hg : g.WF) (sf : SymAll f) (sg : SymAll g) (fl : f.linSup = false) (gl : g.linSup = false) (fb : f.batch = []) (gb : g.batch = [])
    (H : Compat f g [] c1 [] c2 [] co) (hc : f.contract g [] c1 [] c2 [] co = some (.finite h)) :
    ∃ JP r : PolyExp, JP.WF ∧ SymAll JP ∧ JP.numCV = f.numCV + g.numCV ∧ JP.derived = f.derived ++ g.derived ∧
      cgi1 JP (zIdx c1 c2) (zcIdx f.numCV c1 c2) (-1) = some (.finite r) ∧ h.WF ∧ h.numCV = co.length ∧ SymAll h ∧ h.linSup = false ∧ h.batch = [] ∧
      JP.A [] = (fun i j => dsumA f.N (f.A []) (g.A []) ((joinPerm f.numCV f.derived.length g.numCV g.derived.length).getD i 0)
        ((joinPerm f.numCV f.derived.length g.numCV g.derived.length).getD j 0)) ∧
      JP.b [] = (fun i => dsumB f.N (f.b []) (g.b []) ((joinPerm f.numCV f.derived.length g.numCV g.derived.length).getD i 0)) ∧
      (∀ k, JP.c [] k = f.c [] (k.take f.derived.length) * g.c [] (k.drop f.derived.length)) ∧
      ∀ y, h.call [] y = r.termAt [] fun x => y (co.idxOf ((leftover c1 c2).getD x 0)) := by
  obtain ⟨J, r, r', hJ, hr, hr', hh⟩ := contract_stages hc
  obtain ⟨J', hJ', hJb, hJN, hJv⟩ := contract_join hf hg H.nb1 H.nb2 H.lb1 H.lb2 H.ob1 H.ob2 H.bout H.bsz
  rw [hJ] at hJ'
  cases hJ'
  rw [H.zi_eq, H.zc_eq] at hr
  change cgi1 (J.toPolyExp (f.linSup || g.linSup) (f.derived ++ g.derived)) (zIdx c1 c2) (zcIdx f.numCV c1 c2) (-1) = _ at hr
  have hfd := hf.der
  have hgd := hg.der
  have lf : f.lsBatch = [] := by unfold lsBatch; rw [fl]; rfl
  have lg : g.lsBatch = [] := by unfold lsBatch; rw [gl]; rfl
  obtain ⟨JP, hJP⟩ : ∃ x, x = J.toPolyExp (f.linSup || g.linSup) (f.derived ++ g.derived) := ⟨_, rfl⟩
  have hnum : JP.numCV = f.numCV + g.numCV := by
    rw [hJP]
    show J.N - (f.derived ++ g.derived).length = _
    rw [hJN]
    simp only [List.length_append, numCV]; omega
  have hJPwf : JP.WF := by
    rw [hJP]
    refine ⟨?_, ?_⟩
    · show (f.derived ++ g.derived).length ≤ J.N
      rw [hJN, List.length_append]; omega
    · intro hls
      change (f.linSup || g.linSup) = true at hls
      rw [fl, gl] at hls
      cases hls
  have hJPs : SymAll JP := by rw [hJP]; exact joined_symm hf hg sf sg hJ _
  rw [← hJP] at hr
  obtain ⟨hrw, hrn⟩ := cgi1_wf hJPwf hr
  obtain ⟨hrb, hrl, hrd⟩ := cgi1_meta hr
  rw [if_neg (by rw [fl]; simp)] at hr'
  cases hr'
  have hrem : remCV JP.numCV (zIdx c1 c2) (zcIdx f.numCV c1 c2)
      = (List.range (f.numCV + g.numCV)).filter (· ∉ zIdx c1 c2 ++ zcIdx f.numCV c1 c2) := by rw [hnum]; rfl
  have hleft : r.numCV = (leftover c1 c2).length := by
    rw [hrn, hrem, ← rem_labels H, List.length_map]
  have hperm := out_perm H
  rw [← hleft] at hperm
  have hcol : co.length = r.numCV := by simpa using hperm.length_eq
  have hco : co.Perm (leftover c1 c2) := by rw [H.leftover_eq]; exact H.out
  have hcon : co.Nodup := (hco.nodup_iff).mpr H.left_nodup
  have hrs : SymAll r := by
    rcases cgi1_data hr with ⟨h1, h2, ⟨_, rfl⟩ | ⟨_, rfl⟩⟩
    · exact hJPs
    · exact cgiTrue_sym hJPwf hJPs h1 h2 _
  have hy' : ∀ y : ℕ → ℂ, ∀ i < r.numCV,
      (fun x => y (co.idxOf ((leftover c1 c2).getD x 0))) ((co.map (leftover c1 c2).idxOf).getD i 0) = y i := by
    intro y i hi
    have hi' : i < co.length := by rw [hcol]; exact hi
    dsimp only
    have hm : co[i] ∈ leftover c1 c2 := hco.mem_iff.mp (List.getElem_mem hi')
    rw [List.getD_eq_getElem (co.map _) _ (by simpa using hi'), List.getElem_map, getD_idxOf hm]
    exact congrArg y (hcon.idxOf_getElem i hi')
  have hre := fun o y => C30_eval r h hrw _ hperm hh o y
    (fun x => y (co.idxOf ((leftover c1 c2).getD x 0))) (hy' y)
  have hfo : f.outBatch = [] := by unfold outBatch; rw [fl, fb]; rfl
  have hgo : g.outBatch = [] := by unfold outBatch; rw [gl, gb]; rfl
  have hbatch : JP.batch = [] := by
    rw [hJP]
    show J.batch = []
    rw [hJb, lf, lg, hfo, hgo]
    rfl
  have hjv := hJv [] [] [] (by rw [hfo, hgo]; exact List.Forall₂.nil) (by rw [lf]; exact List.Forall₂.nil) (by rw [lg]; exact List.Forall₂.nil)
  obtain ⟨_, _, hA, hB, hC⟩ := hjv
  have hrls : r.linSup = false := by rw [hrl, hJP]; show (f.linSup || g.linSup) = false; rw [fl, gl]; rfl
  have hhm : h.WF ∧ h.linSup = r.linSup ∧ h.batch = r.batch := by
    have hh' := hh
    unfold PolyExp.reorder at hh'
    split_ifs at hh'
    cases hh'
    exact ⟨⟨hrw.der, hrw.ls⟩, rfl, rfl⟩
  refine ⟨JP, r, hJPwf, hJPs, hnum, by rw [hJP]; rfl, hr, hhm.1, ?_, reorder_sym hrw hrs hperm hh, by rw [hhm.2.1, hrls], by rw [hhm.2.2, hrb, hbatch], ?_, ?_, ?_, ?_⟩
  · rw [(hre [] 0).1, hcol]
  · rw [hJP]; exact hA
  · rw [hJP]; exact hB
  · intro k
    rw [hJP]
    exact hC k
  · intro y
    rw [(hre [] y).2.2]
    unfold call
    rw [hrls]
    rfl

/-- Without shared labels nothing happens: the two branches of the integral agree. -/
theorem cgi_nil {f : PolyExp} (hf : f.WF) (hs : SymAll f) (β : List ℕ) (s : ℝ) (y : ℕ → ℂ) : (cgiTrue f [] [] s).termAt β y = f.termAt β y := by
  have hrem : remCV f.numCV [] [] = List.range f.numCV := by unfold remCV; simp
  haveI : IsEmpty (Fin ([] : List ℕ).length) := ⟨fun i => absurd i.2 (Nat.not_lt_zero _)⟩
  refine cgi_point hf hs (zi := []) (zc := []) rfl (by simp) (by simp) (u := fun p => isEmptyElim p) (fun p => isEmptyElim p) ?_ rfl ?_ ?_ ?_ ?_
  · intro i hi
    rw [hrem] at hi ⊢
    rw [List.getD_eq_getElem _ _ hi, List.getElem_range]
  · rw [Matrix.det_isEmpty]; simp
  · unfold invB; simp
  · intro i _ j _
    unfold invB; simp
  · intro j _
    unfold invB; simp

end Verif.Mixed
