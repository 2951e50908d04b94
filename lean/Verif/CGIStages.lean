import Verif.CGIEx

/-!
# C17, C18: integrating in stages
-/

namespace Verif.PolyExp
open Verif.Fock Verif.Batch Verif.Gauss PolyExp MeasureTheory

section block
variable {κ κ1 κ2 : Type*} [Fintype κ] [DecidableEq κ] [Fintype κ1] [DecidableEq κ1] [Fintype κ2] [DecidableEq κ2]

theorem invB_reindex (e : κ1 ≃ κ) (M : Matrix κ κ ℂ) (u v : κ → ℂ) :
    invB (M.submatrix e e) (u ∘ e) (v ∘ e) = invB M u v := by
  unfold invB
  rw [Matrix.inv_submatrix_equiv, Matrix.submatrix_mulVec_equiv]
  have : (v ∘ e) ∘ e.symm = v := by ext i; simp
  rw [this, comp_equiv_dotProduct_comp_equiv]

/-- Inversion by blocks. -/
theorem invB_block {P : Matrix κ1 κ1 ℂ} {B : Matrix κ1 κ2 ℂ} {C : Matrix κ2 κ1 ℂ} {Q : Matrix κ2 κ2 ℂ} (hP : P.det ≠ 0)
    (hS : (Q - C * P⁻¹ * B).det ≠ 0) (u1 v1 : κ1 → ℂ) (u2 v2 : κ2 → ℂ) :
    (Matrix.fromBlocks P B C Q).det = P.det * (Q - C * P⁻¹ * B).det ∧
    invB (Matrix.fromBlocks P B C Q) (Sum.elim u1 u2) (Sum.elim v1 v2) =
      invB P u1 v1 + invB (Q - C * P⁻¹ * B) (fun p => u2 p - invB P u1 (fun a => B a p)) (fun p => v2 p - invB P (fun a => C p a) v1) := by
  have uP : IsUnit P.det := isUnit_iff_ne_zero.2 hP
  have uS : IsUnit (Q - C * P⁻¹ * B).det := isUnit_iff_ne_zero.2 hS
  have hdet : (Matrix.fromBlocks P B C Q).det = P.det * (Q - C * P⁻¹ * B).det := by
    have : Invertible P := P.invertibleOfIsUnitDet uP
    rw [Matrix.det_fromBlocks₁₁, Matrix.invOf_eq_nonsing_inv]
  refine ⟨hdet, ?_⟩
  have uM : IsUnit (Matrix.fromBlocks P B C Q).det := by
    rw [hdet]; exact isUnit_iff_ne_zero.2 (mul_ne_zero hP hS)
  set S := Q - C * P⁻¹ * B with hSd
  let v2' : κ2 → ℂ := fun p => v2 p - invB P (fun a => C p a) v1
  have hv2 : v2' = v2 - C.mulVec (P⁻¹.mulVec v1) := by
    ext p; rfl
  let x2 := S⁻¹.mulVec v2'
  let x1 := P⁻¹.mulVec (v1 - B.mulVec x2)
  have hx : (Matrix.fromBlocks P B C Q).mulVec (Sum.elim x1 x2) = Sum.elim v1 v2 := by
    rw [Matrix.fromBlocks_mulVec]
    have e1 : P.mulVec x1 = v1 - B.mulVec x2 := by
      simp only [x1]
      rw [Matrix.mulVec_mulVec, Matrix.mul_nonsing_inv _ uP, Matrix.one_mulVec]
    have e2 : S.mulVec x2 = v2' := by
      simp only [x2]
      rw [Matrix.mulVec_mulVec, Matrix.mul_nonsing_inv _ uS, Matrix.one_mulVec]
    have e3 : Q.mulVec x2 = v2' + C.mulVec (P⁻¹.mulVec (B.mulVec x2)) := by
      rw [← e2, hSd, Matrix.sub_mulVec]
      simp only [Matrix.mulVec_mulVec, Matrix.mul_assoc]
      abel
    have c1 : (Sum.elim x1 x2) ∘ Sum.inl = x1 := rfl
    have c2 : (Sum.elim x1 x2) ∘ Sum.inr = x2 := rfl
    rw [c1, c2, e1, e3]
    congr 1
    · abel
    · simp only [x1]
      rw [hv2, Matrix.mulVec_sub, Matrix.mulVec_sub]
      abel
  have hinv : (Matrix.fromBlocks P B C Q)⁻¹.mulVec (Sum.elim v1 v2) = Sum.elim x1 x2 := by
    rw [← hx, Matrix.mulVec_mulVec, Matrix.nonsing_inv_mul _ uM, Matrix.one_mulVec]
  have hl : ∀ y : κ2 → ℂ, (fun p => u2 p - invB P u1 (fun a => B a p)) ⬝ᵥ y = u2 ⬝ᵥ y - u1 ⬝ᵥ P⁻¹.mulVec (B.mulVec y) := by
    intro y
    have : (fun p => u2 p - invB P u1 (fun a => B a p)) = u2 - Matrix.vecMul (Matrix.vecMul u1 P⁻¹) B := by
      ext p
      simp only [Pi.sub_apply]
      congr 1
      unfold invB
      rw [Matrix.dotProduct_mulVec]
      rfl
    rw [this, sub_dotProduct, ← Matrix.dotProduct_mulVec, ← Matrix.dotProduct_mulVec]
  have hd : ∀ (a1 b1 : κ1 → ℂ) (a2 b2 : κ2 → ℂ), Sum.elim a1 a2 ⬝ᵥ Sum.elim b1 b2 = a1 ⬝ᵥ b1 + a2 ⬝ᵥ b2 := by
    intro a1 b1 a2 b2
    simp [dotProduct, Fintype.sum_sum_type]
  have hr : invB S (fun p => u2 p - invB P u1 (fun a => B a p)) v2' = u2 ⬝ᵥ x2 - u1 ⬝ᵥ P⁻¹.mulVec (B.mulVec x2) := hl x2
  change _ = invB P u1 v1 + invB S (fun p => u2 p - invB P u1 (fun a => B a p)) v2'
  rw [hr]
  conv_lhs => unfold invB
  rw [hinv, hd]
  simp only [x1]
  rw [Matrix.mulVec_sub, dotProduct_sub]
  unfold invB
  ring

end block

/-! ### Positions -/

/-- Remaining variables after two stages. -/
theorem notIdx_stage {N : ℕ} {z1 c1 z2 c2 : List ℕ} (hlt : ∀ i ∈ z2 ++ c2, i < (notIdx N z1 c1).length) :
    notIdx N (z1 ++ z2.map ((notIdx N z1 c1).getD · 0)) (c1 ++ c2.map ((notIdx N z1 c1).getD · 0)) =
      (notIdx (notIdx N z1 c1).length z2 c2).map ((notIdx N z1 c1).getD · 0) := by
  set r := notIdx N z1 c1 with hr
  have hnd : r.Nodup := List.Nodup.filter _ List.nodup_range
  have hmap : r = (List.range r.length).map (r.getD · 0) := by
    apply List.ext_getElem
    · simp
    · intro i h1 h2
      simp [List.getD_eq_getElem?_getD, h1]
  have hinj : ∀ a < r.length, ∀ b < r.length, r.getD a 0 = r.getD b 0 → a = b := by
    intro a ha b hb h
    rw [List.getD_eq_getElem?_getD, List.getD_eq_getElem?_getD, List.getElem?_eq_getElem ha, List.getElem?_eq_getElem hb] at h
    exact (hnd.getElem_inj_iff).1 h
  have h1 : notIdx N (z1 ++ z2.map (r.getD · 0)) (c1 ++ c2.map (r.getD · 0)) = r.filter (· ∉ (z2 ++ c2).map (r.getD · 0)) := by
    rw [hr]
    conv_rhs => unfold notIdx
    rw [List.filter_filter]
    unfold notIdx
    apply List.filter_congr
    intro x _
    rw [← Bool.decide_and]
    congr 1
    simp only [List.mem_append, List.map_append]
    rw [eq_iff_iff]
    tauto
  rw [h1]
  conv_lhs => rw [hmap]
  rw [List.filter_map]
  unfold notIdx
  congr 1
  apply List.filter_congr
  intro x hx
  rw [List.mem_range] at hx
  simp only [Function.comp, decide_eq_decide]
  rw [← hmap]
  rw [not_iff_not, List.mem_map]
  constructor
  · rintro ⟨a, ha, h⟩
    rwa [← hinj a (hlt a ha) x hx h]
  · intro h
    exact ⟨x, h, rfl⟩

/-- Joint positions as two groups. -/
def splitE {m1 m2 n : ℕ} (h : m1 + m2 = n) : (Fin m1 ⊕ Fin m1) ⊕ (Fin m2 ⊕ Fin m2) ≃ Fin n ⊕ Fin n :=
  (Equiv.sumSumSumComm _ _ _ _).trans (Equiv.sumCongr (finSumFinEquiv.trans (finCongr h)) (finSumFinEquiv.trans (finCongr h)))

theorem stage_len (z1 z2 : List ℕ) (φ : ℕ → ℕ) : z1.length + z2.length = (z1 ++ z2.map φ).length := by simp

theorem pos_split {z1 c1 z2 c2 : List ℕ} (φ : ℕ → ℕ) (h1 : z1.length = c1.length) (h2 : z2.length = c2.length) (p) :
    pos (z1 ++ z2.map φ) (c1 ++ c2.map φ) (splitE (stage_len z1 z2 φ) p) = Sum.elim (pos z1 c1) (fun q => φ (pos z2 c2 q)) p := by
  rcases p with (i | i) | (i | i)
  · have : (i : ℕ) < z1.length := i.2
    simp [splitE, pos, List.getD_eq_getElem?_getD, List.getElem?_append_left this]
  · have : (i : ℕ) < c1.length := h1 ▸ i.2
    simp [splitE, pos, List.getD_eq_getElem?_getD, List.getElem?_append_left this]
  · simp [splitE, pos, List.getD_eq_getElem?_getD]
  · have : (i : ℕ) < c2.length := h2 ▸ i.2
    simp [splitE, pos, List.getD_eq_getElem?_getD, h1, this, List.getElem?_append_right]

theorem gM_split {A : ℕ → ℕ → ℂ} {z1 c1 z2 c2 : List ℕ} (φ : ℕ → ℕ) (h1 : z1.length = c1.length) (h2 : z2.length = c2.length) (s : ℝ) :
    (gM A (z1 ++ z2.map φ) (c1 ++ c2.map φ) s).submatrix (splitE (stage_len z1 z2 φ)) (splitE (stage_len z1 z2 φ)) =
      Matrix.fromBlocks (gM A z1 c1 s) (Matrix.of fun p q => A (pos z1 c1 p) (φ (pos z2 c2 q))) (Matrix.of fun p q => A (φ (pos z2 c2 p)) (pos z1 c1 q))
        (gM (fun i j => A (φ i) (φ j)) z2 c2 s) := by
  have hX : ∀ p q, (Matrix.fromBlocks 0 1 1 0 : Matrix (Fin (z1 ++ z2.map φ).length ⊕ Fin (z1 ++ z2.map φ).length) _ ℂ)
      (splitE (stage_len z1 z2 φ) p) (splitE (stage_len z1 z2 φ) q) = Matrix.fromBlocks (Matrix.fromBlocks 0 1 1 0) 0 0 (Matrix.fromBlocks 0 1 1 0) p q := by
    intro p q
    rcases p with (i | i) | (i | i) <;> rcases q with (j | j) | (j | j) <;> simp [splitE, Matrix.one_apply, Fin.ext_iff] <;> omega
  ext p q
  rw [Matrix.submatrix_apply]
  unfold gM
  rw [Matrix.add_apply, Matrix.smul_apply, Matrix.of_apply, pos_split φ h1 h2, pos_split φ h1 h2, hX]
  rcases p with p | p <;> rcases q with q | q <;> simp

/-- The second stage works on the Schur complement. -/
theorem gM_schur {f : PolyExp} (hs : SymAll f) {β z1 c1 z2 c2 : List ℕ} {s : ℝ} (h1 : z1.length = c1.length) (h2 : z2.length = c2.length)
    (hlt1 : ∀ i ∈ z1 ++ c1, i < f.N) (hlt2 : ∀ i ∈ z2 ++ c2, i < (notIdx f.N z1 c1).length) :
    gM ((cgiTrue f z1 c1 s).A β) z2 c2 s = gM (fun i j => f.A β ((notIdx f.N z1 c1).getD i 0) ((notIdx f.N z1 c1).getD j 0)) z2 c2 s -
      (Matrix.of fun p q => f.A β ((notIdx f.N z1 c1).getD (pos z2 c2 p) 0) (pos z1 c1 q)) * (gM (f.A β) z1 c1 s)⁻¹ *
        (Matrix.of fun p q => f.A β (pos z1 c1 p) ((notIdx f.N z1 c1).getD (pos z2 c2 q) 0)) := by
  ext p q
  have hr : ∀ i < (notIdx f.N z1 c1).length, (notIdx f.N z1 c1).getD i 0 < f.N := fun i hi => by
    rw [List.getD_eq_getElem?_getD, List.getElem?_eq_getElem hi]
    exact List.mem_range.1 (List.mem_of_mem_filter (List.getElem_mem hi))
  rw [Matrix.sub_apply]
  unfold gM
  simp only [Matrix.add_apply, Matrix.of_apply]
  have : ∀ x y z : ℂ, x - y + z = x + z - y := fun x y z => by ring
  simp only [cgiTrue]
  rw [this]
  congr 1
  rw [Matrix.mul_apply]
  simp only [Matrix.mul_apply, Finset.sum_mul, Matrix.of_apply]
  rw [Finset.sum_comm]
  refine Finset.sum_congr rfl fun a _ => Finset.sum_congr rfl fun b _ => ?_
  rw [hs β (pos z1 c1 a) (hlt1 _ (pos_mem h1 a)) _ (hr _ (hlt2 _ (pos_mem h2 q)))]
  rfl

/-- The pairing of the joint integral in terms of the two stages. -/
theorem invB_stage {f : PolyExp} (hs : SymAll f) {β z1 c1 z2 c2 : List ℕ} {s : ℝ} (h1 : z1.length = c1.length) (h2 : z2.length = c2.length)
    (hlt1 : ∀ i ∈ z1 ++ c1, i < f.N) (hlt2 : ∀ i ∈ z2 ++ c2, i < (notIdx f.N z1 c1).length)
    (hd1 : (gM (f.A β) z1 c1 s).det ≠ 0) (hd2 : (gM ((cgiTrue f z1 c1 s).A β) z2 c2 s).det ≠ 0)
    (φ : ℕ → ℕ) (hφ : φ = fun i => (notIdx f.N z1 c1).getD i 0) (u v : ℕ → ℂ) :
    (gM (f.A β) (z1 ++ z2.map φ) (c1 ++ c2.map φ) s).det = (gM (f.A β) z1 c1 s).det * (gM ((cgiTrue f z1 c1 s).A β) z2 c2 s).det ∧
    invB (gM (f.A β) (z1 ++ z2.map φ) (c1 ++ c2.map φ) s) (fun p => u (pos (z1 ++ z2.map φ) (c1 ++ c2.map φ) p))
        (fun p => v (pos (z1 ++ z2.map φ) (c1 ++ c2.map φ) p)) =
      invB (gM (f.A β) z1 c1 s) (fun p => u (pos z1 c1 p)) (fun p => v (pos z1 c1 p)) +
      invB (gM ((cgiTrue f z1 c1 s).A β) z2 c2 s)
        (fun p => u (φ (pos z2 c2 p)) - invB (gM (f.A β) z1 c1 s) (fun q => u (pos z1 c1 q)) (fun q => f.A β (φ (pos z2 c2 p)) (pos z1 c1 q)))
        (fun p => v (φ (pos z2 c2 p)) - invB (gM (f.A β) z1 c1 s) (fun q => f.A β (φ (pos z2 c2 p)) (pos z1 c1 q)) (fun q => v (pos z1 c1 q))) := by
  have hr : ∀ i < (notIdx f.N z1 c1).length, φ i < f.N := fun i hi => by
    rw [hφ]
    dsimp only
    rw [List.getD_eq_getElem?_getD, List.getElem?_eq_getElem hi]
    exact List.mem_range.1 (List.mem_of_mem_filter (List.getElem_mem hi))
  have hsch : gM ((cgiTrue f z1 c1 s).A β) z2 c2 s = gM (fun i j => f.A β (φ i) (φ j)) z2 c2 s -
      (Matrix.of fun p q => f.A β (φ (pos z2 c2 p)) (pos z1 c1 q)) * (gM (f.A β) z1 c1 s)⁻¹ *
        (Matrix.of fun p q => f.A β (pos z1 c1 p) (φ (pos z2 c2 q))) := by
    rw [hφ]; exact gM_schur hs (β := β) (s := s) h1 h2 hlt1 hlt2
  rw [hsch] at hd2 ⊢
  have hsp := gM_split (A := f.A β) φ h1 h2 s
  generalize hP : gM (f.A β) z1 c1 s = P at *
  generalize hQ : gM (fun i j => f.A β (φ i) (φ j)) z2 c2 s = Q at *
  generalize hMM : gM (f.A β) (z1 ++ z2.map φ) (c1 ++ c2.map φ) s = M at *
  constructor
  · rw [← (invB_block hd1 hd2 0 0 0 0).1, ← hsp, Matrix.det_submatrix_equiv_self]
  · have e : ∀ w : ℕ → ℂ, (fun p => w (pos (z1 ++ z2.map φ) (c1 ++ c2.map φ) p)) ∘ (splitE (stage_len z1 z2 φ)) =
        Sum.elim (fun p => w (pos z1 c1 p)) (fun p => w (φ (pos z2 c2 p))) := by
      intro w
      ext p
      simp only [Function.comp, pos_split φ h1 h2]
      rcases p with p | p <;> rfl
    have hB : ∀ p, (fun a => f.A β (pos z1 c1 a) (φ (pos z2 c2 p))) = fun q => f.A β (φ (pos z2 c2 p)) (pos z1 c1 q) := by
      intro p
      funext a
      exact hs β _ (hlt1 _ (pos_mem h1 a)) _ (hr _ (hlt2 _ (pos_mem h2 p)))
    rw [← invB_reindex (splitE (stage_len z1 z2 φ)) M, hsp, e u, e v, (invB_block hd1 hd2 _ _ _ _).2]
    simp only [Matrix.of_apply, hB]

/-- Two stages and one stage: same variables, same `A`, same `b`, and `c` up to one sign per batch element. -/
theorem two_stage {f : PolyExp} (hs : SymAll f) {β z1 c1 z2 c2 : List ℕ} {s : ℝ} (h1 : z1.length = c1.length) (h2 : z2.length = c2.length)
    (hlt1 : ∀ i ∈ z1 ++ c1, i < f.N) (hlt2 : ∀ i ∈ z2 ++ c2, i < (notIdx f.N z1 c1).length)
    (hd1 : (gM (f.A β) z1 c1 s).det ≠ 0) (hd2 : (gM ((cgiTrue f z1 c1 s).A β) z2 c2 s).det ≠ 0)
    (φ : ℕ → ℕ) (hφ : φ = fun i => (notIdx f.N z1 c1).getD i 0) :
    (cgiTrue (cgiTrue f z1 c1 s) z2 c2 s).N = (cgiTrue f (z1 ++ z2.map φ) (c1 ++ c2.map φ) s).N ∧
    (∀ i < (cgiTrue f (z1 ++ z2.map φ) (c1 ++ c2.map φ) s).N, (cgiTrue (cgiTrue f z1 c1 s) z2 c2 s).b β i = (cgiTrue f (z1 ++ z2.map φ) (c1 ++ c2.map φ) s).b β i ∧
      ∀ j < (cgiTrue f (z1 ++ z2.map φ) (c1 ++ c2.map φ) s).N,
        (cgiTrue (cgiTrue f z1 c1 s) z2 c2 s).A β i j = (cgiTrue f (z1 ++ z2.map φ) (c1 ++ c2.map φ) s).A β i j) ∧
    (gM (f.A β) (z1 ++ z2.map φ) (c1 ++ c2.map φ) s).det = (gM (f.A β) z1 c1 s).det * (gM ((cgiTrue f z1 c1 s).A β) z2 c2 s).det ∧
    ∀ ε : ℂ, ((-1) ^ z1.length / (gM (f.A β) z1 c1 s).det) ^ (1 / 2 : ℂ) * ((-1) ^ z2.length / (gM ((cgiTrue f z1 c1 s).A β) z2 c2 s).det) ^ (1 / 2 : ℂ) =
      ε * ((-1) ^ z1.length / (gM (f.A β) z1 c1 s).det * ((-1) ^ z2.length / (gM ((cgiTrue f z1 c1 s).A β) z2 c2 s).det)) ^ (1 / 2 : ℂ) →
      ∀ k, (cgiTrue (cgiTrue f z1 c1 s) z2 c2 s).c β k = ε * (cgiTrue f (z1 ++ z2.map φ) (c1 ++ c2.map φ) s).c β k := by
  have hst := notIdx_stage hlt2
  rw [← hφ] at hst
  have key := invB_stage hs h1 h2 hlt1 hlt2 hd1 hd2 φ hφ
  set g := cgiTrue f (z1 ++ z2.map φ) (c1 ++ c2.map φ) s with hg
  set h := cgiTrue f z1 c1 s with hh
  set r1 := notIdx f.N z1 c1 with hr1
  set r2 := notIdx r1.length z2 c2 with hr2
  have hN : g.N = r2.length := by
    have : g.N = (notIdx f.N (z1 ++ z2.map φ) (c1 ++ c2.map φ)).length := rfl
    rw [this, hst, List.length_map]
  have hget : ∀ i < r2.length, (notIdx f.N (z1 ++ z2.map φ) (c1 ++ c2.map φ)).getD i 0 = φ (r2.getD i 0) := by
    intro i hi
    rw [hst]
    simp [List.getD_eq_getElem?_getD, hi]
  have hA1 : ∀ i j, h.A β i j = f.A β (φ i) (φ j) - invB (gM (f.A β) z1 c1 s) (fun p => f.A β (φ i) (pos z1 c1 p)) (fun p => f.A β (φ j) (pos z1 c1 p)) := by
    intro i j
    rw [← invB_eq_sum, hφ]; rfl
  have hb1 : ∀ i, h.b β i = f.b β (φ i) - invB (gM (f.A β) z1 c1 s) (fun p => f.A β (φ i) (pos z1 c1 p)) (fun p => f.b β (pos z1 c1 p)) := by
    intro i
    rw [← invB_eq_dot, hφ]; rfl
  have hA2 : ∀ i j, (cgiTrue h z2 c2 s).A β i j = h.A β (r2.getD i 0) (r2.getD j 0) -
      invB (gM (h.A β) z2 c2 s) (fun p => h.A β (r2.getD i 0) (pos z2 c2 p)) (fun p => h.A β (r2.getD j 0) (pos z2 c2 p)) := by
    intro i j
    rw [← invB_eq_sum]; rfl
  have hb2 : ∀ i, (cgiTrue h z2 c2 s).b β i = h.b β (r2.getD i 0) -
      invB (gM (h.A β) z2 c2 s) (fun p => h.A β (r2.getD i 0) (pos z2 c2 p)) (fun p => h.b β (pos z2 c2 p)) := by
    intro i
    rw [← invB_eq_dot]; rfl
  have hAg : ∀ i < r2.length, ∀ j < r2.length, g.A β i j = f.A β (φ (r2.getD i 0)) (φ (r2.getD j 0)) -
      invB (gM (f.A β) (z1 ++ z2.map φ) (c1 ++ c2.map φ) s) (fun p => f.A β (φ (r2.getD i 0)) (pos (z1 ++ z2.map φ) (c1 ++ c2.map φ) p))
        (fun p => f.A β (φ (r2.getD j 0)) (pos (z1 ++ z2.map φ) (c1 ++ c2.map φ) p)) := by
    intro i hi j hj
    rw [← invB_eq_sum, ← hget i hi, ← hget j hj]; rfl
  have hbg : ∀ i < r2.length, g.b β i = f.b β (φ (r2.getD i 0)) -
      invB (gM (f.A β) (z1 ++ z2.map φ) (c1 ++ c2.map φ) s) (fun p => f.A β (φ (r2.getD i 0)) (pos (z1 ++ z2.map φ) (c1 ++ c2.map φ) p))
        (fun p => f.b β (pos (z1 ++ z2.map φ) (c1 ++ c2.map φ) p)) := by
    intro i hi
    rw [← invB_eq_dot, ← hget i hi]; rfl
  have hsM1 : ∀ p q, gM (f.A β) z1 c1 s p q = gM (f.A β) z1 c1 s q p := gM_symm s h1 hlt1 (fun i hi j hj => hs β i hi j hj)
  refine ⟨hN.symm, ?_, (key 0 0).1, ?_⟩
  · intro i hi
    rw [hN] at hi
    constructor
    · rw [hbg i hi, (key _ _).2, hb2, hb1]
      simp only [hA1, hb1]
      ring
    · intro j hj
      rw [hN] at hj
      rw [hAg i hi j hj, (key _ _).2, hA2, hA1]
      simp only [hA1]
      have : ∀ p, invB (gM (f.A β) z1 c1 s) (fun q => f.A β (φ (pos z2 c2 p)) (pos z1 c1 q)) (fun q => f.A β (φ (r2.getD j 0)) (pos z1 c1 q)) =
        invB (gM (f.A β) z1 c1 s) (fun q => f.A β (φ (r2.getD j 0)) (pos z1 c1 q)) (fun q => f.A β (φ (pos z2 c2 p)) (pos z1 c1 q)) :=
        fun p => invB_comm hsM1 _ _
      simp only [this]
      ring
  · set x1 : ℂ := (-1) ^ z1.length / (gM (f.A β) z1 c1 s).det with hx1
    set x2 : ℂ := (-1) ^ z2.length / (gM (h.A β) z2 c2 s).det with hx2
    have hx : (-1 : ℂ) ^ (z1 ++ z2.map φ).length / (gM (f.A β) (z1 ++ z2.map φ) (c1 ++ c2.map φ) s).det = x1 * x2 := by
      rw [(key 0 0).1, List.length_append, List.length_map, pow_add, hx1, hx2, div_mul_div_comm]
    intro ε he k
    have c2' : (cgiTrue h z2 c2 s).c β k = h.c β k * (x2 ^ (1 / 2 : ℂ) * Complex.exp (-(1 / 2) *
        invB (gM (h.A β) z2 c2 s) (fun p => h.b β (pos z2 c2 p)) (fun p => h.b β (pos z2 c2 p)))) := rfl
    have c1' : h.c β k = f.c β k * (x1 ^ (1 / 2 : ℂ) * Complex.exp (-(1 / 2) *
        invB (gM (f.A β) z1 c1 s) (fun p => f.b β (pos z1 c1 p)) (fun p => f.b β (pos z1 c1 p)))) := rfl
    have cg : g.c β k = f.c β k * (((-1 : ℂ) ^ (z1 ++ z2.map φ).length / (gM (f.A β) (z1 ++ z2.map φ) (c1 ++ c2.map φ) s).det) ^ (1 / 2 : ℂ) *
        Complex.exp (-(1 / 2) * invB (gM (f.A β) (z1 ++ z2.map φ) (c1 ++ c2.map φ) s)
        (fun p => f.b β (pos (z1 ++ z2.map φ) (c1 ++ c2.map φ) p)) (fun p => f.b β (pos (z1 ++ z2.map φ) (c1 ++ c2.map φ) p)))) := rfl
    rw [c2', c1', cg, hx, (key _ _).2]
    have : ∀ p, invB (gM (f.A β) z1 c1 s) (fun q => f.b β (pos z1 c1 q)) (fun q => f.A β (φ (pos z2 c2 p)) (pos z1 c1 q)) =
        invB (gM (f.A β) z1 c1 s) (fun q => f.A β (φ (pos z2 c2 p)) (pos z1 c1 q)) (fun q => f.b β (pos z1 c1 q)) :=
        fun p => invB_comm hsM1 _ _
    simp only [this, ← hb1]
    rw [mul_add, Complex.exp_add]
    linear_combination f.c β k * Complex.exp (-(1 / 2) * invB (gM (f.A β) z1 c1 s) (fun p => f.b β (pos z1 c1 p)) (fun p => f.b β (pos z1 c1 p))) *
      Complex.exp (-(1 / 2) * invB (gM (h.A β) z2 c2 s) (fun p => h.b β (pos z2 c2 p)) (fun p => h.b β (pos z2 c2 p))) * he

theorem sqrt_mul_sign (x1 x2 : ℂ) : ∃ ε : ℂ, (ε = 1 ∨ ε = -1) ∧ x1 ^ (1 / 2 : ℂ) * x2 ^ (1 / 2 : ℂ) = ε * (x1 * x2) ^ (1 / 2 : ℂ) := by
  have h3 : (x1 ^ (1 / 2 : ℂ) * x2 ^ (1 / 2 : ℂ)) ^ 2 = ((x1 * x2) ^ (1 / 2 : ℂ)) ^ 2 := by
    rw [mul_pow, sqrt_sq, sqrt_sq, sqrt_sq]
  rcases sq_eq_sq_iff_eq_or_eq_neg.1 h3 with e | e
  · exact ⟨1, Or.inl rfl, by rw [e, one_mul]⟩
  · exact ⟨-1, Or.inr rfl, by rw [e, neg_one_mul]⟩

theorem C17_aux {f h g g' : PolyExp} (hf : f.WF) (hs : SymAll f) {z1 c1 z2 c2 : List ℕ} {s : ℝ} (hz1 : z1 ≠ []) (hz2 : z2 ≠ [])
    (hh : cgi1 f z1 c1 s = some (.finite h)) (hg' : cgi1 h z2 c2 s = some (.finite g'))
    (hg : cgi1 f (z1 ++ z2.map ((notIdx f.N z1 c1).getD · 0)) (c1 ++ c2.map ((notIdx f.N z1 c1).getD · 0)) s = some (.finite g))
    {β : List ℕ} (hβ : β ∈ ndindex f.batch) :
    g'.N = g.N ∧ g'.derived = g.derived ∧ g'.batch = g.batch ∧ g'.linSup = g.linSup ∧
    (∀ i < g.N, g'.b β i = g.b β i ∧ ∀ j < g.N, g'.A β i j = g.A β i j) ∧
    ((gM (f.A β) z1 c1 s).det ≠ 0 ∧ (gM (h.A β) z2 c2 s).det ≠ 0 ∧
      (gM (f.A β) (z1 ++ z2.map ((notIdx f.N z1 c1).getD · 0)) (c1 ++ c2.map ((notIdx f.N z1 c1).getD · 0)) s).det =
        (gM (f.A β) z1 c1 s).det * (gM (h.A β) z2 c2 s).det) ∧
    ∀ ε : ℂ, ((-1) ^ z1.length / (gM (f.A β) z1 c1 s).det) ^ (1 / 2 : ℂ) * ((-1) ^ z2.length / (gM (h.A β) z2 c2 s).det) ^ (1 / 2 : ℂ) =
      ε * ((-1) ^ z1.length / (gM (f.A β) z1 c1 s).det * ((-1) ^ z2.length / (gM (h.A β) z2 c2 s).det)) ^ (1 / 2 : ℂ) →
      (∀ k, g'.c β k = ε * g.c β k) ∧ ∀ y, g'.termAt β y = ε * g.termAt β y := by
  have det_of : ∀ {f g : PolyExp} {zi zc : List ℕ}, zi ≠ [] → cgi1 f zi zc s = some (.finite g) → ∀ β ∈ ndindex f.batch, (gM (f.A β) zi zc s).det ≠ 0 := by
    intro f g zi zc hz h β hβ hd
    unfold cgi1 at h
    split_ifs at h with h1 h2 h3 h4
    · exact hz (List.append_eq_nil_iff.1 h3).1
    · have := h4 β hβ
      rw [hd, norm_zero] at this
      norm_num at this
    · cases h
  obtain ⟨l1, lt1, e1 | e1⟩ := cgi1_data hh
  · exact absurd e1.1 hz1
  obtain ⟨l2, lt2, e2 | e2⟩ := cgi1_data hg'
  · exact absurd e2.1 hz2
  obtain ⟨_, lt3, e3 | e3⟩ := cgi1_data hg
  · exact absurd (List.append_eq_nil_iff.1 e3.1).1 hz1
  have hd1 := det_of hz1 hh β hβ
  have hd2 := det_of hz2 hg' β (by rw [(cgi1_meta hh).1]; exact hβ)
  obtain ⟨_, rfl⟩ := e1
  obtain ⟨_, rfl⟩ := e2
  obtain ⟨_, rfl⟩ := e3
  have hN : f.numCV ≤ f.N := by unfold numCV; omega
  have hN2 : (cgiTrue f z1 c1 s).numCV ≤ (notIdx f.N z1 c1).length := by unfold numCV; exact Nat.sub_le _ _
  obtain ⟨t1, t2, td, t4⟩ := two_stage hs l1 l2 (fun i hi => lt_of_lt_of_le (lt1 i hi) hN) (fun i hi => lt_of_lt_of_le (lt2 i hi) hN2) hd1 hd2 _ rfl
  refine ⟨t1, rfl, rfl, rfl, t2, ⟨hd1, hd2, td⟩, fun ε hε => ⟨t4 ε hε, fun y => ?_⟩⟩
  unfold termAt
  rw [← termVal_smul]
  have hcv : ∀ {a b : PolyExp}, a.N = b.N → a.derived = b.derived → a.numCV = b.numCV := by
    intro a b h1 h2; unfold numCV; rw [h1, h2]
  rw [hcv t1 rfl]
  have hle : ∀ i, i < (cgiTrue f (z1 ++ z2.map ((notIdx f.N z1 c1).getD · 0)) (c1 ++ c2.map ((notIdx f.N z1 c1).getD · 0)) s).numCV + f.derived.length →
      i < (cgiTrue f (z1 ++ z2.map ((notIdx f.N z1 c1).getD · 0)) (c1 ++ c2.map ((notIdx f.N z1 c1).getD · 0)) s).N := by
    intro i hi
    have hNd : f.numCV + f.derived.length = f.N := by have := hf.der; simp only [numCV]; omega
    have h3 := congrArg List.length (notIdx_eq hNd lt3)
    rw [List.length_append, List.length_range'] at h3
    have h4 : (cgiTrue f (z1 ++ z2.map ((notIdx f.N z1 c1).getD · 0)) (c1 ++ c2.map ((notIdx f.N z1 c1).getD · 0)) s).numCV =
      (notIdx f.N (z1 ++ z2.map ((notIdx f.N z1 c1).getD · 0)) (c1 ++ c2.map ((notIdx f.N z1 c1).getD · 0))).length - f.derived.length := rfl
    have h5 : (cgiTrue f (z1 ++ z2.map ((notIdx f.N z1 c1).getD · 0)) (c1 ++ c2.map ((notIdx f.N z1 c1).getD · 0)) s).N =
      (notIdx f.N (z1 ++ z2.map ((notIdx f.N z1 c1).getD · 0)) (c1 ++ c2.map ((notIdx f.N z1 c1).getD · 0))).length := rfl
    rw [h5]
    rw [h4] at hi
    unfold notIdx at *
    omega
  exact termVal_congr (fun i hi j hj => (t2 i (hle i hi)).2 j (hle j hj)) (fun i hi => (t2 i (hle i hi)).1) (fun k _ => t4 ε hε k) (fun _ _ => rfl)

/-- **C17.** Integrating out two groups of pairs one after the other (the second group given by its positions among the variables that
remain) gives the same triple as integrating both groups at once: same number of variables, same `A`, same `b`, and `c` up to one sign
per batch element; in particular the same function up to that sign. -/
theorem C17_two_stage (f h g g' : PolyExp) (hf : f.WF) (hs : SymAll f) (z1 c1 z2 c2 : List ℕ) (s : ℝ) (hz1 : z1 ≠ []) (hz2 : z2 ≠ [])
    (hh : cgi1 f z1 c1 s = some (.finite h)) (hg' : cgi1 h z2 c2 s = some (.finite g'))
    (hg : let r := (List.range f.N).filter (· ∉ z1 ++ c1)
      cgi1 f (z1 ++ z2.map (r.getD · 0)) (c1 ++ c2.map (r.getD · 0)) s = some (.finite g))
    (β : List ℕ) (hβ : β ∈ ndindex f.batch) :
    g'.N = g.N ∧ g'.derived = g.derived ∧ g'.batch = g.batch ∧ g'.linSup = g.linSup ∧
    (∀ i < g.N, g'.b β i = g.b β i ∧ ∀ j < g.N, g'.A β i j = g.A β i j) ∧
    ∃ ε : ℂ, (ε = 1 ∨ ε = -1) ∧ (∀ k, g'.c β k = ε * g.c β k) ∧ ∀ y, g'.termAt β y = ε * g.termAt β y := by
  obtain ⟨t1, t2, t3, t4, t5, _, t6⟩ := C17_aux hf hs hz1 hz2 hh hg' hg hβ
  obtain ⟨ε, hε, he⟩ := sqrt_mul_sign ((-1) ^ z1.length / (gM (f.A β) z1 c1 s).det) ((-1) ^ z2.length / (gM (h.A β) z2 c2 s).det)
  exact ⟨t1, t2, t3, t4, t5, ε, hε, t6 ε he⟩

/-! ### When the sign is right -/

theorem Conv.left {f : PolyExp} {β z1 c1 z2 c2 : List ℕ} {s : ℝ} (h1 : z1.length = c1.length) (h2 : z2.length = c2.length)
    (hn : ((z1 ++ z2) ++ (c1 ++ c2)).Nodup) (h : Conv f β (z1 ++ z2) (c1 ++ c2) s) : Conv f β z1 c1 s := by
  intro w hw x hx h0
  have hnot : ∀ a, a ∈ z2 ∨ a ∈ c2 → x a = 0 := by
    intro a ha
    have : a ∉ z1 ∧ a ∉ c1 := by
      simp only [List.nodup_append, List.mem_append] at hn
      obtain ⟨⟨_, _, n1⟩, ⟨_, _, n2⟩, n3⟩ := hn
      constructor
      · intro hm
        rcases ha with ha | ha
        · exact n1 a hm a ha rfl
        · exact n3 a (Or.inl hm) a (Or.inr ha) rfl
      · intro hm
        rcases ha with ha | ha
        · exact n3 a (Or.inr ha) a (Or.inl hm) rfl
        · exact n2 a hm a ha rfl
    exact h0 a this.1 this.2
  let w' : Fin (z1 ++ z2).length → ℂ := fun i => x ((z1 ++ z2).getD i 0)
  have hw' : w' ≠ 0 := by
    intro e
    apply hw
    funext i
    have := congrFun e ⟨i, by rw [List.length_append]; omega⟩
    simp only [w', List.getD_eq_getElem?_getD, List.getElem?_append_left i.2] at this
    rw [← hx.1 i, List.getD_eq_getElem?_getD]
    exact this
  have hH : Holds (z1 ++ z2) (c1 ++ c2) w' x := by
    refine ⟨fun i => rfl, fun i => ?_⟩
    simp only [w']
    by_cases hi : (i : ℕ) < z1.length
    · have a := hx.1 ⟨i, hi⟩
      have b := hx.2 ⟨i, hi⟩
      simp only [List.getD_eq_getElem?_getD] at a b ⊢
      rw [List.getElem?_append_left hi, List.getElem?_append_left (h1 ▸ hi), a, b]
    · have hi2 : (i : ℕ) - z1.length < z2.length := by have := i.2; have e := List.length_append (as := z1) (bs := z2); omega
      have hi3 : (i : ℕ) - c1.length < c2.length := by omega
      simp only [List.getD_eq_getElem?_getD]
      rw [List.getElem?_append_right (by omega), List.getElem?_append_right (by omega), List.getElem?_eq_getElem hi2, List.getElem?_eq_getElem hi3]
      simp only [Option.getD_some]
      rw [hnot _ (Or.inl (List.getElem_mem hi2)), hnot _ (Or.inr (List.getElem_mem hi3)), map_zero]
  have := h w' hw' x hH (fun j hj1 hj2 => by
    simp only [List.mem_append, not_or] at hj1 hj2
    exact h0 j hj1.1 hj2.1)
  have hsum : ∑ i, ‖w' i‖ ^ 2 = ∑ i, ‖w i‖ ^ 2 := by
    have e1 : ∀ (l : List ℕ), ∑ i : Fin l.length, ‖x (l.getD i 0)‖ ^ 2 = (l.map fun a => ‖x a‖ ^ 2).sum := by
      intro l
      rw [← List.sum_ofFn]
      congr 1
      apply List.ext_getElem
      · simp
      · intro i _ _; simp
    have e2 : ∑ i, ‖w i‖ ^ 2 = (z1.map fun a => ‖x a‖ ^ 2).sum := by
      rw [← e1]
      exact Finset.sum_congr rfl fun i _ => by rw [hx.1 i]
    rw [e2]
    refine (e1 (z1 ++ z2)).trans ?_
    rw [List.map_append, List.sum_append]
    have : (z2.map fun a => ‖x a‖ ^ 2).sum = 0 := by
      apply List.sum_eq_zero
      intro t ht
      rw [List.mem_map] at ht
      obtain ⟨a, ha, rfl⟩ := ht
      rw [hnot a (Or.inl ha)]; simp
    rw [this, add_zero]
  rw [hsum] at this
  exact this

theorem real_root {f : PolyExp} (hs : SymAll f) {β zi zc : List ℕ} {s : ℝ} (hl : zi.length = zc.length) (hn : (zi ++ zc).Nodup)
    (hlt : ∀ i ∈ zi ++ zc, i < f.numCV) (hc : Conv f β zi zc s)
    (hh : ∀ i < zi.length, ∀ j < zi.length, f.A β (zi.getD i 0) (zi.getD j 0) = (starRingEnd ℂ) (f.A β (zc.getD i 0) (zc.getD j 0)) ∧
      f.A β (zi.getD i 0) (zc.getD j 0) = (starRingEnd ℂ) (f.A β (zc.getD i 0) (zi.getD j 0))) :
    ∃ t : ℝ, 0 < t ∧ (-1) ^ zi.length / (gM (f.A β) zi zc s).det = (t : ℂ) := by
  have hN : f.numCV ≤ f.N := by unfold numCV; omega
  have hsy := gM_symm s hl hlt (fun i hi j hj => hs β i (by omega) j (by omega))
  have hng := hc.neg hl hn hlt hs
  obtain ⟨t, ht, e⟩ := gaussConst_pos hsy hng (conj_fun hh s)
  have := gaussConst_sq hsy hng
  rw [e, gM_card] at this
  exact ⟨t ^ 2, by positivity, by rw [← this]; push_cast; rfl⟩

/-- **C18.** If the integral over all pairs converges and the pairing is Hermitian (partial trace of a density operator), sequential and joint
integration give the same function, sign included. -/
theorem C18_hermitian (f h g g' : PolyExp) (hf : f.WF) (hs : SymAll f) (z1 c1 z2 c2 : List ℕ) (s : ℝ) (hz1 : z1 ≠ []) (hz2 : z2 ≠ [])
    (hh : cgi1 f z1 c1 s = some (.finite h)) (hg' : cgi1 h z2 c2 s = some (.finite g')) (zi zc : List ℕ)
    (hzi : zi = z1 ++ z2.map (((List.range f.N).filter (· ∉ z1 ++ c1)).getD · 0))
    (hzc : zc = c1 ++ c2.map (((List.range f.N).filter (· ∉ z1 ++ c1)).getD · 0)) (hn : (zi ++ zc).Nodup)
    (hg : cgi1 f zi zc s = some (.finite g)) (β : List ℕ) (hβ : β ∈ ndindex f.batch) (hc : Conv f β zi zc s)
    (hp : ∀ i < zi.length, ∀ j < zi.length, f.A β (zi.getD i 0) (zi.getD j 0) = (starRingEnd ℂ) (f.A β (zc.getD i 0) (zc.getD j 0)) ∧
      f.A β (zi.getD i 0) (zc.getD j 0) = (starRingEnd ℂ) (f.A β (zc.getD i 0) (zi.getD j 0))) (y : ℕ → ℂ) :
    g'.termAt β y = g.termAt β y := by
  obtain ⟨l1, lt1, _⟩ := cgi1_data hh
  obtain ⟨l2, _, _⟩ := cgi1_data hg'
  obtain ⟨l3, lt3, _⟩ := cgi1_data hg
  have hx12 := real_root hs l3 hn lt3 hc hp
  subst hzi hzc
  have hc1 : Conv f β z1 c1 s := hc.left l1 (by simp [l2]) hn
  have hp1 : ∀ i < z1.length, ∀ j < z1.length, f.A β (z1.getD i 0) (z1.getD j 0) = (starRingEnd ℂ) (f.A β (c1.getD i 0) (c1.getD j 0)) ∧
      f.A β (z1.getD i 0) (c1.getD j 0) = (starRingEnd ℂ) (f.A β (c1.getD i 0) (z1.getD j 0)) := by
    intro i hi j hj
    have := hp i (by rw [List.length_append]; omega) j (by rw [List.length_append]; omega)
    simp only [List.getD_eq_getElem?_getD, List.getElem?_append_left hi, List.getElem?_append_left hj,
      List.getElem?_append_left (show i < c1.length from l1 ▸ hi), List.getElem?_append_left (show j < c1.length from l1 ▸ hj)] at this ⊢
    exact this
  have hn1 : (z1 ++ c1).Nodup := by
    simp only [List.nodup_append, List.mem_append] at hn ⊢
    exact ⟨hn.1.1, hn.2.1.1, fun a ha b hb => hn.2.2 a (Or.inl ha) b (Or.inl hb)⟩
  obtain ⟨t1, p1, e1⟩ := real_root hs l1 hn1 lt1 hc1 hp1
  obtain ⟨t12, p12, e12⟩ := hx12
  obtain ⟨_, _, _, _, _, ⟨d1, d2, hd⟩, t6⟩ := C17_aux hf hs hz1 hz2 hh hg' hg hβ
  have e2 : (-1) ^ z2.length / (gM (h.A β) z2 c2 s).det = ((t12 / t1 : ℝ) : ℂ) := by
    rw [Complex.ofReal_div, ← e1, ← e12]
    have hd' := hd
    unfold notIdx at hd'
    rw [hd', List.length_append, List.length_map, pow_add]
    have : ((-1 : ℂ) ^ z1.length) ≠ 0 := pow_ne_zero _ (by norm_num)
    field_simp
  have := (t6 1 (by
    rw [e1, e2, one_mul, Complex.mul_cpow_ofReal_nonneg p1.le (div_pos p12 p1).le])).2 y
  rw [one_mul] at this
  exact this

/-! ### Disagreement -/

theorem exS_ne : (1 - (1 / 2 + 3 / 4 * Complex.I)) ≠ 0 := by
  intro h
  have := congrArg Complex.re h
  norm_num at this

theorem exS_h_gM (f : PolyExp) (e : ℂ) (i j : ℕ) (h00 : f.A [] i i = 0) (h11 : f.A [] j j = 0) (h01 : f.A [] i j = e) (h10 : f.A [] j i = e) :
    gM (f.A []) [i] [j] (-1) = (e - 1) • (Matrix.fromBlocks 0 1 1 0 : Matrix (Fin [i].length ⊕ Fin [i].length) _ ℂ) := by
  ext p q
  rcases p with a | a <;> rcases q with b | b <;> obtain rfl : a = ⟨0, by simp⟩ := Fin.ext (by have := a.2; simp at this; simpa using this) <;>
      obtain rfl : b = ⟨0, by simp⟩ := Fin.ext (by have := b.2; simp at this; simpa using this) <;>
      simp only [gM, pos, Matrix.add_apply, Matrix.smul_apply, Matrix.of_apply, Matrix.fromBlocks_apply₁₁, Matrix.fromBlocks_apply₁₂,
        Matrix.fromBlocks_apply₂₁, Matrix.fromBlocks_apply₂₂, Sum.elim_inl, Sum.elim_inr, Matrix.one_apply, Matrix.zero_apply] <;>
      simp [h00, h11, h01, h10] <;> ring

theorem exS_h_root (f : PolyExp) (i j : ℕ) (h00 : f.A [] i i = 0) (h11 : f.A [] j j = 0) (h01 : f.A [] i j = 1 / 2 + 3 / 4 * Complex.I)
    (h10 : f.A [] j i = 1 / 2 + 3 / 4 * Complex.I) :
    ((-1) ^ [i].length / (gM (f.A []) [i] [j] (-1)).det) ^ (1 / 2 : ℂ) = 1 / (1 - (1 / 2 + 3 / 4 * Complex.I)) ∧
    ‖(gM (f.A []) [i] [j] (-1)).det‖ > 1e-12 := by
  have hd : (gM (f.A []) [i] [j] (-1)).det = -(1 - (1 / 2 + 3 / 4 * Complex.I)) ^ 2 := by
    rw [exS_h_gM f _ i j h00 h11 h01 h10, Matrix.det_smul, det_X]
    simp
    ring
  constructor
  · rw [hd]
    apply sqrt_of_re_pos
    · rw [div_pow]
      simp
    · rw [one_div, Complex.inv_re]
      apply div_pos
      · norm_num
      · exact Complex.normSq_pos.2 exS_ne
  · rw [hd, norm_neg, norm_pow]
    have h1 : (1 / 2 : ℝ) ≤ ‖(1 - (1 / 2 + 3 / 4 * Complex.I) : ℂ)‖ := by
      have := Complex.abs_re_le_norm (1 - (1 / 2 + 3 / 4 * Complex.I) : ℂ)
      norm_num at this ⊢
      exact this
    calc (1e-12 : ℝ) < (1 / 2) ^ 2 := by norm_num
      _ ≤ _ := pow_le_pow_left₀ (by norm_num) h1 2

/-- **C18** (disagreement): tracing out the two modes of `λ^n̂ ⊗ λ^n̂`, `λ = 1/2 + 3/4 i`, one after the other gives the trace, tracing them out
together gives the opposite number. -/
theorem C18_wrong_sign : ∃ h g g', exS.trace [0] [2] (-1) = some (.finite h) ∧ h.trace [0] [1] (-1) = some (.finite g') ∧
    exS.trace [0, 1] [2, 3] (-1) = some (.finite g) ∧ g'.call [] 0 = 1 / (1 - (1 / 2 + 3 / 4 * Complex.I)) ^ 2 ∧ g.call [] 0 = -g'.call [] 0 ∧
    g'.call [] 0 ≠ 0 := by
  obtain ⟨g, hg, _, hgv, _⟩ := C48_wrong_sign
  have r1 := exS_h_root exS 0 2 (by simp [exS]) (by simp [exS]) (by simp [exS]) (by simp [exS])
  set h := cgiTrue exS [0] [2] (-1) with hh
  have n4 : exS.numCV = 4 := rfl
  have n2 : h.numCV = 2 := by decide
  have hD : ∀ i < 2, ∀ p, exS.A [] ((notIdx exS.N [0] [2]).getD i 0) (pos [0] [2] p) = 0 := by
    intro i hi p
    have : notIdx exS.N [0] [2] = [1, 3] := by decide
    rw [this]
    have hi' : i = 0 ∨ i = 1 := by omega
    rcases p with a | a <;> obtain rfl : a = ⟨0, by simp⟩ := Fin.ext (by have := a.2; simp at this; simpa using this) <;>
      rcases hi' with rfl | rfl <;> simp [exS, pos]
  have hA : ∀ i < 2, ∀ j < 2, h.A [] i j = exS.A [] ([1, 3].getD i 0) ([1, 3].getD j 0) := by
    intro i hi j hj
    have e : h.A [] i j = exS.A [] ((notIdx exS.N [0] [2]).getD i 0) ((notIdx exS.N [0] [2]).getD j 0) - ∑ p, ∑ q,
      exS.A [] ((notIdx exS.N [0] [2]).getD i 0) (pos [0] [2] p) * (gM (exS.A []) [0] [2] (-1))⁻¹ p q * exS.A [] ((notIdx exS.N [0] [2]).getD j 0) (pos [0] [2] q) := rfl
    rw [e]
    simp only [hD i hi, zero_mul, Finset.sum_const_zero, sub_zero]
    have : notIdx exS.N [0] [2] = [1, 3] := by decide
    rw [this]
  have r2 := exS_h_root h 0 1 (by rw [hA 0 (by omega) 0 (by omega)]; simp [exS]) (by rw [hA 1 (by omega) 1 (by omega)]; simp [exS])
    (by rw [hA 0 (by omega) 1 (by omega)]; simp [exS]) (by rw [hA 1 (by omega) 0 (by omega)]; simp [exS])
  have fin : ∀ (f : PolyExp) (i j : ℕ), i ≠ j → i < f.numCV → j < f.numCV → f.batch = [] → ‖(gM (f.A []) [i] [j] (-1)).det‖ > 1e-12 →
      f.trace [i] [j] (-1) = some (.finite (cgiTrue f [i] [j] (-1))) := by
    intro f i j hij hi hj hb hd
    have hall : ∀ β ∈ ndindex f.batch, ‖(gM (f.A β) [i] [j] (-1)).det‖ > 1e-12 := by
      intro β hβ
      have : β = [] := by simpa [hb, ndindex] using hβ
      rw [this]; exact hd
    unfold PolyExp.trace cgi1
    rw [if_neg (by simp), if_neg (by simp [hij]), if_neg (by simp; omega), if_neg (by simp), if_neg (by simp; omega), if_neg (by simp), if_pos hall]
  have hbh : ∀ i < 2, h.b [] i = 0 := by
    intro i hi
    have e : h.b [] i = exS.b [] ((notIdx exS.N [0] [2]).getD i 0) - ∑ p, exS.A [] ((notIdx exS.N [0] [2]).getD i 0) (pos [0] [2] p) *
      ((gM (exS.A []) [0] [2] (-1))⁻¹.mulVec fun p => exS.b [] (pos [0] [2] p)) p := rfl
    rw [e]
    simp only [hD i hi, zero_mul, Finset.sum_const_zero, sub_zero]
    rfl
  have hval : (cgiTrue h [0] [1] (-1)).call [] 0 = 1 / (1 - (1 / 2 + 3 / 4 * Complex.I)) ^ 2 := by
    rw [call_nls (by rfl)]
    unfold termAt termVal
    rw [show (cgiTrue h [0] [1] (-1)).numCV = 0 by decide]
    have : (cgiTrue h [0] [1] (-1)).derived = [] := rfl
    rw [this, nsum_nil]
    simp only [Finset.range_zero, Finset.sum_empty, mul_zero, add_zero, Complex.exp_zero, one_mul]
    rw [show toF [] = 0 by ext; simp [toF], amp_zero, mul_one]
    have c2 : (cgiTrue h [0] [1] (-1)).c [] [] = h.c [] [] * (((-1) ^ [0].length / (gM (h.A []) [0] [1] (-1)).det) ^ (1 / 2 : ℂ) * Complex.exp (-(1 / 2) *
        ∑ p, h.b [] (pos [0] [1] p) * ((gM (h.A []) [0] [1] (-1))⁻¹.mulVec fun p => h.b [] (pos [0] [1] p)) p)) := rfl
    have c1 : h.c [] [] = exS.c [] [] * (((-1) ^ [0].length / (gM (exS.A []) [0] [2] (-1)).det) ^ (1 / 2 : ℂ) * Complex.exp (-(1 / 2) *
        ∑ p, exS.b [] (pos [0] [2] p) * ((gM (exS.A []) [0] [2] (-1))⁻¹.mulVec fun p => exS.b [] (pos [0] [2] p)) p)) := rfl
    have z1 : ∀ p, exS.b [] (pos [0] [2] p) = 0 := fun p => rfl
    have z2 : ∀ p, h.b [] (pos [0] [1] p) = 0 := fun p => hbh _ (by
      rcases p with a | a <;> obtain rfl : a = ⟨0, by simp⟩ := Fin.ext (by have := a.2; simp at this; simpa using this) <;> simp [pos])
    rw [c2, c1, r1.1, r2.1]
    simp only [z1, z2, zero_mul, Finset.sum_const_zero, mul_zero, Complex.exp_zero, mul_one]
    rw [show exS.c [] [] = 1 from rfl, one_mul, ← pow_two, div_pow, one_pow]
  refine ⟨h, g, cgiTrue h [0] [1] (-1), fin exS 0 2 (by simp) (by omega) (by omega) rfl r1.2, fin h 0 1 (by simp) (by omega) (by omega) rfl r2.2, hg, hval, ?_, ?_⟩
  · rw [hgv, hval]
  · rw [hval]
    exact one_div_ne_zero (pow_ne_zero _ exS_ne)

end Verif.PolyExp
