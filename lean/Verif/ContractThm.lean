import Verif.ContractMain
import Verif.GaussSymm

/-!
# `contract` computes the integral over the shared variables (property C16): theorems
-/

namespace Verif.PolyExp
open Verif.Fock Verif.Batch Verif.Gauss PolyExp MeasureTheory

variable {f g h : PolyExp} {b1 c1 b2 c2 bo co : List ℕ}

/-- **Specification of a contraction**: `h` has the core variables `co` and the batch axes `bo`, and at every output batch index `o` and every
point `y` (whose `i`-th coordinate belongs to the label `co[i]`) its value is the Bargmann integral
`π^{-m} ∫ f(…w…y…) g(…w̄…y…) e^{-|w|²} d²w` over one complex variable per label shared by `c1` and `c2`; `f` and `g` are evaluated at the
batch indices that `o` assigns to their own labels. -/
def IsContraction (f g h : PolyExp) (b1 c1 b2 c2 bo co : List ℕ) : Prop :=
  h.numCV = co.length ∧ h.outBatch = (bo.map fun d => if d ∈ b1 then Batch.sizeOf b1 f.outBatch d else Batch.sizeOf b2 g.outBatch d) ∧
  ∀ o, InB h.outBatch o → ∀ y, h.call o y =
    pairIntegral (c1.filter (· ∈ c2)).length (-1) fun w =>
      f.call (restrict (· ∈ b1) bo o) (atLabel c1 (c1.filter (· ∈ c2)) (padFin w) co y) *
      g.call (restrict (· ∈ b2) bo o) (atLabel c2 (c1.filter (· ∈ c2)) (padFin fun i => (starRingEnd ℂ) (w i)) co y)

/-- All integrals of products of terms converge. -/
def AllConv (f g : PolyExp) (b1 c1 b2 c2 bo : List ℕ) (o : List ℕ) : Prop :=
  ∀ τ1 τ2, InB f.lsBatch τ1 → InB g.lsBatch τ2 →
    PairConv f (restrict (· ∈ b1) bo o ++ τ1) g (restrict (· ∈ b2) bo o ++ τ2) c1 c2 (c1.filter (· ∈ c2))

/-- The matrix of the integral. -/
theorem gM_posS {JP : PolyExp} {γ : List ℕ} (hs : SymAll JP) (hn : JP.numCV = f.numCV + g.numCV) (H : Compat f g b1 c1 b2 c2 bo co)
    (hc : Conv JP γ (zIdx c1 c2) (zcIdx f.numCV c1 c2) (-1)) :
    (∀ p q, gM (JP.A γ) (zIdx c1 c2) (zcIdx f.numCV c1 c2) (-1) p q = gM (JP.A γ) (zIdx c1 c2) (zcIdx f.numCV c1 c2) (-1) q p) ∧
    NegRe (gM (JP.A γ) (zIdx c1 c2) (zcIdx f.numCV c1 c2) (-1)) := by
  have hl : (zIdx c1 c2).length = (zcIdx f.numCV c1 c2).length := by rw [zIdx_len, zcIdx_len]
  have hlt : ∀ i ∈ zIdx c1 c2 ++ zcIdx f.numCV c1 c2, i < JP.numCV := by
    intro i hi
    rw [hn]
    rw [List.mem_append] at hi
    rcases hi with hi | hi
    · have := zIdx_lt H hi; omega
    · exact (zcIdx_range H hi).2
  have hN : JP.numCV ≤ JP.N := by unfold numCV; omega
  exact ⟨gM_symm (-1) hl hlt fun i hi j hj => hs γ i (by omega) j (by omega), hc.neg hl (zz_nodup H) hlt hs⟩

theorem contraction_of_const (hf : f.WF) (hg : g.WF) (sf : SymAll f) (sg : SymAll g) (H : Compat f g b1 c1 b2 c2 bo co)
    (hc : f.contract g b1 c1 b2 c2 bo co = some (.finite h))
    (hconv : ∀ o, InB h.outBatch o → AllConv f g b1 c1 b2 c2 bo o)
    (hconst : ∀ (o τ1 τ2 : List ℕ) (M : Matrix (Fin (zIdx c1 c2).length ⊕ Fin (zIdx c1 c2).length) (Fin (zIdx c1 c2).length ⊕ Fin (zIdx c1 c2).length) ℂ),
      InB h.outBatch o → InB f.lsBatch τ1 → InB g.lsBatch τ2 → (∀ p q, M p q = M q p) → NegRe M → zIdx c1 c2 ≠ [] →
      (∃ A : ℕ → ℕ → ℂ, M = gM A (zIdx c1 c2) (zcIdx f.numCV c1 c2) (-1) ∧
        ∀ i < f.numCV + g.numCV, ∀ j < f.numCV + g.numCV, A i j = if i < f.numCV ∧ j < f.numCV then f.A (restrict (· ∈ b1) bo o ++ τ1) i j
            else if f.numCV ≤ i ∧ f.numCV ≤ j then g.A (restrict (· ∈ b2) bo o ++ τ2) (i - f.numCV) (j - f.numCV) else 0) →
      ((-1) ^ (zIdx c1 c2).length / M.det) ^ (1 / 2 : ℂ) = gaussConst M) :
    IsContraction f g h b1 c1 b2 c2 bo co := by
  obtain ⟨JP, hJ1, hJ2, hJ3, hw, hn, ho, hv⟩ := contract_core hf hg sf sg H hc
  refine ⟨hn, ho, ?_⟩
  intro o hoB y
  obtain ⟨v1, v2, v3⟩ := hv o (by rw [← ho]; exact hoB)
  obtain ⟨hI, hval⟩ := v3 (fun _ _ => 1) (by
    intro τ1 τ2 h1 h2
    have hp := hconv o hoB τ1 τ2 h1 h2
    refine ⟨hp, ?_, fun _ => rfl⟩
    intro hz
    obtain ⟨m1, m2⟩ := gM_posS hJ2 hJ3 H (v2 τ1 τ2 h1 h2 hp)
    rw [one_mul]
    exact hconst o τ1 τ2 _ hoB h1 h2 m1 m2 hz ⟨_, rfl, v1 τ1 τ2 h1 h2⟩) y
  rw [hval]
  simp only [one_mul]
  unfold pairIntegral
  simp only [nsum_mul_left]
  refine congrArg (HMul.hMul _) ?_
  have i1 : ∀ τ1, InB f.lsBatch τ1 → _ := fun τ1 h1 => integral_nsum g.lsBatch (fun τ2 (w : Fin (c1.filter (· ∈ c2)).length → ℂ) =>
    (f.termAt (restrict (· ∈ b1) bo o ++ τ1) (atLabel c1 (c1.filter (· ∈ c2)) (padFin w) co y) *
      g.termAt (restrict (· ∈ b2) bo o ++ τ2) (atLabel c2 (c1.filter (· ∈ c2)) (padFin fun i => (starRingEnd ℂ) (w i)) co y)) *
      Complex.exp (((-1) * ∑ i, ‖w i‖ ^ 2 : ℝ) : ℂ)) (fun τ2 h2 => hI τ1 τ2 h1 h2)
  rw [nsum_congr (fun τ1 h1 => (i1 τ1 h1).2.symm), ← (integral_nsum f.lsBatch _ fun τ1 h1 => (i1 τ1 h1).1).2]
  congr 1
  funext w
  rw [call_eq_nsum, call_eq_nsum, ← nsum_mul_right, ← nsum_mul_right]
  apply nsum_congr
  intro τ1 _
  rw [← nsum_mul_left, ← nsum_mul_right]

/-- **C16** (one shared label, or none): whenever `contract` returns finite arrays and the integrals converge, the result is the contraction.
Batches, superpositions and derived variables are included. -/
theorem C16_one_label (hf : f.WF) (hg : g.WF) (sf : SymAll f) (sg : SymAll g) (H : Compat f g b1 c1 b2 c2 bo co)
    (hc : f.contract g b1 c1 b2 c2 bo co = some (.finite h)) (h1 : (c1.filter (· ∈ c2)).length ≤ 1)
    (hconv : ∀ o, InB h.outBatch o → AllConv f g b1 c1 b2 c2 bo o) : IsContraction f g h b1 c1 b2 c2 bo co := by
  refine contraction_of_const hf hg sf sg H hc hconv ?_
  intro o τ1 τ2 M _ _ _ m1 m2 hz _
  have hl := zIdx_len c1 c2
  have : (zIdx c1 c2).length ≠ 0 := fun e => hz (List.length_eq_zero_iff.1 e)
  have := gaussConst_one m1 m2 (by rw [gM_card]; omega)
  rwa [gM_card] at this

theorem zIdx_facts (H : Compat f g b1 c1 b2 c2 bo co) (i : ℕ) (hi : i < (zIdx c1 c2).length) :
    (zIdx c1 c2).getD i 0 = c1.idxOf ((c1.filter (· ∈ c2)).getD i 0) ∧ (zIdx c1 c2).getD i 0 < f.numCV ∧
    (zcIdx f.numCV c1 c2).getD i 0 = f.numCV + c2.idxOf ((c1.filter (· ∈ c2)).getD i 0) ∧
    c2.idxOf ((c1.filter (· ∈ c2)).getD i 0) < g.numCV := by
  have hi' : i < (c1.filter (· ∈ c2)).length := by rwa [zIdx_len] at hi
  have hS : (c1.filter (· ∈ c2)).getD i 0 ∈ c1.filter (· ∈ c2) := by
    rw [List.getD_eq_getElem _ _ hi']; exact List.getElem_mem hi'
  obtain ⟨m1, m2⟩ := mem_sharedL.mp hS
  have ez : (zIdx c1 c2).getD i 0 = c1.idxOf ((c1.filter (· ∈ c2)).getD i 0) := by
    unfold zIdx
    rw [List.getD_eq_getElem _ _ (by simpa using hi'), List.getElem_map, List.getD_eq_getElem _ _ hi']
  have ec : (zcIdx f.numCV c1 c2).getD i 0 = f.numCV + c2.idxOf ((c1.filter (· ∈ c2)).getD i 0) := by
    unfold zcIdx
    rw [List.getD_eq_getElem _ _ (by simpa using hi'), List.getElem_map, List.getElem_map, List.getD_eq_getElem _ _ hi']
  refine ⟨ez, ?_, ec, ?_⟩
  · rw [ez, ← H.lc1]; exact List.idxOf_lt_length_iff.mpr m1
  · rw [← H.lc2]; exact List.idxOf_lt_length_iff.mpr m2

/-- **C16** (no shared label): the plain product, for all data. -/
theorem C16_product (hf : f.WF) (hg : g.WF) (sf : SymAll f) (sg : SymAll g) (H : Compat f g b1 c1 b2 c2 bo co)
    (hc : f.contract g b1 c1 b2 c2 bo co = some (.finite h)) (h0 : ∀ l ∈ c1, l ∉ c2) (o : List ℕ) (ho : InB h.outBatch o) (y : ℕ → ℂ) :
    h.call o y = f.call (restrict (· ∈ b1) bo o) (fun p => y (co.idxOf (c1.getD p 0))) *
      g.call (restrict (· ∈ b2) bo o) (fun p => y (co.idxOf (c2.getD p 0))) := by
  have hS : c1.filter (· ∈ c2) = [] := List.filter_eq_nil_iff.2 fun l hl => by simpa using h0 l hl
  have hcon := C16_one_label hf hg sf sg H hc (by rw [hS]; simp) (by
    intro o _ τ1 τ2 _ _ w hw
    exfalso
    apply hw
    funext i
    have hlt : (i : ℕ) < (c1.filter (· ∈ c2)).length := i.2
    have h00 : (c1.filter (· ∈ c2)).length = 0 := by rw [hS]; rfl
    omega)
  rw [hcon.2.2 o ho y]
  rw [show pairIntegral (c1.filter (· ∈ c2)).length (-1) (fun w =>
      f.call (restrict (· ∈ b1) bo o) (atLabel c1 (c1.filter (· ∈ c2)) (padFin w) co y) *
      g.call (restrict (· ∈ b2) bo o) (atLabel c2 (c1.filter (· ∈ c2)) (padFin fun i => (starRingEnd ℂ) (w i)) co y)) =
    pairIntegral (c1.filter (· ∈ c2)).length (-1) (fun _ =>
      f.call (restrict (· ∈ b1) bo o) (fun p => y (co.idxOf (c1.getD p 0))) *
      g.call (restrict (· ∈ b2) bo o) (fun p => y (co.idxOf (c2.getD p 0)))) from ?_]
  · rw [hS]; exact pairIntegral_zero _ _
  · congr 1
    funext w
    have e1 : atLabel c1 (c1.filter (· ∈ c2)) (padFin w) co y = fun p => y (co.idxOf (c1.getD p 0)) := by
      funext p
      unfold atLabel
      rw [if_neg (by rw [hS]; simp)]
    have e2 : atLabel c2 (c1.filter (· ∈ c2)) (padFin fun i => (starRingEnd ℂ) (w i)) co y = fun p => y (co.idxOf (c2.getD p 0)) := by
      funext p
      unfold atLabel
      rw [if_neg (by rw [hS]; simp)]
    rw [e1, e2]

/-- **C16** (any number of shared labels, inner product of mutually conjugate quadratic forms — a state with its own dual, and more generally any
two operands whose quadratic forms in the shared variables are complex conjugate): exact. -/
theorem C16_conjugate (hf : f.WF) (hg : g.WF) (sf : SymAll f) (sg : SymAll g) (H : Compat f g b1 c1 b2 c2 bo co)
    (hc : f.contract g b1 c1 b2 c2 bo co = some (.finite h))
    (hconj : ∀ o τ1 τ2, InB h.outBatch o → InB f.lsBatch τ1 → InB g.lsBatch τ2 → ∀ l ∈ c1, l ∈ c2 → ∀ l' ∈ c1, l' ∈ c2 →
      f.A (restrict (· ∈ b1) bo o ++ τ1) (c1.idxOf l) (c1.idxOf l') =
        (starRingEnd ℂ) (g.A (restrict (· ∈ b2) bo o ++ τ2) (c2.idxOf l) (c2.idxOf l')))
    (hconv : ∀ o, InB h.outBatch o → AllConv f g b1 c1 b2 c2 bo o) : IsContraction f g h b1 c1 b2 c2 bo co := by
  refine contraction_of_const hf hg sf sg H hc hconv ?_
  rintro o τ1 τ2 M ho h1 h2 m1 m2 hz ⟨A, hM, hA⟩
  have key : ∀ p q, M p.swap q.swap = (starRingEnd ℂ) (M p q) := by
    rw [hM]
    refine conj_fun (f := ⟨[], false, 0, fun _ => A, fun _ _ => 0, [], fun _ _ => 0⟩) (β := []) ?_ (-1)
    intro i hi j hj
    obtain ⟨z1, z2, z3, z4⟩ := zIdx_facts H i hi
    obtain ⟨y1, y2, y3, y4⟩ := zIdx_facts H j hj
    have mem : ∀ i, i < (zIdx c1 c2).length → (c1.filter (· ∈ c2)).getD i 0 ∈ c1 ∧ (c1.filter (· ∈ c2)).getD i 0 ∈ c2 := by
      intro i hi
      have hi' : i < (c1.filter (· ∈ c2)).length := by rwa [zIdx_len] at hi
      apply mem_sharedL.mp
      rw [List.getD_eq_getElem _ _ hi']; exact List.getElem_mem hi'
    constructor
    · dsimp only
      rw [hA _ (by omega) _ (by omega), hA _ (by omega) _ (by omega), if_pos ⟨z2, y2⟩, if_neg (by omega), if_pos (by omega), z3, y3,
        Nat.add_sub_cancel_left, Nat.add_sub_cancel_left, z1, y1]
      exact hconj o τ1 τ2 ho h1 h2 _ (mem i hi).1 (mem i hi).2 _ (mem j hj).1 (mem j hj).2
    · dsimp only
      rw [hA _ (by omega) _ (by omega), hA _ (by omega) _ (by omega), if_neg (by omega), if_neg (by omega), if_neg (by omega),
        if_neg (by omega), map_zero]
  have := gaussConst_real m1 m2 key
  rwa [gM_card] at this

/-- The permutation of the positions given by an involution of the shared labels. -/
def labelPerm (S : List ℕ) (σ : ℕ → ℕ) (hS : S.Nodup) (hσ : ∀ l ∈ S, σ l ∈ S ∧ σ (σ l) = l) : Fin S.length ≃ Fin S.length :=
  Function.Involutive.toPerm (fun i => ⟨S.idxOf (σ S[i]), List.idxOf_lt_length_iff.mpr (hσ _ (List.getElem_mem i.2)).1⟩) (by
    intro i
    apply Fin.ext
    simp only [Fin.getElem_fin, List.getElem_idxOf]
    rw [(hσ _ (List.getElem_mem i.2)).2]
    exact hS.idxOf_getElem i i.2)

theorem labelPerm_get (S : List ℕ) (σ : ℕ → ℕ) (hS : S.Nodup) (hσ : ∀ l ∈ S, σ l ∈ S ∧ σ (σ l) = l) (i : Fin S.length) :
    S.getD (labelPerm S σ hS hσ i) 0 = σ (S.getD i 0) := by
  have e : ((labelPerm S σ hS hσ i : Fin S.length) : ℕ) = S.idxOf (σ (S[(i : ℕ)]'i.2)) := rfl
  rw [e, getD_idxOf (hσ _ (List.getElem_mem i.2)).1, List.getD_eq_getElem _ _ i.2]

/-- **C16** (any number of shared labels, density matrices and channels): exact whenever the quadratic forms of both operands in the shared variables are
Hermitian symmetric under one and the same exchange `σ` of the shared labels (bra and ket of each mode). -/
theorem C16_hermitian (hf : f.WF) (hg : g.WF) (sf : SymAll f) (sg : SymAll g) (H : Compat f g b1 c1 b2 c2 bo co)
    (hc : f.contract g b1 c1 b2 c2 bo co = some (.finite h)) (σ : ℕ → ℕ)
    (hσ : ∀ l ∈ c1, l ∈ c2 → σ l ∈ c1 ∧ σ l ∈ c2 ∧ σ (σ l) = l)
    (hherm : ∀ o τ1 τ2, InB h.outBatch o → InB f.lsBatch τ1 → InB g.lsBatch τ2 → ∀ l ∈ c1, l ∈ c2 → ∀ l' ∈ c1, l' ∈ c2 →
      f.A (restrict (· ∈ b1) bo o ++ τ1) (c1.idxOf (σ l)) (c1.idxOf (σ l')) =
        (starRingEnd ℂ) (f.A (restrict (· ∈ b1) bo o ++ τ1) (c1.idxOf l) (c1.idxOf l')) ∧
      g.A (restrict (· ∈ b2) bo o ++ τ2) (c2.idxOf (σ l)) (c2.idxOf (σ l')) =
        (starRingEnd ℂ) (g.A (restrict (· ∈ b2) bo o ++ τ2) (c2.idxOf l) (c2.idxOf l')))
    (hconv : ∀ o, InB h.outBatch o → AllConv f g b1 c1 b2 c2 bo o) : IsContraction f g h b1 c1 b2 c2 bo co := by
  refine contraction_of_const hf hg sf sg H hc hconv ?_
  rintro o τ1 τ2 M ho h1 h2 m1 m2 hz ⟨A, hM, hA⟩
  have hσ' : ∀ l ∈ c1.filter (· ∈ c2), σ l ∈ c1.filter (· ∈ c2) ∧ σ (σ l) = l := by
    intro l hl
    obtain ⟨a, b⟩ := mem_sharedL.mp hl
    obtain ⟨x, y, z⟩ := hσ l a b
    exact ⟨mem_sharedL.mpr ⟨x, y⟩, z⟩
  let s := labelPerm (c1.filter (· ∈ c2)) σ (H.nc1.filter _) hσ'
  let s' : Fin (zIdx c1 c2).length ≃ Fin (zIdx c1 c2).length := (finCongr (zIdx_len c1 c2)).trans (s.trans (finCongr (zIdx_len c1 c2).symm))
  have hs' : ∀ i : Fin (zIdx c1 c2).length, (c1.filter (· ∈ c2)).getD (s' i) 0 = σ ((c1.filter (· ∈ c2)).getD i 0) := fun i =>
    labelPerm_get _ σ (H.nc1.filter _) hσ' (finCongr (zIdx_len c1 c2) i)
  have mem : ∀ i : Fin (zIdx c1 c2).length, (c1.filter (· ∈ c2)).getD i 0 ∈ c1 ∧ (c1.filter (· ∈ c2)).getD i 0 ∈ c2 := by
    intro i
    have hi' : (i : ℕ) < (c1.filter (· ∈ c2)).length := lt_of_lt_of_eq i.2 (zIdx_len c1 c2)
    apply mem_sharedL.mp
    rw [List.getD_eq_getElem _ _ hi']; exact List.getElem_mem hi'
  have hX : ∀ p q : Fin (zIdx c1 c2).length ⊕ Fin (zIdx c1 c2).length,
      (Matrix.fromBlocks 0 1 1 0 : Matrix (Fin (zIdx c1 c2).length ⊕ Fin (zIdx c1 c2).length) (Fin (zIdx c1 c2).length ⊕ Fin (zIdx c1 c2).length) ℂ)
        (Sum.map s' s' p) (Sum.map s' s' q) = (starRingEnd ℂ) ((Matrix.fromBlocks 0 1 1 0 :
          Matrix (Fin (zIdx c1 c2).length ⊕ Fin (zIdx c1 c2).length) (Fin (zIdx c1 c2).length ⊕ Fin (zIdx c1 c2).length) ℂ) p q) := by
    intro p q
    rcases p with i | i <;> rcases q with j | j <;> simp [Matrix.one_apply] <;> split_ifs <;> simp
  have key : ∀ p q, M (Sum.map s' s' p) (Sum.map s' s' q) = (starRingEnd ℂ) (M p q) := by
    intro p q
    rw [hM]
    simp only [gM, Matrix.add_apply, Matrix.smul_apply, Matrix.of_apply, map_add, smul_eq_mul, map_mul, hX, Complex.conj_ofReal]
    refine congrArg (· + _) ?_
    have F := fun i : Fin (zIdx c1 c2).length => zIdx_facts H i i.2
    rcases p with i | i <;> rcases q with j | j <;> simp only [pos, Sum.map_inl, Sum.map_inr, Sum.elim_inl, Sum.elim_inr]
    · obtain ⟨a1, a2, a3, a4⟩ := F i
      obtain ⟨d1, d2, d3, d4⟩ := F j
      obtain ⟨a1', a2', a3', a4'⟩ := F (s' i)
      obtain ⟨d1', d2', d3', d4'⟩ := F (s' j)
      rw [hA _ (by omega) _ (by omega), hA _ (by omega) _ (by omega), if_pos ⟨a2', d2'⟩, if_pos ⟨a2, d2⟩, a1', d1', a1, d1, hs', hs']
      exact (hherm o τ1 τ2 ho h1 h2 _ (mem i).1 (mem i).2 _ (mem j).1 (mem j).2).1
    · obtain ⟨a1, a2, a3, a4⟩ := F i
      obtain ⟨d1, d2, d3, d4⟩ := F j
      obtain ⟨a1', a2', a3', a4'⟩ := F (s' i)
      obtain ⟨d1', d2', d3', d4'⟩ := F (s' j)
      rw [hA _ (by omega) _ (by omega), hA _ (by omega) _ (by omega), if_neg (by omega), if_neg (by omega), if_neg (by omega),
        if_neg (by omega), map_zero]
    · obtain ⟨a1, a2, a3, a4⟩ := F i
      obtain ⟨d1, d2, d3, d4⟩ := F j
      obtain ⟨a1', a2', a3', a4'⟩ := F (s' i)
      obtain ⟨d1', d2', d3', d4'⟩ := F (s' j)
      rw [hA _ (by omega) _ (by omega), hA _ (by omega) _ (by omega), if_neg (by omega), if_neg (by omega), if_neg (by omega),
        if_neg (by omega), map_zero]
    · obtain ⟨a1, a2, a3, a4⟩ := F i
      obtain ⟨d1, d2, d3, d4⟩ := F j
      obtain ⟨a1', a2', a3', a4'⟩ := F (s' i)
      obtain ⟨d1', d2', d3', d4'⟩ := F (s' j)
      rw [hA _ (by omega) _ (by omega), hA _ (by omega) _ (by omega), if_neg (by omega), if_pos (by omega), if_neg (by omega),
        if_pos (by omega), a3', d3', a3, d3, hs', hs', Nat.add_sub_cancel_left, Nat.add_sub_cancel_left, Nat.add_sub_cancel_left,
        Nat.add_sub_cancel_left]
      exact (hherm o τ1 τ2 ho h1 h2 _ (mem i).1 (mem i).2 _ (mem j).1 (mem j).2).2
  have := gaussConst_herm s' m1 m2 key
  rwa [gM_card] at this

/-- **C16** (any number of shared labels): for operands that are not superpositions, every entry of the result is the contraction up to one
sign, which does not depend on the remaining variables. -/
theorem C16_up_to_sign (hf : f.WF) (hg : g.WF) (sf : SymAll f) (sg : SymAll g) (H : Compat f g b1 c1 b2 c2 bo co)
    (hc : f.contract g b1 c1 b2 c2 bo co = some (.finite h)) (lf : f.linSup = false) (lg : g.linSup = false)
    (o : List ℕ) (ho : InB h.outBatch o) (hconv : AllConv f g b1 c1 b2 c2 bo o) :
    ∃ ε : ℂ, (ε = 1 ∨ ε = -1) ∧ ∀ y, h.call o y = ε * pairIntegral (c1.filter (· ∈ c2)).length (-1) fun w =>
      f.call (restrict (· ∈ b1) bo o) (atLabel c1 (c1.filter (· ∈ c2)) (padFin w) co y) *
      g.call (restrict (· ∈ b2) bo o) (atLabel c2 (c1.filter (· ∈ c2)) (padFin fun i => (starRingEnd ℂ) (w i)) co y) := by
  obtain ⟨JP, hJ1, hJ2, hJ3, hw, hn, hob, hv⟩ := contract_core hf hg sf sg H hc
  obtain ⟨v1, v2, v3⟩ := hv o (by rw [← hob]; exact ho)
  have e1 : f.lsBatch = [] := by simp [lsBatch, lf]
  have e2 : g.lsBatch = [] := by simp [lsBatch, lg]
  have n1 : InB f.lsBatch [] := by rw [e1]; exact List.Forall₂.nil
  have n2 : InB g.lsBatch [] := by rw [e2]; exact List.Forall₂.nil
  have nn : ∀ τ1 τ2, InB f.lsBatch τ1 → InB g.lsBatch τ2 → τ1 = [] ∧ τ2 = [] := by
    intro τ1 τ2 h1 h2
    rw [e1] at h1
    rw [e2] at h2
    cases h1
    cases h2
    exact ⟨rfl, rfl⟩
  obtain ⟨m1, m2⟩ := gM_posS hJ2 hJ3 H (v2 [] [] n1 n2 (hconv [] [] n1 n2))
  obtain ⟨ε0, hε0, he⟩ := gaussConst_sign m1 m2
  rw [gM_card] at he
  by_cases hz : zIdx c1 c2 = []
  · refine ⟨1, Or.inl rfl, fun y => ?_⟩
    have := (v3 (fun _ _ => 1) (by
      intro τ1 τ2 h1 h2
      exact ⟨hconv τ1 τ2 h1 h2, fun h => absurd hz h, fun _ => rfl⟩) y).2
    rw [this, e1, e2, nsum_nil, nsum_nil]
    simp only [call_nls lf, call_nls lg, List.append_nil, one_mul]
  · refine ⟨ε0, hε0, fun y => ?_⟩
    have := (v3 (fun _ _ => ε0) (by
      intro τ1 τ2 h1 h2
      refine ⟨hconv τ1 τ2 h1 h2, fun _ => ?_, fun h => absurd h hz⟩
      obtain ⟨rfl, rfl⟩ := nn τ1 τ2 h1 h2
      exact he) y).2
    rw [this, e1, e2, nsum_nil, nsum_nil]
    simp only [call_nls lf, call_nls lg, List.append_nil]

end Verif.PolyExp
