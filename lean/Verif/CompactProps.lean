import Verif.Compact

/-!
# The compact diagonal strategy: the loop computes what its steps compute
-/

namespace Verif.Compact
open Verif.Fock Verif.FastDiag

section
variable {α : Type} {R : (ℕ →₀ ℕ) → α → Prop} {cut : List ℕ} {st : Arrs α} {D D' : List ℕ → Prop} {E E' : List ℕ → ℕ → Prop} {p : List ℕ}

theorem Full.mono {s : ℕ} (h : Full cut D E s) (hD : ∀ q, D q → D' q) (hE : ∀ q d, E q d → E' q d) : Full cut D' E' s :=
  ⟨fun q h1 h2 h3 => hD q (h.d q h1 h2 h3), fun q d h1 h2 h3 h4 => hE q d (h.e q d h1 h2 h3 h4)⟩

theorem P_raise {p : List ℕ} {d : ℕ} (hd : d < p.length) : P (raise p d) = up (up (P p) (2 * d)) (2 * d + 1) := by
  ext x
  rw [up_apply, up_apply, P_apply, P_apply, raise_getD _ _ _ hd]
  rcases eq_or_ne (x / 2) d with hx | hx
  · rw [hx]; split_ifs <;> omega
  · split_ifs <;> omega

theorem writeDiag_good (hG : Good R cut st D E) {next : ℕ → α} (hn : ∀ i < 2 * cut.length, R (up (P p) i) (next i)) :
    Good R cut (writeDiag cut p next st) (fun q => D q ∨ q = p) E := by
  refine ⟨hG.zero, hG.a0, fun q i hq hi h1 h2 => ?_, hG.a2, hG.a1010, hG.a1001⟩
  show R _ (if _ then _ else _)
  split_ifs with h
  · rw [h.1]; exact hn i hi
  · rcases hq with hq | rfl
    · exact hG.a1 q i hq hi h1 h2
    · exact absurd ⟨rfl, hi, h1, h2⟩ h

theorem writeOff_good (hG : Good R cut st D E) (hp : p.length = cut.length) {d : ℕ} (hd : d < cut.length) {next : ℕ → α}
    (hn : ∀ i < 2 * cut.length, R (up (up (P p) (2 * d)) i) (next i)) :
    Good R cut (writeOff cut p d next st) D (fun q d' => E q d' ∨ q = p ∧ d' = d) := by
  have hr : R (P (raise p d)) (next (2 * d + 1)) := by rw [P_raise (by omega)]; exact hn _ (by omega)
  refine ⟨?_, fun q d' hq => ?_, hG.a1, fun q d' hq h1 => ?_, fun q d' e hq h1 h2 => ?_, fun q d' e hq h1 h2 => ?_⟩
  · show R _ (Function.update st.a0 (raise p d) (next (2 * d + 1)) (List.replicate cut.length 0))
    by_cases h : List.replicate cut.length 0 = raise p d
    · rw [h, Function.update_self, ← P_zero cut.length, h]; exact hr
    · rw [Function.update_of_ne h]; exact hG.zero
  · show R _ (Function.update st.a0 (raise p d) (next (2 * d + 1)) (raise q d'))
    by_cases h : raise q d' = raise p d
    · rw [h, Function.update_self]; exact hr
    · rw [Function.update_of_ne h]
      rcases hq with hq | ⟨rfl, rfl⟩
      · exact hG.a0 q d' hq
      · exact absurd rfl h
  · show R _ (if _ then _ else _)
    split_ifs with h
    · obtain ⟨rfl, rfl, -⟩ := h; exact hn _ (by omega)
    · rcases hq with hq | ⟨rfl, rfl⟩
      · exact hG.a2 q d' hq h1
      · exact absurd ⟨rfl, rfl, h1⟩ h
  · show R _ (if _ then _ else _)
    split_ifs with h
    · obtain ⟨rfl, rfl, -⟩ := h; exact hn _ (by omega)
    · rcases hq with hq | ⟨rfl, rfl⟩
      · exact hG.a1010 q d' e hq h1 h2
      · exact absurd ⟨rfl, rfl, h1, h2⟩ h
  · show R _ (if _ then _ else _)
    split_ifs with h
    · obtain ⟨rfl, rfl, -⟩ := h; exact hn _ (by omega)
    · rcases hq with hq | ⟨rfl, rfl⟩
      · exact hG.a1001 q d' e hq h1 h2
      · exact absurd ⟨rfl, rfl, h1, h2⟩ h

variable [Zero α] {dN : List ℕ → Arrs α → ℕ → α} {oN : List ℕ → ℕ → Arrs α → ℕ → α}

/-- What is asked of a step with a diagonal pivot. -/
def DiagStep (R : (ℕ →₀ ℕ) → α → Prop) (cut : List ℕ) (dN : List ℕ → Arrs α → ℕ → α) : Prop :=
  ∀ p st, InBox cut p → diagCond cut p → R (P p) (st.a0 p) → (∀ l < 2 * cut.length, 0 < p.getD (l / 2) 0 → R (dn (P p) l) (readDiag st p l)) →
    ∀ i < 2 * cut.length, R (up (P p) i) (dN p st i)
/-- What is asked of a step with an off-diagonal pivot. -/
def OffStep (R : (ℕ →₀ ℕ) → α → Prop) (cut : List ℕ) (oN : List ℕ → ℕ → Arrs α → ℕ → α) : Prop :=
  ∀ p d st, InBox cut p → d < cut.length → offCond cut p d → R (up (P p) (2 * d)) (st.a1 (2 * d) p) →
    (∀ l < 2 * cut.length, 0 < up (P p) (2 * d) l → R (dn (up (P p) (2 * d)) l) (readOff cut.length st p d l)) →
      ∀ i < 2 * cut.length, R (up (up (P p) (2 * d)) i) (oN p d st i)

theorem visit_good (h1 : DiagStep R cut dN) (h2 : OffStep R cut oN) (hG : Good R cut st D E) (hF : Full cut D E p.sum) (hp : InBox cut p) :
    ∃ D' E', (∀ q, D q → D' q) ∧ (∀ q d, E q d → E' q d) ∧ Good R cut (visit cut dN oN st p) D' E' ∧ (diagCond cut p → D' p) ∧ ∀ d < cut.length, offCond cut p d → E' p d := by
  obtain ⟨D', hDD, hDp, hGD⟩ : ∃ D' : List ℕ → Prop, (∀ q, D q → D' q) ∧ (diagCond cut p → D' p) ∧
      Good R cut (if diagCond cut p then writeDiag cut p (dN p st) st else st) D' E := by
    by_cases hc : diagCond cut p
    · refine ⟨fun q => D q ∨ q = p, fun q h => .inl h, fun _ => .inr rfl, ?_⟩
      rw [if_pos hc]
      exact writeDiag_good hG (h1 p st hp hc (good_a0 hG hF hp) fun l hl h0 => readDiag_ok hG hF hp hc hl h0)
    · exact ⟨D, fun q h => h, fun h => absurd h hc, by rw [if_neg hc]; exact hG⟩
  have key : ∀ n ≤ cut.length, ∃ E' : List ℕ → ℕ → Prop, (∀ q d, E q d → E' q d) ∧
      Good R cut ((List.range n).foldl (fun st d => if offCond cut p d then writeOff cut p d (oN p d st) st else st)
        (if diagCond cut p then writeDiag cut p (dN p st) st else st)) D' E' ∧ ∀ d < n, offCond cut p d → E' p d := by
    intro n
    induction n with
    | zero => exact fun _ => ⟨E, fun _ _ h => h, hGD, fun d hd => absurd hd (by omega)⟩
    | succ n ih =>
      intro hn
      obtain ⟨E', e1, e2, e3⟩ := ih (by omega)
      rw [List.range_succ, List.foldl_append, List.foldl_cons, List.foldl_nil]
      by_cases hc : offCond cut p n
      · rw [if_pos hc]
        refine ⟨fun q d => E' q d ∨ q = p ∧ d = n, fun q d h => .inl (e1 q d h), writeOff_good e2 hp.1 hn
          (h2 p n _ hp hn hc (pivotOff_ok e2 hDp hp hn hc) fun l hl h0 => readOff_ok e2 (hF.mono hDD e1) hp hn hc hl h0), fun d hd hod => ?_⟩
        rcases eq_or_ne d n with rfl | hne
        · exact .inr ⟨rfl, rfl⟩
        · exact .inl (e3 d (by omega) hod)
      · rw [if_neg hc]
        refine ⟨E', e1, e2, fun d hd hod => ?_⟩
        rcases eq_or_ne d n with rfl | hne
        · exact absurd hod hc
        · exact e3 d (by omega) hod
  obtain ⟨E', e1, e2, e3⟩ := key _ le_rfl
  exact ⟨D', E', hDD, e1, e2, hDp, e3⟩

theorem level_good (h1 : DiagStep R cut dN) (h2 : OffStep R cut oN) (s : ℕ) (L : List (List ℕ)) : ∀ (st : Arrs α) (D : List ℕ → Prop) (E : List ℕ → ℕ → Prop),
    Good R cut st D E → Full cut D E s → (∀ q ∈ L, InBox cut q ∧ q.sum = s) →
    ∃ D' E', (∀ q, D q → D' q) ∧ (∀ q d, E q d → E' q d) ∧ Good R cut (L.foldl (visit cut dN oN) st) D' E' ∧
      ∀ q ∈ L, (diagCond cut q → D' q) ∧ ∀ d < cut.length, offCond cut q d → E' q d := by
  induction L with
  | nil => exact fun st D E hG _ _ => ⟨D, E, fun _ h => h, fun _ _ h => h, hG, fun q hq => absurd hq (by simp)⟩
  | cons p L ih =>
    intro st D E hG hF hL
    obtain ⟨hp, hs⟩ := hL p (by simp)
    obtain ⟨D1, E1, d1, e1, g1, p1, q1⟩ := visit_good h1 h2 hG (by rw [hs]; exact hF) hp
    obtain ⟨D2, E2, d2, e2, g2, p2⟩ := ih _ _ _ g1 (hF.mono d1 e1) fun q hq => hL q (by simp [hq])
    refine ⟨D2, E2, fun q h => d2 q (d1 q h), fun q d h => e2 q d (e1 q d h), g2, fun q hq => ?_⟩
    rcases List.mem_cons.1 hq with rfl | hq
    · exact ⟨fun h => d2 _ (p1 h), fun d hd h => e2 _ d (q1 d hd h)⟩
    · exact p2 q hq

theorem mem_dictParams (cut : List ℕ) (s : ℕ) (q : List ℕ) : q ∈ dictParams cut s ↔ InBox cut q ∧ q.sum = s := by
  unfold dictParams
  rw [List.mem_filter, mem_prodL]
  refine and_congr ?_ (by simp)
  rw [List.forall₂_map_right_iff, forall2_getD 0 0]
  unfold InBox
  constructor
  · rintro ⟨h, h'⟩
    exact ⟨h, fun i hi => by simpa using h' i (by omega)⟩
  · rintro ⟨h, h'⟩
    exact ⟨h, fun i hi => by simpa using h' i (by omega)⟩

omit [Zero α] in
theorem sum_lt {cut q : List ℕ} (hq : InBox cut q) (h0 : cut ≠ []) : q.sum < cut.sum := by
  obtain ⟨hl, h⟩ := hq
  induction cut generalizing q with
  | nil => exact absurd rfl h0
  | cons c cut ih =>
    cases q with
    | nil => simp at hl
    | cons a q =>
      have h00 := h 0 (by simp)
      simp only [List.getD_cons_zero] at h00
      simp only [List.sum_cons]
      rcases eq_or_ne cut [] with rfl | hc
      · have : q = [] := by simpa using hl
        subst this; simpa using h00
      · have := ih (q := q) hc (by simpa using hl) fun i hi => by simpa using h (i + 1) (by simpa using hi)
        omega

/-- Every index of the box is visited, and every entry computed is right. -/
theorem sweep_good (h1 : DiagStep R cut dN) (h2 : OffStep R cut oN) {x : α} (h0 : R 0 x) :
    ∃ D E, Good R cut (sweep cut dN oN (initArrs cut.length x)) D E ∧ ∀ s, Full cut D E s := by
  have key : ∀ n, ∃ D E, Good R cut ((List.range n).foldl (fun st s => (dictParams cut s).foldl (visit cut dN oN) st) (initArrs cut.length x)) D E ∧ Full cut D E n := by
    intro n
    induction n with
    | zero =>
      refine ⟨fun _ => False, fun _ _ => False, ⟨?_, fun _ _ h => h.elim, fun _ _ h => h.elim, fun _ _ h => h.elim, fun _ _ _ h => h.elim, fun _ _ _ h => h.elim⟩,
        ⟨fun q _ h => absurd h (by omega), fun q d _ h => absurd h (by omega)⟩⟩
      show R 0 (Function.update (fun _ => (0 : α)) (List.replicate cut.length 0) x (List.replicate cut.length 0))
      rw [Function.update_self]; exact h0
    | succ n ih =>
      obtain ⟨D, E, hG, hF⟩ := ih
      rw [List.range_succ, List.foldl_append, List.foldl_cons, List.foldl_nil]
      obtain ⟨D', E', d1, e1, g1, p1⟩ := level_good h1 h2 n (dictParams cut n) _ D E hG hF fun q hq => (mem_dictParams cut n q).1 hq
      refine ⟨D', E', g1, ⟨fun q hq hs hc => ?_, fun q d hq hs hd hc => ?_⟩⟩
      · rcases Nat.lt_or_ge q.sum n with h | h
        · exact d1 q (hF.d q hq h hc)
        · exact (p1 q ((mem_dictParams cut n q).2 ⟨hq, by omega⟩)).1 hc
      · rcases Nat.lt_or_ge q.sum n with h | h
        · exact e1 q d (hF.e q d hq h hd hc)
        · exact (p1 q ((mem_dictParams cut n q).2 ⟨hq, by omega⟩)).2 d hd hc
  obtain ⟨D, E, hG, hF⟩ := key cut.sum
  refine ⟨D, E, hG, fun s => ⟨fun q hq _ hc => ?_, fun q d hq _ hd hc => ?_⟩⟩
  · refine hF.d q hq (sum_lt hq ?_) hc
    rintro rfl
    simp [diagCond] at hc
  · refine hF.e q d hq (sum_lt hq ?_) hd hc
    rintro rfl
    simp at hd

/-- All diagonal entries are right. -/
theorem sweep_a0 (h1 : DiagStep R cut dN) (h2 : OffStep R cut oN) {x : α} (h0 : R 0 x) (hp : InBox cut p) : R (P p) ((sweep cut dN oN (initArrs cut.length x)).a0 p) := by
  obtain ⟨D, E, hG, hF⟩ := sweep_good h1 h2 h0
  exact good_a0 hG (hF _) hp

end

/-! ## The amplitudes -/

theorem nextVal_eq {A : ℕ → ℕ → ℂ} {B : ℕ → ℂ} {c : ℂ} {M : ℕ} (hA : Symm (2 * M) A) {k : ℕ →₀ ℕ} {pivot : ℕ → ℕ} (hk : ∀ l, pivot l = k l) {Gin : ℕ → ℂ}
    (hG : ∀ l < 2 * M, 0 < k l → Gin l = amp (2 * M) A B c (dn k l)) {i : ℕ} (hi : i < 2 * M) :
    nextVal A B M pivot (amp (2 * M) A B c k) Gin i = amp (2 * M) A B c (up k i) := by
  unfold nextVal
  rw [hk i, div_eq_iff (sq_ne_zero (by omega)), mul_comm (amp _ _ _ _ (up k i)), amp_up c hA hi, mul_comm (B i)]
  refine congrArg (_ + ·) (Finset.sum_congr rfl fun l hl => ?_)
  rw [hk l]
  rcases Nat.eq_zero_or_pos (k l) with h | h
  · rw [h]; simp [Fock.sq]
  · rw [hG l (Finset.mem_range.1 hl) h, mul_assoc]

theorem diagStep_amps {A : ℕ → ℕ → ℂ} {B : ℕ → ℂ} {c : ℂ} {cut : List ℕ} (hA : Symm (2 * cut.length) A) :
    DiagStep (fun k v => v = amp (2 * cut.length) A B c k) cut (diagNext A B cut.length) := by
  intro p st _ _ h0 hr i hi
  unfold diagNext
  rw [h0]
  exact nextVal_eq hA (fun l => by rw [P_apply]; rfl) (fun l hl h => hr l hl (by rwa [P_apply] at h)) hi

theorem offStep_amps {A : ℕ → ℕ → ℂ} {B : ℕ → ℂ} {c : ℂ} {cut : List ℕ} (hA : Symm (2 * cut.length) A) :
    OffStep (fun k v => v = amp (2 * cut.length) A B c k) cut (offNext A B cut.length) := by
  intro p d st _ _ _ h0 hr i hi
  unfold offNext
  rw [h0]
  refine nextVal_eq hA (fun l => ?_) hr hi
  rw [up_apply, P_apply]; rfl

/-- The amplitudes in the order of the code. -/
theorem amps_a0 (A : ℕ → ℕ → ℂ) (B : ℕ → ℂ) (c : ℂ) (cut : List ℕ) (hA : Symm (2 * cut.length) A) {p : List ℕ} (hp : InBox cut p) :
    (amps A B c cut).a0 p = amp (2 * cut.length) A B c (P p) :=
  sweep_a0 (diagStep_amps hA) (offStep_amps hA) (amp_zero c).symm hp

/-- **C79** `math.hermite_renormalized_diagonal` is the diagonal of the Fock array: for every number of modes, all cutoffs and every symmetric `A`, entry `p` is the amplitude
with `p` photons in the first half of the variables and `p` in the second half. -/
theorem C79_diagonal (A : ℕ → ℕ → ℂ) (b : ℕ → ℂ) (c : ℂ) (cut : List ℕ) (hA : Symm (2 * cut.length) A) :
    ∃ out, diagonal A b c cut = some out ∧ ∀ p : List ℕ, List.Forall₂ (· < ·) p cut → out p = amp (2 * cut.length) A b c (p ++ p).toFinsupp := by
  have hperm : ∀ i < 2 * cut.length, perm cut.length i < 2 * cut.length := fun i hi => by
    unfold perm; split_ifs <;> omega
  have hA' : Symm (2 * cut.length) (fun i j => A (perm cut.length i) (perm cut.length j)) := fun i hi j hj => hA _ (hperm i hi) _ (hperm j hj)
  refine ⟨_, by unfold diagonal; simp only []; rw [if_pos hA'], fun p hp => ?_⟩
  rw [forall2_getD 0 0] at hp
  have hb : InBox cut p := ⟨hp.1, fun i hi => hp.2 i (by omega)⟩
  rw [amps_a0 _ _ _ _ hA' hb]
  cases p with
  | nil =>
    have e : P [] = (([] : List ℕ) ++ []).toFinsupp := by
      ext x
      rw [P_apply, List.toFinsupp_apply]
      simp
    have h0 : cut.length = 0 := hp.1.symm
    rw [e]
    exact amp_congr c (fun i hi => absurd hi (by omega)) (fun i hi => absurd hi (by omega)) _
  | cons r p =>
    have e : P (r :: p) = (r :: r :: dup p).toFinsupp := rfl
    rw [e]
    have h := amp_interleave cut.length A b c r r p (by simpa using hp.1)
    rw [h]

/-- **C79 (validation)** A matrix that is not symmetric is refused. -/
theorem C79_refused (A : ℕ → ℕ → ℂ) (b : ℕ → ℂ) (c : ℂ) (cut : List ℕ) (hA : ¬ Symm (2 * cut.length) A) : diagonal A b c cut = none := by
  unfold diagonal
  simp only []
  rw [if_neg]
  intro h
  refine hA fun i hi j hj => ?_
  have hinv : ∀ x < 2 * cut.length, ∃ y < 2 * cut.length, perm cut.length y = x := fun x hx => by
    by_cases h : x < cut.length
    · exact ⟨2 * x, by omega, by unfold perm; rw [if_pos (by omega)]; omega⟩
    · exact ⟨2 * (x - cut.length) + 1, by omega, by unfold perm; rw [if_neg (by omega)]; omega⟩
  obtain ⟨y, hy, rfl⟩ := hinv i hi
  obtain ⟨w, hw, rfl⟩ := hinv j hj
  exact h y hy w hw

end Verif.Compact
