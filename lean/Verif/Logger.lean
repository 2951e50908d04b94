import Mathlib.Data.List.Basic
import Mathlib.Data.List.Count
import Mathlib.Tactic.Common

/-!
# Loggers (C117)

Names are lists of components, the last component first; the ancestors of a logger are the tails of its name and the root is `[]`.
-/

namespace Verif.Log

/-- The registry of Python's `logging`: handlers (a number per handler object), level (0: not set) and propagation of every logger; loggers never asked for have the default values. -/
structure Reg where
  handlers : List String → List ℕ
  level : List String → ℕ
  propagate : List String → Bool

/-- `default_handler` (utils/logger.py:78). -/
def dflt : ℕ := 0

/-- utils/logger.py:53-75 `logging_handler_defined`. -/
def defined (R : Reg) : List String → Bool
  | [] => !(R.handlers []).isEmpty
  | c :: p => if !(R.handlers (c :: p)).isEmpty then true else if !R.propagate (c :: p) then false else defined R p

/-- `logging.Logger.getEffectiveLevel`: the first level set on the way to the root (propagation plays no role). -/
def effective (R : Reg) : List String → ℕ
  | [] => R.level []
  | c :: p => if R.level (c :: p) ≠ 0 then R.level (c :: p) else effective R p

/-- utils/logger.py:83-114 `create_logger`; `addHandler` does nothing for a handler that is already there. -/
def create (R : Reg) (n : List String) (lvl : ℕ) : Reg :=
  if effective R n = 30 ∧ R.level n = 0 ∧ defined R n = false then
    { R with level := Function.update R.level n lvl
             handlers := Function.update R.handlers n (if dflt ∈ R.handlers n then R.handlers n else R.handlers n ++ [dflt]) }
  else R

/-- The handlers that get a record logged by the logger `n` (`logging.Logger.callHandlers`). -/
def reached (R : Reg) : List String → List ℕ
  | [] => R.handlers []
  | c :: p => R.handlers (c :: p) ++ if R.propagate (c :: p) then reached R p else []

/-! ## Properties -/

theorem defined_iff (R : Reg) (n : List String) : defined R n = false ↔ reached R n = [] := by
  induction n with
  | nil =>
    show (!(R.handlers []).isEmpty) = false ↔ R.handlers [] = []
    simp
  | cons c p ih =>
    unfold defined reached
    by_cases h : R.handlers (c :: p) = []
    · by_cases hp : R.propagate (c :: p) = true
      · simp [h, hp, ih]
      · simp [h, hp]
    · simp [h]

/-- The effective level is the first level that is set among those of the logger and its ancestors, the root last (0 if none is). -/
theorem C117_effective (R : Reg) (n : List String) : effective R n = ((n.tails.map R.level).find? (· ≠ 0)).getD 0 := by
  induction n with
  | nil =>
    show R.level [] = (([R.level []] : List ℕ).find? (· ≠ 0)).getD 0
    by_cases h : R.level [] = 0 <;> simp [h]
  | cons c p ih =>
    rw [show (c :: p).tails = (c :: p) :: p.tails from rfl, List.map_cons, List.find?_cons]
    unfold effective
    by_cases h : R.level (c :: p) = 0
    · simp [h, ih]
    · simp [h]

/-- **C117** the logger is configured exactly if its effective level is WARNING, its own level is not set and no handler receives its records. -/
theorem C117_when (R : Reg) (n : List String) (lvl : ℕ) :
    (effective R n = 30 ∧ R.level n = 0 ∧ reached R n = [] → (create R n lvl).level n = lvl ∧ (create R n lvl).handlers n = [dflt]) ∧
    (¬ (effective R n = 30 ∧ R.level n = 0 ∧ reached R n = []) → create R n lvl = R) := by
  unfold create
  constructor
  · intro h
    rw [if_pos ⟨h.1, h.2.1, (defined_iff R n).2 h.2.2⟩]
    have he : R.handlers n = [] := by
      cases n with
      | nil => exact h.2.2
      | cons c p =>
        have := h.2.2
        unfold reached at this
        exact (List.append_eq_nil_iff.1 this).1
    simp [he]
  · intro h
    rw [if_neg fun h' => h ⟨h'.1, h'.2.1, (defined_iff R n).1 h'.2.2⟩]

/-- The user setting a level (other than WARNING) on the root keeps every logger without a level on the way from being configured. -/
theorem C117_root_level (R : Reg) (n : List String) (lvl : ℕ) (h0 : R.level [] ≠ 30) (h : ∀ m, m <:+ n → m ≠ [] → R.level m = 0) : create R n lvl = R := by
  refine (C117_when R n lvl).2 fun h' => h0 ?_
  have e : effective R n = R.level [] := by
    clear h'
    induction n with
    | nil => rfl
    | cons c p ih =>
      unfold effective
      rw [if_neg (not_not.2 (h _ List.suffix_rfl (List.cons_ne_nil _ _)))]
      exact ih fun m hm hne => h m (hm.trans (List.suffix_cons c p)) hne
  rw [← e]
  exact h'.1

/-- Other loggers, and propagation, are not touched. -/
theorem C117_others (R : Reg) (n m : List String) (lvl : ℕ) (h : m ≠ n) :
    (create R n lvl).level m = R.level m ∧ (create R n lvl).handlers m = R.handlers m ∧ (create R n lvl).propagate = R.propagate := by
  unfold create
  split_ifs
  · exact ⟨Function.update_of_ne h _ _, Function.update_of_ne h _ _, rfl⟩
  · exact ⟨Function.update_of_ne h _ _, Function.update_of_ne h _ _, rfl⟩
  · exact ⟨rfl, rfl, rfl⟩

/-- A step of a history: a call of `create_logger`, or the user adding a handler other than the default one, setting a level, or switching propagation. -/
inductive Op
  | create (n : List String) (lvl : ℕ)
  | handler (n : List String) (h : ℕ)
  | level (n : List String) (lvl : ℕ)
  | propagate (n : List String) (b : Bool)

def run1 (R : Reg) : Op → Reg
  | .create n lvl => Verif.Log.create R n lvl
  | .handler n h => { R with handlers := Function.update R.handlers n (R.handlers n ++ [h]) }
  | .level n lvl => { R with level := Function.update R.level n lvl }
  | .propagate n b => { R with propagate := Function.update R.propagate n b }

/-- The registry at the start: no handlers, the root has level WARNING. -/
def init : Reg := ⟨fun _ => [], fun n => if n = [] then 30 else 0, fun _ => true⟩

theorem create_count (R : Reg) (n m : List String) (lvl : ℕ) : ((create R n lvl).handlers m).count dflt ≤ max 1 ((R.handlers m).count dflt) := by
  by_cases hm : m = n
  · subst hm
    by_cases h : effective R m = 30 ∧ R.level m = 0 ∧ reached R m = []
    · rw [((C117_when R m lvl).1 h).2]
      exact Nat.le_max_left _ _
    · rw [(C117_when R m lvl).2 h]
      exact Nat.le_max_right _ _
  · rw [(C117_others R n m lvl hm).2.1]
    exact Nat.le_max_right _ _

/-- **C117** over every history, the default handler is on each logger at most once, however many loggers (optimizers) are created. -/
theorem C117_once (ops : List Op) (hops : ∀ n h, Op.handler n h ∈ ops → h ≠ dflt) (m : List String) : ((ops.foldl run1 init).handlers m).count dflt ≤ 1 := by
  have key : ∀ (ops : List Op) (R : Reg), (∀ n h, Op.handler n h ∈ ops → h ≠ dflt) → (∀ m, (R.handlers m).count dflt ≤ 1) → ∀ m, ((ops.foldl run1 R).handlers m).count dflt ≤ 1 := by
    intro ops
    induction ops with
    | nil => intro R _ h; exact h
    | cons o ops ih =>
      intro R ho h
      refine ih (run1 R o) (fun n h hm => ho n h (List.mem_cons_of_mem _ hm)) fun m => ?_
      cases o with
      | create n lvl => exact Nat.le_trans (create_count R n m lvl) (Nat.max_le.2 ⟨Nat.le_refl _, h m⟩)
      | handler n k =>
        show ((Function.update R.handlers n (R.handlers n ++ [k])) m).count dflt ≤ 1
        by_cases hm : m = n
        · subst hm
          rw [Function.update_self, List.count_append, List.count_eq_zero_of_not_mem (a := dflt) (l := [k]) (by
            rw [List.mem_singleton]; exact fun e => ho m k List.mem_cons_self e.symm)]
          exact h m
        · rw [Function.update_of_ne hm]; exact h m
      | level n lvl => exact h m
      | propagate n b => exact h m
  exact key ops init hops (fun _ => Nat.zero_le _) m

/-- **C117** creating a logger again changes nothing, whatever its level. -/
theorem C117_idempotent (R : Reg) (n : List String) (lvl lvl' : ℕ) : create (create R n lvl) n lvl' = create R n lvl := by
  by_cases h : effective R n = 30 ∧ R.level n = 0 ∧ reached R n = []
  · refine (C117_when _ n lvl').2 fun h' => ?_
    have h1 := ((C117_when R n lvl).1 h).2
    have h2 := h'.2.2
    cases n with
    | nil =>
      unfold reached at h2
      rw [h1] at h2
      cases h2
    | cons c p =>
      unfold reached at h2
      rw [h1] at h2
      cases h2
  · rw [(C117_when R n lvl).2 h, (C117_when R n lvl').2 h]

/-- Creating a logger, in a registry where no record reaches the default handler twice, with no descendants having it. -/
theorem create_reached (R : Reg) (n : List String) (lvl : ℕ) (hd : ∀ m, n <:+ m → m ≠ n → dflt ∉ R.handlers m) (h : ∀ m, (reached R m).count dflt ≤ 1) (m : List String) :
    (reached (create R n lvl) m).count dflt ≤ 1 := by
  by_cases hc : effective R n = 30 ∧ R.level n = 0 ∧ reached R n = []
  swap
  · rw [(C117_when R n lvl).2 hc]; exact h m
  have hn := ((C117_when R n lvl).1 hc).2
  have same : ∀ m, ¬ n <:+ m → reached (create R n lvl) m = reached R m := by
    intro m
    induction m with
    | nil =>
      intro hm
      have : ([] : List String) ≠ n := fun e => hm (e ▸ List.suffix_rfl)
      unfold reached
      rw [(C117_others R n [] lvl this).2.1]
    | cons c p ih =>
      intro hm
      have h1 : (c :: p) ≠ n := fun e => hm (e ▸ List.suffix_rfl)
      have h2 : ¬ n <:+ p := fun e => hm (e.trans (List.suffix_cons c p))
      unfold reached
      rw [(C117_others R n (c :: p) lvl h1).2.1, (C117_others R n (c :: p) lvl h1).2.2, ih h2]
  have atn : reached (create R n lvl) n = [dflt] := by
    have hr := hc.2.2
    cases n with
    | nil => exact hn
    | cons c p =>
      have hp : ¬ (c :: p) <:+ p := fun e => by
        have := e.length_le
        simp at this
        omega
      unfold reached at hr ⊢
      have h2 := (List.append_eq_nil_iff.1 hr).2
      have h3 : (create R (c :: p) lvl).propagate = R.propagate := by
        unfold create
        split_ifs <;> rfl
      rw [hn, same p hp, h3, h2]
      rfl
  by_cases hm : n <:+ m
  swap
  · rw [same m hm]; exact h m
  clear h
  induction m with
  | nil =>
    have : n = [] := List.suffix_nil.1 hm
    subst this
    rw [atn]; decide
  | cons c p ih =>
    by_cases e : (c :: p) = n
    · rw [e, atn]; decide
    · have hp : n <:+ p := by
        rcases List.suffix_cons_iff.1 hm with h | h
        · exact absurd h.symm e
        · exact h
      unfold reached
      rw [(C117_others R n (c :: p) lvl e).2.1, List.count_append, List.count_eq_zero_of_not_mem (hd _ hm e), Nat.zero_add]
      split_ifs
      · exact ih hp
      · exact Nat.zero_le _

/-- **C117** if loggers are created before their descendants (and nobody else uses the default handler or switches propagation on again), every record reaches the default handler at most once. -/
theorem C117_no_duplicates (l : List (List String × ℕ)) (hl : l.Pairwise fun a b => ¬ (b.1 <:+ a.1 ∧ a.1 ≠ b.1)) (m : List String) :
    (reached (l.foldl (fun R p => create R p.1 p.2) init) m).count dflt ≤ 1 := by
  have h0 : ∀ m, (reached init m).count dflt ≤ 1 := by
    intro m
    have : reached init m = [] := by
      induction m with
      | nil => rfl
      | cons c p ih => unfold reached; rw [ih]; simp [init]
    rw [this]; decide
  have key : ∀ (l : List (List String × ℕ)) (R : Reg), (l.Pairwise fun a b => ¬ (b.1 <:+ a.1 ∧ a.1 ≠ b.1)) → (∀ m, (reached R m).count dflt ≤ 1) →
      (∀ p ∈ l, ∀ m, p.1 <:+ m → m ≠ p.1 → dflt ∉ R.handlers m) → ∀ m, (reached (l.foldl (fun R p => create R p.1 p.2) R) m).count dflt ≤ 1 := by
    intro l
    induction l with
    | nil => intro R _ h _; exact h
    | cons p l ih =>
      intro R hp h hd
      rw [List.pairwise_cons] at hp
      refine ih (create R p.1 p.2) hp.2 (fun m => create_reached R p.1 p.2 (hd p List.mem_cons_self) h m) fun q hq m hm hne => ?_
      by_cases e : m = p.1
      · exact absurd ⟨e ▸ hm, e ▸ hne⟩ (hp.1 q hq)
      · rw [(C117_others R p.1 m p.2 e).2.1]
        exact hd q (List.mem_cons_of_mem _ hq) m hm hne
  exact key l init hl h0 (fun _ _ _ _ _ => by simp [init]) m

/-- **C117, disagreement**: a logger created after one of its descendants duplicates the messages of that descendant. -/
theorem C117_duplicates : reached (create (create init ["b", "a"] 20) ["a"] 20) ["b", "a"] = [dflt, dflt] ∧
    reached (create (create init ["a"] 20) ["b", "a"] 20) ["b", "a"] = [dflt] := by
  decide

/-- The hypothesis of `C117_no_duplicates` for two optimizers and a logger of the package. -/
example (m : List String) : (reached (([(["mrmustard"], 20), (["optimizer", "training", "mrmustard"], 20), (["optimizer", "training", "mrmustard"], 10)] : List (List String × ℕ)).foldl
    (fun R p => create R p.1 p.2) init) m).count dflt ≤ 1 := C117_no_duplicates _ (by decide) m

end Verif.Log
