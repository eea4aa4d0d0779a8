import Verif.Loop.Spec

/-
Model of `lager/event_loop/safe_queue.hpp`.

Any number of threads; thread `owner` owns the loop.  A schedule is an arbitrary sequence of atomic
actions: a post by any thread (a foreign post takes effect inside its critical section), the owner's
code, and the internal micro-steps of `step()`.  The owner posts only where its user code runs:
outside `step()` or inside a task.
-/

namespace Verif.Loop.Safe

/-- Which of the two `run_local_queue_()` calls of `step()` is running. -/
inductive Phase where
  | first
  | second
  deriving DecidableEq

/-- Where the owner thread is. -/
inductive Ctl where
  /-- user code outside `step()` -/
  | idle
  /-- at the loop test of `run_local_queue_` -/
  | loop (p : Phase) (i : Nat)
  /-- inside task `n`, started by `run_local_queue_` -/
  | task (p : Phase) (i : Nat) (n : Nat)
  /-- before the critical section of `swap_queues_` -/
  | swap
  deriving DecidableEq

/-- `safe_queue_event_loop`, `lager/event_loop/safe_queue.hpp:26-95`. -/
structure St where
  owner : Nat
  shared : List (Option Nat)
  loc : List (Option Nat)
  ctl : Ctl
  next : Nat
  log : List Ev
  /-- an empty function was called -/
  bad : Bool
  /-- an assertion of the code failed -/
  assertion : Bool
  deriving DecidableEq

/-- The state at the beginning, `event_loop/safe_queue.hpp:90-93`. -/
def init (owner : Nat) : St :=
  { owner := owner, shared := [], loc := [], ctl := .idle, next := 0, log := [], bad := false,
    assertion := false }

/-- Atomic actions. -/
inductive Op where
  /-- thread `t` posts -/
  | post (t : Nat)
  /-- the owner calls `step()` -/
  | step
  /-- the next micro-step of the code of `step()` -/
  | tick
  /-- the running task returns -/
  | ret
  /-- the running task throws -/
  | throw
  /-- thread `t` calls `adopt()` (while no one else uses the loop) -/
  | adopt (t : Nat)
  deriving DecidableEq

/-- One atomic action; `none` if it is not possible. -/
def step (s : St) : Op → Option St
  -- post, safe_queue.hpp:30-39
  | .post t =>
    if t = s.owner then
      match s.ctl with
      | .idle | .task _ _ _ =>
        some { s with loc := s.loc ++ [some s.next], next := s.next + 1,
                      log := s.log ++ [.post t s.next] }
      | _ => none
    else
      some { s with shared := s.shared ++ [some s.next], next := s.next + 1,
                    log := s.log ++ [.post t s.next] }
  -- step, safe_queue.hpp:52-58
  | .step =>
    match s.ctl with
    | .idle => some { s with ctl := .loop .first 0, log := s.log ++ [.enter] }
    | _ => none
  | .tick =>
    match s.ctl with
    -- run_local_queue_, safe_queue.hpp:75-88
    | .loop p i =>
      match s.loc[i]? with
      | some (some n) =>
        some { s with loc := s.loc.set i none, ctl := .task p (i + 1) n,
                      log := s.log ++ [.start n] }
      | some none =>
        some { s with loc := s.loc.drop (i + 1), ctl := .idle, bad := true,
                      log := s.log ++ [.exc] }
      | none =>
        match p with
        | .first => some { s with loc := [], ctl := .swap }
        | .second => some { s with loc := [], ctl := .idle, log := s.log ++ [.ret] }
    -- swap_queues_, safe_queue.hpp:67-73
    | .swap =>
      some { s with loc := s.shared, shared := s.loc, ctl := .loop .second 0,
                    assertion := s.assertion || !s.loc.isEmpty }
    | _ => none
  | .ret =>
    match s.ctl with
    | .task p i n => some { s with ctl := .loop p i, log := s.log ++ [.done n] }
    | _ => none
  -- the catch branch, safe_queue.hpp:81-85
  | .throw =>
    match s.ctl with
    | .task _ i n =>
      some { s with loc := s.loc.drop i, ctl := .idle, log := s.log ++ [.threw n, .exc] }
    | _ => none
  -- adopt, safe_queue.hpp:60-64
  | .adopt t =>
    match s.ctl with
    | .idle => some { s with owner := t, assertion := s.assertion || !s.loc.isEmpty }
    | _ => none

/-- Schedules without `adopt`. -/
inductive Reach : St → Prop where
  | init (o : Nat) : Reach (init o)
  | step {s s'} (op : Op) : Reach s → (∀ t, op ≠ .adopt t) → step s op = some s' → Reach s'

/-- All schedules in which `adopt` is called only with an empty local queue, as the code asserts. -/
inductive ReachAdopt : St → Prop where
  | init (o : Nat) : ReachAdopt (init o)
  | step {s s'} (op : Op) : ReachAdopt s → (∀ t, op = .adopt t → s.loc = []) →
      step s op = some s' → ReachAdopt s'

/-- Run a schedule (for examples). -/
def run (s : St) : List Op → Option St
  | [] => some s
  | op :: ops => (step s op).bind fun s' => run s' ops

/-- The index of the local queue up to which the functions have been moved out. -/
def moved (s : St) : Nat :=
  match s.ctl with
  | .loop _ i => i
  | .task _ i _ => i
  | _ => 0

/-- The nesting a log must have at each control point. -/
def expected (c : Ctl) : Option (Option Nat) :=
  match c with
  | .idle => none
  | .loop _ _ => some none
  | .task _ _ n => some (some n)
  | .swap => some none

/-- The invariant of all schedules. -/
structure Inv (s : St) : Prop where
  ids : posted s.log = List.range s.next
  split : ∃ l r : List Nat, s.loc = List.replicate (moved s) none ++ l.map some ∧
    s.shared = r.map some ∧ (started s.log ++ l ++ r).Perm (posted s.log)
  nest : nesting s.log = some (expected s.ctl)
  swap : s.ctl = .swap → s.loc = []
  good : s.bad = false
  fine : s.assertion = false

theorem perm_snoc_mid {a b c d : List Nat} {n : Nat} (h : (a ++ b ++ c).Perm d) :
    (a ++ (b ++ [n]) ++ c).Perm (d ++ [n]) := by
  have h1 : (a ++ (b ++ [n]) ++ c).Perm (n :: (a ++ b ++ c)) := by
    have : a ++ (b ++ [n]) ++ c = (a ++ b) ++ n :: c := by simp
    rw [this]
    exact List.perm_middle
  have h2 : (d ++ [n]).Perm (n :: d) := List.perm_append_singleton n d
  exact h1.trans ((h.cons n).trans h2.symm)

theorem perm_snoc_end {a b c d : List Nat} {n : Nat} (h : (a ++ b ++ c).Perm d) :
    (a ++ b ++ (c ++ [n])).Perm (d ++ [n]) := by
  have : a ++ b ++ (c ++ [n]) = (a ++ b ++ c) ++ [n] := by simp
  rw [this]
  exact h.append_right [n]

theorem replicate_set (k : Nat) (l : List (Option Nat)) (x : Option Nat) :
    (List.replicate k (none : Option Nat) ++ x :: l).set k none =
      List.replicate (k + 1) none ++ l := by
  rw [List.set_append_right _ _ (by simp)]
  simp [List.replicate_succ']

theorem step_inv (s s' : St) (op : Op) (h : Inv s) (hf : ∀ t, op = .adopt t → s.loc = [])
    (he : step s op = some s') : Inv s' := by
  obtain ⟨l, r, hl, hr, hp⟩ := h.split
  cases op with
  | post t =>
    simp only [step] at he
    have hids : posted (s.log ++ [.post t s.next]) = List.range (s.next + 1) := by
      simp [posted_append, posted, h.ids, List.range_succ]
    have hn : ∀ c, nesting s.log = some (expected c) →
        nesting (s.log ++ [.post t s.next]) = some (expected c) := by
      intro c hc; rw [nesting_snoc, hc]; cases c <;> rfl
    split at he
    · cases hc : s.ctl with
      | idle =>
        rw [hc] at he
        cases he
        refine ⟨hids, ⟨l ++ [s.next], r, ?_, hr, ?_⟩, hn _ (by rw [h.nest, hc]),
          fun e => (by cases e), h.good, h.fine⟩
        · simp only [hl]; simp [moved, hc]
        · simpa [started_append, posted_append, started, posted] using perm_snoc_mid hp
      | task p i n =>
        rw [hc] at he
        cases he
        refine ⟨hids, ⟨l ++ [s.next], r, ?_, hr, ?_⟩, hn _ (by rw [h.nest, hc]),
          fun e => (by cases e), h.good, h.fine⟩
        · simp only [hl]; simp [moved, hc]
        · simpa [started_append, posted_append, started, posted] using perm_snoc_mid hp
      | loop p i => rw [hc] at he; cases he
      | swap => rw [hc] at he; cases he
    · cases he
      refine ⟨hids, ⟨l, r ++ [s.next], hl, by simp [hr], ?_⟩, hn _ h.nest, h.swap, h.good, h.fine⟩
      simpa [started_append, posted_append, started, posted] using perm_snoc_end hp
  | step =>
    simp only [step] at he
    cases hc : s.ctl with
    | idle =>
      rw [hc] at he
      cases he
      refine ⟨?_, ⟨l, r, ?_, hr, ?_⟩, ?_, fun e => (by cases e), h.good, h.fine⟩
      · simpa [posted_append, posted] using h.ids
      · simpa [moved, hc] using hl
      · simpa [started_append, posted_append, started, posted] using hp
      · rw [nesting_snoc, h.nest, hc]; rfl
    | task p i n => rw [hc] at he; cases he
    | loop p i => rw [hc] at he; cases he
    | swap => rw [hc] at he; cases he
  | tick =>
    simp only [step] at he
    cases hc : s.ctl with
    | idle => rw [hc] at he; cases he
    | task p i n => rw [hc] at he; cases he
    | loop p i =>
      rw [hc] at he
      simp only at he
      have hl' : s.loc = List.replicate i none ++ l.map some := by simpa [moved, hc] using hl
      cases l with
      | nil =>
        have hn : s.loc[i]? = none := by rw [hl']; simp
        rw [hn] at he
        cases p with
        | first =>
          cases he
          refine ⟨h.ids, ⟨[], r, rfl, hr, by simpa using hp⟩, ?_, fun _ => rfl, h.good, h.fine⟩
          rw [h.nest, hc]; rfl
        | second =>
          cases he
          refine ⟨?_, ⟨[], r, rfl, hr, ?_⟩, ?_, fun e => (by cases e), h.good, h.fine⟩
          · simpa [posted_append, posted] using h.ids
          · simpa [started_append, posted_append, started, posted] using hp
          · rw [nesting_snoc, h.nest, hc]; rfl
      | cons n l =>
        have hn : s.loc[i]? = some (some n) := by
          rw [hl', List.getElem?_append_right (by simp)]; simp
        rw [hn] at he
        cases he
        refine ⟨?_, ⟨l, r, ?_, hr, ?_⟩, ?_, fun e => (by cases e), h.good, h.fine⟩
        · simpa [posted_append, posted] using h.ids
        · simp only [hl', List.map_cons]
          rw [replicate_set]
          rfl
        · simpa [started_append, posted_append, started, posted] using hp
        · rw [nesting_snoc, h.nest, hc]; rfl
    | swap =>
      rw [hc] at he
      cases he
      have hempty := h.swap hc
      have hl0 : l = [] := by
        rw [hempty] at hl
        have := congrArg List.length hl
        simp at this
        exact List.eq_nil_of_length_eq_zero (by omega)
      subst hl0
      refine ⟨h.ids, ⟨r, [], ?_, ?_, ?_⟩, ?_, fun e => (by cases e), h.good, ?_⟩
      · simp [moved, hr]
      · simp [hempty]
      · simpa using hp
      · rw [h.nest, hc]; rfl
      · simp [h.fine, hempty]
  | ret =>
    simp only [step] at he
    cases hc : s.ctl with
    | task p i n =>
      rw [hc] at he
      cases he
      refine ⟨?_, ⟨l, r, ?_, hr, ?_⟩, ?_, fun e => (by cases e), h.good, h.fine⟩
      · simpa [posted_append, posted] using h.ids
      · simpa [moved, hc] using hl
      · simpa [started_append, posted_append, started, posted] using hp
      · rw [nesting_snoc, h.nest, hc]; simp [expected, nestStep]
    | idle => rw [hc] at he; cases he
    | loop p i => rw [hc] at he; cases he
    | swap => rw [hc] at he; cases he
  | throw =>
    simp only [step] at he
    cases hc : s.ctl with
    | task p i n =>
      rw [hc] at he
      cases he
      have hl' : s.loc = List.replicate i none ++ l.map some := by simpa [moved, hc] using hl
      refine ⟨?_, ⟨l, r, ?_, hr, ?_⟩, ?_, fun e => (by cases e), h.good, h.fine⟩
      · simpa [posted_append, posted] using h.ids
      · simp only [hl']
        rw [List.drop_append_of_le_length (by simp)]
        simp [moved]
      · simpa [started_append, posted_append, started, posted] using hp
      · rw [nesting_append, h.nest, hc]; simp [expected, nestStep]
    | idle => rw [hc] at he; cases he
    | loop p i => rw [hc] at he; cases he
    | swap => rw [hc] at he; cases he
  | adopt t =>
    have hempty := hf t rfl
    simp only [step] at he
    cases hc : s.ctl with
    | idle =>
      rw [hc] at he
      cases he
      refine ⟨h.ids, ⟨l, r, ?_, hr, hp⟩, by rw [h.nest, hc], fun e => (by cases e), h.good, ?_⟩
      · simpa [moved, hc] using hl
      · simp [h.fine, hempty]
    | task p i n => rw [hc] at he; cases he
    | loop p i => rw [hc] at he; cases he
    | swap => rw [hc] at he; cases he

theorem reach_inv {s : St} (h : ReachAdopt s) : Inv s := by
  induction h with
  | init o => exact ⟨rfl, ⟨[], [], rfl, rfl, List.Perm.refl _⟩, rfl, fun h => (by cases h), rfl, rfl⟩
  | step op _ hf he ih => exact step_inv _ _ op ih hf he

theorem reach_adopt {s : St} (h : Reach s) : ReachAdopt s := by
  induction h with
  | init o => exact .init o
  | step op _ hf he ih => exact .step op ih (fun t e => absurd e (hf t)) he

/-- The tasks of a queue that have not been moved out. -/
def live (q : List (Option Nat)) : List Nat := q.filterMap id

theorem live_split (k : Nat) (l : List Nat) :
    live (List.replicate k none ++ l.map some) = l := by
  induction k with
  | zero => induction l with
    | nil => rfl
    | cons a l ih => simp [live]
  | succ k ih => simp [live, List.replicate_succ]

theorem live_map (l : List Nat) : live (l.map some) = l := live_split 0 l

theorem live_snoc (q : List (Option Nat)) (n : Nat) : live (q ++ [some n]) = live q ++ [n] := by
  simp [live]

theorem postedBy_posted (t n : Nat) (log : List Ev) (h : n ∈ postedBy t log) : n ∈ posted log := by
  induction log with
  | nil => cases h
  | cons e log ih =>
    cases e <;> simp only [postedBy, posted] at h ⊢ <;> try exact ih h
    rename_i t' n'
    split at h
    · rcases List.mem_cons.1 h with h | h
      · exact List.mem_cons.2 (.inl h)
      · exact List.mem_cons.2 (.inr (ih h))
    · exact List.mem_cons.2 (.inr (ih h))

/-- The order invariant of schedules without `adopt`. -/
structure Order (s : St) : Prop where
  foreign : ∀ n ∈ live s.shared, n ∉ postedBy s.owner s.log
  order : ∀ t, (started s.log ++ live s.loc ++ live s.shared).filter
    (fun n => decide (n ∈ postedBy t s.log)) = postedBy t s.log

theorem filter_congr_mem (l : List Nat) (a b : List Nat) (h : ∀ n ∈ l, n ∈ a ↔ n ∈ b) :
    l.filter (fun n => decide (n ∈ a)) = l.filter (fun n => decide (n ∈ b)) :=
  List.filter_congr fun n hn => by simp [h n hn]

theorem step_order (s s' : St) (op : Op) (h : Inv s) (ho : Order s) (hf : ∀ t, op ≠ .adopt t)
    (he : step s op = some s') : Order s' := by
  obtain ⟨l, r, hl, hr, hp⟩ := h.split
  have hll : live s.loc = l := by rw [hl, live_split]
  have hlr : live s.shared = r := by rw [hr, live_map]
  have hord := ho.order
  have hfor := ho.foreign
  rw [hll, hlr] at hord
  rw [hlr] at hfor
  have hmem : ∀ n ∈ started s.log ++ l ++ r, n < s.next := by
    intro n hn
    have := hp.mem_iff.1 hn
    rw [h.ids] at this
    exact List.mem_range.1 this
  have hby : ∀ t n, n ∈ postedBy t s.log → n < s.next := by
    intro t n hn
    have := postedBy_posted t n s.log hn
    rw [h.ids] at this
    exact List.mem_range.1 this
  -- the events other than posts do not matter
  have frame : ∀ (s' : St) (ev : List Ev), s'.owner = s.owner → s'.log = s.log ++ ev →
      posted ev = [] → (∀ t, postedBy t ev = []) →
      started ev ++ live s'.loc ++ live s'.shared = l ++ r →
      (∀ n ∈ live s'.shared, n ∈ r) → Order s' := by
    intro s' ev hw hlog _ hb hs hsub
    constructor
    · intro n hn
      rw [hw, hlog, postedBy_append, hb, List.append_nil]
      exact hfor n (hsub n hn)
    · intro t
      rw [hlog, postedBy_append, hb, List.append_nil, started_append]
      have : started s.log ++ started ev ++ live s'.loc ++ live s'.shared =
          started s.log ++ l ++ r := by
        rw [List.append_assoc, List.append_assoc, ← List.append_assoc (started ev), hs,
          List.append_assoc]
      rw [this]
      exact hord t
  cases op with
  | post t =>
    -- the new task goes to the end of one of the two queues
    have old : ∀ (t' : Nat) (x : List Nat), (∀ n ∈ x, n < s.next) →
        x.filter (fun n => decide (n ∈ postedBy t' (s.log ++ [.post t s.next]))) =
          x.filter (fun n => decide (n ∈ postedBy t' s.log)) := by
      intro t' x hx
      apply filter_congr_mem
      intro n hn
      have := hx n hn
      simp only [postedBy_append, List.mem_append, postedBy]
      constructor
      · rintro (h | h)
        · exact h
        · split at h
          · have := List.mem_singleton.1 h; omega
          · cases h
      · exact .inl
    have new : ∀ t' : Nat, [s.next].filter
        (fun n => decide (n ∈ postedBy t' (s.log ++ [.post t s.next]))) =
          postedBy t' [.post t s.next] := by
      intro t'
      have hno : s.next ∉ postedBy t' s.log := fun hh => Nat.lt_irrefl _ (hby _ _ hh)
      by_cases htt : t = t'
      · simp [postedBy_append, postedBy, htt]
      · simp [postedBy_append, postedBy, htt, hno]
    have hm1 : ∀ n ∈ started s.log, n < s.next := fun n hn => hmem n (by simp [hn])
    have hm2 : ∀ n ∈ l, n < s.next := fun n hn => hmem n (by simp [hn])
    have hm3 : ∀ n ∈ r, n < s.next := fun n hn => hmem n (by simp [hn])
    have local_case : ∀ s' : St, t = s.owner → s'.owner = s.owner →
        s'.log = s.log ++ [.post t s.next] → live s'.loc = l ++ [s.next] →
        live s'.shared = r → Order s' := by
      intro s' ht hw hlog h1 h2
      constructor
      · intro n hn
        rw [h2] at hn
        rw [hw, hlog, postedBy_append, List.mem_append]
        rintro (hh | hh)
        · exact hfor n hn hh
        · simp only [postedBy, ht, if_true] at hh
          have := hm3 n hn
          have := List.mem_singleton.1 hh
          omega
      · intro t'
        rw [hlog, h1, h2, started_append]
        simp only [started, List.append_nil, List.filter_append]
        rw [old t' _ hm1, old t' _ hm2, old t' _ hm3, new t', postedBy_append]
        have := hord t'
        simp only [List.filter_append] at this
        by_cases htt : t = t'
        · subst htt
          have hnil : r.filter (fun n => decide (n ∈ postedBy t s.log)) = [] := by
            apply List.filter_eq_nil_iff.2
            intro n hn
            have := hfor n hn
            rw [← ht] at this
            simpa using this
          rw [hnil, List.append_nil] at this
          rw [hnil, List.append_nil, ← List.append_assoc, this]
        · simp only [postedBy, if_neg htt, List.append_nil]
          exact this
    simp only [step] at he
    split at he
    · rename_i ht
      cases hc : s.ctl with
      | idle =>
        rw [hc] at he; cases he
        exact local_case _ ht rfl rfl (by simp only [live_snoc, hll]) hlr
      | task p i n =>
        rw [hc] at he; cases he
        exact local_case _ ht rfl rfl (by simp only [live_snoc, hll]) hlr
      | loop p i => rw [hc] at he; cases he
      | swap => rw [hc] at he; cases he
    · rename_i ht
      cases he
      constructor
      · intro n hn
        simp only [live_snoc, hlr, List.mem_append, List.mem_singleton] at hn
        simp only [postedBy_append, List.mem_append]
        rintro (hh | hh)
        · rcases hn with hn | hn
          · exact hfor n hn hh
          · have := hby _ _ hh; omega
        · simp only [postedBy] at hh
          rw [if_neg ht] at hh
          cases hh
      · intro t'
        simp only [live_snoc, hll, hlr, started_append, started, List.append_nil,
          List.filter_append]
        rw [old t' _ hm1, old t' _ hm2, old t' _ hm3, new t', postedBy_append, ← List.append_assoc]
        have := hord t'
        simp only [List.filter_append] at this
        rw [this]
  | step =>
    simp only [step] at he
    cases hc : s.ctl with
    | idle =>
      rw [hc] at he; cases he
      exact frame _ [.enter] rfl rfl rfl (fun _ => rfl) (by simp [started, hll, hlr])
        (by simp [hlr])
    | task p i n => rw [hc] at he; cases he
    | loop p i => rw [hc] at he; cases he
    | swap => rw [hc] at he; cases he
  | tick =>
    simp only [step] at he
    cases hc : s.ctl with
    | idle => rw [hc] at he; cases he
    | task p i n => rw [hc] at he; cases he
    | loop p i =>
      rw [hc] at he
      simp only at he
      have hl' : s.loc = List.replicate i none ++ l.map some := by simpa [moved, hc] using hl
      cases l with
      | nil =>
        have hn : s.loc[i]? = none := by rw [hl']; simp
        rw [hn] at he
        cases p with
        | first =>
          cases he
          exact frame _ [] rfl (by simp) rfl (fun _ => rfl)
            (by simp only [hlr]; simp [started, live]) (by simp [hlr])
        | second =>
          cases he
          exact frame _ [.ret] rfl rfl rfl (fun _ => rfl)
            (by simp only [hlr]; simp [started, live]) (by simp [hlr])
      | cons n l =>
        have hn : s.loc[i]? = some (some n) := by
          rw [hl', List.getElem?_append_right (by simp)]; simp
        rw [hn] at he
        cases he
        refine frame _ [.start n] rfl rfl rfl (fun _ => rfl) ?_ (by simp [hlr])
        simp only [hl', List.map_cons]
        rw [replicate_set, live_split, hlr]
        simp [started]
    | swap =>
      rw [hc] at he
      cases he
      have hempty := h.swap hc
      have hl0 : l = [] := by rw [← hll, hempty]; rfl
      subst hl0
      exact frame _ [] rfl (by simp) rfl (fun _ => rfl)
        (by simp only [hlr, hll]; simp [started]) (by simp [hll])
  | ret =>
    simp only [step] at he
    cases hc : s.ctl with
    | task p i n =>
      rw [hc] at he; cases he
      exact frame _ [.done n] rfl rfl rfl (fun _ => rfl) (by simp [started, hll, hlr])
        (by simp [hlr])
    | idle => rw [hc] at he; cases he
    | loop p i => rw [hc] at he; cases he
    | swap => rw [hc] at he; cases he
  | throw =>
    simp only [step] at he
    cases hc : s.ctl with
    | task p i n =>
      rw [hc] at he; cases he
      have hl' : s.loc = List.replicate i none ++ l.map some := by simpa [moved, hc] using hl
      refine frame _ [.threw n, .exc] rfl rfl rfl (fun _ => rfl) ?_ (by simp [hlr])
      simp only [hl']
      rw [List.drop_append_of_le_length (by simp)]
      simp [started, hlr, live_map]
    | idle => rw [hc] at he; cases he
    | loop p i => rw [hc] at he; cases he
    | swap => rw [hc] at he; cases he
  | adopt t => exact absurd rfl (hf t)

theorem reach_order {s : St} (h : Reach s) : Order s := by
  induction h with
  | init o =>
    constructor
    · intro n hn; cases hn
    · intro t; rfl
  | step op hr hf he ih => exact step_order _ _ op (reach_inv (reach_adopt hr)) ih hf he

/-- While the second `run_local_queue_()` runs, whatever was posted before this `step()` began has
been started or is in the local queue. -/
def Fresh (s : St) : Prop :=
  (∃ i n, s.ctl = .task .second i n ∨ s.ctl = .loop .second i) →
    ∀ a b, s.log = a ++ .enter :: b → Ev.enter ∉ b →
      ∀ n ∈ posted a, n ∈ started s.log ∨ n ∈ live s.loc

theorem snoc_enter {log a b : List Ev} {e : Ev} (he : e ≠ .enter)
    (h : log ++ [e] = a ++ .enter :: b) (hb : Ev.enter ∉ b) :
    ∃ b', log = a ++ .enter :: b' ∧ Ev.enter ∉ b' := by
  rcases List.eq_nil_or_concat b with hnil | ⟨b', x, hx⟩
  · subst hnil
    have := List.append_inj_right' h (by simp)
    simp at this
    exact absurd this he
  · rw [List.concat_eq_append] at hx
    subst hx
    have h' : log ++ [e] = (a ++ .enter :: b') ++ [x] := by simpa using h
    exact ⟨b', List.append_inj_left' h' rfl, fun hh => hb (by simp [hh])⟩

theorem step_fresh (s s' : St) (op : Op) (h : Inv s) (hf : ∀ t, op = .adopt t → s.loc = [])
    (hfr : Fresh s) (he : step s op = some s') : Fresh s' := by
  obtain ⟨l, r, hl, hr, hp⟩ := h.split
  have hll : live s.loc = l := by rw [hl, live_split]
  cases op with
  | post t =>
    simp only [step] at he
    have key : ∀ s' : St, s'.ctl = s.ctl → s'.log = s.log ++ [.post t s.next] →
        (∀ n ∈ live s.loc, n ∈ live s'.loc) → Fresh s' := by
      intro s' hc hlog hsub hctl a b hab hb n hn
      rw [hlog] at hab
      obtain ⟨b', hb', hnb⟩ := snoc_enter (by simp) hab hb
      rw [hc] at hctl
      rcases hfr hctl a b' hb' hnb n hn with h1 | h1
      · left; rw [hlog, started_append]; simp [h1]
      · exact .inr (hsub n h1)
    split at he
    · cases hc : s.ctl with
      | idle =>
        rw [hc] at he; cases he
        exact key _ hc.symm rfl (fun n hn => by simp only [live_snoc]; simp [hn])
      | task p i n =>
        rw [hc] at he; cases he
        exact key _ hc.symm rfl (fun n hn => by simp only [live_snoc]; simp [hn])
      | loop p i => rw [hc] at he; cases he
      | swap => rw [hc] at he; cases he
    · cases he
      exact key _ rfl rfl (fun n hn => hn)
  | step =>
    simp only [step] at he
    cases hc : s.ctl with
    | idle => rw [hc] at he; cases he; rintro ⟨i, n, h | h⟩ <;> cases h
    | task p i n => rw [hc] at he; cases he
    | loop p i => rw [hc] at he; cases he
    | swap => rw [hc] at he; cases he
  | tick =>
    simp only [step] at he
    cases hc : s.ctl with
    | idle => rw [hc] at he; cases he
    | task p i n => rw [hc] at he; cases he
    | loop p i =>
      rw [hc] at he
      simp only at he
      have hl' : s.loc = List.replicate i none ++ l.map some := by simpa [moved, hc] using hl
      cases l with
      | nil =>
        have hn : s.loc[i]? = none := by rw [hl']; simp
        rw [hn] at he
        cases p with
        | first => cases he; rintro ⟨i, n, h | h⟩ <;> cases h
        | second => cases he; rintro ⟨i, n, h | h⟩ <;> cases h
      | cons n l =>
        have hn : s.loc[i]? = some (some n) := by
          rw [hl', List.getElem?_append_right (by simp)]; simp
        rw [hn] at he
        cases he
        intro hctl a b hab hb m hm
        obtain ⟨b', hb', hnb⟩ := snoc_enter (by simp) hab hb
        have hp2 : p = .second := by
          obtain ⟨i', n', h | h⟩ := hctl
          · cases h; rfl
          · cases h
        subst hp2
        have hlive : live (s.loc.set i none) = l := by
          simp only [hl', List.map_cons]
          rw [replicate_set, live_split]
        simp only [hlive, started_append, started, List.mem_append, List.mem_singleton]
        rcases hfr ⟨i, n, .inr hc⟩ a b' hb' hnb m hm with h1 | h1
        · exact .inl (.inl h1)
        · rw [hll] at h1
          rcases List.mem_cons.1 h1 with h1 | h1
          · exact .inl (.inr h1)
          · exact .inr h1
    | swap =>
      rw [hc] at he
      cases he
      intro _ a b hab hb m hm
      have hempty := h.swap hc
      have hl0 : l = [] := by rw [← hll, hempty]; rfl
      subst hl0
      have hpm : m ∈ posted s.log := by
        simp only at hab
        rw [hab, posted_append]; simp [hm]
      have := hp.mem_iff.2 hpm
      simp only [hr, live_map]
      simpa using this
  | ret =>
    simp only [step] at he
    cases hc : s.ctl with
    | task p i n =>
      rw [hc] at he; cases he
      intro hctl a b hab hb m hm
      obtain ⟨b', hb', hnb⟩ := snoc_enter (by simp) hab hb
      have hp2 : p = .second := by
        obtain ⟨i', n', h | h⟩ := hctl
        · cases h
        · cases h; rfl
      subst hp2
      simp only [started_append, started, List.append_nil]
      exact hfr ⟨i, n, .inl hc⟩ a b' hb' hnb m hm
    | idle => rw [hc] at he; cases he
    | loop p i => rw [hc] at he; cases he
    | swap => rw [hc] at he; cases he
  | throw =>
    simp only [step] at he
    cases hc : s.ctl with
    | task p i n => rw [hc] at he; cases he; rintro ⟨i, n, h | h⟩ <;> cases h
    | idle => rw [hc] at he; cases he
    | loop p i => rw [hc] at he; cases he
    | swap => rw [hc] at he; cases he
  | adopt t =>
    simp only [step] at he
    cases hc : s.ctl with
    | idle => rw [hc] at he; cases he; rintro ⟨i, n, h | h⟩ <;> cases h
    | task p i n => rw [hc] at he; cases he
    | loop p i => rw [hc] at he; cases he
    | swap => rw [hc] at he; cases he

theorem reach_fresh {s : St} (h : ReachAdopt s) : Fresh s := by
  induction h with
  | init o => rintro ⟨i, n, h | h⟩ <;> cases h
  | step op hr hf he ih => exact step_fresh _ _ op (reach_inv hr) hf ih he

theorem reach_run {s s' : St} (h : Reach s) (ops : List Op) (hf : ∀ t, .adopt t ∉ ops)
    (he : run s ops = some s') : Reach s' := by
  induction ops generalizing s with
  | nil => cases he; exact h
  | cons op ops ih =>
    simp only [run] at he
    cases hs : step s op with
    | none => rw [hs] at he; cases he
    | some t =>
      rw [hs] at he
      exact ih (.step op h (fun t e => hf t (by simp [e])) hs) (fun t e => hf t (by simp [e])) he

end Verif.Loop.Safe
