import Verif.Loop.Spec

/-
Model of `lager/event_loop/queue.hpp`.  Same conventions as in `Verif.Loop.Manual`; in addition
`step()` may be called at any time, also from inside a task, so there is a stack of `step()` calls,
each with its own index.
-/

namespace Verif.Loop.Queue

/-- A call of `step()` in which a task is running: its local `i` and the task. -/
structure Frame where
  i : Nat
  task : Nat
  deriving DecidableEq

/-- `queue_event_loop`, `lager/event_loop/queue.hpp:23-56`. -/
structure St where
  queue : List (Option Nat)
  stack : List Frame
  next : Nat
  log : List Ev
  /-- an empty (moved-from) function was called, which throws `bad_function_call` -/
  bad : Bool
  /-- elements beyond the end of the vector were erased -/
  ub : Bool
  deriving DecidableEq

/-- The state at the beginning, `event_loop/queue.hpp:55`. -/
def init : St := { queue := [], stack := [], next := 0, log := [], bad := false, ub := false }

/-- The catch branch: `queue_.erase(begin, begin + i); throw;` `queue.hpp:46-49`. -/
def caught (s : St) (i : Nat) (below : List Frame) : St :=
  { s with queue := s.queue.drop i, stack := below, log := s.log ++ [.exc],
           ub := s.ub || decide (s.queue.length < i) }

/-- The loop of `step()`, `queue.hpp:40-52`, from the test `i < queue_.size()` to the call of the
next task, or to the end of `step()`. -/
def advance (s : St) (i : Nat) (below : List Frame) : St :=
  match s.queue[i]? with
  | some (some n) =>
    { s with queue := s.queue.set i none, stack := ⟨i + 1, n⟩ :: below,
             log := s.log ++ [.start n] }
  | some none => caught { s with bad := true } (i + 1) below
  | none => { s with queue := [], stack := below, log := s.log ++ [.ret] }

/-- What user code does next. -/
inductive Op where
  | post
  | step
  | ret
  | throw

/-- One decision of user code, with the loop code it triggers. -/
def step (s : St) : Op → Option St
  | .post =>
    some { s with queue := s.queue ++ [some s.next], next := s.next + 1,
                  log := s.log ++ [.post 0 s.next] }
  | .step => some (advance { s with log := s.log ++ [.enter] } 0 s.stack)
  | .ret =>
    match s.stack with
    | [] => none
    | f :: below => some (advance { s with log := s.log ++ [.done f.task] } f.i below)
  | .throw =>
    match s.stack with
    | [] => none
    | f :: below => some (caught { s with log := s.log ++ [.threw f.task] } f.i below)

/-- All behaviours, nested steps included. -/
inductive Reach : St → Prop where
  | init : Reach init
  | step {s s'} (op : Op) : Reach s → step s op = some s' → Reach s'

/-- Behaviours in which `step()` is not called from inside a task. -/
inductive Flat : St → Prop where
  | init : Flat init
  | step {s s'} (op : Op) : Flat s → (op = .step → s.stack = []) → step s op = some s' → Flat s'

/-- Run a list of operations (for examples). -/
def run (s : St) : List Op → Option St
  | [] => some s
  | op :: ops => (step s op).bind fun s' => run s' ops

theorem reach_run {s s'} (h : Reach s) (ops : List Op) (he : run s ops = some s') : Reach s' := by
  induction ops generalizing s with
  | nil => cases he; exact h
  | cons op ops ih =>
    simp only [run] at he
    cases hs : step s op with
    | none => rw [hs] at he; cases he
    | some t => rw [hs] at he; exact ih (.step op h hs) he

/-- The invariant of flat behaviours. -/
structure Inv (s : St) : Prop where
  ids : posted s.log = List.range s.next
  split : ∃ rest : List Nat, started s.log ++ rest = posted s.log ∧
    ((s.stack = [] ∧ s.queue = rest.map some ∧ nesting s.log = some none) ∨
     (∃ f, s.stack = [f] ∧ 0 < f.i ∧ s.queue = List.replicate f.i none ++ rest.map some ∧
       nesting s.log = some (some (some f.task))))
  good : s.bad = false
  defined : s.ub = false

theorem advance_inv (s : St) (i : Nat) (h1 : posted s.log = List.range s.next)
    (rest : List Nat) (hq : s.queue = List.replicate i none ++ rest.map some)
    (hr : started s.log ++ rest = posted s.log)
    (h3 : nesting s.log = some (some none)) (h4 : s.bad = false) (h5 : s.ub = false) :
    Inv (advance s i []) ∧
    ((advance s i []).stack = [] →
      started (advance s i []).log = posted (advance s i []).log) := by
  cases rest with
  | nil =>
    have hn : s.queue[i]? = none := by rw [hq]; simp
    unfold advance
    rw [hn]
    simp only
    refine ⟨⟨?_, ⟨[], ?_, .inl ⟨rfl, rfl, ?_⟩⟩, h4, h5⟩, ?_⟩
    · simp [posted_append, posted, h1]
    · simpa [started_append, posted_append, started, posted] using hr
    · rw [nesting_snoc, h3]; rfl
    · intro _; simpa [started_append, posted_append, started, posted] using hr
  | cons n rest =>
    have hn : s.queue[i]? = some (some n) := by
      rw [hq, List.getElem?_append_right (by simp)]; simp
    unfold advance
    rw [hn]
    simp only
    refine ⟨⟨?_, ⟨rest, ?_, .inr ⟨_, rfl, Nat.succ_pos _, ?_, ?_⟩⟩, h4, h5⟩, ?_⟩
    · simp [posted_append, posted, h1]
    · simpa [started_append, posted_append, started, posted] using hr
    · rw [hq, List.set_append_right _ _ (by simp)]
      simp [List.replicate_succ']
    · rw [nesting_snoc, h3]; rfl
    · intro h; cases h

theorem step_inv (s s' : St) (op : Op) (h : Inv s) (hf : op = .step → s.stack = [])
    (he : step s op = some s') : Inv s' := by
  obtain ⟨rest, hr, hcase⟩ := h.split
  cases op with
  | post =>
    simp only [step] at he
    cases he
    refine ⟨?_, ⟨rest ++ [s.next], ?_, ?_⟩, h.good, h.defined⟩
    · simp [posted_append, posted, h.ids, List.range_succ]
    · simp only [started_append, posted_append, started, posted, List.append_nil]
      rw [← List.append_assoc, hr]
    · rcases hcase with ⟨h1, h2, h3⟩ | ⟨f, h1, h2, h3, h4⟩
      · left
        refine ⟨h1, by simp [h2], ?_⟩
        rw [nesting_snoc, h3]; rfl
      · right
        refine ⟨f, h1, h2, by simp [h3], ?_⟩
        rw [nesting_snoc, h4]; rfl
  | step =>
    simp only [step] at he
    have hs := hf rfl
    rcases hcase with ⟨h1, h2, h3⟩ | ⟨f, h1, h2, h3, h4⟩
    · cases he
      rw [hs]
      refine (advance_inv _ 0 ?_ rest ?_ ?_ ?_ (by exact h.good) (by exact h.defined)).1
      · simpa [posted_append, posted] using h.ids
      · simp [h2]
      · simpa [started_append, posted_append, started, posted] using hr
      · rw [nesting_snoc, h3]; rfl
    · rw [hs] at h1; cases h1
  | ret =>
    simp only [step] at he
    rcases hcase with ⟨h1, h2, h3⟩ | ⟨f, h1, h2, h3, h4⟩
    · rw [h1] at he; cases he
    · rw [h1] at he
      cases he
      refine (advance_inv _ f.i ?_ rest ?_ ?_ ?_ (by exact h.good) (by exact h.defined)).1
      · simpa [posted_append, posted] using h.ids
      · exact h3
      · simpa [started_append, posted_append, started, posted] using hr
      · simp [nesting_snoc, h4, nestStep]
  | throw =>
    simp only [step] at he
    rcases hcase with ⟨h1, h2, h3⟩ | ⟨f, h1, h2, h3, h4⟩
    · rw [h1] at he; cases he
    · rw [h1] at he
      cases he
      refine ⟨?_, ⟨rest, ?_, .inl ⟨rfl, ?_, ?_⟩⟩, h.good, ?_⟩
      · simpa [caught, posted_append, posted] using h.ids
      · simpa [caught, started_append, posted_append, started, posted] using hr
      · simp only [caught, h3]
        rw [List.drop_append_of_le_length (by simp)]
        simp
      · simp [caught, nesting_append, h4, nestStep]
      · simp only [caught, h.defined, h3]
        simp

theorem flat_inv {s : St} (h : Flat s) : Inv s := by
  induction h with
  | init => exact ⟨rfl, ⟨[], rfl, .inl ⟨rfl, rfl, rfl⟩⟩, rfl, rfl⟩
  | step op _ hf he ih => exact step_inv _ _ op ih hf he

end Verif.Loop.Queue
