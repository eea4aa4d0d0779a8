import Verif.Loop.Spec

/-
Model of `lager/event_loop/manual.hpp`.

The queue is a vector of `std::function`s; a slot is `none` once its function has been moved out.
User code decides what happens: it may post at any time (outside, or inside a running task), and a
running task may return or throw.  `step` is one such decision together with the loop code that it
triggers, up to the point where user code runs again.
-/

namespace Verif.Loop.Manual

/-- Where control is. -/
inductive Ctl where
  /-- user code outside of the loop -/
  | idle
  /-- user code inside task `n` -/
  | task (n : Nat)
  deriving DecidableEq

/-- `with_manual_event_loop`, `lager/event_loop/manual.hpp:24-65`, with `next` the number of posts
so far and `log` the observed events. -/
structure St where
  queue : List (Option Nat)
  i : Nat
  ctl : Ctl
  next : Nat
  log : List Ev
  /-- an empty function was called -/
  bad : Bool
  deriving DecidableEq

/-- The state at the beginning, `event_loop/manual.hpp:61-62`. -/
def init : St := { queue := [], i := 0, ctl := .idle, next := 0, log := [], bad := false }

/-- The loop `while (i_ < queue_.size()) { auto f = std::move(queue_[i_++]); std::move(f)(); }` up
to the call, or its normal end with `queue_.clear(); i_ = 0`; `manual.hpp:39-50`. -/
def advance (s : St) : St :=
  match s.queue[s.i]? with
  | some (some n) =>
    { s with queue := s.queue.set s.i none, i := s.i + 1, ctl := .task n,
             log := s.log ++ [.start n] }
  | some none =>
    { s with i := s.i + 1, bad := true }
  | none =>
    { s with queue := [], i := 0, ctl := .idle, log := s.log ++ [.ret] }

/-- The `catch (...)` branch: `erase(begin, begin + i_); i_ = 0; throw;` `manual.hpp:43-47`. -/
def caught (s : St) : St :=
  { s with queue := s.queue.drop s.i, i := 0, ctl := .idle, log := s.log ++ [.exc] }

/-- What user code does next. -/
inductive Op where
  | post
  | ret
  | throw

/-- `post`, `manual.hpp:33-52`, and the continuation of the loop after a task returns or throws.
`none`: the operation is not possible here. -/
def step (s : St) : Op → Option St
  | .post =>
    -- queue_.push_back(fn); auto is_root = i_ == 0;
    let s' := { s with queue := s.queue ++ [some s.next], next := s.next + 1,
                       log := s.log ++ [.post 0 s.next] }
    if s'.i = 0 then some (advance { s' with log := s'.log ++ [.enter] })
    else some s'
  | .ret =>
    match s.ctl with
    | .idle => none
    | .task n => some (advance { s with log := s.log ++ [.done n] })
  | .throw =>
    match s.ctl with
    | .idle => none
    | .task n => some (caught { s with log := s.log ++ [.threw n] })

/-- States reachable by any behaviour of user code. -/
inductive Reach : St → Prop where
  | init : Reach init
  | step {s s'} (op : Op) : Reach s → step s op = some s' → Reach s'

/-- Run a list of operations (for examples). -/
def run (s : St) : List Op → Option St
  | [] => some s
  | op :: ops => (step s op).bind fun s' => run s' ops

theorem reach_run {s s'} (h : Reach s) (ops : List Op) (he : run s ops = some s') : Reach s' := by
  induction ops generalizing s with
  | nil => cases he; exact h
  | cons op ops ih =>
    simp only [run] at he
    cases hs : step s op with
    | none => rw [hs] at he; cases he
    | some t => rw [hs] at he; exact ih (.step op h hs) he

/-- The invariant. -/
structure Inv (s : St) : Prop where
  ids : posted s.log = List.range s.next
  split : ∃ rest : List Nat, s.queue = List.replicate s.i none ++ rest.map some ∧
    started s.log ++ rest = posted s.log
  idle : s.ctl = .idle → s.i = 0 ∧ nesting s.log = some none
  task : ∀ n, s.ctl = .task n → 0 < s.i ∧ nesting s.log = some (some (some n))
  good : s.bad = false

/-- `advance` from inside the loop re-establishes the invariant. -/
theorem advance_inv (s : St) (h1 : posted s.log = List.range s.next)
    (h2 : ∃ rest : List Nat, s.queue = List.replicate s.i none ++ rest.map some ∧
      started s.log ++ rest = posted s.log)
    (h3 : nesting s.log = some (some none)) (h5 : s.bad = false) :
    Inv (advance s) ∧ ((advance s).ctl = .idle → started (advance s).log = posted (advance s).log) := by
  obtain ⟨rest, hq, hr⟩ := h2
  cases rest with
  | nil =>
    have hn : s.queue[s.i]? = none := by
      rw [hq]; simp
    unfold advance
    rw [hn]
    simp only
    refine ⟨⟨?_, ⟨[], by simp, ?_⟩, ?_, ?_, h5⟩, ?_⟩
    · simp [posted_append, posted, h1]
    · simpa [started_append, posted_append, started, posted] using hr
    · intro _; exact ⟨rfl, by rw [nesting_snoc, h3]; rfl⟩
    · intro n h; cases h
    · intro _; simpa [started_append, posted_append, started, posted] using hr
  | cons n rest =>
    have hn : s.queue[s.i]? = some (some n) := by
      rw [hq, List.getElem?_append_right (by simp)]; simp
    unfold advance
    rw [hn]
    simp only
    refine ⟨⟨?_, ⟨rest, ?_, ?_⟩, ?_, ?_, h5⟩, ?_⟩
    · simp [posted_append, posted, h1]
    · rw [hq, List.set_append_right _ _ (by simp)]
      simp [List.replicate_succ']
    · simpa [started_append, posted_append, started, posted] using hr
    · intro h; cases h
    · intro m h; cases h; exact ⟨Nat.succ_pos _, by rw [nesting_snoc, h3]; rfl⟩
    · intro h; cases h

theorem step_inv (s s' : St) (op : Op) (h : Inv s) (he : step s op = some s') : Inv s' := by
  obtain ⟨rest, hq, hr⟩ := h.split
  cases op with
  | post =>
    simp only [step] at he
    have hids : posted (s.log ++ [.post 0 s.next]) = List.range (s.next + 1) := by
      simp [posted_append, posted, h.ids, List.range_succ]
    have hsplit : started s.log ++ (rest ++ [s.next]) = posted s.log ++ [s.next] := by
      rw [← List.append_assoc, hr]
    split at he
    · rename_i hi
      have hidle : s.ctl = .idle := by
        cases hc : s.ctl with
        | idle => rfl
        | task n => have := (h.task n hc).1; omega
      cases he
      refine (advance_inv _ ?_ ⟨rest ++ [s.next], ?_, ?_⟩ ?_ (by exact h.good)).1
      · simpa [posted_append, posted] using hids
      · simp [hq]
      · simpa [started_append, posted_append, started, posted] using hsplit
      · simp only [nesting_append, List.foldl]
        rw [(h.idle hidle).2]; rfl
    · rename_i hi
      cases he
      refine ⟨hids, ⟨rest ++ [s.next], ?_, ?_⟩, ?_, ?_, h.good⟩
      · simp [hq]
      · simpa [started_append, posted_append, started, posted] using hsplit
      · intro hc; exact absurd (h.idle hc).1 hi
      · intro n hc
        refine ⟨(h.task n hc).1, ?_⟩
        simp only [nesting_snoc, (h.task n hc).2]; rfl
  | ret =>
    simp only [step] at he
    cases hc : s.ctl with
    | idle => rw [hc] at he; cases he
    | task n =>
      rw [hc] at he
      cases he
      refine (advance_inv _ ?_ ⟨rest, by exact hq, ?_⟩ ?_ (by exact h.good)).1
      · simpa [posted_append, posted] using h.ids
      · simpa [started_append, posted_append, started, posted] using hr
      · simp [nesting_snoc, (h.task n hc).2, nestStep]
  | throw =>
    simp only [step] at he
    cases hc : s.ctl with
    | idle => rw [hc] at he; cases he
    | task n =>
      rw [hc] at he
      cases he
      refine ⟨?_, ⟨rest, ?_, ?_⟩, ?_, ?_, h.good⟩
      · simpa [caught, posted_append, posted] using h.ids
      · simp only [caught, hq]
        rw [List.drop_append_of_le_length (by simp)]
        simp
      · simpa [caught, started_append, posted_append, started, posted] using hr
      · intro _
        refine ⟨rfl, ?_⟩
        simp [caught, nesting_append, (h.task n hc).2, nestStep]
      · intro m hm; cases hm

theorem reach_inv {s : St} (h : Reach s) : Inv s := by
  induction h with
  | init =>
    exact ⟨rfl, ⟨[], rfl, rfl⟩, fun _ => ⟨rfl, rfl⟩, fun n h => (by cases h), rfl⟩
  | step op _ he ih => exact step_inv _ _ op ih he

end Verif.Loop.Manual
