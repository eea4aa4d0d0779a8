import Verif.Loop.Manual
import Verif.Loop.Queue
import Verif.Loop.SafeQueue
import Verif.Loop.Sdl

/-
Properties C38-C43 and C73: the event loops.  Tasks are named by their position in the order of
posting, so "in posting order, each exactly once" is "the list of started tasks is an initial
segment of the list of posted tasks".
-/

namespace Verif.Loop

/-! ### Manual event loop -/

/-- C38.  Whatever user code does: the tasks started so far are an initial segment of the tasks
posted so far (posting order, each at most once), tasks run one at a time and never inside each
other, no empty function is called; and whenever the outermost `post` returns normally, every task
posted so far has run. -/
theorem C38_manual_fifo {s : Manual.St} (h : Manual.Reach s) :
    posted s.log = List.range s.next ∧ started s.log <+: posted s.log ∧ Sequential s.log ∧
      s.bad = false := by
  have hi := Manual.reach_inv h
  obtain ⟨rest, _, hr⟩ := hi.split
  refine ⟨hi.ids, ⟨rest, hr⟩, ?_, hi.good⟩
  unfold Sequential
  cases hc : s.ctl with
  | idle => rw [(hi.idle hc).2]; simp
  | task n => rw [(hi.task n hc).2]; simp

/-- C38, second half. -/
theorem C38_manual_complete {s s' : Manual.St} (h : Manual.Reach s) {op : Manual.Op}
    (hs : Manual.step s op = some s') (hret : s'.log.getLast? = some .ret) :
    started s'.log = posted s'.log := by
  have hi := Manual.reach_inv h
  obtain ⟨rest, hq, hr⟩ := hi.split
  cases op with
  | post =>
    simp only [Manual.step] at hs
    split at hs
    · rename_i hi0
      have hidle : s.ctl = .idle := by
        cases hc : s.ctl with
        | idle => rfl
        | task n => have := (hi.task n hc).1; omega
      cases hs
      refine (Manual.advance_inv _ ?_ ⟨rest ++ [s.next], ?_, ?_⟩ ?_ (by exact hi.good)).2 ?_
      · simp [posted_append, posted, hi.ids, List.range_succ]
      · simp [hq]
      · simp only [started_append, posted_append, started, posted, List.append_nil]
        rw [← List.append_assoc, hr]
      · simp only [nesting_append, List.foldl]; rw [(hi.idle hidle).2]; rfl
      · revert hret
        unfold Manual.advance
        split <;> simp
    · cases hs; simp at hret
  | ret =>
    simp only [Manual.step] at hs
    cases hc : s.ctl with
    | idle => rw [hc] at hs; cases hs
    | task n =>
      rw [hc] at hs
      cases hs
      refine (Manual.advance_inv _ ?_ ⟨rest, by exact hq, ?_⟩ ?_ (by exact hi.good)).2 ?_
      · simpa [posted_append, posted] using hi.ids
      · simpa [started_append, posted_append, started, posted] using hr
      · simp [nesting_snoc, (hi.task n hc).2, nestStep]
      · revert hret
        unfold Manual.advance
        split <;> simp
  | throw =>
    simp only [Manual.step] at hs
    cases hc : s.ctl with
    | idle => rw [hc] at hs; cases hs
    | task n => rw [hc] at hs; cases hs; simp [Manual.caught] at hret

/-- C39.  When a task throws: the exception leaves the outermost `post`; nothing that was not run is
lost (the queue holds exactly the tasks posted and not started, in order); and the next `post` starts
with the first of them. -/
theorem C39_manual_throw {s s' : Manual.St} (h : Manual.Reach s)
    (hs : Manual.step s .throw = some s') :
    s'.ctl = .idle ∧ s'.log.getLast? = some .exc ∧
    (∃ rest : List Nat, s'.queue = rest.map some ∧ started s'.log ++ rest = posted s'.log) ∧
    started s'.log = started s.log ∧
    ∀ s'', Manual.step s' .post = some s'' →
      ∃ n, s''.ctl = .task n ∧ started s''.log = started s'.log ++ [n] ∧
        started s''.log <+: posted s''.log := by
  have h' : Manual.Reach s' := .step _ h hs
  have hi := Manual.reach_inv h'
  obtain ⟨rest, hq, hr⟩ := hi.split
  have hctl : s'.ctl = .idle ∧ s'.log.getLast? = some .exc ∧ started s'.log = started s.log := by
    simp only [Manual.step] at hs
    cases hc : s.ctl with
    | idle => rw [hc] at hs; cases hs
    | task n => rw [hc] at hs; cases hs; simp [Manual.caught, started_append, started]
  have hi0 := (hi.idle hctl.1).1
  rw [hi0] at hq
  refine ⟨hctl.1, hctl.2.1, ⟨rest, by simpa using hq, hr⟩, hctl.2.2, ?_⟩
  intro s'' hs''
  have hp := (C38_manual_fifo (.step _ h' hs'')).2.1
  simp only [Manual.step] at hs''
  rw [if_pos hi0] at hs''
  cases hs''
  revert hp
  unfold Manual.advance
  simp only [hi0, hq]
  cases rest with
  | nil => intro hp; exact ⟨s'.next, rfl, by simp [started_append, started], by simpa using hp⟩
  | cons n rest =>
    intro hp
    exact ⟨n, rfl, by simp [started_append, started], by simpa using hp⟩

/-- Task 0 posts 1 and 2; 1 throws; later 3 is posted: 2 and 3 run. -/
example : ∃ s, Manual.Reach s ∧ s.ctl = .idle ∧ started s.log = [0, 1, 2, 3] ∧
    posted s.log = [0, 1, 2, 3] :=
  ⟨_, Manual.reach_run .init [.post, .post, .post, .ret, .throw, .post, .ret, .ret] rfl,
    rfl, rfl, rfl⟩

/-- A state in which a task throws with others waiting. -/
example : ∃ s s', Manual.Reach s ∧ Manual.step s .throw = some s' ∧ s'.queue = [some 1, some 2] :=
  ⟨_, _, Manual.reach_run .init [.post, .post, .post] rfl, rfl, rfl⟩

/-! ### Queue event loop -/

/-- C40.  If tasks do not call `step()` themselves: tasks run in posting order, each exactly once, one
at a time and only inside `step()`; at any time outside `step()` (in particular after a task threw)
the queue holds exactly the tasks posted and not yet run, in order; no undefined behaviour. -/
theorem C40_queue_fifo {s : Queue.St} (h : Queue.Flat s) :
    posted s.log = List.range s.next ∧ started s.log <+: posted s.log ∧ Sequential s.log ∧
    s.bad = false ∧ s.ub = false ∧
    (s.stack = [] →
      ∃ rest : List Nat, s.queue = rest.map some ∧ started s.log ++ rest = posted s.log) := by
  have hi := Queue.flat_inv h
  obtain ⟨rest, hr, hcase⟩ := hi.split
  refine ⟨hi.ids, ⟨rest, hr⟩, ?_, hi.good, hi.defined, ?_⟩
  · unfold Sequential
    rcases hcase with ⟨_, _, h3⟩ | ⟨f, _, _, _, h4⟩
    · rw [h3]; simp
    · rw [h4]; simp
  · intro hs
    rcases hcase with ⟨_, h2, _⟩ | ⟨f, h1, _⟩
    · exact ⟨rest, h2, hr⟩
    · rw [hs] at h1; cases h1

/-- C40.  When `step()` returns normally everything posted so far has run and the queue is empty. -/
theorem C40_queue_complete {s s' : Queue.St} (h : Queue.Flat s) {op : Queue.Op}
    (hf : op = .step → s.stack = []) (hs : Queue.step s op = some s')
    (hret : s'.log.getLast? = some .ret) :
    started s'.log = posted s'.log ∧ s'.queue = [] ∧ s'.stack = [] := by
  have hi' := Queue.flat_inv (.step op h hf hs)
  obtain ⟨rest, hr, hcase⟩ := hi'.split
  have hq : s'.queue = [] ∧ (s.stack.length ≤ 1 → s'.stack = []) := by
    revert hret
    cases op with
    | post => simp only [Queue.step] at hs; cases hs; simp
    | step =>
      simp only [Queue.step] at hs
      cases hs
      unfold Queue.advance
      split <;> simp_all [Queue.caught]
    | ret =>
      simp only [Queue.step] at hs
      split at hs
      · cases hs
      · rename_i f below hst
        cases hs
        unfold Queue.advance
        split <;> simp_all [Queue.caught]
    | throw =>
      simp only [Queue.step] at hs
      split at hs
      · cases hs
      · cases hs; simp [Queue.caught]
  rcases hcase with ⟨h1, h2, _⟩ | ⟨f, h1, h2, h3, _⟩
  · rw [hq.1] at h2
    have : rest = [] := by simpa using h2.symm
    rw [this, List.append_nil] at hr
    exact ⟨hr, hq.1, h1⟩
  · rw [hq.1] at h3
    have hlen := congrArg List.length h3
    simp at hlen
    omega

/-- C40.  `step()` called outside a task starts the first task not yet run, or returns. -/
theorem C40_queue_progress {s s' : Queue.St} (h : Queue.Flat s) (hs : s.stack = [])
    (he : Queue.step s .step = some s') :
    (started s.log = posted s.log ∧ s'.log.getLast? = some .ret) ∨
    ∃ n, started s'.log = started s.log ++ [n] ∧ started s'.log <+: posted s.log := by
  have hi := Queue.flat_inv h
  obtain ⟨rest, hr, hcase⟩ := hi.split
  rcases hcase with ⟨_, h2, _⟩ | ⟨f, h1, _⟩
  · simp only [Queue.step] at he
    cases he
    cases rest with
    | nil =>
      left
      simp only [List.append_nil] at hr
      simp [Queue.advance, h2, hr]
    | cons n rest =>
      right
      refine ⟨n, ?_, rest, ?_⟩
      · simp [Queue.advance, h2, started_append, started]
      · simpa [Queue.advance, h2, started_append, started] using hr
  · rw [hs] at h1; cases h1

/-- Two steps with a throw in between; nothing lost. -/
example : ∃ s, Queue.Flat s ∧ s.stack = [] ∧ started s.log = [0, 1, 2] ∧ posted s.log = [0, 1, 2] :=
  ⟨_, .step .ret (.step .ret (.step .step (.step .throw (.step .post (.step .step
    (.step .post (.step .post .init (by simp) rfl) (by simp) rfl) (by simp; rfl) rfl) (by simp) rfl)
    (by simp) rfl) (by simp; rfl) rfl) (by simp) rfl) (by simp) rfl, rfl, rfl, rfl⟩

/-- No task in the queue, none to come, none started: preserved by everything, nested steps too. -/
theorem queue_lost_step (n : Nat) {s s' : Queue.St} (op : Queue.Op)
    (h : some n ∉ s.queue ∧ n < s.next ∧ n ∉ started s.log) (he : Queue.step s op = some s') :
    some n ∉ s'.queue ∧ n < s'.next ∧ n ∉ started s'.log := by
  obtain ⟨h1, h2, h3⟩ := h
  have hadv : ∀ (s : Queue.St) i below, some n ∉ s.queue → n < s.next → n ∉ started s.log →
      some n ∉ (Queue.advance s i below).queue ∧ n < (Queue.advance s i below).next ∧
        n ∉ started (Queue.advance s i below).log := by
    intro s i below h1 h2 h3
    unfold Queue.advance
    split
    · rename_i m hm
      have hne : n ≠ m := by
        intro e; subst e
        exact h1 (List.mem_of_getElem? hm)
      refine ⟨?_, h2, ?_⟩
      · intro hmem
        rcases List.mem_or_eq_of_mem_set hmem with h | h
        · exact h1 h
        · cases h
      · simp only [started_append, started, List.mem_append, List.mem_singleton]
        rintro (h | h)
        · exact h3 h
        · exact hne h
    · refine ⟨fun h => h1 (List.mem_of_mem_drop h), h2, ?_⟩
      simpa [Queue.caught, started_append, started] using h3
    · refine ⟨by simp, h2, ?_⟩
      simpa [started_append, started] using h3
  cases op with
  | post =>
    simp only [Queue.step] at he
    cases he
    refine ⟨?_, Nat.lt_succ_of_lt h2, ?_⟩
    · simp only [List.mem_append, List.mem_singleton]
      rintro (h | h)
      · exact h1 h
      · cases h; exact Nat.lt_irrefl _ h2
    · simpa [started_append, started] using h3
  | step =>
    simp only [Queue.step] at he
    cases he
    exact hadv _ _ _ h1 h2 (by simpa [started_append, started] using h3)
  | ret =>
    simp only [Queue.step] at he
    split at he
    · cases he
    · cases he
      exact hadv _ _ _ h1 h2 (by simpa [started_append, started] using h3)
  | throw =>
    simp only [Queue.step] at he
    split at he
    · cases he
    · cases he
      refine ⟨fun h => h1 (List.mem_of_mem_drop h), h2, ?_⟩
      simpa [Queue.caught, started_append, started] using h3

/-- Behaviours from a state. -/
inductive QueueFrom (s : Queue.St) : Queue.St → Prop where
  | refl : QueueFrom s s
  | step {t u} (op : Queue.Op) : QueueFrom s t → Queue.step t op = some u → QueueFrom s u

/-- C41 is false: there is a behaviour without undefined behaviour in which a task calls `step()`,
that `step()` throws without running anything, and after the task has let the exception out another
task that was queued is lost: it has not run and never will, whatever happens later. -/
theorem C41_nested_false :
    ∃ s n, Queue.Reach s ∧ s.stack = [] ∧ s.ub = false ∧ n ∈ posted s.log ∧
      ∀ s', QueueFrom s s' → n ∉ started s'.log := by
  refine ⟨_, 1, Queue.reach_run .init [.post, .post, .step, .step, .throw] rfl, rfl, rfl, ?_, ?_⟩
  · show 1 ∈ [0, 1]; simp
  · intro s' hs'
    have key : some 1 ∉ s'.queue ∧ 1 < s'.next ∧ 1 ∉ started s'.log := by
      induction hs' with
      | refl =>
        refine ⟨by show some 1 ∉ []; simp, by show 1 < 2; omega, by show 1 ∉ [0]; simp⟩
      | step op _ he ih => exact queue_lost_step 1 op ih he
    exact key.2.2

/-- C41 is false in a second way: erasing beyond the end of the vector. -/
theorem C41_nested_undefined : ∃ s, Queue.Reach s ∧ s.ub = true :=
  ⟨_, Queue.reach_run .init [.post, .step, .step, .throw] rfl, rfl⟩

/-- C41, what nested steps do: the first nested `step()` always calls an empty function, so it throws
and runs nothing. -/
theorem C41_nested_always_throws {s s' : Queue.St} (h : Queue.Flat s) (hs : s.stack ≠ [])
    (he : Queue.step s .step = some s') :
    started s'.log = started s.log ∧ s'.log.getLast? = some .exc ∧ s'.bad = true := by
  have hi := Queue.flat_inv h
  obtain ⟨rest, hr, hcase⟩ := hi.split
  rcases hcase with ⟨h1, _⟩ | ⟨f, h1, h2, h3, h4⟩
  · exact absurd h1 hs
  · simp only [Queue.step] at he
    cases he
    have : s.queue[0]? = some none := by
      rw [h3]
      obtain ⟨k, hk⟩ : ∃ k, f.i = k + 1 := ⟨f.i - 1, by omega⟩
      rw [hk, List.replicate_succ]
      rfl
    simp [Queue.advance, this, Queue.caught, started_append, started]

example : ∃ s, Queue.Flat s ∧ s.stack ≠ [] :=
  ⟨_, .step .step (.step .post .init (by simp) rfl) (by simp; rfl) rfl, by decide⟩

/-! ### Thread-safe queue -/

/-- C42.  In every interleaving (also with `adopt`): the started tasks and those still waiting are
together a rearrangement of the posted tasks, so none is lost and none runs twice; tasks run one at a
time and only inside `step()`; no empty function is called and no assertion of the code fails. -/
theorem C42_safe_exactly_once {s : Safe.St} (h : Safe.ReachAdopt s) :
    (started s.log ++ Safe.live s.loc ++ Safe.live s.shared).Perm (posted s.log) ∧
    (posted s.log).Nodup ∧ (started s.log).Nodup ∧ Sequential s.log ∧ s.bad = false ∧
    s.assertion = false := by
  have hi := Safe.reach_inv h
  obtain ⟨l, r, hl, hr, hp⟩ := hi.split
  rw [hl, hr, Safe.live_split, Safe.live_map]
  have hnd : (posted s.log).Nodup := by rw [hi.ids]; exact List.nodup_range
  refine ⟨hp, hnd, ?_, ?_, hi.good, hi.fine⟩
  · have := hp.nodup_iff.2 hnd
    exact (List.nodup_append.1 (List.nodup_append.1 this).1).1
  · unfold Sequential; rw [hi.nest]; simp

/-- C42.  Per thread, also for the owner: the tasks of thread `t` are started in the order in which
`t` posted them, the waiting ones being a final segment. -/
theorem C42_safe_order {s : Safe.St} (h : Safe.Reach s) (t : Nat) :
    (started s.log ++ Safe.live s.loc ++ Safe.live s.shared).filter
      (fun n => decide (n ∈ postedBy t s.log)) = postedBy t s.log ∧
    (started s.log).filter (fun n => decide (n ∈ postedBy t s.log)) <+: postedBy t s.log := by
  have ho := (Safe.reach_order h).order t
  refine ⟨ho, ?_⟩
  rw [List.append_assoc, List.filter_append] at ho
  exact ⟨_, ho⟩

/-- C42.  A `step()` that returns normally has run every task whose post came before the step began
(`a` is the log up to the beginning of this `step()`). -/
theorem C42_safe_complete {s s' : Safe.St} (h : Safe.ReachAdopt s) {op : Safe.Op}
    (hs : Safe.step s op = some s') {a b : List Ev} (hlog : s'.log = a ++ .enter :: (b ++ [.ret]))
    (hb : Ev.enter ∉ b) (hnew : s'.log ≠ s.log) : ∀ n ∈ posted a, n ∈ started s'.log := by
  have hi := Safe.reach_inv h
  have hfr := Safe.reach_fresh h
  have hlast : s'.log.getLast? = some .ret := by
    rw [hlog, ← List.cons_append, ← List.append_assoc, List.getLast?_concat]
  obtain ⟨l, r, hl, hr, hp⟩ := hi.split
  cases op with
  | post t =>
    simp only [Safe.step] at hs
    split at hs
    · split at hs <;> cases hs <;> simp at hlast
    · cases hs; simp at hlast
  | step =>
    simp only [Safe.step] at hs
    split at hs <;> cases hs
    simp at hlast
  | tick =>
    simp only [Safe.step] at hs
    split at hs
    · rename_i p i hc
      split at hs
      · cases hs; simp at hlast
      · cases hs; simp at hlast
      · rename_i hnone
        cases p with
        | first => cases hs; exact absurd rfl hnew
        | second =>
          cases hs
          have hlog' : s.log ++ [.ret] = (a ++ .enter :: b) ++ [.ret] := by simpa using hlog
          have hl2 := List.append_inj_left' hlog' rfl
          intro n hn
          rcases hfr ⟨i, 0, .inr hc⟩ a b hl2 hb n hn with h1 | h1
          · simp [started_append, h1]
          · have hl' : s.loc = List.replicate i none ++ l.map some := by
              simpa [Safe.moved, hc] using hl
            have : l = [] := by
              rw [hl'] at hnone
              have := List.getElem?_eq_none_iff.1 hnone
              simp at this
              exact List.eq_nil_of_length_eq_zero (by omega)
            rw [hl, Safe.live_split, this] at h1
            cases h1
    · cases hs; exact absurd rfl hnew
    · cases hs
  | ret =>
    simp only [Safe.step] at hs
    split at hs <;> cases hs
    simp at hlast
  | throw =>
    simp only [Safe.step] at hs
    split at hs <;> cases hs
    simp at hlast
  | adopt t =>
    simp only [Safe.step] at hs
    split at hs <;> cases hs
    exact absurd rfl hnew

/-- C43.  A throwing task loses nothing: everything posted and not started is still queued, in the
local queue or the shared one, in unchanged order, and the loop is idle and usable again. -/
theorem C43_safe_throw {s s' : Safe.St} (h : Safe.ReachAdopt s)
    (hs : Safe.step s .throw = some s') :
    s'.ctl = .idle ∧ s'.log.getLast? = some .exc ∧ started s'.log = started s.log ∧
    Safe.live s'.loc = Safe.live s.loc ∧ s'.shared = s.shared ∧
    s'.loc = (Safe.live s'.loc).map some ∧
    (started s'.log ++ Safe.live s'.loc ++ Safe.live s'.shared).Perm (posted s'.log) := by
  have hi := Safe.reach_inv h
  obtain ⟨l, r, hl, hr, hp⟩ := hi.split
  have hperm := (C42_safe_exactly_once (.step _ h (by simp) hs)).1
  simp only [Safe.step] at hs
  cases hc : s.ctl with
  | task p i n =>
    rw [hc] at hs
    cases hs
    have hl' : s.loc = List.replicate i none ++ l.map some := by simpa [Safe.moved, hc] using hl
    have hd : s.loc.drop i = l.map some := by
      rw [hl', List.drop_append_of_le_length (by simp)]
      simp
    refine ⟨rfl, by simp, by simp [started_append, started], ?_, rfl, ?_, hperm⟩
    · simp only [hd, Safe.live_map]; rw [hl', Safe.live_split]
    · simp only [hd, Safe.live_map]
  | idle => rw [hc] at hs; cases hs
  | loop p i => rw [hc] at hs; cases hs
  | swap => rw [hc] at hs; cases hs

/-- C43.  Idle with tasks waiting in the local queue, the next `step()` starts with the first of
them. -/
theorem C43_safe_resume {s : Safe.St} (h : Safe.ReachAdopt s) (hc : s.ctl = .idle) {n : Nat}
    {rest : List Nat} (hl : Safe.live s.loc = n :: rest) :
    ∃ s' s'', Safe.step s .step = some s' ∧ Safe.step s' .tick = some s'' ∧
      started s''.log = started s.log ++ [n] ∧ Safe.live s''.loc = rest := by
  have hi := Safe.reach_inv h
  obtain ⟨l, r, hloc, hr, hp⟩ := hi.split
  have hl' : s.loc = l.map some := by simpa [Safe.moved, hc] using hloc
  rw [hl', Safe.live_map] at hl
  subst hl
  refine ⟨{ s with ctl := .loop .first 0, log := s.log ++ [.enter] },
    { s with loc := s.loc.set 0 none, ctl := .task .first 1 n,
             log := s.log ++ [.enter] ++ [.start n] }, ?_, ?_, ?_, ?_⟩
  · simp [Safe.step, hc]
  · simp [Safe.step, hl']
  · simp [started_append, started]
  · simp [hl', Safe.live]

/-- A schedule: thread 1 posts 0, owner 0 posts 1 and steps; during task 1 thread 1 posts 2, task 1
posts 3; everything runs, thread 1's tasks in order. -/
def safeSchedule : List Safe.Op :=
  [.post 1, .post 0, .step, .tick, .post 1, .post 0, .ret, .tick, .ret, .tick, .tick, .tick, .ret,
   .tick, .ret, .tick]

example : ∃ s, Safe.Reach s ∧ s.ctl = .idle ∧ started s.log = [1, 3, 0, 2] ∧
    postedBy 1 s.log = [0, 2] ∧ s.log.getLast? = some .ret :=
  ⟨_, Safe.reach_run (.init 0) safeSchedule (by simp [safeSchedule]) rfl, rfl, rfl, rfl, rfl⟩

/-- A throw with tasks waiting in both queues. -/
example : ∃ s s', Safe.Reach s ∧ Safe.step s .throw = some s' ∧ s'.loc = [some 2] ∧
    s'.shared = [some 0] :=
  ⟨_, _, Safe.reach_run (.init 0) [.post 1, .post 0, .post 0, .step, .tick] (by simp) rfl,
    rfl, rfl, rfl⟩

/-- `adopt` breaks the order of a thread's own tasks: thread 1 posts 0, adopts the loop, posts 1;
then 1 runs before 0. -/
theorem C75_adopt_reorders :
    ∃ s t, Safe.ReachAdopt s ∧ started s.log = [1, 0] ∧ postedBy t s.log = [0, 1] :=
  ⟨_, 1, .step .tick (.step .tick (.step .tick (.step .ret (.step .tick (.step .step
    (.step (.post 1) (.step (.adopt 1) (.step (.post 1) (.init 0) (by simp) rfl)
      (by intros; rfl) rfl) (by simp) rfl) (by simp) rfl) (by simp) rfl) (by simp) rfl)
      (by simp) rfl) (by simp) rfl) (by simp) rfl, rfl, rfl⟩

/-! ### SDL event loop -/

/-- C73.  Both `run` functions: posted functions are run in posting order, each at most once, and
those not run are still in SDL's queue. -/
theorem C73_sdl_fifo {s : Sdl.St} (h : Sdl.Reach s ∨ Sdl.ReachSimple s) :
    Sdl.posted s.log = List.range s.next ∧
    Sdl.started s.log ++ Sdl.queued s.queue = Sdl.posted s.log := by
  rcases h with h | h
  · exact ⟨(Sdl.reach_inv h).ids, (Sdl.reach_inv h).fifo⟩
  · exact ⟨(Sdl.reachSimple_inv h).ids, (Sdl.reachSimple_inv h).fifo⟩

/-- C73.  With `run(handler, tick)`, whenever the handler or tick is called the loop is not paused
at that moment. -/
theorem C73_sdl_paused_quiet {s : Sdl.St} (h : Sdl.Reach s) {a b : List Sdl.Obs} {o : Sdl.Obs}
    (hlog : s.log = a ++ o :: b) (ho : o = .tick ∨ ∃ e, o = .handler e) :
    Sdl.pausedAfter a = false := Sdl.reach_quiet h a o b hlog ho

/-- C73.  With `run(handler, tick)`, posted functions still run while paused: waiting in a paused
loop with a posted function first in the queue, that function is run next. -/
theorem C73_sdl_paused_runs {s : Sdl.St} (hp : s.paused = true) (hw : s.pc = .inner)
    (hc : s.cont = true) {n : Nat} {rest : List Sdl.Event} (hq : s.queue = .fn n :: rest) :
    ∃ s', Sdl.autoN true 3 s = some s' ∧ s'.pc = .task n ∧
      Sdl.started s'.log = Sdl.started s.log ++ [n] := by
  refine ⟨{ s with queue := rest, pc := .task n, log := s.log ++ [.start n] }, ?_, rfl, ?_⟩
  · simp [Sdl.autoN, Sdl.auto, Sdl.tickStep, hp, hw, hc, hq, Sdl.dispatch]
  · simp [Sdl.started]

/-- C73 is false for `run(handler)`: it calls the handler while paused. -/
theorem C73_sdl_simple_paused_false :
    ∃ s a e b, Sdl.ReachSimple s ∧ s.log = a ++ .handler e :: b ∧ Sdl.pausedAfter a = true :=
  ⟨_, [.pause], 7, [], Sdl.reachSimple_run .init [.pause, .event 7, .tick, .tick] rfl, rfl, rfl⟩

/-- C73 is false for `run(handler, tick)`: after `finish` in a paused loop, the loop does not end,
whatever is posted or happens, until someone calls `resume`. -/
theorem C73_sdl_finish_false :
    ∃ s, Sdl.Reach s ∧ s.done = true ∧ Sdl.Obs.finish ∈ s.log ∧
      ∀ s', Sdl.Run (· ≠ .resume) s s' → s'.pc ≠ .exit := by
  refine ⟨_, Sdl.reach_run .init [.tick, .pause, .finish] rfl, rfl, ?_, ?_⟩
  · show Sdl.Obs.finish ∈ [Sdl.Obs.pause, Sdl.Obs.finish]; simp
  · intro s' hr he
    have := Sdl.stuck_run (s := _) ⟨rfl, rfl, .inl rfl⟩ hr
    rcases this.pc with h | h | h | ⟨n, h⟩ | ⟨e, h⟩ <;> rw [h] at he <;> cases he

/-- C73, the part that holds for `run(handler, tick)`: after `finish` in a loop that is not paused
(and not just waking up from a pause), the loop ends by itself after finitely many steps, if nothing
new arrives; `b` is what the callbacks return. -/
theorem C73_sdl_finish (b : Bool) {s : Sdl.St} (hd : s.done = true) (hp : s.paused = false)
    (hw : s.pc ≠ .wait) : ∃ k s', Sdl.autoN b k s = some s' ∧ s'.pc = .exit := by
  obtain ⟨k, s', _, h1, h2⟩ := Sdl.auto_ends b _ s (Nat.le_refl _) hd hp hw
  exact ⟨k, s', h1, h2⟩

/-- C73, `run(handler)`: once `finish` was called, no callback begins after the one that is running
or the one event already being waited for: at the loop test the loop ends. -/
theorem C73_sdl_simple_finish {s : Sdl.St} (hd : s.done = true) (hpc : s.pc = .outer) :
    ∃ s', Sdl.stepSimple s .tick = some s' ∧ s'.pc = .exit :=
  ⟨{ s with pc := .exit, log := s.log ++ [.exit] }, by simp [Sdl.stepSimple, hpc, hd], rfl⟩

/-- A run: pause, events and posts while paused, resume, finish. -/
example : ∃ s, Sdl.Reach s ∧ s.log = [.pause, .post 0, .start 0, .resume, .tick, .finish, .exit] :=
  ⟨_, Sdl.reach_run .init [.pause, .event 1, .post, .tick, .tick, .tick, .tick, .tick, .tick, .tick,
    .tick, .resume, .ret true, .tick, .tick, .tick, .tick, .finish, .ret true, .tick] rfl, rfl⟩

example : ∃ s, Sdl.Reach s ∧ s.done = true ∧ s.paused = false ∧ s.pc = .poll ∧
    s.queue = [.fn 0, .other 3] :=
  ⟨_, Sdl.reach_run .init [.tick, .tick, .post, .event 3, .finish] rfl, rfl, rfl, rfl, rfl⟩

end Verif.Loop
