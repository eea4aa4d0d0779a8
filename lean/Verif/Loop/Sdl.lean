/-
Model of the two `run` functions of `lager/event_loop/sdl.hpp` (the non-emscripten variants).

SDL's event queue is a FIFO list holding posted functions (numbered in posting order) and other
events.  `post`, new events, `pause`, `resume` and `finish` may come from anywhere at any time (from
the running callback or from another thread); `tick` is one micro-step of the loop code, in which
every read of an atomic flag is a separate step; `ret b` is the return of the running callback.

Simplifications: `SDL_PushEvent` always succeeds (SDL may refuse when its queue is full, and the
code does not look at the result), a blocking `SDL_WaitEvent` is a step that is impossible while the
queue is empty, and callbacks do not throw.
-/

namespace Verif.Loop.Sdl

/-- An event in SDL's queue. -/
inductive Event where
  /-- `post_event_type_`, with the `n`-th posted function -/
  | fn (n : Nat)
  /-- any other event -/
  | other (e : Nat)
  deriving DecidableEq

/-- What is observed. -/
inductive Obs where
  | post (n : Nat)
  | start (n : Nat)
  | handler (e : Nat)
  | tick
  | pause
  | resume
  | finish
  | exit
  deriving DecidableEq

/-- Program points of `run(handler, tick)`, `sdl.hpp:141-160`. -/
inductive Pc where
  /-- `while (continue_ && !done_)` -/
  | outer
  /-- inner test: `continue_ && ((!paused_ && ...` -/
  | inner
  /-- `SDL_PollEvent` -/
  | poll
  /-- `|| (paused_ && ...` -/
  | inner2
  /-- `SDL_WaitEvent` -/
  | wait
  /-- `continue_ && (paused_ || handler(event))` with event `e` -/
  | test (e : Nat)
  /-- `continue_ = continue_ && (paused_ || tick(step()))` -/
  | after
  | task (n : Nat)
  | handler (e : Nat)
  | ticking
  | exit
  deriving DecidableEq

/-- The loop, `event_loop/sdl.hpp:76-193`, and the queue of SDL. -/
structure St where
  queue : List Event
  next : Nat
  cont : Bool
  done : Bool
  paused : Bool
  pc : Pc
  log : List Obs
  deriving DecidableEq

/-- The state at the beginning. -/
def init : St :=
  { queue := [], next := 0, cont := true, done := false, paused := false, pc := .outer, log := [] }

/-- What happens. -/
inductive Op where
  | post
  | event (e : Nat)
  | pause
  | resume
  | finish
  | tick
  | ret (b : Bool)
  deriving DecidableEq

/-- Take an event from the queue: run a posted function or go on to test for the handler,
`sdl.hpp:150-156`. -/
def dispatch (s : St) (rest : List Event) : Event → St
  | .fn n => { s with queue := rest, pc := .task n, log := s.log ++ [.start n] }
  | .other e => { s with queue := rest, pc := .test e }

/-- One micro-step of `run(handler, tick)`. -/
def tickStep (s : St) : Option St :=
  match s.pc with
  | .outer =>
    if s.cont && !s.done then some { s with pc := .inner }
    else some { s with pc := .exit, log := s.log ++ [.exit] }
  | .inner =>
    if s.cont then
      if s.paused then some { s with pc := .inner2 } else some { s with pc := .poll }
    else some { s with pc := .after }
  | .poll =>
    match s.queue with
    | [] => some { s with pc := .inner2 }
    | e :: rest => some (dispatch s rest e)
  | .inner2 => if s.paused then some { s with pc := .wait } else some { s with pc := .after }
  | .wait =>
    match s.queue with
    | [] => none
    | e :: rest => some (dispatch s rest e)
  | .test e =>
    if s.cont then
      if s.paused then some { s with pc := .inner }
      else some { s with pc := .handler e, log := s.log ++ [.handler e] }
    else some { s with pc := .inner }
  | .after =>
    if s.cont then
      if s.paused then some { s with pc := .outer }
      else some { s with pc := .ticking, log := s.log ++ [.tick] }
    else some { s with pc := .outer }
  | .task _ | .handler _ | .ticking | .exit => none

/-- What the outside (and the running callback) does: `post`, `finish`, `pause`, `resume`,
`sdl.hpp:163-185`, and SDL events. -/
def outside (s : St) : Op → Option St
  | .post => some { s with queue := s.queue ++ [.fn s.next], next := s.next + 1,
                           log := s.log ++ [.post s.next] }
  | .event e => some { s with queue := s.queue ++ [.other e] }
  | .pause => some { s with paused := true, log := s.log ++ [.pause] }
  | .resume => some { s with paused := false, log := s.log ++ [.resume] }
  | .finish => some { s with done := true, log := s.log ++ [.finish] }
  | _ => none

/-- `run(handler, tick)`. -/
def step (s : St) : Op → Option St
  | .tick => tickStep s
  | .ret b =>
    match s.pc with
    | .task _ => some { s with pc := .inner }
    | .handler _ => some { s with pc := .inner, cont := b }
    | .ticking => some { s with pc := .outer, cont := b }
    | _ => none
  | op => outside s op

/-- `run(handler)`, `sdl.hpp:123-139`: `outer` is the loop test, `wait` is `SDL_WaitEvent`. -/
def stepSimple (s : St) : Op → Option St
  | .tick =>
    match s.pc with
    | .outer =>
      if s.cont && !s.done then some { s with pc := .wait }
      else some { s with pc := .exit, log := s.log ++ [.exit] }
    | .wait =>
      match s.queue with
      | [] => none
      | .fn n :: rest => some { s with queue := rest, pc := .task n, log := s.log ++ [.start n] }
      | .other e :: rest =>
        some { s with queue := rest, pc := .handler e, log := s.log ++ [.handler e] }
    | _ => none
  | .ret b =>
    match s.pc with
    | .task _ => some { s with pc := .outer }
    | .handler _ => some { s with pc := .outer, cont := b }
    | _ => none
  | op => outside s op

/-- The states that can be reached with `run(handler, tick)`. -/
inductive Reach : St → Prop where
  | init : Reach init
  | step {s s'} (op : Op) : Reach s → step s op = some s' → Reach s'

/-- The states that can be reached with `run(handler)`. -/
inductive ReachSimple : St → Prop where
  | init : ReachSimple init
  | step {s s'} (op : Op) : ReachSimple s → stepSimple s op = some s' → ReachSimple s'

/-- Behaviours from `s` whose operations all satisfy `P`. -/
inductive Run (P : Op → Prop) : St → St → Prop where
  | refl (s) : Run P s s
  | step {s t u} (op : Op) : Run P s t → P op → step t op = some u → Run P s u

/-- Run a schedule (for examples). -/
def run (f : St → Op → Option St) (s : St) : List Op → Option St
  | [] => some s
  | op :: ops => (f s op).bind fun s' => run f s' ops

theorem reach_run {s s'} (h : Reach s) (ops : List Op) (he : run step s ops = some s') :
    Reach s' := by
  induction ops generalizing s with
  | nil => cases he; exact h
  | cons op ops ih =>
    simp only [run] at he
    cases hs : step s op with
    | none => rw [hs] at he; cases he
    | some t => rw [hs] at he; exact ih (.step op h hs) he

theorem reachSimple_run {s s'} (h : ReachSimple s) (ops : List Op)
    (he : run stepSimple s ops = some s') : ReachSimple s' := by
  induction ops generalizing s with
  | nil => cases he; exact h
  | cons op ops ih =>
    simp only [run] at he
    cases hs : stepSimple s op with
    | none => rw [hs] at he; cases he
    | some t => rw [hs] at he; exact ih (.step op h hs) he

/-! ### Specification: reading a log -/

/-- The functions posted, in order. -/
def posted (l : List Obs) : List Nat :=
  l.filterMap fun | .post n => some n | _ => none

/-- The functions run, in order. -/
def started (l : List Obs) : List Nat :=
  l.filterMap fun | .start n => some n | _ => none

/-- Is the loop paused after this log? -/
def pausedAfter (l : List Obs) : Bool :=
  l.foldl (fun p o => match o with | .pause => true | .resume => false | _ => p) false

/-! ### Invariants -/

/-- The posted functions in the queue. -/
def queued (q : List Event) : List Nat :=
  q.filterMap fun | .fn n => some n | _ => none

/-- Of the proof: the invariant. -/
structure Inv (s : St) : Prop where
  ids : posted s.log = List.range s.next
  fifo : started s.log ++ queued s.queue = posted s.log
  flag : s.paused = pausedAfter s.log

/-- Nothing but what is allowed while paused was called while paused. -/
def Quiet (l : List Obs) : Prop :=
  ∀ a o b, l = a ++ o :: b → (o = .tick ∨ ∃ e, o = .handler e) → pausedAfter a = false

theorem quiet_snoc {l : List Obs} {o : Obs} (h : Quiet l)
    (ho : (o = .tick ∨ ∃ e, o = .handler e) → pausedAfter l = false) : Quiet (l ++ [o]) := by
  intro a o' b hab h'
  rcases List.eq_nil_or_concat b with hb | ⟨b', x, hb⟩
  · subst hb
    have h1 := List.append_inj_left' hab (by simp)
    have h2 := List.append_inj_right' hab (by simp)
    simp at h2
    subst h1; subst h2
    exact ho h'
  · rw [List.concat_eq_append] at hb
    subst hb
    have hab' : l ++ [o] = (a ++ o' :: b') ++ [x] := by simpa using hab
    exact h a o' b' (List.append_inj_left' hab' rfl) h'

/-- How a step may change the observable part of the state. -/
inductive Frame (s : St) : St → Prop where
  | silent {s'} : s'.log = s.log → s'.queue = s.queue → s'.next = s.next → s'.paused = s.paused →
      Frame s s'
  | note {s'} (o : Obs) : s'.log = s.log ++ [o] → s'.queue = s.queue → s'.next = s.next →
      s'.paused = s.paused → (∀ n, o ≠ .post n) → (∀ n, o ≠ .start n) → o ≠ .pause →
      o ≠ .resume → Frame s s'
  | start {s'} (n : Nat) : s'.log = s.log ++ [.start n] → s.queue = .fn n :: s'.queue →
      s'.next = s.next → s'.paused = s.paused → Frame s s'
  | drop {s'} (e : Nat) : s'.log = s.log → s.queue = .other e :: s'.queue →
      s'.next = s.next → s'.paused = s.paused → Frame s s'
  | dropNote {s'} (e : Nat) : s'.log = s.log ++ [.handler e] → s.queue = .other e :: s'.queue →
      s'.next = s.next → s'.paused = s.paused → Frame s s'
  | event {s'} (e : Nat) : s'.log = s.log → s'.queue = s.queue ++ [.other e] →
      s'.next = s.next → s'.paused = s.paused → Frame s s'
  | post {s'} : s'.log = s.log ++ [.post s.next] → s'.queue = s.queue ++ [.fn s.next] →
      s'.next = s.next + 1 → s'.paused = s.paused → Frame s s'
  | pause {s'} : s'.log = s.log ++ [.pause] → s'.queue = s.queue → s'.next = s.next →
      s'.paused = true → Frame s s'
  | resume {s'} : s'.log = s.log ++ [.resume] → s'.queue = s.queue → s'.next = s.next →
      s'.paused = false → Frame s s'

theorem frame_inv {s s' : St} (h : Inv s) (hf : Frame s s') : Inv s' := by
  have h1 := h.ids
  have h2 := h.fifo
  have h3 := h.flag
  cases hf with
  | silent a b c d => exact ⟨by rw [a, c, h1], by rw [a, b, h2], by rw [a, d, h3]⟩
  | note o a b c d n1 n2 n3 n4 =>
    have hp : posted (s.log ++ [o]) = posted s.log := by
      cases o <;> first | (exact absurd rfl (n1 _)) | simp [posted]
    have hs : started (s.log ++ [o]) = started s.log := by
      cases o <;> first | (exact absurd rfl (n2 _)) | simp [started]
    have hq : pausedAfter (s.log ++ [o]) = pausedAfter s.log := by
      cases o <;> first | (exact absurd rfl n3) | (exact absurd rfl n4) | simp [pausedAfter]
    exact ⟨by rw [a, c, hp, h1], by rw [a, b, hs, hp, h2], by rw [a, d, hq, h3]⟩
  | start n a b c d =>
    refine ⟨?_, ?_, ?_⟩
    · rw [a, c, ← h1]; simp [posted]
    · rw [b] at h2
      rw [a]
      simp only [started, posted, queued, List.filterMap_append, List.filterMap_cons,
        List.filterMap_nil, List.append_nil, List.append_assoc, List.singleton_append] at h2 ⊢
      exact h2
    · rw [a, d, h3]; simp [pausedAfter]
  | drop e a b c d =>
    refine ⟨by rw [a, c, h1], ?_, by rw [a, d, h3]⟩
    rw [b] at h2
    rw [a, ← h2]
    simp [queued]
  | dropNote e a b c d =>
    refine ⟨?_, ?_, ?_⟩
    · rw [a, c, ← h1]; simp [posted]
    · rw [b] at h2
      rw [a]
      simpa [started, posted, queued] using h2
    · rw [a, d, h3]; simp [pausedAfter]
  | event e a b c d =>
    refine ⟨by rw [a, c, h1], ?_, by rw [a, d, h3]⟩
    rw [a, b, ← h2]
    simp [queued]
  | post a b c d =>
    refine ⟨?_, ?_, ?_⟩
    · rw [a, c, List.range_succ, ← h1]; simp [posted]
    · rw [a, b]
      have : started (s.log ++ [.post s.next]) = started s.log := by simp [started]
      rw [this]
      have h4 : queued (s.queue ++ [.fn s.next]) = queued s.queue ++ [s.next] := by simp [queued]
      have h5 : posted (s.log ++ [.post s.next]) = posted s.log ++ [s.next] := by simp [posted]
      rw [h4, h5, ← List.append_assoc, h2]
    · rw [a, d, h3]; simp [pausedAfter]
  | pause a b c d =>
    refine ⟨?_, ?_, ?_⟩
    · rw [a, c, ← h1]; simp [posted]
    · rw [a, b]; simpa [started, posted] using h2
    · rw [a, d]; simp [pausedAfter]
  | resume a b c d =>
    refine ⟨?_, ?_, ?_⟩
    · rw [a, c, ← h1]; simp [posted]
    · rw [a, b]; simpa [started, posted] using h2
    · rw [a, d]; simp [pausedAfter]

theorem dispatch_frame (s : St) (e : Event) (rest : List Event) (h : s.queue = e :: rest) :
    Frame s (dispatch s rest e) := by
  cases e with
  | fn n => exact .start n rfl h rfl rfl
  | other e => exact .drop e rfl h rfl rfl

theorem outside_frame (s s' : St) (op : Op) (h : outside s op = some s') : Frame s s' := by
  cases op <;> simp only [outside] at h <;> cases h
  · exact .post rfl rfl rfl rfl
  · exact .event _ rfl rfl rfl rfl
  · exact .pause rfl rfl rfl rfl
  · exact .resume rfl rfl rfl rfl
  · exact .note .finish rfl rfl rfl rfl (by simp) (by simp) (by simp) (by simp)

theorem tick_frame (s s' : St) (h : tickStep s = some s') : Frame s s' := by
  unfold tickStep at h
  split at h
  · split at h <;> cases h
    · exact .silent rfl rfl rfl rfl
    · exact .note .exit rfl rfl rfl rfl (by simp) (by simp) (by simp) (by simp)
  · split at h
    · split at h <;> cases h <;> exact .silent rfl rfl rfl rfl
    · cases h; exact .silent rfl rfl rfl rfl
  · split at h <;> cases h
    · exact .silent rfl rfl rfl rfl
    · exact dispatch_frame s _ _ (by assumption)
  · split at h <;> cases h <;> exact .silent rfl rfl rfl rfl
  · split at h
    · cases h
    · cases h; exact dispatch_frame s _ _ (by assumption)
  · split at h
    · split at h <;> cases h
      · exact .silent rfl rfl rfl rfl
      · exact .note (.handler _) rfl rfl rfl rfl (by simp) (by simp) (by simp) (by simp)
    · cases h; exact .silent rfl rfl rfl rfl
  · split at h
    · split at h <;> cases h
      · exact .silent rfl rfl rfl rfl
      · exact .note .tick rfl rfl rfl rfl (by simp) (by simp) (by simp) (by simp)
    · cases h; exact .silent rfl rfl rfl rfl
  all_goals cases h

theorem step_frame (s s' : St) (op : Op) (h : step s op = some s') : Frame s s' := by
  cases op with
  | tick => exact tick_frame s s' h
  | ret b =>
    simp only [step] at h
    split at h <;> cases h <;> exact .silent rfl rfl rfl rfl
  | post => exact outside_frame s s' .post h
  | event e => exact outside_frame s s' (.event e) h
  | pause => exact outside_frame s s' .pause h
  | resume => exact outside_frame s s' .resume h
  | finish => exact outside_frame s s' .finish h

theorem stepSimple_frame (s s' : St) (op : Op) (h : stepSimple s op = some s') : Frame s s' := by
  cases op with
  | tick =>
    simp only [stepSimple] at h
    split at h
    · split at h <;> cases h
      · exact .silent rfl rfl rfl rfl
      · exact .note .exit rfl rfl rfl rfl (by simp) (by simp) (by simp) (by simp)
    · split at h
      · cases h
      · cases h; exact .start _ rfl (by assumption) rfl rfl
      · cases h; exact .dropNote _ rfl (by assumption) rfl rfl
    · cases h
  | ret b =>
    simp only [stepSimple] at h
    split at h <;> cases h <;> exact .silent rfl rfl rfl rfl
  | post => exact outside_frame s s' .post h
  | event e => exact outside_frame s s' (.event e) h
  | pause => exact outside_frame s s' .pause h
  | resume => exact outside_frame s s' .resume h
  | finish => exact outside_frame s s' .finish h

theorem init_inv : Inv init := ⟨rfl, rfl, rfl⟩

theorem reach_inv {s : St} (h : Reach s) : Inv s := by
  induction h with
  | init => exact init_inv
  | step op _ he ih => exact frame_inv ih (step_frame _ _ op he)

theorem reachSimple_inv {s : St} (h : ReachSimple s) : Inv s := by
  induction h with
  | init => exact init_inv
  | step op _ he ih => exact frame_inv ih (stepSimple_frame _ _ op he)

theorem step_quiet (s s' : St) (op : Op) (hi : Inv s) (hq : Quiet s.log)
    (h : step s op = some s') : Quiet s'.log := by
  have hd : ∀ (s : St) rest e, Quiet s.log → Quiet (dispatch s rest e).log := by
    intro s rest e hq
    cases e with
    | fn n => exact quiet_snoc hq (by simp)
    | other e => exact hq
  have ho : ∀ op s', outside s op = some s' → Quiet s'.log := by
    intro op s' h
    cases op <;> simp only [outside] at h <;> cases h <;>
      first | exact hq | exact quiet_snoc hq (by simp)
  cases op with
  | tick =>
    simp only [step, tickStep] at h
    split at h
    · split at h <;> cases h
      · exact hq
      · exact quiet_snoc hq (by simp)
    · split at h
      · split at h <;> cases h <;> exact hq
      · cases h; exact hq
    · split at h <;> cases h
      · exact hq
      · exact hd _ _ _ hq
    · split at h <;> cases h <;> exact hq
    · split at h
      · cases h
      · cases h; exact hd _ _ _ hq
    · split at h
      · split at h
        · cases h; exact hq
        · rename_i hp
          cases h
          exact quiet_snoc hq (fun _ => by rw [← hi.flag]; simpa using hp)
      · cases h; exact hq
    · split at h
      · split at h
        · cases h; exact hq
        · rename_i hp
          cases h
          exact quiet_snoc hq (fun _ => by rw [← hi.flag]; simpa using hp)
      · cases h; exact hq
    all_goals cases h
  | ret b =>
    simp only [step] at h
    split at h <;> cases h <;> exact hq
  | post => exact ho .post _ h
  | event e => exact ho (.event e) _ h
  | pause => exact ho .pause _ h
  | resume => exact ho .resume _ h
  | finish => exact ho .finish _ h

theorem reach_quiet {s : St} (h : Reach s) : Quiet s.log := by
  induction h with
  | init => intro a o b h; cases a <;> cases h
  | step op hr he ih => exact step_quiet _ _ op (reach_inv hr) ih he

/-! ### Stuck while paused -/

/-- Paused, `continue_` still true, and not past the inner loop. -/
structure Stuck (s : St) : Prop where
  paused : s.paused = true
  cont : s.cont = true
  pc : s.pc = .inner ∨ s.pc = .inner2 ∨ s.pc = .wait ∨ (∃ n, s.pc = .task n) ∨ ∃ e, s.pc = .test e

theorem stuck_step {s s' : St} (op : Op) (h : Stuck s) (hop : op ≠ .resume)
    (he : step s op = some s') : Stuck s' := by
  obtain ⟨h1, h2, h3⟩ := h
  cases op with
  | post => cases he; exact ⟨h1, h2, h3⟩
  | event e => cases he; exact ⟨h1, h2, h3⟩
  | pause => cases he; exact ⟨rfl, h2, h3⟩
  | resume => exact absurd rfl hop
  | finish => cases he; exact ⟨h1, h2, h3⟩
  | ret b =>
    simp only [step] at he
    rcases h3 with h | h | h | ⟨n, h⟩ | ⟨e, h⟩ <;> rw [h] at he <;> cases he
    exact ⟨h1, h2, .inl rfl⟩
  | tick =>
    simp only [step, tickStep] at he
    rcases h3 with h | h | h | ⟨n, h⟩ | ⟨e, h⟩ <;> rw [h] at he
    · simp only [h1, h2, if_true] at he; cases he; exact ⟨rfl, rfl, .inr (.inl rfl)⟩
    · simp only [h1, if_true] at he; cases he; exact ⟨rfl, h2, .inr (.inr (.inl rfl))⟩
    · simp only at he
      split at he
      · cases he
      · rename_i e rest _
        cases he
        cases e with
        | fn n => exact ⟨h1, h2, .inr (.inr (.inr (.inl ⟨n, rfl⟩)))⟩
        | other e => exact ⟨h1, h2, .inr (.inr (.inr (.inr ⟨e, rfl⟩)))⟩
    · cases he
    · simp only [h1, h2, if_true] at he; cases he; exact ⟨rfl, rfl, .inl rfl⟩

theorem stuck_run {s s' : St} (h : Stuck s) (hr : Run (· ≠ .resume) s s') : Stuck s' := by
  induction hr with
  | refl => exact h
  | step op _ hop he ih => exact stuck_step op ih hop he

/-! ### Ending when not paused -/

/-- Let the loop go on with nothing new from outside: callbacks return `b`. -/
def auto (b : Bool) (s : St) : Option St :=
  match s.pc with
  | .task _ | .handler _ | .ticking => step s (.ret b)
  | _ => tickStep s

/-- `k` steps of `auto`. -/
def autoN (b : Bool) : Nat → St → Option St
  | 0, s => some s
  | k + 1, s => (auto b s).bind (autoN b k)

/-- Steps left until the exit, at most. -/
def measure (s : St) : Nat :=
  match s.pc with
  | .exit => 0
  | .outer => if s.done then 1 else 0
  | .ticking => 2
  | .after => 3
  | .inner2 => 4
  | .poll => 5 + 5 * s.queue.length
  | .inner => 6 + 5 * s.queue.length
  | .task _ => 7 + 5 * s.queue.length
  | .handler _ => 7 + 5 * s.queue.length
  | .test _ => 8 + 5 * s.queue.length
  | .wait => 6 + 5 * s.queue.length

theorem auto_measure (b : Bool) (s : St) (hd : s.done = true) (hp : s.paused = false)
    (hw : s.pc ≠ .wait) (he : s.pc ≠ .exit) :
    ∃ s', auto b s = some s' ∧ measure s' < measure s ∧ s'.done = true ∧ s'.paused = false ∧
      s'.pc ≠ .wait := by
  unfold auto
  cases hc : s.pc with
  | outer =>
    refine ⟨{ s with pc := .exit, log := s.log ++ [.exit] }, ?_, ?_, hd, hp, by simp⟩
    · simp [tickStep, hc, hd]
    · simp [measure, hc, hd]
  | inner =>
    cases hcont : s.cont with
    | true =>
      refine ⟨{ s with pc := .poll }, ?_, ?_, hd, hp, by simp⟩
      · simp [tickStep, hc, hp, hcont]
      · simp only [measure, hc]; omega
    | false =>
      refine ⟨{ s with pc := .after }, ?_, ?_, hd, hp, by simp⟩
      · simp [tickStep, hc, hcont]
      · simp only [measure, hc]; omega
  | poll =>
    cases hq : s.queue with
    | nil =>
      refine ⟨{ s with pc := .inner2 }, ?_, ?_, hd, hp, by simp⟩
      · simp [tickStep, hc, hq]
      · simp only [measure, hc]; omega
    | cons e rest =>
      refine ⟨dispatch s rest e, ?_, ?_, ?_, ?_, ?_⟩
      · simp [tickStep, hc, hq]
      · cases e <;> simp only [dispatch, measure, hc, hq, List.length_cons] <;> omega
      · cases e <;> exact hd
      · cases e <;> exact hp
      · cases e <;> simp [dispatch]
  | inner2 =>
    refine ⟨{ s with pc := .after }, ?_, ?_, hd, hp, by simp⟩
    · simp [tickStep, hc, hp]
    · simp only [measure, hc]; omega
  | wait => exact absurd hc hw
  | test e =>
    cases hcont : s.cont with
    | true =>
      refine ⟨{ s with pc := .handler e, log := s.log ++ [.handler e] }, ?_, ?_, hd, hp, by simp⟩
      · simp [tickStep, hc, hp, hcont]
      · simp only [measure, hc]; omega
    | false =>
      refine ⟨{ s with pc := .inner }, ?_, ?_, hd, hp, by simp⟩
      · simp [tickStep, hc, hcont]
      · simp only [measure, hc]; omega
  | after =>
    cases hcont : s.cont with
    | true =>
      refine ⟨{ s with pc := .ticking, log := s.log ++ [.tick] }, ?_, ?_, hd, hp, by simp⟩
      · simp [tickStep, hc, hp, hcont]
      · simp only [measure, hc]; omega
    | false =>
      refine ⟨{ s with pc := .outer }, ?_, ?_, hd, hp, by simp⟩
      · simp [tickStep, hc, hcont]
      · simp only [measure, hc, hd]; simp
  | task n =>
    refine ⟨{ s with pc := .inner }, ?_, ?_, hd, hp, by simp⟩
    · simp [step, hc]
    · simp only [measure, hc]; omega
  | handler e =>
    refine ⟨{ s with pc := .inner, cont := b }, ?_, ?_, hd, hp, by simp⟩
    · simp [step, hc]
    · simp only [measure, hc]; omega
  | ticking =>
    refine ⟨{ s with pc := .outer, cont := b }, ?_, ?_, hd, hp, by simp⟩
    · simp [step, hc]
    · simp only [measure, hc, hd]; simp
  | exit => exact absurd hc he

theorem auto_ends (b : Bool) (m : Nat) (s : St) (hm : measure s ≤ m) (hd : s.done = true)
    (hp : s.paused = false) (hw : s.pc ≠ .wait) :
    ∃ k s', k ≤ m ∧ autoN b k s = some s' ∧ s'.pc = .exit := by
  induction m generalizing s with
  | zero =>
    by_cases he : s.pc = .exit
    · exact ⟨0, s, Nat.le_refl _, rfl, he⟩
    · obtain ⟨s', _, h, _⟩ := auto_measure b s hd hp hw he
      omega
  | succ m ih =>
    by_cases he : s.pc = .exit
    · exact ⟨0, s, Nat.zero_le _, rfl, he⟩
    · obtain ⟨s', h1, h2, h3, h4, h5⟩ := auto_measure b s hd hp hw he
      obtain ⟨k, s'', hk, h6, h7⟩ := ih s' (by omega) h3 h4 h5
      exact ⟨k + 1, s'', by omega, by simp [autoN, h1, h6], h7⟩

end Verif.Loop.Sdl
