import Verif.Loop.Queue

/-
Model of `lager/event_loop/qml.hpp`: the queue loop driven by a QML scene.

The queue loop is the one of `Verif.Loop.Queue`; its tasks are numbered in the order in which they
reach the queue.  What Qt does is an environment that may do, in any order and at any time at which
it has control: deliver the oldest posted event of the item (`dispatch`), polish the item before a
frame if it was scheduled for polishing (`frame`), paint (`paint`) and fire the timer once it was
started (`tick`).  Qt has control outside of tasks, and inside a task that runs a nested event loop
(a modal dialog, `processEvents`).

What is assumed about Qt: posted events of one object are delivered in the order in which they were
posted; `polish()` schedules the item, which is idempotent, and only a window that renders frames
polishes it; the timer is periodic.
-/

namespace Verif.Loop.Qml

/-- Events posted to the item: `QEvent::PolishRequest` (`qml.hpp:45`), or the queued invocation of a
`post` made by thread `t` (`qml.hpp:73-79`), `x` being the caller's name for the task. -/
inductive Event where
  | polish
  | invoke (t x : Nat)
  deriving DecidableEq

/-- `event_loop_quick_item`, `lager/event_loop/qml.hpp:15-92`. -/
structure St where
  /-- `this_id_` -/
  owner : Nat
  /-- `queue_` -/
  q : Queue.St
  /-- `polished_` -/
  polished : Bool
  /-- `timer_` was started -/
  timer : Bool
  /-- Qt will polish the item before the next frame -/
  scheduled : Bool
  /-- posted events not yet delivered, oldest first -/
  events : List Event
  /-- for each `step()` being executed, innermost first: was it called by `updatePolish`? -/
  origins : List Bool
  /-- all calls of `post`: thread and task -/
  calls : List (Nat × Nat)
  /-- the tasks that reached the queue, in that order -/
  arrived : List (Nat × Nat)
  deriving DecidableEq

/-- The state at the beginning, `event_loop/qml.hpp:18-20`. -/
def init (owner : Nat) : St :=
  { owner, q := Queue.init, polished := false, timer := false, scheduled := false, events := [],
    origins := [], calls := [], arrived := [] }

/-- `queue_.post(fn); polish();` `qml.hpp:70-71` and `qml.hpp:76-77`. -/
def enqueue (s : St) (t x : Nat) : St :=
  { s with
    q := (Queue.step s.q .post).getD s.q
    scheduled := true
    arrived := s.arrived ++ [(t, x)] }

/-- The last line of `updatePolish`: `postEvent(this, new QEvent{PolishRequest})`, `qml.hpp:45`.
`update()` (`qml.hpp:43`) only asks for a repaint. -/
def polishAgain (s : St) : St := { s with events := s.events ++ [.polish] }

/-- Continue after code of the queue loop ran: `q` is its new state, `origins` are the calls of
`step()` that were active, the innermost of which may have ended.  If it was called by `updatePolish`
and returned, the rest of `updatePolish` runs; if it threw, that is skipped. -/
def settle (s : St) (q : Queue.St) (origins : List Bool) : St :=
  if q.stack.length = origins.length then { s with q, origins }
  else
    let s' := { s with q, origins := origins.tail }
    if origins.head? = some true ∧ q.log.getLast? = some .ret then polishAgain s' else s'

/-- `step()`, `qml.hpp:30`. -/
def callStep (s : St) (fromPolish : Bool) : Option St :=
  (Queue.step s.q .step).map fun q => settle s q (fromPolish :: s.origins)

/-- What happens. -/
inductive Op where
  /-- thread `t` calls `post` -/
  | post (t x : Nat)
  /-- Qt delivers an event -/
  | dispatch
  /-- Qt polishes the item -/
  | frame
  /-- Qt paints the item -/
  | paint
  /-- the timer fires -/
  | tick
  /-- the running task returns -/
  | ret
  /-- the running task throws -/
  | throw

/-- Does this operation call `step()`? -/
def callsStep (s : St) : Op → Prop
  | .frame => s.polished = false
  | .tick => True
  | _ => False

/-- One step. -/
def step (s : St) : Op → Option St
  | .post t x =>
    -- `post`, `qml.hpp:65-81`
    let s' := { s with calls := s.calls ++ [(t, x)] }
    if t = s.owner then some (enqueue s' t x)
    else some { s' with events := s'.events ++ [.invoke t x] }
  | .dispatch =>
    -- `event`, `qml.hpp:54-63`; for `invoke`, the lambda `qml.hpp:75-78`
    match s.events with
    | [] => none
    | .polish :: es => some { s with events := es, scheduled := true }
    | .invoke t x :: es => some (enqueue { s with events := es } t x)
  | .frame =>
    -- `updatePolish`, `qml.hpp:32-46`
    if s.scheduled then
      let s' := { s with scheduled := false }
      if s'.polished then some (polishAgain s')
      else callStep { s' with polished := true, timer := true } true
    else none
  | .paint => some { s with polished := false }   -- `updatePaintNode`, `qml.hpp:48-52`
  | .tick => if s.timer then callStep s false else none   -- `qml.hpp:27`
  | .ret => (Queue.step s.q .ret).map fun q => settle s q s.origins
  | .throw => (Queue.step s.q .throw).map fun q => settle s q s.origins

/-- All behaviours, nested event loops included. -/
inductive Reach (o : Nat) : St → Prop where
  | init : Reach o (init o)
  | step {s s'} (op : Op) : Reach o s → step s op = some s' → Reach o s'

/-- Behaviours in which no `step()` happens inside a task: no task runs a nested event loop. -/
inductive Flat (o : Nat) : St → Prop where
  | init : Flat o (init o)
  | step {s s'} (op : Op) :
    Flat o s → (callsStep s op → s.q.stack = []) → step s op = some s' → Flat o s'

/-- Behaviours in which the item is never polished, e.g. because it was not put in a window, or the
window is not shown. -/
inductive Unseen (o : Nat) : St → Prop where
  | init : Unseen o (init o)
  | step {s s'} (op : Op) : Unseen o s → op ≠ .frame → step s op = some s' → Unseen o s'

/-- Run a list of operations (for examples). -/
def run (s : St) : List Op → Option St
  | [] => some s
  | op :: ops => (step s op).bind fun s' => run s' ops

theorem reach_run {o s s'} (h : Reach o s) (ops : List Op) (he : run s ops = some s') :
    Reach o s' := by
  induction ops generalizing s with
  | nil => cases he; exact h
  | cons op ops ih =>
    simp only [run] at he
    cases hs : step s op with
    | none => rw [hs] at he; cases he
    | some t => rw [hs] at he; exact ih (.step op h hs) he

/-- The tasks run so far, in order. -/
def ran (s : St) : List (Nat × Nat) := (started s.q.log).filterMap (s.arrived[·]?)

/-- The posts waiting to be delivered. -/
def pending : List Event → List (Nat × Nat)
  | [] => []
  | .invoke t x :: es => (t, x) :: pending es
  | .polish :: es => pending es

theorem pending_append (a b : List Event) : pending (a ++ b) = pending a ++ pending b := by
  induction a with
  | nil => rfl
  | cons e a ih => cases e <;> simp [pending, ih]

/-! ### What each operation does to the queue loop -/

theorem settle_q (s : St) (q : Queue.St) (os : List Bool) : (settle s q os).q = q := by
  unfold settle
  simp only
  split
  · rfl
  · split <;> rfl

theorem settle_fields (s : St) (q : Queue.St) (os : List Bool) :
    (settle s q os).arrived = s.arrived ∧ (settle s q os).calls = s.calls ∧
    (settle s q os).owner = s.owner ∧ (settle s q os).timer = s.timer ∧
    (settle s q os).scheduled = s.scheduled ∧
    pending (settle s q os).events = pending s.events := by
  unfold settle polishAgain
  simp only
  split
  · simp
  · split <;> simp [pending_append, pending]

/-- The queue loop does one operation, or none. -/
theorem step_q {s s' : St} {op : Op} (he : step s op = some s') :
    s'.q = s.q ∨ ∃ qop, Queue.step s.q qop = some s'.q ∧ (qop = .step → callsStep s op) := by
  cases op with
  | post t x =>
    simp only [step] at he
    split at he <;> cases he
    · exact .inr ⟨.post, rfl, nofun⟩
    · exact .inl rfl
  | dispatch =>
    simp only [step] at he
    split at he <;> cases he
    · exact .inl rfl
    · exact .inr ⟨.post, rfl, nofun⟩
  | frame =>
    simp only [step] at he
    split at he
    · split at he
      · cases he; exact .inl rfl
      · rename_i hp
        simp only [callStep, Option.map_eq_some_iff] at he
        obtain ⟨q, hq, rfl⟩ := he
        exact .inr ⟨.step, by rw [settle_q]; exact hq, fun _ => by simpa [callsStep] using hp⟩
    · cases he
  | paint => simp only [step] at he; cases he; exact .inl rfl
  | tick =>
    simp only [step] at he
    split at he
    · simp only [callStep, Option.map_eq_some_iff] at he
      obtain ⟨q, hq, rfl⟩ := he
      exact .inr ⟨.step, by rw [settle_q]; exact hq, fun _ => trivial⟩
    · cases he
  | ret =>
    simp only [step, Option.map_eq_some_iff] at he
    obtain ⟨q, hq, rfl⟩ := he
    exact .inr ⟨.ret, by rw [settle_q]; exact hq, nofun⟩
  | throw =>
    simp only [step, Option.map_eq_some_iff] at he
    obtain ⟨q, hq, rfl⟩ := he
    exact .inr ⟨.throw, by rw [settle_q]; exact hq, nofun⟩

theorem flat_q {o : Nat} {s : St} (h : Flat o s) : Queue.Flat s.q := by
  induction h with
  | init => exact .init
  | step op _ hf he ih =>
    rcases step_q he with hq | ⟨qop, hq, hs⟩
    · rw [hq]; exact ih
    · exact .step qop ih (fun h => hf (hs h)) hq

theorem reach_q {o : Nat} {s : St} (h : Reach o s) : Queue.Reach s.q := by
  induction h with
  | init => exact .init
  | step op _ he ih =>
    rcases step_q he with hq | ⟨qop, hq, hs⟩
    · rw [hq]; exact ih
    · exact .step qop ih hq

theorem flat_reach {o : Nat} {s : St} (h : Flat o s) : Reach o s := by
  induction h with
  | init => exact .init
  | step op _ _ he ih => exact .step op ih he

theorem advance_next (q : Queue.St) (i : Nat) (b : List Queue.Frame) :
    (Queue.advance q i b).next = q.next := by
  unfold Queue.advance
  split <;> rfl

theorem queue_next {q q' : Queue.St} {op : Queue.Op} (h : Queue.step q op = some q')
    (hp : op ≠ .post) : q'.next = q.next := by
  cases op with
  | post => exact absurd rfl hp
  | step => simp only [Queue.step] at h; cases h; rw [advance_next]
  | ret =>
    simp only [Queue.step] at h
    split at h <;> cases h
    rw [advance_next]
  | throw =>
    simp only [Queue.step] at h
    split at h <;> cases h
    rfl

/-- Bookkeeping that holds in all behaviours. -/
structure Book (o : Nat) (s : St) : Prop where
  owner : s.owner = o
  count : s.arrived.length = s.q.next
  order : ∀ t, s.arrived.filter (·.1 = t) ++ (pending s.events).filter (·.1 = t) =
    s.calls.filter (·.1 = t)
  foreign : ∀ p ∈ pending s.events, p.1 ≠ o

theorem enqueue_count {s : St} (t x : Nat) (h : s.arrived.length = s.q.next) :
    (enqueue s t x).arrived.length = (enqueue s t x).q.next := by
  simp [enqueue, Queue.step, h]

theorem filter_none {l : List (Nat × Nat)} {t : Nat} (h : ∀ p ∈ l, p.1 ≠ t) :
    l.filter (fun p => decide (p.1 = t)) = [] := by
  rw [List.filter_eq_nil_iff]
  intro p hp
  simpa using h p hp

theorem step_book {o : Nat} {s s' : St} (op : Op) (h : Book o s) (he : step s op = some s') :
    Book o s' := by
  have keep : ∀ (s₁ : St) (qop : Queue.Op) (os : List Bool) (q : Queue.St),
      Book o s₁ → qop ≠ .post → Queue.step s₁.q qop = some q → Book o (settle s₁ q os) := by
    intro s₁ qop os q hb hp hq
    obtain ⟨h1, h2, h3, _, _, h6⟩ := settle_fields s₁ q os
    refine ⟨h3.trans hb.owner, ?_, ?_, ?_⟩
    · rw [h1, settle_q, queue_next hq hp]; exact hb.count
    · rw [h1, h2, h6]; exact hb.order
    · rw [h6]; exact hb.foreign
  cases op with
  | post t x =>
    simp only [step] at he
    split at he <;> cases he
    · rename_i ht
      refine ⟨h.owner, enqueue_count t x h.count, fun u => ?_, h.foreign⟩
      simp only [enqueue, List.filter_append]
      rw [← h.order u, List.append_assoc, List.append_assoc]
      congr 1
      by_cases hu : t = u
      · subst hu
        rw [filter_none (l := pending s.events) (by
          intro p hp; rw [ht, h.owner]; exact h.foreign p hp)]
        simp
      · simp [hu]
    · rename_i ht
      refine ⟨h.owner, h.count, fun u => ?_, ?_⟩
      · simp only [pending_append, pending, List.filter_append]
        rw [← h.order u, List.append_assoc]
      · intro p hp
        rw [pending_append, List.mem_append] at hp
        rcases hp with hp | hp
        · exact h.foreign p hp
        · simp only [pending, List.mem_singleton] at hp
          rw [hp, ← h.owner]; exact ht
  | dispatch =>
    simp only [step] at he
    split at he <;> cases he
    · rename_i es hes
      have h2 := h.order
      have h3 := h.foreign
      rw [hes] at h2 h3
      exact ⟨h.owner, h.count, h2, h3⟩
    · rename_i t x es hes
      have h2 := h.order
      have h3 := h.foreign
      rw [hes] at h2 h3
      refine ⟨h.owner, enqueue_count t x h.count, fun u => ?_, fun p hp => h3 p (.tail _ hp)⟩
      simp only [enqueue]
      rw [← h2 u]
      simp only [pending, List.filter_append]
      rw [List.append_assoc]
      congr 1
      rw [← List.filter_append]
      rfl
  | frame =>
    simp only [step] at he
    split at he
    · split at he
      · cases he
        exact ⟨h.owner, h.count,
          by simpa [polishAgain, pending_append, pending] using h.order,
          by simpa [polishAgain, pending_append, pending] using h.foreign⟩
      · simp only [callStep, Option.map_eq_some_iff] at he
        obtain ⟨q, hq, rfl⟩ := he
        exact keep _ .step _ q ⟨h.owner, h.count, h.order, h.foreign⟩ nofun hq
    · cases he
  | paint => simp only [step] at he; cases he; exact ⟨h.owner, h.count, h.order, h.foreign⟩
  | tick =>
    simp only [step] at he
    split at he
    · simp only [callStep, Option.map_eq_some_iff] at he
      obtain ⟨q, hq, rfl⟩ := he
      exact keep _ .step _ q h nofun hq
    · cases he
  | ret =>
    simp only [step, Option.map_eq_some_iff] at he
    obtain ⟨q, hq, rfl⟩ := he
    exact keep _ .ret _ q h nofun hq
  | throw =>
    simp only [step, Option.map_eq_some_iff] at he
    obtain ⟨q, hq, rfl⟩ := he
    exact keep _ .throw _ q h nofun hq

theorem reach_book {o : Nat} {s : St} (h : Reach o s) : Book o s := by
  induction h with
  | init => exact ⟨rfl, rfl, fun _ => rfl, nofun⟩
  | step op _ he ih => exact step_book op ih he

theorem filterMap_range (l : List (Nat × Nat)) :
    (List.range l.length).filterMap (l[·]?) = l := by
  induction l with
  | nil => rfl
  | cons a l ih =>
    rw [List.length_cons, List.range_succ_eq_map]
    simp only [List.filterMap_cons, List.getElem?_cons_zero, List.filterMap_map]
    congr 1

/-- The tasks run are the first ones that arrived. -/
theorem ran_prefix {o : Nat} {s : St} (h : Reach o s) (hp : started s.q.log <+: posted s.q.log)
    (hi : posted s.q.log = List.range s.q.next) : ran s <+: s.arrived := by
  obtain ⟨r, hr⟩ := hp
  have := filterMap_range s.arrived
  rw [(reach_book h).count, ← hi, ← hr, List.filterMap_append] at this
  exact ⟨_, this⟩

theorem ran_all {o : Nat} {s : St} (h : Reach o s) (hp : started s.q.log = posted s.q.log)
    (hi : posted s.q.log = List.range s.q.next) : ran s = s.arrived := by
  have := filterMap_range s.arrived
  rw [(reach_book h).count, ← hi, ← hp] at this
  exact this

/-! ### The chain of polish requests -/

/-- Did a task ever throw? -/
def Threw (s : St) : Prop := Ev.exc ∈ s.q.log

/-- Once the item was polished, it stays scheduled, or a request is on its way, or it is being
polished; unless an exception broke the chain. -/
structure Chain (s : St) : Prop where
  depth : s.origins.length = s.q.stack.length
  chain : s.timer = true → Threw s ∨ s.scheduled = true ∨ Event.polish ∈ s.events ∨ true ∈ s.origins
  first : s.polished = true → s.timer = true

theorem advance_shape (q : Queue.St) (i : Nat) (b : List Queue.Frame) :
    ((Queue.advance q i b).stack.length = b.length + 1 ∨
     ((Queue.advance q i b).stack = b ∧
      ((Queue.advance q i b).log.getLast? = some .ret ∨ Ev.exc ∈ (Queue.advance q i b).log))) ∧
    (∀ e ∈ q.log, e ∈ (Queue.advance q i b).log) := by
  unfold Queue.advance
  split
  · exact ⟨.inl rfl, fun e he => by simp [he]⟩
  · exact ⟨.inr ⟨rfl, .inr (by simp [Queue.caught])⟩, fun e he => by simp [Queue.caught, he]⟩
  · exact ⟨.inr ⟨rfl, .inl (by simp)⟩, fun e he => by simp [he]⟩

/-- After code of the loop ran inside the innermost call of `step()`. -/
theorem settle_chain (s : St) (q : Queue.St) (b : Bool) (os : List Bool) (below : List Queue.Frame)
    (hlen : os.length = below.length)
    (hq : q.stack.length = below.length + 1 ∨
      (q.stack = below ∧ (q.log.getLast? = some .ret ∨ Ev.exc ∈ q.log)))
    (hlog : ∀ e ∈ s.q.log, e ∈ q.log)
    (hc : s.timer = true → Threw s ∨ s.scheduled = true ∨ Event.polish ∈ s.events ∨ true ∈ b :: os)
    (hf : s.polished = true → s.timer = true) : Chain (settle s q (b :: os)) := by
  unfold settle
  simp only
  rcases hq with hq | ⟨hq, hr⟩
  · rw [if_pos (by rw [hq]; simp [hlen])]
    refine ⟨by simp [hq, hlen], fun ht => ?_, hf⟩
    rcases hc ht with h | h
    · exact .inl (hlog _ h)
    · exact .inr h
  · rw [if_neg (by rw [hq]; simp [hlen])]
    by_cases hb : (b :: os).head? = some true ∧ q.log.getLast? = some .ret
    · rw [if_pos hb]
      exact ⟨by simp [polishAgain, hq, hlen], fun _ => .inr (.inr (.inl (by simp [polishAgain]))), hf⟩
    · rw [if_neg hb]
      refine ⟨by simp [hq, hlen], fun ht => ?_, hf⟩
      rcases hr with hr | hr
      · have hb' : b = false := by
          cases b
          · rfl
          · exact absurd ⟨rfl, hr⟩ hb
        rcases hc ht with h | h | h | h
        · exact .inl (hlog _ h)
        · exact .inr (.inl h)
        · exact .inr (.inr (.inl h))
        · rw [hb'] at h
          exact .inr (.inr (.inr (by simpa using h)))
      · exact .inl hr

theorem post_log (q : Queue.St) : ((Queue.step q .post).getD q).stack = q.stack ∧
    ∀ e ∈ q.log, e ∈ ((Queue.step q .post).getD q).log :=
  ⟨rfl, fun e he => by simp [Queue.step, he]⟩

theorem step_chain {s s' : St} (op : Op) (h : Chain s) (he : step s op = some s') : Chain s' := by
  cases op with
  | post t x =>
    simp only [step] at he
    split at he <;> cases he
    · exact ⟨h.depth, fun _ => .inr (.inl rfl), h.first⟩
    · refine ⟨h.depth, fun ht => ?_, h.first⟩
      rcases h.chain ht with hh | hh | hh | hh
      · exact .inl hh
      · exact .inr (.inl hh)
      · exact .inr (.inr (.inl (by simp [hh])))
      · exact .inr (.inr (.inr hh))
  | dispatch =>
    simp only [step] at he
    split at he <;> cases he
    · exact ⟨h.depth, fun _ => .inr (.inl rfl), h.first⟩
    · exact ⟨h.depth, fun _ => .inr (.inl rfl), h.first⟩
  | frame =>
    simp only [step] at he
    split at he
    · split at he
      · cases he
        exact ⟨h.depth, fun _ => .inr (.inr (.inl (by simp [polishAgain]))), h.first⟩
      · simp only [callStep, Option.map_eq_some_iff] at he
        obtain ⟨q, hq, rfl⟩ := he
        simp only [Queue.step] at hq
        cases hq
        have ha := advance_shape { s.q with log := s.q.log ++ [.enter] } 0 s.q.stack
        exact settle_chain _ _ true s.origins s.q.stack h.depth ha.1
          (fun e he => ha.2 e (by simp [show e ∈ s.q.log from he])) (fun _ => .inr (.inr (.inr (by simp))))
          (fun _ => rfl)
    · cases he
  | paint =>
    simp only [step] at he
    cases he
    exact ⟨h.depth, h.chain, nofun⟩
  | tick =>
    simp only [step] at he
    split at he
    · simp only [callStep, Option.map_eq_some_iff] at he
      obtain ⟨q, hq, rfl⟩ := he
      simp only [Queue.step] at hq
      cases hq
      have ha := advance_shape { s.q with log := s.q.log ++ [.enter] } 0 s.q.stack
      refine settle_chain _ _ false s.origins s.q.stack h.depth ha.1
        (fun e he => ha.2 e (by simp [he])) (fun ht => ?_) h.first
      rcases h.chain ht with hh | hh | hh | hh
      · exact .inl hh
      · exact .inr (.inl hh)
      · exact .inr (.inr (.inl hh))
      · exact .inr (.inr (.inr (by simp [hh])))
    · cases he
  | ret =>
    simp only [step, Option.map_eq_some_iff] at he
    obtain ⟨q, hq, rfl⟩ := he
    simp only [Queue.step] at hq
    split at hq <;> cases hq
    rename_i f below hst
    have hd := h.depth
    rw [hst] at hd
    cases hos : s.origins with
    | nil => rw [hos] at hd; cases hd
    | cons b os =>
      have ha := advance_shape { s.q with log := s.q.log ++ [.done f.task] } f.i below
      refine settle_chain _ _ b os below (by simpa [hos] using hd) ha.1
        (fun e he => ha.2 e (by simp [he])) (fun ht => ?_) h.first
      rw [← hos]; exact h.chain ht
  | throw =>
    simp only [step, Option.map_eq_some_iff] at he
    obtain ⟨q, hq, rfl⟩ := he
    simp only [Queue.step] at hq
    split at hq <;> cases hq
    rename_i f below hst
    have hd := h.depth
    rw [hst] at hd
    cases hos : s.origins with
    | nil => rw [hos] at hd; cases hd
    | cons b os =>
      refine settle_chain _ _ b os below (by simpa [hos] using hd)
        (.inr ⟨rfl, .inr (by simp [Queue.caught])⟩)
        (fun e he => by simp [Queue.caught, he]) (fun ht => ?_) h.first
      rw [← hos]; exact h.chain ht

theorem reach_chain {o : Nat} {s : St} (h : Reach o s) : Chain s := by
  induction h with
  | init => exact ⟨rfl, nofun, nofun⟩
  | step op _ he ih => exact step_chain op ih he

end Verif.Loop.Qml
