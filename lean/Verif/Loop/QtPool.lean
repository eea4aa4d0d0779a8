/-!
The Qt loop, `event_loop/qt.hpp`: tasks go to an object of the main thread, asynchronous functions to a thread pool, and
the destructor of the loop waits for the pool.

What is assumed of Qt: functions queued with `QMetaObject::invokeMethod` are called by the event loop of the thread that
the object lives in, here the main thread, in the order in which they were queued, and one at a time; a `QThreadPool` runs
at most `maxThreadCount()` functions at once and begins those that wait in the order in which they came; `waitForDone()`
blocks the thread that calls it until the pool has nothing to run and nothing waiting.

Every `with_qt_event_loop` has this destructor (`qt.hpp:32`), also the temporary that is passed to `make_store` and the
parameters that it is copied to (`store.hpp:71-89`, `store.hpp:130-141`), so that `destroy` stands for destroying a store
as well as for making one.

Simplifications: loops are destroyed in the main thread only; tasks and functions return, unless a function waits for a
task.  Left out: nested event loops, `finish()`, and `pause()` and `resume()`, which throw.
-/

namespace Verif.QtPool

/-- Who calls `post` or `async`. -/
inductive Who where
  /-- the main thread, in a task or not -/
  | main
  /-- a thread that has nothing to do with the loop -/
  | other
  /-- asynchronous function `t` -/
  | fn (t : Nat)
deriving DecidableEq

/-- What can be observed. -/
inductive Ev where
  | posted (k : Nat)
  | began (k : Nat)
  | ended (k : Nat)
  | async (t : Nat)
  | started (t : Nat)
  | finished (t : Nat)
  /-- the destructor is called -/
  | waits
  /-- it returns -/
  | destroyed
deriving DecidableEq

/-- The loop, `event_loop/qt.hpp:27-52`, and what is assumed of Qt. -/
structure St where
  /-- `QThreadPool::maxThreadCount()` -/
  max : Nat
  queue : List Nat
  /-- the task that the main thread is running -/
  cur : Option Nat
  /-- the main thread is in the destructor -/
  waiting : Bool
  /-- functions that the pool has not begun -/
  ready : List Nat
  /-- functions that it is running, and the task that they wait for -/
  active : List (Nat × Option Nat)
  next : Nat
  log : List Ev
deriving DecidableEq

/-- The state at the beginning. -/
def start (max : Nat) : St := ⟨max, [], none, false, [], [], 0, []⟩

/-- Ghost: record an event. -/
def St.say (st : St) (e : Ev) : St := { st with log := st.log ++ [e] }

/-- Whether `w` can call something. -/
def St.acts (st : St) : Who → Bool
  | .main => !st.waiting
  | .other => true
  | .fn t => decide ((t, none) ∈ st.active)

/-- What happens. -/
inductive Op where
  | post (w : Who)
  | async (w : Who)
  /-- the main thread begins with the next task -/
  | take
  /-- the task returns -/
  | ret
  /-- the main thread destroys a loop -/
  | destroy
  /-- `waitForDone()` returns -/
  | destroyed
  /-- the pool begins with the next function -/
  | begin
  /-- function `t` waits until task `k` has run -/
  | block (t k : Nat)
  /-- and goes on -/
  | wake (t k : Nat)
  /-- function `t` returns -/
  | over (t : Nat)
deriving DecidableEq

/-- One step. -/
def step (st : St) : Op → Option St
  -- `event_loop/qt.hpp:40-45`
  | .post w => if st.acts w then
      some { st.say (.posted st.next) with queue := st.queue ++ [st.next], next := st.next + 1 }
    else none
  -- `event_loop/qt.hpp:34-38`
  | .async w => if st.acts w then
      some { st.say (.async st.next) with ready := st.ready ++ [st.next], next := st.next + 1 }
    else none
  | .take =>
    if st.waiting = false ∧ st.cur = none then
      match st.queue with
      | [] => none
      | k :: q => some { st.say (.began k) with queue := q, cur := some k }
    else none
  | .ret =>
    if st.waiting = false then
      match st.cur with
      | some k => some { st.say (.ended k) with cur := none }
      | none => none
    else none
  -- `event_loop/qt.hpp:32`
  | .destroy => if st.waiting = false then some { st.say .waits with waiting := true } else none
  | .destroyed =>
    if st.waiting = true ∧ st.ready = [] ∧ st.active = [] then some { st.say .destroyed with waiting := false } else none
  | .begin =>
    if st.active.length < st.max then
      match st.ready with
      | [] => none
      | t :: q => some { st.say (.started t) with ready := q, active := st.active ++ [(t, none)] }
    else none
  | .block t k =>
    if (t, none) ∈ st.active then some { st with active := st.active.erase (t, none) ++ [(t, some k)] } else none
  | .wake t k =>
    if (t, some k) ∈ st.active ∧ .ended k ∈ st.log then
      some { st with active := st.active.erase (t, some k) ++ [(t, none)] }
    else none
  | .over t =>
    if (t, none) ∈ st.active then some { st.say (.finished t) with active := st.active.erase (t, none) } else none

/-- The states that can be reached. -/
inductive Reach (max : Nat) : St → Prop where
  | start : Reach max (start max)
  | step {st st' : St} (op : Op) : Reach max st → step st op = some st' → Reach max st'

/-- An execution. -/
inductive Run : St → List Op → St → Prop where
  | nil (st : St) : Run st [] st
  | cons {st st1 st2 : St} {op : Op} {ops : List Op} :
      step st op = some st1 → Run st1 ops st2 → Run st (op :: ops) st2

/-! ## What can be seen in the log -/

/-- The tasks that were posted, in order. -/
def posted (l : List Ev) : List Nat := l.filterMap fun | .posted k => some k | _ => none
/-- The tasks that were begun, in order. -/
def began (l : List Ev) : List Nat := l.filterMap fun | .began k => some k | _ => none
/-- The functions given to `async`, in order. -/
def asyncs (l : List Ev) : List Nat := l.filterMap fun | .async t => some t | _ => none
/-- The functions that were begun, in order. -/
def started (l : List Ev) : List Nat := l.filterMap fun | .started t => some t | _ => none
/-- The functions that have returned, in order. -/
def finished (l : List Ev) : List Nat := l.filterMap fun | .finished t => some t | _ => none

end Verif.QtPool
