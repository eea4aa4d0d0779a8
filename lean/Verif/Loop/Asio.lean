/-!
The loop on Boost.Asio: `event_loop/boost_asio.hpp`.

The executor is one that serialises tasks: that of an `io_context` that a single thread runs, or a strand of one that
several threads run, as the documentation at `event_loop/boost_asio.hpp:29-34` demands.  What is assumed of Asio: posted
tasks begin in the order in which they were posted, one at a time, in threads that are in `run()`; posting a task
and making a work guard add to the outstanding work, the end of a task and the destruction of a guard take from it;
`run()` returns when there is no outstanding work, or after `stop()`, or by an exception thrown by a task.

Posted tasks and asynchronous functions are numbered as they come.  Tasks, asynchronous functions, and
threads outside may post, call `async` and `finish` at any time.

Not modelled: `pause()` and `resume()`, which do nothing, `event_loop/boost_asio.hpp:67-68`; asynchronous functions that
throw, which end the program.
-/

namespace Verif.Asio

/-- The thread of an asynchronous function: before, in and after the function. -/
inductive Phase where
  | ready
  | busy
  | over
deriving DecidableEq

/-- Who acts: some other thread, the running task, or an asynchronous function. -/
inductive Who where
  | outside
  | task
  | fn (t : Nat)
deriving DecidableEq

/-- Observable events. -/
inductive Ev where
  | posted (t : Nat)
  /-- in a thread that is in `run()` -/
  | began (i t : Nat)
  | ended (t : Nat)
  | threw (t : Nat)
  /-- `async` was called -/
  | async (t : Nat)
  | started (t : Nat)
  | finished (t : Nat)
  /-- `run()` of thread `i` returns -/
  | left (i : Nat)
deriving DecidableEq

/-- The loop, `event_loop/boost_asio.hpp:36-73`, and what is assumed of Asio. -/
structure St where
  /-- the function given to the loop stops the `io_context`; the default one, `event_loop/boost_asio.hpp:40`, does
  nothing -/
  stops : Bool
  queue : List Nat
  /-- outstanding work -/
  work : Nat
  /-- a thread and the task that it is running -/
  cur : Option (Nat × Nat)
  /-- threads that are in `run()` -/
  runs : List Nat
  /-- threads of asynchronous functions -/
  fns : List (Nat × Phase)
  next : Nat
  stopped : Bool
  log : List Ev

/-- The state at the beginning. -/
def start (stops : Bool) : St := ⟨stops, [], 0, none, [], [], 0, false, []⟩

/-- Ghost: record an event. -/
def St.say (st : St) (e : Ev) : St := { st with log := st.log ++ [e] }

/-- Whether `w` exists and is running. -/
def St.acts (st : St) : Who → Bool
  | .outside => true
  | .task => st.cur.isSome
  | .fn t => decide ((t, Phase.busy) ∈ st.fns)

/-- The thread of function `t` gets on. -/
def setPhase (t : Nat) (p : Phase) : List (Nat × Phase) → List (Nat × Phase)
  | [] => []
  | x :: l => if x.1 = t then (t, p) :: l else x :: setPhase t p l

/-- What happens. -/
inductive Op where
  | post (w : Who)
  | async (w : Who)
  | finish (w : Who)
  /-- thread `i` calls `run()` -/
  | run (i : Nat)
  /-- thread `i` begins with the next task -/
  | take (i : Nat)
  /-- the task returns -/
  | ret
  /-- the task throws -/
  | throw
  /-- `run()` of thread `i` returns -/
  | leave (i : Nat)
  /-- the thread of an asynchronous function calls it -/
  | begin (t : Nat)
  /-- the asynchronous function returns -/
  | over (t : Nat)
  /-- the function object of the thread is destroyed -/
  | release (t : Nat)
  /-- `io_context::restart()` -/
  | restart
deriving DecidableEq

/-- One step. -/
def step (st : St) : Op → Option St
  -- `event_loop/boost_asio.hpp:61-65`
  | .post w => if st.acts w then
      some { st.say (.posted st.next) with queue := st.queue ++ [st.next], work := st.work + 1, next := st.next + 1 }
    else none
  -- `event_loop/boost_asio.hpp:51-59`: the guard is made before the thread
  | .async w => if st.acts w then
      some { st.say (.async st.next) with
        fns := st.fns ++ [(st.next, .ready)], work := st.work + 1, next := st.next + 1 }
    else none
  -- `event_loop/boost_asio.hpp:70`
  | .finish w => if st.acts w then some { st with stopped := st.stopped || st.stops } else none
  | .run i => if i ∈ st.runs then none else some { st with runs := st.runs ++ [i] }
  | .take i =>
    if i ∈ st.runs ∧ st.cur = none ∧ st.stopped = false then
      match st.queue with
      | [] => none
      | t :: q => some { st.say (.began i t) with queue := q, cur := some (i, t) }
    else none
  | .ret =>
    match st.cur with
    | some (_, t) => some { st.say (.ended t) with cur := none, work := st.work - 1 }
    | none => none
  | .throw =>
    match st.cur with
    | some (i, t) => some { st.say (.threw t) with cur := none, work := st.work - 1, runs := st.runs.erase i }
    | none => none
  | .leave i =>
    if i ∈ st.runs ∧ st.cur.all (·.1 ≠ i) ∧ (st.stopped = true ∨ st.work = 0) then
      some { st.say (.left i) with runs := st.runs.erase i }
    else none
  | .begin t => if (t, Phase.ready) ∈ st.fns then
      some { st.say (.started t) with fns := setPhase t .busy st.fns }
    else none
  | .over t => if (t, Phase.busy) ∈ st.fns then
      some { st.say (.finished t) with fns := setPhase t .over st.fns }
    else none
  -- the guard is destroyed with the function object
  | .release t => if (t, Phase.over) ∈ st.fns then
      some { st with fns := st.fns.erase (t, .over), work := st.work - 1 }
    else none
  | .restart => if st.runs = [] then some { st with stopped := false } else none

/-- The states that can be reached. -/
inductive Reach : St → Prop where
  | start (stops : Bool) : Reach (start stops)
  | step {st st' : St} (op : Op) : Reach st → step st op = some st' → Reach st'

/-- An execution. -/
inductive Run : St → List Op → St → Prop where
  | nil (st : St) : Run st [] st
  | cons {st st1 st2 : St} {op : Op} {ops : List Op} :
      step st op = some st1 → Run st1 ops st2 → Run st (op :: ops) st2

end Verif.Asio
