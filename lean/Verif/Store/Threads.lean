import Verif.Store.Props2

/-!
Stores and threads.  In the model of stores each task of the event loop is one step.  Here tasks have
several steps, and in between other threads, and user code that is called in the task (the reducer, watchers),
may dispatch actions and use futures.  Several tasks may be running at once, as with a Boost.Asio executor
with several threads, `event_loop/boost_asio.hpp:27-35`.
-/

namespace Verif.Store

variable {A Mo : Type}

/-! ### Model -/

/-- Where a thread of the event loop is in a task of the store, or in `commit`. -/
inductive Job (A Mo : Type) where
  /-- `store.hpp:160-163`: the reducer has been called with a reference to the current model -/
  | reducing (d : Nat) (a : A) (i : Nat)
  /-- `store.hpp:164-195` has posted the next task (or called the promise); `push_down`, `:160`, is next -/
  | pushing (v : Mo)
  /-- `store.hpp:168-169`, `:188`, `commit.hpp`: before `send_down`.  `none` is `commit`. -/
  | sending (it : Option (Item A))
  /-- before `notify`, `store.hpp:170`, `:189` -/
  | notifying (it : Option (Item A))
  /-- in `notify`; were there watchers to call? -/
  | watching (it : Option (Item A)) (called : Bool)

/-- What the threads of the event loop share, `st`, where each of them is, and how many other threads are in
`get()` of the store.  (The queue and the promises have locks of their own.) -/
structure Par (A Mo : Type) where
  st : St A Mo
  jobs : List (Job A Mo)
  peeks : Nat

/-- Steps. -/
inductive POp (A : Type) where
  /-- a thread of the event loop takes the next task -/
  | begin
  /-- one calls `commit` on a transactional store -/
  | commit
  /-- the `n`-th of the threads that are in a task goes on -/
  | go (n : Nat)
  /-- … a watcher that it has called throws -/
  | raise (n : Nat)
  /-- any thread, or user code in any task, dispatches, or uses futures, or returns from an effect -/
  | user (op : SOp A)
  /-- another thread begins to read the store with `get()` … -/
  | peek
  /-- … and ends -/
  | peeked

/-- What is not a task of the store. -/
def SOp.isUser : SOp A → Bool
  | .loop => false
  | .loopRaise => false
  | .commit => false
  | _ => true

/-- Does it call `send_down` and `notify`?  `store.hpp:168`, `:186`. -/
def sends (c : Cfg A Mo) : Option (Item A) → Bool
  | none => true
  | some _ => !c.trans

/-- What a task does after `notify`: `store.hpp:172-182`, `:190-191`. -/
def St.after (c : Cfg A Mo) (st : St A Mo) : Option (Item A) → Option (St A Mo)
  | some (.effect d e i) => some { (st.say (.ready d)).say (.effStart d st.nx e) with
      ev := ⟨st.nx, 0, .call e, [], .store d i⟩ :: st.ev
      nx := st.nx + 1 }
  | some (.publish d i) => (st.say (.ready d)).complete c i
  | none => some st
  | _ => none

/-- The rest of a task whose reducer returns, `store.hpp:163-195`. -/
def St.reduced (c : Cfg A Mo) (st : St A Mo) (d : Nat) (a : A) (i : Nat) : Option (St A Mo) :=
  let (m', e) := c.reducer st.cur a
  let s1 := if e.isEmpty then
      (if c.trans then st.complete c i else some (st.post (.publish d i)))
    else some (st.post (.effect d e i))
  s1.map fun s1 => s1.say (.reduced d st.cur a m' e)

/-- One thread goes on with its task: the state and where it is then, if it is not done. -/
def Job.go (c : Cfg A Mo) (st : St A Mo) : Job A Mo → Option (St A Mo × Option (Job A Mo))
  | .reducing d a i =>
    if c.throws st.cur a then some (st.say (.reduceThrew d st.cur a), none)
    else (st.reduced c d a i).map fun s => (s, some (.pushing (c.reducer st.cur a).1))
  | .pushing v => some (st.pushDown c v, none)
  | .sending it => some (if sends c it then st.sendDown else st, some (.notifying it))
  | .notifying it =>
    some (if sends c it then st.notify else st, some (.watching it (sends c it && st.ntf && !st.dirty)))
  | .watching it _ => (st.after c it).map fun s => (s, none)

/-- A watcher that it has called throws. -/
def Job.raise (st : St A Mo) : Job A Mo → Option (St A Mo)
  | .watching (some (.effect d e _)) true => some (st.say (.lost d (some e)))
  | .watching (some (.publish d _)) true => some (st.say (.lost d none))
  | _ => none

/-- Take the next task; one that a promise has posted is one step, as in the model of stores. -/
def Par.begin (p : Par A Mo) : Option (Par A Mo) :=
  match p.st.queue with
  | [] => none
  | .reduce d a i :: q => some { p with st := { p.st with queue := q }, jobs := p.jobs ++ [.reducing d a i] }
  | .tok :: q => ({ p.st with queue := q }.runTask 0).map fun s => { p with st := s }
  | it :: q => some { p with st := { p.st with queue := q }, jobs := p.jobs ++ [.sending (some it)] }

/-- Steps when the event loop has `w` threads.  A loop with one thread, and any executor wrapped in a
`boost::asio::strand`, has `w = 1`. -/
def Par.step (c : Cfg A Mo) (w : Nat) (p : Par A Mo) : POp A → Option (Par A Mo)
  | .begin => if p.jobs.length < w then p.begin else none
  | .commit =>
    if p.jobs.length < w ∧ c.trans = true then some { p with jobs := p.jobs ++ [.sending none] } else none
  | .go n =>
    match p.jobs[n]? with
    | none => none
    | some j => (j.go c p.st).map fun (s, o) =>
      { p with st := s, jobs := match o with | some j' => p.jobs.set n j' | none => p.jobs.eraseIdx n }
  | .raise n =>
    match p.jobs[n]? with
    | none => none
    | some j => (j.raise p.st).map fun s => { p with st := s, jobs := p.jobs.eraseIdx n }
  | .user op => if op.isUser then (Store.step c p.st op).map fun s => { p with st := s } else none
  | .peek => some { p with peeks := p.peeks + 1 }
  | .peeked => if p.peeks = 0 then none else some { p with peeks := p.peeks - 1 }

/-- The state at the beginning. -/
def Par.start (c : Cfg A Mo) : Par A Mo := ⟨Store.start c, [], 0⟩

/-- Several steps, one after the other. -/
def Par.exec (c : Cfg A Mo) (w : Nat) (p : Par A Mo) : List (POp A) → Option (Par A Mo)
  | [] => some p
  | op :: ops => (Par.step c w p op).bind fun p' => Par.exec c w p' ops

/-- The states that can be reached. -/
inductive Par.Reach (c : Cfg A Mo) (w : Nat) : Par A Mo → Prop where
  | start : Reach c w (Par.start c)
  | step {p p'} (op : POp A) : Reach c w p → Par.step c w p op = some p' → Reach c w p'

/-! ### Vocabulary -/

/-- Does the next step read the members of the store: the models and the marks? -/
def Job.reads : Job A Mo → Bool
  | .reducing _ _ _ => true
  | .pushing _ => true
  | .sending _ => true
  | .notifying _ => true
  | .watching _ _ => true

/-- Does it write them? -/
def Job.writes (c : Cfg A Mo) : Job A Mo → Bool
  | .reducing _ _ _ => false
  | .pushing _ => true
  | .sending it => sends c it
  | .notifying it => sends c it
  | .watching _ _ => false

/-- A data race: two threads are about to access the members of the store, and one of them is to write. -/
def Par.racy (c : Cfg A Mo) (p : Par A Mo) : Prop :=
  (∃ (i j : Nat) (x y : Job A Mo), i ≠ j ∧ p.jobs[i]? = some x ∧ p.jobs[j]? = some y ∧ x.writes c = true ∧ y.reads = true) ∨
  (∃ x ∈ p.jobs, x.writes c = true ∧ 0 < p.peeks)

/-- The events of tasks: calls of the reducer and of watchers, and the beginning of effects. -/
def SEv.isTask : SEv A Mo → Bool
  | .reduced _ _ _ _ _ => true
  | .reduceThrew _ _ _ => true
  | .shown _ => true
  | .ready _ => true
  | .effStart _ _ _ => true
  | .lost _ _ => true
  | _ => false

/-- The same events, up to the order between those of tasks and others (dispatches, and what user code does in
effects and with futures). -/
def SameLog (l l' : List (SEv A Mo)) : Prop :=
  l.filter SEv.isTask = l'.filter SEv.isTask ∧
  l.filter (fun e => !e.isTask) = l'.filter (fun e => !e.isTask)

/-- The same states, up to the order of events. -/
structure Same' (s t : St A Mo) : Prop where
  fu : s.fu = t.fu
  cur : s.cur = t.cur
  last : s.last = t.last
  dirty : s.dirty = t.dirty
  ntf : s.ntf = t.ntf
  queue : s.queue = t.queue
  ev : s.ev = t.ev
  sent : s.sent = t.sent
  tag : s.tag = t.tag
  nx : s.nx = t.nx
  log : SameLog s.log t.log

end Verif.Store
