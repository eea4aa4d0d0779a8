import Verif.Future.Model

/-!
Promises and futures used by several threads, access by access.

`Future/Model.lean` takes the calls of promises and of `then` for atomic.  Here each of them is a sequence of
single reads and writes of the shared state, of locking and unlocking, and of posting, and the steps of any
number of calls are interleaved in any way.

Simplifications: what belongs to one thread only (the objects that hold a pointer to the state, the closures,
the reference counts) is not here.  The new state that `then` makes, `future.hpp:204`, is not known to anyone else before the
closure is stored or posted, so it is made in that step.  Posting is one step: loops that queue have locks of
their own (`safe_queue.hpp:36-37` and its like).
-/

namespace Verif.Future

/-! ### Calls as a whole -/

/-- What a thread does with promise states. -/
inductive Call where
  /-- `promise::with_loop`, `future.hpp:127-131` -/
  | make (l : Nat)
  /-- `promise::operator()`, `future.hpp:156-180` -/
  | fulfil (s : Nat)
  /-- `future::then`, `future.hpp:190-227` -/
  | attach (s : Nat) (fn : Fn)
  /-- loop `l` takes its next task -/
  | take (l : Nat)
deriving DecidableEq

/-- What it gets. -/
inductive Res where
  | nothing
  /-- the future for a new state -/
  | state (s : Nat)
  | task (t : Task)
deriving DecidableEq

/-- A new state, `future.hpp:139`. -/
def M.make (m : M) (l : Nat) : M :=
  { m with size := m.size + 1, cell := upd m.cell m.size ⟨l, false, none, none⟩ }

/-- The call without interruption: the specification.  (`M.fulfil` and `M.attach` are those of
`Future/Model.lean`.) -/
def atom (m : M) : Call → Option (M × Res)
  | .make l => some (m.make l, .state m.size)
  | .fulfil s => if s < m.size then some (m.fulfil s, .nothing) else none
  | .attach s fn => if s < m.size then some (m.attach s fn, .state m.size) else none
  | .take l =>
    match m.queue l with
    | [] => none
    | t :: q => some ({ m with queue := upd m.queue l q, log := m.log ++ [.start t.c] }, .task t)

/-! ### Calls access by access -/

/-- What a thread is about to do. -/
inductive Pc where
  /-- `assert(state_->post)`, `future.hpp:202`, in debug builds -/
  | checkPost
  /-- `assert(!state_->callback)`, `future.hpp:203`, in debug builds -/
  | checkCb
  /-- `promise::with_post(state_->post)`, `future.hpp:204` -/
  | copy
  /-- `future.hpp:164`, `:215` -/
  | lock
  /-- read `done`, `future.hpp:165`, `:216` -/
  | done
  /-- read `callback`, `future.hpp:165` -/
  | cb
  /-- move `callback` and post it, `future.hpp:172-174` -/
  | post (t : Task)
  /-- `done = true`, `future.hpp:176`.  Ghost: has a callback been posted? -/
  | set (posted : Bool)
  /-- `callback = nullptr`, `future.hpp:177` -/
  | null
  /-- post the closure or store it, as `done` was, `future.hpp:219`, `:221` -/
  | put (done : Bool)
  /-- `future.hpp:178`, `:223`.  Ghost: what will be returned. -/
  | unlock (r : Res)
deriving DecidableEq

/-- A call that has begun: its number, and where it is. -/
structure Job where
  id : Nat
  call : Call
  pc : Pc
deriving DecidableEq

/-- The state that a call works with. -/
def Call.cell : Call → Option Nat
  | .fulfil s => some s
  | .attach s _ => some s
  | _ => none

/-- Does it hold the lock? -/
def Pc.inside : Pc → Bool
  | .checkPost => false
  | .checkCb => false
  | .copy => false
  | .lock => false
  | _ => true

/-- History of calls. -/
inductive HEv where
  | begin (id : Nat) (c : Call)
  | finish (id : Nat) (c : Call) (r : Res)
deriving DecidableEq

/-- The state: the memory, and the calls of threads that are under way. -/
structure W where
  /-- what is in memory -/
  m : M
  jobs : List Job
  hist : List HEv
  next : Nat

/-- Is the mutex of state `s` locked? -/
def W.locked (w : W) (s : Nat) : Prop := ∃ j ∈ w.jobs, j.call.cell = some s ∧ j.pc.inside = true

instance (w : W) (s : Nat) : Decidable (w.locked s) := by unfold W.locked; infer_instance

/-- Write `done`. -/
def M.setDone (m : M) (s : Nat) : M := { m with cell := upd m.cell s { m.cell s with done := true } }

/-- Write `callback`. -/
def M.setCb (m : M) (s : Nat) (t : Option Task) : M :=
  { m with cell := upd m.cell s { m.cell s with cb := t } }

/-- The new state and the closure of `then`, `future.hpp:204-213`. -/
def M.alloc (m : M) (s : Nat) (fn : Fn) : M := { m with
  size := m.size + 1
  nextC := m.nextC + 1
  cell := upd m.cell m.size ⟨(m.cell s).loop, false, none, some m.nextC⟩
  log := m.log ++ [.attach m.nextC s m.size fn] }

/-- `future.hpp:216-222`, where `done` has been read.  As in `Future/Model.lean` a second callback for a state
is not modelled further. -/
def M.put (m : M) (s : Nat) (fn : Fn) (done : Bool) : M :=
  let t : Task := ⟨m.nextC, m.size, fn⟩
  if done then (m.alloc s fn).post (m.cell s).loop t
  else if (m.cell s).cb.isSome then { m.alloc s fn with ub := true }
  else (m.alloc s fn).setCb s (some t)

/-- The next access of a call: the memory, and where it is then (`none`: it has returned).  Moving a
`std::function` leaves it in an unspecified state: here, as it was. -/
def Job.go (w : W) (j : Job) : Option (M × Option Pc) :=
  match j.call, j.pc with
  | .attach _ _, .checkPost => some (w.m, some .checkCb)
  | .attach s _, .checkCb =>
    some (if (w.m.cell s).cb.isSome then { w.m with ub := true } else w.m, some .copy)
  | .attach _ _, .copy => some (w.m, some .lock)
  | .attach s _, .lock => if w.locked s then none else some (w.m, some .done)
  | .attach s _, .done => some (w.m, some (.put (w.m.cell s).done))
  | .attach s fn, .put b => some (w.m.put s fn b, some (.unlock (.state w.m.size)))
  | .attach _ _, .unlock _ => some (w.m, none)
  | .fulfil s, .lock => if w.locked s then none else some (w.m, some .done)
  | .fulfil s, .done => some (w.m, some (if (w.m.cell s).done then .set false else .cb))
  | .fulfil s, .cb =>
    some (w.m, some (match (w.m.cell s).cb with | some t => .post t | none => .set false))
  | .fulfil s, .post t => some (w.m.post (w.m.cell s).loop t, some (.set true))
  | .fulfil s, .set _ => some (w.m.setDone s, some .null)
  | .fulfil s, .null => some (w.m.setCb s none, some (.unlock .nothing))
  | .fulfil _, .unlock _ => some (w.m, none)
  | _, _ => none

/-- Ghost: what a call returns. -/
def Pc.res : Pc → Res
  | .unlock r => r
  | _ => .nothing

/-- What happens. -/
inductive WOp where
  /-- a thread begins a call -/
  | begin (c : Call)
  /-- the `k`-th of the calls goes on -/
  | go (k : Nat)

/-- Where a call begins.  `dbg`: assertions are compiled. -/
def Call.first (dbg : Bool) : Call → Pc
  | .attach _ _ => if dbg then .checkPost else .copy
  | _ => .lock

/-- Making a state and taking a task are one step. -/
def W.begin (dbg : Bool) (w : W) (c : Call) : Option W :=
  match c with
  | .make _ | .take _ => (atom w.m c).map fun (m, r) =>
    { w with m := m, hist := w.hist ++ [.begin w.next c, .finish w.next c r], next := w.next + 1 }
  | .fulfil s | .attach s _ =>
    if s < w.m.size then
      some { w with
        jobs := w.jobs ++ [⟨w.next, c, c.first dbg⟩]
        hist := w.hist ++ [.begin w.next c]
        next := w.next + 1 }
    else none

/-- One access of one thread.  After a failed assertion nothing is said. -/
def W.step (dbg : Bool) (w : W) (op : WOp) : Option W :=
  if w.m.ub then none
  else
    match op with
    | .begin c => w.begin dbg c
    | .go k =>
      match w.jobs[k]? with
      | none => none
      | some j => (j.go w).map fun (m, o) =>
        match o with
        | some pc => { w with m := m, jobs := w.jobs.set k { j with pc := pc } }
        | none => { w with m := m, jobs := w.jobs.eraseIdx k, hist := w.hist ++ [.finish j.id j.call j.pc.res] }

/-- The state at the beginning. -/
def W.start : W := ⟨Future.start, [], [], 0⟩

/-- Several steps, one after the other. -/
def W.exec (dbg : Bool) (w : W) : List WOp → Option W
  | [] => some w
  | op :: ops => (w.step dbg op).bind fun w' => w'.exec dbg ops

/-- The states that can be reached. -/
inductive W.Reach (dbg : Bool) : W → Prop where
  | start : Reach dbg W.start
  | step {w w'} (op : WOp) : Reach dbg w → w.step dbg op = some w' → Reach dbg w'

/-! ### Vocabulary -/

/-- The members of a state that are not atomic, `future.hpp:31-33`. -/
inductive Field where
  | post | callback | done
deriving DecidableEq

/-- Which members the next access reads. -/
def Pc.reads : Pc → List Field
  | .checkPost => [.post]
  | .checkCb => [.callback]
  | .copy => [.post]
  | .done => [.done]
  | .cb => [.callback]
  | .post _ => [.post, .callback]
  | .put true => [.post]
  | _ => []

/-- Which it writes.  Moving from `callback` counts. -/
def Pc.writes : Pc → List Field
  | .post _ => [.callback]
  | .set _ => [.done]
  | .null => [.callback]
  | .put false => [.callback]
  | _ => []

/-- A data race: two calls are about to access the same member of the same state, and one of them is to write. -/
def W.racy (w : W) : Prop :=
  ∃ (i j : Nat) (x y : Job) (s : Nat) (f : Field), i ≠ j ∧ w.jobs[i]? = some x ∧ w.jobs[j]? = some y ∧
    x.call.cell = some s ∧ y.call.cell = some s ∧
    f ∈ x.pc.writes ∧ (f ∈ y.pc.writes ∨ f ∈ y.pc.reads)

/-- A call with its number and its result. -/
abbrev Done := Nat × Call × Res

/-- `l` is a sequence of calls that follow each other without interruption, with these results. -/
inductive Serial : M → List Done → M → Prop where
  | nil (m : M) : Serial m [] m
  | snoc {m m' m'' : M} {l : List Done} {i : Nat} {c : Call} {r : Res} :
      Serial m l m' → atom m' c = some (m'', r) → Serial m (l ++ [(i, c, r)]) m''

/-- `x` stands before `y` in `l`. -/
def Before {α : Type} (l : List α) (x y : α) : Prop := ∃ l1 l2 l3, l = l1 ++ x :: l2 ++ y :: l3

end Verif.Future
