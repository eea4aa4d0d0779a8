/-
Model of `lager/future.hpp`: promises, futures and the callbacks that are attached to them.

The state of a promise is shared by a promise object, a future object and their copies, and protected by
a mutex (`future.hpp:28-38`): its accesses are atomic steps here.  User code, in any number of threads,
inside and outside of callbacks, is not modelled by a stack: at any time any user code may do any
operation with any object, any running callback may return, and any library code that is under way may
go on.  This allows more interleavings than real programs have; all properties that are proved for it
hold of theirs.

Loops are queues: a poster appends the function to the queue (`with_loop`, `:127-131`; `with_post`,
`:136-141` with any poster that behaves like this), and each is run once, in order.  Posters that run the
function at once are in `Future/Inline.lean`; posters that drop it are not modelled.
-/

namespace Verif.Future

/-- The function given to `then`. -/
inductive Fn where
  /-- user code that returns nothing -/
  | void
  /-- user code that returns a future -/
  | fut
  /-- a promise (with a valid state), as in `fn().then(std::move(p))`, `future.hpp:211` -/
  | prom (q : Nat)
  /-- the function of `also`, which returns the future that it holds, `future.hpp:92-93` -/
  | give (g : Option Nat)
deriving DecidableEq

/-- The closure that `then` makes, `future.hpp:205-213`: the promise with state `p` and the function.
`c` is a number for the closure (ghost). -/
structure Task where
  c : Nat
  p : Nat
  fn : Fn
deriving DecidableEq

/-- `promise_state`, `future.hpp:28-38`.  `loop` says which queue `post` appends to.  `src` is ghost:
the closure that holds the promise, for those made by `then`. -/
structure Cell where
  loop : Nat
  done : Bool
  cb : Option Task
  src : Option Nat
deriving DecidableEq

/-- Code that is running. -/
inductive Frame where
  /-- the function of a closure -/
  | run (t : Task)
  /-- a function that `then` on an empty future has called, `future.hpp:193-199`; does it return a
  future? -/
  | imm (c : Nat) (isF : Bool)
  /-- the closure after its function has returned, `future.hpp:207-212`; nothing or a future -/
  | ret (t : Task) (r : Option (Option Nat))
  /-- a closure whose function is a promise -/
  | satisfy (q : Nat) (t : Task)
deriving DecidableEq

/-- Observable events. -/
inductive Ev where
  /-- closure `c` with function `fn` is attached to the promise state `s`; `then` returns a future with
  the new state `p` -/
  | attach (c s p : Nat) (fn : Fn)
  /-- closure `c` is run by a loop -/
  | start (c : Nat)
  /-- the function of closure `c` has returned -/
  | finish (c : Nat) (r : Option (Option Nat))
  /-- the function `c` is called by `then` on an empty future -/
  | now (c : Nat)
  /-- the call of a promise object throws -/
  | threw (i : Nat)
deriving DecidableEq

/-- The memory: promise states, `future.hpp:28-38`; the objects that point to them; the queues of loops; library code that is under way. -/
structure M where
  size : Nat
  cell : Nat → Cell
  /-- the loops -/
  queue : Nat → List Task
  /-- promise and future objects: their pointer to the state -/
  proms : List (Option Nat)
  futs : List (Option Nat)
  active : List Frame
  nextC : Nat
  log : List Ev
  /-- a callback was attached to a future that has one, `assert(!state_->callback)`, `future.hpp:203` -/
  ub : Bool

/-- Assign to one element. -/
def upd {α : Type} (f : Nat → α) (i : Nat) (x : α) : Nat → α := fun j => if j = i then x else f j

/-- Ghost: record an event. -/
def M.say (m : M) (e : Ev) : M := { m with log := m.log ++ [e] }

/-- `post`. -/
def M.post (m : M) (l : Nat) (t : Task) : M :=
  { m with queue := upd m.queue l (m.queue l ++ [t]) }

/-- `promise::operator()` with a valid state, `future.hpp:160-178`. -/
def M.fulfil (m : M) (s : Nat) : M :=
  let x := m.cell s
  let m1 := match x.done, x.cb with
    | false, some t => m.post x.loop t
    | _, _ => m
  { m1 with cell := upd m.cell s { x with done := true, cb := none } }

/-- `future::then` with a valid state, `future.hpp:200-225`: the new state is number `m.size`, the
closure number `m.nextC`. -/
def M.attach (m : M) (s : Nat) (fn : Fn) : M :=
  let x := m.cell s
  let t : Task := ⟨m.nextC, m.size, fn⟩
  let m1 : M := { m with
    size := m.size + 1
    nextC := m.nextC + 1
    cell := upd m.cell m.size ⟨x.loop, false, none, some m.nextC⟩
    log := m.log ++ [.attach m.nextC s m.size fn] }
  if x.done then m1.post x.loop t
  else
    match x.cb with
    | some _ => { m1 with ub := true }
    | none => { m1 with cell := upd m1.cell s { x with cb := some t } }

/-- Library code in a closure goes on. -/
def M.lib (m : M) : Frame → Option M
  -- `p()`, `fn().then(std::move(p))`, `future.hpp:207-212`; `then` on an empty future calls `p`,
  -- `future.hpp:193-196`
  | .ret t none => some ((m.say (.finish t.c none)).fulfil t.p)
  | .ret t (some none) => some ((m.say (.finish t.c (some none))).fulfil t.p)
  | .ret t (some (some g)) => some ((m.say (.finish t.c (some (some g)))).attach g (.prom t.p))
  | .satisfy q t =>
    let m1 := m.fulfil q
    some { m1 with active := .ret t none :: m1.active }
  | _ => none

/-- A closure is run, `future.hpp:205-213`. -/
def Task.frame (t : Task) : Frame :=
  match t.fn with
  | .void => .run t
  | .fut => .run t
  | .prom q => .satisfy q t
  | .give g => .ret t (some g)

/-- What happens. -/
inductive Op where
  /-- `promise::with_loop`, `future.hpp:127-131` -/
  | newPair (l : Nat)
  /-- `promise::invalid`, `future.hpp:148-151` -/
  | invalid
  /-- copy an object -/
  | copyP (i : Nat)
  | copyF (i : Nat)
  /-- call a promise object -/
  | fulfil (i : Nat)
  /-- `then` with user code, which returns a future or not -/
  | «then» (i : Nat) (isF : Bool)
  /-- `then` with a promise object -/
  | thenP (i j : Nat)
  /-- `also`, `future.hpp:90-94` -/
  | also (i j : Nat)
  /-- loop `l` runs its next task -/
  | run (l : Nat)
  /-- running user code number `k` returns nothing -/
  | retV (k : Nat)
  /-- running user code number `k` returns the future object `i` -/
  | retF (k i : Nat)
  /-- running user code number `k` throws -/
  | raise (k : Nat)
  /-- library code number `k` goes on -/
  | lib (k : Nat)

/-- `std::move(*this).then(fn)` for an object with pointer `s`, `future.hpp:190-227`. -/
def M.thenF (m : M) (s : Option Nat) (fn : Fn) : M :=
  match s with
  | some s =>
    let m1 := m.attach s fn
    { m1 with futs := m1.futs ++ [some m.size] }
  | none =>
    match fn with
    | .void => { m with
        active := .imm m.nextC false :: m.active
        nextC := m.nextC + 1
        log := m.log ++ [.now m.nextC] }
    | .fut => { m with
        active := .imm m.nextC true :: m.active
        nextC := m.nextC + 1
        log := m.log ++ [.now m.nextC] }
    | .prom q =>
      let m1 := m.fulfil q
      { m1 with futs := m1.futs ++ [none] }
    | .give g => { m with futs := m.futs ++ [g] }

/-- One operation; `none` if it is impossible. -/
def step (m : M) (op : Op) : Option M :=
  if m.ub then none
  else
    match op with
    | .newPair l => some { m with
        size := m.size + 1
        cell := upd m.cell m.size ⟨l, false, none, none⟩
        proms := m.proms ++ [some m.size]
        futs := m.futs ++ [some m.size] }
    | .invalid => some { m with proms := m.proms ++ [none], futs := m.futs ++ [none] }
    | .copyP i => (m.proms[i]?).map fun s => { m with proms := m.proms ++ [s] }
    | .copyF i => (m.futs[i]?).map fun s => { m with futs := m.futs ++ [s] }
    | .fulfil i =>
      match m.proms[i]? with
      | none => none
      -- `future.hpp:158-159`
      | some none => some (m.say (.threw i))
      -- `future.hpp:179`
      | some (some s) => some { m.fulfil s with proms := m.proms.set i none }
    | .then i isF =>
      match m.futs[i]? with
      | none => none
      | some s => some ({ m with futs := m.futs.set i none }.thenF s (if isF then .fut else .void))
    | .thenP i j =>
      match m.futs[i]?, m.proms[j]? with
      | some s, some (some q) =>
        some ({ m with futs := m.futs.set i none, proms := m.proms.set j none }.thenF s (.prom q))
      | _, _ => none
    | .also i j =>
      match m.futs[i]?, m.futs[j]? with
      | some s, some g =>
        if i = j then none
        else some ({ m with futs := (m.futs.set j none).set i none }.thenF s (.give g))
      | _, _ => none
    | .run l =>
      match m.queue l with
      | [] => none
      | t :: q => some { m with
          queue := upd m.queue l q
          active := t.frame :: m.active
          log := m.log ++ [.start t.c] }
    | .retV k =>
      match m.active[k]? with
      | some (.run t) =>
        if t.fn = .void then some { m with active := .ret t none :: m.active.eraseIdx k } else none
      | some (.imm _ false) => some { m with
          active := m.active.eraseIdx k
          futs := m.futs ++ [none] }
      | _ => none
    | .retF k i =>
      match m.active[k]?, m.futs[i]? with
      | some (.run t), some s =>
        if t.fn = .fut then
          some { m with
            active := .ret t (some s) :: m.active.eraseIdx k
            futs := m.futs.set i none }
        else none
      | some (.imm _ true), some s => some { m with
          active := m.active.eraseIdx k
          futs := m.futs.set i none ++ [s] }
      | _, _ => none
    | .raise k =>
      match m.active[k]? with
      | some (.run _) => some { m with active := m.active.eraseIdx k }
      | some (.imm _ _) => some { m with active := m.active.eraseIdx k }
      | _ => none
    | .lib k =>
      match m.active[k]? with
      | some f => { m with active := m.active.eraseIdx k }.lib f
      | none => none

/-- The empty program. -/
def start : M where
  size := 0
  cell := fun _ => ⟨0, false, none, none⟩
  queue := fun _ => []
  proms := []
  futs := []
  active := []
  nextC := 0
  log := []
  ub := false

/-- Everything that can happen. -/
inductive Reach : M → Prop where
  | start : Reach start
  | step {m m'} (op : Op) : Reach m → step m op = some m' → Reach m'

end Verif.Future
