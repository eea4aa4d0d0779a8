import Verif.Future.Spec

/-
Model of promises and futures (`lager/future.hpp`) over event loops that run a function inside of `post`:
`with_manual_event_loop` (`event_loop/manual.hpp:22-66`).

In contrast to `Future/Model.lean` there is a call stack, for one thread: `then` and the call of a promise
run the queue of the loop before they return, if the loop is not already running, and hold the mutex of
the promise state meanwhile.  A mutex that the thread already holds is a deadlock (formally undefined
behaviour).  Exceptions unwind the stack.

Simplifications: the object for the future that `then` returns is there from the start of the call (user
code that runs inside of the call could use it here, but not in C++, and it stays there when the call is
left by an exception); a callback that has been moved away leaves an empty `std::function`.
-/

namespace Verif.Future

/-- What is on the call stack. -/
inductive KF where
  /-- user code, or code of a closure, as in `Future/Model.lean` -/
  | code (f : Frame)
  /-- the loop in `post`, `manual.hpp:39-42` -/
  | drain (l : Nat)
  /-- the rest of the call of a promise after `post`, `future.hpp:176-179`; the promise object, if it is
  one of the user's -/
  | called (s : Nat) (i : Option Nat)
  /-- the rest of `then` after `post`, `future.hpp:220-225` -/
  | attached (s : Nat)
deriving DecidableEq

/-- Undefined behaviour, and deadlocks. -/
inductive Bad where
  /-- the thread locks a mutex that it holds -/
  | deadlock
  /-- `assert(!state_->callback)`, `future.hpp:203` -/
  | twice
  /-- a promise object is used while it is being called, or after its call was left by an exception.  (In
  the first case this is a deadlock, or a null pointer is used; the second one is not modelled further.) -/
  | misuse
deriving DecidableEq

/-- The state: the one of `Future/Model.lean`, with the mutexes, the queues that are being run, and a call stack. -/
structure K where
  /-- promise states, queues, objects and events.  `m.active` and `m.ub` are not used. -/
  m : M
  /-- `i_ != 0`, `manual.hpp:36` -/
  busy : Nat → Bool
  /-- `promise_state::mutex` -/
  locked : Nat → Bool
  stack : List KF
  /-- the exception that is being thrown -/
  throwing : Bool
  /-- promise objects whose call has not returned -/
  spent : List Nat
  bad : Option Bad

/-- `post`: `manual.hpp:33-51` for the loops with `inl l`; `queue.hpp:27` for the others. -/
def K.post (inl : Nat → Bool) (k : K) (l : Nat) (t : Task) : K :=
  let k1 := { k with m := k.m.post l t }
  if inl l && !k.busy l then
    { k1 with
      busy := upd k.busy l true
      stack := .drain l :: k1.stack }
  else k1

/-- `promise::operator()` with a valid state, `future.hpp:156-180`, up to the call of `post`. -/
def K.fulfil (inl : Nat → Bool) (k : K) (s : Nat) (i : Option Nat) : K :=
  if k.locked s then { k with bad := some .deadlock }
  else
    let x := k.m.cell s
    match x.done, x.cb with
    | false, some t =>
      K.post inl { k with
        m := { k.m with cell := upd k.m.cell s { x with cb := none } }
        locked := upd k.locked s true
        stack := .called s i :: k.stack
        spent := i.toList ++ k.spent } x.loop t
    | _, _ => { k with m := { k.m with cell := upd k.m.cell s { x with done := true, cb := none } } }

/-- `future::then` with a valid state, `future.hpp:200-225`, up to the call of `post`. -/
def K.attach (inl : Nat → Bool) (k : K) (s : Nat) (fn : Fn) : K :=
  let x := k.m.cell s
  let t : Task := ⟨k.m.nextC, k.m.size, fn⟩
  let m1 : M := { k.m with
    size := k.m.size + 1
    nextC := k.m.nextC + 1
    cell := upd k.m.cell k.m.size ⟨x.loop, false, none, some k.m.nextC⟩
    log := k.m.log ++ [.attach k.m.nextC s k.m.size fn] }
  if x.cb.isSome then { k with m := m1, bad := some .twice }
  else if k.locked s then { k with m := m1, bad := some .deadlock }
  else if x.done then
    K.post inl { k with
      m := m1
      locked := upd k.locked s true
      stack := .attached s :: k.stack } x.loop t
  else { k with m := { m1 with cell := upd m1.cell s { x with cb := some t } } }

/-- `std::move(*this).then(fn)`, `future.hpp:190-227`.  `j` is the promise object if `fn` is one. -/
def K.thenF (inl : Nat → Bool) (k : K) (s : Option Nat) (fn : Fn) (j : Option Nat) : K :=
  match s with
  | some s =>
    let k1 := k.attach inl s fn
    { k1 with m := { k1.m with futs := k1.m.futs ++ [some k.m.size] } }
  | none =>
    match fn with
    | .void => { k with
        m := { k.m with nextC := k.m.nextC + 1, log := k.m.log ++ [.now k.m.nextC] }
        stack := .code (.imm k.m.nextC false) :: k.stack }
    | .fut => { k with
        m := { k.m with nextC := k.m.nextC + 1, log := k.m.log ++ [.now k.m.nextC] }
        stack := .code (.imm k.m.nextC true) :: k.stack }
    | .prom q =>
      let k1 := k.fulfil inl q j
      { k1 with m := { k1.m with futs := k1.m.futs ++ [none] } }
    | .give g => { k with m := { k.m with futs := k.m.futs ++ [g] } }

/-- The code on top of the stack is the user's. -/
def userTop : List KF → Bool
  | [] => true
  | .code (.run _) :: _ => true
  | .code (.imm _ _) :: _ => true
  | _ => false

/-- What user code does. -/
inductive UOp where
  | newPair (l : Nat)
  | invalid
  | copyP (i : Nat)
  | copyF (i : Nat)
  | fulfil (i : Nat)
  | «then» (i : Nat) (isF : Bool)
  | thenP (i j : Nat)
  | also (i j : Nat)
  /-- run the next task of a loop that only queues, `queue.hpp:39-52` -/
  | run (l : Nat)
  /-- return nothing -/
  | retV
  /-- return a future object -/
  | retF (i : Nat)
  | raise
deriving DecidableEq

/-- User code on top of the stack (or the main program, if it is empty) does something. -/
def K.user (inl : Nat → Bool) (k : K) : UOp → Option K
  | .newPair l => some { k with m := { k.m with
      size := k.m.size + 1
      cell := upd k.m.cell k.m.size ⟨l, false, none, none⟩
      proms := k.m.proms ++ [some k.m.size]
      futs := k.m.futs ++ [some k.m.size] } }
  | .invalid => some { k with m := { k.m with
      proms := k.m.proms ++ [none]
      futs := k.m.futs ++ [none] } }
  | .copyP i =>
    if i ∈ k.spent then some { k with bad := some .misuse }
    else (k.m.proms[i]?).map fun s => { k with m := { k.m with proms := k.m.proms ++ [s] } }
  | .copyF i => (k.m.futs[i]?).map fun s => { k with m := { k.m with futs := k.m.futs ++ [s] } }
  | .fulfil i =>
    if i ∈ k.spent then some { k with bad := some .misuse }
    else
      match k.m.proms[i]? with
      | none => none
      | some none => some { k with m := k.m.say (.threw i) }
      | some (some s) =>
        some ({ k with m := { k.m with proms := k.m.proms.set i none } }.fulfil inl s (some i))
  | .then i isF =>
    match k.m.futs[i]? with
    | none => none
    | some s =>
      some ({ k with m := { k.m with futs := k.m.futs.set i none } }.thenF inl s
        (if isF then .fut else .void) none)
  | .thenP i j =>
    if j ∈ k.spent then some { k with bad := some .misuse }
    else
      match k.m.futs[i]?, k.m.proms[j]? with
      | some s, some (some q) =>
        some ({ k with m := { k.m with
          futs := k.m.futs.set i none
          proms := k.m.proms.set j none } }.thenF inl s (.prom q) (some j))
      | _, _ => none
  | .also i j =>
    match k.m.futs[i]?, k.m.futs[j]? with
    | some s, some g =>
      if i = j then none
      else some ({ k with m := { k.m with futs := (k.m.futs.set j none).set i none } }.thenF inl s
        (.give g) none)
    | _, _ => none
  | .run l =>
    if inl l then none
    else
      match k.m.queue l with
      | [] => none
      | t :: q => some { k with
          m := { k.m with queue := upd k.m.queue l q, log := k.m.log ++ [.start t.c] }
          stack := .code t.frame :: k.stack }
  | .retV =>
    match k.stack with
    | .code (.run t) :: st =>
      if t.fn = .void then some { k with stack := .code (.ret t none) :: st } else none
    | .code (.imm _ false) :: st => some { k with
        m := { k.m with futs := k.m.futs ++ [none] }
        stack := st }
    | _ => none
  | .retF i =>
    match k.stack, k.m.futs[i]? with
    | .code (.run t) :: st, some s =>
      if t.fn = .fut then
        some { k with
          m := { k.m with futs := k.m.futs.set i none }
          stack := .code (.ret t (some s)) :: st }
      else none
    | .code (.imm _ true) :: st, some s => some { k with
        m := { k.m with futs := k.m.futs.set i none ++ [s] }
        stack := st }
    | _, _ => none
  | .raise =>
    match k.stack with
    | .code _ :: st => some { k with throwing := true, stack := st }
    | _ => none

/-- Library code on top of the stack goes on. -/
def K.lib (inl : Nat → Bool) (k : K) : Option K :=
  match k.stack with
  -- `future.hpp:205-213`
  | .code (.ret t none) :: st =>
    some ({ k with m := k.m.say (.finish t.c none), stack := st }.fulfil inl t.p none)
  | .code (.ret t (some none)) :: st =>
    some ({ k with m := k.m.say (.finish t.c (some none)), stack := st }.fulfil inl t.p none)
  | .code (.ret t (some (some g))) :: st =>
    some ({ k with m := k.m.say (.finish t.c (some (some g))), stack := st }.attach inl g (.prom t.p))
  | .code (.satisfy q t) :: st =>
    some ({ k with stack := .code (.ret t none) :: st }.fulfil inl q none)
  -- `manual.hpp:39-50`
  | .drain l :: st =>
    match k.m.queue l with
    | [] => some { k with busy := upd k.busy l false, stack := st }
    | t :: q => some { k with
        m := { k.m with queue := upd k.m.queue l q, log := k.m.log ++ [.start t.c] }
        stack := .code t.frame :: .drain l :: st }
  -- `future.hpp:176-179`
  | .called s i :: st => some { k with
      m := { k.m with cell := upd k.m.cell s { k.m.cell s with done := true, cb := none } }
      locked := upd k.locked s false
      stack := st
      spent := k.spent.filter fun j => some j ≠ i }
  -- `future.hpp:223-225`
  | .attached s :: st => some { k with locked := upd k.locked s false, stack := st }
  | _ => none

/-- The exception leaves the code on top of the stack. -/
def K.unwind (k : K) : Option K :=
  match k.stack with
  | [] => none
  -- `manual.hpp:43-47`
  | .drain l :: st => some { k with busy := upd k.busy l false, stack := st }
  -- the lock is given back
  | .called s _ :: st => some { k with locked := upd k.locked s false, stack := st }
  | .attached s :: st => some { k with locked := upd k.locked s false, stack := st }
  | .code _ :: st => some { k with stack := st }

/-- What happens. -/
inductive KOp where
  | user (op : UOp)
  | lib
  | unwind
  /-- user code catches the exception -/
  | «catch»

/-- One step.  After something bad nothing is said. -/
def kstep (inl : Nat → Bool) (k : K) (op : KOp) : Option K :=
  if k.bad.isSome then none
  else
    match op with
    | .user op => if !k.throwing && userTop k.stack then k.user inl op else none
    | .lib => if !k.throwing then k.lib inl else none
    | .unwind => if k.throwing then k.unwind else none
    | .catch => if k.throwing && userTop k.stack then some { k with throwing := false } else none

/-- The state at the beginning. -/
def kstart : K where
  m := Future.start
  busy := fun _ => false
  locked := fun _ => false
  stack := []
  throwing := false
  spent := []
  bad := none

/-- Is a promise or future object copied? -/
def KOp.copies : KOp → Bool
  | .user (.copyP _) => true
  | .user (.copyF _) => true
  | _ => false

/-- Everything that can happen. -/
inductive KReach (inl : Nat → Bool) : K → Prop where
  | start : KReach inl kstart
  | step {k k'} (op : KOp) : KReach inl k → kstep inl k op = some k' → KReach inl k'

/-- Everything that can happen without copies of promises and futures. -/
inductive KReachM (inl : Nat → Bool) : K → Prop where
  | start : KReachM inl kstart
  | step {k k'} (op : KOp) : KReachM inl k → op.copies = false → kstep inl k op = some k' → KReachM inl k'

end Verif.Future
