import Verif.Future.Model

/-!
Model of stores (`lager/store.hpp`), effects and their sequencing (`lager/effect.hpp`), on top of the model
of promises and futures.

The loop of the store is loop 0.  Its queue holds the tasks that the store has posted and, in the order
of posting, marks for the closures that promises have posted, which are in queue 0 of the model of
futures.

User code (watchers, effects, other threads) is not modelled by a stack: at any time it may dispatch
actions, use futures that it owns, and running effects may return.  The loop may run its next task at any
time, also while an effect is running (as when the effect itself runs the loop).  Each task is a few
steps: for a task with an effect, the part until the effect is called, each call of `then`, and the
completion of the promise.  Notifying the watchers of the store is one step; what watchers can do that
matters here, dispatching, can be done right after it.  (Watchers themselves, derived cursors and the
propagation in the graph of nodes are in the model of the graph.)
-/

namespace Verif.Store

open Verif.Future (upd)

/-- An effect, `effect.hpp:26-81`. -/
inductive Eff where
  /-- no effect: the reducer returns only a model (`has_effect`, `effect.hpp:151-175`) -/
  | empty
  /-- made from `lager::noop`, which the constructor at `effect.hpp:64-68` wraps -/
  | noop
  /-- any user code that returns a future, or nothing, which counts as the empty future
  (`effect.hpp:64-68`); or a null function, see `Cfg.null` -/
  | prim (id : Nat)
  /-- the closure of `sequence`, `effect.hpp:252-257` -/
  | seq (a b : Eff)
deriving DecidableEq

/-- Does `invoke_reducer`, `effect.hpp:214-235`, take the branch for no effect?  Only for reducers without
effects.  `is_empty_effect`, `:187-197`, is false for every `lager::effect`, also if it is null: a
`lager::effect` is a class derived from `std::function`, for which the overload for any type, which returns
`false`, is a better match than the one for `std::function`.  (And that would not recognise `noop`: `target`
returns a pointer into the `std::function`, which is never `&noop`.)  Not modelled: reducers that return a
`std::function<future(const context&)>` itself, which is recognised if it is null. -/
def Eff.isEmpty : Eff → Bool
  | .empty => true
  | _ => false

/-- `sequence`, `effect.hpp:240-258`.  As `is_empty_effect` is false for both, the result is always the
closure. -/
def sequence (a b : Eff) : Eff := .seq a b

/-- Ghost: the number of effects that are not sequences in it. -/
def Eff.len : Eff → Nat
  | .empty => 0
  | .noop => 1
  | .prim _ => 1
  | .seq a b => a.len + b.len

/-- A task of the store.  `d` is the number of the dispatch (ghost) and `i` the promise object that the
closure holds. -/
inductive Item (A : Type) where
  /-- `store.hpp:156-158` -/
  | reduce (d : Nat) (a : A) (i : Nat)
  /-- `store.hpp:163-180` -/
  | effect (d : Nat) (e : Eff) (i : Nat)
  /-- `store.hpp:184-190` -/
  | publish (d : Nat) (i : Nat)
  /-- a closure that a promise has posted -/
  | tok

/-- Who has called an effect. -/
inductive Kont where
  /-- the store, for a dispatch, with its promise object -/
  | store (d i : Nat)
  /-- the closure number `c` that `sequence` has given to `then` -/
  | clo (c : Nat)
deriving DecidableEq

/-- Where the call of an effect is. -/
inductive Mode where
  /-- about to call -/
  | call (e : Eff)
  /-- user code is running -/
  | prim (id : Nat)
  /-- it has returned an empty future, or the future object number `i` -/
  | got (o : Option Nat)
deriving DecidableEq

/-- A call of an effect.  `x` is the number of the call by the store and `pos` the number of effects in it
that come before (ghost); `ks` are the effects to pass to `then`, `effect.hpp:254`, from the inside out. -/
structure EF where
  x : Nat
  pos : Nat
  mode : Mode
  ks : List Eff
  k : Kont
deriving DecidableEq

/-- Observable events. -/
inductive SEv (A Mo : Type) where
  /-- dispatch number `d` -/
  | dispatched (d : Nat) (a : A)
  /-- the reducer is called with model `m` and action `a`, and has returned `m'` and effect `e` -/
  | reduced (d : Nat) (m : Mo) (a : A) (m' : Mo) (e : Eff)
  /-- the watchers are called with `v` -/
  | shown (v : Mo)
  /-- the task that publishes the model for dispatch `d` has done so -/
  | ready (d : Nat)
  /-- the effect of dispatch `d` is called, as call number `x` -/
  | effStart (d x : Nat) (e : Eff)
  /-- … and has returned an empty future or one with a promise state -/
  | effEnd (d : Nat) (r : Option Nat)
  /-- in call `x`, user code number `id`, at position `pos`, is called -/
  | prim (x pos id : Nat)
  | primRet (x pos : Nat) (r : Option Nat)
  | primThrew (x pos : Nat)
  /-- the reducer is called with model `m` and action `a`, and has thrown -/
  | reduceThrew (d : Nat) (m : Mo) (a : A)
  /-- a watcher has thrown in the task of dispatch `d` that was going to call effect `e`, if any, and to
  complete the promise -/
  | lost (d : Nat) (e : Option Eff)
deriving DecidableEq

/-- A store. -/
structure Cfg (A Mo : Type) where
  /-- for reducers without effects the effect is `empty` -/
  reducer : Mo → A → Mo × Eff
  /-- which functions are null: calling one, as `prim id`, throws `std::bad_function_call`.  (An effect made from
  a null effect with other actions or dependencies, `effect.hpp:52-58`, is not a null function itself, but
  calling it throws, too.) -/
  null : Nat → Bool := fun _ => false
  /-- does the reducer throw? (then what `reducer` says does not matter) -/
  throws : Mo → A → Bool := fun _ _ => false
  /-- `has_changed`, `detail/nodes.hpp` -/
  changed : Mo → Mo → Bool
  /-- `transactional_tag`, `store.hpp:134-135` -/
  trans : Bool
  /-- `enable_futures_tag`, `store.hpp:136-137` -/
  hasF : Bool
  init : Mo

/-- The store, `store.hpp:115-206`, and the queue of its event loop. -/
structure St (A Mo : Type) where
  fu : Future.M
  /-- the root node -/
  cur : Mo
  last : Mo
  dirty : Bool
  ntf : Bool
  queue : List (Item A)
  ev : List EF
  /-- ghost: promise object and promise state for each dispatch -/
  sent : List (Nat × Nat)
  /-- the closures that `sequence` has given to `then` -/
  tag : Nat → Option (Nat × Nat × Eff)
  nx : Nat
  log : List (SEv A Mo)

variable {A Mo : Type}

/-- Ghost: record an event. -/
def St.say (st : St A Mo) (e : SEv A Mo) : St A Mo := { st with log := st.log ++ [e] }

/-- `loop.post`, `store.hpp:157`, `:165`, `:187`. -/
def St.post (st : St A Mo) (i : Item A) : St A Mo := { st with queue := st.queue ++ [i] }

/-- A step of futures.  What it posts to loop 0 is in the queue of the store, too. -/
def St.fstep (st : St A Mo) (op : Future.Op) : Option (St A Mo) :=
  (Future.step st.fu op).map fun fu => { st with
    fu := fu
    queue := st.queue ++ List.replicate ((fu.queue 0).length - (st.fu.queue 0).length) .tok }

/-- `push_down` of the root node: `detail/nodes.hpp`, as in the model of the graph. -/
def St.pushDown (c : Cfg A Mo) (st : St A Mo) (v : Mo) : St A Mo :=
  if c.changed v st.cur then { st with cur := v, dirty := true } else st

/-- `send_down` of the root node. -/
def St.sendDown (st : St A Mo) : St A Mo :=
  if st.dirty then { st with last := st.cur, dirty := false, ntf := true } else st

/-- `notify` of the root node. -/
def St.notify (st : St A Mo) : St A Mo :=
  if st.ntf && !st.dirty then { st with ntf := false, log := st.log ++ [.shown st.last] } else st

/-- `store.hpp:149-155`, `:197`: the promise, the post and the future. -/
def St.dispatch (c : Cfg A Mo) (st : St A Mo) (a : A) : Option (St A Mo) :=
  let d := st.sent.length
  let i := st.fu.proms.length
  (st.fstep (if c.hasF then .newPair 0 else .invalid)).map fun s1 =>
    { (s1.post (.reduce d a i)).say (.dispatched d a) with sent := st.sent ++ [(i, st.fu.size)] }

/-- `p()` for a promise object of the store. -/
def St.complete (c : Cfg A Mo) (st : St A Mo) (i : Nat) : Option (St A Mo) :=
  if c.hasF then st.fstep (.fulfil i) else some st

/-- `if constexpr (!is_transactional) { send_down(); notify(); }`. -/
def St.publish (c : Cfg A Mo) (st : St A Mo) : St A Mo :=
  if c.trans then st else st.sendDown.notify

/-- Loop `l` runs the next closure that a promise has posted.  One that `sequence` has made calls the
effect, `effect.hpp:254-255`. -/
def St.runTask (st : St A Mo) (l : Nat) : Option (St A Mo) :=
  match st.fu.queue l with
  | [] => none
  | t :: _ => (st.fstep (.run l)).map fun s1 =>
    match st.tag t.c with
    | none => s1
    | some (x, pos, e) => { s1 with ev := ⟨x, pos, .call e, [], .clo t.c⟩ :: s1.ev }

/-- The loop runs its next task. -/
def St.loop (c : Cfg A Mo) (st : St A Mo) : Option (St A Mo) :=
  match st.queue with
  | [] => none
  | .reduce d a i :: q =>
    -- `store.hpp:158-193`, `effect.hpp:214-235`
    let s0 := { st with queue := q }
    -- nothing has been posted or pushed down, and the promise is destroyed with the task
    if c.throws st.cur a then some (s0.say (.reduceThrew d st.cur a)) else
    let (m', e) := c.reducer st.cur a
    let s1 := if e.isEmpty then
        (if c.trans then s0.complete c i else some (s0.post (.publish d i)))
      else some (s0.post (.effect d e i))
    s1.map fun s1 => (s1.pushDown c m').say (.reduced d st.cur a m' e)
  | .effect d e i :: q =>
    -- `store.hpp:166-180`
    let s1 := { st with queue := q }.publish c
    some { (s1.say (.ready d)).say (.effStart d st.nx e) with
      ev := ⟨st.nx, 0, .call e, [], .store d i⟩ :: s1.ev
      nx := st.nx + 1 }
  | .publish d i :: q =>
    -- `store.hpp:186-189`
    (({ st with queue := q }.publish c).say (.ready d)).complete c i
  | .tok :: q => { st with queue := q }.runTask 0

/-- The loop runs its next task, and a watcher throws.  The exception leaves the task: the rest of it is not
done, and the promise is destroyed with the task.  (Watchers after the one that throws are not called; here
`shown` means that they have begun to be.) -/
def St.loopRaise (c : Cfg A Mo) (st : St A Mo) : Option (St A Mo) :=
  let go (d : Nat) (e : Option Eff) (q : List (Item A)) : Option (St A Mo) :=
    if c.trans = false ∧ st.dirty = true then
      some (({ st with queue := q }.publish c).say (.lost d e)) else none
  match st.queue with
  | .effect d e _ :: q => go d (some e) q
  | .publish d _ :: q => go d none q
  | _ => none

/-- Where is the closure number `c` running? -/
def findRun (c : Nat) : List Future.Frame → Option Nat
  | [] => none
  | .run t :: fs => if t.c = c then some 0 else (findRun c fs).map (· + 1)
  | _ :: fs => (findRun c fs).map (· + 1)

/-- A call of an effect goes on by itself. -/
def St.go (c : Cfg A Mo) (st : St A Mo) (f : EF) : Option (St A Mo) :=
  let push (st : St A Mo) (f : EF) : St A Mo := { st with ev := f :: st.ev }
  match f.mode with
  -- no effect is not called
  | .call .empty => none
  | .call .noop => some (push st { f with pos := f.pos + 1, mode := .got none })
  | .call (.prim id) => some (push (st.say (.prim f.x f.pos id)) { f with mode := .prim id })
  -- `effect.hpp:254`: `a(ctx)` first
  | .call (.seq a b) => some (push st { f with mode := .call a, ks := b :: f.ks })
  | .prim _ => none
  | .got o =>
    -- the pointer in the future
    let r : Option Nat := (o.bind fun i => st.fu.futs[i]?).join
    match f.ks with
    | b :: ks =>
      -- `.then([ctx, b] { return b(ctx); })`
      match o, r with
      | some i, some _ =>
        (st.fstep (.then i true)).map fun s1 =>
          { s1 with
            tag := upd st.tag st.fu.nextC (some (f.x, f.pos, b))
            ev := ⟨f.x, f.pos + b.len, .got (some (s1.fu.futs.length - 1)), ks, f.k⟩ :: s1.ev }
      | _, _ => some (push st { f with mode := .call b, ks := ks })
    | [] =>
      match f.k with
      | .store d i =>
        -- `std::move(f).then(std::move(p))`, or `p()`, `store.hpp:172-179`
        let s0 := st.say (.effEnd d r)
        if c.hasF then
          match o with
          | some j => s0.fstep (.thenP j i)
          | none => s0.fstep (.fulfil i)
        else some s0
      | .clo t =>
        (findRun t st.fu.active).bind fun k =>
          match o with
          | some i => st.fstep (.retF k i)
          -- an empty future is made first
          | none => (st.fstep .invalid).bind fun s1 => s1.fstep (.retF k (s1.fu.futs.length - 1))

/-- What happens. -/
inductive SOp (A : Type) where
  /-- user code dispatches -/
  | dispatch (a : A)
  /-- the loop of the store runs its next task -/
  | loop
  /-- it does, and a watcher throws -/
  | loopRaise
  /-- another loop runs its next task -/
  | other (l : Nat)
  /-- user code uses promises and futures, library code of futures goes on -/
  | fut (op : Future.Op)
  /-- call number `n` of an effect goes on -/
  | go (n : Nat)
  /-- user code in call number `n` returns an empty future, or the future object `i`; a null function does not
  return -/
  | prim (n : Nat) (o : Option Nat)
  /-- … or throws -/
  | raise (n : Nat)
  /-- `commit(store)` for transactional stores: `send_down` and `notify` of the root node -/
  | commit

/-- The future objects that calls of effects hold. -/
def St.held (st : St A Mo) (i : Nat) : Prop := ∃ f ∈ st.ev, f.mode = .got (some i)

instance (st : St A Mo) (i : Nat) : Decidable (st.held i) := by unfold St.held; infer_instance

/-- A promise object of the store. -/
def St.own (st : St A Mo) (i : Nat) : Prop := ∃ y ∈ st.sent, y.1 = i

instance (st : St A Mo) (i : Nat) : Decidable (st.own i) := by unfold St.own; infer_instance

/-- Is frame `k` a closure of `sequence`? -/
def St.tagged (st : St A Mo) (k : Nat) : Prop :=
  match st.fu.active[k]? with
  | some (.run t) => st.tag t.c ≠ none
  | _ => False

instance (st : St A Mo) (k : Nat) : Decidable (st.tagged k) := by
  unfold St.tagged; split <;> infer_instance

/-- What user code may do with promises and futures: not use those that belong to the store and to calls
of effects, which it has no access to. -/
def St.allowed (st : St A Mo) : Future.Op → Prop
  | .newPair _ => True
  | .invalid => True
  | .copyP i => ¬ st.own i
  | .copyF i => ¬ st.held i
  | .fulfil i => ¬ st.own i
  | .then i _ => ¬ st.held i
  | .thenP i j => ¬ st.held i ∧ ¬ st.own j
  | .also i j => ¬ st.held i ∧ ¬ st.held j
  | .run _ => False
  | .retV k => ¬ st.tagged k
  | .retF k i => ¬ st.tagged k ∧ ¬ st.held i
  | .raise k => ¬ st.tagged k
  | .lib _ => True

instance (st : St A Mo) (op : Future.Op) : Decidable (st.allowed op) := by
  cases op <;> unfold St.allowed <;> infer_instance

/-- One step. -/
def step (c : Cfg A Mo) (st : St A Mo) : SOp A → Option (St A Mo)
  | .dispatch a => st.dispatch c a
  | .loop => st.loop c
  | .loopRaise => st.loopRaise c
  | .other l => if l = 0 then none else st.runTask l
  | .fut op => if st.allowed op then st.fstep op else none
  | .go n =>
    match st.ev[n]? with
    | none => none
    | some f => { st with ev := st.ev.eraseIdx n }.go c f
  | .prim n o =>
    match st.ev[n]? with
    | some ⟨x, pos, .prim id, ks, k⟩ =>
      let r : Option Nat := (o.bind fun i => st.fu.futs[i]?).join
      if c.null id = false ∧ (∀ i, o = some i → ¬ st.held i ∧ i < st.fu.futs.length) then
        some { st.say (.primRet x pos r) with
          ev := ⟨x, pos + 1, .got o, ks, k⟩ :: st.ev.eraseIdx n }
      else none
    | _ => none
  | .raise n =>
    match st.ev[n]? with
    | some ⟨x, pos, .prim _, _, .store _ _⟩ =>
      some { st.say (.primThrew x pos) with ev := st.ev.eraseIdx n }
    | some ⟨x, pos, .prim _, _, .clo t⟩ =>
      (findRun t st.fu.active).bind fun k =>
        { st.say (.primThrew x pos) with ev := st.ev.eraseIdx n }.fstep (.raise k)
    | _ => none
  | .commit => if c.trans then some st.sendDown.notify else none

/-- The state at the beginning: the store as `store.hpp:139-148` makes it. -/
def start (c : Cfg A Mo) : St A Mo where
  fu := Future.start
  cur := c.init
  last := c.init
  dirty := false
  ntf := false
  queue := []
  ev := []
  sent := []
  tag := fun _ => none
  nx := 0
  log := []

/-- The states that can be reached. -/
inductive Reach (c : Cfg A Mo) : St A Mo → Prop where
  | start : Reach c (start c)
  | step {st st'} (op : SOp A) : Reach c st → step c st op = some st' → Reach c st'

end Verif.Store
