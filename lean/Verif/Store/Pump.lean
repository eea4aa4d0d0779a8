import Verif.Store.Props17
import Verif.Example.PongProps

/-!
Programs on the SDL loop whose events only come from SDL: `example/counter/sdl2/main.cpp` and `example/autopong/sdl2/main.cpp`.
A handler makes actions of events, a function that is called for each frame may dispatch, too, and a watcher draws.
-/

namespace Verif.Store

variable {E A Mo : Type}

/-- An event in SDL's queue: one for the handler, or a task that the loop has posted, `lager/event_loop/sdl.hpp:163-171`. -/
inductive SdlEv (E : Type) where
  | user (e : E)
  | task
deriving DecidableEq

/-- What the loop has called. -/
inductive Call (E A : Type) where
  /-- the handler, with an event -/
  | handler (e : E)
  /-- `tick`, which dispatched these actions -/
  | tick (as : List A)
deriving DecidableEq

/-- The handler, `example/counter/sdl2/main.cpp:69-85, 102-106`, `example/autopong/sdl2/main.cpp:131-139, 166-170`. -/
structure Handler (E A : Type) where
  /-- `intent`: the action that is dispatched for an event, if any -/
  intent : E → Option A
  /-- does it return `false`? -/
  stops : E → Bool

/-- The program. -/
structure Pump (E A Mo : Type) where
  /-- SDL's queue -/
  events : List (SdlEv E)
  st : St A Mo
  /-- `run` has not returned, `sdl.hpp:126-127, 145-146` -/
  running : Bool
  /-- ghost: the events that came and that SDL had room for -/
  arrived : List E
  /-- ghost: those that it had no room for -/
  refused : List E
  /-- ghost: what was called, in order -/
  calls : List (Call E A)
  /-- ghost: how many tasks SDL had no room for -/
  lost : Nat

/-- `dispatch` of the store: `post`, `sdl.hpp:163-171`.  If SDL has no room, nobody is told. -/
def Pump.dispatch (c : Cfg A Mo) (cap : Nat) (w : Pump E A Mo) (a : A) : Option (Pump E A Mo) :=
  if w.events.length < cap then
    (w.st.dispatch c a).map fun s => { w with st := s, events := w.events ++ [.task] }
  else some { w with lost := w.lost + 1 }

/-- Several, one after the other. -/
def Pump.send (c : Cfg A Mo) (cap : Nat) (w : Pump E A Mo) : List A → Option (Pump E A Mo)
  | [] => some w
  | a :: as => (w.dispatch c cap a).bind fun w' => w'.send c cap as

/-- A task of the store, `sdl.hpp:130-133, 150-153`.  For reducers without effects it posts at most one more.  An exception of
the reducer would leave `run`; here it is called again then. -/
def Pump.work (c : Cfg A Mo) (cap : Nat) (w : Pump E A Mo) : Option (Pump E A Mo) :=
  (w.st.loop c).map fun s =>
    if s.queue.length < w.st.queue.length then { w with st := s }
    else if w.events.length < cap then { w with st := s, events := w.events ++ [.task] }
    else { w with st := { s with queue := w.st.queue.tail }, lost := w.lost + 1 }

/-- The handler is called, `sdl.hpp:135, 155`. -/
def Pump.handle (c : Cfg A Mo) (cap : Nat) (h : Handler E A) (w : Pump E A Mo) (e : E) : Option (Pump E A Mo) :=
  let w1 := { w with calls := w.calls ++ [.handler e], running := !h.stops e }
  match h.intent e with
  | none => some w1
  | some a => w1.dispatch c cap a

/-- The loop gets the next event, `SDL_WaitEvent` or `SDL_PollEvent`, `sdl.hpp:128-137, 147-157`. -/
def Pump.next (c : Cfg A Mo) (cap : Nat) (h : Handler E A) (w : Pump E A Mo) : Option (Pump E A Mo) :=
  match w.events with
  | [] => none
  | .task :: es => { w with events := es }.work c cap
  | .user e :: es => { w with events := es }.handle c cap h e

/-- What happens. -/
inductive PumpOp (E A : Type) where
  /-- SDL puts an event into its queue: it does that while it is asked for the next one -/
  | arrive (e : E)
  /-- the loop gets the next event -/
  | next
  /-- there is none, and `tick` is called; it dispatches these actions, `sdl.hpp:158`,
  `example/autopong/sdl2/main.cpp:171-174` -/
  | tick (as : List A)

/-- The steps.  Simplified: no other threads push events or dispatch (see `SdlQ` for these), the loop is not paused and `finish`
is not called. -/
def Pump.step (c : Cfg A Mo) (cap : Nat) (h : Handler E A) (w : Pump E A Mo) (o : PumpOp E A) : Option (Pump E A Mo) :=
  if w.running then
    match o with
    | .arrive e =>
      if w.events.length < cap then some { w with events := w.events ++ [.user e], arrived := w.arrived ++ [e] }
      else some { w with refused := w.refused ++ [e] }
    | .next => w.next c cap h
    | .tick as => if w.events.isEmpty then Pump.send c cap { w with calls := w.calls ++ [Call.tick as] } as else none
  else none

/-- The state at the beginning. -/
def Pump.start (c : Cfg A Mo) : Pump E A Mo := ⟨[], Store.start c, true, [], [], [], 0⟩

/-- Several steps, one after the other. -/
def Pump.exec (c : Cfg A Mo) (cap : Nat) (h : Handler E A) (w : Pump E A Mo) : List (PumpOp E A) → Option (Pump E A Mo)
  | [] => some w
  | o :: os => (w.step c cap h o).bind fun w' => w'.exec c cap h os

end Verif.Store

namespace Verif.Window

open Verif.Store

/-- The events of `example/counter/sdl2/main.cpp:69-85, 105`: keys that are pressed, the end, and all others. -/
inductive Event where
  | up
  | down
  | space
  | quit
  | other (n : Nat)
deriving DecidableEq

/-- The handler of `example/counter/sdl2/main.cpp:69-85, 102-106`. -/
def counter : Handler Event Counter.Act where
  intent
    | .up => some .increment
    | .down => some .decrement
    | .space => some (.reset 0)
    | _ => none
  stops
    | .quit => true
    | _ => false

/-- The store of `example/counter/sdl2/main.cpp:96-97`.  The model has no `==`, so it always counts as changed,
`detail/nodes.hpp:109-113`.  `none` is undefined behaviour: the value does not fit into an `int`. -/
def counterCfg : Cfg Counter.Act (Option Int) where
  reducer m a := (m.bind fun c => Counter.update c a, .empty)
  changed _ _ := true
  trans := false
  hasF := false
  init := some 0

end Verif.Window
