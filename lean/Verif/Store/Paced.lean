import Verif.Store.Props16

/-!
Programs that draw frames: `sdl_event_loop::run(handler, tick, …)`, `lager/event_loop/sdl.hpp:142-160`, and its version for
browsers, `:85-120`, with a store whose value `tick` draws, and to which it dispatches what the user does.
-/

namespace Verif.Store

variable {A Mo : Type}

/-! ### SDL -/

/-- A store on the SDL loop, with frames. -/
structure Paced (A Mo : Type) where
  s : SdlQ A Mo
  /-- `tick` is running -/
  drawing : Bool
  /-- ghost: what `get()` returned in each frame, and the actions that were dispatched before the frame began -/
  frames : List (Mo × List A)
  /-- ghost: how many events have arrived since the last frame began -/
  since : Nat

/-- What happens. -/
inductive FOp (A : Type) where
  /-- a step of the store, of the loop, or of other threads -/
  | op (o : LOp A)
  /-- the loop has found no event and calls `tick`, which calls `get()` -/
  | tick
  /-- `tick` returns -/
  | tock

/-- The steps, `sdl.hpp:146-159`.  The loop calls `tick` when `SDL_PollEvent` has found nothing; tasks and `tick` run in the
same thread, so while `tick` runs, it or others dispatch and events arrive, but nothing else happens.  Simplified: the loop is not paused or resumed by other threads, and `run` does not end. -/
def Paced.step (c : Cfg A Mo) (cap : Nat) (w : Paced A Mo) : FOp A → Option (Paced A Mo)
  | .op o =>
    if w.drawing && !o.arrives then none
    else (SdlQ.step c cap w.s o).map fun s => { w with s := s, since := w.since + if o.arrives then 1 else 0 }
  | .tick =>
    if !w.drawing && w.s.events.isEmpty && w.s.p.jobs.isEmpty then
      some { w with drawing := true, frames := w.frames ++ [(w.s.p.st.get, w.s.posted)], since := 0 }
    else none
  | .tock => if w.drawing then some { w with drawing := false } else none

/-- The state at the beginning. -/
def Paced.start (c : Cfg A Mo) : Paced A Mo := ⟨.start c, false, [], 0⟩

/-- Several steps, one after the other. -/
def Paced.exec (c : Cfg A Mo) (cap : Nat) (w : Paced A Mo) : List (FOp A) → Option (Paced A Mo)
  | [] => some w
  | o :: os => (Paced.step c cap w o).bind fun w' => Paced.exec c cap w' os

/-! ### Browsers -/

/-- A store on the loop for browsers, with frames. -/
structure Browser (A Mo : Type) where
  p : Par A Mo
  drawing : Bool
  frames : List (Mo × List A)

/-- Is it a dispatch of user code? -/
def POp.isDispatch : POp A → Bool
  | .user (.dispatch _) => true
  | _ => false

/-- What happens. -/
inductive BOp (A : Type) where
  | op (o : POp A)
  | tick
  | tock

/-- The steps, `sdl.hpp:85-102`, `:163-180`.  Tasks are timeouts of the browser, which have nothing to do with the queue of SDL;
those with the same delay are run in the order in which they were set.  The browser calls `step` for a frame whenever no other
function runs. -/
def Browser.step (c : Cfg A Mo) (b : Browser A Mo) : BOp A → Option (Browser A Mo)
  | .op o =>
    if b.drawing && !o.isDispatch then none
    else (Par.step c 1 b.p o).map fun p => { b with p := p }
  | .tick =>
    if !b.drawing && b.p.jobs.isEmpty then
      some { b with drawing := true, frames := b.frames ++ [(b.p.st.get, dispatches b.p.st.log)] }
    else none
  | .tock => if b.drawing then some { b with drawing := false } else none

/-- The state at the beginning. -/
def Browser.start (c : Cfg A Mo) : Browser A Mo := ⟨Par.start c, false, []⟩

/-- Several steps, one after the other. -/
def Browser.exec (c : Cfg A Mo) (b : Browser A Mo) : List (BOp A) → Option (Browser A Mo)
  | [] => some b
  | o :: os => (Browser.step c b o).bind fun b' => Browser.exec c b' os

end Verif.Store
