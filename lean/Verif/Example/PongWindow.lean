import Verif.Example.Pong
import Verif.Store.Pump

/-!
The game `autopong` in a window, `example/autopong/sdl2/main.cpp`, on the loop of SDL.
-/

namespace Verif.Pong

open Verif.Store

/-- The events that matter. -/
inductive Event (F : Type) where
  /-- `SDL_MOUSEMOTION`, with `(float) event.motion.xrel` -/
  | motion (xrel : F)
  | quit
  | other

/-- `intent` and the handler, `example/autopong/sdl2/main.cpp:131-139, 164-168`. -/
def handler (F : Type) : Handler (Event F) (Act F) where
  intent
    | .motion d => some (.move d)
    | _ => none
  stops
    | .quit => true
    | _ => false

/-- The store, `example/autopong/sdl2/main.cpp:154-162`: the model has no `==`, so that any new one is a change.  The place where the
ball starts is another random one for each game; `s` is that of the first. -/
def cfg {F : Type} (f : Floats F) (w : Walls F) (s : F × F) : Cfg (Act F) (Model F) where
  reducer m a := ((update f w m a).1, .empty)
  changed _ _ := true
  trans := false
  hasF := false
  init := new f s

end Verif.Pong
