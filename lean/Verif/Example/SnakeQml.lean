import Verif.Example.SnakeProps

/-!
The window of the example `snake`, `example/snake/qml`: a store on the event loop of Qt, an object with what is shown, a timer, and
a dialog at the end of a game.
-/

namespace Verif.Snake

variable {G : Type}

/-- The tasks of the store in the queue of Qt, `lager/event_loop/qt.hpp:41-46`. -/
inductive Task where
  /-- the reducer is called, `lager/store.hpp:157-163` -/
  | eval (a : Act)
  /-- `send_down` and `notify`, `lager/store.hpp:187-192` -/
  | publish
deriving DecidableEq

/-- What the object `Game` has, `example/snake/qml/qmodel.hpp:34, 77-82`. -/
structure View where
  body : List Pt
  apple : Pt
  over : Bool
deriving DecidableEq

/-- The program. -/
structure Window (G : Type) where
  app : App G
  /-- `app` has changed since it was published.  (It has no `==`, so each action counts as a change.) -/
  dirty : Bool
  queue : List Task
  view : View
  /-- the dialog is open -/
  dialog : Bool
  /-- ghost: the actions that were evaluated -/
  done : List Act
  /-- ghost: the dialog was closed without being accepted -/
  dismissed : Bool

/-- `Game::setModel`, `example/snake/qml/qmodel.cpp:54-68`, `SnakeBody::setModel`, `:31-38`; and what `main.qml:39-45` does when
`over` changes. -/
def Window.setModel (w : Window G) (g : Game) : Window G :=
  let body := if w.view.body ≠ g.body then g.body else w.view.body
  let apple := if w.view.apple ≠ g.apple then g.apple else w.view.apple
  if w.view.over ≠ g.over then { w with view := ⟨body, apple, g.over⟩, dialog := w.dialog || g.over }
  else { w with view := ⟨body, apple, w.view.over⟩ }

/-- `dispatch`, `lager/store.hpp:149-158`. -/
def Window.dispatch (w : Window G) (a : Act) : Window G := { w with queue := w.queue ++ [.eval a] }

/-- What happens. -/
inductive WOp where
  /-- an arrow key, `main.qml:63-81` -/
  | left
  | right
  | up
  | down
  /-- the timer, `main.qml:22-29` -/
  | timer
  /-- the dialog is accepted, `main.qml:34-36` -/
  | accept
  /-- it is closed in another way -/
  | dismiss
  /-- the loop runs a task -/
  | work
deriving DecidableEq

/-- A task is run.  `none` with a task in the queue is undefined behaviour. -/
def Window.work (next : G → Int × G) (w : Window G) : Option (Window G) :=
  match w.queue with
  | [] => none
  | .eval a :: q => (update next w.app a).map fun app =>
      { w with app := app, dirty := true, queue := q ++ [.publish], done := w.done ++ [a] }
  | .publish :: q =>
    if w.dirty then some ({ w with queue := q, dirty := false }.setModel w.app.game) else some { w with queue := q }

/-- The steps.  Simplified: keys may come while the dialog is open. -/
def Window.step (next : G → Int × G) (w : Window G) : WOp → Option (Window G)
  | .left => some (w.dispatch .goLeft)
  | .right => some (w.dispatch .goRight)
  | .up => some (w.dispatch .goUp)
  | .down => some (w.dispatch .goDown)
  | .timer => if !w.view.over then some (w.dispatch .tick) else none
  | .accept => if w.dialog then some ({ w with dialog := false }.dispatch .reset) else none
  | .dismiss => if w.dialog then some { w with dialog := false, dismissed := true } else none
  | .work => w.work next

/-- `main`, `example/snake/qml/main.cpp:33-47`: the object is new, and gets the first game. -/
def Window.start (next : G → Int × G) (g : G) : Window G :=
  Window.setModel ⟨makeInitial next g, false, [], ⟨[], (0, 0), false⟩, false, [], false⟩ (makeInitial next g).game

/-- Several steps, one after the other. -/
def Window.exec (next : G → Int × G) (w : Window G) : List WOp → Option (Window G)
  | [] => some w
  | o :: os => (w.step next o).bind fun w' => w'.exec next os

/-- The interval of the timer in milliseconds, with so many cells, `main.qml:16-25`.  `/` rounds down here. -/
def interval (count : Int) : Int := max (100 - 10 * ((count - 3) / 5)) 10

end Verif.Snake
