import Verif.Example.Todo

/-!
The window of the example `todo` that dispatches actions, `example/todo/qml-redux/main.cpp`: what it shows, and what its
buttons do.
-/

namespace Verif.Todo

variable {P : Type} [DecidableEq P]

/-- The program with its window. -/
structure Win (P : Type) where
  sys : Sys P
  /-- what the readers of the store have: the app as it was when it was last published, `lager/store.hpp:164-181` -/
  shown : App P
  /-- ghost: the actions that were evaluated since then -/
  since : List (Act P) := []

/-- `Model::item`, `example/todo/qml-redux/main.cpp:74-85`: the position of the item, if there is one. -/
def Win.item (index : Int) : Option Nat := if index < 0 then none else some index.toNat

/-- What an `Item` shows, `main.cpp:43-50`: `or_default` of what is at the position. -/
def Win.row (w : Win P) (i : Nat) : Item := w.shown.doc[i]?.getD ⟨false, ""⟩

/-- `Item::toggle`, `Item::remove`, `main.cpp:52-53`, with the conversion of the context, `:80-83`; `Model::add`, `:87-90`;
`App::save`, `App::load`, `:126-134`. -/
inductive Click (P : Type) where
  | item (i : Nat) (a : ItemAct)
  | add (text : String)
  | save (file : P)
  | load (file : P)

/-- The action that is dispatched. -/
def Click.act : Click P → Act P
  | .item i a => .doc (.item i a)
  | .add text => .doc (.add text)
  | .save f => .save f
  | .load f => .load f

/-- What happens. -/
inductive WEv (P : Type) where
  /-- the user does something -/
  | click (c : Click P)
  /-- the event loop runs the next task -/
  | work (d : Disk)
  /-- other programs write or remove files -/
  | outside (file : P) (c : Option Content)

/-- A step.  A task after an action publishes the app and notifies before it runs the effect, `lager/store.hpp:164-181`. -/
def Win.step (ext : P → P) (w : Win P) : WEv P → Win P
  | .click c => { w with sys := w.sys.step ext (.dispatch c.act) }
  | .outside f c => { w with sys := w.sys.step ext (.outside f c) }
  | .work d =>
    let sys := w.sys.step ext (.work d)
    match w.sys.queue with
    | [] => w
    | .act a :: _ => { w with sys := sys, since := w.since ++ [a] }
    | _ :: _ => { sys := sys, shown := w.sys.app, since := [] }

/-- Several events, one after the other. -/
def Win.run (ext : P → P) (w : Win P) (es : List (WEv P)) : Win P := es.foldl (Win.step ext) w

end Verif.Todo
