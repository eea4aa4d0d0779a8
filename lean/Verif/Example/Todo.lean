/-!
The example `todo`: `example/todo/item.cpp`, `example/todo/model.cpp`, `example/todo/app.cpp`, and a store that runs it, with
files.
-/

namespace Verif.Todo

/-- `item`, `example/todo/item.hpp:20-24`. -/
structure Item where
  done : Bool := false
  text : String
deriving DecidableEq

/-- `item_action`, `example/todo/item.hpp:26-30`. -/
inductive ItemAct where
  | toggle
  | remove
deriving DecidableEq

/-- `update` of an item, `example/todo/item.cpp:19-27`. -/
def Item.update (s : Item) : ItemAct → Item
  | .toggle => { s with done := !s.done }
  | .remove => s

/-- `model`, `example/todo/model.hpp:22-25`. -/
abbrev Doc := List Item

/-- `model_action`, `example/todo/model.hpp:27-32`. -/
inductive DocAct where
  | add (text : String)
  | item (i : Nat) (a : ItemAct)
deriving DecidableEq

/-- `update` of a model, `example/todo/model.cpp:28-50`. -/
def docUpdate (s : Doc) : DocAct → Doc
  | .add text => if !text.isEmpty then ⟨false, text⟩ :: s else s
  | .item i a =>
    if i ≥ s.length then s
    else if a = .remove then s.eraseIdx i
    else s.modify i (·.update a)

variable {P : Type} [DecidableEq P]

/-- `app`, `example/todo/app.hpp:21-25`; `P` are paths. -/
structure App (P : Type) where
  doc : Doc
  path : P
deriving DecidableEq

/-- `app_action`, `example/todo/app.hpp:27-41`. -/
inductive Act (P : Type) where
  | doc (a : DocAct)
  | save (file : P)
  | load (file : P)
  | loaded (file : P) (doc : Doc)
deriving DecidableEq

/-- The two effects, with what they have captured, `example/todo/app.cpp:24`, `:38`. -/
inductive Eff (P : Type) where
  | save (doc : Doc) (file : P)
  | load (file : P)
deriving DecidableEq

/-- `update` of the app, `example/todo/app.cpp:19-61`; `ext` is `replace_extension("todo")`. -/
def update (ext : P → P) (s : App P) : Act P → App P × Option (Eff P)
  | .save file =>
    let s := { s with path := ext file }
    (s, some (.save s.doc s.path))
  | .load file => (s, some (.load file))
  | .loaded file doc => (⟨doc, file⟩, none)
  | .doc a => ({ s with doc := docUpdate s.doc a }, none)

/-- What is in a file: what `save` has written, or something that `load` cannot read.  (How a list of items is written is not
part of this model.) -/
inductive Content where
  | doc (d : Doc)
  | broken
deriving DecidableEq

/-- A task of the event loop: to reduce an action, an effect, or, after an action without one, to notify watchers. -/
inductive Task (P : Type) where
  | act (a : Act P)
  | eff (e : Eff P)
  | notify
deriving DecidableEq

/-- The program. -/
structure Sys (P : Type) where
  app : App P
  /-- the queue of the event loop -/
  queue : List (Task P)
  files : P → Option Content
  /-- what `logger::error` was called with -/
  errors : List P

/-- What the system does when a file is written. -/
inductive Disk where
  | ok
  /-- it cannot be opened: `s.exceptions(...)` throws -/
  | closed
  /-- it was opened, so that it is empty now, and then something fails -/
  | full
deriving DecidableEq

/-- What happens. -/
inductive Ev (P : Type) where
  /-- the user does something -/
  | dispatch (a : Act P)
  /-- the event loop runs the next task -/
  | work (d : Disk)
  /-- other programs write or remove files -/
  | outside (file : P) (c : Option Content)

/-- A file is written, or removed. -/
def write (files : P → Option Content) (file : P) (c : Option Content) : P → Option Content :=
  fun g => if g = file then c else files g

/-- The effects, `example/todo/app.cpp:24-34`, `:38-50`; `save` and `load` of `example/todo/model.cpp:52-71`. -/
def perform (s : Sys P) (d : Disk) : Eff P → Sys P
  | .save m f =>
    match d with
    | .ok => { s with files := write s.files f (some (.doc m)) }
    | .closed => { s with errors := s.errors ++ [f] }
    | .full => { s with files := write s.files f (some .broken), errors := s.errors ++ [f] }
  | .load f =>
    match s.files f with
    | some (.doc m) => { s with queue := s.queue ++ [.act (.loaded f m)] }
    | _ => { s with errors := s.errors ++ [f] }

/-- The store: actions and effects are tasks in a queue, `lager/store.hpp:150-196`. -/
def Sys.step (ext : P → P) (s : Sys P) : Ev P → Sys P
  | .dispatch a => { s with queue := s.queue ++ [.act a] }
  | .outside f c => { s with files := write s.files f c }
  | .work d =>
    match s.queue with
    | [] => s
    | .act a :: q =>
      let (app, eff) := update ext s.app a
      { s with
        app := app
        queue := q ++ [match eff with
          | some e => .eff e
          | none => .notify] }
    | .notify :: q => { s with queue := q }
    | .eff e :: q => perform { s with queue := q } d e

/-- Several events, one after the other. -/
def Sys.run (ext : P → P) (s : Sys P) (es : List (Ev P)) : Sys P := es.foldl (Sys.step ext) s

end Verif.Todo
