/-!
A tree of widgets beside a store, `doc/views.rst:95-122`: listeners of widgets dispatch actions, and a watcher compares each new
model with a copy of the last one, and updates the widgets where they differ.  The window of the example `snake` is made like
this, `example/snake/qml/qmodel.cpp:54-68`.
-/

namespace Verif.Widgets

/-- The program: the reducer, the part of the model that a widget shows, what its listener dispatches, and whether the watcher
compares.  The reducer has no effects. -/
structure Cfg (M A I V : Type) where
  update : M → A → M
  part : I → M → V
  on : I → V → A
  diff : Bool

/-- The tasks of the store. -/
inductive Task (A : Type) where
  /-- the reducer is called, `lager/store.hpp:157-163` -/
  | eval (a : A)
  /-- `send_down` and `notify`, `lager/store.hpp:187-192` -/
  | publish
deriving DecidableEq

/-- What widgets have seen. -/
inductive Log (M I V : Type) where
  /-- the user has changed a widget -/
  | edited (i : I) (v : V)
  /-- the watcher was called -/
  | drawn (m : M)

/-- The program: the store, the copy of the model that the watcher keeps, `doc/views.rst:116-122`, and the widgets. -/
structure Sys (M A I V : Type) where
  model : M
  dirty : Bool
  queue : List (Task A)
  /-- the copy that the watcher keeps -/
  old : M
  widgets : I → V
  /-- ghost: the actions that were evaluated -/
  done : List A
  /-- ghost -/
  log : List (Log M I V)

/-- What happens. -/
inductive Op (A I V : Type) where
  /-- something is dispatched -/
  | act (a : A)
  /-- the user manipulates a widget -/
  | edit (i : I) (v : V)
  /-- the loop runs a task -/
  | work

variable {M A I V : Type} [DecidableEq M] [DecidableEq I] [DecidableEq V]

/-- The watcher, `doc/views.rst:116-122`. -/
def Cfg.watcher (c : Cfg M A I V) (s : Sys M A I V) : Sys M A I V :=
  { s with
    old := s.model
    widgets := fun i => if !c.diff || c.part i s.old ≠ c.part i s.model then c.part i s.model else s.widgets i
    log := s.log ++ [.drawn s.model] }

/-- `push_down`, `lager/detail/nodes.hpp:205-211`, and the task that is posted after it. -/
def Cfg.eval (c : Cfg M A I V) (s : Sys M A I V) (a : A) : Sys M A I V :=
  { s with
    model := c.update s.model a
    dirty := s.dirty || c.update s.model a ≠ s.model
    queue := s.queue ++ [.publish]
    done := s.done ++ [a] }

/-- A task is run, `lager/store.hpp:157-192`. -/
def Cfg.work (c : Cfg M A I V) (s : Sys M A I V) : Option (Sys M A I V) :=
  match s.queue with
  | [] => none
  | .eval a :: q => some (c.eval { s with queue := q } a)
  | .publish :: q => if s.dirty then some (c.watcher { s with queue := q, dirty := false }) else some { s with queue := q }

/-- One step; an edit dispatches the action for the new value, and the widget shows it already. -/
def Cfg.step (c : Cfg M A I V) (s : Sys M A I V) : Op A I V → Option (Sys M A I V)
  | .act a => some { s with queue := s.queue ++ [.eval a] }
  | .edit i v => some
      { s with
        widgets := fun j => if j = i then v else s.widgets j
        queue := s.queue ++ [.eval (c.on i v)]
        log := s.log ++ [.edited i v] }
  | .work => c.work s

/-- The widgets are made from the first model. -/
def Cfg.start (c : Cfg M A I V) (m : M) : Sys M A I V := ⟨m, false, [], m, fun i => c.part i m, [], []⟩

/-- Several steps, one after the other. -/
def Cfg.exec (c : Cfg M A I V) (s : Sys M A I V) : List (Op A I V) → Option (Sys M A I V)
  | [] => some s
  | o :: os => (c.step s o).bind fun s' => c.exec s' os

/-- The same program with a reader for each widget, `doc/views.rst:124-128`, `doc/cursors.rst:457-482`: a watcher of each reader
updates its widget. -/
structure CSys (M A I V : Type) where
  model : M
  dirty : Bool
  queue : List (Task A)
  /-- the values of the readers -/
  readers : I → V
  widgets : I → V

/-- `send_down` and `notify`, `lager/detail/nodes.hpp:213-257`: each reader computes its value, `lager/detail/lens_nodes.hpp:63-66`,
and calls its watcher if that has changed. -/
def Cfg.notify (c : Cfg M A I V) (s : CSys M A I V) : CSys M A I V :=
  { s with
    readers := fun i => if c.part i s.model ≠ s.readers i then c.part i s.model else s.readers i
    widgets := fun i => if c.part i s.model ≠ s.readers i then c.part i s.model else s.widgets i }

/-- A task is run, `lager/store.hpp:157-192`. -/
def Cfg.cwork (c : Cfg M A I V) (s : CSys M A I V) : Option (CSys M A I V) :=
  match s.queue with
  | [] => none
  | .eval a :: q => some
      { s with
        model := c.update s.model a
        dirty := s.dirty || c.update s.model a ≠ s.model
        queue := q ++ [.publish] }
  | .publish :: q => if s.dirty then some (c.notify { s with queue := q, dirty := false }) else some { s with queue := q }

/-- One step, as `Cfg.step`. -/
def Cfg.cstep (c : Cfg M A I V) (s : CSys M A I V) : Op A I V → Option (CSys M A I V)
  | .act a => some { s with queue := s.queue ++ [.eval a] }
  | .edit i v => some
      { s with
        widgets := fun j => if j = i then v else s.widgets j
        queue := s.queue ++ [.eval (c.on i v)] }
  | .work => c.cwork s

/-- The widgets are made from the values of the readers. -/
def Cfg.cstart (c : Cfg M A I V) (m : M) : CSys M A I V := ⟨m, false, [], fun i => c.part i m, fun i => c.part i m⟩

/-- Several steps, one after the other. -/
def Cfg.cexec (c : Cfg M A I V) (s : CSys M A I V) : List (Op A I V) → Option (CSys M A I V)
  | [] => some s
  | o :: os => (c.cstep s o).bind fun s' => c.cexec s' os

end Verif.Widgets
