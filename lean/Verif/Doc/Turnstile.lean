/-!
The turnstile of `doc/reducers.rst:104-142`, in a store with a queue.  The reducer is extended by an effect that lets one customer
through, as `doc/effects.rst` proposes.  The program beside the store may also decide by the value of the store whether somebody
may pass; both are counted.
-/

namespace Verif.Turnstile

/-- `doc/reducers.rst:126-128`. -/
inductive Model where
  | locked
  | unlocked
deriving DecidableEq

/-- `doc/reducers.rst:130-132`. -/
inductive Act where
  | push
  | coin
deriving DecidableEq

/-- `update`, `doc/reducers.rst:134-140`.  There, the two functions that are visited return two different types, which `std::visit`
does not accept; here, both return a model. -/
def update (_ : Model) : Act → Model
  | .push => .locked
  | .coin => .unlocked

/-- The effect that is added: who pushes the unlocked arms passes. -/
def passes (m : Model) (a : Act) : Bool :=
  match m, a with
  | .unlocked, .push => true
  | _, _ => false

/-- The tasks of the store. -/
inductive Task where
  /-- the reducer is called, `lager/store.hpp:157-163` -/
  | eval (a : Act)
  /-- `send_down` and `notify`, and then the effect if there is one, `lager/store.hpp:164-191` -/
  | after (eff : Bool)
deriving DecidableEq

/-- The program: the store, and who was let through. -/
structure Sys where
  /-- `current_`, `lager/detail/nodes.hpp:259` -/
  model : Model
  /-- `last_`, `lager/detail/nodes.hpp:260`, the value of the store -/
  last : Model
  /-- `needs_send_down_` -/
  dirty : Bool
  queue : List Task
  /-- how many were let through by the effect -/
  through : Nat
  /-- how many were let through because the store was seen to be unlocked when they pushed -/
  waved : Nat
  /-- ghost: the actions that were dispatched -/
  acts : List Act
  /-- ghost: what a watcher was told -/
  told : List Model
deriving DecidableEq

/-- What happens. -/
inductive Op where
  /-- somebody inserts a coin, or pushes -/
  | act (a : Act)
  /-- the loop runs a task -/
  | work
deriving DecidableEq

/-- `push_down`, `lager/detail/nodes.hpp:205-211`, and the task that is posted. -/
def Sys.eval (s : Sys) (a : Act) : Sys :=
  { s with
    model := update s.model a
    dirty := s.dirty || update s.model a ≠ s.model
    queue := s.queue ++ [.after (passes s.model a)] }

/-- `send_down` and `notify`, `lager/detail/nodes.hpp:213-257`. -/
def Sys.publish (s : Sys) : Sys :=
  if s.dirty then { s with last := s.model, dirty := false, told := s.told ++ [s.model] } else s

/-- The effect. -/
def Sys.effect (s : Sys) (eff : Bool) : Sys :=
  if eff then { s with through := s.through + 1 } else s

/-- The loop runs a task, `lager/store.hpp:157-192`. -/
def Sys.work (s : Sys) : Option Sys :=
  match s.queue with
  | [] => none
  | .eval a :: q => some (Sys.eval { s with queue := q } a)
  | .after e :: q => some ((Sys.publish { s with queue := q }).effect e)

/-- The program looks at the value of the store, `lager/reader.hpp:35`, and dispatches. -/
def Sys.act (s : Sys) (a : Act) : Sys :=
  { s with
    waved := if s.last = .unlocked ∧ a = .push then s.waved + 1 else s.waved
    queue := s.queue ++ [.eval a]
    acts := s.acts ++ [a] }

/-- One step. -/
def Sys.step (s : Sys) : Op → Option Sys
  | .act a => some (s.act a)
  | .work => s.work

/-- "Initially the arms are locked". -/
def start : Sys := ⟨.locked, .locked, false, [], 0, 0, [], []⟩

/-- Several steps, one after the other. -/
def Sys.exec (s : Sys) : List Op → Option Sys
  | [] => some s
  | o :: os => (s.step o).bind fun s' => s'.exec os

end Verif.Turnstile
