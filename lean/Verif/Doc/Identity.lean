/-!
Identity, `doc/model.rst:176-291`: the user of a program sees a list of things, and removes or toggles what they see.  The action
that is dispatched refers to the thing by its index in the list, as in `doc/actions.rst:38-40`, or by an identity value.
-/

namespace Verif.Identity

/-- A thing.  `key` is its identity value; a program that uses indices does not look at it. -/
structure Item where
  key : Nat
  done : Bool
deriving DecidableEq

/-- What an action refers to a thing by: an index, `doc/actions.rst:69-88`, or an identity value, `doc/model.rst:267-279`. -/
inductive Ref where
  | at (i : Nat)
  | key (k : Nat)
deriving DecidableEq

/-- The actions of `doc/actions.rst:69-88`. -/
inductive Act where
  | add (k : Nat)
  | remove (r : Ref)
  | toggle (r : Ref)
deriving DecidableEq

/-- `update_todos`, `doc/actions.rst:69-88`, and the same with identity values as in `doc/model.rst:267-279`.  `none` is undefined
behaviour: `erase` and `update` of `immer::flex_vector` need an index that is there. -/
def apply (m : List Item) : Act → Option (List Item)
  | .add k => some (m ++ [⟨k, false⟩])
  | .remove (.at i) => if i < m.length then some (m.take i ++ m.drop (i + 1)) else none
  | .remove (.key k) => some (m.filter fun t => t.key ≠ k)
  | .toggle (.at i) =>
    match m[i]? with
    | some t => some (m.set i { t with done := !t.done })
    | none => none
  | .toggle (.key k) => some (m.map fun t => if t.key = k then { t with done := !t.done } else t)

/-- What the user wants. -/
inductive Wish where
  | add (k : Nat)
  | remove (k : Nat)
  | toggle (k : Nat)
deriving DecidableEq

/-- The tasks of the store. -/
inductive Task where
  /-- the reducer is called, `lager/store.hpp:157-163` -/
  | eval (a : Act)
  /-- `send_down` and `notify`, `lager/store.hpp:187-192` -/
  | publish
deriving DecidableEq

/-- The program: the store, and what the user has wished for. -/
structure Sys where
  /-- `current_`, `lager/detail/nodes.hpp:259` -/
  model : List Item
  /-- `last_`, `lager/detail/nodes.hpp:260`: what the user sees -/
  last : List Item
  /-- `needs_send_down_` -/
  dirty : Bool
  queue : List Task
  /-- something undefined has happened -/
  ub : Bool
  /-- the next identity value -/
  next : Nat
  /-- ghost: what the user has done, in terms of the things that they saw -/
  wishes : List Wish
deriving DecidableEq

/-- What happens; positions are those of things that the user sees. -/
inductive Op where
  | add
  | remove (i : Nat)
  | toggle (i : Nat)
  /-- the loop runs a task -/
  | work
deriving DecidableEq

/-- `dispatch`, `lager/store.hpp:149-158`. -/
def Sys.post (s : Sys) (a : Act) (w : Wish) : Sys :=
  { s with queue := s.queue ++ [.eval a], wishes := s.wishes ++ [w] }

/-- How the program refers to a thing. -/
def ref (byKey : Bool) (i : Nat) (t : Item) : Ref := if byKey then .key t.key else .at i

/-- `push_down`, `lager/detail/nodes.hpp:205-211`, and the task that is posted after it. -/
def Sys.eval (s : Sys) (a : Act) : Sys :=
  match apply s.model a with
  | none => { s with ub := true }
  | some m => { s with model := m, dirty := s.dirty || m ≠ s.model, queue := s.queue ++ [.publish] }

/-- `send_down`, `lager/detail/nodes.hpp:213-226`. -/
def Sys.publish (s : Sys) : Sys :=
  if s.dirty then { s with last := s.model, dirty := false } else s

/-- The loop runs a task, `lager/store.hpp:157-192`. -/
def Sys.work (s : Sys) : Option Sys :=
  match s.queue with
  | [] => none
  | .eval a :: q => some (Sys.eval { s with queue := q } a)
  | .publish :: q => some (Sys.publish { s with queue := q })

/-- Nothing can be said about what comes after something undefined. -/
def Sys.step (byKey : Bool) (s : Sys) (o : Op) : Option Sys :=
  if s.ub then none else
  match o with
  | .add => some { s.post (.add s.next) (.add s.next) with next := s.next + 1 }
  | .remove i => s.last[i]?.map fun t => s.post (.remove (ref byKey i t)) (.remove t.key)
  | .toggle i => s.last[i]?.map fun t => s.post (.toggle (ref byKey i t)) (.toggle t.key)
  | .work => s.work

/-- The state at the beginning: no things. -/
def start : Sys := ⟨[], [], false, [], false, 0, []⟩

/-- Several steps, one after the other; `none` if one of them is impossible. -/
def Sys.exec (byKey : Bool) (s : Sys) : List Op → Option Sys
  | [] => some s
  | o :: os => (s.step byKey o).bind fun s' => s'.exec byKey os

end Verif.Identity
