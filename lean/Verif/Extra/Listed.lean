import Verif.Extra.Derive

/-!
States whose values are structs that were declared with `LAGER_STRUCT`, `LAGER_STRUCT_TEMPLATE` or `LAGER_STRUCT_NESTED`
(`lager/extra/struct.hpp:20-38`), where the declaration may leave members out.

Simplifications: the members have one type, with an `==` that is equality; callbacks do not write.  What is assumed: a declaration
that lists a member twice compiles, and `boost::pfr::tuple_size_v` is the number of members.
-/

namespace Verif.Listed

open Verif.Extra

/-- A struct with `n` members. -/
abbrev Value (n : Nat) (V : Type) := Fin n → V

variable {n : Nat} {V : Type} [DecidableEq V]

/-- A member in a declaration. -/
def member (n : Nat) (V : Type) [DecidableEq V] (i : Fin n) : Member (Value n V) := ⟨V, (· i), fun x y => x == y, fun _ => 0⟩

/-- `operator==` for a declaration that lists the members `ls`, `lager/extra/derive/eq.hpp:20-26`. -/
def equal (ls : List (Fin n)) (a b : Value n V) : Bool := derivedEq (ls.map (member n V)) a b

/-- `has_changed`, `lager/detail/nodes.hpp:103-107`. -/
def changed (ls : List (Fin n)) (a b : Value n V) : Bool := !equal ls a b

/-- The three macros, `lager/extra/struct.hpp:25`, `:30-31`, `:38`. -/
inductive Macro where
  | struct
  | template
  | nested
deriving DecidableEq

/-- Does a declaration compile?  `LAGER_DERIVE_IMPL_SIZE_CHECK`, `lager/extra/derive/size_check.hpp:19-25`; without Boost.PFR it is empty,
`:37`, and only `LAGER_STRUCT` asks for it. -/
def compiles (pfr : Bool) (k : Macro) (n : Nat) (ls : List (Fin n)) : Bool :=
  match k with
  | .struct => if pfr then n == ls.length else true
  | .template => true
  | .nested => true

/-- A state with one watcher. -/
structure St (n : Nat) (V : Type) where
  /-- `current_`, `lager/detail/nodes.hpp:259` -/
  current : Value n V
  /-- `last_`, `:260`: what `get` returns -/
  last : Value n V
  /-- `needs_send_down_` -/
  dirty : Bool
  /-- ghost: what was written, in order -/
  written : List (Value n V)
  /-- ghost: what the watcher was told, in order -/
  told : List (Value n V)

/-- What happens. -/
inductive Op (n : Nat) (V : Type) where
  | set (v : Value n V)
  | update (f : Value n V → Value n V)
  | commit

/-- `push_down`, `lager/detail/nodes.hpp:204-211`. -/
def St.pushDown (ls : List (Fin n)) (s : St n V) (v : Value n V) : St n V :=
  if changed ls v s.current then { s with current := v, dirty := true } else s

/-- `send_down` and `notify`, `lager/detail/nodes.hpp:213-257`. -/
def St.publish (s : St n V) : St n V :=
  if s.dirty then { s with last := s.current, dirty := false, told := s.told ++ [s.current] } else s

/-- `send_up`, `lager/state.hpp:42-58`. -/
def St.sendUp (ls : List (Fin n)) (auto : Bool) (s : St n V) (v : Value n V) : St n V :=
  let s := St.pushDown ls { s with written := s.written ++ [v] } v
  if auto then s.publish else s

/-- `set` and `update`, `lager/writer.hpp:31-41`; `commit`, `lager/commit.hpp:40-45`. -/
def St.step (ls : List (Fin n)) (auto : Bool) (s : St n V) : Op n V → St n V
  | .set v => s.sendUp ls auto v
  | .update f => s.sendUp ls auto (f s.current)
  | .commit => s.publish

/-- `make_state`, `lager/state.hpp:106-116`. -/
def start (v : Value n V) : St n V := ⟨v, v, false, [], []⟩

/-- Several steps, one after the other. -/
def St.exec (ls : List (Fin n)) (auto : Bool) (s : St n V) (os : List (Op n V)) : St n V := os.foldl (St.step ls auto) s

end Verif.Listed
