import Verif.Store.Model

/-!
Intent, as the documentation does it: commands in the language of the user interface are turned into actions, by calling
the reducer (`doc/actions.rst`) or by an effect that dispatches the action (`doc/effects.rst`).
-/

namespace Verif.Doc

open Verif.Store

/-- `todo`, `doc/actions.rst:46-50`. -/
structure Todo where
  content : String
  completed : Bool
  deriving DecidableEq

/-- `todos_action`, `doc/actions.rst:38-40, 100-104`. -/
inductive TodoAct where
  | add (content : String)
  | remove (index : Nat)
  | toggle (index : Nat)
  deriving DecidableEq

/-- `update_todos`, `doc/actions.rst:69-88`.  `none` is undefined behaviour: `erase` and `update` of `immer::flex_vector`
need an index that is there. -/
def updateTodos (m : List Todo) : TodoAct → Option (List Todo)
  | .add c => some (m ++ [⟨c, false⟩])
  | .remove i => if i < m.length then some (m.take i ++ m.drop (i + 1)) else none
  | .toggle i =>
    match m[i]? with
    | some t => some (m.set i { t with completed := !t.completed })
    | none => none

/-- `todos_command`, `doc/actions.rst:174-178`. -/
structure TodoCmd where
  command : String
  argument : String
  deriving DecidableEq

/-- The digits at the beginning. -/
def digits : List Char → List Char
  | [] => []
  | c :: s => if c.isDigit then c :: digits s else []

/-- The number that digits mean. -/
def number (s : List Char) : Nat := s.foldl (fun n c => 10 * n + (c.toNat - '0'.toNat)) 0

/-- `std::stoi`, with numbers of 32 bits: `none` if it throws `std::invalid_argument` or `std::out_of_range`. -/
def stoi (s : String) : Option Int :=
  let s := s.toList.dropWhile fun c => c = ' ' || c = '\t' || c = '\n' || c = '\r' || c = '\x0b' || c = '\x0c'
  let (neg, s) := match s with
    | '-' :: s => (true, s)
    | '+' :: s => (false, s)
    | s => (false, s)
  match digits s with
  | [] => none
  | d =>
    let n : Int := if neg then - (number d : Int) else number d
    if - 2 ^ 31 ≤ n ∧ n < 2 ^ 31 then some n else none

/-- The conversion of an `int` to `std::size_t` of 64 bits.  (In braces it is ill-formed; a cast is taken for granted.) -/
def index (n : Int) : Nat := (n % 2 ^ 64).toNat

/-- `command_actions`, `doc/actions.rst:182-187`, and `find`: `none` is `end()`. -/
def commandActions (command : String) : Option (String → Option TodoAct) :=
  if command = "add" then some fun arg => some (.add arg)
  else if command = "remove" then some fun arg => (stoi arg).map fun n => .remove (index n)
  else if command = "toggle" then some fun arg => (stoi arg).map fun n => .toggle (index n)
  else none

/-- `update` with a command, `doc/actions.rst:180-193`.  The outer `none` is an exception. -/
def updateCommand (m : List Todo) (c : TodoCmd) : Option (Option (List Todo)) :=
  match commandActions c.command with
  | none => some (some m)
  | some f => (f c.argument).map fun a => updateTodos m a

/-- The effect `[] (auto&& ctx) { ctx.dispatch(new_action); }` is user code: `code` numbers the actions. -/
structure Coding (A : Type) where
  code : A → Nat
  dec : Nat → A
  dec_code : ∀ a, dec (code a) = a

/-- `update` with effects, `doc/effects.rst:91-119`: the model and the effect.  Undefined behaviour, `none`, lasts. -/
def updateIntent (k : Coding TodoAct) (m : Option (List Todo)) : TodoAct ⊕ TodoCmd → Option (List Todo) × Eff
  | .inl a => (m.bind fun m => updateTodos m a, .noop)
  | .inr c =>
    match commandActions c.command with
    | none => (m, .noop)
    | some f =>
      match f c.argument with
      | some a => (m, .prim (k.code a))
      | none => (m, .noop)

/-- Does it throw?  The conversion of an argument may. -/
def intentThrows : TodoAct ⊕ TodoCmd → Bool
  | .inl _ => false
  | .inr c =>
    match commandActions c.command with
    | none => false
    | some f => (f c.argument).isNone

/-- A store with this reducer. -/
def todoStore (k : Coding TodoAct) (hasF : Bool) (init : List Todo) : Cfg (TodoAct ⊕ TodoCmd) (Option (List Todo)) where
  reducer := updateIntent k
  throws _ a := intentThrows a
  changed a b := decide (a ≠ b)
  trans := false
  hasF := hasF
  init := some init

end Verif.Doc
