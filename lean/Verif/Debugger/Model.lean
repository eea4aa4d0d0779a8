/-
Model of the time-travelling debugger, `lager/debug/debugger.hpp`.

Effects are modelled by what they do: an effect is the list of atomic effects it
runs, so `noop` is `[]` and `sequence(a, b)` (`lager/effect.hpp:240-263`) is `a ++ b`.
`immer::vector` is `List`.  `none` stands for a thrown `std::runtime_error`.
-/

namespace Verif.Debugger

/-- Atomic effects: those of the user's reducer, and `loop().pause()`, `loop().resume()`. -/
inductive Atom (E : Type) where
  | user (e : E)
  | pause
  | resume
  deriving DecidableEq

/-- A user reducer, with or without effect: `lager/effect.hpp:207-235`. -/
abbrev Reducer (M A E : Type) := M → A → M × Option E

/-- `debugger::action`, `lager/debug/debugger.hpp:66-71`. -/
inductive Action (A : Type) where
  | act (a : A)
  | goto_ (cursor : Nat)
  | undo
  | redo
  | pause
  | resume
  deriving DecidableEq

/-- `debugger::step`, `lager/debug/debugger.hpp:73-78`. -/
structure Step (A M : Type) where
  action : A
  model : M
  deriving DecidableEq

/-- `debugger::model`, `lager/debug/debugger.hpp:80-94`. -/
structure Model (A M : Type) where
  cursor : Nat
  paused : Bool
  init : M
  history : List (Step A M)
  pending : List A
  deriving DecidableEq

variable {A M E : Type}

/-- `model(Model i)`, `lager/debug/debugger.hpp:90-92`. -/
def Model.start (i : M) : Model A M :=
  { cursor := 0, paused := false, init := i, history := [], pending := [] }

/-- `model::lookup`, `lager/debug/debugger.hpp:96-104`; `none` is "bad cursor". -/
def Model.lookup (m : Model A M) (cursor : Nat) : Option (Option A × M) :=
  if cursor > m.history.length then none
  else if cursor = 0 then some (none, m.init)
  else (m.history[cursor - 1]?).map fun s => (some s.action, s.model)

/-- `operator const Model&`, `lager/debug/debugger.hpp:108`. -/
def Model.shown (m : Model A M) : Option M := (m.lookup m.cursor).map (·.2)

/-- The effect of a reducer call: the code starts from `noop` and replaces it if the reducer
returned one, `lager/debug/debugger.hpp:127-133`. -/
def userEff (e : Option E) : List (Atom E) :=
  match e with
  | some e => [.user e]
  | none => []

/-- The `Action` case of `update`, `lager/debug/debugger.hpp:123-140`. -/
def updateAct (r : Reducer M A E) (m : Model A M) (a : A) :
    Option (Model A M × List (Atom E)) :=
  if m.paused then
    some ({ m with pending := m.pending ++ [a] }, [])
  else
    match m.shown with
    | none => none
    | some cur =>
      let (state, eff) := r cur a
      let history := m.history.take m.cursor ++ [⟨a, state⟩]
      some ({ m with history := history, cursor := history.length }, userEff eff)

/-- The loop of the `resume_action` case, `lager/debug/debugger.hpp:167-176`. -/
def resumeLoop (r : Reducer M A E) :
    List A → Model A M × List (Atom E) → Option (Model A M × List (Atom E))
  | [], acc => some acc
  | a :: as, (m, eff) =>
    match updateAct r m a with
    | none => none
    | some (m', eff') => resumeLoop r as (m', eff ++ eff')

/-- `debugger::update`, `lager/debug/debugger.hpp:118-180`. -/
def update (r : Reducer M A E) (m : Model A M) :
    Action A → Option (Model A M × List (Atom E))
  | .act a => updateAct r m a
  | .goto_ c => some (if c ≤ m.history.length then { m with cursor := c } else m, [])
  | .undo => some (if m.cursor > 0 then { m with cursor := m.cursor - 1 } else m, [])
  | .redo => some (if m.cursor < m.history.length then { m with cursor := m.cursor + 1 } else m, [])
  | .pause => some ({ m with paused := true }, [.pause])
  | .resume =>
    match resumeLoop r m.pending ({ m with paused := false, pending := [] }, []) with
    | none => none
    | some (m', eff) => some (m', [.resume] ++ eff)

/-- A sequence of debugger actions dispatched to a store whose reducer is `update`
(`with_debugger`, `lager/debug/debugger.hpp:189-221`), with all effects that were produced. -/
def run (r : Reducer M A E) : Model A M → List (Action A) → Option (Model A M × List (Atom E))
  | m, [] => some (m, [])
  | m, a :: as =>
    match update r m a with
    | none => none
    | some (m', e) =>
      match run r m' as with
      | none => none
      | some (m'', e') => some (m'', e ++ e')

end Verif.Debugger
