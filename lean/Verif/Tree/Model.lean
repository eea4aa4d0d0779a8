import Verif.Debugger.Model

/-
Model of the tree debugger, `lager/debug/tree_debugger.hpp`.  Effects and reducers are as in
`Verif.Debugger.Model`; `immer::box` is ignored (it is a transparent wrapper).
-/

namespace Verif.Tree

open Verif.Debugger (Atom Reducer userEff)

/-- `pos_t`, `lager/debug/tree_debugger.hpp:42-47`. -/
structure Pos where
  branch : Nat
  step : Nat
  deriving DecidableEq

/-- `cursor_t`, `lager/debug/tree_debugger.hpp:49`. -/
abbrev Cursor := List Pos

/-- `action`, `lager/debug/tree_debugger.hpp:51-78`. -/
inductive Action (A : Type) where
  | act (a : A)
  | goto_ (cursor : Cursor)
  | undo
  | redo
  | pause
  | resume

/-- `step`, `lager/debug/tree_debugger.hpp:83-89`; `branches` is a vector of histories and a
history is a vector of (boxed) steps. -/
inductive Step (A M : Type) where
  | mk (action : A) (model : M) (branches : List (List (Step A M)))

variable {A M E : Type}

/-- `step::action`. -/
def Step.action : Step A M → A
  | .mk a _ _ => a
/-- `step::model`. -/
def Step.model : Step A M → M
  | .mk _ m _ => m
/-- `step::branches`. -/
def Step.branches : Step A M → List (List (Step A M))
  | .mk _ _ b => b

/-- `model`, `lager/debug/tree_debugger.hpp:103-115`. -/
structure Model (A M : Type) where
  cursor : Cursor
  paused : Bool
  init : M
  branches : List (List (Step A M))
  pending : List A

/-- `model(Model i)`, `lager/debug/tree_debugger.hpp:113-115`. -/
def Model.start (i : M) : Model A M :=
  { cursor := [], paused := false, init := i, branches := [], pending := [] }

/-- `do_lookup`, `lager/debug/tree_debugger.hpp:119-134`.  The cursor and the index into it are
represented by the remaining part of the cursor; `none` is the thrown "bad cursor" (and, for the
empty rest, which the code never reaches, an out of range access). -/
def doLookup (branches : List (List (Step A M))) : Cursor → Option (A × M)
  | [] => none
  | [pos] =>
    match branches[pos.branch]? with
    | none => none
    | some history =>
      match history[pos.step]? with
      | none => none
      | some node => some (node.action, node.model)
  | pos :: next :: rest =>
    match branches[pos.branch]? with
    | none => none
    | some history =>
      match history[pos.step]? with
      | none => none
      | some node => doLookup node.branches (next :: rest)

/-- `lookup`, `lager/debug/tree_debugger.hpp:136-140`. -/
def Model.lookup (m : Model A M) (cursor : Cursor) : Option (Option A × M) :=
  if cursor.isEmpty then some (none, m.init)
  else (doLookup m.branches cursor).map fun p => (some p.1, p.2)

/-- `operator const Model&`, `lager/debug/tree_debugger.hpp:224`. -/
def Model.shown (m : Model A M) : Option M := (m.lookup m.cursor).map (·.2)

/-- `do_append`, `lager/debug/tree_debugger.hpp:142-179`.  `cursor` is the whole cursor,
`index` the current index and the list argument the rest of the cursor from that index on.
`none` is an out of range `update`, which is undefined behaviour. -/
def doAppend (cursor : Cursor) (act : A) (m : M) :
    Nat → Cursor → List (List (Step A M)) → Option (List (List (Step A M)) × Cursor)
  | _, [], _ => none
  | index, [pos], branches =>
    match branches[pos.branch]? with
    | none => none
    | some history =>
      if pos.step + 1 = history.length then
        some (branches.set pos.branch (history ++ [.mk act m []]),
          cursor.set index ⟨pos.branch, pos.step + 1⟩)
      else
        match history[pos.step]? with
        | none => none
        | some node =>
          some (branches.set pos.branch
              (history.set pos.step
                (.mk node.action node.model (node.branches ++ [[.mk act m []]]))),
            cursor ++ [⟨0, 0⟩])
  | index, pos :: next :: rest, branches =>
    match branches[pos.branch]? with
    | none => none
    | some history =>
      match history[pos.step]? with
      | none => none
      | some node =>
        match doAppend cursor act m (index + 1) (next :: rest) node.branches with
        | none => none
        | some (newBranches, newCursor) =>
          some (branches.set pos.branch
            (history.set pos.step (.mk node.action node.model newBranches)), newCursor)

/-- `append`, `lager/debug/tree_debugger.hpp:181-190`. -/
def Model.append (self : Model A M) (act : A) (m : M) : Option (Model A M) :=
  if self.cursor.isEmpty then
    let branches := self.branches ++ [[.mk act m []]]
    some { self with branches := branches, cursor := [⟨branches.length - 1, 0⟩] }
  else
    match doAppend self.cursor act m 0 self.cursor self.branches with
    | none => none
    | some (branches, cursor) => some { self with branches := branches, cursor := cursor }

/-- `check`, `lager/debug/tree_debugger.hpp:192-200`. -/
def Model.check (m : Model A M) (cursor : Cursor) : Bool := (m.lookup cursor).isSome

/-- Outcome of the reducer: a new state with effects, a thrown exception, or undefined
behaviour. -/
inductive Res (A M E : Type) where
  | ok (m : Model A M) (eff : List (Atom E))
  | threw
  | ub

/-- The `Action` case of `update`, `lager/debug/tree_debugger.hpp:239-254`. -/
def updateAct (r : Reducer M A E) (m : Model A M) (a : A) : Res A M E :=
  if m.paused then
    .ok { m with pending := m.pending ++ [a] } []
  else
    match m.shown with
    | none => .threw
    | some cur =>
      let (state, eff) := r cur a
      match m.append a state with
      | none => .ub
      | some m' => .ok m' (userEff eff)

/-- The `undo_action` case, `lager/debug/tree_debugger.hpp:260-270`. -/
def undoCursor (cursor : Cursor) : Cursor :=
  match cursor.getLast? with
  | none => cursor
  | some pos =>
    let index := cursor.length - 1
    if pos.step > 0 then cursor.set index ⟨pos.branch, pos.step - 1⟩
    else cursor.take index

/-- The loop of the `resume_action` case, `lager/debug/tree_debugger.hpp:287-296`. -/
def resumeLoop (r : Reducer M A E) : List A → Model A M → List (Atom E) → Res A M E
  | [], m, eff => .ok m eff
  | a :: as, m, eff =>
    match updateAct r m a with
    | .ok m' eff' => resumeLoop r as m' (eff ++ eff')
    | .threw => .threw
    | .ub => .ub

/-- `update`, `lager/debug/tree_debugger.hpp:234-301`. -/
def update (r : Reducer M A E) (m : Model A M) : Action A → Res A M E
  | .act a => updateAct r m a
  | .goto_ c => .ok (if m.check c then { m with cursor := c } else m) []
  | .undo => .ok { m with cursor := undoCursor m.cursor } []
  | .redo => .threw
  | .pause => .ok { m with paused := true } [.pause]
  | .resume =>
    match resumeLoop r m.pending { m with paused := false, pending := [] } [] with
    | .ok m' eff => .ok m' ([.resume] ++ eff)
    | .threw => .threw
    | .ub => .ub

/-- A sequence of actions dispatched one by one.  A reducer that throws leaves the store's
model as it was (`lager/store.hpp:149-160`: the result is only pushed down if there is one).
`none` is undefined behaviour. -/
def run (r : Reducer M A E) : Model A M → List (Action A) → Option (Model A M × List (Atom E))
  | m, [] => some (m, [])
  | m, a :: as =>
    match update r m a with
    | .ub => none
    | .threw => run r m as
    | .ok m' e =>
      match run r m' as with
      | none => none
      | some (m'', e') => some (m'', e ++ e')

end Verif.Tree
