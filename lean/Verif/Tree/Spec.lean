import Verif.Tree.Model

/- Specification for the tree debugger. -/

namespace Verif.Tree

open Verif.Debugger (Atom Reducer userEff)

variable {A M E : Type}

/-- The step a (non-empty) cursor denotes, if any. -/
def stepAt (branches : List (List (Step A M))) : Cursor → Option (Step A M)
  | [] => none
  | pos :: rest =>
    (branches[pos.branch]?).bind fun h => (h[pos.step]?).bind fun s =>
      if rest = [] then some s else stepAt s.branches rest

/-- The position after `c` in the same branch. -/
def nextInBranch (c : Cursor) : Cursor :=
  match c.getLast? with
  | none => c
  | some p => c.dropLast ++ [⟨p.branch, p.step + 1⟩]

/-- States reachable by dispatching any debugger actions to a new debugger. -/
def Reachable (r : Reducer M A E) (m : Model A M) : Prop :=
  ∃ i as es, run r (Model.start i) as = some (m, es)

/-- Where the action just taken belongs: a new branch at the root, the next step if `c` is the
last step of its branch, and a new branch of the step otherwise. -/
def newPos (branches : List (List (Step A M))) (c : Cursor) : Cursor :=
  match stepAt branches c with
  | none => [⟨branches.length, 0⟩]
  | some s =>
    match stepAt branches (nextInBranch c) with
    | none => nextInBranch c
    | some _ => c ++ [⟨s.branches.length, 0⟩]

/-- Actions that only move the cursor. -/
def Action.isNav : Action A → Bool
  | .goto_ _ | .undo => true
  | _ => false

/-- The ordinary actions in a list of debugger actions, in order. -/
def acts : List (Action A) → List A
  | [] => []
  | .act a :: as => a :: acts as
  | _ :: as => acts as

end Verif.Tree
