import Verif.Debugger.Model

/- Specification for the debugger: the plain store without debugger, and genuine runs. -/

namespace Verif.Debugger

variable {A M E : Type}

/-- A store without debugger: fold the reducer, collecting the effects. -/
def plain (r : Reducer M A E) : M → List A → M × List E
  | m, [] => (m, [])
  | m, a :: as =>
    let (m', e) := r m a
    let (m'', es) := plain r m' as
    (m'', e.toList ++ es)

/-- `steps` is a genuine run of the reducer from `m`: each entry holds the reducer's result on
the previous model and its own action. -/
def Genuine (r : Reducer M A E) : M → List (Step A M) → Prop
  | _, [] => True
  | m, s :: ss => s.model = (r m s.action).1 ∧ Genuine r s.model ss

/-- The model after the first `k` entries of a run from `i`. -/
def modelAfter (i : M) (h : List (Step A M)) : Nat → Option M
  | 0 => some i
  | k + 1 => (h[k]?).map (·.model)

/-- Actions that only move the cursor. -/
def Action.isNav : Action A → Bool
  | .goto_ _ | .undo | .redo => true
  | _ => false

/-- The ordinary actions in a list of debugger actions, in order. -/
def acts : List (Action A) → List A
  | [] => []
  | .act a :: as => a :: acts as
  | _ :: as => acts as

/-- States reachable by dispatching any debugger actions to a new debugger. -/
def Reachable (r : Reducer M A E) (m : Model A M) : Prop :=
  ∃ i as es, run r (Model.start i) as = some (m, es)

end Verif.Debugger
