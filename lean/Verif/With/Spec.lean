import Verif.With.Model
import Verif.Graph.Spec

/-!
What chains of steps mean, independently of how `with` expressions fuse them.
-/

set_option linter.unusedSectionVars false

namespace Verif.With

open Verif.Graph (M Op Graph Node)

variable {V S : Type}

/-- What one step shows of a value; nothing if it is filtered out. -/
def Part.look : Part V → V → Option V
  | .zoom _ get _, x => some (get x)
  | .xform _ f, x => f x
  | .xform2 _ f _, x => f x
  | .make, x => some x

/-- What writing `v` through one step writes to what it is applied to, which has the value `x`; nothing if it is
filtered out. -/
def Part.put : Part V → V → V → Option V
  | .zoom _ _ set, x, v => some (set x v)
  | .xform _ _, _, _ => none
  | .xform2 _ _ w, x, v => w.run x v
  | .make, _, v => some v

/-- What a sequence of steps shows of a value. -/
def look : List (Part V) → V → Option V
  | [], x => some x
  | s :: l, x => (s.look x).bind (look l)

/-- What writing `v` through a sequence of steps writes to what it is applied to, which has the value `x`: the last
step is written to first, and each writes to the one before. -/
def put : List (Part V) → V → V → Option V
  | [], _, v => some v
  | s :: l, x, v => (s.look x).bind fun y => (put l y v).bind (s.put x)

/-- The steps other than `make`: what the nesting of cursors does not change. -/
def Part.isStep : Part V → Bool
  | .make => false
  | _ => true

def steps (l : List (Part V)) : List (Part V) := l.filter Part.isStep

/-- No `update` comes directly after another two-way transformation (in the same expression); `w`: the previous step
was one. -/
def separate (w : Bool) : List (Part V) → Bool
  | [] => true
  | .xform2 _ _ (.pure _) :: l => separate true l
  | .xform2 _ _ (.update _) :: l => !w && separate true l
  | _ :: l => separate false l

section

variable [DecidableEq V] [Tup V]

/-- The components of a value to be written, one for each source; none if nothing is to be written. -/
def parts (n : Nat) : Option V → List V
  | none => []
  | some v => untup n v

/-- The value that the node would have if all that was written was published: that of the states, sensors, constants,
setters and stateful transformations that it is derived from, seen through the functions in between; filters keep
the value they have. -/
def freshN (g : Graph V S) : Nat → Nat → V
  | 0, n => (g.node n).current
  | k + 1, n =>
    match (g.node n).kind with
    | .calc view _ _ => (view ((g.node n).parents.map (freshN g k))).getD (g.node n).current
    | _ => (g.node n).current

def fresh (g : Graph V S) (n : Nat) : V := freshN g (n + 1) n

/-- The values that writing `v` to a chain of steps sends, and to which of its sources, in the order in which they are
sent: the components of what the steps make of `v`. -/
def sent (g : Graph V S) (ps : List Nat) (l : List (Part V)) (v : V) : List (Nat × V) :=
  g.order (ps.zip (parts ps.length (put l (tup (ps.map (fresh g))) v)))

/-- A node derived from states, sensors, constants and setters only by functions that always give a value (so lenses,
maps and merging, but no filters).  If writing does not refresh the node, it does not look at old values either: so it
is for merged cursors and for maps. -/
inductive Plain (g : Graph V S) : Nat → Prop where
  | state {n : Nat} {a} : (g.node n).kind = .state a → Plain g n
  | sensor {n : Nat} {e} : (g.node n).kind = .sensor e → Plain g n
  | constant {n : Nat} : (g.node n).kind = .constant → Plain g n
  | setter {n : Nat} {a} : (g.node n).kind = .setter a → Plain g n
  | comp {n : Nat} {view put r} : (g.node n).kind = .calc view put r →
      (∀ l, l.length = (g.node n).parents.length → (view l).isSome = true) →
      (r = false → ∀ p, put = some p → ∀ a b v, p a v = p b v) →
      (∀ p ∈ (g.node n).parents, Plain g p) → Plain g n

end

end Verif.With
