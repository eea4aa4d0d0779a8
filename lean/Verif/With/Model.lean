import Verif.Graph.Model

/-!
Model of `with` expressions, `lager/with.hpp`.

An expression is a temporary object that names the nodes it starts from and the transformation so far; a step of a
chain makes it another expression, some of them after making a node.  Nodes are made in the machine of
`Verif.Graph`.

Simplifications: all values are of one type `V`, in which tuples are encoded by `Tup`; functions that take several
arguments at the first step of a chain take their tuple; transducers are compositions of `map` and `filter`, so
functions to `Option V`; `writer`s are like cursors.
-/

set_option linter.unusedSectionVars false

namespace Verif.With

open Verif.Graph (M Op Graph Node)

/-- Tuples: `zug::tuplify`, which for one value is that value, and `std::get` in `push_up`,
`detail/nodes.hpp:308-329`. -/
class Tup (V : Type) where
  tup : List V → V
  untup : Nat → V → List V
  tup_one : ∀ v, tup [v] = v
  untup_one : ∀ v, untup 1 v = [v]

export Tup (tup untup)

/-- What matters about the type of the values of a node: has it `operator==`, and what is its default value. -/
structure Ty (V : Type) where
  cmp : Bool
  dflt : V

/-- The writing part of a two-way transformation. -/
inductive Wr (V : Type) where
  /-- maps and filters -/
  | pure (u : V → Option V)
  /-- `lager::update(u)`, `with.hpp:59-68`: gets the current values of the parents of the node that it is a part of -/
  | update (u : V → V → V)

/-- What the transducer does in a node whose parents have the current value `c`. -/
def Wr.run {V : Type} : Wr V → V → V → Option V
  | .pure u, _, v => u v
  | .update u, c, v => some (u c v)

/-- Does it call `refresh()`? -/
def Wr.refreshes {V : Type} : Wr V → Bool
  | .pure _ => false
  | .update _ => true

/-- A step of a chain. -/
inductive Part (V : Type) where
  /-- `.zoom(lens)`, also `operator[]`, `with.hpp:167-173` -/
  | zoom (t : Ty V) (get : V → V) (set : V → V → V)
  /-- `.xform(xf)`, also `.map(f)` and `.filter(p)`, `with.hpp:73-101` -/
  | xform (t : Ty V) (f : V → Option V)
  /-- `.xform(xf, wxf)`, also `.map(f, g)` -/
  | xform2 (t : Ty V) (f : V → Option V) (w : Wr V)
  /-- `.make()`, and then `with` of the cursor or reader that it makes, `with.hpp:205-211`, `reader.hpp:46-56` -/
  | make

/-- The expressions.  `rw`: the result is a cursor, not just a reader (template parameter `Result`). -/
inductive Expr (V : Type) where
  /-- `with_expr`, `with.hpp:231-275` -/
  | base (t : Ty V) (rw : Bool) (ps : List Nat)
  /-- `with_xform_expr`, `with.hpp:277-314` -/
  | xf (t : Ty V) (ps : List Nat) (d : V → Option V)
  /-- `with_wxform_expr`, `with.hpp:316-373`; `u c v` is what is written, if anything, for `v` when the parents have the
  value `c` -/
  | wxf (t : Ty V) (rw : Bool) (ps : List Nat) (d : V → Option V) (u : V → V → Option V) (refreshes : Bool)
  /-- `with_lens_expr`, `with.hpp:375-429` -/
  | lens (t : Ty V) (rw : Bool) (ps : List Nat) (get : V → V) (set : V → V → V)

variable {V S : Type} [DecidableEq V] [Inhabited S] [Tup V]

/-- `make_reader_node_`, `make_cursor_node_`: the call that makes the node. -/
def Expr.op : Expr V → Op V S
  -- merge_nodes.hpp:31-69
  | .base t rw ps =>
    .newCalc t.cmp ps (fun l => some (tup l)) (if rw then some (fun _ v => untup ps.length v) else none) false t.dflt
  -- xform_nodes.hpp:68-103
  | .xf t ps d => .newCalc t.cmp ps (fun l => d (tup l)) none false t.dflt
  -- xform_nodes.hpp:119-146
  | .wxf t rw ps d u refreshes =>
    .newCalc t.cmp ps (fun l => d (tup l))
      (if rw then some (fun old v => match u (tup old) v with
        | some w => untup ps.length w
        | none => []) else none) refreshes t.dflt
  -- lens_nodes.hpp:33-99
  | .lens t rw ps get set =>
    .newCalc t.cmp ps (fun l => some (get (tup l)))
      (if rw then some (fun old v => untup ps.length (set (tup old) v)) else none) true t.dflt

/-- `make`, `with.hpp:205-228`: the machine after it, and the number of the new node. -/
def Expr.make (m : M V S) (e : Expr V) : Option (M V S × Nat) :=
  match Graph.ustep m e.op with
  | some m' => some (m', m.g.size)
  | none => none

/-- The type and kind of the result. -/
def Expr.ty : Expr V → Ty V
  | .base t _ _ => t
  | .xf t _ _ => t
  | .wxf t _ _ _ _ _ => t
  | .lens t _ _ _ _ => t

/-- Is the result a cursor?  `with.hpp:205-228`. -/
def Expr.rw : Expr V → Bool
  | .base _ rw _ => rw
  | .xf _ _ _ => false
  | .wxf _ rw _ _ _ _ => rw
  | .lens _ rw _ _ _ => rw

/-- One step of a chain; `none` if it does not compile (or a node cannot be made). -/
def chain (m : M V S) (e : Expr V) (s : Part V) : Option (M V S × Expr V) :=
  match e, s with
  -- with.hpp:256-274
  | .base _ rw ps, .zoom t get set => some (m, .lens t rw ps get set)
  | .base _ _ ps, .xform t f => some (m, .xf t ps f)
  | .base _ rw ps, .xform2 t f w => some (m, .wxf t rw ps f w.run w.refreshes)
  -- with.hpp:300-313
  | .xf _ ps d, .xform t f => some (m, .xf t ps (fun x => (d x).bind f))
  | .xf _ ps d, .zoom t get _ => some (m, .xf t ps (fun x => (d x).map get))
  | .xf _ _ _, .xform2 _ _ _ => none
  -- with.hpp:351-372
  | .wxf _ _ ps d _ _, .xform t f => some (m, .xf t ps (fun x => (d x).bind f))
  | .wxf _ rw ps d u r, .xform2 t f w =>
    some (m, .wxf t rw ps (fun x => (d x).bind f) (fun c v => (w.run c v).bind (u c)) (r || w.refreshes))
  | .wxf t0 rw ps d u r, .zoom t get set =>
    (Expr.make m (.wxf t0 rw ps d u r)).map fun x => (x.1, .lens t rw [x.2] get set)
  -- with.hpp:404-428
  | .lens _ _ ps get0 _, .xform t f => some (m, .xf t ps (fun x => f (get0 x)))
  | .lens t0 rw ps get0 set0, .xform2 t f w =>
    if rw then
      (Expr.make m (.lens t0 rw ps get0 set0)).map fun x => (x.1, .wxf t true [x.2] f w.run w.refreshes)
    else none
  | .lens _ rw ps get0 set0, .zoom t get set =>
    some (m, .lens t rw ps (fun x => get (get0 x)) (fun x v => set0 x (set (get0 x) v)))
  | e, .make => (Expr.make m e).map fun x => (x.1, .base e.ty e.rw [x.2])

/-- A chain. -/
def chains (m : M V S) (e : Expr V) : List (Part V) → Option (M V S × Expr V)
  | [] => some (m, e)
  | s :: l => match chain m e s with
    | some (m', e') => chains m' e' l
    | none => none

/-- `with(ps...)`, then the chain, then `make()`, `with.hpp:487-491`: the machine after it and the number of the node.
`t` is the type of the tuple of the values of `ps`; `rw`: all of them are cursors. -/
def build (m : M V S) (t : Ty V) (rw : Bool) (ps : List Nat) (l : List (Part V)) : Option (M V S × Nat) :=
  match chains m (.base t rw ps) l with
  | some (m', e) => Expr.make m' e
  | none => none

end Verif.With
