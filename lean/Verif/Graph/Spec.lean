import Verif.Graph.Model

/-
Specification vocabulary for the node graph: what the properties talk about.
-/

set_option linter.unusedSectionVars false

namespace Verif.Graph

variable {V S : Type} [DecidableEq V]

/-- `reader::get()`, `lager/reader.hpp:35`. -/
def M.get (m : M V S) (n : Nat) : V := (m.g.node n).last

/-- The reader or cursor has not been destroyed. -/
def M.Live (m : M V S) (n : Nat) : Prop := (m.g.node n).alive = true

/-- The value a cursor will show after the next commit (`current_`). -/
def M.pending (m : M V S) (n : Nat) : V := (m.g.node n).current

/-- The node does not just compute a function of the nodes it is derived from: states, sensors,
constants, setters and stateful transducers. -/
def M.Source (m : M V S) (n : Nat) : Prop := ∀ view put r, (m.g.node n).kind ≠ .calc view put r

/-- A source that was written to (with a value different from its previous pending value, if values
can be compared) and whose value has not been published since. -/
def M.Uncommitted (m : M V S) (n : Nat) : Prop := m.Source n ∧ (m.g.node n).dirty = true

/-- `m.Above a n`: `a` is `n` or one of the nodes that `n` is derived from, directly or not. -/
inductive M.Above (m : M V S) (a : Nat) : Nat → Prop where
  | refl : M.Above m a a
  | step {p n : Nat} : p ∈ (m.g.node n).parents → M.Above m a p → M.Above m a n

/-- No call into the library is running. -/
def M.AtRest (m : M V S) : Prop := m.stack = [.user] ∧ m.ub = false

/-- Library code runs. -/
inductive LibRun : M V S → M V S → Prop where
  | refl (m) : LibRun m m
  | step {m m1 m2} : istep m = some m1 → LibRun m1 m2 → LibRun m m2

/-- One step of a call during which callbacks do nothing but return: the call was made from user code
with a stack of depth `d`, so user code on top of a deeper stack is a callback. -/
def pstep [Inhabited S] (d : Nat) (m : M V S) : Option (M V S) :=
  if m.stack.length ≤ d then none
  else
    match m.stack with
    | .user :: _ => ustep m .ret
    | _ => istep m

/-- A call during which callbacks do nothing but return. -/
inductive PRun [Inhabited S] (d : Nat) : M V S → M V S → Prop where
  | refl (m) : PRun d m m
  | step {m m1 m2} : pstep d m = some m1 → PRun d m1 m2 → PRun d m m2

/-- `Call m op m'`: user code makes the call `op` in state `m`; library code runs, calling no user
code, and returns in state `m'`. -/
def Call [Inhabited S] (m : M V S) (op : Op V S) (m' : M V S) : Prop :=
  ∃ m1, ustep m op = some m1 ∧ LibRun m1 m' ∧ m'.stack = m.stack

/-- `PCall m op m'`: user code makes the call `op` in state `m`; callbacks may be called but do
nothing; the call returns in state `m'`. -/
def PCall [Inhabited S] (m : M V S) (op : Op V S) (m' : M V S) : Prop :=
  ∃ m1, ustep m op = some m1 ∧ PRun m.stack.length m1 m' ∧ m'.stack = m.stack

/-- Calls that write nothing: all but `set`, `update` and `commit`. -/
def Op.quiet : Op V S → Bool
  | .set _ _ => false
  | .update _ _ => false
  | .commit _ => false
  | _ => true

/-- A call, made with a stack of depth `d`, during which callbacks write nothing (they may attach and
detach callbacks, and create and destroy readers). -/
inductive QRun [Inhabited S] (d : Nat) : M V S → M V S → Prop where
  | refl (m) : QRun d m m
  | lib {m m1 m2} : istep m = some m1 → QRun d m1 m2 → QRun d m m2
  | user {m m1 m2} (op : Op V S) : d < m.stack.length → op.quiet = true → ustep m op = some m1 →
      QRun d m1 m2 → QRun d m m2

/-- `QCall m op m'`: user code makes the call `op` in state `m`; callbacks may be called but write
nothing; the call returns in state `m'`. -/
def QCall [Inhabited S] (m : M V S) (op : Op V S) (m' : M V S) : Prop :=
  ∃ m1, ustep m op = some m1 ∧ QRun m.stack.length m1 m' ∧ m'.stack = m.stack

/-- A cursor of an automatic state, or one that is zoomed from it, in any number of steps. -/
inductive Chain (g : Graph V S) : Nat → Nat → Prop where
  | state {r : Nat} : (g.node r).kind = .state true → Chain g r r
  | comp {n p r : Nat} {view put refr} : (g.node n).kind = .calc view (some put) refr →
      (g.node n).parents = [p] → Chain g p r → Chain g n r

/-- The state `r`, or a reader that is derived from it by a single path, in any number of steps. -/
inductive Line (g : Graph V S) : Nat → Nat → Prop where
  | state {r : Nat} {a} : (g.node r).kind = .state a → Line g r r
  | comp {n p r : Nat} {view put refr} : (g.node n).kind = .calc view put refr →
      (g.node n).parents = [p] → Line g p r → Line g n r

/-- `LensLine g n r gt st`: the cursor `n` is that of state `r`, or zoomed from it by lenses, in any
number of steps; `gt` and `st` are the two functions of the composed lens. -/
inductive LensLine (g : Graph V S) : Nat → Nat → (V → V) → (V → V → V) → Prop where
  | state {r : Nat} {a} : (g.node r).kind = .state a → LensLine g r r (fun x => x) (fun _ v => v)
  | zoom {n p r : Nat} {view put} {gt st} (gt1 : V → V) (st1 : V → V → V) :
      (g.node n).kind = .calc view (some put) true → (g.node n).parents = [p] →
      (∀ x, view [x] = some (gt1 x)) → (∀ x v, put [x] v = [st1 x v]) → LensLine g p r gt st →
      LensLine g n r (fun x => gt1 (gt x)) (fun x v => st x (st1 (gt x) v))

/-- `Merges m n auto ps root gt st vs v`: the cursor `n` merges the cursors `ps`; each of them is zoomed
from a state of its own by a lens for which what was set can be read back; writing `v` to `n` means to
write the values `vs`, of which `v` is the tuple. -/
structure Merges (m : M V S) (n : Nat) (auto : Bool) (ps : List Nat) (root : Nat → Nat)
    (gt : Nat → V → V) (st : Nat → V → V → V) (vs : List V) (v : V) : Prop where
  kind : ∃ view put, (m.g.node n).kind = .calc view (some put) false ∧
    (∀ old, put old v = vs) ∧ view vs = some v
  parents : (m.g.node n).parents = ps
  length : vs.length = ps.length
  comps : ∀ c ∈ ps, LensLine m.g c (root c) (gt c) (st c) ∧
    (m.g.node (root c)).kind = .state auto
  laws : ∀ x ∈ ps.zip vs, ∀ w, gt x.1 (st x.1 w x.2) = x.2
  distinct : (ps.map root).Nodup

/-- The cursor that a call writes to. -/
def Op.target : Op V S → Option Nat
  | .set n _ => some n
  | .update n _ => some n
  | _ => none

/-- Anything can happen: library code runs and user code makes calls. -/
inductive Runs [Inhabited S] : M V S → M V S → Prop where
  | refl (m) : Runs m m
  | step {m m1 m2} : Step m m1 → Runs m1 m2 → Runs m m2

/-- Like `Runs`, recording the calls that user code makes (also from callbacks). -/
inductive Trace [Inhabited S] : M V S → List (Op V S) → M V S → Prop where
  | refl (m) : Trace m [] m
  | lib {m m1 m2 ops} : istep m = some m1 → Trace m1 ops m2 → Trace m ops m2
  | user {m m1 m2 op ops} : ustep m op = some m1 → Trace m1 ops m2 → Trace m (op :: ops) m2

/-- Does this frame belong to a running `n.notify()`? -/
def Frame.inNotify (n : Nat) : Frame V → Bool
  | .obs m _ _ => m == n
  | .kids m _ _ _ _ => m == n
  | _ => false

/-- Is `n` being notified, according to the stack? -/
def active (n : Nat) (st : List (Frame V)) : Bool := st.any (Frame.inNotify n)

/-- States, sensors and constants: what can be given to `commit`. -/
def M.Root (m : M V S) (n : Nat) : Prop := (∃ a, (m.g.node n).kind = .state a) ∨
  (∃ ext, (m.g.node n).kind = .sensor ext) ∨ (m.g.node n).kind = .constant

/-- The inputs that an `xform` reader's transducer has been given. -/
def M.fed (m : M V S) (n : Nat) : List (List V) := (m.g.node n).fed

/-- How often the function of a sensor has been called. -/
def M.sampled (m : M V S) (n : Nat) : Nat := (m.g.node n).samples

/-- How often a call samples sensor `n`: as often as a commit lists it. -/
def Op.samples (n : Nat) : Op V S → Nat
  | .commit rs => rs.count n
  | _ => 0

/-- What a transducer, given as a Mealy machine, does with a list of inputs: the state at the end and
everything it emits. -/
def runX (down : S → List V → S × List V) (s : S) : List (List V) → S × List V
  | [] => (s, [])
  | i :: l => ((runX down (down s i).1 l).1, (down s i).2 ++ (runX down (down s i).1 l).2)

/-- How often callback `w` is called in a log. -/
def calls (w : Nat) (l : List (Ev V)) : Nat :=
  l.countP fun e => match e with | .call w' _ _ => w' == w | .setterCall _ _ => false

/-- A cursor of a transactional state, or one derived from such cursors only. -/
inductive Lazy (g : Graph V S) : Nat → Prop where
  | state {n : Nat} : (g.node n).kind = .state false → Lazy g n
  | comp {n : Nat} {view put r} : (g.node n).kind = .calc view put r →
      (∀ p ∈ (g.node n).parents, Lazy g p) → Lazy g n
  | xform {n : Nat} {down up} : (g.node n).kind = .xform down up →
      (∀ p ∈ (g.node n).parents, Lazy g p) → Lazy g n

/-- A sequence of calls during which library code calls no user code. -/
inductive Calls [Inhabited S] : M V S → List (Op V S) → M V S → Prop where
  | nil (m) : Calls m [] m
  | cons {m m1 m2 op ops} : Call m op m1 → Calls m1 ops m2 → Calls m (op :: ops) m2

/-- A sequence of calls during which callbacks do nothing. -/
inductive PCalls [Inhabited S] : M V S → List (Op V S) → M V S → Prop where
  | nil (m) : PCalls m [] m
  | cons {m m1 m2 op ops} : PCall m op m1 → PCalls m1 ops m2 → PCalls m (op :: ops) m2

/-- The value that a callback attached when the reader had the value `d` was given last. -/
def given (d : V) (w : Nat) (l : List (Ev V)) : V :=
  l.foldl (fun d e => match e with
    | .call w' _ v => if w' = w then v else d
    | .setterCall _ _ => d) d

/-- The value written last to `r` by a sequence of writes, if any. -/
def lastWrite (r : Nat) : List (Nat × V) → Option V
  | [] => none
  | (r', v) :: l => (lastWrite r l).or (if r' = r then some v else none)

end Verif.Graph
