/-
Model of the node graph behind readers and cursors: `lager/detail/nodes.hpp`,
`detail/lens_nodes.hpp`, `detail/merge_nodes.hpp`, `detail/xform_nodes.hpp`, `state.hpp`,
`sensor.hpp`, `constant.hpp`, `setter.hpp`, `commit.hpp`, `reader.hpp`, `writer.hpp`.

The heap of nodes plus an explicit call stack form an abstract machine.  Watch callbacks and setter
functions are arbitrary user code: they are stack frames from which any API call can be made, in any
number and to any nesting depth.  `send_down` and `refresh` run no such user code, so they are
functions on the heap; `send_up` and `notify` do, so they are frames.

Simplifications (all of them also listed in DESIGN.md):
* all nodes hold values of one type `V` (the typed C++ templates are erased);
* lenses, mapping functions and transducers are pure total functions;
* sensor functions return arbitrary values but do not call back into the library;
* the nested lists of observers of a node (reader objects, then callbacks) are flattened into one
  list, into which a new callback can be inserted at any place; `Verif.Watch` has the nested model;
* destroying a node is one operation that is possible when nothing owns the node: no living child,
  no handle in use on the call stack.
-/

namespace Verif.Graph

variable {V S : Type}

/-- The kinds of nodes. -/
inductive Kind (V S : Type) where
  /-- `state_node`, `lager/state.hpp:31-59`; also a store's node (`lager/store.hpp:120-199`) as seen
  by its readers.  `auto`: tagged `automatic_tag` -/
  | state (auto : Bool)
  /-- `sensor_node`, `lager/sensor.hpp:31-48`; `ext k` is what the `k`-th call of the function
  returns -/
  | sensor (ext : Nat → V)
  /-- `constant_node`, `lager/constant.hpp:23-31` -/
  | constant
  /-- nodes that compute a function of the values of their parents: `lens_reader_node` and
  `lens_cursor_node` (`detail/lens_nodes.hpp:33-99`), `merge_reader_node` and `merge_cursor_node`
  (`detail/merge_nodes.hpp:31-69`), and `xform_reader_node`, `xform_cursor_node`
  (`detail/xform_nodes.hpp:68-146`) when the transducer is a composition of maps and filters.
  `view` is `none` when a filter drops the value.  `put old v` are the values to send to the
  parents.  `refreshes`: `send_up` calls `refresh()` first (lens cursors do, the others do not) -/
  | calc (view : List V → Option V) (put : Option (List V → V → List V)) (refreshes : Bool)
  /-- `xform_reader_node`, `xform_cursor_node` with stateful transducers, given as Mealy machines:
  from a state and the values of the parents to a new state and the emitted values -/
  | xform (down : S → List V → S × List V) (up : Option (S → V → S × List (List V)))
  /-- `setter_node`, `lager/setter.hpp:26-74` -/
  | setter (auto : Bool)

/-- A node: `reader_node`, `lager/detail/nodes.hpp:188-264`, `observable_reader_node` `:133-183`,
`inner_node` `:282-330`. -/
structure Node (V S : Type) where
  kind : Kind V S
  parents : List Nat
  children : List Nat
  current : V
  last : V
  /-- `needs_send_down_` -/
  dirty : Bool
  /-- ghost: the value was really changed since it was last published (`dirty` without that can only
  be the case for types without `operator==`) -/
  chg : Bool
  /-- `needs_notify_` -/
  needsNotify : Bool
  /-- `notifying_` -/
  notifying : Bool
  /-- not yet destroyed -/
  alive : Bool
  /-- the type has `operator==`, see `has_changed`, `nodes.hpp:103-113` -/
  cmp : Bool
  /-- `recomputed_` of a setter -/
  recomputed : Bool
  /-- how often a sensor's function was called -/
  samples : Nat
  /-- the states of the transducers of an `xform` node -/
  downSt : S
  upSt : S
  /-- ghost: the value and the transducer state at construction, and what the node's transducer was
  given since -/
  init : V
  start : S
  fed : List (List V)
  /-- ghost: the values of the parents that an `xform` node has processed last -/
  input : List V
  /-- the callbacks in the order in which they are called -/
  obs : List Nat

/-- The heap.  Nodes are numbered in the order of creation. -/
structure Graph (V S : Type) where
  size : Nat
  node : Nat → Node V S
  /-- the order in which the arguments of `noop(...)` are evaluated, `nodes.hpp:298, 350`: the
  standard leaves it open; `true` is left to right -/
  ltr : Bool

variable [DecidableEq V]

namespace Graph

/-- Change one node. -/
def mod (g : Graph V S) (n : Nat) (f : Node V S → Node V S) : Graph V S :=
  { g with node := fun m => if m = n then f (g.node m) else g.node m }

/-- `current_from(parents)`, `nodes.hpp:341-348`. -/
def currents (g : Graph V S) (ps : List Nat) : List V := ps.map fun p => (g.node p).current

/-- `reader_node::push_down`, `nodes.hpp:204-211`. -/
def pushDown (g : Graph V S) (n : Nat) (v : V) : Graph V S :=
  if (g.node n).cmp = false ∨ v ≠ (g.node n).current then
    g.mod n fun x => { x with current := v, dirty := true, chg := x.chg || decide (v ≠ x.current) }
  else g

/-- `recompute` of the different nodes: `state.hpp:40`, `constant.hpp:30`, `sensor.hpp:44`,
`lens_nodes.hpp:63-66`, `merge_nodes.hpp:52`, `xform_nodes.hpp:98-102`, `setter.hpp:43-49`. -/
def recompute (g : Graph V S) (n : Nat) : Graph V S :=
  match (g.node n).kind with
  | .state _ => g
  | .constant => g
  | .sensor ext =>
    (g.mod n fun x => { x with samples := x.samples + 1 }).pushDown n (ext (g.node n).samples)
  | .calc view _ _ =>
    match view (g.currents (g.node n).parents) with
    | none => g
    | some v => g.pushDown n v
  | .xform down _ =>
    let r := down (g.node n).downSt (g.currents (g.node n).parents)
    r.2.foldl (fun g v => g.pushDown n v)
      (g.mod n fun x => { x with
        downSt := r.1
        fed := x.fed ++ [g.currents x.parents]
        input := g.currents x.parents })
  | .setter _ =>
    if (g.node n).recomputed then g.mod n fun x => { x with recomputed := false }
    else
      match g.currents (g.node n).parents with
      | v :: _ => g.pushDown n v
      | [] => g

/-- `last_ = current_; needs_send_down_ = false; needs_notify_ = true`, `nodes.hpp:217-219`. -/
def publish (g : Graph V S) (n : Nat) : Graph V S :=
  g.mod n fun x => { x with last := x.current, dirty := false, chg := false, needsNotify := true }

/-- `reader_node::send_down`, `nodes.hpp:213-226`.  The first argument bounds the depth of the
recursion; children have larger numbers, so `g.size` is always enough (`Lemmas`). -/
def sendDownN : Nat → Graph V S → Nat → Graph V S
  | 0, g, _ => g
  | k + 1, g, n =>
    let g1 := g.recompute n
    if (g1.node n).dirty then
      let g2 := g1.publish n
      (g2.node n).children.foldl
        (fun g c => if (g.node c).alive then sendDownN k g c else g) g2
    else g1

/-- `reader_node::send_down`, `nodes.hpp:213-226`, with a bound that is always enough. -/
def sendDown (g : Graph V S) (n : Nat) : Graph V S := sendDownN g.size g n

/-- Put the arguments of `noop(...)` in the order of evaluation. -/
def order {α : Type} (g : Graph V S) (l : List α) : List α := if g.ltr then l else l.reverse

/-- `refresh`: `inner_node::refresh`, `nodes.hpp:296-301`; a no-op for roots, `nodes.hpp:338`, and
setters, `setter.hpp:51`.  Parents have smaller numbers. -/
def refreshN : Nat → Graph V S → Nat → Graph V S
  | 0, g, _ => g
  | k + 1, g, n =>
    match (g.node n).kind with
    | .calc _ _ _ | .xform _ _ =>
      ((g.order (g.node n).parents).foldl (fun g p => refreshN k g p) g).recompute n
    | _ => g

/-- `refresh`, `nodes.hpp:296-301`, with a bound that is always enough. -/
def refresh (g : Graph V S) (n : Nat) : Graph V S := refreshN (n + 1) g n

/-- `observable_reader_node::collect`, `nodes.hpp:164-171`. -/
def collect (g : Graph V S) (n : Nat) : Graph V S :=
  g.mod n fun x => { x with children := x.children.filter fun c => (g.node c).alive }

/-- `link`, `nodes.hpp:145-154`, for every parent (`link_to_parents`, `nodes.hpp:350-355`), of the
new node `c`.  For the assertion that a child is not linked twice see `Graph/Debug.lean`. -/
def linkAll (g : Graph V S) (ps : List Nat) (c : Nat) : Graph V S :=
  ps.foldl (fun g p => g.mod p fun x => { x with children := x.children ++ [c] }) g

/-- Create a node. -/
def add (g : Graph V S) (x : Node V S) : Graph V S :=
  linkAll { g with size := g.size + 1, node := fun m => if m = g.size then x else g.node m }
    x.parents g.size

/-- Can values be written through this node?  (Checked by the compiler.) -/
def canWrite (g : Graph V S) (n : Nat) : Bool :=
  match (g.node n).kind with
  | .state _ => true
  | .setter _ => true
  | .calc _ put _ => put.isSome
  | .xform _ up => up.isSome
  | _ => false

end Graph

/-- Call stack frames. -/
inductive Frame (V : Type) where
  /-- user code -/
  | user
  /-- about to run `n.notify()` -/
  | notify (n : Nat)
  /-- in the observers loop of `n.notify()`, `nodes.hpp:236`, with the callback called last; `prev`
  is the value saved by the guard -/
  | obs (n : Nat) (cur : Option Nat) (prev : Bool)
  /-- in the children loop of `n.notify()`, `nodes.hpp:241-248` -/
  | kids (n : Nat) (i size : Nat) (prev garbage : Bool)
  /-- roots still to be notified by `commit` -/
  | roots (rs : List Nat)
  /-- about to run `n.send_up(v)` -/
  | up (n : Nat) (v : V)
  /-- `send_up` calls still to be made -/
  | ups (l : List (Nat × V))
  /-- `send_up` of a setter after the setter function has returned -/
  | setterRest (n : Nat) (v : V)
deriving DecidableEq

/-- Observable events. -/
inductive Ev (V : Type) where
  /-- callback `w` on node `n` is called with `v` -/
  | call (w n : Nat) (v : V)
  /-- the function of setter `n` is called with `v` -/
  | setterCall (n : Nat) (v : V)
deriving DecidableEq

/-- The machine. -/
structure M (V S : Type) where
  g : Graph V S
  stack : List (Frame V)
  /-- the number of callbacks attached so far -/
  nextW : Nat
  /-- ghost: the last value given to a callback, at first the value at the time it was attached -/
  seen : Nat → Option V
  log : List (Ev V)
  /-- undefined behaviour: a callback detached itself -/
  ub : Bool

/-- What follows an element in a list; `none` if it is not there. -/
def after (w : Nat) : List Nat → Option (List Nat)
  | [] => none
  | x :: l => if x = w then some l else after w l

/-- The callbacks that a loop over `l` which has just called `cur` is still going to call.  The loop
is a range-for over an intrusive list (`detail/signal.hpp:73-78`): the successor is read after the
call, and if the element is no longer in the list, that is undefined behaviour. -/
def remaining (cur : Option Nat) (l : List Nat) : Option (List Nat) :=
  match cur with
  | none => some l
  | some w => after w l

/-- One step of library code; `none` if user code is running (or after undefined behaviour). -/
def istep (m : M V S) : Option (M V S) :=
  if m.ub then none
  else
    match m.stack with
    | .notify n :: st =>
      -- nodes.hpp:230-234
      if (m.g.node n).needsNotify && !(m.g.node n).dirty then
        some { m with
          g := m.g.mod n fun x => { x with needsNotify := false, notifying := true }
          stack := .obs n none (m.g.node n).notifying :: st }
      else some { m with stack := st }
    | .obs n cur prev :: st =>
      match remaining cur (m.g.node n).obs with
      | none => some { m with ub := true }
      | some [] => some { m with stack := .kids n 0 (m.g.node n).children.length prev false :: st }
      | some (w :: _) =>
        some { m with
          stack := .user :: .obs n (some w) prev :: st
          seen := fun w' => if w' = w then some (m.g.node n).last else m.seen w'
          log := m.log ++ [.call w n (m.g.node n).last] }
    | .kids n i size prev garbage :: st =>
      if i < size then
        match (m.g.node n).children[i]? with
        | none => some { m with ub := true }
        | some c =>
          if (m.g.node c).alive then
            some { m with stack := .notify c :: .kids n (i + 1) size prev garbage :: st }
          else some { m with stack := .kids n (i + 1) size prev true :: st }
      else
        -- nodes.hpp:250-252, 121
        let g := if garbage && !prev then m.g.collect n else m.g
        some { m with g := g.mod n fun x => { x with notifying := prev }, stack := st }
    | .roots [] :: st => some { m with stack := st }
    -- notify_root, commit.hpp:29-33, 44
    | .roots (r :: rs) :: st => some { m with stack := .notify r :: .roots rs :: st }
    | .up n v :: st =>
      match (m.g.node n).kind with
      -- state.hpp:42-58
      | .state auto =>
        if auto then
          some { m with g := (m.g.pushDown n v).sendDown n, stack := .notify n :: st }
        else some { m with g := m.g.pushDown n v, stack := st }
      -- lens_nodes.hpp:87-98, merge_nodes.hpp:67-68, xform_nodes.hpp:140-141, nodes.hpp:308-329
      | .calc _ (some put) refreshes =>
        let g := if refreshes then m.g.refresh n else m.g
        let vs := put (g.currents (g.node n).parents) v
        some { m with g := g, stack := .ups (g.order ((g.node n).parents.zip vs)) :: st }
      -- xform_nodes.hpp:109-117, 140-141; the values are computed first and sent afterwards
      | .xform _ (some up) =>
        let r := up (m.g.node n).upSt v
        let g := m.g.mod n fun x => { x with upSt := r.1 }
        some { m with
          g := g
          stack := .ups (r.2.flatMap fun vs => g.order ((g.node n).parents.zip vs)) :: st }
      -- setter.hpp:53-73
      | .setter _ =>
        some { m with stack := .user :: .setterRest n v :: st,
                      log := m.log ++ [.setterCall n v] }
      -- not writable: excluded by the compiler
      | _ => some { m with stack := st }
    | .ups [] :: st => some { m with stack := st }
    | .ups ((p, v) :: l) :: st => some { m with stack := .up p v :: .ups l :: st }
    | .setterRest n v :: st =>
      let g := m.g.pushDown n v
      match (m.g.node n).kind with
      | .setter true =>
        some { m with
          g := (g.mod n fun x => { x with recomputed := true }).sendDown n
          stack := .notify n :: st }
      | _ => some { m with g := g, stack := st }
    | .user :: _ => none
    | [] => none

/-- What user code can do. -/
inductive Op (V S : Type) where
  | newState (auto cmp : Bool) (v : V)
  | newSensor (cmp : Bool) (ext : Nat → V)
  | newConstant (cmp : Bool) (v : V)
  /-- `dflt` is what is shown if a filter drops the initial value -/
  | newCalc (cmp : Bool) (ps : List Nat) (view : List V → Option V)
      (put : Option (List V → V → List V)) (refreshes : Bool) (dflt : V)
  | newXform (cmp : Bool) (ps : List Nat) (s0 u0 : S) (down : S → List V → S × List V)
      (up : Option (S → V → S × List (List V))) (dflt : V)
  | newSetter (cmp : Bool) (p : Nat) (auto : Bool)
  /-- `set`, `writer.hpp:31-35` -/
  | set (n : Nat) (v : V)
  /-- `update`, `writer.hpp:37-41` -/
  | update (n : Nat) (f : V → V)
  /-- `commit`, `commit.hpp:40-45` -/
  | commit (rs : List Nat)
  /-- attach a callback, at position `i` -/
  | attach (n i : Nat)
  | detach (n w : Nat)
  /-- the last owner of `n` goes away -/
  | kill (n : Nat)
  /-- the running callback returns -/
  | ret

/-- The node that a frame works on, which it therefore keeps alive. -/
def Frame.holds : Frame V → List Nat
  | .notify n => [n]
  | .obs n _ _ => [n]
  | .kids n _ _ _ _ => [n]
  | .roots rs => rs
  | .up n _ => [n]
  | .ups l => l.map (·.1)
  | .setterRest n _ => [n]
  | .user => []

/-- A new node: `current_` and `last_` both have the initial value, `nodes.hpp:194-199`. -/
def freshNode (kind : Kind V S) (ps : List Nat) (v : V) (cmp : Bool) (s0 u0 : S) : Node V S :=
  { kind := kind, parents := ps, children := [], current := v, last := v, dirty := false,
    chg := false,
    needsNotify := false, notifying := false, alive := true, cmp := cmp, recomputed := false,
    samples := 0, downSt := s0, upSt := u0, init := v, start := s0, fed := [], input := [],
    obs := [] }

/-- Is `n` a node that a handle can refer to? -/
def Graph.valid (g : Graph V S) (n : Nat) : Bool := n < g.size && (g.node n).alive

/-- The last value of a list, or a default: what `zug::last` leaves. -/
def lastOr (d : V) : List V → V
  | [] => d
  | v :: l => lastOr v l

/-- One API call of user code (or the return from a callback); `none` if it is not possible. -/
def ustep [Inhabited S] (m : M V S) (op : Op V S) : Option (M V S) :=
  if m.ub then none
  else
    match m.stack with
    | .user :: st =>
      match op with
      | .newState auto cmp v =>
        some { m with g := m.g.add (freshNode (.state auto) [] v cmp default default) }
      -- sensor.hpp:39-42
      | .newSensor cmp ext =>
        let x : Node V S := freshNode (.sensor ext) [] (ext 0) cmp default default
        some { m with g := m.g.add { x with samples := 1 } }
      | .newConstant cmp v =>
        some { m with g := m.g.add (freshNode .constant [] v cmp default default) }
      -- lens_nodes.hpp:57-61, merge_nodes.hpp:47-50, xform_nodes.hpp:47-63, 89-96
      | .newCalc cmp ps view put refreshes dflt =>
        if ps ≠ [] ∧ ps.all m.g.valid ∧ (put.isSome → ps.all m.g.canWrite) then
          let v := (view (m.g.currents ps)).getD dflt
          let x : Node V S := freshNode (.calc view put refreshes) ps v cmp default default
          some { m with g := m.g.add x }
        else none
      -- xform_nodes.hpp:47-63, 89-96: the initial value comes from another instance of the
      -- transducer, the node's own instance starts afresh
      | .newXform cmp ps s0 u0 down up dflt =>
        if ps ≠ [] ∧ ps.all m.g.valid ∧ (up.isSome → ps.all m.g.canWrite) then
          let v := lastOr dflt (down s0 (m.g.currents ps)).2
          let x : Node V S := freshNode (.xform down up) ps v cmp s0 u0
          some { m with g := m.g.add { x with input := m.g.currents ps } }
        else none
      -- setter.hpp:38-42, 76-84
      | .newSetter cmp p auto =>
        if m.g.valid p then
          let x : Node V S :=
            freshNode (.setter auto) [p] (m.g.node p).current cmp default default
          some { m with g := m.g.add x }
        else none
      | .set n v =>
        if m.g.valid n && m.g.canWrite n then some { m with stack := .up n v :: m.stack } else none
      | .update n f =>
        if m.g.valid n && m.g.canWrite n then
          some { m with stack := .up n (f (m.g.node n).current) :: m.stack }
        else none
      | .commit rs =>
        if rs.all m.g.valid && rs.all fun r => (m.g.node r).parents.isEmpty then
          some { m with g := rs.foldl (fun g r => g.sendDown r) m.g, stack := .roots rs :: m.stack }
        else none
      | .attach n i =>
        if m.g.valid n then
          some { m with
            g := m.g.mod n fun x => { x with obs := x.obs.take i ++ m.nextW :: x.obs.drop i }
            nextW := m.nextW + 1
            seen := fun w => if w = m.nextW then some (m.g.node n).last else m.seen w }
        else none
      | .detach n w =>
        some { m with g := m.g.mod n fun x => { x with obs := x.obs.filter (· ≠ w) } }
      | .kill n =>
        if m.g.valid n ∧ (∀ c, c < m.g.size → (m.g.node c).alive = true →
            n ∉ (m.g.node c).parents) ∧ (∀ f ∈ m.stack, n ∉ f.holds) then
          some { m with g := m.g.mod n fun x => { x with alive := false, obs := [] } }
        else none
      | .ret =>
        match st with
        | [] => none
        | _ => some { m with stack := st }
    | _ => none

/-- The empty program. -/
def start (ltr : Bool) (dummy : Node V S) : M V S :=
  { g := { size := 0, node := fun _ => dummy, ltr := ltr }, stack := [.user], nextW := 0,
    seen := fun _ => none, log := [], ub := false }

/-- A placeholder for numbers that are not yet in use. -/
def Dummy (x : Node V S) : Prop :=
  x.alive = false ∧ x.children = [] ∧ x.parents = [] ∧ x.obs = [] ∧ x.notifying = false ∧
    x.last = x.current ∧ x.dirty = false ∧ x.chg = false

/-- One step of library code or of user code. -/
inductive Step [Inhabited S] (m : M V S) : M V S → Prop where
  | lib {m'} : istep m = some m' → Step m m'
  | user {m'} (op : Op V S) : ustep m op = some m' → Step m m'

/-- Everything that can happen. -/
inductive Reach [Inhabited S] : M V S → Prop where
  | start (ltr : Bool) (dummy : Node V S) : Dummy dummy → Reach (start ltr dummy)
  | step {m m'} : Reach m → Step m m' → Reach m'

end Verif.Graph
