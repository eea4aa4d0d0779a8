/-!
# Who keeps what alive

Nodes are owned through `std::shared_ptr`: by the readers, cursors and stores that users hold
(`watchable_base::node_`, `lager/watch.hpp:31`), by the nodes that are derived from them
(`inner_node::parents_`, `lager/detail/nodes.hpp:288`), and by temporary pointers of running calls.
The links from a node to its children are weak (`nodes.hpp:182`).  The tasks that a store posts, and
the contexts made from it, hold a raw pointer to its node (`lager/store.hpp:144`, `:157`, `:165`, `:187`).

Here only ownership is modelled: reference counts, and what is destroyed when.  Values are the
subject of `Graph`.
-/

namespace Verif.Life

/-- All nodes ever made.  Nodes are numbered in the order of creation. -/
structure Heap where
  size : Nat
  parents : Nat → List Nat
  /-- `use_count`; a node exists as long as it is positive -/
  rc : Nat → Nat
  /-- destructors that have been run, in order -/
  freed : List Nat
  /-- a pointer to something destroyed was copied or released -/
  bad : Bool

namespace Heap

/-- The node has not been destroyed. -/
def alive (h : Heap) (n : Nat) : Prop := 0 < h.rc n

instance (h : Heap) (n : Nat) : Decidable (h.alive n) := inferInstanceAs (Decidable (0 < h.rc n))

/-- Change the count of `n`. -/
def setRc (h : Heap) (n v : Nat) : Heap := { h with rc := fun m => if m = n then v else h.rc m }

/-- Copying a `shared_ptr` to `n`. -/
def acquire (h : Heap) (n : Nat) : Heap :=
  if h.rc n = 0 then { h with bad := true } else h.setRc n (h.rc n + 1)

/-- Destroying a `shared_ptr` to `n`: when it was the last one, the destructor of `n` runs, which
destroys the pointers to the parents.  The first argument bounds the depth of the recursion; parents
have smaller numbers, so `n + 1` is enough.  (The order in which a `std::tuple` destroys its members
is not specified; here, from the first to the last.) -/
def release : Nat → Heap → Nat → Heap
  | 0, h, _ => h
  | k + 1, h, n =>
    if h.rc n = 0 then { h with bad := true }
    else if h.rc n = 1 then
      (h.parents n).foldl (release k) { h.setRc n 0 with freed := h.freed ++ [n] }
    else h.setRc n (h.rc n - 1)

/-- A `std::shared_ptr` to `n` is destroyed: `release` with a bound that is always enough. -/
def drop (h : Heap) (n : Nat) : Heap := release (n + 1) h n

/-- `make_shared` and `link_to_parents`, `nodes.hpp:350-355`: the new node has one owner, and owns
its parents. -/
def make (h : Heap) (ps : List Nat) : Heap :=
  let h1 := ps.foldl acquire h
  { h1 with
    size := h.size + 1
    parents := fun m => if m = h.size then ps else h1.parents m
    rc := fun m => if m = h.size then 1 else h1.rc m }

end Heap

/-- A program. -/
structure P where
  heap : Heap
  /-- the readers, cursors and stores of the user: what they refer to, if anything -/
  handles : List (Option Nat)
  /-- temporary pointers of running calls, the innermost first -/
  locks : List Nat
  /-- contexts made from stores: a raw pointer, `store.hpp:144` -/
  ctxs : List Nat
  /-- tasks of stores in the event loop: a raw pointer, `store.hpp:157`, `:165`, `:187` -/
  tasks : List Nat
  /-- tasks that are running, the innermost first -/
  running : List Nat
  /-- something destroyed was used -/
  ub : Bool

/-- The state at the beginning: nothing. -/
def start : P :=
  { heap := { size := 0, parents := fun _ => [], rc := fun _ => 0, freed := [], bad := false },
    handles := [], locks := [], ctxs := [], tasks := [], running := [], ub := false }

/-- What happens. -/
inductive Op where
  /-- `make_state`, `make_sensor`, `make_constant`, `make_store`: a node without parents -/
  | root
  /-- `map`, `zoom`, `with`, `xform`, `setter`, …: a node derived from those of the handles `is` -/
  | derive (is : List Nat)
  /-- copy construction, `watch.hpp:60-62` -/
  | copy (i : Nat)
  /-- move construction, `watch.hpp:64-66` -/
  | move (i : Nat)
  /-- copy assignment to handle `i` from handle `j`, `watch.hpp:68-75` -/
  | assign (i j : Nat)
  /-- move assignment, `watch.hpp:77-84`; self-assignment changes nothing -/
  | moveAssign (i j : Nat)
  /-- the destructor of a handle -/
  | destroy (i : Nat)
  /-- a call through a handle begins: `node_()` returns a copy of the pointer, `reader.hpp:72-79`,
  `writer.hpp:71-78`, and `roots()` does, `store.hpp:65`, `state.hpp:79` -/
  | enter (i : Nat)
  /-- `wchild.lock()`, `nodes.hpp:221`, `:244` -/
  | lock (n : Nat)
  /-- the end of the scope of the innermost temporary pointer -/
  | leave
  /-- a context is made from a store: `store.hpp:206`, or a copy, or conversion, of one -/
  | context (i : Nat)
  /-- `dispatch` through a context, `store.hpp:144`, `:149-199`: posts a task -/
  | dispatch (c : Nat)
  /-- the event loop runs the first task -/
  | begin
  /-- the running task posts another one, `store.hpp:165`, `:187` -/
  | post
  /-- the running task goes on after the callbacks, effects or reducers that it has called -/
  | resume
  /-- the running task ends -/
  | finish

/-- Put something else into a slot. -/
def put (hs : List (Option Nat)) (i : Nat) (x : Option Nat) : List (Option Nat) := hs.set i x

/-- Destroy the pointer in a slot. -/
def dropSlot (h : Heap) : Option Nat → Heap
  | none => h
  | some n => h.drop n

/-- What the user, the library or the event loop may do next; `none` if it is not possible. -/
def step (s : P) (op : Op) : Option P :=
  if s.ub then none
  else
    match op with
    | .root => some { s with heap := s.heap.make [], handles := s.handles ++ [some s.heap.size] }
    | .derive is =>
      match is.mapM fun i => s.handles[i]?.join with
      | none => none
      | some ps =>
        if ps = [] then none
        else some { s with heap := s.heap.make ps, handles := s.handles ++ [some s.heap.size] }
    | .copy i =>
      match s.handles[i]? with
      | none => none
      | some none => some { s with handles := s.handles ++ [none] }
      | some (some n) =>
        some { s with heap := s.heap.acquire n, handles := s.handles ++ [some n] }
    | .move i =>
      match s.handles[i]? with
      | none => none
      | some x => some { s with handles := put s.handles i none ++ [x] }
    | .assign i j =>
      match s.handles[i]?, s.handles[j]? with
      | some x, some none => some { s with heap := dropSlot s.heap x, handles := put s.handles i none }
      | some x, some (some n) =>
        some { s with heap := dropSlot (s.heap.acquire n) x, handles := put s.handles i (some n) }
      | _, _ => none
    | .moveAssign i j =>
      if i = j then (s.handles[i]?).map fun _ => s
      else
        match s.handles[i]?, s.handles[j]? with
        | some x, some y =>
          some { s with heap := dropSlot s.heap x, handles := put (put s.handles i y) j none }
        | _, _ => none
    | .destroy i =>
      match s.handles[i]? with
      | none => none
      | some x => some { s with heap := dropSlot s.heap x, handles := put s.handles i none }
    | .enter i =>
      match s.handles[i]? with
      | some (some n) => some { s with heap := s.heap.acquire n, locks := n :: s.locks }
      | _ => none
    | .lock n =>
      if n < s.heap.size then
        if s.heap.rc n = 0 then some s
        else some { s with heap := s.heap.acquire n, locks := n :: s.locks }
      else none
    | .leave =>
      match s.locks with
      | [] => none
      | n :: l => some { s with heap := s.heap.drop n, locks := l }
    | .context i =>
      match s.handles[i]? with
      | some (some n) => if s.heap.parents n = [] then some { s with ctxs := s.ctxs ++ [n] } else none
      | _ => none
    | .dispatch c =>
      match s.ctxs[c]? with
      | none => none
      | some n =>
        if s.heap.rc n = 0 then some { s with ub := true } else some { s with tasks := s.tasks ++ [n] }
    | .begin =>
      match s.tasks with
      | [] => none
      | n :: l =>
        if s.heap.rc n = 0 then some { s with ub := true }
        else some { s with tasks := l, running := n :: s.running }
    | .post =>
      match s.running with
      | [] => none
      | n :: _ =>
        if s.heap.rc n = 0 then some { s with ub := true } else some { s with tasks := s.tasks ++ [n] }
    | .resume =>
      match s.running with
      | [] => none
      | n :: _ => if s.heap.rc n = 0 then some { s with ub := true } else some s
    | .finish =>
      match s.running with
      | [] => none
      | _ :: l => some { s with running := l }

/-- Several steps, one after the other. -/
def run : List Op → P → Option P
  | [], s => some s
  | op :: ops, s => (step s op).bind (run ops)

/-- Everything that can happen. -/
inductive Reach : P → Prop where
  | start : Reach start
  | step {s s' op} : Reach s → step s op = some s' → Reach s'

end Verif.Life
