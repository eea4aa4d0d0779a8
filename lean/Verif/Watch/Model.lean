/-!
Watching readers: `watch.hpp`, `detail/signal.hpp`, and the checks for null in `reader.hpp` and `writer.hpp`.

A source is a node with its list of observers, `detail/nodes.hpp:155`, `:181`, and its value.  A reader (or
cursor) is a slot in the list of at most one source, through its hook, and has a list of slots of its own, one
for each callback.  The intrusive lists of Boost are lists; the iterator of a loop over one is the element
that it points to, so that the next one is looked up in the list that the element is in at that time.

Undefined behaviour sets `ub`: using an iterator to an element that is in no list or destroyed, reaching the
end of a list other than the one that the loop is about, linking a hook that is linked, and
dereferencing a null node.  User code and library code take steps in turn; user code runs at the start
and in callbacks and may do anything with readers.

Not modelled: exceptions from callbacks, the destruction of sources, and when sources decide to notify, which the
model of the graph is about.
-/

namespace Verif.Watch

/-- Update of a function. -/
def upd {β : Type} (f : Nat → β) (i : Nat) (v : β) : Nat → β := fun j => if j = i then v else f j

@[simp] theorem upd_same {β : Type} (f : Nat → β) (i : Nat) (v : β) : upd f i v i = v := by simp [upd]

@[simp] theorem upd_ne {β : Type} (f : Nat → β) {i j : Nat} (v : β) (h : j ≠ i) : upd f i v j = f j := by
  simp [upd, h]

/-- What a loop of the library is doing, or the call in `bind`. -/
inductive Frame where
  /-- loop number `f` over the observers of source `n`, `detail/signal.hpp:73-78`, calls reader `cur` -/
  | node (f n cur : Nat)
  /-- loop number `f` over the callbacks of reader `r`, called for source `n`, runs callback `cur`; called by
  `nudge` or else by the loop over the observers -/
  | slot (f n r cur : Nat) (nudged : Bool)
  /-- `bind` has called the callback, `watch.hpp:97` -/
  | bind (r c : Nat)
deriving DecidableEq

/-- Whose turn it is. -/
inductive Ctrl where
  | user
  /-- the loop calls `forwarder::operator()` of reader `r`, `detail/signal.hpp:90-99` -/
  | enter (r : Nat)
  /-- the innermost loop goes on -/
  | back
deriving DecidableEq

/-- Observable events. -/
inductive Ev where
  /-- source `n` starts to notify, in loop `f` -/
  | notify (f n : Nat)
  /-- it is the turn of reader `r` in loop `f` -/
  | turn (f r : Nat)
  /-- in loop `f`, callback `c` of reader `r` is called with `v` for source `n` -/
  | called (f n r c v : Nat)
  /-- `bind` calls callback `c` with `v` -/
  | bound (r c v : Nat)
  /-- loop `f` ends -/
  | done (f : Nat)
  /-- `get` returns `v` -/
  | got (r v : Nat)
  /-- `set` passes `v` to source `n` -/
  | sent (r n v : Nat)
  /-- `get`, `set` or `update` throws -/
  | threw (r : Nat)
deriving DecidableEq

/-- Sources and readers, `watch.hpp:24-109`, `detail/signal.hpp`, and the call stack. -/
structure St where
  val : Nat → Nat
  obs : Nat → List Nat
  /-- the source in whose list the hook is -/
  linked : Nat → Option Nat
  slots : Nat → List Nat
  node : Nat → Option Nat
  alive : Nat → Bool
  nr : Nat
  nc : Nat
  nf : Nat
  stack : List Frame
  ctrl : Ctrl
  log : List Ev
  ub : Bool

/-- No readers. -/
def start : St where
  val _ := 0
  obs _ := []
  linked _ := none
  slots _ := []
  node _ := none
  alive _ := false
  nr := 0
  nc := 0
  nf := 0
  stack := []
  ctrl := .user
  log := []
  ub := false

/-- The iterator after the one to `x`: `none` is the end. -/
def next (x : Nat) : List Nat → Option Nat
  | [] => none
  | y :: l => if y = x then l.head? else next x l

/-- Ghost: record an event. -/
def St.say (st : St) (e : Ev) : St := { st with log := st.log ++ [e] }

/-- `signal::add`, `detail/signal.hpp:71`.  `push_back` requires a hook that is not linked. -/
def St.link (st : St) (n r : Nat) : St :=
  match st.linked r with
  | some _ => { st with ub := true }
  | none => { st with obs := upd st.obs n (st.obs n ++ [r]), linked := upd st.linked r (some n) }

/-- `unlink` of an auto-unlink hook. -/
def St.unlink (st : St) (r : Nat) : St :=
  match st.linked r with
  | some n => { st with obs := upd st.obs n ((st.obs n).erase r), linked := upd st.linked r none }
  | none => st

/-- A new reader: `watch.hpp:60-66` and the constructors before it take the node only. -/
def St.new (st : St) (n : Option Nat) : St :=
  { st with
    node := upd st.node st.nr n
    alive := upd st.alive st.nr true
    slots := upd st.slots st.nr []
    linked := upd st.linked st.nr none
    nr := st.nr + 1 }

/-- `if (!base_t::empty() && node_) node_->observers().add(*this);`. -/
def St.relink (st : St) (r : Nat) : St :=
  match st.node r with
  | some n => if st.slots r ≠ [] then st.link n r else st
  | none => st

/-- `watch`, `watch.hpp:86-93`, with callback number `c`. -/
def St.watch (st : St) (r c : Nat) : St :=
  let s1 := match st.node r with
    | some n => if st.slots r = [] then st.link n r else st
    | none => st
  { s1 with slots := upd s1.slots r (s1.slots r ++ [c]) }

/-- The operations: user code, and `lib` for library code. -/
inductive Op where
  /-- a reader of source `n`, or a default constructed one -/
  | mk (n : Option Nat)
  | copy (r : Nat)
  | move (r : Nat)
  | assign (r r2 : Nat)
  | moveAssign (r r2 : Nat)
  | destroy (r : Nat)
  /-- with a new callback -/
  | watch (r : Nat)
  | bind (r : Nat)
  | unbind (r : Nat)
  | nudge (r : Nat)
  | get (r : Nat)
  | set (r v : Nat)
  /-- the value of source `n` changes -/
  | change (n v : Nat)
  /-- source `n` notifies, `detail/nodes.hpp:237` -/
  | notify (n : Nat)
  /-- the callback returns -/
  | ret
  | lib
deriving DecidableEq

/-- Operations of user code on readers that exist. -/
def St.user (st : St) : Op → Option St
  | .mk n => some (st.new n)
  -- `watch.hpp:60-62`
  | .copy r => if st.alive r then some (st.new (st.node r)) else none
  -- `watch.hpp:64-66`
  | .move r => if st.alive r then some { st.new (st.node r) with
      node := upd (st.new (st.node r)).node r none } else none
  -- `watch.hpp:68-75`
  | .assign r r2 => if st.alive r ∧ st.alive r2 then
      let s1 := st.unlink r
      some ({ s1 with node := upd s1.node r (s1.node r2) }.relink r)
    else none
  -- `watch.hpp:77-84`; moving a `std::shared_ptr` to itself changes nothing
  | .moveAssign r r2 => if st.alive r ∧ st.alive r2 then
      let s1 := st.unlink r
      some ({ s1 with node := if r = r2 then s1.node
                else upd (upd s1.node r (s1.node r2)) r2 none }.relink r)
    else none
  -- the destructor: the callbacks, the node and then the hook
  | .destroy r => if st.alive r then
      let s1 := { st with slots := upd st.slots r [], node := upd st.node r none }.unlink r
      some { s1 with alive := upd s1.alive r false }
    else none
  | .watch r => if st.alive r then some { st.watch r st.nc with nc := st.nc + 1 } else none
  -- `watch.hpp:95-100`
  | .bind r => if st.alive r then
      match st.node r with
      | none => some { st with ub := true }
      | some n => some { st.say (.bound r st.nc (st.val n)) with
          stack := .bind r st.nc :: st.stack
          nc := st.nc + 1 }
    else none
  -- `watch.hpp:104-108`
  | .unbind r => if st.alive r then some ({ st with slots := upd st.slots r [] }.unlink r) else none
  -- `watch.hpp:102`
  | .nudge r => if st.alive r then
      match st.node r with
      | none => some { st with ub := true }
      | some n =>
        match st.slots r with
        | [] => some st
        | c :: _ => some { st.say (.called st.nf n r c (st.val n)) with
            stack := .slot st.nf n r c true :: st.stack
            nf := st.nf + 1 }
    else none
  -- `reader.hpp:35`, `:72-79`
  | .get r => if st.alive r then
      match st.node r with
      | none => some (st.say (.threw r))
      | some n => some (st.say (.got r (st.val n)))
    else none
  -- `writer.hpp:30-41`, `:71-78`
  | .set r v => if st.alive r then
      match st.node r with
      | none => some (st.say (.threw r))
      | some n => some (st.say (.sent r n v))
    else none
  | .change n v => some { st with val := upd st.val n v }
  -- `detail/signal.hpp:73-78`
  | .notify n =>
    match st.obs n with
    | [] => some { (st.say (.notify st.nf n)).say (.done st.nf) with nf := st.nf + 1 }
    | r :: _ => some { (st.say (.notify st.nf n)).say (.turn st.nf r) with
        stack := .node st.nf n r :: st.stack
        nf := st.nf + 1
        ctrl := .enter r }
  | .ret =>
    match st.stack with
    | [] => none
    | .slot _ _ _ _ _ :: _ => some { st with ctrl := .back }
    -- `watch.hpp:98-99`
    | .bind r c :: fs => if st.alive r then some ({ st with stack := fs }.watch r c)
        else some { st with stack := fs, ub := true }
    | .node _ _ _ :: _ => none
  | .lib => none

/-- Library code goes on. -/
def St.lib (st : St) : Option St :=
  match st.ctrl with
  | .user => none
  | .enter r =>
    match st.stack with
    | .node f n _ :: _ =>
      match st.slots r with
      | [] => some { st with ctrl := .back }
      | c :: _ => some { st.say (.called f n r c (st.val n)) with
          stack := .slot f n r c false :: st.stack
          ctrl := .user }
    | _ => none
  | .back =>
    match st.stack with
    | .slot f n r c nudged :: fs =>
      if c ∈ st.slots r then
        match next c (st.slots r) with
        | some c' => some { st.say (.called f n r c' (st.val n)) with
            stack := .slot f n r c' nudged :: fs
            ctrl := .user }
        | none =>
          if nudged then some { st.say (.done f) with stack := fs, ctrl := .user }
          else some { st with stack := fs }
      else some { st with ub := true }
    | .node f n r :: fs =>
      match st.linked r with
      | none => some { st with ub := true }
      | some m =>
        match next r (st.obs m) with
        | some r' => some { st.say (.turn f r') with stack := .node f n r' :: fs, ctrl := .enter r' }
        | none =>
          if m = n then some { st.say (.done f) with stack := fs, ctrl := .user }
          else some { st with ub := true }
    | _ => none

/-- One step: user code if it runs, or library code. -/
def step (st : St) (op : Op) : Option St :=
  if st.ub then none
  else if st.ctrl = .user then st.user op
  else if op = .lib then st.lib else none

/-- The states that can be reached. -/
inductive Reach : St → Prop where
  | start : Reach start
  | step {st st' : St} (op : Op) : Reach st → step st op = some st' → Reach st'

/-- A run. -/
inductive Run : St → List Op → St → Prop where
  | nil (st : St) : Run st [] st
  | cons {st st1 st2 : St} {op : Op} {ops : List Op} :
      step st op = some st1 → Run st1 ops st2 → Run st (op :: ops) st2

end Verif.Watch
