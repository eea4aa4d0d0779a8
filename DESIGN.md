# Formal model of arximboldi/lager in Lean 4: design

## 1. What is being done

`/repo` is read as text.  Each modelled C++ function gets a Lean definition with
a comment citing file and lines.  Properties (`properties.jsonl`) are stated in
`Verif/*/Props*.lean` files against small specifications and proved for all
inputs, states and histories.  Where a property is false of the code, the
English statement says so, the negation is proved on a concrete witness (a
theorem with `_false` in its name, about a run of the model), and the part that
does hold is proved beside it.  A claim counts as proved in `MANIFEST.json` when
everything its English statement says, the false and the true parts, is proved.

Layout, per component `X`:

* `Verif/X/Model.lean`: definitions that mirror the code, with citations;
* `Verif/X/Spec.lean` (when not tiny): the independent specification;
* `Verif/X/Lemmas.lean` and others: helper lemmas and invariants;
* `Verif/X/Props*.lean`: the property theorems, each with a non-vacuity `example`.

`tools/manifest.py` regenerates `MANIFEST.json` from the names of the theorems
(`Cnn_...`) and `tools/notes.json`; `tools/axioms.py` regenerates section 7.
`seeded/LOG.jsonl` has the record of wrong programs tried against the theorems.

## 2. Trusted base

* Lean 4.33.0's kernel.  Axioms used: `propext`, `Classical.choice`,
  `Quot.sound`; section 7 lists them per theorem.  No own axioms, no `sorry`,
  `native_decide`, `bv_decide`.  `decide +kernel` is used for concrete examples
  and witnesses; it is evaluated by the kernel.
* The proofs use core Lean only, except those of `Example/PongHit*`, which use modules of
  Mathlib on ordered fields.
* The hand translation from C++ to Lean (each definition cites its source; every
  simplification is stated in the comment at the definition).
* C++ facts assumed, not proved: `std::vector`, `std::optional`, `std::variant`,
  `std::function`, `immer` containers, `zug` transducers, `cereal` archives,
  `boost::hana` and `boost::intrusive` behave as documented; a moved-from
  `std::function` is treated as empty (its standard state is "valid but
  unspecified"; libstdc++ and libc++ leave it empty).
* Values are compared with a lawful `operator==` (`DecidableEq`), except where a
  node is marked as holding a non-comparable type (`has_changed` is then `true`).
* User supplied functions (lens parts, reducers, map functions) are pure total
  functions; user callbacks (watchers, tasks, effects, setter functions) are
  arbitrary: they are modelled as unrestricted sequences of API calls.

## 3. Components

| component | code | model |
|---|---|---|
| `Graph` | `detail/nodes.hpp`, `lens_nodes`, `merge_nodes`, `xform_nodes`, `state`, `sensor`, `constant`, `setter`, `commit`, `reader`, `writer` | small-step abstract machine: heap of nodes + explicit call stack; user code is a frame from which any API call can be made, so reentrancy is unrestricted; exceptions of callbacks (`Raise.lean`) and of functions (`Throw.lean`) unwind the stack |
| `Watch` | `detail/signal.hpp`, `watch.hpp`, the objects in `reader.hpp`, `cursor.hpp`, properties in `extra/qt.hpp` | reader objects with their signals, intrusive lists with the C++ iterator discipline; detaching the element under the iterator is an explicit `ub` outcome |
| `With` | `with.hpp`, `detail/xform_nodes.hpp`, `detail/lens_nodes.hpp` | transducers as Mealy machines; expressions as a fusion calculus against a denotational spec |
| `Lens` | `lenses.hpp`, `lenses/*.hpp`, `lens.hpp` | van Laarhoven lenses over an arbitrary lawful functor; spec is get/put pairs |
| `LensMove` | the same, with value categories | each lens has its behaviour on lvalues, on rvalues, what it leaves of an rvalue whole, and whether its part is a temporary; lens expressions denote both this and the lens of `Lens` |
| `Smart` | `detail/smart_lens.hpp`, `operator[]` of `with.hpp` | lenses chosen by recursion on types; places in values as the specification |
| `Loop` | `event_loop/manual.hpp`, `queue.hpp`, `safe_queue.hpp`, `sdl.hpp`, `qml.hpp`, `qt.hpp`, `boost_asio.hpp` | task queues with explicit index and moved-from slots; tasks are trees of posts and throws; threads by interleaving |
| `Future` | `future.hpp` | heap of promise states, promise and future handles, loop queue; `Inline.lean`: the same with a call stack, mutexes, exceptions and loops that run tasks inside of `post` |
| `Store` | `store.hpp`, `effect.hpp`, `extra/thunk.hpp`, `debug/debugger.hpp` (`with_debugger`) | store node + task queue; reducers with effects, effects choose dispatches; simulations between stores; tasks divided into steps, with several threads (`event_loop/boost_asio.hpp`) |
| `Life` | `watch.hpp`, `detail/nodes.hpp`, `store.hpp`: who owns what | reference counts of nodes with cascading destruction; handles, temporary pointers of calls, raw pointers of tasks and contexts |
| `Context` | `context.hpp` | dispatchers as finite tables of action types with a conversion relation |
| `Effect` | `effect.hpp`, `context.hpp` | effects with their types, as trees of conversions and sequences |
| `Deps` | `deps.hpp` | finite maps keyed by type tags |
| `Debugger`, `Tree` | `debug/debugger.hpp`, `debug/tree_debugger.hpp` | direct functional transcription |
| `Extra` | `extra/enum.hpp`, `derive/*`, `cereal/*` | direct functional transcription over an abstract archive |
| `Http` | `debug/http_server.hpp`: router, session, listener, routes and handlers of the debug server | direct functional transcription; patterns as regular expressions with derivatives |
| `Util` | `util.hpp`: `match`, `visitor` | overload resolution as a function on parameter lists |
| `Example` | `example/snake`, `example/todo`, `example/autopong`, `example/counter`, without their user interfaces | direct functional transcription; random numbers, files and floats are parameters |
| `Doc` | `doc/modularity.rst`, the todo list of `doc/actions.rst` and `doc/effects.rst`, the dynamic lenses of `doc/lenses.rst`, the counter program of `doc/architecture.rst` | direct functional transcription, in a store for the effects |
| `Config` | `config.hpp`, and the functions of `at.hpp`, `at_or.hpp`, `enum.hpp`, `xform_nodes.hpp`, `tree_debugger.hpp` that catch | a build is two flags; calls return, throw or end the program |

### What is not modelled

* What Qt makes of signals (`extra/qt.hpp`), and Qt and Boost.Asio themselves: their
  behaviour is assumed.  Of Asio, C94 only assumes that tasks begin in the order
  in which they were posted, and that a strand runs one at a time; C116 also assumes how work guards keep `run()`
  from returning, see `Loop/Asio.lean`.  For the QML loop (`event_loop/qml.hpp`) and the
  Qt loop (`event_loop/qt.hpp`), what is assumed of Qt is listed in `Loop/Qml.lean` and `Loop/QtPool.lean`.
* HTTP parsing and sockets of `debug/http_server.hpp`; the
  JSON text itself (archives are abstract trees of named fields).
* Memory: allocation failure, layout, lifetimes of user objects.  Lifetimes of
  nodes are modelled (`alive`, `kill`, and reference counts in `Life`), as is use of
  a moved-from task.
* Compile-time failure: ill-formed programs (SFINAE, static asserts) are, except in C121, simply
  not expressible in the models.
* A transducer that throws after it has emitted or changed its state, and copy
  assignments that throw after they have changed their target.
  Other exceptions of comparisons and copies are modelled (C103).
  Exceptions of functions, lenses and transducers (C85), of watchers and setter
  functions (C80), of tasks (C41-C43), of effects (C52, C53), and of reducers and
  watchers of stores (C81) are modelled.
* `config.hpp`, `tags.hpp`, macros in `util.hpp`, `detail/access.hpp`:
  no behaviour of their own.

### Main simplifications

* `Graph`: all nodes hold values of one type `V` (read: the disjoint union of the
  value types of the program); nodes are numbered in order of creation, so a node
  is derived from smaller numbers; `std::tuple` parents are lists.  The order in
  which argument packs are evaluated is a parameter (`ltr`) where C++ leaves it
  open.  `chg`, `input`, `fed`, `samples`, `start`, `init` and `recomputed` are
  ghost fields used by specifications and proofs.
* `Graph` identifies a reader with its node; `Watch` has the reader objects,
  of which several may share a node.
* `Store`: one store, and in `Store/Multi.lean` several on one loop; the state of the root node and its notification are inlined
  (`Graph` has the notification of derived readers).
* `Loop`: an execution is a list of atomic steps; for `safe_queue` each step is
  what happens between two lock operations, which `Loop/SafeRace.lean` justifies
  (C102).
* `Future/Model.lean`: the calls of promises and futures are atomic, which
  `Future/Threads.lean` justifies (C101).  Both assume sequential consistency of
  executions without data races, as C++ promises.
* `Future/Inline.lean`: one thread; the object for the future that `then` returns is
  there from the start of the call; a moved-from `std::function` is empty; using a
  promise object inside of its own call, or after an exception has left it, is an
  outcome `misuse` that is not modelled further.
* `Lens`: C++ overloads on value category are merged in `Lens` and distinguished
  in `LensMove`.

## 4. Plan per property

C01 C05 C07 C08 C17: invariants of the graph machine over all reachable states.
The key invariant says that an inconsistent or dirty derived node is either on
the list of nodes still to be propagated or has a dirty parent, and dually for
nodes that still have to notify.  Conclusions are read off at states whose stack
holds only user frames.

C02 C03 C04 C09 C11 C12 C14 C15 C16 C22: theorems about runs of single API calls
of the same machine (with a termination proof for propagation and notification
with passive watchers), by induction over the derivation chain where needed.

C06: by definition of the callback step, with the notification loop modelled at
the granularity of single slots; stated on traces.

C10 C12 C13 C25: negations by concrete runs; positive halves by invariants.

C18 C19 C20 C21 C23: `Watch` model: operations on reader objects and one
notification as a loop over the live list; C20's boundary is an iff.

C24 C26 C27: Mealy machines; composition lemma; fusion theorem by induction on
the expression.

C28-C37, C86: `Lens`, `LensMove`.  `Expr.ok` computes from a lens expression which
writes lose nothing; its soundness is an induction on expressions, with the
stronger claim that lenses inside `map_opt` and `zip` work on what repeated reading
left of the whole.

C38-C43, C73, C75: `Loop`; ghost log of executed task ids; exactly-once as a
permutation/prefix invariant between posted and executed sequences.

C44-C47: `Future`; invariants of the promise heap.

C87: `Future/Inline.lean`.  Without copies, promise states have one owner for the
right to call and one for the right to attach (`Linear.lean`).  From this follows a
forward simulation of the stack machine by the model of C44 (`InlineSim.lean`), in
which a promise is fulfilled before `post` rather than after; all positive claims are
read off from it.

C48-C57: `Store`, `Context`.

C58 C59: `Deps`.  C60-C68, C74: `Debugger`, `Tree`.  C69-C71, C76, C79: `Extra`.
C72, C77, C78: `Http`.

C80: the graph machine with one more step, an exception that unwinds the stack to
the next user frame.  A state reached with exceptions satisfies the invariant of
C01-C25 after a frame that notifies what was left behind is added at the bottom
of its stack; steps do not see that frame, so the old preservation theorem is
reused.

C85: the same machine with one more step, a propagation that is left in the
middle because a function throws (an arbitrary predicate for every call).  The
invariant of C01 is lost; what remains (`Sound`) is enough to show, by induction on
the depth of the propagation, that one that comes to its end visits every reader
of which a source has changed.

C88: `Graph/StoreRoot.lean`.  A store is a transactional state that no cursor writes
to; evaluating an action is an `update`, publishing is a `commit`.  Invariant along
histories: no frame is going to write to the store, and what it holds is the fold;
the set of nodes derived from the store alone is closed under sources, so nothing but
a publication of the store changes what its members show.

C89: `Graph/Visits.lean`, `Graph/Tower.lean`.  `send_down` with a record of the nodes
that were computed, proved equal to `send_down` when the record is dropped.  Every
entry is paid for by an entry of a parent; summed up along the graph this gives the
number of paths.  The tower of diamonds is built for every k by induction, and the
number of visits is computed by induction on the diamonds that are left.

C90: `Life`.  Invariant: the count of every node is the number of handles, temporary
pointers and existing children that refer to it, also in the middle of a cascade,
where pending releases are listed.  Parents are older than children, so by induction
a positive count means that some handle or call uses the node.  Every cascade is a
sequence of legal `kill` steps of the `Graph` machine (C90_kills).

C91: the same machine with raw pointers in tasks and contexts; a use of a raw pointer
to a node with count 0 is the outcome `ub`.

C92 C93: the debugger as a store (`Store/Debug.lean`), linked to the transcription of
its reducer in `Debugger`.  `Store/Sim.lean` has a simulation between two stores with
related models and effects, empty effects on one side being `noop` on the other; C55 is
another instance.  C93 follows from C48, C53 and C61 to C65.

C94: `Store/Threads.lean` divides the tasks of a store into the steps between which
other threads may act.  With one thread in tasks there is a simulation by the model in
which tasks are single steps, up to the order of independent events; with more there
are concrete runs that go wrong.

C95: enhancers as functions on functions that make stores (`Store/Enhance.lean`), lists
of them as an inductive family over the types of actions and models.  Simulations of
the single enhancers (C55, C92, C96) compose; the rest is by induction on the list.

C96: the tree debugger as a store (`Store/TreeDebug.lean`), like C92 and C93; the
invariant of C66 to C68 is carried over to the models that the store goes through.

C97: `Tree/Summary.lean`; the loop is a function `enc` of the summaries of the branches
of the steps; a reader of summaries (`Sum.has`), written without regard to the loop,
recovers the positions.

C98: `Store/Multi.lean`, where each store has its own part and they share the futures and
the queue of the loop.  A store only appends to the queue (`pre_step`), so that a step of
it is one of what it sees; for another store the same step is a few steps of user code
with promises and futures, because promises, futures and closures of the stores are
disjoint (`Store/MultiSim.lean`, `Store/MultiReach.lean`).

C99: `Smart/Model.lean` has a universe of types, because which lens a subscript is depends
on the type of the value.  The specification (`Smart/Spec.lean`) knows nothing of lenses:
places in values, and how to read and replace what is there.  The lens of one subscript
is a place by induction on the optionals around the type, also after its whole has been
moved from (`Smart/Shows.lean`); chains by induction on the subscripts (`Smart/Chain.lean`).

C100: `Graph/Debug.lean`: `link` with its assertion.  A new node is in no list of children
(an invariant of `Graph`), so that only naming a source twice makes it fail.

C101: `Future/Threads.lean`: the calls of `Future` cut into single accesses, locking and
unlocking.  The invariant relates the memory, with what calls in progress have still to write,
to a sequence of calls that grows when a call takes effect; mutual exclusion gives the absence
of races.  So the atomic calls of `Future/Model.lean` are justified, not assumed.

C102: the same for the safe queue, `Loop/SafeRace.lean`, over the states of
`Loop/SafeQueue.lean`.

C103: the machine of C85 with more places where a call can be left: before the value of a
state or setter is assigned, and between `recompute` and the copy from `current_` to `last_`.
New invariant of the propagation: a node of which a source was published is published.

C104: `Http/Live.lean`: the product of the machine of C94, for the store with the debugger, and the server
of C77.  The server is a watcher of the store, called last, and its handlers are threads that dispatch.  Invariant:
what the server shows is the fold over the first k actions, where k only grows.

C105: `Effect`: contexts are pairs of the dispatchers of `Context` and the bags of `Deps`, effects are trees of
conversions and sequences, and compiling is a function from trees to types.  Type soundness by induction on the tree;
the contexts that functions get are made by chains of conversions, one for each type around the function.

C106: `Graph/SetterRun.lean`: for each step of the graph machine, the setter and what its source shows are left alone or
in sync afterwards, except for the rest of `set` itself; induction over the run.  With C88 for stores.

C107: `Graph/Return.lean`: accessibility of the relation "one library step, or a whole callback".  The frames of the
stack are handled one by one, each with its measure: the number of children left (the bound of the loop is read once),
the connections after the present one (the list of connections can only lose elements, if nothing is attached), the
height of the node for writes that go up, the number of roots.

C108: `Graph/Settle.lean`: the program is a big-step relation (`Corrects`): a callback writes, everything that follows
from the write happens, and it returns.  Strong induction on the measure, and inside it on the accessibility from C107:
in a notification the states written to stay clean, and a write of the value that is there does nothing.  What each
callback was given last is tracked, to show that it has nothing left to correct.

C109: `Graph/Props13.lean`: `Passes` is the relation to moments within the call.  Two invariants: before the normalizing
callback the stack is one of five shapes, and after it all pending writes are of normal values.

C110: `Graph/Cost.lean`: library steps with a record (`jobs`) of the calls of `send_up` and of the values computed by
`refresh` (`refreshL`, whose result is that of `refresh`).  Strong induction on the number of the cursor: the counts
satisfy the recursion of `ways` and `cost`.  Then the closed form for chains, and a tower of diamonds.

C111: `Store/Chain.lean`: a budget kept along all histories (`Chain`): what calls of user code and of watchers have been
allowed to dispatch is at most what the reductions so far have caused, because an effect is started once for its
reduction, `sequence` calls the code of an effect at most once each (from the invariant of C52), and watchers are called
at most once for a changed model.  Then arithmetic with C48's order of dispatches.

C112: `Store/SafeQ.lean`: the machine of C94 (tasks in several steps, one thread of the loop), whose queue is the local
one, plus the shared queue and the phases of `step()`.  Invariant: the dispatches that have got to the local queue, with
their threads, in order, and the shared queue are together the dispatches, each kind in order.  The theorems of C94 apply
to the local queue.

C113: `Store/ManualQ.lean`: the machine of C94 (tasks in several steps) and that of the manual loop (C38) in lock step.
Invariant: the tasks that the loop has not started, without those that the program has posted, are as many as those in
the queue of the store; if the loop is idle, no task of the store runs.  The theorems of C94, C38 and C39 apply.

C114: `Watch/Flat.lean`: the lists of callbacks of the linked readers, one after the other.  The successor of a callback in
this list is its successor in the list of its reader, or the first one of the next reader, because readers without
callbacks are not linked.  This justifies the flat lists in the model of the graph.  `Watch/Twice.lean`: what is still
ahead of a loop never contains what it has called.

C115: `Watch/Qt.lean`: a property is a reader with a callback that is attached when it is constructed, so that it is the
first one of that reader at any time.  That it is called at most once is C114, that it is called is C20.

C116: `Loop/Asio.lean`: a machine with outstanding work, threads in `run()` and threads of asynchronous functions.  The
invariant: the outstanding work is that of the tasks in the queue, the running task and the functions whose guard exists.

C117: `Loop/SdlFps.lean`: `constant_fps_step` on a clock that never goes back and sleeps that may take too long.  The
invariant: the next target is at least one frame after each call for each call since, and at most one frame from now.

C118: `Loop/QtPool.lean`: a machine with the queue of the main thread and a thread pool, where the main thread can wait for
the pool.  The functions that were begun are, up to order, those that have returned and those that run.

C119: `Debugger/Meta.lean`: the model of the debugger, with the reducer of a debugger as its reducer.  A run that the second one
has recorded is a run of the first one.

C120: `Store/Actors.lean`: one store of C94 for each name, and a list of all dispatches.  Each of them is a run of C94; the list
has, for each store, what was dispatched to it; and in a store to which nothing was dispatched no user code is called.

C121: `Util/Match.lean`: the rules of C++ for the choice of an overload, as a function on parameter lists; `match` on top of it.
No two handlers are better than each other, so at most one is chosen, in any order.

C122: `Http/Listener.lean`: the connections over the sessions of C72, which share the state of the handlers; an invariant on the
list of all requests. Types of files: the chain of comparisons against a table.

C123: `Example/Snake.lean`: the reducer, function by function, with any generator of random numbers; an invariant over all actions.

C124: `Example/Todo.lean`: the reducers, and a queue of actions and effects with files; effects wait for their turn with what they
captured. C125: `Example/Pong.lean`: the reducers, over any numbers with an asymmetric order.

C126: `Config/Build.lean`: the macros of `config.hpp` as functions of the build, on calls that return, throw or end the
program; each function of the library that catches, written with them. By cases on the build.

C127: `Example/PongHit.lean`: the function in any ordered field. The distance is a convex function of two parameters; the
parameters found satisfy the conditions for a minimum, by cases along the code.

C128: `Doc/Modules.lean`: the reducers of the page on modularity. The undo module is refined to past, present and future.

C129: `Doc/Intent.lean`: the todo list of the pages on actions and effects, with `std::stoi`, in the model of stores. The actions of the commands that wait, in effects that run, in effects that are queued and in commands that are queued, in this order, are those that a small machine delivers.

C130: `Doc/Tail.lean`: the two lenses of the page on lenses that are made in a loop, and the same with value categories. By induction on the number of rounds; the values of the recursive type are lists of positions (`positions`), and only these.

C131: `Doc/Session.lean`: `main` of the counter as a relation between the input and the states of a store on the manual event loop (`ManQ`, as for C113). By an invariant that lists the steps of one `dispatch` (`Phase`): from each there is one way on, and the last is the first again.

C132: `Example/TodoQml.lean`: the commands as calls on the node graph, with the lenses of C30. From the theorems on sequences of writes to automatic states (`Graph/PropsAuto.lean`, C11).

C133: `Store/QmlQ.lean`: the store of C94 with events of Qt, frames, the timer and rounds of tasks. By induction over the steps: the queue has got the dispatches of each of the two kinds in order, and those not there are on their way; a task that waits has a frame scheduled or the timer running.

C134: `Store/SdlQ.lean`: the store of C94, with tasks that are dropped when the queue of SDL is full. An invariant that does not depend on which tasks are dropped (`Lossy`), by induction over the steps; when only dispatches are dropped, the store is one of C94.

C135: `Example/TodoRedux.lean`: the program of C124 with what its window shows, and the actions evaluated since that was published as a ghost. The invariant that the app is what is shown after these actions, by induction over the events.

C136: `Store/Paced.lean`: the store of C134 with calls of `tick` when SDL has no events; for browsers the store of C94 with calls of `tick` between any two tasks. An invariant over the steps: the number of events is at most the number of those that came since the last frame, so nothing is lost.

C137: `Doc/House.lean`: the reducer of the house as a configuration of the store of C94, components as folds over the log of the store. Induction over the actions, and C94.

C138: `Store/Nest.lean`: the tasks of the store of C48 with a stack of those that are notifying, and each call of a watcher as a step. Invariants over the steps: the order of actions, the number of actions that each call has seen, and which levels of the stack are still going to call a watcher that is behind.

C139: `Example/Terminal.lean`: the program with the numbers of waits and of handlers that are due, the keys that can be read, the signals, and the store of C48. Invariants over the steps; the counter is that of C125; a weight of what is left to do that every step makes smaller.

C140: `Store/Pump.lean`: SDL's queue with events for the handler and tasks of the store of C48, and a bound for its length. Invariant: the tasks in it are those of the store, and its length never grows but by events that come and by frames; a weight of what is left for the time that it takes, and, with equality, for the frames that do not come.

C141: `Example/SnakeQml.lean`: the game of C123, the tasks of its store, what is shown, and the dialog. Invariant: the dialog is open, or one reset waits with no tick behind it, only while the game is over and shown to be; and if it is shown to be over and is not, then no tick waits.

C142: `Example/TodoFile.lean`: the serialisation of C71 and C76 for the two structs of the example. For each member, what `load` makes of the child with its name; induction over the list. The contents of files of C124 are what `load` makes of documents.

C143: `Doc/Widgets.lean`: a store without effects, the copy that the watcher keeps, and a value for each widget. Invariant: a widget shows its part of the copy, or the last value of the user, with no change of the part in between. The program with readers is simulated: the value of a reader is its part of the copy.

C144: `Doc/Turnstile.lean`: the reducer, the queue, the pending and the shown model, and two counters. Invariant: the actions are those that are evaluated with their effects, those whose effects wait, and those that wait; each part accounts for its share. The published model is the model unless a task waits that publishes.

C145: `Doc/Identity.lean`: one machine for both kinds of references, with the wishes of the user as a history. Invariant: what is shown, the model and the tasks that wait account for consecutive parts of the wishes, and each task, when its time comes, does what its wish asks for. For indices: if nothing that was removed is visible, the keys that are shown are a prefix of those that will be there.

C146: `Extra/Listed.lean`: a state whose values are compared with the derived `==`. Invariant: the values written so far split before the one the node holds; those after it agree with it in the listed members, the one before does not.

C82 C83 C84: the queue machine embedded in a model of the QML item; Qt is an
environment that delivers events, polishes, paints and fires the timer in any
order.  Projection onto the queue machine, and an invariant on polish requests.

C81: the store machine has reducers that may throw (`Cfg.throws`) and a step where
a watcher throws in the task that shows the model; C48-C55 are proved with them.
The rest is an invariant on which tasks and promises belong to which dispatch.

Every property in the list is expressible in a model; none is planned as
not applicable.

## 5. Findings (disagreements between documentation or expectation and code)

Confirmed by a theorem about the model:

* Two paths from a state to a reader: the reader is recomputed and can be
  published with one stale input during propagation, and a filter can latch the
  inconsistent combination (C25_diamond_false); its watchers are then called for
  a value that has not changed between rest states (C10_diamond_false).
* `set(1); set(0); commit()` on a transactional state that holds 0 notifies
  watchers although the value has not changed (C10_restored_false).
* `update` twice on a cursor zoomed from a transactional state loses the first
  update: it reads the value that was last committed (C12_zoomed_false).
* `commit(a)` while `b` has an uncommitted write: a reader of `with(a, b)` shows
  the uncommitted value of `b` (C13_uncommitted_false).
* A value type without `operator==`: a refresh during a nested write marks the
  reader as having something to propagate and thus leaves it out of the
  notification that is going on (C07_not_comparable_false).
* `set` on a cursor merged from two automatic states notifies watchers of the
  merged cursor twice, with an intermediate value (C09_merged_false).
* A child destroyed while its parent notifies children after it is not removed
  from the parent's list before the next notification (C17_late_stays_false).
* Refreshing a cursor with a stateful transducer feeds it the same input again
  (C24_fed_again_false).
* Fused expressions differ from nested ones when a filter drops the initial
  value, and for two-way transducers that use the old value (C26_initial_false,
  C26_update_false).
* Reassigning the reader whose callback is running ends the notification for the
  remaining readers (C20_reassigned_ends); a callback attached to a reader that
  was already visited is not called (C20_visited_not_called); detaching the
  running callback is undefined behaviour (C20).
* `bind` and `nudge` on a default-constructed reader are undefined behaviour,
  whereas `get` and `set` throw (C23_unchecked).
* Lenses on rvalues: `alternative` and lifted lenses move the part out of the
  whole they return (C35_alternative_false, C35_map_opt_false,
  C35_value_write_false).  Lenses that show their part as a temporary do this to the
  lens after them also when the whole is an lvalue:
  `set(at(0) | map_opt(attr(&person::name)), people, nullopt)` empties the name
  (C86_nullopt_false, C86_value_false).  A type-erased lens behaves differently from
  the lens it wraps here, and better (C86_erased).
* `at` on containers whose update inserts creates elements instead of being inert
  (C30_at_insert_not_inert).
* A nested `step()` of the queue loop calls a moved-from function
  (C41_nested_false, C41_nested_always_throws).
* The QML loop runs nothing until the item has been polished once, because only
  `updatePolish` starts the timer (C83_qml_unseen).  A modal dialog in a task lets
  the timer fire inside the task; the nested `step()` throws and tasks may be lost
  (C84_qml_nested_false).  Not in the model, but worth a look: Qt's documentation
  says `updatePaintNode` is only called for items with the flag `ItemHasContents`,
  which the class does not set; without it `polished_` stays true and only the
  timer, at 30 Hz, runs tasks (C83_qml_throttle).
* `adopt` of the safe queue reorders the tasks of the adopting thread (C75).
* SDL loop: `finish` while paused does not end the loop, and `run(handler)` calls
  its handler while paused (C73_sdl_finish_false, C73_sdl_simple_paused_false).
* On a manual loop, callbacks run inside of `then` and of the call of the promise
  with the mutex of the promise state held (C87_inside_false); using a copy of the
  future or promise in the callback deadlocks (C87_copies_false).
* `effect{noop}` is never recognised as empty (C54_false).  Neither is a null effect: for
  arguments of type `lager::effect`, which is derived from `std::function`, overload
  resolution picks the generic `is_empty_effect`.  So `sequence(null, e)` never calls `e`
  (C53_null), and a reducer that returns a null effect makes the loop throw
  `bad_function_call`, the future of the dispatch never being fulfilled (C54_null).
* `merge_actions` does not remove action types that convert to later ones
  (C57_minimal_false).
* `deps::merge`: an absent optional dependency hides a present one
  (C59_absent_false).
* Tree debugger: an action on a past step with a branch shows the first step of
  the first branch (C67_false, C67_old_branch); redo throws at the tip (C68).
* cereal: loading into non-empty containers keeps or merges old content
  (C71_sequence_false, C71_map_false); a map of values with ids loses elements
  stored under a key that is not their id (C71_id_false).
* Debug server: exceptions not derived from `std::exception` end the program
  (C72_other_false); before the first change a default-constructed model is shown
  (C77_initial_false); `..` in targets reaches all files (C78_false).
* `to_camel_case` is not injective and not idempotent (C79_distinct_false).
* A watch callback that throws: the remaining callbacks of the notification are
  not called, not even later unless the value changes again (C80_missed_false); a
  write to a merged cursor can be applied to some components only
  (C80_atomic_false).
* A mapping function that throws leaves readers stale that have nothing to do with
  it, and setting the same value again does not help (C85_stale_false); a reader of
  several sources can show a mix of old and new values (C85_mixed_false).
* A reader that combines a store with a state, or that is derived between the
  evaluation of an action and its publication, shows a model that is not published
  (C88_mixed_false, C88_early_false).
* Values are propagated depth first, once per path: with k stacked diamonds one
  commit calls the function of the last reader 2^k times (C89_exponential_false).
* A store must outlive its pending actions and its contexts, which hold raw
  pointers; any reader derived from it keeps it alive (C91).
* A watcher of a store that throws takes the effect and the future of an action
  with it, although the model includes the action (C81_watcher).
* The debugger wraps empty effects into `noop`, which is not recognised as empty: on a
  transactional store the future of an action without effect is fulfilled one task
  later than without the debugger (C92_future_false).  Its model always changes, so
  watchers are called again with an unchanged model.
* While the debugger is paused, the futures of dispatched actions are fulfilled although
  the actions are only kept (C93_early_false).  `loop().resume()` throws for the queue,
  safe queue, Qt and QML loops; then the effects of the kept actions are lost
  (C93_lost_false).  If the reducer throws for a kept action, the debugger cannot be
  resumed any more (C93_stuck).  After resuming, the effects of kept actions wait for
  each other.
* With a Boost.Asio executor with several threads that is not in a strand, tasks of a
  store race with each other and actions get lost (C94_pool_false), as the comment in
  `boost_asio.hpp` warns.  Nothing in the types prevents it.  `store.get()` from
  another thread is a data race, too (C94_get_false).
* Tags only add up: `with_tags<automatic_tag>` does not undo `transactional_tag`
  (C95_automatic_false).  Thunks are not kept by a paused debugger
  (C95_paused_false): it would have to be outside of `with_thunk`, which does not
  compile, because the models of debuggers are compared with the derived `==`, and with
  them the actions in their histories (C95_compiles).  For the same reason
  `with_debugger` requires `==` of actions and models.
* `people[0][&person::name].set(nullopt)` empties the name, although `people[0].set(nullopt)`
  is inert (C99_null_false); an optional member cannot be cleared by
  `people[0][&person::nick].set(nullopt)`, it gets an empty value (C99_clear_false).
* `with(x, x)` fails a debug assertion, because it links the new node twice to the one of `x`
  (C100_merge_false).
* In debug builds `future::then` reads the callback of the promise state in an assertion without
  locking it, a data race with a call of the promise in another thread (C101_debug_false).
* `adopt` of the safe queue writes, and `post` reads, the id of the owner without locking
  (C102_adopt_false, C102_adopt_local_false).
* A reader whose value could not be copied shows the old value until one of its sources changes;
  setting the same value again does not help (C103_stale_false).
* If a watcher of a debugged store throws, the debug server goes on showing the model before
  (C104_missed_false).
* A function that wants an optional dependency does not get it, although the store has it, if the type of an effect
  between them does not list it: nothing in the program says so (C105_optional_false).
* `sequence(a, b)` may not compile when `sequence(b, a)` does: the dependencies are merged with those of the second
  one taking precedence, although the first one may require what is optional in the second.  Effects with no actions
  cannot be put in sequence at all (C105_sequence_false).
* An automatic cursor made with `with_setter` from a store goes on showing a value that the reducer has ignored or
  changed, until the store changes again; a transactional one does not show it, but `update` and readers derived from
  the cursor use it (C106_rejected_false, C106_update_false).
* A callback that attaches another callback to the reader that called it, which does the same, keeps `set` from ever
  returning, although every callback returns: new connections are put at the end of the list that is being iterated
  (C107_attach_false).
* A callback on a state whose type has no `==` must not write to that state: even writing back the value it was given
  keeps `set` from ever returning (C108_not_comparable_false).
* Callbacks attached before one that corrects a value see the uncorrected value, those after it do not
  (C109_before_false, C109_later).
* `send_up` refreshes all the way up to the state at every level, so a write through k cursors zoomed one from the other
  calls k(k+1)/2 view functions (C110_zooms), and a merged diamond doubles the number of writes (C110_exponential_false).
* Effects and watchers that dispatch can keep the loop busy for ever; nothing in the library stops it
  (C111_forever_false).  A weight that decreases is enough to rule it out (C111_bound).
* A store on the thread-safe queue does not evaluate actions in the order in which they were dispatched, although the
  documentation of the store says `dispatch` is thread safe: those of the loop's thread overtake others
  (C112_order_false), and may do so for ever (C112_starved_false).
* On the manual loop, after an exception has left `dispatch`, actions can wait although nothing runs; they are evaluated
  at the beginning of the next, unrelated, `dispatch` (C113_throw_false, C113_throw).
* A notification can call a callback twice: when a callback assigns to a reader object whose callbacks were called
  already, and the new reader belongs to the same source, they move to the end of the list and come again
  (`C114_twice_false`).
* Assigning a reader to a Qt property changes what it returns without emitting its signal (`C115_assign_false`); the view
  shows the old value until the new source notifies.  When the reader of a property is moved elsewhere, the
  signal is still emitted, while reading the property throws (`C115_moved_false`).
* With the Boost.Asio loop, `finish()` stops nothing unless a function that does so was given to the loop (`C116_finish`).  With
  one, asynchronous functions outlive `run()` and what they dispatch is not handled (`C116_stopped_false`).
* With Emscripten, the SDL loop gives `tick` the time that handling the events of the frame took, not the time since the frame
  before, because `step()` sets `last_ticks` when it begins (`C117_emscripten_false`).
* Every `with_qt_event_loop` waits for the whole thread pool when it is destroyed, also the temporaries when a store is
  made.  The main thread does nothing else meanwhile, so it waits for ever if a function in the pool waits for a task
  (`C118_deadlock_false`), and tasks that functions have posted outlive the store nevertheless (`C118_pending_false`).
* With two debuggers, as `doc/time-travel.rst` suggests, the event loop can be paused while neither says so, and go on while one
  is paused (`C119_loop_false`).
* `match` does not find alternatives without a handler if they can be converted to one that has one (`C121_converted_false`), and
  although its call operator returns `decltype(auto)`, it never returns a reference, since the lambda inside, `util.hpp:58`, has
  no return type (`C121_copies`).
* In the snake example: two turns between ticks turn the snake back into itself (`C123_back_false`); the snake can be on itself
  (`C123_different_false`); `make_initial` copies the generator before it draws the first apple, so the second apple is where the
  first was (`C123_same_apple_false`); and a game that is over goes on if ticks come (`C123_over_moves_false`).
* In the todo example, a save that fails halfway destroys the file that was there, and the app shows its path as if it had been
  saved (`C124_old_file_false`); a list that is loaded replaces what the user did since (`C124_edits_lost_false`).
* Without exceptions `to_string` and `to_enum` end the program for every argument, as they return by throwing
  (`C126_enum_false`); so does a node whose transducer passes nothing on at first, also with a default value
  (`C126_xform_false`), and a bad cursor in the tree debugger (`C126_goto_false`). `at` asks `count(key)` in such builds, which
  for the sequences of Qt counts values (`C126_count_false`).
* Autopong takes numbers below 1e-8 for zero before it divides them, by numbers that may be as small: in a very short tick the
  ball passes through the paddle (`C127_tick_false`, `C127_small_false`).
* The undo module with effects in the documentation adds edits at the end of the history and not after the present document:
  it keeps what was undone, between the edited document and the edit (`C128_effects_false`).
* Links to destroyed readers that only a nested notification comes across are not removed by it, nor by the outer one
  (`C17_nested_false`): the local flags of the two are not combined. They go with a later notification.
* The two ways of the documentation to express intent are not the same: with an effect that dispatches, a command that
  toggles a todo followed by an action that removes it is undefined behaviour if the loop runs after both
  (`C129_undefined_false`).
* `bind_opt(l | m)` and `map_opt(l) | bind_opt(m)`, which the documentation uses for the same purpose, differ when
  nothing is written and `l` changes something when what it shows is set again (`C33_bind_opt_comp_false`).
* The session in `doc/architecture.rst` begins with `current value: 0`. `watch` does not call the callback when it is
  attached, so the program of that page prints nothing before the first change (`C131_first_line_false`). The page
  says that the value is printed each time that the counter changes; the model of that page has no `==`, so it is
  also printed when it does not change (`C131_unchanged_false`). The model in `example/counter` has `==`.
* `example/todo/qml` shows items by position. An item does not stay with what it has shown (`C132_follows_false`), and
  writes by an item whose position is gone are lost (`C132_put_false`).
* `event_loop/qml.hpp` starts its timer in `updatePolish`. Until the first frame of a window that has the item, nothing
  that was dispatched is evaluated (`C133_unseen`). Also, a dispatch of the item's thread overtakes ones of other threads
  that are on their way (`C133_order_false`).
* `sdl_event_loop::post` does not look at the result of `SDL_PushEvent`, which fails when SDL's queue is full (65535
  events), and, which is not modelled, when an event filter refuses the event. Actions are lost then
  (`C134_full_false`), and the function object is leaked. If it is the task that publishes the model, the store stays
  behind what was evaluated until the next action (`C134_shown_false`).
* In `example/todo/qml-redux/main.cpp` an action for an item has its position when it was shown. Actions that wait can move
  the items: two quick clicks on the button that removes an item remove two (`C135_double_false`), and after `add` the
  button of the first item removes the new one until the window has changed (`C135_add_false`).
* With Emscripten, `sdl_event_loop::post` sets a timeout, so tasks are not handled before the next frame as they are
  otherwise. A frame may show a model without the actions of the frames before, and buttons for positions act on other
  items (`C136_browser_false`). `example/todo/imgui` is built for Emscripten only.
* In the house of `doc/cursors.rst` an action for a room that is not there adds the room, with the light on, since
  `operator[]` of the map gives a default (`C137_missing_false`).
* If a watcher runs the event loop (a modal dialog), the watchers behind it are called twice with the same value and not with
  the one that it was called with, and effects are called in another order than that of the actions
  (`C138_twice_false`, `C138_effects_false`).
* The counter in a terminal never reads a key again once only a part of a character was there to read; it ends with an exception
  if something is typed behind `q` or the size changes at that moment; and its help has up and down the wrong way round
  (`C139_stuck_false`, `C139_quit_false`, `C139_help_false`).
* A program that draws frames with the SDL loop does not get to the next frame as long as events come as fast as they are handled:
  in autopong the ball stops while the mouse is moved fast, as every event is drawn by itself (`C140_frames_false`).
* Keys typed before the window of the counter is closed are not evaluated (`C140_quit_false`).
* The snake in the Qt Quick window cannot be started again once the dialog at the end was closed without being accepted, since
  only the dialog dispatches `reset` (`C141_dismiss_false`), and ticks that wait when the game ends still move the snake
  (`C141_late_false`).
* In the todo example, loading a JSON file of another program replaces the document by an empty list without an error, since with the
  patched cereal all names are optional (`C142_other_false`).
* Widgets that are updated by comparing models, as `doc/views.rst` proposes, go on showing what the user has put there if the reducer
  refuses it, since then no watcher is called (`C143_refused_false`), or if it is taken back before they are
  (`C143_taken_back_false`).
* In the turnstile of `doc/reducers.rst`, a program that looks at the value of the store to decide whether somebody may pass lets
  two pass for one coin (`C144_waved_false`), since the value changes only when tasks were run; a watcher may miss that it was
  unlocked (`C144_told_false`). The decision belongs into the reducer. (The functions that `update` visits with return different
  types there, which `std::visit` does not accept; the model reads them as returning a model.)
* Actions that refer to things by index, as `doc/actions.rst` defines them, hit the wrong thing or are undefined if the user acts on
  a list that is about to change (`C145_twice_false`, `C145_other_false`, `C145_undefined_false`); identity values, as
  `doc/model.rst` proposes, do not (`C145_key`).
* A write that changes only members that the declaration of a struct leaves out is lost; the size check catches that only for
  `LAGER_STRUCT`, with Boost.PFR, and if no member is listed twice (`C146_lost_false`, `C146_twice_false`, `C146_checked`).
* A store with the tree debugger shows something else than the result of an action on a
  past step with branches, while its effect is called (C96_branch_false).

Seen while reading, outside the models:

* Calling a promise twice throws `bad_function_call`; a second `then` on a copy of
  a pending future fails an assertion, and with `NDEBUG` loses the first callback
  (modelled as such in `Future`, not a property of its own).
* The conversion of dispatchers picks the first convertible action type, not an
  exact match.
* `deps`: a missing optional function dependency makes `get` throw
  `bad_function_call` rather than `missing_dependency_error`; the conversion from
  a function to a value dependency does not compile although an overload of
  `extract` suggests it.
* `serialize_camel_case` passes a `std::string` where `const char*` is expected and
  does not compile when used; `std::isdigit` is applied to possibly negative
  `char`s.
* Elements loaded by `T x; ar(x)` keep indeterminate members when an optional field
  is missing from a JSON document.
* An error of `accept` ends listening for good in the http listener (`C122_accept_error_false`).
* A client that asks for `Connection: close` is not heard: responses do not take it from the request, so the server keeps the
  connection until the client closes it (`C122_keeps`, with `need_eof` false for all responses as Beast documents it).
* SDL: the result of `SDL_PushEvent` is ignored, so a full event queue delays tasks.
* A moved-from reader keeps its callbacks and stays linked to its node.

## 6. Wrong programs

The theorems were tried against edited models in a scratch copy: each edit is one
realistic bug in one definition.  The script that does it applies the edit,
builds, replaces every proof that breaks by `sorry`, and then asks which property
theorems depend on `sorryAx`.  An edit whose claim has no failing theorem shows a
weak theorem.  `seeded/LOG.jsonl` has one line per attempt.  A proof that breaks
only because a helper lemma broke counts as failing, so the log was read for edits
that nothing direct detects.

## 7. Axioms per theorem

none: C28_category, C29_unbox, C29_ident, C29_zip_pointwise, C30_at_insert_not_inert, C33_map_opt, C33_bind_opt, C33_map_opt_lawful, C33_force_opt, C35_alternative_false, C36_fan_view, C57_minimal_false, C72_other_false, C125_paddle, C125_animations, C126_configure, C128_parts, C143_taken_back_false.

`propext`: C29_attr_frame, C30_at_law_limits, C32_value_or, C33_bind_opt_comp_false, C34_alternative, C34_alternative_lawful, C35_map_opt_false, C35_covered, C35_map_opt_covered, C36_fan_first_wins, C41_nested_undefined, C44_then, C44_empty, C46_empty, C47_invalid, C62_nav, C63_redo_undo, C67_false, C68_redo, C71_sequence_false, C71_throws_keeps, C72_one_at_a_time, C73_sdl_simple_paused_false, C73_sdl_finish_false, C73_sdl_simple_finish, C80_can_throw, C81_threw, C83_qml_post, C83_qml_unseen, C85_done, C85_never, C86_nullopt_false, C86_covered, C91_pending_false, C91_context_false, C91_inside_false, C92_future_false, C93_stuck, C95_leaves, C95_reducer, C95_automatic_false, C95_inits, C95_compiles, C99_unique, C99_null_false, C99_clear_false, C99_or_default, C102_adopt_false, C102_adopt_local_false, C105_sequence_false, C117_emscripten, C119_outer, C119_loop_false, C121_converted_false, C121_copies, C122_over, C122_stop, C123_reset, C123_over_moves_false, C123_different_false, C124_missing, C124_load_error, C124_edits_lost_false, C124_old_file_false, C125_up, C126_insert, C126_count_false, C126_enum, C126_enum_false, C126_xform, C126_xform_none, C126_xform_false, C126_goto, C126_goto_missing, C126_goto_false, C128_effects, C128_effects_false, C130_positions, C130_optional, C130_negative, C130_moves, C136_two_false, C142_text_false, C146_lost_false, C146_twice_false.

`Quot.sound`: C29_zip.

`propext`, `Quot.sound`: C06_one_event, C09_merged_false, C10_diamond_false, C10_restored_false, C12_zoomed_false, C13_uncommitted_false, C17_nested_false, C17_late_stays_false, C20_visited_not_called, C21_bind, C21_nudge_value, C22_enter, C22_transactional, C23_throws, C23_unchecked, C24_fed_again_false, C25_diamond_false, C26_initial_false, C26_update_false, C28_over, C28_comp, C28_functor, C29_attr, C29_element, C29_comp, C30_at, C30_at_seq, C30_at_map, C30_at_lawful, C31_at_or, C31_at_or_seq, C31_at_or_lawful, C33_bind_opt_comp, C33_bind_opt_assoc, C33_bind_force, C33_bind_opt_lawful, C33_map_opt_comp, C35_bind_opt_false, C35_zip_false, C35_value_write_false, C35_agrees, C36_fan_lawful, C36_attr_independent, C37_erased, C37_erased_comp, C38_manual_fifo, C38_manual_complete, C39_manual_throw, C40_queue_fifo, C40_queue_complete, C40_queue_progress, C41_nested_false, C41_nested_always_throws, C42_safe_complete, C43_safe_resume, C47_twice, C48_fold, C48_order, C50_genuine, C50_fold, C50_last, C51_commit, C52_returns, C54_false, C54_same, C55_model, C55_shown, C55_commit, C55_actions, C55_actions_plain, C55_transparent, C56_convert, C56_converter, C56_compiles, C56_chain, C56_compose, C57_covers, C57_added, C57_compatible, C58_with, C58_key, C58_get, C58_lazy, C58_convert, C58_required, C58_compiles, C58_absent, C58_silent, C58_chain, C59_get, C59_keys, C59_absent_false, C60_transparent, C61_cursor_valid, C62_genuine, C63_undo_redo, C63_ends, C63_undo_n, C63_goto, C64_act_in_past, C65_paused_inert, C65_resume, C66_keeps_past, C67_shows_result, C67_old_branch, C67_recorded, C68_undo, C68_genuine, C68_goto, C69_round_trip, C69_name, C69_name_back, C69_unknown, C69_saved, C70_hash_last, C71_map_false, C71_id_false, C72_first, C72_none, C73_sdl_fifo, C73_sdl_paused_quiet, C73_sdl_paused_runs, C74_tree_resume, C74_tree_paused_inert, C74_tree_nothing_pending, C75_adopt_reorders, C76_members, C76_order, C76_derived, C76_missing, C76_required, C79_alnum, C79_letters, C79_case, C79_digits, C80_setter, C80_atomic_false, C81_model, C83_qml_timer_stays, C83_qml_throttle, C84_qml_nested_false, C84_qml_nested_throws, C85_left, C85_nothing_written, C85_stale_false, C85_mixed_false, C86_value_false, C86_lvalue, C86_members, C86_unbox, C86_at_member, C86_erased, C86_view, C87_inside_false, C87_queued_outside, C87_copies_false, C87_queued_no_deadlock, C87_then, C87_not_nested, C87_progress, C87_drained, C87_unlocked, C88_mixed_false, C88_early_false, C89_record, C89_published, C92_model, C92_watched, C92_commit, C93_evaluated, C93_model, C93_step, C93_throws, C93_early_false, C93_lost_false, C94_covers, C94_untouched, C94_no_race, C94_pool_false, C94_get_false, C95_wraps, C95_tags, C95_deps, C95_paused_false, C96_evaluated, C96_transparent, C96_model, C96_watched, C96_keeps, C96_step, C96_throws, C96_branch_false, C97_positions, C97_shape, C97_count, C97_grows, C97_navigation, C99_place, C99_reaches, C99_others, C99_written, C99_null, C99_lifted, C100_sources, C101_debug_false, C101_returns, C102_race_free, C102_atomic, C102_no_adopt, C102_calls, C102_progress, C102_returns, C103_left, C103_stale_false, C105_runs, C105_order, C105_dispatch, C105_required, C105_optional, C105_optional_false, C106_rejected_false, C106_update_false, C106_again_false, C107_goes_on, C107_attach_false, C109_before_false, C110_record, C111_counts, C112_order_false, C113_nested, C113_throw, C113_exception, C113_goes_on, C113_throw_false, C116_thread, C116_finish, C116_stopped_false, C117_emscripten_false, C118_blocks, C118_main, C118_pending_false, C119_genuine, C119_undo, C119_plain, C119_one, C120_async, C120_no_race, C120_cause, C120_get_false, C121_valueless, C122_isolated, C122_accepts, C122_accept_error_false, C122_keeps, C123_snake, C123_apple, C123_turn, C123_back_false, C123_over, C123_same_apple_false, C124_add, C124_remove, C124_save, C124_load, C124_save_error, C125_score, C126_at, C126_at_or, C126_map, C128_undo, C128_back, C128_effects_run, C129_order, C129_direct, C129_update, C129_index, C130_default, C130_frame, C131_session, C131_previous, C131_returns, C131_reads, C132_follows_false, C132_put_false, C133_wakes, C133_timer, C133_order_false, C134_genuine, C134_catches_up, C134_full_false, C134_shown_false, C135_target, C135_shown, C135_idle, C135_outside, C135_double_false, C135_add_false, C136_browser_false, C137_missing_false, C138_order, C138_fold, C138_calls, C138_last, C138_twice_false, C138_effects_false, C139_keys, C139_screen, C139_all, C139_soon, C139_stop, C139_quit, C139_quit_false, C139_help_false, C140_paddle, C140_quit_false, C140_full_false, C140_room, C140_order, C140_drawn, C140_tick, C140_soon, C140_burst, C140_stop, C140_frames_false, C141_safe, C141_shown, C141_reset, C141_open, C141_dialog, C141_still, C141_interval, C141_dismiss_false, C141_late_false, C142_load, C142_other_false, C143_shown, C143_untouched, C143_quiet, C143_assign, C143_readers, C143_refused_false, C144_through, C144_coins, C144_shown, C144_waved, C144_waved_false, C144_told_false, C144_lost_false, C145_key, C145_index, C145_twice_false, C145_other_false, C145_undefined_false, C146_listed, C146_shown, C146_told, C146_written, C146_until, C146_commit, C146_stuck.

`propext`, `Classical.choice`, `Quot.sound`: C01_derived_reader, C01_consistent, C02_invisible, C02_sequence, C03_last_write, C04_automatic, C05_consistent_at_call, C06_call_value, C07_final_value, C07_not_comparable_false, C08_silent, C08_twice, C09_commit, C09_set, C10_commit, C10_set, C11_set, C11_sequence, C11_siblings, C11_automatic, C11_automatic_sequence, C11_automatic_zoom, C12_state, C12_automatic, C13_merged, C14_commit, C14_automatic, C15_constant, C16_sampled_by_commits, C17_across, C17_dead_silent, C17_positions, C17_no_overrun, C17_forgotten, C18_gone, C18_assign, C18_fresh, C18_again, C19_order, C19_exact, C19_value, C20_defined, C20_attached_when_called, C20_called, C20_attach, C20_self_undefined, C20_reassigned_ends, C21_bind_watch, C21_nudge, C22_automatic, C22_follows_commit, C22_follows_set, C23_empty, C23_later, C24_latest_output, C24_inputs_grow, C24_map, C24_filter, C25_single_path, C26_shows, C26_same_value, C26_write, C26_same_write, C26_write_auto, C26_fresh, C26_latched, C27_reads, C27_writes, C27_pending, C27_round_trip, C27_round_trip_auto, C42_safe_exactly_once, C42_safe_order, C43_safe_throw, C44_once, C44_posted, C44_runs, C45_order, C45_result, C45_completes, C46_completes, C46_both, C47_copies, C49_visible, C49_once, C51_only_commit, C51_effects, C52_after, C52_once, C52_stays, C52_completes, C53_order, C53_waits, C53_all, C53_future, C53_effect, C53_assoc, C53_noop, C53_null, C54_null, C55_thunk, C70_eq, C70_hash, C70_equivalence, C71_loads, C71_json, C71_fresh, C71_sequence_target, C71_box_target, C71_variant_target, C71_map_target, C71_id_map_target, C71_set_target, C71_duplicates, C72_session, C73_sdl_finish, C77_overview, C77_step, C77_goto, C77_command, C77_others, C77_snapshot, C77_initial_false, C77_initial, C77_file, C78_inside, C78_false, C79_distinct_false, C80_throw, C80_consistent, C80_call_value, C80_rest, C80_recovers, C80_next_set, C80_missed_false, C81_reducer, C81_watcher, C81_others, C82_qml_fifo, C82_qml_complete, C83_qml_tick, C83_qml_frame, C83_qml_chain, C85_unrelated, C85_commit_unrelated, C85_kept, C85_next_set, C85_next_commit, C87_no_assert, C87_promise_once, C87_no_deadlock, C87_refines, C87_once, C87_order, C87_completes, C87_also, C87_all_run, C88_model, C88_readers, C88_genuine, C88_watched, C89_paths, C89_paths_set, C89_once, C89_once_set, C89_needed, C89_exponential_false, C90_alive, C90_all_freed, C90_once, C90_no_dangling, C90_valid, C90_kills, C91_exact, C91_safe, C91_reader, C92_transparent, C93_resume, C94_serial, C94_fold, C94_order, C94_shown, C94_effect, C95_transparent, C96_run, C96_resume, C96_resumed, C96_redo, C98_alone, C98_order, C98_fold, C98_embeds, C98_waits, C98_live, C98_circular, C100_assertion, C100_merge_false, C101_debug, C101_race_free, C101_linear, C101_once, C101_progress, C103_unrelated, C103_kept, C103_set_shows, C103_next_set, C103_commit_shows, C103_next_commit, C104_store, C104_request, C104_commands, C104_answers, C104_final, C104_missed_false, C105_sequence, C106_follows, C106_unset, C106_transactional, C106_store, C107_returns, C107_plain, C108_returns, C108_unique, C108_settled, C108_validated, C108_endless_false, C108_not_comparable_false, C109_hidden, C109_later, C110_paths, C110_zooms, C110_exponential_false, C111_bound, C111_tasks, C111_forever_false, C112_fold, C112_others, C112_alone, C112_order, C112_step, C112_starved_false, C113_sync, C113_outside, C114_once, C114_first, C114_none, C114_next, C114_attach, C114_bind, C114_detach, C114_assign, C114_others, C114_graph, C114_at_most_once, C114_reader_at_most_once, C114_twice_false, C115_construct, C115_access, C115_emits, C115_value, C115_assign, C115_assign_false, C115_moved_false, C116_return, C116_order, C116_serial, C116_async_once, C116_bounded, C116_goes_on, C117_delta, C117_sum, C117_rate, C117_delay, C117_steady, C118_destroyed, C118_tasks, C118_pool, C118_goes_on, C118_bounded, C118_deadlock_false, C120_alone, C120_order, C120_fifo, C120_fold, C120_outside, C121_calls, C121_order, C121_exact, C121_auto, C121_exhaustive, C122_answers, C122_debugger, C122_type, C122_no_type, C123_tick, C123_different, C124_toggle, C124_texts, C125_counter, C126_vector, C127_attained, C127_exact, C127_point_false, C127_small_false, C127_floats, C127_walls, C127_hit, C127_passes, C127_tick_false, C129_todos, C129_command, C129_undefined_false, C129_number, C130_laws, C131_counter, C131_first_line_false, C131_unchanged_false, C132_history, C132_todo, C132_add, C132_remove, C132_write, C133_fold, C133_order, C133_round, C133_unseen, C134_fold, C134_room, C135_still, C136_frame, C136_next, C136_steady, C136_browser, C136_click, C137_label, C137_click, C137_room, C137_others, C138_effects, C139_value, C139_stuck_false, C140_counter, C141_all, C142_saved, C142_content, C142_other, C146_checked.

