{"id": "C01", "title": "Derived readers agree with their sources at rest", "statement": "Whenever no library call is running and no state or setter cursor holds an uncommitted write, the value get() returns on every live derived reader obtained by zoom, map or with is exactly the view function applied to the get() values of the readers it was derived from.", "quantifier": "every graph of states, sensors, constants and derived readers of any shape (diamonds included), every history of set, update, commit, watch, derive and destroy calls, including calls made from inside watch callbacks at any nesting depth", "why_tests_cant": "Tests fix one small graph and one history; the claim is over all graph shapes and all interleavings of reentrant callbacks.", "anchors": ["lager/detail/nodes.hpp: reader_node::send_down, reader_node::push_down, inner_node::refresh", "lager/commit.hpp: commit", "lager/reader.hpp: get"]}
{"id": "C02", "title": "Writes to a transactional state stay invisible until commit", "statement": "A set on a transactional state, or on any cursor zoomed or merged from transactional states, changes the get() value of no reader and calls no watch callback; the new value only appears after commit.", "quantifier": "every graph whose roots are transactional, every cursor in it, every value and every number of consecutive writes", "why_tests_cant": "Invisibility must hold for every reader in every graph, not for the readers a test happens to look at.", "anchors": ["lager/state.hpp: state_node::send_up", "lager/detail/nodes.hpp: push_down, push_up", "lager/writer.hpp: set"]}
{"id": "C03", "title": "Commit publishes the last written value", "statement": "After set(v) on a transactional state followed by commit on that state (with no watcher interfering), get() on the state returns v, whatever earlier uncommitted writes there were; with several states passed to one commit each shows its own last written value.", "quantifier": "every sequence of writes and every list of roots given to commit", "why_tests_cant": "Ranges over all write sequences and root lists.", "anchors": ["lager/commit.hpp: commit", "lager/state.hpp: state_node"]}
{"id": "C04", "title": "Automatic states publish immediately", "statement": "After set(v) on an automatic state (no watcher interfering) returns, get() on the state is v and every reader derived only from committed roots shows the view of the new value.", "quantifier": "every graph, every automatic state in it, every value", "why_tests_cant": "Needs all derived graph shapes.", "anchors": ["lager/state.hpp: state_node::send_up (automatic_tag)", "lager/detail/nodes.hpp: send_down"]}
{"id": "C05", "title": "Everything is propagated before anything is notified", "statement": "At the moment any watch callback is invoked, every reader of the graph that depends only on roots without uncommitted writes already shows the value consistent with its sources: a callback never observes a half-propagated graph.", "quantifier": "every callback invocation in every history of every graph, including callbacks run by nested commits made from other callbacks", "why_tests_cant": "A glitch depends on the order of children and callbacks; only a proof covers all orders and nestings.", "anchors": ["lager/detail/nodes.hpp: reader_node_base (two-phase comment), send_down, notify", "lager/commit.hpp: commit"]}
{"id": "C06", "title": "A watch callback receives the reader's own value", "statement": "The value passed to a watch callback is the value get() on that reader returns at the moment of the call.", "quantifier": "every callback invocation in every history, reentrant callbacks included", "why_tests_cant": "Reentrant writes can change the value between the start of a notification and a later callback.", "anchors": ["lager/detail/nodes.hpp: notify", "lager/detail/signal.hpp: signal::operator()", "lager/watch.hpp: watch"]}
{"id": "C07", "title": "Watchers never miss the final value", "statement": "Whenever no library call is running and no root holds an uncommitted write, every watch callback attached to a live reader has, as the last value it was given (or the value at attach time if never called), exactly the present get() value of the reader (for readers whose value types, up to the roots, have operator==; FALSE for types without it, whose refresh can leave a change unannounced).", "quantifier": "every history of every graph with callbacks that may themselves write, commit, attach watches and derive readers", "why_tests_cant": "A lost notification needs a particular nesting of writes inside callbacks; the claim is about all of them.", "anchors": ["lager/detail/nodes.hpp: notify (needs_notify_, needs_send_down_)", "lager/watch.hpp: watch"]}
{"id": "C08", "title": "Commit without changes is silent", "statement": "A commit when no root has an uncommitted change (and sensors return their previous value) calls no watch callback and changes no get() value; in particular commit right after commit does nothing.", "quantifier": "every graph at rest, every list of roots", "why_tests_cant": "Absence of calls must be shown for all graphs and all watchers.", "anchors": ["lager/commit.hpp: commit", "lager/detail/nodes.hpp: send_down, notify"]}
{"id": "C09", "title": "At most one call per watcher per commit", "statement": "One commit, or one set or update through a cursor of an automatic state or a cursor zoomed from it, whose callbacks do not write, calls each watch callback at most once, even on readers that reach the written root by several paths. (A cursor merged from several automatic states propagates once per component, so its watchers can be called several times.)", "quantifier": "every graph including diamonds, every list of distinct roots", "why_tests_cant": "Diamond shapes are unbounded in number and depth.", "anchors": ["lager/detail/nodes.hpp: notify"]}
{"id": "C10", "title": "Watchers are called only when the value changed", "statement": "A watch callback is called only if the value of its reader differs from the value it had at the previous notification ('every time the content has changed, checked using operator=='). FALSE of the code for readers reaching a root over several paths and for states written back and forth inside one transaction; true when each commit carries one changing write and the reader has one path to it.", "quantifier": "all graphs and histories for the counterexample search; all chain-shaped (single parent) derivations for the positive part", "why_tests_cant": "A test of the usual shapes passes; the failing shapes (diamond whose intermediate value differs, set-and-restore transactions) are not in the suite.", "anchors": ["lager/detail/nodes.hpp: push_down, send_down, notify", "doc/cursors.rst: watch()"]}
{"id": "C11", "title": "Writing through a zoomed cursor updates exactly its part", "statement": "set(v) on a cursor zoomed from a state through any chain of lenses makes the state's pending value equal to the composed lens' set applied to the state's pending value and v; so consecutive writes through sibling cursors in one transaction are all kept and none is lost. With an automatic state, after any sequence of set and update through any such cursors, also of ones made on the way, the value of the state is that of the writes applied in order, and every zoomed cursor shows its part of it.", "quantifier": "every chain of lenses of every length, every pair of sibling cursors, every sequence of writes before commit", "why_tests_cant": "Depends on refresh being done along chains of every length; tests use chains of one or two.", "anchors": ["lager/detail/lens_nodes.hpp: lens_cursor_node::send_up", "lager/detail/nodes.hpp: inner_node::refresh, push_up"]}
{"id": "C12", "title": "update composes with pending writes", "statement": "update(f) on a cursor applies f to the latest written value, so that two updates in a row before commit apply both functions. FALSE for cursors derived by zoom from a transactional state (the second update reads a stale part); true for state cursors and for automatic states.", "quantifier": "every cursor and every sequence of updates between commits", "why_tests_cant": "The suite only updates derived cursors of automatic states.", "anchors": ["lager/writer.hpp: update", "lager/detail/lens_nodes.hpp: send_up"]}
{"id": "C13", "title": "Merged readers show only committed values", "statement": "The value of with(a, b) is always the tuple of a.get() and b.get(). FALSE when only one of two transactional sources is committed (the uncommitted write of the other leaks into the merged reader); true whenever no source holds an uncommitted write.", "quantifier": "every pair of transactional states and every order of writes and commits", "why_tests_cant": "The suite always commits all the sources at once.", "anchors": ["lager/detail/merge_nodes.hpp: merge_reader_node::recompute", "lager/detail/nodes.hpp: current_from"]}
{"id": "C14", "title": "Writing a merged cursor writes every component", "statement": "set((v1,...,vn)) on with(c1,...,cn).make() writes vi through ci for each i, and after commit the merged cursor and every component read back what was written (when the components are distinct roots).", "quantifier": "every number of components, every value tuple", "why_tests_cant": "Arity is unbounded.", "anchors": ["lager/detail/merge_nodes.hpp: merge_cursor_node::send_up", "lager/detail/nodes.hpp: push_up"]}
{"id": "C15", "title": "Constants never change and never notify", "statement": "get() on a constant always returns the value given at construction and watchers on it are never called, whatever is committed.", "quantifier": "every history including commits that list the constant", "why_tests_cant": "Quantifies over all later histories.", "anchors": ["lager/constant.hpp: constant_node"]}
{"id": "C16", "title": "Sensors are sampled exactly at commit", "statement": "A sensor's function is called once at construction and once each time the sensor is propagated by a commit that lists it, never by get(), watch or by commits of other roots; get() always shows the sample taken at the last such commit.", "quantifier": "every external behaviour of the sensor function and every history", "why_tests_cant": "The function's results are an arbitrary external stream.", "anchors": ["lager/sensor.hpp: sensor_node::recompute"]}
{"id": "C17", "title": "Expired readers are skipped, then forgotten", "statement": "A derived reader that has been destroyed is never propagated to and its watchers are never called; every link to a destroyed reader that the outermost notification of its source comes across is removed at the end of it (when no callback interferes, all of them), and no removal ever shifts or invalidates the positions an enclosing notification loop is still going to visit.", "quantifier": "every history that creates and destroys readers at any point, including from inside callbacks of the same notification", "why_tests_cant": "Iterator invalidation needs particular nestings; see issue fixed in PR 212.", "anchors": ["lager/detail/nodes.hpp: notify, collect, notifying_guard_t"]}
{"id": "C18", "title": "Watches end with unbind, destruction and reassignment", "statement": "After unbind(), destruction or reassignment of a reader object, none of the callbacks attached to it is called for changes of the old source; after reassignment they are called for changes of the new source; copies and moved-to readers carry no callbacks over.", "quantifier": "every sequence of watch, bind, unbind, copy, move, assign, destroy and notify operations on any number of reader objects and sources", "why_tests_cant": "Each test performs one such sequence.", "anchors": ["lager/watch.hpp: watchable_base", "lager/detail/signal.hpp: signal, forwarder"]}
{"id": "C19", "title": "Callbacks run in attach order, each once per notification", "statement": "One notification of a source calls the callbacks of its linked reader objects in link order, and within one reader object in attach order, each exactly once, when callbacks do not detach readers during the notification.", "quantifier": "every number of readers and callbacks", "why_tests_cant": "Unbounded numbers of slots.", "anchors": ["lager/detail/signal.hpp: signal::operator(), connect, add"]}
{"id": "C20", "title": "Detaching during notification", "statement": "Callbacks may attach new callbacks and detach other readers during a notification: callbacks attached to a reader whose turn in the notification is not over are called in the same notification (those attached to a reader already visited are not), detached ones are not called any more, and the only undefined case is a callback that detaches the very reader or connection being called.", "quantifier": "every notification with arbitrary attach and detach actions in its callbacks", "why_tests_cant": "The undefined case and its exact boundary cannot be found by running tests.", "anchors": ["lager/detail/signal.hpp: signal::operator()", "lager/watch.hpp: unbind, operator="]}
{"id": "C21", "title": "bind and nudge deliver the current value", "statement": "bind calls the callback once immediately with get() and then behaves like watch; nudge calls all the callbacks of that reader object, and only those, with get().", "quantifier": "every state of the reader and every number of attached callbacks", "why_tests_cant": "All states.", "anchors": ["lager/watch.hpp: bind, nudge"]}
{"id": "C22", "title": "Setter cursors", "statement": "set(v) on with_setter(reader, f) calls f exactly once with v; with automatic_tag the cursor shows v as soon as set returns (no watcher interfering); with transactional_tag get() does not change until the source propagates; and whenever the source propagates a change the cursor shows the source's value again.", "quantifier": "every source value, setter function (which may itself write to the source) and value", "why_tests_cant": "The setter function is arbitrary code that can re-enter the graph.", "anchors": ["lager/setter.hpp: setter_node"]}
{"id": "C23", "title": "Default-constructed readers and cursors fail cleanly", "statement": "get, set, update on a default-constructed (or moved-from) reader, writer or cursor throws an exception and never dereferences null; watch on it is allowed and takes effect when a source is assigned later; bind and nudge are the documented exceptions with no check.", "quantifier": "every operation on an empty handle in any state", "why_tests_cant": "All operations and states.", "anchors": ["lager/reader.hpp: node_", "lager/writer.hpp: node_", "lager/watch.hpp"]}
{"id": "C24", "title": "Transformed readers compute the transducer's latest output", "statement": "After each propagation a reader made with xform shows the last value its transducer has emitted, where the transducer has been fed the source value at each propagation (and once more, although nothing was propagated, whenever a cursor zoomed from it is written to); a filter therefore shows the last source value that satisfied the predicate (or the default/initial one if none did), and map(f) shows f of the source.", "quantifier": "every transducer given as a state machine, every sequence of propagations", "why_tests_cant": "Transducers are arbitrary stateful user code.", "anchors": ["lager/detail/xform_nodes.hpp: xform_reader_node::recompute, initial_value, send_down_rf"]}
{"id": "C25", "title": "A diamond never makes a filter show a value that never existed", "statement": "A reader with(y, w).filter(p) only ever shows combinations (y, w) of values that the two readers have at the same rest state. FALSE: during depth-first propagation the combined reader is first recomputed with one stale input and a filter can latch that value.", "quantifier": "all graphs with two paths", "why_tests_cant": "The suite has no filter on a diamond.", "anchors": ["lager/detail/nodes.hpp: send_down", "lager/detail/xform_nodes.hpp: recompute"]}
{"id": "C26", "title": "Chaining in a with-expression equals nesting cursors", "statement": "An expression with(c...).zoom(l1).zoom(l2), .map(f).map(g), .xform(..).zoom(..) etc. denotes, once made, a reader that shows the same value as the reader obtained by making an intermediate cursor at every step, and a write through it has the same effect on the sources. FALSE in two cases, which are to be exhibited: a filter that drops the initial value, followed by a map, shows the default of the final type when chained and the image of the intermediate default when nested; and a write transducer that uses the old value (update), directly after another two-way xform, is given the source value when chained and the intermediate value when nested. It is to be proved for all other chains.", "quantifier": "every finite chain of zoom, map, filter and two-way xform steps over any number of sources", "why_tests_cant": "Chains are unbounded.", "anchors": ["lager/with.hpp: with_expr, with_xform_expr, with_wxform_expr, with_lens_expr"]}
{"id": "C27", "title": "Two-way transformations compose in opposite orders", "statement": "For a cursor made with xform(map f1, map g1).xform(map f2, map g2), reading gives f2(f1(x)) and writing v sends g1(g2(v)) to the source; if each pair is a bijection, what is written is read back.", "quantifier": "every pair of transformation pairs", "why_tests_cant": "All functions.", "anchors": ["lager/with.hpp: with_wxform_expr::xform", "lager/detail/xform_nodes.hpp: xform_cursor_node::send_up"]}
{"id": "C28", "title": "view, set and over are the van Laarhoven interpretations", "statement": "For every lens built by the library, over(l, s, f) equals set(l, s, f(view(l, s))), and composing lenses with | gives view(l1|l2, s) = view(l2, view(l1, s)) and set(l1|l2, s, v) = set(l1, s, set(l2, view(l1, s), v)).", "quantifier": "every lens constructible from the library's combinators, every whole and part", "why_tests_cant": "Infinite family of lenses.", "anchors": ["lager/lenses.hpp: view, set, over, getset"]}
{"id": "C29", "title": "attr, element, unbox, identity and zip satisfy the three lens laws", "statement": "For attr(member), element<N>, unbox, the identity lens and any zip or composition of lawful lenses: viewing what was set returns it, setting what is viewed changes nothing, and a second set overrides the first.", "quantifier": "every whole, every part, every depth of composition", "why_tests_cant": "All values and compositions.", "anchors": ["lager/lenses/attr.hpp: attr", "lager/lenses/tuple.hpp: element, zip", "lager/lenses/unbox.hpp: unbox", "lager/lenses.hpp: getset"]}
{"id": "C30", "title": "at(key) is a partial lens on present keys and inert on absent ones", "statement": "For sequences and maps: view(at(k)) is the element if the key is present and nullopt otherwise; setting a value on a present key replaces exactly that element and keeps the size and all other elements; setting on an absent key, or setting nullopt, changes nothing.", "quantifier": "every container content, key and value, for std::vector/array/map style (in-place) and immer style (persistent) containers", "why_tests_cant": "All containers and keys including all boundary indices.", "anchors": ["lager/lenses/at.hpp: at, at_setter_impl"]}
{"id": "C31", "title": "at_or(key, default)", "statement": "view(at_or(k, d)) is the element if present and d otherwise; set on a present key replaces exactly that element; set on an absent key changes nothing (so the default is never inserted).", "quantifier": "every container, key, default and value", "why_tests_cant": "All containers and keys.", "anchors": ["lager/lenses/at_or.hpp: at_or, at_or_setter_impl"]}
{"id": "C32", "title": "value_or and or_default", "statement": "view(value_or(d)) is the content or d; set always yields an engaged optional holding the new value; set-then-view and set-twice laws hold always, view-then-set holds exactly when the optional was engaged.", "quantifier": "every optional, default, value", "why_tests_cant": "All values.", "anchors": ["lager/lenses/optional.hpp: value_or, or_default"]}
{"id": "C33", "title": "map_opt, bind_opt and with_opt lift lenses to optionals", "statement": "A lifted lens behaves on an engaged optional as the inner lens does, never engages or disengages the optional, views nullopt on an empty one, and is inert when writing nullopt or writing to an empty optional; lawful inner lenses give lawful lifted lenses on engaged wholes and engaged parts. bind_opt(l | force_opt) is map_opt(l), and bind_opt(l | m) is map_opt(l) | bind_opt(m), as bind_opt(l | bind_opt(m)) is bind_opt(l) | bind_opt(m), if setting what l shows changes nothing; FALSE of other lenses l.", "quantifier": "every inner lens, whole and part", "why_tests_cant": "All lenses.", "anchors": ["lager/lenses/optional.hpp: opt_impl, map_opt, bind_opt, with_opt", "lager/detail/smart_lens.hpp"]}
{"id": "C34", "title": "alternative<T> on variants", "statement": "view is the value if the variant holds T and nullopt otherwise; set never changes which alternative is held, replaces the value if it holds T and a value is given, and otherwise changes nothing.", "quantifier": "every variant value and part", "why_tests_cant": "All values.", "anchors": ["lager/lenses/variant.hpp: alternative_t"]}
{"id": "C35", "title": "Partial lenses are inert also when the whole is moved in", "statement": "Setting nullopt through alternative<T>, or through an optional-lifting lens, returns the whole unchanged when the whole is passed as an rvalue, as zoomed cursors do. FALSE: reading the part out of an rvalue whole moves it, so the returned whole holds a moved-from part; the same happens to a value written through a lens lifted over an alternative in the middle. Otherwise an rvalue whole gives the same result as an lvalue: always for members, elements of containers and tuples, at_or, unbox, value_or and force_opt, for alternatives and lifted chains of members when no nullopt is written over a present part, and for compositions, zips and fans of such writes.", "quantifier": "every whole holding the alternative, with value categories modelled", "why_tests_cant": "The suite only uses lvalue wholes for this case.", "anchors": ["lager/lenses/variant.hpp: alternative_t", "lager/lenses/optional.hpp: opt_impl", "lager/detail/lens_nodes.hpp: send_up"]}
{"id": "C36", "title": "fan of non-overlapping lenses", "statement": "view(fan(l1..ln)) is the tuple of views; if the lenses are lawful and pairwise do not overlap, fan is lawful; on overlapping lenses the first listed lens wins.", "quantifier": "every number of lenses", "why_tests_cant": "Arity is unbounded.", "anchors": ["lager/lenses/tuple.hpp: fan, set_fold_iteration, dup"]}
{"id": "C37", "title": "Type-erased lens is the lens it wraps", "statement": "lens<Whole, Part>(l) has the same view, set and over as l, also inside compositions.", "quantifier": "every lens", "why_tests_cant": "All lenses.", "anchors": ["lager/lens.hpp: lens, lens_holder"]}
{"id": "C38", "title": "Manual event loop runs tasks in posting order, each exactly once", "statement": "With the manual event loop, tasks run in the order they were posted, each exactly once and never nested inside each other, and when the outermost post returns normally every task posted before or during it has run.", "quantifier": "every finite tree of tasks that post other tasks", "why_tests_cant": "Unbounded posting trees.", "anchors": ["lager/event_loop/manual.hpp: with_manual_event_loop::post"]}
{"id": "C39", "title": "Manual event loop survives exceptions", "statement": "If a task throws, the exception reaches the outermost post, the tasks already run are dropped, no task is lost or run twice, and the rest run in order on the next post.", "quantifier": "every posting tree and every set of throwing tasks", "why_tests_cant": "All throw points.", "anchors": ["lager/event_loop/manual.hpp: post (catch block)"]}
{"id": "C40", "title": "Queue event loop step semantics", "statement": "step() runs, in posting order and exactly once each, all the tasks queued and all those they post in turn, until the queue is empty; nothing runs outside step(); if a task throws, the tasks not yet run stay queued in order for the next step().", "quantifier": "every history of posts and steps, every set of throwing tasks", "why_tests_cant": "All histories.", "anchors": ["lager/event_loop/queue.hpp: queue_event_loop::step, post"]}
{"id": "C41", "title": "Nested step on the queue loop", "statement": "Calling step() from inside a task runs the remaining tasks exactly once. FALSE: the nested step starts again at the first, moved-from, slot and calls an empty function.", "quantifier": "every history with nested steps", "why_tests_cant": "No test nests steps.", "anchors": ["lager/event_loop/queue.hpp: step"]}
{"id": "C42", "title": "Thread-safe queue loses and duplicates nothing", "statement": "Tasks posted to the safe queue loop from any threads run exactly once, on the owning thread, only inside step(); tasks posted by the same foreign thread run in the order posted; a step() that returns normally has run every task whose post completed before the step began.", "quantifier": "every interleaving of any number of posting threads with the owner's steps", "why_tests_cant": "Thread interleavings cannot be enumerated by tests.", "anchors": ["lager/event_loop/safe_queue.hpp: post, step, swap_queues_, run_local_queue_"]}
{"id": "C43", "title": "Safe queue survives exceptions", "statement": "If a task throws out of step(), no task is lost: those not run stay queued and run on later steps, in order.", "quantifier": "every interleaving and throw point", "why_tests_cant": "All throw points and schedules.", "anchors": ["lager/event_loop/safe_queue.hpp: run_local_queue_"]}
{"id": "C44", "title": "Future callbacks run exactly once, through the loop", "statement": "A callback attached with then to a pending future runs exactly once after the promise is fulfilled, whether it was attached before or after fulfilment, and always as a task posted to the loop, so, with loops that queue, never inside then() or inside the fulfilment call (see C87 for the manual event loop); on an empty future it runs immediately.", "quantifier": "every interleaving of attach and fulfil, including from different threads", "why_tests_cant": "Attach/fulfil races.", "anchors": ["lager/future.hpp: promise::operator(), future::then"]}
{"id": "C45", "title": "Chained futures complete in order", "statement": "In f.then(a).then(b)..., each callback starts only after the previous one has finished, and if a callback returns a future only after that future has completed.", "quantifier": "every chain length and every order of fulfilment of the intermediate futures", "why_tests_cant": "Unbounded chains.", "anchors": ["lager/future.hpp: future::then"]}
{"id": "C46", "title": "also waits for both", "statement": "A callback attached to f.also(g) runs only after both f and g have been fulfilled, in either order, and exactly once.", "quantifier": "every order of fulfilment and attachment", "why_tests_cant": "All orders.", "anchors": ["lager/future.hpp: future::also"]}
{"id": "C47", "title": "A promise can be satisfied once", "statement": "Calling a promise object twice, or calling an invalid promise, throws; fulfilling through two copies runs the callback once.", "quantifier": "every sequence of calls on any copies", "why_tests_cant": "All sequences.", "anchors": ["lager/future.hpp: promise::operator()"]}
{"id": "C48", "title": "The store's model is the fold of the dispatched actions", "statement": "When the event loop is idle the store shows the left fold of the reducer over all dispatched actions in dispatch order, where actions dispatched by effects take their place in posting order; no action is dropped, duplicated or reordered. An action for which the reducer throws leaves the model as it is.", "quantifier": "every reducer, every sequence of dispatches from outside and from effects, every queue-like loop", "why_tests_cant": "All histories and reducers.", "anchors": ["lager/store.hpp: store_node::dispatch", "lager/effect.hpp: invoke_reducer"]}
{"id": "C49", "title": "Effects see a visible, notified model", "statement": "On a non-transactional store, when the effect returned for an action runs, get() already shows a model that includes that action and all watchers have been notified of it; the effect runs exactly once, unless a watcher throws in the task that was going to run it, and then never.", "quantifier": "every reducer with effects and every history", "why_tests_cant": "All histories.", "anchors": ["lager/store.hpp: dispatch"]}
{"id": "C50", "title": "Store watchers see only genuine models, in order", "statement": "Every value passed to a store watcher is the fold of some prefix of the action sequence, prefixes only grow, and when the loop is idle the last one passed (or the initial one) equals get().", "quantifier": "every history, including loops that batch several actions before notifying", "why_tests_cant": "Coalescing depends on the loop.", "anchors": ["lager/store.hpp: dispatch", "lager/detail/nodes.hpp: send_down, notify"]}
{"id": "C51", "title": "Transactional stores publish on commit only", "statement": "With transactional_tag, dispatch never changes get() nor calls watchers; commit publishes the fold of all the actions processed so far; effects still run.", "quantifier": "every history of dispatches and commits", "why_tests_cant": "All histories.", "anchors": ["lager/store.hpp: dispatch (is_transactional)", "lager/commit.hpp"]}
{"id": "C52", "title": "Dispatch futures complete after the action and its effect", "statement": "With futures enabled, the future of dispatch(a) is fulfilled exactly once, after the reducer ran on a, after watchers were notified (non-transactional), after its effect ran and, if the effect returned a future, after that future completed. It is not fulfilled if the reducer, a watcher called for it, or the effect throws.", "quantifier": "every history and every nesting of effects that dispatch and chain", "why_tests_cant": "Nesting is unbounded.", "anchors": ["lager/store.hpp: dispatch (has_futures)", "lager/future.hpp"]}
{"id": "C53", "title": "Sequencing effects", "statement": "sequence(a, b) runs a's actions then b's, waits for the future of a before starting b, is associative, and has noop as an observable identity. FALSE for null effects, which were meant to be identities too: sequence does not recognise them, they throw where they are called, nothing after them is called, and the future of the sequence is never fulfilled.", "quantifier": "all effects", "why_tests_cant": "All effects.", "anchors": ["lager/effect.hpp: sequence, is_empty_effect"]}
{"id": "C54", "title": "noop effects are recognised as empty", "statement": "An effect constructed from lager::noop, or a null one, is recognised as empty so that running it is skipped. FALSE: for values of type lager::effect overload resolution picks the generic is_empty_effect, which says no (and the other one compares the address of a copy of noop). Running a noop effect is nevertheless observably equal to skipping it. A null effect, alone or in a sequence, is called and throws, and the future of the dispatch is never fulfilled.", "quantifier": "all effects, reducers and stores; all histories", "why_tests_cant": "Tests cannot see that the skip never happens.", "anchors": ["lager/effect.hpp: is_empty_effect, effect::effect", "lager/util.hpp: noop", "doc/effects.rst"]}
{"id": "C55", "title": "Thunks", "statement": "With with_thunk, dispatching a thunk leaves the model unchanged and runs the thunk once as an effect with the store's context; dispatching an ordinary action behaves as without the enhancer.", "quantifier": "every reducer, model, thunk, action", "why_tests_cant": "All.", "anchors": ["lager/extra/thunk.hpp: with_thunk"]}
{"id": "C56", "title": "Context conversion preserves dispatch", "statement": "Dispatching b on a context converted to a sub-action type, or built with a converter f, is the same as dispatching the converted action (f b) on the original context, and conversions compose.", "quantifier": "every chain of conversions", "why_tests_cant": "Chains are unbounded.", "anchors": ["lager/context.hpp: context, dispatcher"]}
{"id": "C57", "title": "Merged action lists cover both sides", "statement": "The action list computed for a sequence of two effects accepts every action of either effect and contains only their action types; an action type that merging adds is not convertible to an earlier one. That the list is minimal is FALSE: an earlier action type that converts to one added later stays.", "quantifier": "every finite list of action types and every convertibility relation that is reflexive and transitive", "why_tests_cant": "Type-level computation over unbounded lists.", "anchors": ["lager/context.hpp: merge_actions_aux, are_compatible_actions_aux"]}
{"id": "C58", "title": "Dependency bags", "statement": "get after with returns what was passed for that key; converting to a smaller bag keeps every shared dependency; references stay references to the same object; optional ones missing in the source are absent (has is false and get throws) and lazy ones call the given function at each get. Only a lazy reference that is converted to a plain one calls the function at the conversion instead. A conversion is only possible if every dependency required in the target is a required one of the source.", "quantifier": "every set of keys, specs and conversions", "why_tests_cant": "All bags.", "anchors": ["lager/deps.hpp: deps, dep::val, dep::ref, dep::opt, dep::fn"]}
{"id": "C59", "title": "Merging dependency bags prefers the right one", "statement": "get(key) on a.merge(b) is b's dependency if b has the key among its specifications and a's otherwise, for required and optional dependencies; the merge has exactly the keys of both. It is FALSE that a's dependency is used when b has the key only as an absent optional one.", "quantifier": "every pair of bags", "why_tests_cant": "All bags.", "anchors": ["lager/deps.hpp: merge, deps(deps, deps)"]}
{"id": "C60", "title": "The debugger is transparent", "statement": "A store with the time-travel debugger on which only ordinary actions are dispatched and which is never paused shows, after each action, the same model and produces the same effects as a store without the debugger.", "quantifier": "every reducer and action sequence", "why_tests_cant": "All sequences.", "anchors": ["lager/debug/debugger.hpp: debugger::update, with_debugger"]}
{"id": "C61", "title": "The debugger cursor always denotes an existing state", "statement": "After any sequence of actions, goto, undo, redo, pause and resume the cursor is between 0 and the history length, so looking up the shown state never throws.", "quantifier": "every sequence of debugger actions", "why_tests_cant": "All sequences, including out-of-range gotos.", "anchors": ["lager/debug/debugger.hpp: update, lookup"]}
{"id": "C62", "title": "Debugger history is a genuine run", "statement": "Each history entry holds the reducer's result on the previous entry's model and its own action; undo, redo and goto never change the history.", "quantifier": "every sequence of debugger actions", "why_tests_cant": "All sequences.", "anchors": ["lager/debug/debugger.hpp: update"]}
{"id": "C63", "title": "Undo and redo", "statement": "Undo then redo (when not at the start) and redo then undo (when not at the end) return to the same shown state; n undos from the end show the model before the last n actions; undo at the start and redo at the end do nothing; goto beyond the end does nothing.", "quantifier": "every debugger state and every n", "why_tests_cant": "All n and states.", "anchors": ["lager/debug/debugger.hpp: update"]}
{"id": "C64", "title": "Acting in the past drops exactly the redo history", "statement": "Dispatching an ordinary action while the cursor is at position k keeps the first k history entries and replaces everything after by the new one.", "quantifier": "every debugger state and action", "why_tests_cant": "All states.", "anchors": ["lager/debug/debugger.hpp: update (take(cursor).push_back)"]}
{"id": "C65", "title": "Pause and resume lose nothing", "statement": "Ordinary actions dispatched while paused change neither the shown model nor the history, and on resume they are applied in order exactly as if dispatched one by one after resuming; their effects run after the loop-resume effect, in order.", "quantifier": "every reducer, every interleaving of actions and navigation between pause and resume", "why_tests_cant": "All interleavings.", "anchors": ["lager/debug/debugger.hpp: update (pause_action, resume_action)"]}
{"id": "C66", "title": "Tree debugger keeps every past", "statement": "In the tree debugger no recorded step ever disappears or changes its action or model: every cursor that denotes a step keeps denoting a step with the same action and model after any further actions; the shown cursor always denotes an existing step.", "quantifier": "every sequence of tree debugger actions", "why_tests_cant": "All sequences.", "anchors": ["lager/debug/tree_debugger.hpp: do_append, append, do_lookup, update"]}
{"id": "C67", "title": "Tree debugger shows the result of the action just taken", "statement": "After dispatching an ordinary action (not paused) the shown model is the reducer's result on the previously shown model. FALSE when acting on a past step that already has a branch: the first step of its first branch is shown instead; true at the root, at the tip of a branch and on steps without branches. The step taken is recorded in any case.", "quantifier": "every tree debugger state", "why_tests_cant": "The suite has no test of the tree debugger.", "anchors": ["lager/debug/tree_debugger.hpp: do_append"]}
{"id": "C68", "title": "Tree debugger navigation", "statement": "undo moves to the state in which the current step was taken; goto to a non-existing position does nothing; redo always throws.", "quantifier": "every tree debugger state", "why_tests_cant": "All states.", "anchors": ["lager/debug/tree_debugger.hpp: update, check"]}
{"id": "C69", "title": "Enum names round-trip", "statement": "For a LAGER_DERIVE-style enum with distinct names, converting a value to its string and back gives the value, and unknown strings are rejected.", "quantifier": "every enum declaration with distinct names and every value", "why_tests_cant": "All declarations.", "anchors": ["lager/extra/enum.hpp: to_string, to_enum"]}
{"id": "C70", "title": "Derived equality and hashing agree", "statement": "Derived operator== holds exactly if all members are equal, and equal values have equal derived hashes.", "quantifier": "every struct and member values", "why_tests_cant": "All structs.", "anchors": ["lager/extra/derive/eq.hpp", "lager/extra/derive/hash.hpp"]}
{"id": "C71", "title": "Serialised containers load back", "statement": "Loading what was saved gives back the same immer vector, flex_vector, array, map, set, box, tuple, optional field and named variant, when loading into a default-constructed target. FALSE for non-empty targets: an empty sequence leaves the old content, and maps and sets merge with the old content or throw.", "quantifier": "every container content and every target content", "why_tests_cant": "All contents and nestings.", "anchors": ["lager/extra/cereal/immer_vector.hpp", "lager/extra/cereal/immer_flex_vector.hpp", "lager/extra/cereal/immer_array.hpp", "lager/extra/cereal/immer_map.hpp", "lager/extra/cereal/immer_set.hpp", "lager/extra/cereal/variant_with_name.hpp", "lager/extra/cereal/optional_nvp.hpp"]}
{"id": "C72", "title": "Debug server routing", "statement": "A request is answered by the first registered route whose method and pattern match, with 404 if none does and with 500 and the message if the handler throws an exception derived from std::exception. FALSE for other exceptions: they end the program. A connection answers every request it reads exactly once, in the order in which it read them, finishes sending a response before it reads the next request, and does nothing after it was closed.", "quantifier": "every route table, every request and every sequence of reads, writes and errors of a connection", "why_tests_cant": "All tables and all sequences of network events.", "anchors": ["lager/debug/http_server.hpp: router::route, router::handle_request, session"]}
{"id": "C73", "title": "SDL loop pause and finish", "statement": "Each posted task runs at most once, in posting order, and those not run are still queued. With run(handler, tick), posted tasks still run while the loop is paused and neither the handler nor tick is called; after finish the loop ends if it is not paused. FALSE: that it ends if it is paused (it waits until it is resumed), and that run(handler) calls no handler while paused.", "quantifier": "every stream of events, pauses and posts", "why_tests_cant": "All event streams.", "anchors": ["lager/event_loop/sdl.hpp: sdl_event_loop::run, post, pause, resume, finish"]}
{"id": "C74", "title": "Tree debugger pause and resume", "statement": "While the tree debugger is paused actions change neither the shown model nor the recorded tree; resume applies all pending actions, in order, exactly as if they had been dispatched one after the other, and leaves nothing pending.", "quantifier": "every tree, every list of pending actions, every reducer", "why_tests_cant": "Unbounded trees and pending lists.", "anchors": ["lager/debug/tree_debugger.hpp: update(pause_action, resume_action)"]}
{"id": "C75", "title": "Adopting a loop keeps the order of the adopter's tasks", "statement": "A thread's tasks run in the order it posted them even if it adopts the safe queue loop in between. FALSE: tasks posted before adopt wait in the shared queue and are overtaken by tasks posted after it.", "quantifier": "every interleaving with adopt calls", "why_tests_cant": "Depends on the schedule.", "anchors": ["lager/event_loop/safe_queue.hpp: adopt, post, step"]}
{"id": "C76", "title": "Loading reads each member from its own field", "statement": "When a structure is loaded from a document with named fields, each member gets the value of the field of its name, whatever the order of the fields in the document; an absent optional member keeps its value, and an absent required member is an error.", "quantifier": "every structure, every document and every order of fields", "why_tests_cant": "All documents.", "anchors": ["lager/extra/cereal/struct.hpp", "lager/extra/cereal/optional_nvp.hpp"]}
{"id": "C77", "title": "Debug server shows the history and forwards the commands", "statement": "GET /api shows the length of the history, the cursor and the pause state of the last model the store changed to; GET /api/step/n shows the action of step n and the model after it, and is answered with 500 if there is no such step; POST goto, undo, redo, pause and resume dispatch exactly that action; no other request dispatches anything or changes what is shown. FALSE before the first change: the server then shows a value made from nothing rather than the initial model.", "quantifier": "every debugger model, request target, number and history of changes and requests", "why_tests_cant": "All targets, unbounded numbers and histories.", "anchors": ["lager/debug/http_server.hpp: http_debug_server_impl::init"]}
{"id": "C78", "title": "Debug server serves only its own files", "statement": "Requests for files are answered only with files in the gui directory of the resources. FALSE: a target with '..' reaches any file the program can read. True of targets without a part '..'.", "quantifier": "every target and every file system without symbolic links", "why_tests_cant": "All targets.", "anchors": ["lager/debug/http_server.hpp: http_debug_server_impl::init"]}
{"id": "C79", "title": "Names of fields in camel case", "statement": "Converting the name of a member to camel case keeps exactly its letters and digits, in order and up to case, and the digits as they are; a letter is a capital exactly if a separator (any other character) stands between it and the letter before it, or the beginning of the name. FALSE: that members with different names get different field names, and that names in camel case stay as they are.", "quantifier": "every name in ASCII, of any length", "why_tests_cant": "All names; the code rewrites the string in place while it reads it.", "anchors": ["lager/extra/cereal/struct.hpp: to_camel_case"]}
{"id": "C80", "title": "Exceptions thrown by watch callbacks and setter functions", "statement": "An exception that leaves a watch callback or a setter function changes no value, no pending write and no subscription; it reaches the caller of the library function. In every later state derived readers still agree with their sources, callbacks are given the value of their reader, and no reader is left in the state of being notified. A setter function that throws leaves the cursor as it was. FALSE: that the other callbacks of that notification are called, now or when the call ends, and that a write to a merged cursor is all or nothing. But readers that wait for no notification go on as usual, and the next set that changes a reader and all it is derived from calls all its callbacks, also those left out before.", "quantifier": "every history of calls and exceptions, every graph of readers", "why_tests_cant": "All points at which a callback may throw, at any depth of nested calls, and all histories afterwards.", "anchors": ["lager/detail/nodes.hpp: notifying_guard_t, reader_node::notify", "lager/detail/signal.hpp: signal::operator()", "lager/commit.hpp: commit", "lager/setter.hpp: setter_node::send_up"]}
{"id": "C81", "title": "Reducers and watchers that throw", "statement": "An exception thrown by the reducer, or by a watcher of a non-transactional store, loses only the task of the dispatch it is thrown in. An action for which the reducer throws is as if it had not been dispatched: the model and what watchers are shown is the fold over the others, no effect is run for it and its future is never fulfilled. If a watcher throws, the model still includes the action, but the effect of the dispatch in whose task it was called is not run and its future is never fulfilled. All other dispatches are reduced, their effects run and their futures are fulfilled as usual.", "quantifier": "every reducer, every set of actions and models for which it throws, every history and every call of watchers that throws", "why_tests_cant": "All points at which an exception may be thrown, and all histories afterwards.", "anchors": ["lager/store.hpp: detail::store_node::dispatch, detail::store_node::action", "lager/effect.hpp: invoke_reducer", "lager/event_loop/queue.hpp: queue_event_loop::step"]}
{"id": "C82", "title": "QML loop runs tasks once and in order", "statement": "With the QML loop, if no task runs a nested Qt event loop: tasks run one at a time, each once, in the order in which they reach the queue; the tasks posted by one thread reach it in the order posted, those of the item's own thread at once; when a round of tasks ends without exception every task that reached the queue has run.", "quantifier": "every interleaving of posting threads with frames, paints, timer ticks and deliveries of Qt events, every set of throwing tasks", "why_tests_cant": "All schedules of Qt and all threads.", "anchors": ["lager/event_loop/qml.hpp: event_loop_quick_item"]}
{"id": "C83", "title": "QML loop keeps running tasks", "statement": "Every task posted to the QML loop is run, whether or not the window is shown. FALSE: nothing runs before the item is polished for the first time, which needs a window that renders. From then on the timer never stops, each time it fires the oldest waiting task is started, if there is one, and as long as no task throws the item is always scheduled, or asked, to be polished again; between two paints at most one frame runs tasks.", "quantifier": "every schedule of frames, paints, timer ticks and deliveries of Qt events", "why_tests_cant": "All schedules of Qt.", "anchors": ["lager/event_loop/qml.hpp: event_loop_quick_item"]}
{"id": "C84", "title": "Nested Qt event loops in tasks of the QML loop", "statement": "A task of the QML loop may run a nested Qt event loop, such as a modal dialog. FALSE: when the timer fires in it, the nested step calls an empty function and throws, runs nothing, and if the task lets the exception out other tasks are lost.", "quantifier": "every history with nested event loops", "why_tests_cant": "All histories in which Qt gets control inside a task.", "anchors": ["lager/event_loop/qml.hpp: event_loop_quick_item", "lager/event_loop/queue.hpp: queue_event_loop::step"]}
{"id": "C85", "title": "Exceptions thrown by mapping functions, lenses and transducers", "statement": "If the function of a derived reader or of a sensor throws while a set or a commit is propagated, the call is left, no callback has been called, the write is not undone, and only readers derived from what was written have changed; if the setter of a lens throws, nothing is written. FALSE: that the other derived readers then agree with their sources: readers whose functions do not throw stay stale, also when the same value is set again, and readers of several sources may show a mix. But in every such state, a set or commit that is not left makes every reader right of which at least one direct source changes, and readers that were right stay right.", "quantifier": "every graph of readers, every choice of calls of functions that throw, every history", "why_tests_cant": "All points at which a function may throw in a propagation, and all histories afterwards.", "anchors": ["lager/detail/nodes.hpp: reader_node::send_down, reader_node::refresh", "lager/state.hpp: state_node::send_up", "lager/commit.hpp: commit", "lager/detail/lens_nodes.hpp: lens_cursor_node::send_up"]}
{"id": "C86", "title": "Composed lenses on lvalues lose nothing", "statement": "set(l1 | l2, s, v) with an lvalue s gives what setting through l2 and then through l1 gives, and is inert if the lens is. FALSE: a lens that shows its part as a temporary (at, at_or, alternative, value_or, force_opt, zip, fan and lifted lenses) makes the lens after it treat that part as movable, so that writing nullopt through at(k) | map_opt(attr(m)) empties the member m of the element, and writing a value through a lens lifted over an alternative in the middle empties sibling members. Every other write to an lvalue is right: single lenses, lenses after members and unbox, and after temporaries the writes that are right for moved-in wholes. Type-erased lenses treat moved-in wholes as lvalues, and reading is always right.", "quantifier": "every lens expression, whole and part, with value categories modelled", "why_tests_cant": "All compositions of lenses and all values.", "anchors": ["lager/lenses/optional.hpp: opt_impl, value_or, force_opt", "lager/lenses/at.hpp: at", "lager/lenses/variant.hpp: alternative_t", "lager/lenses/tuple.hpp: zip, fan", "lager/lens.hpp: lens"]}
{"id": "C87", "title": "Futures on a manual event loop", "statement": "With the manual event loop, which runs tasks inside of post: FALSE that callbacks never run inside of then() or of the call of a promise: they do, with the promise state locked; so a callback that uses a copy of its own future, or calls a copy of its own promise, deadlocks (with loops that queue it does not). Programs that only move promises and futures never deadlock and never attach two callbacks to one future, however calls are nested and whatever throws, and show no behaviour that they could not show with loops that queue: a callback is run at most once, after its promise is called; chains run in order; also() waits for both. If nothing throws, all callbacks whose promises have been called have run when the calls return. After exceptions, no mutex stays locked and the loop can be used again.", "quantifier": "every program with promises and futures on any mix of manual and queueing loops in one thread, every nesting of calls and every choice of throwing callbacks", "why_tests_cant": "All nestings of callbacks, calls and exceptions.", "anchors": ["lager/future.hpp: future::then, promise::operator()", "lager/event_loop/manual.hpp: with_manual_event_loop::post"]}
{"id": "C88", "title": "Readers derived from a store", "statement": "A reader obtained from a store by map, zoom and with, in any number of steps, always shows its function of the model that the store shows, which is the fold of the reducer over the actions evaluated before the last publication (before the last commit, if the store is transactional); its callbacks are only called with its function of models that the store had, in the order in which it had them, and when everything is published they were last called with that of the final model. FALSE: for readers that combine the store with something else, and for readers derived between the evaluation of an action and its publication: these can show a model that has not been published.", "quantifier": "every reducer, every graph of readers, every interleaving of evaluations, publications, callbacks and other writes, attaching, detaching and destroying of readers", "why_tests_cant": "All graphs of readers and all interleavings.", "anchors": ["lager/store.hpp: store_node::dispatch", "lager/detail/nodes.hpp: reader_node::send_down, reader_node::push_down", "lager/commit.hpp: commit"]}
{"id": "C89", "title": "How often the functions of derived readers are called", "statement": "In one commit, or one write to an automatic state, the function of a derived reader is called at most once for every path that leads from what was written to the reader: so at most once if it is derived by a single path. It is not called unless, in the same call, one of its direct sources has been computed and published before. FALSE: that it is called at most once in general: with k diamonds on top of each other (readers that combine two readers of the same reader), one commit calls the function of the last of 3k readers 2^k times, with intermediate mixtures of old and new values.", "quantifier": "every graph of readers, every list of committed states, every history before", "why_tests_cant": "All shapes of graphs; the number of calls grows without bound with the size of the graph.", "anchors": ["lager/detail/nodes.hpp: reader_node::send_down", "lager/commit.hpp: commit", "lager/state.hpp: state_node::send_up"]}
{"id": "C90", "title": "How long readers, cursors and states live", "statement": "However readers, cursors, states and stores are derived, copied, moved, assigned and destroyed, and whatever calls are running: what a reader refers to exists exactly as long as a reader, cursor, state or store (or a running call) refers to it or to something that is derived from it; it is destroyed once, after everything derived from it; nothing destroyed is used through a reader; and when all are gone nothing is left.", "quantifier": "every history of creations, derivations, copies, moves, assignments, destructions and nested calls", "why_tests_cant": "All graphs of readers and all orders of destruction.", "anchors": ["lager/watch.hpp: watchable_base", "lager/detail/nodes.hpp: inner_node, observable_reader_node, link_to_parents", "lager/reader.hpp: reader_mixin"]}
{"id": "C91", "title": "How long stores must live", "statement": "Actions that were dispatched are handled safely whenever the store is destroyed, and contexts may outlive it. FALSE: tasks in the event loop and contexts refer to the store by a raw pointer: it is undefined behaviour to run the event loop after the store was destroyed with actions pending, to dispatch through a context afterwards, and to destroy the store in a callback or effect. It is defined exactly if at these times something refers to the store or to a reader derived from it, so keeping any such reader is enough.", "quantifier": "every history of dispatches, runs of the event loop, copies and destructions of stores, contexts and readers", "why_tests_cant": "All orders of destruction and of tasks.", "anchors": ["lager/store.hpp: store_node::dispatch, store_node::ctx", "lager/context.hpp: context"]}
{"id": "C92", "title": "A store with the debugger behaves like one without", "statement": "For every run of a non-transactional store there is a run of the store with the debugger, with the same actions and the same schedule, that leads to the same shown model, futures and number of tasks and to the same sequence of dispatches, calls of the reducer, calls of watchers with new values and calls of effects, also when reducers, watchers and effects throw; watchers may only be called once more with the value they saw last. Whatever the schedule, the models that are shown or committed are those that the reducer alone gives. FALSE: that it cannot be noticed on transactional stores with futures: the future of an action without effect is fulfilled later.", "quantifier": "every reducer with any effects and exceptions, every sequence of actions and every schedule", "why_tests_cant": "All interleavings of dispatches, tasks, effects and exceptions of two programs have to be compared.", "anchors": ["lager/debug/debugger.hpp: with_debugger, debugger::update", "lager/store.hpp: store_node::dispatch", "lager/effect.hpp: invoke_reducer, is_empty_effect"]}
{"id": "C93", "title": "Pausing a store with the debugger", "statement": "Whatever actions of the debugger and of the user are dispatched, the model of an idle store is the one that the debugger has after these actions, without those for which the reducer threw (C61 to C65). When it is resumed it shows what the reducer makes of the actions kept while it was paused, and their effects are called in order after loop().resume(), each after the futures of those before it. If the reducer throws for a kept action, the debugger stays paused and resuming throws every time. FALSE: that the future of an action dispatched while paused is fulfilled only after the action is evaluated, and that the effects of these actions are called if loop().resume() throws, as it does for the queue, safe_queue, Qt and QML loops.", "quantifier": "every reducer, every sequence of actions, every schedule", "why_tests_cant": "All histories of pausing, resuming and dispatching, in all interleavings with tasks and effects.", "anchors": ["lager/debug/debugger.hpp: debugger::update, debugger::resume_action", "lager/event_loop/queue.hpp: pause, resume", "lager/event_loop/safe_queue.hpp: pause, resume", "lager/event_loop/qt.hpp: pause, resume", "lager/event_loop/qml.hpp: pause, resume"]}
{"id": "C94", "title": "Dispatching from several threads", "statement": "With an event loop that runs one task at a time, first come, first served (one thread, or any executor in a strand; for the thread-safe queue see C112), actions may be dispatched and futures used by any thread at any moment, also while the reducer or watchers run. Such operations touch no members of the store, and there are no data races on them. Whenever no task is in progress, the store is as if all tasks had run without interruption: the same calls of the reducer, watchers and effects with the same values in the same order. In the end the model is the fold over all actions in the order in which they were dispatched, and at any moment watchers have only seen folds over the first ones of them. FALSE: with an executor with several threads that is not in a strand there are data races, and actions get lost. FALSE: that another thread may call get() on the store.", "quantifier": "every reducer and watcher, any number of threads that dispatch, every interleaving of them with the steps of tasks", "why_tests_cant": "There are unboundedly many interleavings, and tests see few of them; lost updates and data races depend on timing.", "anchors": ["lager/event_loop/boost_asio.hpp: with_boost_asio_event_loop", "lager/store.hpp: store_node::dispatch", "lager/detail/nodes.hpp: push_down, send_down, notify"]}
{"id": "C95", "title": "Store enhancers in any order", "statement": "Enhancers given to make_store wrap the reducer in the order in which they are given, the last one outermost; with_reducer replaces the reducer together with all that was wrapped around it. A store is transactional, or has futures, if its tag or any with_tags or with_futures says so, in any position; of several with_deps for the same dependency the last one counts; each debugger gets the finished store. For any number of with_thunk, with_debugger (with the debugger or the tree debugger), with_deps and with_tags in any order, on top of any other enhancers, a non-transactional store with them behaves for ordinary actions like the one without them that has the same tags: same models, futures and number of tasks, and the same dispatches, calls of the reducer, of watchers with new values and of effects in the same order. Debuggers compare actions, so with_debugger after with_thunk does not compile. FALSE: that thunks dispatched while the debugger is paused wait like actions do. FALSE: that with_tags<automatic_tag> makes a transactional store automatic.", "quantifier": "every list of enhancers, every reducer with any effects and exceptions, every sequence of actions and schedule", "why_tests_cant": "Lists of enhancers are unbounded, and for each all histories and schedules of two programs have to be compared.", "anchors": ["lager/store.hpp: make_store, with_tags, with_futures, with_deps, with_reducer", "lager/extra/thunk.hpp: with_thunk", "lager/debug/debugger.hpp: with_debugger"]}
{"id": "C96", "title": "A store with the tree debugger", "statement": "For every run of a non-transactional store there is a run of the store with the tree debugger, with the same actions and the same schedule, that leads to the same shown model, futures and number of tasks and to the same sequence of dispatches, calls of the reducer, calls of watchers with new values and calls of effects, also when reducers, watchers and effects throw. Whatever the schedule, the models that are shown or committed are those that the reducer alone gives. With actions of the debugger among them, the model of an idle store is the one that the tree debugger has after these actions, without those that threw (C66 to C68, C74), nothing that watchers have seen recorded is ever lost or changed, and resuming has the result and calls the effects of the kept actions in order after loop().resume(). Dispatching redo throws out of the event loop, changes nothing, and its future is never fulfilled. FALSE: that the store shows the result of the action evaluated last, or after resuming that of the kept actions: on a past step with branches it shows the first step of the first branch, although the action is recorded and its effect called.", "quantifier": "every reducer with any effects and exceptions, every sequence of actions of the user and the debugger, every schedule", "why_tests_cant": "Histories of two programs have to be compared under all schedules; the trees are unbounded.", "anchors": ["lager/debug/tree_debugger.hpp: tree_debugger::update", "lager/debug/debugger.hpp: with_debugger", "lager/store.hpp: store_node::dispatch"]}
{"id": "C97", "title": "The summary of the tree debugger is exact", "statement": "The summary that a tree debugger gives describes its tree without loss: read as the documentation of its entries suggests (each entry stands for that many steps without branches and, unless it is the last, for one more step with the given branches), it says for every position whether there is a step, and these are exactly the cursors that goto accepts. Two reachable debuggers, of any programs, have the same summary if and only if they have the same positions. The number of steps in it is that of the actions that were dispatched, less those that wait for the debugger to be resumed; an action adds exactly one position, from which undo leads to the cursor it was taken at; moving and pausing change nothing.", "quantifier": "every sequence of actions of the user and the debugger, every cursor, trees of any depth and width", "why_tests_cant": "Trees and cursors are unbounded; the encoding has to be injective on all of them.", "anchors": ["lager/debug/tree_debugger.hpp: tree_debugger::model::summary", "lager/debug/tree_debugger.hpp: tree_debugger::model::check"]}
{"id": "C98", "title": "Stores that share an event loop do not disturb each other", "statement": "Any number of stores, with any actions, models, reducers and options, may be made with the same event loop; their effects may dispatch to each other and return each other's futures. What each of them goes through is then an execution of that store alone, so that all that holds for a single store holds for each; and any execution of a store alone is one among others. The loop is first come, first served for all of them: actions are evaluated in the order in which they were dispatched, to whichever store. When the loop has no tasks left, each model is the fold over the actions of its store. When the future of a dispatch is fulfilled whose effect has returned the future of a dispatch to another store, that store has evaluated the action, published the result and its effect is over. If effects only wait for dispatches that came after theirs, and nothing throws, all futures are fulfilled in the end; two effects that wait for each other's dispatches wait for ever.", "quantifier": "every family of stores, every interleaving of their tasks, effects and user code, every history", "why_tests_cant": "Interleavings of tasks of several stores, effects that dispatch to each other and futures that cross stores are unbounded; tests use one store and a few fixed orders.", "anchors": ["lager/store.hpp: store_impl::dispatch", "lager/store.hpp: make_store", "lager/event_loop/queue.hpp: queue_event_loop", "lager/future.hpp: promise::with_loop"]}
{"id": "C99", "title": "Subscripts of readers and cursors", "statement": "cursor[k1][k2]...[kn], where each subscript is a key, an index or a pointer to a member, denotes one place in the value of the cursor; optionals on the way are gone into without saying so. If only members are on the way it shows and writes what is there; otherwise it shows an optional, which is empty if a key, an index or the content of an optional is missing on the way, and is not nested if the place is an optional member. Writing a value replaces what is there and nothing else, so that expressions whose subscripts part ways do not influence each other; if something is missing on the way, writing changes nothing. Every place can be reached like this. A lens between brackets is applied to the optional if it can be, and to its content otherwise. Writing nullopt changes nothing if the last subscript is a key or an index. FALSE if it is a member: people[0][&person::name].set(nullopt) empties the name, and an optional member is left with an empty value instead of none.", "quantifier": "every type made of structs, sequences, maps and optionals, every chain of subscripts, every value and every value written, with value categories modelled", "why_tests_cant": "Types, chains and values are unbounded; tests index a vector of structs once or twice.", "anchors": ["lager/detail/smart_lens.hpp: smart_lens", "lager/with.hpp: with_expr_base::operator[]", "lager/lenses/optional.hpp: with_opt", "lager/lenses/at.hpp: at", "lager/lenses/attr.hpp: attr"]}
{"id": "C100", "title": "Naming a reader twice in an expression", "statement": "The debug assertions of the library do not fail when readers are made from any expressions, at any time, and debug builds behave like release builds. FALSE for expressions that name the same reader, or copies of it, twice: with(x, x) fails the assertion of link when the reader is made. This is the only case: for every other expression and every other call on readers and cursors, debug builds do what release builds do. In release builds a reader that is named twice does no harm (C01, C09 and the others do not exclude it).", "quantifier": "every reachable state of every program and every call, including calls from inside of callbacks", "why_tests_cant": "Whether a node has been linked before depends on the whole history of nodes; tests make each expression once.", "anchors": ["lager/detail/nodes.hpp: observable_reader_node::link", "lager/detail/nodes.hpp: link_to_parents", "lager/with.hpp: with"]}
{"id": "C101", "title": "Promises and futures in several threads", "statement": "Promises may be called, and callbacks given to their futures, by several threads at the same time. However the single accesses of these calls are interleaved, the calls have the results and the effect that they would have one after the other, in an order in which each call stands after those that had returned before it began. A callback given to then while another thread calls the promise is run or waits in the loop exactly once as soon as both calls have returned. Calls never wait for each other for ever, and each ends after a bounded number of steps. In release builds there are no data races. FALSE in debug builds: an assertion of then reads the callback without locking, which is a data race with a call of the promise at the same time; it is the only one.", "quantifier": "any number of threads and calls, every interleaving of their single reads and writes, in debug and release builds", "why_tests_cant": "Data races and bad interleavings are rare and depend on timing; tests run a few schedules, and sanitizers only see what was run.", "anchors": ["lager/future.hpp: promise::operator()", "lager/future.hpp: future::then", "lager/future.hpp: promise_state"]}
{"id": "C102", "title": "Data races on the thread-safe queue", "statement": "Posting to the safe queue loop from any threads, while its owner runs step, is free of data races, and does what it would do if each post was one indivisible step, so that C42 and C43 hold for all interleavings of single accesses. Every post, step and adopt that has returned has taken effect exactly once; calls return after at most four steps of their thread, and do not wait for each other for ever. Threads may adopt the loop while nobody else uses it. FALSE that they may while another thread posts: then there is a data race on the id of the owner, and if it is the owner that posts, one on its queue.", "quantifier": "any number of threads, every interleaving of the single accesses of post, step and adopt, in debug and release builds", "why_tests_cant": "Data races depend on timing; tests run a few schedules.", "anchors": ["lager/event_loop/safe_queue.hpp: safe_queue_event_loop::post", "lager/event_loop/safe_queue.hpp: safe_queue_event_loop::step", "lager/event_loop/safe_queue.hpp: safe_queue_event_loop::adopt"]}
{"id": "C103", "title": "Exceptions thrown when values are copied or compared", "statement": "If comparing or copying a value throws in the middle of a set, the call is left, no callback has been called, and the written reader shows either the new value, or everything shows what it did before, with the new value pending or not written at all. Readers that do not derive from it are untouched. FALSE: that the readers derived from it agree with it afterwards; a reader whose value could not be copied goes on showing the old one, and later readers are not computed, also when the same value is set again. But in every such state, a set that is not left shows its value, a commit that is not left shows what is pending, and both make every reader right of which at least one direct source changes, also one with a value pending that it never showed.", "quantifier": "every graph of readers, every choice of comparisons and copies that throw, every history", "why_tests_cant": "Every single comparison and copy in a propagation may throw, for example when memory runs out, and what matters is every state after it; tests use values that never throw.", "anchors": ["lager/detail/nodes.hpp: reader_node::push_down", "lager/detail/nodes.hpp: reader_node::send_down", "lager/state.hpp: state", "lager/commit.hpp: commit"]}
{"id": "C104", "title": "The debugger in the browser while the program runs", "statement": "With an event loop to which any thread may post and that runs one task at a time, the debug server answers requests at any moment, also while the reducer or watchers run, without data races on the store. Each answer describes a model that the store has had, and later answers never describe earlier models. Each command is dispatched exactly once, in the order of the requests, between the actions of the program, and C94 holds for all of them together. When nothing is left to do, the server shows the model of the store, if it has ever changed. FALSE if a watcher throws that is called before the one of the server: then it shows an outdated model.", "quantifier": "every program and debugger model, every sequence of requests, every interleaving of the thread of the server with those of the program", "why_tests_cant": "The server answers in its own thread, and what it shows depends on when a request arrives; tests send single requests to programs at rest.", "anchors": ["lager/debug/http_server.hpp: http_debug_server_impl", "lager/debug/debugger.hpp: with_debugger", "lager/store.hpp: store_node::dispatch"]}
{"id": "C105", "title": "Effects of nested reducers", "statement": "An effect made from user functions by conversions to other effect types and by sequence, nested in any way, that compiles can be called with the context of every store whose actions and dependencies fit its type. Then its functions are called once each, in order, with contexts of the types that they take; only a null effect among them ends this, with an exception. Every action that a function may dispatch reaches the store, after implicit conversions, as if it were dispatched on the store itself if all ways to convert it agree. Every dependency that a function requires is there, and is the one of the store. An optional one is the one of the store if all effect types around the function list it. FALSE in general: if one of them does not, the function does not see it although the store has it. Two effects can be put in sequence if and only if both have actions, and what both depend on can be made, as the first wants it, from what the second wants. FALSE that then they can be put in sequence the other way round, too.", "quantifier": "every nesting of conversions and sequences, all lists of action types and dependencies, every store context", "why_tests_cant": "The types that an effect goes through are those of all reducers between it and the store; tests have one or two levels with fixed types.", "anchors": ["lager/effect.hpp: effect, sequence", "lager/context.hpp: context, dispatcher, merge_actions_t", "lager/deps.hpp: deps"]}
{"id": "C106", "title": "Setter cursors over stores", "statement": "A cursor made with with_setter from a store, or from any reader, at a moment when that has nothing unpublished: with transactional_tag (the default) it always shows what its source shows, whatever is set and whenever. With automatic_tag it does so as long as nothing was set, and again from the first time on that the source changes after a set returned, whatever the reducer made of the action that was dispatched, so that over a store it shows the fold of the reducer. FALSE that an automatic one agrees with its source whenever everything is evaluated and published: if the reducer ignores the value the cursor shows it all the same, and also if it makes another value of it while set runs, as with the manual event loop. FALSE that a transactional one then behaves as if nothing had been set: update applies its function to the ignored value, and readers derived from the cursor show it. FALSE that the callbacks of an automatic one see each value once: with an event loop that runs later, setting 1 and 2 shows 1, 2, 1, 2.", "quantifier": "every source and setter function, every history of sets, updates, dispatches, commits and callbacks", "why_tests_cant": "What the cursor shows depends on when the store evaluates the action, and on what the reducer makes of it; the tests and the documentation have a reducer that stores the value at once.", "anchors": ["lager/setter.hpp: setter_node, with_setter", "lager/store.hpp: store_node::dispatch", "lager/detail/nodes.hpp: reader_node::send_down"]}
{"id": "C107", "title": "Calls return", "statement": "Every call (set, update, commit, and making or destroying readers), wherever it is made, returns, if every callback and setter function that is called in its course returns and none of them attaches a callback: there is no infinite sequence of steps of the library and of whole callbacks, whatever they set, commit, derive, detach or destroy, and a call that is not over can go on, unless a callback was called whose connection it has itself removed (C17). With callbacks that do nothing every call returns, and nothing undefined happens. FALSE with callbacks that attach callbacks: if each attaches another one to the reader that called it and returns, then set never returns.", "quantifier": "every graph, every call from the outside or from callbacks, every behaviour of the callbacks", "why_tests_cant": "Termination is about infinite sequences: a test that hangs tells nothing about other graphs, and callbacks can change lists of children and of connections while those are being iterated.", "anchors": ["lager/detail/nodes.hpp: reader_node::notify", "lager/detail/nodes.hpp: reader_node::send_down", "lager/detail/signal.hpp: signal::operator()", "lager/commit.hpp: commit", "lager/detail/lens_nodes.hpp"]}
{"id": "C108", "title": "Callbacks that correct a value settle", "statement": "Callbacks (bound with watch or bind) that write to automatic states while they are being called, each of them to one state and any value computed from what all readers show: if each write leaves the value as it is or makes some measure of the values of these states smaller, then set returns, in one way only, and every property of the values that the writes preserve holds at the end. If they correct the value of one state, and those attached to it have nothing to correct before the call, then they have nothing to correct when set has returned; so with callbacks that normalize the value (idempotently) the state has exactly the normal form of what was set. FALSE without such a measure: if the callbacks attached to the state always write another value, set never returns. FALSE for types without ==: any callback that writes to the state it is attached to, even the value it was given, keeps set from returning.", "quantifier": "every graph, every set of such callbacks on any of its readers, every value that is set", "why_tests_cant": "Nested calls of set within the notification loop of the same state, to any depth; a test shows that one chain of corrections ends.", "anchors": ["lager/detail/nodes.hpp: reader_node::notify", "lager/detail/nodes.hpp: reader_node::push_down", "lager/state.hpp: state_node::send_up", "lager/watch.hpp: watchable_base::watch"]}
{"id": "C109", "title": "Who sees a value that is corrected", "statement": "With callbacks that normalize the value of an automatic state (idempotently), and others that do nothing: whenever a callback runs in the course of set, the state shows a normal value, except in callbacks of the state itself that come at or before the first normalizing one. So callbacks of all derived readers, and those attached to the state after the normalizing one, never see what was set, only its normal form. FALSE for callbacks attached before it: they see the value that was set.", "quantifier": "every graph, every arrangement of callbacks, every value, every moment within the call", "why_tests_cant": "It depends on the order of callbacks and on nested notifications for all graphs.", "anchors": ["lager/detail/nodes.hpp: reader_node::notify", "lager/detail/signal.hpp: signal::operator()", "lager/state.hpp: state_node::send_up"]}
{"id": "C110", "title": "What a write costs", "statement": "A write (set or update) to a cursor derived from transactional states by lenses and by merging gives a value to every cursor and state on the way exactly once for every path from it to the written cursor, and calls the view function of every cursor on the way exactly as often as there are pairs of a path from a zoomed cursor to the written one and a path from the cursor to that zoomed cursor. Through k zooms each kept as a cursor, the set functions are called once each, but the view function of the i-th cursor from the written one i times: k(k+1)/2 calls in all, before anything is committed. That the state is written once is FALSE in general: with k diamonds of cursors on top of each other one write reaches the state 2^k times.", "quantifier": "every graph of lenses and merged cursors over transactional states, every depth, every value", "why_tests_cant": "Counts for every shape of graph; tests check values, not how often user functions run.", "anchors": ["lager/detail/lens_nodes.hpp: lens_cursor_node::send_up", "lager/detail/nodes.hpp: inner_node::refresh", "lager/detail/nodes.hpp: inner_node::push_up", "lager/detail/merge_nodes.hpp: merge_cursor_node::send_up"]}
{"id": "C111", "title": "Chain reactions of effects and watchers end", "statement": "Give every action a weight such that whatever an action causes weighs less than it does: what the effect that the reducer returns for it may dispatch in one call, plus what the watchers may dispatch when they are shown the model it leads to, if that has changed. Then, in every order in which the loop, effects, futures and other threads of control go on, and also with exceptions, the number of calls of the reducer plus the weight of the actions that still wait never exceeds the weight of what was dispatched by others; the loop runs at most twice as many tasks of the store, and after that many none is left. Without such a weight this is FALSE: one action whose effect dispatches it again, or one watcher that dispatches at each change, keeps the loop busy for ever.", "quantifier": "every reducer, weight, effect (also sequences with futures), every history and interleaving, transactional or not, with or without futures", "why_tests_cant": "Termination of every possible chain of reactions; a test only sees one that does end, or hangs.", "anchors": ["lager/store.hpp: store_node::dispatch", "lager/effect.hpp: sequence", "lager/effect.hpp: invoke_reducer", "lager/context.hpp: context::dispatch"]}
{"id": "C112", "title": "Stores on the thread-safe queue", "statement": "A store with the thread-safe queue as event loop, to which any threads dispatch: when no tasks are left, its model is the fold over all dispatched actions in an order that keeps the order of the dispatches by the loop's thread (also from effects and watchers) and the order of the dispatches by all other threads together, so also that of each thread. An action of the loop's thread comes only after such actions of others that were dispatched before it. Watchers are only called with folds over the first ones in this order, and when step() returns, every action dispatched before it was called has been evaluated. If only the loop's thread, or only other threads, dispatch, the order is that of the dispatches. FALSE in general: that actions are evaluated in the order in which they were dispatched (those of the loop's thread overtake others), and that each is evaluated in the end: if effects keep dispatching, step() never gets to the actions of other threads.", "quantifier": "every reducer, any number of threads, every interleaving of their dispatches with the steps of the loop and its tasks", "why_tests_cant": "Depends on the interleaving of threads; a test sees few of them.", "anchors": ["lager/event_loop/safe_queue.hpp: safe_queue_event_loop::post", "lager/event_loop/safe_queue.hpp: safe_queue_event_loop::step", "lager/store.hpp: store_node::dispatch"]}
{"id": "C113", "title": "Stores on the manual event loop", "statement": "A store with the manual event loop and without futures, which the program also uses to post functions of its own: when the outermost dispatch() or post() returns, no task waits or runs; the model is the fold over all actions dispatched so far, in the order in which they were dispatched, including those dispatched in callbacks; watchers have been called with it; and every effect that the reducer returned has been called once (unless a watcher threw in its task). A dispatch() inside of a reducer, watcher, effect or posted function returns at once: nothing is evaluated or called, the action waits behind those that wait already. When user code throws, the exception leaves the outermost call, the waiting tasks stay, and the next dispatch begins with the first of them. The loop is never stuck. FALSE in general: that nothing waits whenever the program is outside of the store; it is so as long as no exception has left a call.", "quantifier": "every reducer, every nesting of dispatches and posts in callbacks, every place where user code throws", "why_tests_cant": "Quantifies over every nesting and every exception; tests try few of them.", "anchors": ["lager/event_loop/manual.hpp: manual_event_loop::post", "lager/store.hpp: store_node::dispatch"]}
{"id": "C114", "title": "One list of callbacks for each source", "statement": "Although a source keeps a list of reader objects and each of them a list of callbacks, a source behaves as if it had one list of callbacks. No callback is in it twice or in two of them. watch() and bind() insert a callback behind those of the same reader object, or at the end if that has none; unbind() and destruction take the callbacks of a reader object out; assigning to a reader object takes its callbacks out and puts them, in order, at the end of the list of the new source; nothing else changes the lists. A notification calls the first callback of the list; when a callback returns, it calls the one that comes next in the list as it is then, whatever was attached, detached or notified meanwhile, provided that the callback is still in it, and ends if there is none. So no notification calls a callback twice as long as nothing is assigned to its reader object meanwhile; a callback that assigns to a reader object that was called already makes the same notification call it again.", "quantifier": "every sequence of watch, bind, unbind, copy, move, assign, destroy and notify operations, also in callbacks and nested notifications", "why_tests_cant": "Quantifies over every history and every place in a notification where callbacks attach and detach.", "anchors": ["lager/watch.hpp: watchable_base", "lager/detail/signal.hpp: signal::operator()", "lager/detail/signal.hpp: forwarder"]}
{"id": "C115", "title": "Qt properties", "statement": "An object with LAGER_QT_READER or LAGER_QT_CURSOR properties can be constructed at any time, also without sources, which emits nothing. The READ function returns the value of the source that the property reads and the WRITE function passes the value to it; both throw if there is none. Every notification of that source emits the property's signal exactly once by the time it is over, whatever callbacks do meanwhile, unless they assign to or destroy the property. Whenever the signal is emitted, its argument is what the READ function returns at that time. Assigning a reader to a property emits nothing, even if the value changes; after it the property follows the new source.", "quantifier": "every history of readers, properties and notifications, also in callbacks; every place in the lists of callbacks", "why_tests_cant": "Quantifies over every history and everything that callbacks may do in a notification.", "anchors": ["lager/extra/qt.hpp: LAGER_QT_READER, LAGER_QT_CURSOR, LAGER_QT_SIGNAL_DETAIL", "lager/watch.hpp: watchable_base"]}
{"id": "C116", "title": "Asynchronous functions on the Boost.Asio loop", "statement": "With an executor that serialises tasks, tasks posted to with_boost_asio_event_loop begin in the order in which they were posted, each once, in threads that are in run(), and before a task begins the earlier ones have ended. A function given to async() is called once, in a thread of its own. run() does not return before all tasks that were posted, also those posted by asynchronous functions, have ended, and all asynchronous functions have returned, unless the context is stopped. As long as a thread is in run(), something can go on; if nothing is posted or started any more, then only a bounded number of steps is left. finish() does nothing unless the loop was given a function that stops the context; then no task begins any more until the context is restarted, and what is left, or posted later, is not handled.", "quantifier": "every number of threads in run(), every schedule of tasks, asynchronous functions and other threads, and every history of post, async and finish", "why_tests_cant": "Quantifies over thread schedules; a test runs only some of them.", "anchors": ["lager/event_loop/boost_asio.hpp: with_boost_asio_event_loop::async, post, finish"]}
{"id": "C117", "title": "Frames of the SDL loop", "statement": "In run(handler, tick, fps, min_sim_fps), tick gets the milliseconds since the step before (since run() began, for the first), but never more than 1000/min_sim_fps. These times never add up to more than has passed, and exactly to that if none reaches the limit. There are no more frames than asked for: n frames later, at least n times 1000/fps milliseconds have passed, up to one millisecond in all, however late single frames were. The loop never sleeps longer than one frame, rounded up, and after a frame that came late the frames that follow in time are one period apart, without drift. FALSE: with Emscripten, that tick gets the time since the frame before; it gets only the time spent handling events in this one.", "quantifier": "every sequence of frames, every time spent between them, and every amount by which sleeping takes too long", "why_tests_cant": "Quantifies over all timings; a test sees only those of its machine.", "anchors": ["lager/event_loop/sdl.hpp: constant_fps_step, sdl_event_loop::run, sdl_event_loop::step"]}
{"id": "C118", "title": "Asynchronous functions on the Qt loop", "statement": "Tasks posted to with_qt_event_loop begin in the order in which they were posted, each at most once; functions given to async() begin in order, each at most once, and no more run at once than the thread pool has threads. Destroying a loop object waits: when it is done, every function given to async() before, by anyone who uses the pool, has returned, and meanwhile the main thread runs no tasks. This takes a bounded number of steps if no function calls async() again or waits for a task. Since temporary loop objects wait as well, making a store does so too. FALSE: that it always ends: if a function in the pool waits for a task that has not run, then it never does. FALSE: that nothing is left afterwards: tasks that functions have posted are still queued and refer to the store.", "quantifier": "every history of post and async by the main thread, asynchronous functions and other threads, every size of the pool, and every schedule", "why_tests_cant": "Quantifies over thread schedules; a test runs only some of them.", "anchors": ["lager/event_loop/qt.hpp: with_qt_event_loop::~with_qt_event_loop, async, post"]}
{"id": "C119", "title": "A debugger for the debugger", "statement": "With with_debugger given twice, the second debugger shows a state that the first one has after the actions that are recorded up to its cursor, whatever is done to both, and nothing throws; so what holds for one debugger (C61 to C65) holds for what it shows. It takes back any action on the first debugger, with its whole state, and does it again without its effects. If nobody uses it, it is as if it were not there. With one debugger, the event loop is paused exactly if the debugger says so; with two, it is at least as long as the second one is paused. FALSE with two: the loop stays paused when pausing the first one is taken back, and goes on when the second one is resumed although the first one is paused.", "quantifier": "every reducer and every sequence of actions on both debuggers", "why_tests_cant": "Quantifies over all sequences of actions; a test tries only some.", "anchors": ["lager/debug/debugger.hpp: debugger::update, with_debugger", "doc/time-travel.rst"]}
{"id": "C120", "title": "Stores as actors", "statement": "Several stores, each on an event loop of its own that runs one task at a time, send each other actions from reducers, watchers and effects, and others send them actions, too. Each store is as if it were alone: for it the others are threads that dispatch. It evaluates the actions in the order in which they were sent to it, each once; when it has nothing left to do, get() is the fold over them. Dispatching never waits, also not in cycles. There are no data races on any store unless one calls get() of a store of another thread, which is one. What a store sends comes after something that was sent to it, and the first action of all comes from outside.", "quantifier": "any number of stores with any reducers and effects, all interleavings of their threads and of others", "why_tests_cant": "Quantifies over all interleavings of any number of threads; a test sees a few.", "anchors": ["lager/store.hpp: store::dispatch", "doc/modularity.rst: Actors", "lager/event_loop/boost_asio.hpp: with_boost_asio_event_loop"]}
{"id": "C121", "title": "match on variants", "statement": "If match(v...)(handlers...) compiles, it calls, for any alternatives that the variants have, exactly one handler: the best one for their types, with the values in the variants, and returns what it returns. The order of handlers makes no difference. A handler for exactly these types goes first, whatever others there are; one that takes auto goes before one that needs a conversion. If a combination of alternatives has no handler that can be called, the program does not compile. A variant without a value makes it throw. A reference that a handler returns is copied from. FALSE: an alternative that has no handler of its own is found by the compiler; if it can be converted to another one, that handler gets it, converted.", "quantifier": "all sets of types and conversions, all lists of handlers for any number of variants, all values", "why_tests_cant": "Quantifies over all types, handlers and values; a test has one set of handlers.", "anchors": ["lager/util.hpp: match, matcher, visitor"]}
{"id": "C122", "title": "Connections of the debug server", "statement": "The HTTP server of the debugger serves any number of connections with one thread: the requests of all connections are handled one at a time, in the order in which they were read, each seeing what the ones before did. Each connection is sent the responses to its own requests, in order, each once. An error or a slow client on one connection changes nothing about the others, nor about accepting new ones. No request ends the server: it runs until it is destroyed, and nothing happens after that. It never closes a connection on its own. The type of a file depends on what follows the last dot of its path, without regard to case. FALSE: clients can connect as long as the server runs; after one failed accept nobody can any more.", "quantifier": "all sequences of connections, requests, errors and the end of the server, all routes, all paths of files", "why_tests_cant": "Quantifies over all interleavings of connections and errors; a test has a client or two, and accept does not fail.", "anchors": ["lager/debug/http_server.hpp: detail::http::server, detail::http::listener, detail::http::session, http_debug_server"]}
{"id": "C123", "title": "The snake example", "statement": "Whatever the player does in the snake example, for any random numbers, the snake has at least three cells on the board, each next to the one before it; the apple is on the board; a tick ends the game if the head would leave the board or run into the snake, else the head goes one step and the snake grows if its last cell was on the apple; a turn never reverses the direction; a game that is over stays over until reset, which begins a new one. FALSE: the player cannot turn the snake back into itself: two turns between ticks do that. FALSE: nothing moves after the game is over; it does, only the timer of the user interface stops. FALSE: the cells of the snake are always different; they are unless the head moves to the tail just when the snake grows. FALSE: each apple is at a new random place: the second is always where the first was.", "quantifier": "all seeds and generators of random numbers, all sequences of actions", "why_tests_cant": "Quantifies over all games; a test plays a few.", "anchors": ["example/snake/model.hpp: snake_model, game_model, app_model", "example/snake/model.cpp: update, make_initial"]}
{"id": "C124", "title": "The todo example", "statement": "In the todo example, what is added comes first and is not done; nothing is added for an empty text, and no item ever has an empty text; toggling and removing change one item only, and do nothing if it is not there. What is saved is the document as it was when the action was handled, whatever happened to it until the file was written, under the given name with the extension todo; what is loaded is what was in the file when it was read. Errors are reported, change no other file, and not the document. FALSE: what the user does while a file is loading is kept. FALSE: if saving fails the old file is still there.", "quantifier": "all lists of items, all sequences of actions, all schedules of actions, effects and changes of files, all errors", "why_tests_cant": "Quantifies over all sequences of actions and all points at which files are read and written.", "anchors": ["example/todo/model.cpp: update, save, load", "example/todo/app.cpp: update", "example/todo/item.cpp: update"]}
{"id": "C125", "title": "The autopong and counter examples", "statement": "In the autopong example the paddle never leaves the window, whatever the deltas are, infinite or not a number; the animations are never negative; the score is the number of hits since the ball was lost, and the maximum is the best score of all rounds that are over; after a hit the ball goes up, so that it is not hit again before it met the top. In the counter example the value is what it was reset to, plus increments, minus decrements, as long as that fits into an int.", "quantifier": "all sequences of actions with all numbers, all positions of walls and paddle, all random numbers", "why_tests_cant": "Quantifies over all floating-point deltas and all sequences of actions.", "anchors": ["example/autopong/autopong.cpp: update", "example/counter/counter.hpp: update"]}
{"id": "C126", "title": "Builds without exceptions", "statement": "Reading and writing through at and at_or does the same whether the library is built with or without exceptions, for every container that answers truthfully which keys it has, vectors with negative keys included: a missing key reads as nothing or as the default, writing it changes nothing, and no call throws or ends the program. Going to a cursor of the tree debugger that is there, and making a node whose transducer passes on its first input, do not depend on the build either. FALSE without exceptions: to_string and to_enum work for enumerators that are there (every call ends the program); a node with a filtering transducer can be made before a value has passed (it ends the program, also when there is a default value); going to a cursor that is not there does nothing (it ends the program); at finds the elements of containers whose count counts values.", "quantifier": "all builds (macros and compiler with or without exceptions), containers, keys, values, enumerations, transducers, histories and cursors", "why_tests_cant": "A test suite is compiled in one configuration; the claim compares all of them, for all inputs.", "anchors": ["lager/config.hpp: LAGER_TRY, LAGER_CATCH, LAGER_THROW", "lager/lenses/at.hpp: maybe_has_key, at", "lager/lenses/at_or.hpp: at_or", "lager/extra/enum.hpp: to_string, to_enum", "lager/detail/xform_nodes.hpp: initial_value", "lager/debug/tree_debugger.hpp: check"]}
{"id": "C127", "title": "Collisions in the autopong example", "statement": "With exact arithmetic, the distance of two segments that the game computes is the distance of two of their points, whatever epsilon is used; and it is the least such distance when the second segment is not just a point and epsilon is small enough for the given points. So the score is counted only if the ball, on its way in a tick, comes closer to the paddle than its radius, and a ball that goes down and does so is noticed however far it goes in one tick. Otherwise the ball goes straight on, as fast as before; it does not go on into a wall that it touches, and keeps its direction where it does not touch any. FALSE when the second segment is a point; FALSE with the epsilon of the code, 1e-8, for small segments, and for very short ticks: a ball can pass through the middle of the paddle without being noticed.", "quantifier": "all points, velocities, lengths of ticks and positions of the paddle, over every ordered field", "why_tests_cant": "Quantifies over all pairs of segments, in all relative positions; a test has a few.", "anchors": ["example/autopong/autopong.cpp: segment_squared_distance, update"]}
{"id": "C128", "title": "The modules of the documentation", "statement": "The reducer of an application made of two parts does to each part what the part's own reducer does with the actions meant for it, however the actions are mixed, and returns the effects of the parts, one for each action. The documented undo module works like an editor with undo for all sequences of edits, undos, redos and jumps: it shows the present document and never accesses one out of range, undoing at the beginning and redoing at the end do nothing, an edit that changes the document can be undone and redone and discards what was undone before, and an edit that changes nothing is not recorded. FALSE of the documented variant with effects: after an undo and another edit, an undo does not bring back the document that was edited. That variant never accesses a document out of range either, and has the effects of the reducer.", "quantifier": "all reducers, initial documents and sequences of actions (as long as a history fits into memory)", "why_tests_cant": "Quantifies over all reducers and all sequences of actions; a test has one document and one short history.", "anchors": ["doc/modularity.rst: update, history_model, update_history, update_history_with_effects"]}
{"id": "C129", "title": "Intent delivered by effects", "statement": "A reducer that turns commands into actions, and delivers each by an effect that dispatches it, handles every action that was dispatched and the action of every command, each exactly once: those of the commands in the order of the commands, each at some time after its command, all visible to the store as dispatches of their own; commands that mean nothing, and those for which the reducer throws, change nothing. If actions and commands are only dispatched when the loop has nothing left to do, the model is the one that a reducer gives which handles the actions of commands at once. FALSE in general: with actions dispatched in between the model is another one, and actions that refer to positions can be undefined behaviour although they would not be if they were handled at once. In the documented to-do list, adding appends an open item, removing and toggling concern the item at the index and no other, and are undefined exactly if there is none; the number in a command is read as white space, a sign and the longest numeral, and the reducer throws if there is no numeral or the number does not fit an int.", "quantifier": "all reducers, all translations of commands, all sequences of actions and commands and all schedules in which effects do not run the loop themselves", "why_tests_cant": "Quantifies over all reducers, programs and schedules; tests dispatch one action after another.", "anchors": ["doc/effects.rst: update with todos_command", "doc/actions.rst: update, update_todos", "lager/store.hpp: store_node::dispatch"]}
{"id": "C130", "title": "Dynamic lenses into a recursive type", "statement": "A lens that is composed in a loop, with type erasure in each round, reaches the node with the given index at any depth. With value_or() it shows the node's member, or the default if there are not so many nodes; setting it makes the missing nodes, with defaults, and setting what it shows changes nothing exactly if the node is there. With map_opt, bind_opt and force_opt it shows nothing if the node is missing, and then setting is inert, as is setting nothing. Setting a node does not change what the lens of another index shows, values and wholes that are moved in lose nothing, and indices below zero mean the first node.", "quantifier": "all indices, all values of the recursive type, all values set, lvalues and rvalues", "why_tests_cant": "Quantifies over all depths; tests use one or two levels.", "anchors": ["doc/lenses.rst: tail_position_at (both)", "lager/lens.hpp: lens, lens_holder", "lager/lenses/optional.hpp: value_or, map_opt, bind_opt, force_opt", "lager/lenses/unbox.hpp: unbox"]}
{"id": "C131", "title": "Programs that read events one by one", "statement": "A program that reads events, turns each into an action or none, and dispatches it to a store with the manual event loop, whose reducer has no effects, gets through with every input: each dispatch returns after a bounded number of steps, and cannot go on in any other way. Whenever it reads the next event, store.get() is the left fold of the reducer over all actions so far, and the watcher has been called, in order, with the new model of each action that changed it, and no more often. A view that remembers the model it was called with last, beginning with the one when it was attached, gets the models before and after each change. The counter of the documentation prints its value for each + and -, and for each . unless it is zero. FALSE: the session that the documentation shows begins with the initial value, but nothing is printed before the first change; and without ==, as the model is shown there, . is also printed when the counter is zero.", "quantifier": "all reducers without effects, all models, all translations of events, all inputs", "why_tests_cant": "Quantifies over all inputs of any length and all reducers; the session in the documentation is one input, and differs from what the program prints.", "anchors": ["doc/architecture.rst: User interface, intent, draw, main", "example/counter/std/main.cpp: main, intent, draw", "example/counter/counter.hpp: update", "lager/event_loop/manual.hpp: with_manual_event_loop", "lager/store.hpp: dispatch", "lager/watch.hpp: watch"]}
{"id": "C132", "title": "Cursors at positions of a list", "statement": "With a list in an automatic state, and items whose members are cursors zoomed to a position of the list, with default values for positions that are not there: after any sequence of adding in front, removing at a position, loading another list, and writing members by items, the state has what these make of the list, one after the other, and every item shows the members of what is at its position then, or default values. A write changes that member at that position and nothing else, or nothing at all if there is no such position. Items can be made at any time, without any effect on others. FALSE: an item does not stay with what it has shown; after adding in front, each shows what the one of the position before has shown, and after removing at a position, each from there on shows what the next one has shown. FALSE: what was written by an item can be read from it; if its position is gone, the write is lost.", "quantifier": "all lists, all positions, all numbers of items, all histories of these commands", "why_tests_cant": "Quantifies over all histories and all positions, including those that are no longer there; a test has some.", "anchors": ["example/todo/qml/main.cpp: Item, Model, Model::todo, Model::add, Model::remove, Model::load", "lager/lenses/at.hpp: at", "lager/lenses/optional.hpp: or_default", "lager/state.hpp: automatic_tag", "lager/cursor.hpp: operator[]"]}
{"id": "C133", "title": "Stores on the QML loop", "statement": "With a store whose event loop is a QML item: dispatches of the thread of the item are queued, and those of other threads are brought there by events. When no task is left and no dispatch is on its way, get() is the fold of the reducer over all dispatched actions, in an order in which those of the thread of the item, and those of all other threads, each are in the order in which they were dispatched. At any moment, the actions that have been evaluated are the first ones in such an order, and watchers are only called with folds over the first ones of these. A round of tasks that ends without exception has evaluated every action but those on their way. Whenever a task waits, the next frame or the timer begins a round; once a frame has begun one, the timer does so forever. FALSE: actions are evaluated in the order in which they were dispatched; one of the thread of the item can overtake ones that other threads have dispatched before. FALSE: every dispatched action is evaluated even if the item is never shown; before the first frame none is, and get() is the initial model.", "quantifier": "all reducers, all numbers of threads, all interleavings of dispatches, events, frames, timers and rounds of tasks, also with exceptions", "why_tests_cant": "Quantifies over all schedules of threads and of the window system; tests with a window see some frames on one machine.", "anchors": ["lager/event_loop/qml.hpp: with_qml_event_loop, event_loop_quick_item::post, event_loop_quick_item::updatePolish, event_loop_quick_item::updatePaintNode, event_loop_quick_item::event", "lager/event_loop/queue.hpp: queue_event_loop::step", "lager/store.hpp: store_node::dispatch"]}
{"id": "C134", "title": "Stores on the SDL loop", "statement": "With a store without futures whose event loop is the SDL loop, tasks wait in the queue of SDL, among all other events, and SDL has room for a certain number of events. If at most so many actions are dispatched and other events arrive, every dispatch is evaluated: when no task is left, get() is the fold of the reducer over all actions, and watchers have been called with it. If more come, but none while the reducer runs, an action for which there is no room is as if it had not been dispatched, and all else is as for the others. In any case the reducer is called with actions in the order in which they were dispatched, each at most once, watchers are only called with the fold over those it was called with by then, and what they miss comes with the next action that gets through. FALSE: every dispatched action is evaluated; those for which SDL has no room are lost without a sign. FALSE: when no task is left, get() shows all actions that were evaluated; if other events take the place of the task that follows an evaluation, it does not, and no watcher was called.", "quantifier": "all reducers, all capacities of SDL's queue, all interleavings of dispatches by any threads, other events, tasks and effects, also with exceptions", "why_tests_cant": "Quantifies over all bursts of events and all interleavings; a test does not fill SDL's queue in the moment in which the reducer runs.", "anchors": ["lager/event_loop/sdl.hpp: sdl_event_loop::post, sdl_event_loop::run, with_sdl_event_loop", "lager/store.hpp: store_node::dispatch"]}
{"id": "C135", "title": "Actions for positions of a list", "statement": "In the example todo for Qt Quick, an item of the window dispatches actions for its position. When no task waits, the window shows the app as it is, and a click toggles or removes exactly the item that is shown at the position, which is shown as soon as no task waits. In general a click acts on what becomes of the list that is shown after the actions evaluated since it was published and those that wait; if these only toggle, save, or ask for a file, it acts on an item with the text that is shown. There are no items at negative positions; one behind the end shows an empty text, and its buttons change nothing while no task waits. FALSE: a click acts on the item that is shown. Two quick clicks that remove an item remove the one behind it, too; and if an item is added and the first one removed before that was handled, the new one is removed.", "quantifier": "all apps, files, histories of clicks, tasks and writes of other programs, all positions and items", "why_tests_cant": "Quantifies over all histories and over the moment of the click among the tasks; tests dispatch one action and wait.", "anchors": ["example/todo/qml-redux/main.cpp: Item, Model::item, Model::add, App", "example/todo/model.cpp: update", "lager/context.hpp: context", "lager/store.hpp: store_node::dispatch"]}
{"id": "C136", "title": "Programs that draw frames", "statement": "In a program that calls run(handler, tick) of the SDL loop and draws get() of a store without futures in tick, as with immediate mode user interfaces: if never more events and dispatches come between two frames than SDL has room for, each frame shows the fold of the reducer over all actions that were dispatched before it began, and none is lost. While it is drawn, get() stays as it is, whatever is dispatched. So the next frame shows what the reducer makes of the one before with the actions dispatched since: in the example todo a click toggles or removes the item that is drawn. FALSE for two clicks in one frame: the second one acts on what the first one leaves. FALSE in browsers: there frames show the fold over the first ones of these actions only; a frame may be drawn before the click in the one before is handled, and if its button is clicked again, the next item is removed, too.", "quantifier": "all reducers, all sequences of frames, tasks, events and dispatches by tick, tasks or other threads, also with exceptions", "why_tests_cant": "Quantifies over all interleavings of frames with tasks and other threads; a test draws a few frames, and not in a browser.", "anchors": ["lager/event_loop/sdl.hpp: sdl_event_loop::run, sdl_event_loop::step, sdl_event_loop::post", "example/todo/imgui/main.cpp: draw, main", "doc/views.rst: Immediate mode UI"]}
{"id": "C137", "title": "Components that know their data by a key", "statement": "In the house of the documentation, with a store on any first in, first out event loop: a component for a room that is made between any two tasks shows, at any later time between tasks, whether the light in the room with its id is on in get(), whatever is dispatched by anybody and however many rooms are added. When a click of the component is handled, it switches the light of the room with this id as it is then, and changes no other room; unlike with positions (C135) it does not matter what was dispatched between the click and its handling. When everything is handled, the light is as it was when the room was last added, or at first, switched once for each click since; actions for other rooms do not matter. FALSE for rooms that are not in the house: a component for such a room shows that the light is off, and a click adds the room, with the light on.", "quantifier": "all houses, ids, sequences of dispatches by any threads, tasks and times at which components are made", "why_tests_cant": "Quantifies over all interleavings of clicks, tasks and constructions of components; a test clicks a few times and looks at few rooms.", "anchors": ["doc/cursors.rst: update_room, update, room_component, Using cursors", "lager/store.hpp: make_store", "lager/lenses/at.hpp: at", "lager/lenses/optional.hpp: or_default", "lager/context.hpp: context"]}
{"id": "C138", "title": "Stores and nested event loops", "statement": "Watchers and effects of a store with automatic_tag may run the event loop of the store themselves, as with modal dialogs of Qt, so that tasks are run within tasks, nested in any way. Still the reducer is called with the actions in the order in which they are dispatched, each time with what it has made of the ones before, and whenever no task waits, also in the middle of tasks, get() is the fold over all actions. Every watcher is called with the fold over the first ones of the actions, and never over fewer than in calls of watchers before; and when no task is in progress, each was last called with what get() returns. No effect is called twice, and when nothing is left to do, each has been called. FALSE: that all watchers see the same values, and each only once: those behind one that runs the loop do not see the value that it was called with, and are called with the new one twice. FALSE: that effects are called in the order of the actions: that of the action in whose notification the loop is run comes last.", "quantifier": "every reducer and effect, every number of watchers, every nesting of event loops in watchers and effects, every interleaving with dispatches and futures", "why_tests_cant": "Quantifies over all nestings of tasks and all places where other actions are dispatched; tests do not run event loops in watchers.", "anchors": ["lager/store.hpp: store_node::dispatch", "lager/detail/nodes.hpp: send_down, notify", "lager/event_loop/qt.hpp: with_qt_event_loop::post", "lager/event_loop/boost_asio.hpp: with_boost_asio_event_loop::post"]}
{"id": "C139", "title": "The counter in a terminal", "statement": "The counter of example/counter/ncurses, whatever is typed and however keys, changes of the size and tasks of the store come in between each other: the keys are handled in the order in which they are pressed, each once, and none after q or escape, which stop the program. When no tasks are left, the counter is the number of ups less that of downs since the space bar was pressed last, unless this was too large or too small for an int at some point; and the screen always shows what get() returns. As long as whole keys can be read, the program goes on reading: after a bounded number of steps it has nothing to do, and all keys pressed have been handled, if it was not stopped. If nothing else has been typed and no change of the size is due when it is stopped, then it ends after the tasks that are left, without an exception. FALSE if only a part of a character can be read at some time: no key is ever handled again. FALSE that q ends the program properly if something is typed behind it, or the size changes at the same time: std::bad_function_call leaves main. FALSE is what the screen says about the keys: up and down are the wrong way round.", "quantifier": "every sequence of keys, every grouping of them in what is read at once, every interleaving with changes of the size of the terminal and tasks of the store", "why_tests_cant": "Quantifies over all schedules of an event loop with three kinds of handlers; the example has no tests.", "anchors": ["example/counter/ncurses/main.cpp: main, draw", "example/counter/ncurses/terminal.cpp: terminal::start, terminal::stop, terminal::next_key_, terminal::next_resize_", "example/counter/ncurses/terminal.hpp", "example/counter/counter.hpp: update", "lager/event_loop/boost_asio.hpp: with_boost_asio_event_loop::post"]}
{"id": "C140", "title": "Events, actions and frames with SDL", "statement": "In a program like example/counter/sdl2 or example/autopong/sdl2, on the SDL loop, where a handler makes at most one action of an event, a function for frames may dispatch, and a watcher draws, with a reducer without effects and without other threads: however many events come, and however many wait, no action is lost, since handling an event never takes more room in SDL's queue than the event took. The handler is called with the events in the order in which they came, once with each, and what it and the function for frames make of them is dispatched in this order. When no task waits, the watcher has drawn the fold over all actions, and this is so whenever the function for frames is called; then all events have been handled, too. If no more events come, none waits after three times as many steps of the loop as were waiting. No event is refused, as long as not more come than SDL has room for besides those that wait. run returns after the first event for which the handler returns false. In the counter, when nothing waits, the window shows the number of ups less that of downs since the space bar was pressed last, unless this was too large or too small for an int at some point. In autopong, whenever the function for frames is called, the paddle is drawn where all motions of the mouse so far have put it, each of them stopped by the walls, no matter how they were spread over frames. FALSE for the last keys: those typed before the window is closed may not be evaluated, although the handler was called with them. FALSE for events that SDL has no room for. FALSE is that frames go on: if one event comes for each three steps of the loop, the function for frames is never called, and in autopong the ball stops while the mouse is moved so fast.", "quantifier": "every handler, reducer without effects and capacity of SDL's queue, every sequence of events, frames and steps of the loop", "why_tests_cant": "Quantifies over all sequences and timings of events, and over bursts of any size; the examples have no tests.", "anchors": ["example/counter/sdl2/main.cpp: main, intent", "example/autopong/sdl2/main.cpp: main, intent", "lager/event_loop/sdl.hpp: sdl_event_loop::run, sdl_event_loop::post", "example/counter/counter.hpp: update"]}
{"id": "C141", "title": "Snake in a Qt Quick window", "statement": "In example/snake/qml, where keys, a timer and a dialog dispatch actions to a store on the event loop of Qt: running a task of the store is never undefined behaviour. What the window shows (snake, apple, whether the game is over) is always the game as it was after a prefix of the evaluated actions, and when no task waits, as it is after all of them. If nothing else happens, the loop gets done after at most twice as many tasks as wait, and then the actions that waited have been evaluated in their order. A game is only ever reset when it is over: no second reset can be under way, and no game that was just begun is lost. The dialog is open only when the game is over and shown to be over. If the user always accepts it then, whenever no task waits, the dialog is open exactly if the game is over, and the timer runs exactly if it is not. Once the game is shown to be over and no task waits, nothing that is shown changes until the dialog is accepted, whatever keys are pressed. The interval of the timer is always between 10 and 100 milliseconds, 100 for up to seven cells, and 10 less for each five more, down to 10. FALSE if the dialog is closed in another way than by accepting it: then the window shows the end of the game for ever, and no key can begin a new one. FALSE for ticks that wait while the end of the game is not yet evaluated: the snake goes on behind the dialog.", "quantifier": "every source of random numbers and seed, every sequence of keys, timer events, answers to the dialog and tasks of the loop", "why_tests_cant": "Quantifies over all interleavings of input and tasks, and over the positions of all apples; the example has no tests.", "anchors": ["example/snake/qml/main.cpp: main", "example/snake/qml/main.qml", "example/snake/qml/qmodel.cpp: Game::setModel, SnakeBody::setModel", "example/snake/model.cpp: update", "lager/event_loop/qt.hpp: with_qt_event_loop::post", "lager/store.hpp: store_node::dispatch"]}
{"id": "C142", "title": "Files of the todo example", "statement": "save of the example todo writes {\"todos\": [{\"done\": ..., \"text\": ...}, ...]}, and load gives back the same list, whatever the items and their texts are, with the patched cereal that the repository uses and without the patch. load succeeds exactly if the file has an object with a list todos of objects in which done is a boolean and text a string, wherever these are in it, whatever other names there are, and the list is then that of these values; with the patch each of these names may be missing, and has its initial value then. Anything else, also a file that cannot be opened or is no JSON, is reported as an error, and the document stays. FALSE for files of other programs: with the patch any object without the name todos loads as an empty list: the document is replaced and no error is reported; without the patch it is an error. FALSE is that there is never an item without a text: it can come from a file.", "quantifier": "every list of items, every JSON document in which the names of an object are distinct, both kinds of archive", "why_tests_cant": "Quantifies over all documents and over all texts; the example has no tests.", "anchors": ["example/todo/model.cpp: save, load", "example/todo/model.hpp: LAGER_STRUCT", "example/todo/item.hpp: LAGER_STRUCT", "example/todo/app.cpp: update", "lager/extra/cereal/inline.hpp: save_inline, load_inline", "lager/extra/cereal/struct.hpp: serialize", "lager/extra/cereal/immer_flex_vector.hpp: save, load"]}
{"id": "C143", "title": "Widgets kept up to date by comparing models", "statement": "In a program with a tree of widgets beside a store as the documentation describes it, where listeners of widgets dispatch actions, and a watcher keeps a copy of the last model and updates the widgets of those parts that differ in the new one: the widgets that the user has not manipulated always show the parts of one and the same model, one that was there after a prefix of the evaluated actions, and when no task waits, the model as it is. A widget that the user has manipulated shows its part of that model, too, or what the user has put there last; the latter only if since then the watcher has not seen that part change. If nothing else is going on, then after a manipulation the widget shows the model exactly if the reducer has made of the part what the user has put there, or anything else than it was. If the watcher assigns all widgets without comparing, and each manipulation changes the model, then all widgets show the model whenever no task waits. Watching a reader of each part, instead of comparing by hand, does exactly the same to the widgets. FALSE if the reducer refuses what the user has done: since the model is the same the watcher is not called at all, and the widget shows a value that is not in the model, with or without comparing. FALSE with comparing also if the reducer accepts it, and another action takes it back before the watcher is called.", "quantifier": "every reducer without effects, every set of widgets, every sequence of actions, manipulations and tasks of the loop", "why_tests_cant": "Quantifies over all interleavings of manipulations, actions and notifications and all reducers.", "anchors": ["doc/views.rst: Widget tree UI", "lager/store.hpp: store_node::dispatch", "lager/detail/nodes.hpp: reader_node::push_down, send_down, notify", "example/snake/qml/qmodel.cpp: Game::setModel"]}
{"id": "C144", "title": "Who passes the turnstile", "statement": "In the turnstile of the documentation, with an effect of the reducer that lets somebody through who pushes the unlocked arms: at any time those have been let through who pushed directly after a coin, counted in the order of dispatch among the first so many actions, and when no task waits, among all of them; so never more than coins were inserted. When no task waits, the store is unlocked exactly if the last action was a coin. A program that instead looks at the value of the store when somebody pushes lets through the same number if each push is dispatched only when no task waits. FALSE without that: two may pass for one coin. FALSE: that a watcher is told that the arms are unlocked before somebody passes. FALSE: that each coin lets somebody through.", "quantifier": "every sequence of coins, pushes and tasks of the loop", "why_tests_cant": "Quantifies over all interleavings of dispatching and evaluating actions.", "anchors": ["doc/reducers.rst: turnstile", "lager/store.hpp: store_node::dispatch", "lager/reader.hpp: get", "lager/detail/nodes.hpp: reader_node::push_down, send_down, notify"]}
{"id": "C145", "title": "Referring to things by index or by identity", "statement": "A user of a program with a queue sees the value of the store, a list of things, and adds things, or removes or toggles one that they see. If the actions refer to things by identity values, then what the user sees is at any time what the first so many of their wishes ask for, and when no task waits, what all of them ask for: the things that were added and not removed, in the order of adding, each toggled if it was toggled an odd number of times; a wish is always about the thing that the user saw when they acted. If the actions refer to things by their index in the list, the same holds provided that the user removes and toggles only while nothing is visible that they have removed already, no matter what other tasks wait. FALSE for indices otherwise: removing a thing with two clicks removes its neighbour, too, and another thing is toggled than the one that was seen; if there is no neighbour, both are undefined behaviour.", "quantifier": "every sequence of additions, clicks and tasks of the loop", "why_tests_cant": "Quantifies over all interleavings of what the user does with tasks of the loop, and lists of any length.", "anchors": ["doc/model.rst: Identity", "doc/actions.rst: update_todos", "lager/store.hpp: store_node::dispatch", "lager/reader.hpp: get", "lager/detail/nodes.hpp: reader_node::push_down, send_down"]}
{"id": "C146", "title": "Members that the declaration of a struct leaves out", "statement": "Whatever is written to a state of a struct that was declared with LAGER_STRUCT, LAGER_STRUCT_TEMPLATE or LAGER_STRUCT_NESTED, and committed, the members that the declaration lists are shown as they were written last. If the declaration is a LAGER_STRUCT that compiles, with Boost.PFR available, and lists no member twice, then exactly the value that was written last is shown. In general it is the first of the values written last that agree in the listed members, and the watcher of an automatic state is told exactly the values that differ from the one written before in a listed member; functions that change only other members change nothing, however often they are applied. Writes to a transactional state show nothing and tell nobody until the next commit, which tells the watcher once if a value written since the last one differs from the one before it in a listed member, and otherwise not; an automatic one needs no commit. FALSE for members that are not listed: a write that changes only those is lost and nobody is told; such a declaration compiles with LAGER_STRUCT_TEMPLATE and LAGER_STRUCT_NESTED, with LAGER_STRUCT without Boost.PFR, and even with it if another member is listed twice.", "quantifier": "every number of members, every list of members in the declaration, automatic and transactional states, every sequence of set, update and commit", "why_tests_cant": "Quantifies over all declarations and all sequences of writes; a lost write shows only for values that differ in nothing else.", "anchors": ["lager/extra/struct.hpp: LAGER_STRUCT, LAGER_STRUCT_TEMPLATE, LAGER_STRUCT_NESTED", "lager/extra/derive/eq.hpp", "lager/extra/derive/size_check.hpp", "lager/detail/nodes.hpp: has_changed, reader_node::push_down, send_down, notify", "lager/state.hpp: send_up", "lager/writer.hpp: set, update"]}
