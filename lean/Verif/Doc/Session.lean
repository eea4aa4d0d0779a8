import Verif.Store.ManualQ
import Verif.Example.Pong

/-!
A program with a manual event loop that reads events one by one: the counter of `doc/architecture.rst`.
-/

namespace Verif.Doc

open Verif.Store

variable {A Mo E : Type}

/-- `main`, `example/counter/std/main.cpp:37-48`, `doc/architecture.rst:338-351`: the events that have been read and the state.
`std::cin >> event` reads the next event while the program is outside of `dispatch`; `go` and `ret` are the steps of `dispatch`. -/
inductive Main (intent : E → Option A) (c : Cfg A Mo) : List E → ManQ A Mo → Prop where
  | start : Main intent c [] (ManQ.start c)
  | skip {s m} (e : E) : Main intent c s m → m.l.ctl = .idle → intent e = none → Main intent c (s ++ [e]) m
  | event {s m m'} (e : E) (a : A) : Main intent c s m → m.l.ctl = .idle → intent e = some a →
      ManQ.step c m (.dispatch a) = some m' → Main intent c (s ++ [e]) m'
  | go {s m m'} : Main intent c s m → ManQ.step c m .go = some m' → Main intent c s m'
  | ret {s m m'} : Main intent c s m → ManQ.step c m .ret = some m' → Main intent c s m'

/-- The view that gets the previous model, too, `doc/architecture.rst:292-305`: what `draw` is called with when the watcher is
called with the models `l`.  `prev` is what the lambda has captured. -/
def draws (prev : Mo) : List Mo → List (Mo × Mo)
  | [] => []
  | curr :: l => (prev, curr) :: draws curr l

/-- `intent`, `example/counter/std/main.cpp:23-35`, `doc/architecture.rst:241-255`. -/
def key : Char → Option Counter.Act
  | '+' => some .increment
  | '-' => some .decrement
  | '.' => some (.reset 0)
  | _ => none

/-- The store of the counter, `example/counter/std/main.cpp:39-40`.  `none` is a counter that has overflown.  In the example the
model has `==`, from `LAGER_STRUCT`, `example/counter/counter.hpp:49`, and in the documentation it has not. -/
def counterStore (eq : Bool) : Cfg Counter.Act (Option Int) where
  reducer m a := (m.bind fun v => Counter.update v a, .empty)
  changed v w := !eq || decide (v ≠ w)
  trans := false
  hasF := false
  init := some 0

end Verif.Doc
