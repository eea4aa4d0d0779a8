import Verif.Store.Props17
import Verif.Example.PongProps

/-!
The counter in a terminal, `example/counter/ncurses`: a program on a Boost.Asio event loop with one thread that waits for keys,
for changes of the size of the terminal, and for the tasks of a store.
-/

namespace Verif.Terminal

open Verif.Store (Cfg St)

/-- The keys of `example/counter/ncurses/main.cpp:96-106`.  `other` is any other key. -/
inductive Key where
  | up
  | down
  | space
  | quit
  | esc
  | other (n : Nat)
deriving DecidableEq

/-- What the program does for a key: dispatches an action, calls `stop`, or nothing, `main.cpp:95-106`. -/
def Key.action : Key → Option Counter.Act
  | .up => some .increment
  | .down => some .decrement
  | .space => some (.reset 0)
  | _ => none

/-- `main.cpp:104-106`. -/
def Key.stops : Key → Bool
  | .quit => true
  | .esc => true
  | _ => false

/-- The store of `main.cpp:76-89`, without debuggers.  The model has no `==`, so it always counts as changed,
`detail/nodes.hpp:109-113`.  `none` is undefined behaviour: the value does not fit into an `int`. -/
def cfg : Cfg Counter.Act (Option Int) where
  reducer m a := (m.bind fun c => Counter.update c a, .empty)
  changed _ _ := true
  trans := false
  hasF := false
  init := some 0

/-- The program.  `handled` and `pressed` are only for the properties. -/
structure Term where
  /-- how many `async_read_some` wait for input, `terminal.cpp:83-86` -/
  waits : Nat
  /-- how many of their handlers are due, and will be called without an error -/
  due : Nat
  /-- one of them is in its loop, `terminal.cpp:90-93` -/
  reading : Bool
  /-- the keys that `wget_wch` is going to return -/
  keys : List Key
  /-- is there a `handler_`? -/
  on : Bool
  /-- `handler_` has been called when there was none: `std::bad_function_call` has left `run()` and `main` -/
  threw : Bool
  /-- an `async_wait` waits for signals, `terminal.cpp:67-69` -/
  sigWait : Bool
  /-- its handler is due -/
  sigDue : Bool
  /-- signals that came when nothing waited for them -/
  sigs : Nat
  st : St Counter.Act (Option Int)
  /-- the value that was drawn last -/
  screen : Option Int
  handled : List Key
  pressed : List Key

/-- `next_key_`, `terminal.cpp:83-86`. -/
def Term.nextKey (t : Term) : Term := { t with waits := t.waits + 1 }

/-- `next_resize_`, `terminal.cpp:67-69`: `async_wait` is complete at once if there are signals already. -/
def Term.nextResize (t : Term) : Term :=
  match t.sigs with
  | 0 => { t with sigWait := true }
  | n + 1 => { t with sigs := n, sigDue := true }

/-- `stop`, `terminal.cpp:60-65`: those that wait are called with an error, and do nothing then; those that are due already are
called without one. -/
def Term.stop (t : Term) : Term := { t with waits := 0, sigWait := false, on := false }

/-- The handler of `main.cpp:94-107`, with a key. -/
def Term.handle (t : Term) (k : Key) : Option Term :=
  let t := { t with handled := t.handled ++ [k] }
  if k.stops then some t.stop
  else match k.action with
    | some a => (Store.step cfg t.st (.dispatch a)).map fun s => { t with st := s }
    | none => some t

/-- `std::bad_function_call` leaves everything. -/
def Term.throw (t : Term) : Term := { t with threw := true, reading := false }

/-- `main.cpp:61-107`, `start`, `terminal.cpp:52-58`: the model is drawn, and the program waits for keys and signals. -/
def Term.start : Term :=
  Term.nextResize (Term.nextKey ⟨0, 0, false, [], true, false, false, false, 0, Store.start cfg, some 0, [], []⟩)

/-- What happens. -/
inductive TOp where
  /-- the user presses a key -/
  | press (k : Key)
  /-- there are keys to read: everything that waits for input is due -/
  | ready
  /-- there is input, but no whole key: a part of a character of several bytes, or the end of the input -/
  | fragment
  /-- a handler of `next_key_` is called, `terminal.cpp:86-89` -/
  | input
  /-- `wget_wch` in its loop, `terminal.cpp:90-93` -/
  | get
  /-- the terminal changes its size: the signal `SIGWINCH` -/
  | winch
  /-- the handler of `next_resize_` is called, `terminal.cpp:69-79` -/
  | resized
  /-- a task of the store is run; its watcher draws, `main.cpp:91` -/
  | task
deriving DecidableEq

/-- Does the terminal give whole keys? -/
def TOp.whole : TOp → Bool
  | .fragment => false
  | _ => true

/-- The steps.  Handlers and tasks are called one after the other by the one thread; they may be due in any order.  That the
size of the terminal cannot be found out, `terminal.cpp:73-74`, is not modelled. -/
def Term.act (t : Term) : TOp → Option Term
  | .press k => some { t with keys := t.keys ++ [k], pressed := t.pressed ++ [k] }
  | .ready =>
    if t.keys.isEmpty || t.waits == 0 then none else some { t with waits := 0, due := t.due + t.waits }
  | .fragment => if t.waits == 0 then none else some { t with waits := 0, due := t.due + t.waits }
  | .input => if t.reading || t.due == 0 then none else some { t with due := t.due - 1, reading := true }
  | .get =>
    if t.reading then
      match t.keys with
      | [] => some { t with reading := false }
      | k :: ks =>
        let t1 := Term.nextKey { t with keys := ks }
        if t.on then t1.handle k else some t1.throw
    else none
  | .winch =>
    if t.sigWait then some { t with sigWait := false, sigDue := true } else some { t with sigs := t.sigs + 1 }
  | .resized =>
    if t.reading || !t.sigDue then none else
    let t1 := Term.nextResize { t with sigDue := false }
    if t.on then some { t1 with screen := t1.st.get } else some t1.throw
  | .task =>
    if t.reading then none else
    (Store.step cfg t.st .loop).map fun s =>
      { t with st := s, screen := Store.lastShown t.screen (s.log.drop t.st.log.length) }

/-- Nothing happens any more after an exception. -/
def Term.step (t : Term) (o : TOp) : Option Term := if t.threw then none else t.act o

/-- Several steps, one after the other. -/
def Term.exec (t : Term) : List TOp → Option Term
  | [] => some t
  | o :: os => (t.step o).bind fun t' => Term.exec t' os

end Verif.Terminal
