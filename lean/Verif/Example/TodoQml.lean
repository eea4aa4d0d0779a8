import Verif.Example.Todo
import Verif.Lens.Model
import Verif.Graph.PropsAuto

/-!
The example `todo/qml`: `example/todo/qml/main.cpp`, a list of items in an automatic state, and cursors at the positions of the
list.  (What is read from and written to files, `example/todo/qml/main.cpp:88-115`, is a value here: `load` has what was read.)
-/

namespace Verif.TodoQml

open Verif.Lens Verif.Graph Verif.Todo

/-- A default-constructed `item`, `example/todo/item.hpp:20-24`. -/
def blank : Item := ⟨false, ""⟩

/-- `[&todo::model::todos][index][lager::lenses::or_default]`, `example/todo/qml/main.cpp:66-67`.  (The model of the example
has the one member `todos`, so that it is that list here, as in `Verif.Example.Todo`.  Subscripts by a member pointer and by
an index are `attr` and `at`, `lager/detail/access.hpp` and `lager/with.hpp`; an `immer::flex_vector` has `set`.) -/
def atItem (i : Nat) : VL Doc Item :=
  comp (at' (seqCont Item .persistent) i) (valueOr blank)

/-- `data[&todo::item::done]`, `example/todo/qml/main.cpp:34`; `attr`, `lager/lenses/attr.hpp:17-29`. -/
def done : VL Item Bool := getset (·.done) fun p x => { p with done := x }

/-- `data[&todo::item::text]`, `example/todo/qml/main.cpp:35`.  (The conversion to and from `QString`, lines 35 to 37, is left
out.) -/
def text : VL Item String := getset (·.text) fun p x => { p with text := x }

/-- The values of the cursors of the program. -/
inductive Val where
  | doc (d : Doc)
  | item (x : Item)
  | bool (b : Bool)
  | str (s : String)
deriving DecidableEq

/-- The cursor that `todo(i)` gives to `Item`, `example/todo/qml/main.cpp:66-67`: what it shows. -/
def itemGt (i : Nat) : Val → Val
  | .doc d => .item (view (atItem i) d)
  | v => v

/-- The same: what it sets. -/
def itemSt (i : Nat) : Val → Val → Val
  | .doc d, .item x => .doc (set (atItem i) d x)
  | v, _ => v

/-- `Item::done`, `example/todo/qml/main.cpp:34`: what it shows. -/
def doneGt : Val → Val
  | .item x => .bool (view done x)
  | v => v

/-- The same: what it sets. -/
def doneSt : Val → Val → Val
  | .item x, .bool b => .item (set done x b)
  | v, _ => v

/-- `Item::text`, `example/todo/qml/main.cpp:35-37`: what it shows. -/
def textGt : Val → Val
  | .item x => .str (view text x)
  | v => v

/-- The same: what it sets. -/
def textSt : Val → Val → Val
  | .item x, .str s => .item (set text x s)
  | v, _ => v

/-- `todo(i)`, `example/todo/qml/main.cpp:63-68`, and the constructor of `Item`, `:33-38`: three cursors, of which `n` is the
first one. -/
def todoCalls {S : Type} (r n i : Nat) : List (Op Val S) :=
  [zoomBy true r (itemGt i) (itemSt i) (.doc []), zoomBy true n doneGt doneSt (.doc []), zoomBy true n textGt textSt (.doc [])]

/-- What the user interface does. -/
inductive Cmd where
  /-- `theModel.add(text)` -/
  | add (text : String)
  /-- `theModel.remove(index)` -/
  | remove (i : Nat)
  /-- `theModel.load(file)`, with what the file has; nothing if it cannot be read -/
  | load (d : Option Doc)
  /-- `todo.done = b`, by the item `k`, which is that of `theModel.todo(i)`; the user interface does
  `todo.done = !todo.done`, `example/todo/qml/main.qml:131`, `:140` -/
  | done (k i : Nat) (b : Bool)
  /-- `todo.text = s` -/
  | text (k i : Nat) (s : String)

/-- The function given to `update` by `add`, `example/todo/qml/main.cpp:73-76`. -/
def pushed (s : String) : Val → Val
  | .doc d => .doc (⟨false, s⟩ :: d)
  | x => x

/-- The function given to `update` by `remove`, `example/todo/qml/main.cpp:82-85`.  (`immer::flex_vector::erase` of a position
that is not there changes nothing.) -/
def erased (i : Nat) : Val → Val
  | .doc d => .doc (d.eraseIdx i)
  | x => x

/-- The calls that a command makes, on the state `r`: `add` (`example/todo/qml/main.cpp:70-78`), `remove` (80-86), `load`
(104-115), and the setters of the two properties (lines 40 and 41, `LAGER_QT_CURSOR`, `lager/extra/qt.hpp:74`). -/
def Cmd.calls {S : Type} (r : Nat) : Cmd → List (Op Val S)
  | .add s => if !s.isEmpty then [.update r (pushed s)] else []
  | .remove i => [.update r (erased i)]
  | .load none => []
  | .load (some d) => [.set r (.doc d)]
  | .done k _ b => [.set k (.bool b)]
  | .text k _ s => [.set k (.str s)]

end Verif.TodoQml
