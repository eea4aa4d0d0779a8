import Verif.Lens.Model
import Verif.Extra.Enum
import Verif.Tree.Model

/-
Model of builds with and without exceptions, `lager/config.hpp:22-50`, and of the functions of the library that catch
exceptions.

What is not modelled here: exceptions of the user's types and functions, which these functions do not catch; the
destruction of objects when an exception leaves a function.
-/

namespace Verif.Config

/-- A build.  `macros` says which macros there are, `compiler` whether there is `throw` in the language. -/
structure Build where
  macros : Bool
  compiler : Bool
  deriving DecidableEq

/-- `lager/config.hpp:22-32`: what defines `LAGER_NO_EXCEPTIONS`.  `LAGER_USE_EXCEPTIONS` or `LAGER_NO_EXCEPTIONS` may be
defined by the user, `use` and `no`. -/
def Build.configure (use no compiler : Bool) : Build :=
  ⟨!(no || (!use && !no && !compiler)), compiler⟩

/-- A build that compiles: with `try` and `catch` only if the language has them. -/
def Build.ok (b : Build) : Bool := !b.macros || b.compiler

/-- What a call does: it returns, throws, or ends the program. -/
inductive Out (E T : Type) where
  | ret (v : T)
  | threw (e : E)
  | dead
  deriving DecidableEq

variable {E T U : Type}

/-- One statement after another. -/
def Out.bind (o : Out E T) (f : T → Out E U) : Out E U :=
  match o with
  | .ret v => f v
  | .threw e => .threw e
  | .dead => .dead

/-- `LAGER_THROW`, `lager/config.hpp:37-41, 46`. -/
def raise (b : Build) (e : E) : Out E T :=
  if b.macros then .threw e else .dead

/-- How the standard library and immer report an error: by an exception, or by `abort` if there are none. -/
def stdRaise (b : Build) (e : E) : Out E T :=
  if b.compiler then .threw e else .dead

/-- `LAGER_TRY` and `LAGER_CATCH`, `lager/config.hpp:35-36, 44-45`: `if (true) … else …` without exceptions.  `catches` says
which exceptions have the type in the `catch`, and what is done about them. -/
def tryCatch (b : Build) (body : Out E T) (catches : E → Option (Out E T)) : Out E T :=
  if b.macros then
    match body with
    | .threw e => (catches e).getD (.threw e)
    | o => o
  else body

/-! ### `at` and `at_or` -/

/-- How `maybe_has_key` can ask a container: `count(key)`, or `size()` and a conversion of keys to `size_type`. -/
inductive Probe (C K : Type) where
  | count (f : C → K → Nat)
  | size (conv : K → Int) (size : C → Nat)

variable {C K X : Type}

/-- The exceptions that matter for `at`. -/
inductive AtEx where
  | outOfRange
  deriving DecidableEq

/-- `maybe_has_key`, `lager/lenses/at.hpp:34-54`. -/
def maybeHasKey (b : Build) (p : Probe C K) (whole : C) (k : K) : Bool :=
  if b.macros then true
  else match p with
    | .count f => decide (f whole k > 0)
    | .size conv size => decide (conv k ≥ 0) && decide (conv k < (size whole : Int))

/-- `whole.at(key)`. -/
def stdAt (b : Build) (ct : Lens.Cont C K X) (whole : C) (key : K) : Out AtEx X :=
  match ct.at? whole key with
  | some x => .ret x
  | none => stdRaise b .outOfRange

/-- The getter of `at`, `lager/lenses/at.hpp:129-134`. -/
def atGet (b : Build) (ct : Lens.Cont C K X) (p : Probe C K) (key : K) (whole : C) : Out AtEx (Option X) :=
  if !maybeHasKey b p whole key then .ret none
  else tryCatch b ((stdAt b ct whole key).bind fun x => .ret (some x)) fun .outOfRange => some (.ret none)

/-- `at_setter_impl`, `lager/lenses/at.hpp:56-94`.  Both variants call `at` first, and differ in the function that stores. -/
def atSet (b : Build) (ct : Lens.Cont C K X) (p : Probe C K) (key : K) (whole : C) (part : Option X) : Out AtEx C :=
  match part with
  | none => .ret whole
  | some v =>
    if maybeHasKey b p whole key then
      tryCatch b ((stdAt b ct whole key).bind fun _ => .ret (ct.store whole key v)) fun .outOfRange => some (.ret whole)
    else .ret whole

/-- `at_setter_impl` for containers with `insert(value)`, `lager/lenses/at.hpp:96-113`. -/
def atInsert (b : Build) (insert : C → X → C) (whole : C) (part : Option X) : Out AtEx C :=
  match part with
  | none => .ret whole
  | some v => tryCatch b (.ret (insert whole v)) fun .outOfRange => some (.ret whole)

/-- The getter of `at_or`, `lager/lenses/at_or.hpp:70-75, 92-97`. -/
def atOrGet (b : Build) (ct : Lens.Cont C K X) (p : Probe C K) (key : K) (dflt : X) (whole : C) : Out AtEx X :=
  if !maybeHasKey b p whole key then .ret dflt
  else tryCatch b (stdAt b ct whole key) fun .outOfRange => some (.ret dflt)

/-- `at_or_setter_impl`, `lager/lenses/at_or.hpp:23-57`. -/
def atOrSet (b : Build) (ct : Lens.Cont C K X) (p : Probe C K) (key : K) (whole : C) (part : X) : Out AtEx C :=
  if !maybeHasKey b p whole key then .ret whole
  else
    tryCatch b ((stdAt b ct whole key).bind fun _ => .ret (ct.store whole key part)) fun .outOfRange => some (.ret whole)

/-- `std::vector`, `std::array`, `immer::vector` and the like, with keys of a signed type: the key is converted to the
64 bits of `size_type` by `at` as well as by `maybe_has_key`. -/
def vecConv (k : Int) : Int := k % 2 ^ 64

/-- The containers with `at` and an index, `lager/lenses/at.hpp:56-94`. -/
def vecCont (X : Type) (style : Lens.Style) : Lens.Cont (List X) Int X where
  style := style
  at? l k := l[(vecConv k).toNat]?
  store l k x := l.set (vecConv k).toNat x

/-- `maybe_has_key` for containers with `size()`, `lager/lenses/at.hpp:34-54`. -/
def vecProbe (X : Type) : Probe (List X) Int := .size vecConv List.length

/-- Maps: `count` is one for the keys that are there. -/
def mapProbe (K X : Type) : Probe (K → Option X) K := .count fun m k => if (m k).isSome then 1 else 0

/-! ### Names of enumerators -/

open Extra (Ex Meta)

/-- `boost::hana::for_each` with a function that may throw. -/
def forEach (f : T × String → Out E Unit) : Meta T → Out E Unit
  | [] => .ret ()
  | x :: xs => (f x).bind fun _ => forEach f xs

/-- The body of `to_string` and `to_enum`, `lager/extra/enum.hpp:51-60, 66-75`. -/
def search (b : Build) (p : T × String → Bool) (g : T × String → U) (what : String) (l : Meta T) : Out (Ex U) U :=
  (tryCatch b
    ((forEach (fun x => if p x then raise b (.found (g x)) else .ret ()) l).bind fun _ => .ret none)
    (fun
      | .found v => some (.ret (some v))
      | .runtime _ => none)).bind
    fun
      | some v => .ret v
      | none => raise b (.runtime what)

/-- `to_string`, `lager/extra/enum.hpp:48-61`. -/
def toString [DecidableEq T] (b : Build) (l : Meta T) (v : T) : Out (Ex String) String :=
  search b (fun x => x.1 = v) (·.2) "unknown enum value" l

/-- `to_enum`, `lager/extra/enum.hpp:63-76`. -/
def toEnum (b : Build) (l : Meta T) (v : String) : Out (Ex T) T :=
  search b (fun x => x.2 = v) (·.1) "unknown enum name" l

/-! ### The first value of a node with a transducer -/

/-- `no_value_error`, `lager/detail/no_value.hpp:26-29`. -/
inductive NoValue where
  | error
  deriving DecidableEq

/-- `xform(zug::last)(no_value{}, …)`: what the transducer passes on for the first input; the last one is the result, and
`no_value` is converted to the type of values if there is none, `lager/detail/no_value.hpp:33-41`. -/
def lastValue (b : Build) (passed : List T) : Out NoValue T :=
  match passed.getLast? with
  | some v => .ret v
  | none => raise b .error

/-- `initial_value`, `lager/detail/xform_nodes.hpp:47-63`.  `dflt` is `ValueT{}` if there is such a value. -/
def initialValue (b : Build) (dflt : Option T) (passed : List T) : Out NoValue T :=
  tryCatch b (lastValue b passed) fun .error =>
    some (match dflt with
      | some v => .ret v
      | none => raise b .error)

/-! ### The cursors of the tree debugger -/

/-- "bad cursor", `lager/debug/tree_debugger.hpp:125, 128`. -/
inductive Bad where
  | cursor
  deriving DecidableEq

/-- `lookup`, `lager/debug/tree_debugger.hpp:119-140`. -/
def lookup {A M : Type} (b : Build) (m : Tree.Model A M) (c : Tree.Cursor) : Out Bad (Option A × M) :=
  match m.lookup c with
  | some r => .ret r
  | none => raise b .cursor

/-- `check`, `lager/debug/tree_debugger.hpp:192-200`. -/
def check {A M : Type} (b : Build) (m : Tree.Model A M) (c : Tree.Cursor) : Out Bad Bool :=
  tryCatch b ((lookup b m c).bind fun _ => .ret true) fun .cursor => some (.ret false)

/-- `update` for `goto_action`, `lager/debug/tree_debugger.hpp:255-259`. -/
def goto_ {A M : Type} (b : Build) (m : Tree.Model A M) (c : Tree.Cursor) : Out Bad (Tree.Model A M) :=
  (check b m c).bind fun r => .ret (if r then { m with cursor := c } else m)

end Verif.Config
