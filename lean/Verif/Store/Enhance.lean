import Verif.Store.Props6
import Verif.Store.TreeDebug

/-!
Enhancers of stores: `make_store`, `with_tags`, `with_futures`, `with_deps`, `with_reducer`, `store.hpp:213-385`,
`with_thunk`, `extra/thunk.hpp`, and `with_debugger`, `debug/debugger.hpp:186-223`, with the debugger or the tree
debugger.

An enhancer is a function from functions that make stores to functions that make stores.
-/

namespace Verif.Store

/-! ### Model -/

/-- `tags.hpp`; others are ignored. -/
inductive Tag where
  | transactional
  | automatic
  | futures
  | other (n : Nat)
deriving DecidableEq

/-- A reducer, which may throw, and which functions that it returns as effects are null. -/
structure Red (A M : Type) where
  run : M → A → M × Eff
  throws : M → A → Bool := fun _ _ => false
  null : Nat → Bool := fun _ => false

/-- What functions that make stores get: `action` (a type), `model`, `reducer`, `deps` and `tags`.  `changed` is
`has_changed` for the type of models.  Simplified: the event loop, which enhancers pass on, is left out.  A bag of
dependencies says what there is for each key; how bags are merged is C59. -/
structure Args (D A M : Type) where
  init : M
  changed : M → M → Bool
  red : Red A M
  deps : Nat → Option D
  tags : List Tag

/-- `deps::merge`: the second one wins (C59). -/
def mergeDeps {D : Type} (a b : Nat → Option D) : Nat → Option D := fun k => (b k).or (a k)

/-- What the reducer of the store is after an enhancer, as a store. -/
def Args.cfg {D A M : Type} (x : Args D A M) : Cfg A M where
  reducer := x.red.run
  throws := x.red.throws
  changed := x.changed
  -- `store.hpp:134-137`
  trans := decide (Tag.transactional ∈ x.tags)
  hasF := decide (Tag.futures ∈ x.tags)
  init := x.init
  null := x.red.null

/-- The reducer as enhancers wrap it; they know nothing of the tags. -/
def Args.bare {D A M : Type} (x : Args D A M) : Cfg A M := { x.cfg with trans := false, hasF := false }

/-- The enhancers that there are, from stores with actions `A` and models `M` to those with other ones.  Other
uses do not compile. -/
inductive Enh (D : Type) : Type → Type → Type → Type → Type 1 where
  | reducer {A M : Type} (r : Red A M) : Enh D A M A M
  | tags {A M : Type} (ts : List Tag) : Enh D A M A M
  | deps {A M : Type} (d : Nat → Option D) : Enh D A M A M
  | thunk {A M : Type} : Enh D A M (Eff ⊕ A) M
  /-- the handle of the server is dependency number `k` and has value `h`; user code number `pid` and `rid` is
  `loop().pause()` and `loop().resume()`; actions and models must have `==` -/
  | debugger {A M : Type} (ea : DecidableEq A) (em : DecidableEq M) (k : Nat) (h : D) (pid rid : Nat) :
    Enh D A M (DAction A) (DModel A M)
  /-- `with_debugger<tree_debugger>`, likewise -/
  | tree {A M : Type} (ea : DecidableEq A) (em : DecidableEq M) (k : Nat) (h : D) (pid rid : Nat) :
    Enh D A M (TAction A) (TModel A M)

/-- The arguments that an enhancer passes on: `store.hpp:215-229`, `:243-262`, `:275-294`, `thunk.hpp:33-83`,
`debugger.hpp:191-214`.  The models of the debuggers have a derived `==`, `debugger.hpp:87`, `tree_debugger.hpp:110`,
which `has_changed` uses, `detail/nodes.hpp:103-107`. -/
def Enh.args {D A M B N : Type} : Enh D A M B N → Args D A M → Args D B N
  | .reducer r, x => { x with red := r }
  | .tags ts, x => { x with tags := x.tags ++ ts }
  | .deps d, x => { x with deps := mergeDeps x.deps d }
  | .thunk, x => { x with red := ⟨(withThunk x.bare).reducer, (withThunk x.bare).throws, (withThunk x.bare).null⟩ }
  | .debugger _ _ k h pid rid, x =>
    { init := Debugger.Model.start x.init
      changed := fun v w => decide (v ≠ w)
      red := ⟨(withDebugger pid rid (fun v w => decide (v ≠ w)) x.bare).reducer,
        (withDebugger pid rid (fun v w => decide (v ≠ w)) x.bare).throws, x.red.null⟩
      deps := mergeDeps x.deps fun i => if i = k then some h else none
      tags := x.tags }
  | .tree _ _ k h pid rid, x =>
    { init := Tree.Model.start x.init
      changed := fun v w => decide (v ≠ w)
      red := ⟨(withTree pid rid (fun v w => decide (v ≠ w)) x.bare).reducer,
        (withTree pid rid (fun v w => decide (v ≠ w)) x.bare).throws, x.red.null⟩
      deps := mergeDeps x.deps fun i => if i = k then some h else none
      tags := x.tags }

/-- A store with its dependencies, and the handles of servers in the order in which `init` is called on them. -/
structure Made (D B N : Type) where
  cfg : Cfg B N
  deps : Nat → Option D
  inits : List D

/-- The enhancer.  All call `next` with other arguments.  The one of the debugger calls `init` on its handle then,
`debugger.hpp:215-218`. -/
def Enh.apply {D A M B N C O : Type} (e : Enh D A M B N) (next : Args D B N → Made D C O) (x : Args D A M) :
    Made D C O :=
  let s := next (e.args x)
  match e with
  | .debugger _ _ _ h _ _ => { s with inits := s.inits ++ [h] }
  | .tree _ _ _ h _ _ => { s with inits := s.inits ++ [h] }
  | _ => s

/-- The enhancers given to `make_store`, in order. -/
inductive Stack (D : Type) : Type → Type → Type → Type → Type 1 where
  | nil {A M : Type} : Stack D A M A M
  | cons {A M B N C O : Type} (e : Enh D A M B N) (s : Stack D B N C O) : Stack D A M C O

/-- `zug::comp`: `comp(f, g)(x) = f(g(x))`. -/
def Stack.comp {D A M B N C O : Type} : Stack D A M B N → (Args D B N → Made D C O) → Args D A M → Made D C O
  | .nil, next => next
  | .cons e s, next => e.apply (s.comp next)

/-- The function that makes the store in the end, `store.hpp:355-367`. -/
def create {D B N : Type} (x : Args D B N) : Made D B N := ⟨x.cfg, x.deps, []⟩

/-- `make_store<Action, Tag>(init, loop, enhancers...)`, `store.hpp:352-375`; `upd` is `default_reducer`, that is
`update`, `:297-309`, which may not exist if it is not used. -/
def makeStore {D A M B N : Type} (tag : Tag) (init : M) (changed : M → M → Bool) (upd : Red A M)
    (s : Stack D A M B N) : Made D B N :=
  s.comp create ⟨init, changed, upd, fun _ => none, [tag]⟩

/-! ### Vocabulary -/

variable {D A M B N C O : Type}

/-- Enhancers after others. -/
def Stack.append {D A M B N C O : Type} : Stack D A M B N → Stack D B N C O → Stack D A M C O
  | .nil, t => t
  | .cons e s, t => .cons e (s.append t)

/-- A single enhancer. -/
def Stack.one {D A M B N : Type} (e : Enh D A M B N) : Stack D A M B N := .cons e .nil

/-- What an enhancer adds to the tags. -/
def Enh.tagsOf {D A M B N : Type} : Enh D A M B N → List Tag
  | .tags ts => ts
  | _ => []

/-- All tags in the stack. -/
def Stack.allTags {D A M B N : Type} : Stack D A M B N → List Tag
  | .nil => []
  | .cons e s => e.tagsOf ++ s.allTags

/-- What an enhancer says about dependency `k`. -/
def Enh.depOf {D A M B N : Type} (k : Nat) : Enh D A M B N → Option D
  | .deps d => d k
  | .debugger _ _ i h _ _ => if k = i then some h else none
  | .tree _ _ i h _ _ => if k = i then some h else none
  | _ => none

/-- What the enhancers say about dependency `k`, in order. -/
def Stack.depsOf {D A M B N : Type} (k : Nat) : Stack D A M B N → List D
  | .nil => []
  | .cons e s => (e.depOf k).toList ++ s.depsOf k

/-- The handle of a debugger. -/
def Enh.handle {D A M B N : Type} : Enh D A M B N → List D
  | .debugger _ _ _ h _ _ => [h]
  | .tree _ _ _ h _ _ => [h]
  | _ => []

/-- The handles of the debuggers, in order. -/
def Stack.handles {D A M B N : Type} : Stack D A M B N → List D
  | .nil => []
  | .cons e s => e.handle ++ s.handles

/-- Is it `with_reducer`? -/
def Enh.isReducer {D A M B N : Type} : Enh D A M B N → Bool
  | .reducer _ => true
  | _ => false

/-- `with_thunk` and `with_debugger`. -/
def Enh.isWrapper {D A M B N : Type} : Enh D A M B N → Bool
  | .thunk => true
  | .debugger _ _ _ _ _ _ => true
  | .tree _ _ _ _ _ _ => true
  | _ => false

/-- Do actions and models have `==` after an enhancer, and does it compile, if `a` and `m` say whether they had it
before?  `with_thunk` makes effects actions, and `std::function` has no `==`.  Debuggers compare their models, and
thereby the actions and models in them; their own actions and models have `==` then. -/
def Enh.compiles {D A M B N : Type} : Enh D A M B N → Bool × Bool → Option (Bool × Bool)
  | .thunk, (_, m) => some (false, m)
  | .debugger _ _ _ _ _ _, (a, m) => if a && m then some (true, true) else none
  | .tree _ _ _ _ _ _, (a, m) => if a && m then some (true, true) else none
  | .reducer _, am => some am
  | .tags _, am => some am
  | .deps _, am => some am

/-- Does `make_store` compile with these enhancers, as far as `==` is concerned? -/
def Stack.compiles {D A M B N : Type} : Stack D A M B N → Bool × Bool → Bool
  | .nil, _ => true
  | .cons e s, am => (e.compiles am).any s.compiles

/-- Is it `with_thunk`? -/
def Enh.isThunk {D A M B N : Type} : Enh D A M B N → Bool
  | .thunk => true
  | _ => false

/-- Is it `with_debugger`? -/
def Enh.isDebugger {D A M B N : Type} : Enh D A M B N → Bool
  | .debugger _ _ _ _ _ _ => true
  | .tree _ _ _ _ _ _ => true
  | _ => false

/-- Is there `with_thunk`? -/
def Stack.hasThunk {D A M B N : Type} : Stack D A M B N → Bool
  | .nil => false
  | .cons e s => e.isThunk || s.hasThunk

/-- Is there `with_debugger`? -/
def Stack.hasDebugger {D A M B N : Type} : Stack D A M B N → Bool
  | .nil => false
  | .cons e s => e.isDebugger || s.hasDebugger

/-- Without `with_reducer`. -/
def Stack.keeps {D A M B N : Type} : Stack D A M B N → Bool
  | .nil => true
  | .cons e s => !e.isReducer && s.keeps

/-- Without `with_thunk` and `with_debugger`. -/
def Stack.flat {D A M B N : Type} : Stack D A M B N → Bool
  | .nil => true
  | .cons e s => !e.isWrapper && s.flat

/-- The conversion of an action that an enhancer adds. -/
def Enh.wrap {D A M B N : Type} : Enh D A M B N → A → B
  | .reducer _, a => a
  | .tags _, a => a
  | .deps _, a => a
  | .thunk, a => .inr a
  | .debugger _ _ _ _ _ _, a => .act a
  | .tree _ _ _ _ _ _, a => .act a

/-- An ordinary action as one of the store with the enhancers: the conversions that contexts do. -/
def Stack.wrap {D A M B N : Type} : Stack D A M B N → A → B
  | .nil, a => a
  | .cons e s, a => s.wrap (e.wrap a)

/-- The conversion of a model that an enhancer adds. -/
def Enh.view {D A M B N : Type} : Enh D A M B N → N → M
  | .reducer _, n => n
  | .tags _, n => n
  | .deps _, n => n
  | .thunk, n => n
  | .debugger _ _ _ _ _ _, n => Store.view n
  | .tree _ _ _ _ _ _, n => Store.tview n

/-- The user's model in that of the store with the enhancers: the conversions of the models of debuggers. -/
def Stack.view {D A M B N : Type} : Stack D A M B N → N → M
  | .nil, n => n
  | .cons e s, n => e.view (s.view n)

end Verif.Store
