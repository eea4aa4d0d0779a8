import Verif.Store.Model
import Verif.Future.Spec

/-!
Vocabulary for the properties of stores.
-/

namespace Verif.Store

variable {A Mo : Type}

/-- The actions that have been dispatched, in order. -/
def dispatches : List (SEv A Mo) → List A
  | [] => []
  | .dispatched _ a :: l => a :: dispatches l
  | _ :: l => dispatches l

/-- The actions that the reducer has been called with, in order (also those for which it has thrown). -/
def reductions : List (SEv A Mo) → List A
  | [] => []
  | .reduced _ _ a _ _ :: l => a :: reductions l
  | .reduceThrew _ _ a :: l => a :: reductions l
  | _ :: l => reductions l

/-- The model after an action: it stays the same if the reducer throws. -/
def Cfg.next (c : Cfg A Mo) (m : Mo) (a : A) : Mo := if c.throws m a then m else (c.reducer m a).1

/-- The left fold of the reducer over actions. -/
def fold (c : Cfg A Mo) (as : List A) : Mo := as.foldl c.next c.init

/-- The value that the watchers have been called with last, or the initial one. -/
def lastShown (init : Mo) : List (SEv A Mo) → Mo
  | [] => init
  | .shown v :: l => lastShown v l
  | _ :: l => lastShown init l

/-- How often the watchers have been called. -/
def shows : List (SEv A Mo) → List Mo
  | [] => []
  | .shown v :: l => v :: shows l
  | _ :: l => shows l

/-- What `store.get()` returns. -/
def St.get (st : St A Mo) : Mo := st.last

/-- No task waits in the loop. -/
def St.idle (st : St A Mo) : Prop := st.queue = []

/-- `has_changed` may say that a value has changed although it has not (there is no `==`), but not that
it has not although it has. -/
def Cfg.sound (c : Cfg A Mo) : Prop := ∀ v w, c.changed v w = false → v = w

/-- The number of times that the effect of dispatch `d` has been called. -/
def effRuns (d : Nat) : List (SEv A Mo) → Nat
  | [] => 0
  | .effStart d' _ _ :: l => (if d' = d then 1 else 0) + effRuns d l
  | _ :: l => effRuns d l

/-- The effect that the reducer has returned for dispatch `d`. -/
def Returned (st : St A Mo) (d : Nat) (a : A) (e : Eff) : Prop :=
  ∃ m m', SEv.reduced d m a m' e ∈ st.log

/-- The reducer has thrown for dispatch `d`. -/
def ReducerThrew (st : St A Mo) (d : Nat) : Prop := ∃ m a, SEv.reduceThrew d m a ∈ st.log

/-- A watcher has thrown in the task that was going to call the effect of dispatch `d` or to complete its
promise. -/
def Lost (st : St A Mo) (d : Nat) : Prop := ∃ e, SEv.lost d e ∈ st.log

/-- The user code that an effect consists of, in the order in which it is to be called. -/
def Eff.acts : Eff → List Nat
  | .empty => []
  | .noop => []
  | .prim id => [id]
  | .seq a b => a.acts ++ b.acts

/-- The effects that users can make, or none. -/
inductive Built : Eff → Prop where
  | empty : Built .empty
  | noop : Built .noop
  | prim (id : Nat) : Built (.prim id)
  | sequence {a b : Eff} : Built a → Built b → a ≠ .empty → b ≠ .empty → Built (sequence a b)

/-- The reducer returns effects that users can make. -/
def Cfg.built (c : Cfg A Mo) : Prop := ∀ m a, Built (c.reducer m a).2

/-- The user code that call number `x` of an effect has called so far, in order. -/
def ran (x : Nat) : List (SEv A Mo) → List Nat
  | [] => []
  | .prim x' _ id :: l => if x' = x then id :: ran x l else ran x l
  | _ :: l => ran x l

/-- All user code that call `x` has called has returned, and the futures that it has returned are
fulfilled. -/
def Settled (st : St A Mo) (x : Nat) : Prop :=
  ∀ pos id, SEv.prim x pos id ∈ st.log →
    ∃ r, SEv.primRet x pos r ∈ st.log ∧ ∀ g, r = some g → Future.Fulfilled st.fu g

/-- User code that call `x` has called has thrown. -/
def Threw (st : St A Mo) (x : Nat) : Prop := ∃ pos, SEv.primThrew x pos ∈ st.log

/-- Nothing is left to do: no loop has tasks, no library code is under way and no effect is running. -/
def St.quiet (st : St A Mo) : Prop :=
  (∀ l, st.fu.queue l = []) ∧ st.fu.active = [] ∧ st.ev = []

/-- A sequence of operations. -/
def exec (c : Cfg A Mo) (st : St A Mo) : List (SOp A) → Option (St A Mo)
  | [] => some st
  | op :: ops => (step c st op).bind fun st' => exec c st' ops

/-- The future that dispatch number `d` has returned has promise state `s`. -/
def Promised (st : St A Mo) (d s : Nat) : Prop := ∃ i, st.sent[d]? = some (i, s)

end Verif.Store
