import Verif.Future.Model

/-!
Vocabulary for the properties of promises and futures.
-/

namespace Verif.Future

/-- A sequence of operations, by any user code in any threads, by loops and by library code. -/
def exec (m : M) : List Op → Option M
  | [] => some m
  | op :: ops => (step m op).bind fun m' => exec m' ops

/-- `then` was called on a future with promise state `s`: `c` is the callback and `p` is the promise state
of the future that `then` has returned. -/
def Attached (m : M) (c s p : Nat) : Prop := ∃ fn, Ev.attach c s p fn ∈ m.log

/-- The promise has been fulfilled. -/
def Fulfilled (m : M) (s : Nat) : Prop := (m.cell s).done = true

/-- How often a loop has run the callback `c`. -/
def runs (m : M) (c : Nat) : Nat := m.log.count (.start c)

/-- The callback `c` waits in the queue of loop `l`. -/
def Waits (m : M) (l c : Nat) : Prop := ∃ t ∈ m.queue l, t.c = c

/-- The callback `c` has returned: nothing (`none`), an empty future (`some none`) or a future with a
promise state. -/
def Finished (m : M) (c : Nat) (r : Option (Option Nat)) : Prop := Ev.finish c r ∈ m.log

/-- `f.then(a). … .then(b)`: callback `b` is attached to the future that comes, through any number of
`then`s, from attaching callback `a`. -/
inductive Chain (m : M) : Nat → Nat → Prop where
  | next {a b s p q} : Attached m a s p → Attached m b p q → Chain m a b
  | more {a b c p q} : Chain m a b → (∃ s, Attached m b s p) → Attached m c p q → Chain m a c

/-- The number of times that loop `l` runs a task in a sequence of operations. -/
def loopRuns (l : Nat) : List Op → Nat
  | [] => 0
  | .run k :: ops => (if k = l then 1 else 0) + loopRuns l ops
  | _ :: ops => loopRuns l ops

/-- Something holds the promise with state `s`: a promise object, a closure that is attached to a future,
waits in a loop or runs and has a promise object as its function, or a closure that has the promise of the
future that `then` has returned. -/
def CanFulfil (m : M) (s : Nat) : Prop :=
  some s ∈ m.proms ∨
  (∃ g t, (m.cell g).cb = some t ∧ (t.fn = .prom s ∨ t.p = s)) ∨
  (∃ l t, t ∈ m.queue l ∧ (t.fn = .prom s ∨ t.p = s)) ∨
  ∃ f ∈ m.active, (∃ t, f = .satisfy s t) ∨
    ∃ t, t.p = s ∧ (f = .run t ∨ (∃ r, f = .ret t r) ∨ ∃ q, f = .satisfy q t)

end Verif.Future
