/-
Specification vocabulary for event loops: what an observer can log, and when a log is good.

Tasks are numbered in the order in which they are posted, so "the `n`-th task" is the one whose
post was the `n`-th post.
-/

namespace Verif.Loop

/-- Observable events of an event loop. -/
inductive Ev where
  /-- thread `t` posted task `n` -/
  | post (t n : Nat)
  /-- the owner called `step()` (for the manual loop: an outermost `post` begins to run tasks) -/
  | enter
  /-- task `n` begins -/
  | start (n : Nat)
  /-- task `n` returned -/
  | done (n : Nat)
  /-- task `n` threw -/
  | threw (n : Nat)
  /-- `step()` (manual loop: the outermost `post`) returned normally -/
  | ret
  /-- `step()` (manual loop: the outermost `post`) threw -/
  | exc
  deriving DecidableEq

/-- The tasks posted, in order. -/
def posted : List Ev → List Nat
  | [] => []
  | .post _ n :: l => n :: posted l
  | _ :: l => posted l

/-- The tasks posted by thread `t`, in order. -/
def postedBy (t : Nat) : List Ev → List Nat
  | [] => []
  | .post u n :: l => if u = t then n :: postedBy t l else postedBy t l
  | _ :: l => postedBy t l

/-- The tasks started, in order. -/
def started : List Ev → List Nat
  | [] => []
  | .start n :: l => n :: started l
  | _ :: l => started l

/-- Reading a log for nesting: `some none` is "outside", `some (some none)` is "in the loop, no task
running", `some (some (some n))` is "task `n` running"; `none` is a violation. -/
def nestStep : Option (Option (Option Nat)) → Ev → Option (Option (Option Nat))
  | s, .post _ _ => s
  | some none, .enter => some (some none)
  | some (some none), .start n => some (some (some n))
  | some (some (some m)), .done n => if m = n then some (some none) else none
  | some (some (some m)), .threw n => if m = n then some (some none) else none
  | some (some none), .ret => some none
  | some (some none), .exc => some none
  | _, _ => none

/-- Where a log leaves us. -/
def nesting (l : List Ev) : Option (Option (Option Nat)) := l.foldl nestStep (some none)

/-- Tasks run only inside the loop, one at a time and never inside each other. -/
def Sequential (l : List Ev) : Prop := nesting l ≠ none

theorem posted_append (a b : List Ev) : posted (a ++ b) = posted a ++ posted b := by
  induction a with
  | nil => rfl
  | cons e a ih => cases e <;> simp [posted, ih]

theorem postedBy_append (t : Nat) (a b : List Ev) :
    postedBy t (a ++ b) = postedBy t a ++ postedBy t b := by
  induction a with
  | nil => rfl
  | cons e a ih =>
    cases e <;> simp only [List.cons_append, postedBy, ih]
    split <;> simp

theorem started_append (a b : List Ev) : started (a ++ b) = started a ++ started b := by
  induction a with
  | nil => rfl
  | cons e a ih => cases e <;> simp [started, ih]

theorem nesting_snoc (a : List Ev) (e : Ev) : nesting (a ++ [e]) = nestStep (nesting a) e := by
  simp [nesting, List.foldl_append]

theorem nesting_append (a b : List Ev) : nesting (a ++ b) = b.foldl nestStep (nesting a) := by
  simp [nesting, List.foldl_append]

end Verif.Loop
