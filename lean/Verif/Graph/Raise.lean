import Verif.Graph.Rest

/-
Exceptions that leave callbacks (of `watch`) and setter functions (of `setter` cursors).

Nothing in the node graph catches them, so they unwind the library call that called the callback, up
to the user code that made this call.  Destructors run on the way: the guard of `notify` restores
`notifying_` (`lager/detail/nodes.hpp:115-129, 235`); the list walks in `lager/detail/signal.hpp:74-79`
and in `nodes.hpp:236-252`, `commit.hpp:29-33`, `setter.hpp:53-73` keep no other state.  Exceptions
thrown by views, lenses and transducers are in `Verif.Graph.Throw`.
-/

set_option linter.unusedSectionVars false

namespace Verif.Graph

variable {V S : Type} [DecidableEq V]

/-- Leaving library frames until user code is reached: `notifying_guard_t::~notifying_guard_t`,
`lager/detail/nodes.hpp:124`, for the two loops of `notify` (`nodes.hpp:235-252`); the garbage of the
children loop is not collected. -/
def unwind (g : Graph V S) : List (Frame V) → Graph V S × List (Frame V)
  | .obs n _ prev :: st => unwind (g.mod n fun x => { x with notifying := prev }) st
  | .kids n _ _ prev _ :: st => unwind (g.mod n fun x => { x with notifying := prev }) st
  | .user :: st => (g, .user :: st)
  | _ :: st => unwind g st
  | [] => (g, [])

/-- The running callback or setter function throws; the exception reaches the user code that made the
library call (which may catch it, or let it pass by throwing in turn).  The outermost user code is not
called by the library. -/
def raise (m : M V S) : Option (M V S) :=
  if m.ub then none
  else
    match m.stack with
    | .user :: f :: st =>
      some { m with
        g := (unwind m.g (f :: st)).1
        stack := (unwind m.g (f :: st)).2 }
    | _ => none

/-- One step, exceptions included. -/
inductive XStep [Inhabited S] (m : M V S) : M V S → Prop where
  | step {m'} : Step m m' → XStep m m'
  | raise {m'} : raise m = some m' → XStep m m'

/-- Everything that can happen, exceptions included. -/
inductive XReach [Inhabited S] : M V S → Prop where
  | start (ltr : Bool) (dummy : Node V S) : Dummy dummy → XReach (start ltr dummy)
  | step {m m'} : XReach m → XStep m m' → XReach m'

/-- `Runs`, exceptions included. -/
inductive XRuns [Inhabited S] : M V S → M V S → Prop where
  | refl (m) : XRuns m m
  | step {m m1 m2} : XStep m m1 → XRuns m1 m2 → XRuns m m2

/-- The value of `n` has changed and `n` has not been notified since. -/
def M.Waiting (m : M V S) (n : Nat) : Prop := (m.g.node n).needsNotify = true

/-! ### What unwinding changes -/

theorem unwind_node (st : List (Frame V)) (g : Graph V S) (k : Nat) :
    ∃ b, (unwind g st).1.node k = { g.node k with notifying := b } := by
  induction st generalizing g with
  | nil => exact ⟨_, rfl⟩
  | cons f st ih =>
    have modc : ∀ n prev, ∃ b, (unwind (g.mod n fun x => { x with notifying := prev }) st).1.node k =
        { g.node k with notifying := b } := by
      intro n prev
      obtain ⟨b, hb⟩ := ih (g.mod n fun x => { x with notifying := prev })
      refine ⟨b, hb.trans ?_⟩
      rw [Graph.mod_node]
      split
      · rename_i h; subst h; rfl
      · rfl
    cases f with
    | obs n cur prev => exact modc n prev
    | kids n i size prev garbage => exact modc n prev
    | user => exact ⟨_, rfl⟩
    | notify | roots | up | ups | setterRest => exact ih g

theorem unwind_size (st : List (Frame V)) (g : Graph V S) :
    (unwind g st).1.size = g.size ∧ (unwind g st).1.ltr = g.ltr := by
  induction st generalizing g with
  | nil => exact ⟨rfl, rfl⟩
  | cons f st ih =>
    cases f with
    | obs n cur prev => exact ih _
    | kids n i size prev garbage => exact ih _
    | user => exact ⟨rfl, rfl⟩
    | notify | roots | up | ups | setterRest => exact ih g

theorem unwind_suffix (st : List (Frame V)) (g : Graph V S) (hb : st.getLast? = some .user) :
    ∃ pre st', st = pre ++ .user :: st' ∧ (unwind g st).2 = .user :: st' ∧ .user ∉ pre := by
  induction st generalizing g with
  | nil => cases hb
  | cons f st ih =>
    by_cases hu : f = .user
    · subst hu; exact ⟨[], st, rfl, rfl, by simp⟩
    · have hb' : st.getLast? = some .user := by simpa using base_tail hb hu []
      have next : ∀ g' : Graph V S, ∃ pre st', f :: st = pre ++ .user :: st' ∧ (unwind g' st).2 = .user :: st' ∧
          .user ∉ pre := by
        intro g'
        obtain ⟨pre, st', h1, h2, h3⟩ := ih g' hb'
        refine ⟨f :: pre, st', by rw [h1]; rfl, h2, fun h => ?_⟩
        rcases List.mem_cons.1 h with h | h
        · exact hu h.symm
        · exact h3 h
      cases f with
      | user => exact absurd rfl hu
      | obs | kids | notify | roots | up | ups | setterRest => exact next _

theorem StackOK.tail {g : Graph V S} {f : Frame V} {st : List (Frame V)} (h : StackOK g (f :: st))
    (hf : f ≠ .user) : ∃ g', StackOK g' st ∧ (unwind g (f :: st)) = unwind g' st ∧
      (∀ k, ∃ b, g'.node k = { g.node k with notifying := b }) := by
  have hb : st.getLast? = some .user := by simpa using base_tail h.base hf []
  have loop : ∀ n prev, (∀ k, f.inNotify k = (n == k)) → prev = active n st → Guards st →
      StackOK (g.mod n fun x => { x with notifying := prev }) st := by
    intro n prev hin hp hg
    have hnode : ∀ k, ∃ b, (g.mod n fun x => { x with notifying := prev }).node k =
        { g.node k with notifying := b } := by
      intro k
      rw [Graph.mod_node]
      split
      · rename_i e; subst e; exact ⟨_, rfl⟩
      · exact ⟨_, rfl⟩
    refine ⟨?_, ?_, hg, ?_, ?_, hb⟩
    · intro x hx k hk
      obtain ⟨b, hb'⟩ := hnode k
      rw [hb']
      exact h.holds x (List.mem_cons_of_mem _ hx) k hk
    · intro k i size pr garbage hx
      obtain ⟨b, hb'⟩ := hnode k
      rw [hb']
      exact h.kids k i size pr garbage (List.mem_cons_of_mem _ hx)
    · intro k
      by_cases hk : k = n
      · subst hk; rw [Graph.mod_self]; exact hp
      · rw [Graph.mod_ne _ _ hk, h.notifying, active_cons, hin]
        have : (n == k) = false := by simpa using fun e => hk (Eq.symm e)
        rw [this, Bool.false_or]
    · intro k v hx
      obtain ⟨b, hb'⟩ := hnode k
      rw [hb']
      exact h.setters k v (List.mem_cons_of_mem _ hx)
  have modn : ∀ n prev k, ∃ b, (g.mod n fun x => { x with notifying := prev }).node k =
      { g.node k with notifying := b } := by
    intro n prev k
    rw [Graph.mod_node]
    split
    · rename_i e; subst e; exact ⟨_, rfl⟩
    · exact ⟨_, rfl⟩
  have light : f.light = true → StackOK g st := by
    intro hl
    refine ⟨fun x hx => h.holds x (List.mem_cons_of_mem _ hx),
      fun k i size pr garbage hx => h.kids k i size pr garbage (List.mem_cons_of_mem _ hx),
      (guards_light hl st).1 h.guards, fun k => ?_,
      fun k v hx => h.setters k v (List.mem_cons_of_mem _ hx), hb⟩
    rw [h.notifying, active_cons, inNotify_light hl, Bool.false_or]
  cases f with
  | user => exact absurd rfl hf
  | obs n cur prev =>
    exact ⟨_, loop n prev (fun _ => rfl) h.guards.1 h.guards.2, rfl, modn n prev⟩
  | kids n i size prev garbage =>
    exact ⟨_, loop n prev (fun _ => rfl) h.guards.1 h.guards.2, rfl, modn n prev⟩
  | notify | roots | up | ups | setterRest => exact ⟨g, light rfl, rfl, fun _ => ⟨_, rfl⟩⟩

theorem StackOK.unwind (st : List (Frame V)) (g : Graph V S) (h : StackOK g st) :
    StackOK (unwind g st).1 (unwind g st).2 := by
  induction st generalizing g with
  | nil => cases h.base
  | cons f st ih =>
    by_cases hu : f = .user
    · subst hu; exact h
    · obtain ⟨g', h1, h2, _⟩ := h.tail hu
      rw [h2]
      exact ih g' h1

end Verif.Graph
