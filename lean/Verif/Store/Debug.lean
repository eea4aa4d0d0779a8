import Verif.Store.Sim
import Verif.Debugger.Props

/-!
Stores with the time-travelling debugger: the reducer that `with_debugger` gives to the store,
`lager/debug/debugger.hpp`, with effects as the model of stores has them.
-/

namespace Verif.Store

open Verif

variable {A Mo : Type}

/-- The model of the debugger, `debug/debugger.hpp:80-114`. -/
abbrev DModel (A Mo : Type) := Debugger.Model A Mo
/-- The actions of the debugger, `debug/debugger.hpp:44-71`. -/
abbrev DAction (A : Type) := Debugger.Action A

/-- The conversion to the user's model, `debugger.hpp:108`, which throws for a bad cursor; there is none
(C61). -/
def view (m : DModel A Mo) : Mo := m.shown.getD m.init

/-- The case of an ordinary action, `debugger.hpp:123-140`, when the reducer does not throw. -/
def debugAct (c : Cfg A Mo) (m : DModel A Mo) (a : A) : DModel A Mo × Eff :=
  if m.paused then ({ m with pending := m.pending ++ [a] }, .noop)
  else
    let y := c.reducer (view m) a
    let history := m.history.take m.cursor ++ [⟨a, y.1⟩]
    -- `auto eff = effect<action, deps_t>{noop}`, which the one of the reducer replaces if there is one
    ({ m with history := history, cursor := history.length }, y.2.filled)

/-- Does the reducer throw for an ordinary action? -/
def debugThrows (c : Cfg A Mo) (m : DModel A Mo) (a : A) : Bool := !m.paused && c.throws (view m) a

/-- `immer::accumulate` in the case of `resume_action`, `debugger.hpp:167-176`. -/
def resumeAll (c : Cfg A Mo) : List A → DModel A Mo × Eff → DModel A Mo × Eff
  | [], acc => acc
  | a :: as, (m, e) => resumeAll c as ((debugAct c m a).1, sequence e (debugAct c m a).2)

/-- Does the reducer throw in it? -/
def resumeThrows (c : Cfg A Mo) : List A → DModel A Mo → Bool
  | [], _ => false
  | a :: as, m => debugThrows c m a || resumeThrows c as (debugAct c m a).1

/-- The model without pending actions that `resume_action` begins with, `debugger.hpp:165-166`. -/
def unpause (m : DModel A Mo) : DModel A Mo := { m with paused := false, pending := [] }

/-- `with_debugger`, `debugger.hpp:186-223`, with `update`, `:118-180`.  User code number `pid` and
`rid` is `loop().pause()` and `loop().resume()`; `ch` is `has_changed` for the model of the debugger. -/
def withDebugger (pid rid : Nat) (ch : DModel A Mo → DModel A Mo → Bool) (c : Cfg A Mo) :
    Cfg (DAction A) (DModel A Mo) where
  reducer m
    | .act a => debugAct c m a
    | .goto_ n => (if n ≤ m.history.length then { m with cursor := n } else m, .noop)
    | .undo => (if m.cursor > 0 then { m with cursor := m.cursor - 1 } else m, .noop)
    | .redo => (if m.cursor < m.history.length then { m with cursor := m.cursor + 1 } else m, .noop)
    | .pause => ({ m with paused := true }, .prim pid)
    | .resume =>
      ((resumeAll c m.pending (unpause m, .noop)).1,
        sequence (.prim rid) (resumeAll c m.pending (unpause m, .noop)).2)
  throws m
    | .act a => debugThrows c m a
    | .resume => resumeThrows c m.pending (unpause m)
    | _ => false
  changed := ch
  trans := c.trans
  hasF := c.hasF
  init := Debugger.Model.start c.init
  null := c.null

/-- A debugger on which only ordinary actions have been dispatched. -/
def Live (m : DModel A Mo) : Prop := m.paused = false ∧ m.cursor = m.history.length

theorem view_start (i : Mo) : view (Debugger.Model.start i : DModel A Mo) = i := rfl

theorem view_append (m : DModel A Mo) (h : List (Debugger.Step A Mo)) (s : Debugger.Step A Mo)
    (hh : m.history = h ++ [s]) (hc : m.cursor = m.history.length) : view m = s.model := by
  unfold view
  rw [Debugger.shown_eq m (by omega), hc, hh, List.length_append]
  simp [Debugger.modelAfter]

theorem debugAct_live (c : Cfg A Mo) {m : DModel A Mo} (h : m.paused = false) (a : A) :
    Live (debugAct c m a).1 ∧ view (debugAct c m a).1 = (c.reducer (view m) a).1 ∧
    (debugAct c m a).2 = (c.reducer (view m) a).2.filled ∧
    (debugAct c m a).1.history = m.history.take m.cursor ++ [⟨a, (c.reducer (view m) a).1⟩] := by
  have he : debugAct c m a = ({ m with
      history := m.history.take m.cursor ++ [⟨a, (c.reducer (view m) a).1⟩]
      cursor := (m.history.take m.cursor ++ [Debugger.Step.mk a (c.reducer (view m) a).1]).length },
      (c.reducer (view m) a).2.filled) := by
    unfold debugAct
    rw [h]
    rfl
  rw [he]
  exact ⟨⟨h, rfl⟩, view_append _ (m.history.take m.cursor) ⟨a, (c.reducer (view m) a).1⟩ rfl rfl, rfl, rfl⟩

/-- With ordinary actions, the store with the debugger does what the one without it does. -/
theorem sim_debugger (pid rid : Nat) {ch : DModel A Mo → DModel A Mo → Bool} {c : Cfg A Mo} (hc : c.sound)
    (hch : ∀ x y, ch x y = false → x = y) (ht : c.trans = false) :
    Sim Debugger.Action.act view Live c (withDebugger pid rid ch c) where
  throws := fun n a h => by
    show (!n.paused && c.throws (view n) a) = _
    rw [h.1]; rfl
  good := fun n a h _ => (debugAct_live c h.1 a).1
  model := fun n a h _ => (debugAct_live c h.1 a).2.1
  eff := fun n a h _ => (debugAct_live c h.1 a).2.2.1
  changed := fun n a h _ he => by
    exfalso
    have e1 := hch _ _ he
    have e2 := (debugAct_live c h.1 a).2.2.2
    rw [show (debugAct c n a).1 = n from e1] at e2
    have e3 := congrArg List.length e2
    rw [List.length_append, List.length_take, h.2] at e3
    simp at e3
  sound := hc
  trans := ht
  trans' := ht
  hasF := rfl
  init := ⟨rfl, rfl⟩
  vinit := rfl
  null := rfl

/-! ### The model of the debugger alone -/

/-- The reducer as the model of the debugger has it. -/
def asReducer (c : Cfg A Mo) : Debugger.Reducer Mo A Eff := fun m a =>
  ((c.reducer m a).1, if (c.reducer m a).2.isEmpty then none else some (c.reducer m a).2)

/-- The user code in what the model of the debugger calls an effect. -/
def atomActs (pid rid : Nat) : Debugger.Atom Eff → List Nat
  | .user e => e.acts
  | .pause => [pid]
  | .resume => [rid]

theorem filled_acts (e : Eff) : e.filled.acts = e.acts := by cases e <;> rfl

theorem sequence_acts (a b : Eff) : (sequence a b).acts = a.acts ++ b.acts := rfl

theorem filled_ne (e : Eff) : e.filled ≠ .empty := by cases e <;> exact nofun

theorem debugAct_update (pid rid : Nat) (c : Cfg A Mo) (m : DModel A Mo) (h : m.cursor ≤ m.history.length)
    (a : A) : ∃ l, Debugger.updateAct (asReducer c) m a = some ((debugAct c m a).1, l) ∧
      (debugAct c m a).2.acts = l.flatMap (atomActs pid rid) ∧
      (debugAct c m a).1.cursor ≤ (debugAct c m a).1.history.length := by
  unfold Debugger.updateAct debugAct
  cases hp : m.paused with
  | true => exact ⟨[], by simp, rfl, h⟩
  | false =>
    obtain ⟨x, hx⟩ := Debugger.shown_isSome m h
    have hv : view m = x := by unfold view; rw [hx]; rfl
    rw [hx, hv]
    refine ⟨Debugger.userEff (asReducer c x a).2, rfl, ?_, Nat.le_refl _⟩
    simp only [Bool.false_eq_true, if_false, filled_acts, asReducer]
    generalize (c.reducer x a).2 = e
    cases e <;> simp [Eff.isEmpty, Debugger.userEff, atomActs, Eff.acts]

theorem resumeAll_update (pid rid : Nat) (c : Cfg A Mo) (as : List A) : ∀ (m : DModel A Mo) (e : Eff)
    (l : List (Debugger.Atom Eff)), m.cursor ≤ m.history.length → e.acts = l.flatMap (atomActs pid rid) →
    ∃ l', Debugger.resumeLoop (asReducer c) as (m, l) = some ((resumeAll c as (m, e)).1, l') ∧
      (resumeAll c as (m, e)).2.acts = l'.flatMap (atomActs pid rid) := by
  induction as with
  | nil => intro m e l _ he; exact ⟨l, rfl, he⟩
  | cons a as ih =>
    intro m e l hm he
    obtain ⟨l1, h1, h2, h3⟩ := debugAct_update pid rid c m hm a
    simp only [Debugger.resumeLoop, h1, resumeAll]
    exact ih _ _ _ h3 (by rw [sequence_acts, he, h2, List.flatMap_append])

/-- What the reducer of the store with the debugger does is what the model of the debugger says. -/
theorem withDebugger_update (pid rid : Nat) (ch : DModel A Mo → DModel A Mo → Bool) (c : Cfg A Mo)
    (m : DModel A Mo) (h : m.cursor ≤ m.history.length) (a : DAction A) :
    ∃ l, Debugger.update (asReducer c) m a = some (((withDebugger pid rid ch c).reducer m a).1, l) ∧
      ((withDebugger pid rid ch c).reducer m a).2.acts = l.flatMap (atomActs pid rid) := by
  cases a with
  | act a =>
    obtain ⟨l, h1, h2, _⟩ := debugAct_update pid rid c m h a
    exact ⟨l, h1, h2⟩
  | goto_ n => exact ⟨[], rfl, rfl⟩
  | undo => exact ⟨[], rfl, rfl⟩
  | redo => exact ⟨[], rfl, rfl⟩
  | pause => exact ⟨[.pause], rfl, rfl⟩
  | resume =>
    obtain ⟨l, h1, h2⟩ := resumeAll_update pid rid c m.pending (unpause m) .noop [] h rfl
    refine ⟨.resume :: l, ?_, ?_⟩
    · simp only [Debugger.update]
      rw [show ({ m with paused := false, pending := [] } : DModel A Mo) = unpause m from rfl, h1]
      rfl
    · show (sequence (.prim rid) (resumeAll c m.pending (unpause m, .noop)).2).acts = _
      rw [sequence_acts, h2]
      rfl

end Verif.Store
