import Verif.Store.Debug
import Verif.Tree.Props
import Verif.Tree.Eq

/-!
Stores with the tree debugger: the reducer that `with_debugger<tree_debugger>` gives to the store,
`lager/debug/tree_debugger.hpp`, with effects as the model of stores has them.
-/

namespace Verif.Store

open Verif

variable {A Mo : Type}

/-- The model of the tree debugger, `debug/tree_debugger.hpp:103-230`. -/
abbrev TModel (A Mo : Type) := Tree.Model A Mo
/-- The actions of the tree debugger, `debug/tree_debugger.hpp:51-78`. -/
abbrev TAction (A : Type) := Tree.Action A

/-- The conversion to the user's model, `tree_debugger.hpp:224`, which throws for a bad cursor; there is none
(C66). -/
def tview (m : TModel A Mo) : Mo := m.shown.getD m.init

/-- The case of an ordinary action, `tree_debugger.hpp:239-254`, when the reducer does not throw.  `append` is
always defined (C66). -/
def treeAct (c : Cfg A Mo) (m : TModel A Mo) (a : A) : TModel A Mo × Eff :=
  if m.paused then ({ m with pending := m.pending ++ [a] }, .noop)
  else
    let y := c.reducer (tview m) a
    -- `auto eff = effect<action, deps_t>{noop}`, which the one of the reducer replaces if there is one
    ((m.append a y.1).getD m, y.2.filled)

/-- Does the reducer throw for an ordinary action? -/
def treeThrows (c : Cfg A Mo) (m : TModel A Mo) (a : A) : Bool := !m.paused && c.throws (tview m) a

/-- `immer::accumulate` in the case of `resume_action`, `tree_debugger.hpp:287-296`. -/
def treeResume (c : Cfg A Mo) : List A → TModel A Mo × Eff → TModel A Mo × Eff
  | [], acc => acc
  | a :: as, (m, e) => treeResume c as ((treeAct c m a).1, sequence e (treeAct c m a).2)

/-- Does the reducer throw in it? -/
def treeResumeThrows (c : Cfg A Mo) : List A → TModel A Mo → Bool
  | [], _ => false
  | a :: as, m => treeThrows c m a || treeResumeThrows c as (treeAct c m a).1

/-- The model without pending actions that `resume_action` begins with, `tree_debugger.hpp:283-286`. -/
def tunpause (m : TModel A Mo) : TModel A Mo := { m with paused := false, pending := [] }

/-- `with_debugger<tree_debugger>`, `debugger.hpp:186-223`, with `update`, `tree_debugger.hpp:234-301`.  User code
number `pid` and `rid` is `loop().pause()` and `loop().resume()`; `ch` is `has_changed` for the model of the
debugger. -/
def withTree (pid rid : Nat) (ch : TModel A Mo → TModel A Mo → Bool) (c : Cfg A Mo) :
    Cfg (TAction A) (TModel A Mo) where
  reducer m
    | .act a => treeAct c m a
    | .goto_ p => (if m.check p then { m with cursor := p } else m, .noop)
    | .undo => ({ m with cursor := Tree.undoCursor m.cursor }, .noop)
    | .redo => (m, .noop)
    | .pause => ({ m with paused := true }, .prim pid)
    | .resume =>
      ((treeResume c m.pending (tunpause m, .noop)).1,
        sequence (.prim rid) (treeResume c m.pending (tunpause m, .noop)).2)
  throws m
    | .act a => treeThrows c m a
    -- `LAGER_THROW(std::runtime_error{"todo"})`
    | .redo => true
    | .resume => treeResumeThrows c m.pending (tunpause m)
    | _ => false
  changed := ch
  trans := c.trans
  hasF := c.hasF
  init := Tree.Model.start c.init
  null := c.null

/-- A tree debugger on which only ordinary actions have been dispatched: there is one branch, at the end of which
the cursor is. -/
def TLive (m : TModel A Mo) : Prop :=
  m.paused = false ∧ ((m.cursor = [] ∧ m.branches = []) ∨
    ∃ h s, m.branches = [h ++ [s]] ∧ m.cursor = [⟨0, h.length⟩])

theorem tview_start (i : Mo) : tview (Tree.Model.start i : TModel A Mo) = i := rfl

theorem treeAct_live (c : Cfg A Mo) {m : TModel A Mo} (h : TLive m) (a : A) :
    TLive (treeAct c m a).1 ∧ tview (treeAct c m a).1 = (c.reducer (tview m) a).1 ∧
    (treeAct c m a).2 = (c.reducer (tview m) a).2.filled ∧
    (treeAct c m a).1.branches ≠ m.branches := by
  obtain ⟨hp, h⟩ := h
  have he : treeAct c m a = ((m.append a (c.reducer (tview m) a).1).getD m, (c.reducer (tview m) a).2.filled) := by
    unfold treeAct
    rw [hp]
    rfl
  rw [he]
  dsimp only
  generalize (c.reducer (tview m) a).1 = y
  rcases h with ⟨h1, h2⟩ | ⟨h, s, h1, h2⟩
  · have e : m.append a y = some { m with branches := [[.mk a y []]], cursor := [⟨0, 0⟩] } := by
      unfold Tree.Model.append
      simp [h1, h2]
    rw [e]
    refine ⟨⟨hp, .inr ⟨[], _, rfl, rfl⟩⟩, rfl, rfl, ?_⟩
    show [[_]] ≠ m.branches
    rw [h2]; simp
  · have e : m.append a y = some { m with
        branches := [(h ++ [s]) ++ [.mk a y []]], cursor := [⟨0, h.length + 1⟩] } := by
      unfold Tree.Model.append
      simp [h1, h2, Tree.doAppend]
    rw [e]
    refine ⟨⟨hp, .inr ⟨h ++ [s], _, rfl, by simp⟩⟩, ?_, rfl, ?_⟩
    · simp [tview, Tree.Model.shown, Tree.Model.lookup, Tree.doLookup, Tree.Step.model]
    · show [_] ≠ m.branches
      rw [h1]
      intro e
      have := congrArg List.length (List.head_eq_of_cons_eq e)
      simp at this

/-- With ordinary actions, the store with the tree debugger does what the one without it does. -/
theorem sim_tree (pid rid : Nat) {ch : TModel A Mo → TModel A Mo → Bool} {c : Cfg A Mo} (hc : c.sound)
    (hch : ∀ x y, ch x y = false → x = y) (ht : c.trans = false) :
    Sim Tree.Action.act tview TLive c (withTree pid rid ch c) where
  throws := fun n a h => by
    show (!n.paused && c.throws (tview n) a) = _
    rw [h.1]; rfl
  good := fun n a h _ => (treeAct_live c h a).1
  model := fun n a h _ => (treeAct_live c h a).2.1
  eff := fun n a h _ => (treeAct_live c h a).2.2.1
  changed := fun n a h _ he => absurd (congrArg Tree.Model.branches (hch _ _ he)) (treeAct_live c h a).2.2.2
  sound := hc
  trans := ht
  trans' := ht
  hasF := rfl
  init := ⟨rfl, .inl ⟨rfl, rfl⟩⟩
  vinit := rfl
  null := rfl

/-! ### The model of the tree debugger alone -/

theorem treeAct_update (pid rid : Nat) (c : Cfg A Mo) (m : TModel A Mo) (h : Tree.Inv (asReducer c) m) (a : A) :
    ∃ l, Tree.updateAct (asReducer c) m a = .ok (treeAct c m a).1 l ∧
      (treeAct c m a).2.acts = l.flatMap (atomActs pid rid) ∧ Tree.Inv (asReducer c) (treeAct c m a).1 ∧
      (treeAct c m a).1.paused = m.paused := by
  obtain ⟨m', l, h1, h2, _, h4⟩ := Tree.updateAct_inv (asReducer c) m a h
  have key : (treeAct c m a).1 = m' ∧ (treeAct c m a).2.acts = l.flatMap (atomActs pid rid) := by
    unfold Tree.updateAct at h1
    unfold treeAct
    cases hp : m.paused with
    | true =>
      rw [hp] at h1
      cases h1
      exact ⟨rfl, rfl⟩
    | false =>
      obtain ⟨p, hp'⟩ := h.valid
      have hx : m.shown = some p.2 := by unfold Tree.Model.shown; rw [hp']; rfl
      have hv : tview m = p.2 := by unfold tview; rw [hx]; rfl
      rw [hp, hx] at h1
      rw [hv]
      simp only [Bool.false_eq_true, if_false, asReducer] at h1
      split at h1
      · cases h1
      · next m1 hm1 =>
        cases h1
        simp only [Bool.false_eq_true, if_false, filled_acts, hm1]
        refine ⟨rfl, ?_⟩
        generalize (c.reducer p.2 a).2 = e
        cases e <;> simp [Eff.isEmpty, Debugger.userEff, atomActs, Eff.acts]
  exact ⟨l, by rw [key.1]; exact h1, key.2, by rw [key.1]; exact h2, by rw [key.1]; exact h4⟩

theorem treeResume_update (pid rid : Nat) (c : Cfg A Mo) (as : List A) : ∀ (m : TModel A Mo) (e : Eff)
    (l : List (Debugger.Atom Eff)), Tree.Inv (asReducer c) m → e.acts = l.flatMap (atomActs pid rid) →
    ∃ l', Tree.resumeLoop (asReducer c) as m l = .ok (treeResume c as (m, e)).1 l' ∧
      (treeResume c as (m, e)).2.acts = l'.flatMap (atomActs pid rid) ∧
      Tree.Inv (asReducer c) (treeResume c as (m, e)).1 ∧ (treeResume c as (m, e)).1.paused = m.paused := by
  induction as with
  | nil => intro m e l h he; exact ⟨l, rfl, he, h, rfl⟩
  | cons a as ih =>
    intro m e l hm he
    obtain ⟨l1, h1, h2, h3, h4⟩ := treeAct_update pid rid c m hm a
    simp only [Tree.resumeLoop, h1, treeResume]
    obtain ⟨l', k1, k2, k3, k4⟩ := ih (treeAct c m a).1 (sequence e (treeAct c m a).2) (l ++ l1) h3
      (by rw [sequence_acts, he, h2, List.flatMap_append])
    exact ⟨l', k1, k2, k3, k4.trans h4⟩

theorem inv_tunpause {c : Cfg A Mo} {m : TModel A Mo} (h : Tree.Inv (asReducer c) m) :
    Tree.Inv (asReducer c) (tunpause m) := ⟨h.valid, h.genuine, fun _ => rfl, h.full⟩

/-- What the reducer of the store with the tree debugger does is what the model of the debugger says, except that
`redo` throws. -/
theorem withTree_update (pid rid : Nat) (ch : TModel A Mo → TModel A Mo → Bool) (c : Cfg A Mo)
    (m : TModel A Mo) (h : Tree.Inv (asReducer c) m) (a : TAction A) (ha : a ≠ .redo) :
    ∃ l, Tree.update (asReducer c) m a = .ok ((withTree pid rid ch c).reducer m a).1 l ∧
      ((withTree pid rid ch c).reducer m a).2.acts = l.flatMap (atomActs pid rid) := by
  cases a with
  | act a =>
    obtain ⟨l, h1, h2, _⟩ := treeAct_update pid rid c m h a
    exact ⟨l, h1, h2⟩
  | goto_ n => exact ⟨[], rfl, rfl⟩
  | undo => exact ⟨[], rfl, rfl⟩
  | redo => exact absurd rfl ha
  | pause => exact ⟨[.pause], rfl, rfl⟩
  | resume =>
    obtain ⟨l, h1, h2, _⟩ := treeResume_update pid rid c m.pending (tunpause m) .noop [] (inv_tunpause h) rfl
    refine ⟨.resume :: l, ?_, ?_⟩
    · simp only [Tree.update]
      rw [show ({ m with paused := false, pending := [] } : TModel A Mo) = tunpause m from rfl, h1]
      rfl
    · show (sequence (.prim rid) (treeResume c m.pending (tunpause m, .noop)).2).acts = _
      rw [sequence_acts, h2]
      rfl

theorem withTree_inv (pid rid : Nat) (ch : TModel A Mo → TModel A Mo → Bool) (c : Cfg A Mo)
    (m : TModel A Mo) (h : Tree.Inv (asReducer c) m) (a : TAction A) :
    Tree.Inv (asReducer c) ((withTree pid rid ch c).next m a) := by
  unfold Cfg.next
  split
  · exact h
  · next hn =>
    have ha : a ≠ .redo := by rintro rfl; exact hn rfl
    obtain ⟨l, h1, _⟩ := withTree_update pid rid ch c m h a ha
    rcases Tree.update_inv (asReducer c) m a h with ⟨h2, _⟩ | ⟨m', e, h2, h3, _⟩
    · rw [h1] at h2; cases h2
    · rw [h1] at h2; cases h2; exact h3

theorem fold_tree_inv (pid rid : Nat) (ch : TModel A Mo → TModel A Mo → Bool) (c : Cfg A Mo)
    (as : List (TAction A)) : ∀ m : TModel A Mo, Tree.Inv (asReducer c) m →
    Tree.Inv (asReducer c) (as.foldl (withTree pid rid ch c).next m) := by
  induction as with
  | nil => intro m h; exact h
  | cons a as ih => intro m h; exact ih _ (withTree_inv pid rid ch c m h a)

end Verif.Store
