import Verif.Store.Debug
import Verif.Store.Props2
import Verif.Store.Props3
import Verif.Store.Thunk

/-!
Properties C92 and C93: stores with the debugger; and C55 for reducers some of whose results have effects.
-/

namespace Verif.Store

open Verif

variable {A Mo : Type}

/-! ### C55 -/

theorem sim_thunk {c : Cfg A Mo} (hc : c.sound) (ht : c.trans = false) :
    Sim Sum.inr id (fun _ => True) c (withThunk c) where
  throws := fun _ _ _ => rfl
  good := fun _ _ _ _ => trivial
  model := fun _ _ _ _ => rfl
  eff := fun _ _ _ _ => rfl
  changed := fun _ _ _ _ h => h
  sound := hc
  trans := ht
  trans' := ht
  hasF := rfl
  init := trivial
  vinit := rfl
  null := rfl

/-- C55: for every reducer, whether its results have effects or not: for each run of a store without the
enhancer there is one of the store with it, with the same actions and the same schedule, that leads to
the same model, futures and number of tasks, and in which the same was seen: the same calls of the
reducer, of watchers with new values, and of effects, in the same order. -/
theorem C55_transparent [DecidableEq Mo] {c : Cfg A Mo} (hc : c.sound) (ht : c.trans = false)
    {ops : List (SOp A)} {st : St A Mo} (hs : exec c (start c) ops = some st) :
    ∃ ops' st', ops'.filter (fun o => !o.isGo) = (ops.filter (fun o => !o.isGo)).map (SOp.map .inr) ∧
      exec (withThunk c) (start (withThunk c)) ops' = some st' ∧
      st'.get = st.get ∧ st'.fu = st.fu ∧ st'.sent = st.sent ∧ st'.queue.length = st.queue.length ∧
      seen c.init st'.log = seen c.init (st.log.map (SEv.map .inr)) := by
  obtain ⟨ops', st', h1, h2, h3⟩ := Rel.exec (sim_thunk hc ht) ops (Rel.start (sim_thunk hc ht)) hs
  refine ⟨ops', st', h1, h2, h3.last, h3.fu, h3.sent, by rw [h3.queue, List.length_map], ?_⟩
  have h4 := h3.log.1
  have h5 : ∀ l : List (SEv (Eff ⊕ A) Mo), l.map (SEv.view id) = l := by
    intro l
    induction l with
    | nil => rfl
    | cons e l ih => rw [List.map_cons, ih]; cases e <;> rfl
  rw [h5] at h4
  exact h4

/-! ### C92 -/

section C92

variable (pid rid : Nat) {ch : DModel A Mo → DModel A Mo → Bool} {c : Cfg A Mo}

/-- C92: for each run of a store without the debugger there is one of the store with it, with the same
actions and the same schedule, that leads to the same model, futures and number of tasks, and in which
the same was seen: the same calls of the reducer, of watchers with new values, and of effects, in
the same order.  (Also if reducers, watchers and effects throw.) -/
theorem C92_transparent [DecidableEq Mo] (hc : c.sound) (hch : ∀ x y, ch x y = false → x = y)
    (ht : c.trans = false) {ops : List (SOp A)} {st : St A Mo} (hs : exec c (start c) ops = some st) :
    ∃ ops' st', ops'.filter (fun o => !o.isGo) = (ops.filter (fun o => !o.isGo)).map (SOp.map .act) ∧
      exec (withDebugger pid rid ch c) (start (withDebugger pid rid ch c)) ops' = some st' ∧
      view st'.get = st.get ∧ st'.fu = st.fu ∧ st'.sent = st.sent ∧
      st'.queue.length = st.queue.length ∧
      seen c.init (st'.log.map (SEv.view view)) = seen c.init (st.log.map (SEv.map .act)) := by
  have k := sim_debugger pid rid hc hch ht
  obtain ⟨ops', st', h1, h2, h3⟩ := Rel.exec k ops (Rel.start k) hs
  exact ⟨ops', st', h1, h2, h3.last, h3.fu, h3.sent, by rw [h3.queue, List.length_map], h3.log.1⟩

theorem fold_debugger (as : List A) : ∀ m : DModel A Mo, m.paused = false → m.cursor ≤ m.history.length →
    ((as.map .act).foldl (withDebugger pid rid ch c).next m).paused = false ∧
    view ((as.map .act).foldl (withDebugger pid rid ch c).next m) = as.foldl c.next (view m) := by
  induction as with
  | nil => intro m h _; exact ⟨h, rfl⟩
  | cons a as ih =>
    intro m h hc
    simp only [List.map_cons, List.foldl_cons]
    have e1 : (withDebugger pid rid ch c).next m (.act a) =
        if c.throws (view m) a then m else (debugAct c m a).1 := by
      show (if (!m.paused && c.throws (view m) a) = true then _ else _) = _
      rw [h]; rfl
    rw [e1]
    unfold Cfg.next
    split
    · exact ih m h hc
    · obtain ⟨h1, h2, _⟩ := debugAct_live c h a
      rw [← h2]
      exact ih _ h1.1 (Nat.le_of_eq h1.2)

/-- C92: whatever the schedule, if only ordinary actions have been dispatched on the store with the
debugger, then when no tasks are left it shows what a store without it shows. -/
theorem C92_model (hch : ∀ x y, ch x y = false → x = y) (ht : c.trans = false)
    {st : St (DAction A) (DModel A Mo)} (r : Reach (withDebugger pid rid ch c) st) (hi : st.idle)
    {as : List A} (ha : dispatches st.log = as.map .act) : view st.get = fold c as := by
  rw [C48_fold (c := withDebugger pid rid ch c) hch ht r hi, ha]
  exact (fold_debugger pid rid as _ rfl (Nat.le_refl _)).2

/-- C92: … and what the watchers are called with is what those of a store without it could be. -/
theorem C92_watched (hch : ∀ x y, ch x y = false → x = y) {st : St (DAction A) (DModel A Mo)}
    (r : Reach (withDebugger pid rid ch c) st) {l1 l2 : List (SEv (DAction A) (DModel A Mo))}
    {m : DModel A Mo} (h : st.log = l1 ++ .shown m :: l2) {as : List A}
    (ha : reductions l1 = as.map .act) : view m = fold c as := by
  rw [(C50_fold (c := withDebugger pid rid ch c) hch r h).1, ha]
  exact (fold_debugger pid rid as _ rfl (Nat.le_refl _)).2

/-- C92: … and for transactional stores, where `commit` makes the model visible. -/
theorem C92_commit (hch : ∀ x y, ch x y = false → x = y) {st st' : St (DAction A) (DModel A Mo)}
    (r : Reach (withDebugger pid rid ch c) st) (h : step (withDebugger pid rid ch c) st .commit = some st')
    {as : List A} (ha : reductions st.log = as.map .act) : view st'.get = fold c as := by
  rw [(C51_commit (c := withDebugger pid rid ch c) hch r h).1, ha]
  exact (fold_debugger pid rid as _ rfl (Nat.le_refl _)).2

end C92

/-! The counter of the examples with the debugger; user code 100 and 101 is `loop().pause()` and
`loop().resume()`. -/

def exDebug (trans hasF : Bool) : Cfg (DAction Nat) (DModel Nat Nat) :=
  withDebugger 100 101 (fun x y => decide (x ≠ y)) (exCfg trans hasF)

theorem exDebug_sound (x y : DModel Nat Nat) (h : decide (x ≠ y) = false) : x = y := by
  simpa using h

/-- The run of the example of C48, and the one of the store with the debugger that there is for it.  In
it the watchers are called once more than in the other, for action 0, which changes nothing. -/
def exOps0 : List (SOp Nat) := exOps ++ [.dispatch 0, .loop, .loop]

def exDebugOps : List (SOp (DAction Nat)) :=
  [.dispatch (.act 1), .dispatch (.act 2), .loop, .loop, .loop, .go 0, .go 0, .loop, .go 0, .dispatch (.act 4),
   .prim 0 none, .go 0, .loop, .loop, .go 0, .go 0, .dispatch (.act 0), .loop, .loop, .go 0, .go 0]

example : (exec (exCfg false true) (start (exCfg false true)) exOps0).isSome = true ∧
    (exec (exDebug false true) (start (exDebug false true)) exDebugOps).isSome = true ∧
    (exSt (exCfg false true) exOps0).get = 17 ∧ view (exSt (exDebug false true) exDebugOps).get = 17 ∧
    (exSt (exDebug false true) exDebugOps).queue.isEmpty = true ∧
    dispatches (exSt (exDebug false true) exDebugOps).log = [1, 2, 4, 0].map .act ∧
    seen 10 ((exSt (exDebug false true) exDebugOps).log.map (SEv.view view)) =
      seen 10 ((exSt (exCfg false true) exOps0).log.map (SEv.map .act)) ∧
    (seen 10 ((exSt (exCfg false true) exOps0).log)).length = 17 ∧
    shows (exSt (exCfg false true) exOps0).log = [13, 17] ∧
    (shows (exSt (exDebug false true) exDebugOps).log).map view = [13, 17, 17] := by decide +kernel

/-- C92: that the debugger cannot be noticed is false for transactional stores with futures: the
future of an action without effect is fulfilled as soon as the reducer has been called, and with the
debugger it is not. -/
theorem C92_future_false :
    ((exSt (exCfg true true) [.dispatch 1, .loop]).fu.cell 0).done = true ∧
    ((exSt (exDebug true true) [.dispatch (.act 1), .loop]).fu.cell 0).done = false ∧
    (exSt (exCfg true true) [.dispatch 1, .loop]).sent = [(0, 0)] ∧
    (exSt (exDebug true true) [.dispatch (.act 1), .loop]).sent = [(0, 0)] ∧
    view (exSt (exDebug true true) [.dispatch (.act 1), .loop]).cur = 11 ∧
    (exec (exDebug true true) (start (exDebug true true)) [.dispatch (.act 1), .loop]).isSome = true ∧
    (exec (exCfg true true) (start (exCfg true true)) [.dispatch 1, .loop]).isSome = true := by
  decide +kernel

/-! ### C93 -/

section C93

variable (pid rid : Nat) {ch : DModel A Mo → DModel A Mo → Bool} {c : Cfg A Mo}

theorem debug_never (hn : ∀ m a, c.throws m a = false) (m : DModel A Mo) (a : DAction A) :
    (withDebugger pid rid ch c).throws m a = false := by
  have h1 : ∀ (m : DModel A Mo) a, debugThrows c m a = false := by
    intro m a; unfold debugThrows; rw [hn]; simp
  have h2 : ∀ (as : List A) (m : DModel A Mo), resumeThrows c as m = false := by
    intro as
    induction as with
    | nil => intro m; rfl
    | cons a as ih => intro m; unfold resumeThrows; rw [h1, ih]; rfl
  cases a with
  | act a => exact h1 m a
  | resume => exact h2 _ _
  | _ => rfl

theorem run_debugger (hn : ∀ m a, c.throws m a = false) (as : List (DAction A)) : ∀ m : DModel A Mo,
    Debugger.Inv (asReducer c) m →
    ∃ es, Debugger.run (asReducer c) m as = some (as.foldl (withDebugger pid rid ch c).next m, es) := by
  induction as with
  | nil => intro m _; exact ⟨[], rfl⟩
  | cons a as ih =>
    intro m hi
    obtain ⟨l, h1, _⟩ := withDebugger_update pid rid ch c m hi.cursor a
    obtain ⟨m', e, h2, h3, _⟩ := Debugger.update_inv (asReducer c) m a hi
    rw [h1] at h2
    cases h2
    obtain ⟨es, h4⟩ := ih _ h3
    refine ⟨l ++ es, ?_⟩
    have e1 : (withDebugger pid rid ch c).next m a = ((withDebugger pid rid ch c).reducer m a).1 := by
      unfold Cfg.next; rw [debug_never pid rid hn]; rfl
    simp only [Debugger.run, h1, List.foldl_cons, e1, h4]

/-- C93: whatever is dispatched on a store with the debugger, when no tasks are left its model is the one
that the debugger has after these actions, of which C61 to C65 are properties. -/
theorem C93_model (hch : ∀ x y, ch x y = false → x = y) (hn : ∀ m a, c.throws m a = false)
    (ht : c.trans = false) {st : St (DAction A) (DModel A Mo)} (r : Reach (withDebugger pid rid ch c) st)
    (hi : st.idle) :
    ∃ es, Debugger.run (asReducer c) (Debugger.Model.start c.init) (dispatches st.log) = some (st.get, es) := by
  obtain ⟨es, h⟩ := run_debugger pid rid (ch := ch) hn (dispatches st.log) _ (Debugger.start_inv (asReducer c) c.init)
  refine ⟨es, ?_⟩
  rw [h, C48_fold (c := withDebugger pid rid ch c) hch ht r hi]
  rfl

theorem fold_debug_cursor (as : List (DAction A)) :
    (fold (withDebugger pid rid ch c) as).cursor ≤ (fold (withDebugger pid rid ch c) as).history.length := by
  suffices h : ∀ m : DModel A Mo, Debugger.Inv (asReducer c) m →
      Debugger.Inv (asReducer c) (as.foldl (withDebugger pid rid ch c).next m) from
    (h _ (Debugger.start_inv (asReducer c) c.init)).cursor
  induction as with
  | nil => intro m h; exact h
  | cons a as ih =>
    intro m h
    refine ih _ ?_
    unfold Cfg.next
    split
    · exact h
    · obtain ⟨l, h1, _⟩ := withDebugger_update pid rid ch c m h.cursor a
      obtain ⟨m', e, h2, h3, _⟩ := Debugger.update_inv (asReducer c) m a h
      rw [h1] at h2
      cases h2
      exact h3

/-- C93: each time an action of the user or the debugger has been evaluated, the debugger says so: it gives the new
model, and the user code in the effect is that of the effects that it names, where pausing and resuming is
`loop().pause()` and `loop().resume()`. -/
theorem C93_step (hch : ∀ x y, ch x y = false → x = y) {st : St (DAction A) (DModel A Mo)}
    (r : Reach (withDebugger pid rid ch c) st) {d : Nat} {a : DAction A} {m m' : DModel A Mo} {e : Eff}
    (h : SEv.reduced d m a m' e ∈ st.log) :
    ∃ es, Debugger.update (asReducer c) m a = some (m', es) ∧ e.acts = es.flatMap (atomActs pid rid) := by
  have k := Reach.core (c := withDebugger pid rid ch c) hch r
  obtain ⟨l1, l2, hl⟩ := List.append_of_mem h
  obtain ⟨h1, h2, _⟩ := k.log l1 _ l2 hl
  obtain ⟨es, k1, k2⟩ := withDebugger_update pid rid ch c m (by rw [h1]; exact fold_debug_cursor pid rid _) a
  have e1 : m' = _ := congrArg Prod.fst h2
  have e2 : e = _ := congrArg Prod.snd h2
  exact ⟨es, by rw [e1]; exact k1, by rw [e2]; exact k2⟩

theorem resumeAll_plain (as : List A) : ∀ (m : DModel A Mo) (e : Eff), m.paused = false →
    (resumeAll c as (m, e)).1.paused = false ∧
    view (resumeAll c as (m, e)).1 = (Debugger.plain (asReducer c) (view m) as).1 ∧
    (resumeAll c as (m, e)).2.acts =
      e.acts ++ (Debugger.plain (asReducer c) (view m) as).2.flatMap Eff.acts := by
  induction as with
  | nil => intro m e h; exact ⟨h, rfl, by simp [resumeAll, Debugger.plain]⟩
  | cons a as ih =>
    intro m e h
    obtain ⟨h1, h2, h3, _⟩ := debugAct_live c h a
    obtain ⟨k1, k2, k3⟩ := ih (debugAct c m a).1 (sequence e (debugAct c m a).2) h1.1
    simp only [resumeAll, Debugger.plain]
    refine ⟨k1, ?_, ?_⟩
    · rw [k2, h2]; rfl
    · rw [k3, h2, sequence_acts, h3, filled_acts, List.append_assoc]
      congr 1
      rw [List.flatMap_append]
      congr 1
      simp only [asReducer]
      generalize (c.reducer (view m) a).2 = e
      cases e <;> simp [Eff.isEmpty, Eff.acts]

theorem resumeAll_built (hb : c.built) (as : List A) : ∀ (m : DModel A Mo) (e : Eff), Built e →
    e ≠ .empty → Built (resumeAll c as (m, e)).2 ∧ (resumeAll c as (m, e)).2 ≠ .empty := by
  induction as with
  | nil => intro m e h h0; exact ⟨h, h0⟩
  | cons a as ih =>
    intro m e h h0
    simp only [resumeAll]
    refine ih _ _ (h.sequence ?_ h0 ?_) nofun
    · unfold debugAct
      split
      · exact .noop
      · dsimp only
        unfold Eff.filled
        split
        · exact .noop
        · exact hb _ _
    · unfold debugAct
      split
      · exact nofun
      · exact filled_ne _

theorem debug_built (hb : c.built) : (withDebugger pid rid ch c).built := by
  intro m a
  cases a with
  | act a =>
    show Built (debugAct c m a).2
    unfold debugAct
    split
    · exact .noop
    · dsimp only
      unfold Eff.filled
      split
      · exact .noop
      · exact hb _ _
  | pause => exact .prim _
  | resume => exact
      have h := resumeAll_built (c := c) hb _ _ _ .noop nofun
      .sequence (.prim _) h.1 nofun h.2
  | goto_ n => exact .noop
  | undo => exact .noop
  | redo => exact .noop

/-- The user code of the effects that the reducer returns for some actions, one after the other. -/
def codeOf (c : Cfg A Mo) (m : Mo) (as : List A) : List Nat :=
  (Debugger.plain (asReducer c) m as).2.flatMap Eff.acts

/-- C93: when the debugger is resumed, it shows what the reducer makes of the actions that were dispatched
in the meantime, in order; and their effects are called in order after `loop().resume()`, each after the
futures of those before, and all of them if no user code throws. -/
theorem C93_resume (hch : ∀ x y, ch x y = false → x = y) (hb : c.built)
    {st : St (DAction A) (DModel A Mo)} (r : Reach (withDebugger pid rid ch c) st) (hu : st.fu.ub = false)
    {d : Nat} {m m' : DModel A Mo} {e : Eff} (h : SEv.reduced d m .resume m' e ∈ st.log) :
    m'.paused = false ∧ view m' = (Debugger.plain (asReducer c) (view m) m.pending).1 ∧
    ∀ x, SEv.effStart d x e ∈ st.log →
      ran x st.log <+: rid :: codeOf c (view m) m.pending ∧
      (st.quiet → ¬ Threw st x → Settled st x → ran x st.log = rid :: codeOf c (view m) m.pending) := by
  have k := Reach.core (c := withDebugger pid rid ch c) hch r
  obtain ⟨l1, l2, hl⟩ := List.append_of_mem h
  obtain ⟨_, h2, _⟩ := k.log l1 _ l2 hl
  have h2 : (m', e) = ((resumeAll c m.pending (unpause m, .noop)).1,
        sequence (.prim rid) (resumeAll c m.pending (unpause m, .noop)).2) := h2
  obtain ⟨k1, k2, k3⟩ := resumeAll_plain (c := c) m.pending (unpause m) .noop rfl
  have hv : view (unpause m) = view m := rfl
  rw [hv] at k2 k3
  have e1 : m' = _ := congrArg Prod.fst h2
  have e2 : e = _ := congrArg Prod.snd h2
  have e3 : e.acts = rid :: codeOf c (view m) m.pending := by
    rw [e2, sequence_acts, k3]
    rfl
  refine ⟨by rw [e1]; exact k1, by rw [e1]; exact k2, fun x hx => ?_⟩
  have h3 := C53_effect (c := withDebugger pid rid ch c) hch (debug_built pid rid hb) r hu hx
  rw [e3] at h3
  exact ⟨h3.1, fun a b c => (h3.2.1 a b c).1⟩

theorem resumeThrows_append (as bs : List A) : ∀ m : DModel A Mo, resumeThrows c as m = true →
    resumeThrows c (as ++ bs) m = true := by
  induction as with
  | nil => intro m h; cases h
  | cons a as ih =>
    intro m h
    simp only [List.cons_append, resumeThrows, Bool.or_eq_true] at h ⊢
    rcases h with h | h
    · exact .inl h
    · exact .inr (ih _ h)

theorem resumeThrows_iff (as : List A) : ∀ m : DModel A Mo, m.paused = false →
    (resumeThrows c as m = true ↔ ∃ l1 b l2, as = l1 ++ b :: l2 ∧
      c.throws (Debugger.plain (asReducer c) (view m) l1).1 b = true) := by
  induction as with
  | nil =>
    intro m _
    refine ⟨fun h => (nomatch h), fun ⟨l1, b, l2, h, _⟩ => ?_⟩
    cases l1 <;> cases h
  | cons a as ih =>
    intro m hm
    obtain ⟨h1, h2, _, _⟩ := debugAct_live c hm a
    have h3 := ih (debugAct c m a).1 h1.1
    simp only [resumeThrows, debugThrows, hm, Bool.not_false, Bool.true_and, Bool.or_eq_true]
    rw [h3, h2]
    constructor
    · rintro (h | ⟨l1, b, l2, rfl, h⟩)
      · exact ⟨[], a, as, rfl, h⟩
      · exact ⟨a :: l1, b, l2, rfl, h⟩
    · rintro ⟨l1, b, l2, he, h⟩
      cases l1 with
      | nil => cases he; exact .inl h
      | cons x l1 => cases he; exact .inr ⟨l1, b, l2, rfl, h⟩

/-- C93: resuming throws exactly if the reducer throws for one of the actions that were dispatched while the
debugger was paused, with the model that the ones before give. -/
theorem C93_throws (m : DModel A Mo) : (withDebugger pid rid ch c).throws m .resume = true ↔
    ∃ l1 b l2, m.pending = l1 ++ b :: l2 ∧
      c.throws (Debugger.plain (asReducer c) (view m) l1).1 b = true :=
  resumeThrows_iff m.pending (unpause m) rfl

/-- C93: if the reducer throws for an action that was dispatched while the debugger was paused, then the
debugger stays paused and resuming it throws again, whatever ordinary actions are dispatched. -/
theorem C93_stuck (l : List (DAction A)) : ∀ m : DModel A Mo, m.paused = true →
    (withDebugger pid rid ch c).throws m .resume = true →
    (∀ a ∈ l, a = .resume ∨ a = .pause ∨ ∃ b, a = .act b) →
    (l.foldl (withDebugger pid rid ch c).next m).paused = true ∧
    (withDebugger pid rid ch c).throws (l.foldl (withDebugger pid rid ch c).next m) .resume = true ∧
    view (l.foldl (withDebugger pid rid ch c).next m) = view m := by
  induction l with
  | nil => intro m h1 h2 _; exact ⟨h1, h2, rfl⟩
  | cons a l ih =>
    intro m h1 h2 hl
    rw [List.foldl_cons]
    have hl' : ∀ a ∈ l, a = .resume ∨ a = .pause ∨ ∃ b, a = .act b :=
      fun a ha => hl a (List.mem_cons_of_mem _ ha)
    rcases hl a List.mem_cons_self with rfl | rfl | ⟨b, rfl⟩
    · have e1 : (withDebugger pid rid ch c).next m .resume = m := by
        unfold Cfg.next; rw [if_pos h2]
      rw [e1]
      exact ih m h1 h2 hl'
    · have e1 : (withDebugger pid rid ch c).next m .pause = m := by
        show ({ m with paused := true } : DModel A Mo) = m
        rw [← h1]
      rw [e1]
      exact ih m h1 h2 hl'
    · have e1 : (withDebugger pid rid ch c).next m (.act b) = { m with pending := m.pending ++ [b] } := by
        show (if (!m.paused && c.throws (view m) b) = true then m else (debugAct c m b).1) = _
        unfold debugAct
        rw [h1]; rfl
      rw [e1]
      obtain ⟨k1, k2, k3⟩ := ih { m with pending := m.pending ++ [b] } h1
        (resumeThrows_append _ _ _ h2) hl'
      exact ⟨k1, k2, k3⟩

end C93

/-- The debugger is paused, action 2, which has an effect, is dispatched, and it is resumed. -/
def exPauseOps : List (SOp (DAction Nat)) :=
  [.dispatch .pause, .loop, .loop, .go 0, .prim 0 none, .go 0, .dispatch (.act 2), .loop, .loop, .go 0, .go 0]

def exResumeOps : List (SOp (DAction Nat)) :=
  exPauseOps ++ [.dispatch .resume, .loop, .loop, .go 0, .go 0]

/-- … and everything is run. -/
def exResumedOps : List (SOp (DAction Nat)) :=
  exResumeOps ++ [.prim 0 none, .go 0, .go 0, .go 0, .go 0, .go 0, .prim 0 none, .go 0]

example : (exec (exDebug false true) (start (exDebug false true)) exResumedOps).isSome = true ∧
    (exSt (exDebug false true) exResumedOps).queue.isEmpty = true ∧
    (exSt (exDebug false true) exResumedOps).ev = [] ∧
    ran 2 (exSt (exDebug false true) exResumedOps).log = [101, 7] ∧
    codeOf (exCfg false true) 10 [2] = [7] ∧
    SEv.effStart 2 2 (.seq (.prim 101) (.seq .noop (.prim 7))) ∈ (exSt (exDebug false true) exResumedOps).log ∧
    view (exSt (exDebug false true) exResumedOps).get = 12 ∧
    (exSt (exDebug false true) exResumedOps).get.paused = false := by decide +kernel

/-- C93: that the future of an action is fulfilled only after the action has been evaluated is false
while the debugger is paused: it is fulfilled although the action is only kept. -/
theorem C93_early_false :
    Reach (exDebug false true) (exSt (exDebug false true) exPauseOps) ∧
    (exSt (exDebug false true) exPauseOps).sent[1]? = some (1, 1) ∧
    ((exSt (exDebug false true) exPauseOps).fu.cell 1).done = true ∧
    dispatches (exSt (exDebug false true) exPauseOps).log = [.pause, .act 2] ∧
    (exSt (exDebug false true) exPauseOps).cur.pending = [2] ∧
    (exSt (exDebug false true) exPauseOps).cur.history = [] ∧
    view (exSt (exDebug false true) exPauseOps).get = 10 :=
  ⟨exSt_reach (by decide +kernel), by decide +kernel⟩

/-- C93: that the effects of these actions are called is false if `loop().resume()` throws, as that of
most event loops does: the model shows the result of the action, nothing is left to do, and its effect has
not been called. -/
theorem C93_lost_false :
    Reach (exDebug false true) (exSt (exDebug false true) (exResumeOps ++ [.raise 0])) ∧
    (exSt (exDebug false true) (exResumeOps ++ [.raise 0])).queue.isEmpty = true ∧
    (exSt (exDebug false true) (exResumeOps ++ [.raise 0])).ev = [] ∧
    view (exSt (exDebug false true) (exResumeOps ++ [.raise 0])).get = 12 ∧
    SEv.primThrew 2 0 ∈ (exSt (exDebug false true) (exResumeOps ++ [.raise 0])).log ∧
    ran 2 (exSt (exDebug false true) (exResumeOps ++ [.raise 0])).log = [101] ∧
    ((exCfg false true).reducer 10 2).2.acts = [7] :=
  ⟨exSt_reach (by decide +kernel), by decide +kernel⟩

/-- A reducer that throws for action 3. -/
def exStuck : Cfg (DAction Nat) (DModel Nat Nat) :=
  withDebugger 100 101 (fun x y => decide (x ≠ y)) { exCfg false false with throws := fun _ a => a == 3 }

example : exStuck.throws ([.act 1, .pause, .act 2, .act 3].foldl exStuck.next exStuck.init) .resume = true ∧
    ([.act 1, .pause, .act 2, .act 3].foldl exStuck.next exStuck.init).paused = true := by decide +kernel

end Verif.Store
