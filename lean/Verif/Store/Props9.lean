import Verif.Store.TreeDebug
import Verif.Store.Props5
import Verif.Store.Props6

/-!
Property C96: stores with the tree debugger.
-/

namespace Verif.Store

open Verif

variable {A Mo : Type}

/-! ### Helpers -/

theorem stepAt_next_none {b : List (List (Tree.Step A Mo))} {c : Tree.Cursor} (hc : c ≠ [])
    (h : Tree.stepAt b c = none) : Tree.stepAt b (Tree.nextInBranch c) = none := by
  induction c generalizing b with
  | nil => exact absurd rfl hc
  | cons p rest ih =>
    cases rest with
    | nil =>
      rw [Tree.nextInBranch_single, Tree.stepAt_cons]
      rw [Tree.stepAt_cons] at h
      cases hb : b[p.branch]? with
      | none => rfl
      | some hist =>
        rw [hb] at h
        simp only [Option.bind_some, if_true, Option.bind_eq_none_iff] at h ⊢
        have h' : hist[p.step]? = none := by
          cases hh : hist[p.step]? with
          | none => rfl
          | some x => exact absurd (h x hh) (by simp)
        rw [List.getElem?_eq_none_iff] at h'
        intro a ha
        rw [List.getElem?_eq_none (by omega)] at ha
        cases ha
    | cons q rest =>
      rw [Tree.nextInBranch_cons, Tree.stepAt_cons]
      rw [Tree.stepAt_cons] at h
      cases hb : b[p.branch]? with
      | none => rfl
      | some hist =>
        rw [hb] at h
        simp only [Option.bind_some] at h ⊢
        cases hh : hist[p.step]? with
        | none => rfl
        | some node =>
          rw [hh] at h
          simp only [Option.bind_some] at h ⊢
          rw [if_neg (by simp)] at h
          rw [if_neg (Tree.nextInBranch_ne_nil q rest)]
          exact ih (by simp) h

/-- Where the next action is going to be recorded at the position that is shown then: the root, the end of a branch,
or a step on which no branch has been started yet. -/
def Fresh (m : TModel A Mo) : Prop :=
  m.cursor = [] ∨ Tree.stepAt m.branches (Tree.nextInBranch m.cursor) = none ∨
    ∃ s, Tree.stepAt m.branches m.cursor = some s ∧ s.branches = []

theorem treeAct_fresh {c : Cfg A Mo} {m : TModel A Mo} (hi : Tree.Inv (asReducer c) m) (hp : m.paused = false)
    (hf : Fresh m) (a : A) :
    tview (treeAct c m a).1 = (c.reducer (tview m) a).1 ∧ Fresh (treeAct c m a).1 ∧
    (treeAct c m a).2 = (c.reducer (tview m) a).2.filled ∧ (treeAct c m a).1.paused = false := by
  obtain ⟨l, h1, _, _, h4⟩ := treeAct_update 0 0 c m hi a
  obtain ⟨x, m', k1, k2, _, _, _, k6, k7⟩ := Tree.act_spec (asReducer c) m a hi hp
  rw [h1] at k2
  injection k2 with k2 _
  rw [← k2] at k6 k7
  have hx : tview m = x := by unfold tview; rw [k1]; rfl
  have hc : (treeAct c m a).1.cursor = Tree.newPos m.branches m.cursor := by
    rcases k7 with k7 | ⟨s, hs, hb, ⟨t, ht⟩, _⟩
    · exact k7
    · exfalso
      rcases hf with h | h | ⟨s', hs', hb'⟩
      · rw [h] at hs; cases hs
      · rw [h] at ht; cases ht
      · rw [hs] at hs'; cases hs'; exact hb hb'
  have hne := Tree.newPos_ne_nil m.branches m.cursor
  refine ⟨?_, .inr (.inl ?_), ?_, h4.trans hp⟩
  · rw [hx]
    unfold tview Tree.Model.shown
    rw [k6, if_pos hc]
    rfl
  · have h5 : Tree.stepAt m.branches (Tree.nextInBranch (Tree.newPos m.branches m.cursor)) = none :=
      stepAt_next_none hne (Tree.newPos_fresh _ _)
    rw [hc]
    cases hs : Tree.stepAt (treeAct c m a).1.branches (Tree.nextInBranch (Tree.newPos m.branches m.cursor)) with
    | none => rfl
    | some s =>
      have h6 := Tree.stepAt_lookup _ _ _ hs
      have h7 : Tree.nextInBranch (Tree.newPos m.branches m.cursor) ≠ Tree.newPos m.branches m.cursor := by
        intro e
        have := Tree.undo_nextInBranch _ hne
        rw [e, Tree.undo_newPos] at this
        · have hl := Tree.lookup_newPos_none m
          rw [← this] at hl
          obtain ⟨p, hp'⟩ := hi.valid
          rw [hp'] at hl
          cases hl
        · obtain ⟨p, hp'⟩ := hi.valid
          rcases Tree.lookup_stepAt m _ _ hp' with h | ⟨s, h, _⟩
          · exact .inl h
          · exact .inr ⟨s, h⟩
      rw [k6, if_neg h7] at h6
      rcases Tree.lookup_stepAt m _ _ h6 with h | ⟨s', h, _⟩
      · obtain ⟨p, r, e⟩ := List.exists_cons_of_ne_nil hne
        rw [e] at h
        exact absurd h (Tree.nextInBranch_ne_nil p r)
      · rw [h5] at h; cases h
  · unfold treeAct
    rw [hp]
    rfl

theorem treeResume_fresh {c : Cfg A Mo} (as : List A) : ∀ (m : TModel A Mo) (e : Eff),
    Tree.Inv (asReducer c) m → m.paused = false → Fresh m →
    tview (treeResume c as (m, e)).1 = (Debugger.plain (asReducer c) (tview m) as).1 ∧
    (treeResume c as (m, e)).2.acts = e.acts ++ codeOf c (tview m) as := by
  induction as with
  | nil => intro m e _ _ _; exact ⟨rfl, by simp [treeResume, codeOf, Debugger.plain]⟩
  | cons a as ih =>
    intro m e hi hp hf
    obtain ⟨h1, h2, h3, h4⟩ := treeAct_fresh hi hp hf a
    obtain ⟨l, _, _, h5, _⟩ := treeAct_update 0 0 c m hi a
    obtain ⟨k2, k3⟩ := ih (treeAct c m a).1 (sequence e (treeAct c m a).2) h5 h4 h2
    simp only [treeResume, Debugger.plain, codeOf] at k3 ⊢
    refine ⟨?_, ?_⟩
    · rw [k2, h1]; rfl
    · rw [k3, h1, sequence_acts, h3, filled_acts, List.append_assoc]
      congr 1
      rw [List.flatMap_append]
      congr 1
      simp only [asReducer]
      generalize (c.reducer (tview m) a).2 = e
      cases e <;> simp [Eff.isEmpty, Eff.acts]

theorem treeResume_built {c : Cfg A Mo} (hb : c.built) (as : List A) : ∀ (m : TModel A Mo) (e : Eff), Built e →
    e ≠ .empty → Built (treeResume c as (m, e)).2 ∧ (treeResume c as (m, e)).2 ≠ .empty := by
  induction as with
  | nil => intro m e h h0; exact ⟨h, h0⟩
  | cons a as ih =>
    intro m e h h0
    simp only [treeResume]
    refine ih _ _ (h.sequence ?_ h0 ?_) nofun
    · unfold treeAct
      split
      · exact .noop
      · dsimp only
        unfold Eff.filled
        split
        · exact .noop
        · exact hb _ _
    · unfold treeAct
      split
      · exact nofun
      · exact filled_ne _

section C96

variable (pid rid : Nat) {ch : TModel A Mo → TModel A Mo → Bool} {c : Cfg A Mo}

theorem tree_built (hb : c.built) : (withTree pid rid ch c).built := by
  intro m a
  cases a with
  | act a =>
    show Built (treeAct c m a).2
    unfold treeAct
    split
    · exact .noop
    · dsimp only
      unfold Eff.filled
      split
      · exact .noop
      · exact hb _ _
  | pause => exact .prim _
  | resume => exact
      have h := treeResume_built (c := c) hb _ _ _ .noop nofun
      .sequence (.prim _) h.1 nofun h.2
  | _ => exact .noop

theorem fold_tree (as : List A) : ∀ m : TModel A Mo, TLive m →
    TLive ((as.map .act).foldl (withTree pid rid ch c).next m) ∧
    tview ((as.map .act).foldl (withTree pid rid ch c).next m) = as.foldl c.next (tview m) := by
  induction as with
  | nil => intro m h; exact ⟨h, rfl⟩
  | cons a as ih =>
    intro m h
    simp only [List.map_cons, List.foldl_cons]
    have e1 : (withTree pid rid ch c).next m (.act a) =
        if c.throws (tview m) a then m else (treeAct c m a).1 := by
      show (if (!m.paused && c.throws (tview m) a) = true then _ else _) = _
      rw [h.1]; rfl
    rw [e1]
    unfold Cfg.next
    split
    · exact ih m h
    · obtain ⟨h1, h2, _⟩ := treeAct_live c h a
      rw [← h2]
      exact ih _ h1

theorem tree_never (hn : ∀ m a, c.throws m a = false) (m : TModel A Mo) (a : TAction A) (ha : a ≠ .redo) :
    (withTree pid rid ch c).throws m a = false := by
  have h1 : ∀ (m : TModel A Mo) a, treeThrows c m a = false := by
    intro m a; unfold treeThrows; rw [hn]; simp
  have h2 : ∀ (as : List A) (m : TModel A Mo), treeResumeThrows c as m = false := by
    intro as
    induction as with
    | nil => intro m; rfl
    | cons a as ih => intro m; unfold treeResumeThrows; rw [h1, ih]; rfl
  cases a with
  | act a => exact h1 m a
  | resume => exact h2 _ _
  | redo => exact absurd rfl ha
  | _ => rfl

theorem run_tree (hn : ∀ m a, c.throws m a = false) (as : List (TAction A)) : ∀ m : TModel A Mo,
    Tree.Inv (asReducer c) m →
    ∃ es, Tree.run (asReducer c) m as = some (as.foldl (withTree pid rid ch c).next m, es) := by
  induction as with
  | nil => intro m _; exact ⟨[], rfl⟩
  | cons a as ih =>
    intro m hi
    by_cases ha : a = .redo
    · subst ha
      obtain ⟨es, h⟩ := ih m hi
      exact ⟨es, h⟩
    · obtain ⟨l, h1, _⟩ := withTree_update pid rid ch c m hi a ha
      have e1 : (withTree pid rid ch c).next m a = ((withTree pid rid ch c).reducer m a).1 := by
        unfold Cfg.next; rw [tree_never pid rid hn m a ha]; rfl
      have h3 := withTree_inv pid rid ch c m hi a
      rw [e1] at h3
      obtain ⟨es, h4⟩ := ih _ h3
      refine ⟨l ++ es, ?_⟩
      simp only [Tree.run, h1, List.foldl_cons, e1, h4]

theorem next_extends (m : TModel A Mo) (h : Tree.Inv (asReducer c) m) (a : TAction A) :
    Tree.Extends m ((withTree pid rid ch c).next m a) := by
  unfold Cfg.next
  split
  · exact fun _ _ h => h
  · next hn =>
    have ha : a ≠ .redo := by rintro rfl; exact hn rfl
    obtain ⟨l, h1, _⟩ := withTree_update pid rid ch c m h a ha
    rcases Tree.update_inv (asReducer c) m a h with ⟨h2, _⟩ | ⟨m', e, h2, _, h3⟩
    · rw [h1] at h2; cases h2
    · rw [h1] at h2; cases h2; exact h3

theorem fold_extends (as : List (TAction A)) : ∀ m : TModel A Mo, Tree.Inv (asReducer c) m →
    Tree.Extends m (as.foldl (withTree pid rid ch c).next m) := by
  induction as with
  | nil => intro m _ _ _ h; exact h
  | cons a as ih =>
    intro m h c' p hp
    exact ih _ (withTree_inv pid rid ch c m h a) c' p (next_extends pid rid m h a c' p hp)

theorem fold_inv (as : List (TAction A)) : Tree.Inv (asReducer c) (fold (withTree pid rid ch c) as) :=
  fold_tree_inv pid rid ch c as _ (Tree.start_inv (asReducer c) c.init)

/-! ### C96 -/

/-- C96: for each run of a store without the tree debugger there is one of the store with it, with the same
actions and the same schedule, that leads to the same model, futures and number of tasks, and in which
the same was seen: the same calls of the reducer, of watchers with new values, and of effects, in
the same order.  (Also if reducers, watchers and effects throw.) -/
theorem C96_transparent [DecidableEq Mo] (hc : c.sound) (hch : ∀ x y, ch x y = false → x = y)
    (ht : c.trans = false) {ops : List (SOp A)} {st : St A Mo} (hs : exec c (start c) ops = some st) :
    ∃ ops' st', ops'.filter (fun o => !o.isGo) = (ops.filter (fun o => !o.isGo)).map (SOp.map .act) ∧
      exec (withTree pid rid ch c) (start (withTree pid rid ch c)) ops' = some st' ∧
      tview st'.get = st.get ∧ st'.fu = st.fu ∧ st'.sent = st.sent ∧
      st'.queue.length = st.queue.length ∧
      seen c.init (st'.log.map (SEv.view tview)) = seen c.init (st.log.map (SEv.map .act)) := by
  have k := sim_tree pid rid hc hch ht
  obtain ⟨ops', st', h1, h2, h3⟩ := Rel.exec k ops (Rel.start k) hs
  exact ⟨ops', st', h1, h2, h3.last, h3.fu, h3.sent, by rw [h3.queue, List.length_map], h3.log.1⟩

/-- C96: whatever the schedule, if only ordinary actions have been dispatched on the store with the
tree debugger, then when no tasks are left it shows what a store without it shows. -/
theorem C96_model (hch : ∀ x y, ch x y = false → x = y) (ht : c.trans = false)
    {st : St (TAction A) (TModel A Mo)} (r : Reach (withTree pid rid ch c) st) (hi : st.idle)
    {as : List A} (ha : dispatches st.log = as.map .act) : tview st.get = fold c as := by
  rw [C48_fold (c := withTree pid rid ch c) hch ht r hi, ha]
  exact (fold_tree pid rid as _ ⟨rfl, .inl ⟨rfl, rfl⟩⟩).2

/-- C96: … and what the watchers are called with, and what `commit` makes visible, is what it is without it. -/
theorem C96_watched (hch : ∀ x y, ch x y = false → x = y) {st : St (TAction A) (TModel A Mo)}
    (r : Reach (withTree pid rid ch c) st) :
    (∀ l1 l2 m, st.log = l1 ++ .shown m :: l2 → ∀ as : List A, reductions l1 = as.map .act →
      tview m = fold c as) ∧
    (∀ st', step (withTree pid rid ch c) st .commit = some st' → ∀ as : List A, reductions st.log = as.map .act →
      tview st'.get = fold c as) := by
  constructor
  · intro l1 l2 m h as ha
    rw [(C50_fold (c := withTree pid rid ch c) hch r h).1, ha]
    exact (fold_tree pid rid as _ ⟨rfl, .inl ⟨rfl, rfl⟩⟩).2
  · intro st' h as ha
    rw [(C51_commit (c := withTree pid rid ch c) hch r h).1, ha]
    exact (fold_tree pid rid as _ ⟨rfl, .inl ⟨rfl, rfl⟩⟩).2

/-- C96: whatever is dispatched, when no tasks are left the model of the store is the one that the tree debugger has
after these actions, of which C66 to C68 and C74 are properties. -/
theorem C96_run (hch : ∀ x y, ch x y = false → x = y) (hn : ∀ m a, c.throws m a = false)
    (ht : c.trans = false) {st : St (TAction A) (TModel A Mo)} (r : Reach (withTree pid rid ch c) st)
    (hi : st.idle) :
    ∃ es, Tree.run (asReducer c) (Tree.Model.start c.init) (dispatches st.log) = some (st.get, es) := by
  obtain ⟨es, h⟩ := run_tree pid rid (ch := ch) hn (dispatches st.log) _ (Tree.start_inv (asReducer c) c.init)
  refine ⟨es, ?_⟩
  rw [h, C48_fold (c := withTree pid rid ch c) hch ht r hi]
  rfl

/-- C96: nothing that was recorded gets lost: whatever is dispatched, also if the reducer throws, a step that a
watcher has seen is at the same place, with the same action and model, whenever watchers are called later; and there
is always a model that is shown. -/
theorem C96_keeps (hch : ∀ x y, ch x y = false → x = y) {st : St (TAction A) (TModel A Mo)}
    (r : Reach (withTree pid rid ch c) st) {l1 l2 l3 : List (SEv (TAction A) (TModel A Mo))}
    {m m' : TModel A Mo} (h : st.log = l1 ++ .shown m :: l2 ++ .shown m' :: l3) :
    (∀ p s, Tree.stepAt m.branches p = some s →
      ∃ s', Tree.stepAt m'.branches p = some s' ∧ s'.action = s.action ∧ s'.model = s.model) ∧
    ∃ x, m'.shown = some x := by
  have h1 := (C50_fold (c := withTree pid rid ch c) hch r (l1 := l1) (v := m) (l2 := l2 ++ .shown m' :: l3)
    (by rw [h, List.append_assoc]; rfl)).1
  have h2 := (C50_fold (c := withTree pid rid ch c) hch r (l1 := l1 ++ .shown m :: l2) (l2 := l3) h).1
  have e1 : m' = (reductions (SEv.shown m :: l2)).foldl (withTree pid rid ch c).next m := by
    rw [h2, reductions_append, h1]
    unfold fold
    rw [List.foldl_append]
  have hi : Tree.Inv (asReducer c) m := by rw [h1]; exact fold_inv pid rid _
  have hi' : Tree.Inv (asReducer c) m' := by rw [h2]; exact fold_inv pid rid _
  constructor
  · intro p s hs
    have hl := fold_extends pid rid (ch := ch) (reductions (SEv.shown m :: l2)) m hi p _ (Tree.stepAt_lookup m p s hs)
    rw [← e1] at hl
    rcases Tree.lookup_stepAt m' p _ hl with rfl | ⟨s', hs', he⟩
    · cases hs
    · obtain ⟨e1, e2⟩ := Prod.mk.inj he
      exact ⟨s', hs', (Option.some.inj e1).symm, e2.symm⟩
  · obtain ⟨p, hp⟩ := hi'.valid
    exact ⟨p.2, by unfold Tree.Model.shown; rw [hp]; rfl⟩

/-- C96: when the debugger is resumed, what it has recorded is as if the kept actions had been dispatched then, in
order; and their effects are called in order after `loop().resume()`, each after the futures of those before, and all
of them if no user code throws. -/
theorem C96_resume (hch : ∀ x y, ch x y = false → x = y) (hb : c.built)
    {st : St (TAction A) (TModel A Mo)} (r : Reach (withTree pid rid ch c) st) (hu : st.fu.ub = false)
    {d : Nat} {m m' : TModel A Mo} {e : Eff} (h : SEv.reduced d m .resume m' e ∈ st.log) :
    m'.paused = false ∧ m'.pending = [] ∧
    ∃ es, Tree.run (asReducer c) { m with paused := false, pending := [] } (m.pending.map .act) = some (m', es) ∧
    ∀ x, SEv.effStart d x e ∈ st.log →
      ran x st.log <+: rid :: es.flatMap (atomActs pid rid) ∧
      (st.quiet → ¬ Threw st x → Settled st x → ran x st.log = rid :: es.flatMap (atomActs pid rid)) := by
  have k := Reach.core (c := withTree pid rid ch c) hch r
  obtain ⟨l1, l2, hl⟩ := List.append_of_mem h
  obtain ⟨h1, h2, _⟩ := k.log l1 _ l2 hl
  have hi : Tree.Inv (asReducer c) m := by rw [h1]; exact fold_inv pid rid _
  have h2 : (m', e) = ((treeResume c m.pending (tunpause m, .noop)).1,
        sequence (.prim rid) (treeResume c m.pending (tunpause m, .noop)).2) := h2
  have hi1 := inv_tunpause hi
  obtain ⟨l, k1, k2, k3, k4⟩ := treeResume_update pid rid c m.pending (tunpause m) .noop [] hi1 rfl
  obtain ⟨m2, es, k5, _⟩ := Tree.run_inv (asReducer c) (m.pending.map .act) (tunpause m) hi1
  have k6 := Tree.resumeLoop_eq_run (asReducer c) m.pending (tunpause m) m2 [] es hi1 k5
  rw [k1] at k6
  injection k6 with k6 k7
  have e1 : m' = _ := congrArg Prod.fst h2
  have e2 : e = _ := congrArg Prod.snd h2
  have e3 : e.acts = rid :: es.flatMap (atomActs pid rid) := by
    rw [e2, sequence_acts, k2, k7]
    rfl
  have hp : m'.paused = false := by rw [e1, k4]; rfl
  refine ⟨hp, ?_, es, ?_, fun x hx => ?_⟩
  · rw [e1] at hp ⊢
    exact k3.pending hp
  · rw [e1, k6]; exact k5
  · have h3 := C53_effect (c := withTree pid rid ch c) hch (tree_built pid rid hb) r hu hx
    rw [e3] at h3
    exact ⟨h3.1, fun a b c => (h3.2.1 a b c).1⟩

/-- C96: … and if it was paused at the root, at the end of a branch or on a step without branches, it shows what the
reducer makes of the kept actions, and their effects are those of the reducer. -/
theorem C96_resumed (hch : ∀ x y, ch x y = false → x = y) (hb : c.built)
    {st : St (TAction A) (TModel A Mo)} (r : Reach (withTree pid rid ch c) st) (hu : st.fu.ub = false)
    {d : Nat} {m m' : TModel A Mo} {e : Eff} (h : SEv.reduced d m .resume m' e ∈ st.log)
    (hf : m.cursor = [] ∨ Tree.stepAt m.branches (Tree.nextInBranch m.cursor) = none ∨
      ∃ s, Tree.stepAt m.branches m.cursor = some s ∧ s.branches = []) :
    tview m' = (Debugger.plain (asReducer c) (tview m) m.pending).1 ∧
    ∀ x, SEv.effStart d x e ∈ st.log →
      ran x st.log <+: rid :: codeOf c (tview m) m.pending ∧
      (st.quiet → ¬ Threw st x → Settled st x → ran x st.log = rid :: codeOf c (tview m) m.pending) := by
  have k := Reach.core (c := withTree pid rid ch c) hch r
  obtain ⟨l1, l2, hl⟩ := List.append_of_mem h
  obtain ⟨h1, h2, _⟩ := k.log l1 _ l2 hl
  have hi : Tree.Inv (asReducer c) m := by rw [h1]; exact fold_inv pid rid _
  have h2 : (m', e) = ((treeResume c m.pending (tunpause m, .noop)).1,
        sequence (.prim rid) (treeResume c m.pending (tunpause m, .noop)).2) := h2
  obtain ⟨k1, k2⟩ := treeResume_fresh (c := c) m.pending (tunpause m) .noop (inv_tunpause hi) rfl hf
  have hv : tview (tunpause m) = tview m := rfl
  rw [hv] at k1 k2
  have e1 : m' = _ := congrArg Prod.fst h2
  have e2 : e = _ := congrArg Prod.snd h2
  have e3 : e.acts = rid :: codeOf c (tview m) m.pending := by
    rw [e2, sequence_acts, k2]
    rfl
  refine ⟨by rw [e1]; exact k1, fun x hx => ?_⟩
  have h3 := C53_effect (c := withTree pid rid ch c) hch (tree_built pid rid hb) r hu hx
  rw [e3] at h3
  exact ⟨h3.1, fun a b c => (h3.2.1 a b c).1⟩

/-- C96: `redo` throws out of the task of the event loop: the task changes neither the model nor what watchers see,
and its future is never fulfilled. -/
theorem C96_redo (hch : ∀ x y, ch x y = false → x = y) {st st' : St (TAction A) (TModel A Mo)}
    (r : Reach (withTree pid rid ch c) st) {d i : Nat} {q : List (Item (TAction A))}
    (hq : st.queue = .reduce d .redo i :: q) (h : step (withTree pid rid ch c) st .loop = some st') :
    st'.cur = st.cur ∧ st'.get = st.get ∧ st'.queue = q ∧ shows st'.log = shows st.log ∧ ReducerThrew st' d ∧
    (c.hasF = true → st'.fu.ub = false → ∀ s, Promised st' d s → ¬ Future.Fulfilled st'.fu s) := by
  have r' := r.step _ h
  obtain ⟨e, he⟩ : ∃ t, t = st' ∧ t = { st with queue := q, log := st.log ++ [.reduceThrew d st.cur .redo] } := by
    simp only [step, St.loop, hq] at h
    refine ⟨st', rfl, ?_⟩
    simpa [withTree, St.say] using h.symm
  obtain ⟨rfl, he⟩ := he
  have ht : ReducerThrew e d := ⟨st.cur, .redo, by rw [he]; simp⟩
  refine ⟨by rw [he], by rw [he]; rfl, by rw [he], ?_, ht, fun hF hu s hs => ?_⟩
  · rw [he]; simp [shows_append, shows]
  · exact (C81_reducer (c := withTree pid rid ch c) hch r' ht).2.2 hF hu s hs

/-- C96: each time an action of the user or the debugger has been evaluated, the tree debugger says so: it gives the
new model, and the user code in the effect is that of the effects that it names, where pausing and resuming is
`loop().pause()` and `loop().resume()`. -/
theorem C96_step (hch : ∀ x y, ch x y = false → x = y) {st : St (TAction A) (TModel A Mo)}
    (r : Reach (withTree pid rid ch c) st) {d : Nat} {a : TAction A} {m m' : TModel A Mo} {e : Eff}
    (h : SEv.reduced d m a m' e ∈ st.log) :
    ∃ es, Tree.update (asReducer c) m a = .ok m' es ∧ e.acts = es.flatMap (atomActs pid rid) := by
  have k := Reach.core (c := withTree pid rid ch c) hch r
  obtain ⟨l1, l2, hl⟩ := List.append_of_mem h
  obtain ⟨h1, h2, h3⟩ := k.log l1 _ l2 hl
  have hi : Tree.Inv (asReducer c) m := by rw [h1]; exact fold_inv pid rid _
  have ha : a ≠ .redo := by rintro rfl; cases h3
  obtain ⟨es, k1, k2⟩ := withTree_update pid rid ch c m hi a ha
  have e1 : m' = _ := congrArg Prod.fst h2
  have e2 : e = _ := congrArg Prod.snd h2
  exact ⟨es, by rw [e1]; exact k1, by rw [e2]; exact k2⟩

theorem treeResumeThrows_iff (as : List A) : ∀ m : TModel A Mo, Tree.Inv (asReducer c) m → m.paused = false →
    (treeResumeThrows c as m = true ↔ ∃ l1 b l2 m1 es x, as = l1 ++ b :: l2 ∧
      Tree.run (asReducer c) m (l1.map .act) = some (m1, es) ∧ m1.shown = some x ∧ c.throws x b = true) := by
  induction as with
  | nil =>
    intro m _ _
    refine ⟨fun h => (nomatch h), fun ⟨l1, b, l2, _, _, _, h, _⟩ => ?_⟩
    cases l1 <;> cases h
  | cons a as ih =>
    intro m hi hm
    obtain ⟨l, h1, _, h2, h3⟩ := treeAct_update 0 0 c m hi a
    have h4 := ih (treeAct c m a).1 h2 (h3.trans hm)
    simp only [treeResumeThrows, treeThrows, hm, Bool.not_false, Bool.true_and, Bool.or_eq_true]
    rw [h4]
    constructor
    · rintro (h | ⟨l1, b, l2, m1, es, x, rfl, h, h'⟩)
      · obtain ⟨p, hp⟩ := hi.valid
        have hx : m.shown = some p.2 := by unfold Tree.Model.shown; rw [hp]; rfl
        have hv : tview m = p.2 := by unfold tview; rw [hx]; rfl
        exact ⟨[], a, as, m, [], p.2, rfl, rfl, hx, hv ▸ h⟩
      · refine ⟨a :: l1, b, l2, m1, l ++ es, x, rfl, ?_, h'⟩
        simp only [List.map_cons, Tree.run, Tree.update, h1, h]
    · rintro ⟨l1, b, l2, m1, es, x, he, h, hx, ht⟩
      cases l1 with
      | nil =>
        cases he
        cases h
        left
        unfold tview
        rw [hx]
        exact ht
      | cons y l1 =>
        cases he
        simp only [List.map_cons, Tree.run, Tree.update, h1] at h
        split at h
        · cases h
        · next h5 =>
          cases h
          exact .inr ⟨l1, b, l2, _, _, x, rfl, h5, hx, ht⟩

/-- C96: when the next action of the queue throws: `redo`; an ordinary action when the reducer throws for it and the
debugger is not paused; and resuming, if the reducer throws for one of the kept actions, with the model that is shown
after the ones before. -/
theorem C96_throws (hch : ∀ x y, ch x y = false → x = y) {st : St (TAction A) (TModel A Mo)}
    (r : Reach (withTree pid rid ch c) st) (a : TAction A) :
    (withTree pid rid ch c).throws st.cur a = true ↔
      a = .redo ∨ (∃ b, a = .act b ∧ st.cur.paused = false ∧ c.throws (tview st.cur) b = true) ∨
      (a = .resume ∧ ∃ l1 b l2 m es x, st.cur.pending = l1 ++ b :: l2 ∧
        Tree.run (asReducer c) { st.cur with paused := false, pending := [] } (l1.map .act) = some (m, es) ∧
        m.shown = some x ∧ c.throws x b = true) := by
  have k := Reach.core (c := withTree pid rid ch c) hch r
  have hi : Tree.Inv (asReducer c) st.cur := by rw [k.cur]; exact fold_inv pid rid _
  cases a with
  | act b =>
    show (!st.cur.paused && c.throws (tview st.cur) b) = true ↔ _
    simp
  | redo => exact ⟨fun _ => .inl rfl, fun _ => rfl⟩
  | resume =>
    show treeResumeThrows c st.cur.pending (tunpause st.cur) = true ↔ _
    rw [treeResumeThrows_iff _ _ (inv_tunpause hi) rfl]
    simp [tunpause]
  | goto_ p => exact ⟨fun h => (nomatch h), by simp⟩
  | undo => exact ⟨fun h => (nomatch h), by simp⟩
  | pause => exact ⟨fun h => (nomatch h), by simp⟩

end C96

/-! ### Examples -/

/-- The counter of the examples with the tree debugger; user code 100 and 101 is `loop().pause()` and
`loop().resume()`. -/
def exTree (trans hasF : Bool) : Cfg (TAction Nat) (TModel Nat Nat) :=
  withTree 100 101 (fun x y => decide (x ≠ y)) (exCfg trans hasF)

theorem exTree_sound (x y : TModel Nat Nat) (h : decide (x ≠ y) = false) : x = y := by
  simpa using h

/-- The run of the example of C92. -/
def exTreeOps : List (SOp (TAction Nat)) :=
  [.dispatch (.act 1), .dispatch (.act 2), .loop, .loop, .loop, .go 0, .go 0, .loop, .go 0, .dispatch (.act 4),
   .prim 0 none, .go 0, .loop, .loop, .go 0, .go 0, .dispatch (.act 0), .loop, .loop, .go 0, .go 0]

example : (exec (exTree false true) (start (exTree false true)) exTreeOps).isSome = true ∧
    tview (exSt (exTree false true) exTreeOps).get = 17 ∧
    (exSt (exTree false true) exTreeOps).queue.isEmpty = true ∧
    dispatches (exSt (exTree false true) exTreeOps).log = [1, 2, 4, 0].map .act ∧
    seen 10 ((exSt (exTree false true) exTreeOps).log.map (SEv.view tview)) =
      seen 10 ((exSt (exCfg false true) exOps0).log.map (SEv.map .act)) := by decide +kernel

/-- One action dispatched on a store without futures, with everything run; for those without user code. -/
def exOne (a : TAction Nat) : List (SOp (TAction Nat)) := [.dispatch a, .loop, .loop, .go 0, .go 0]

/-- Two actions, back to the first, another one, and back again.  Watchers have seen the recorded steps. -/
def exBranchOps : List (SOp (TAction Nat)) :=
  exOne (.act 1) ++ exOne (.act 3) ++ exOne .undo ++ exOne (.act 4) ++ exOne .undo

example : (exec (exTree false false) (start (exTree false false)) (exBranchOps ++ [.dispatch .redo, .loop])).isSome = true ∧
    (shows (exSt (exTree false false) exBranchOps).log).map tview = [11, 14, 11, 15, 11] ∧
    (exSt (exTree false false) exBranchOps).queue.isEmpty = true := by decide +kernel

/-- C96 is FALSE for showing the results of actions: on a past step with a branch, another action is evaluated,
recorded, and its effect is called; but the store shows the first step of the first branch that was started there,
whether it was dispatched at once or kept while the debugger was paused. -/
theorem C96_branch_false :
    (let st := exSt (exTree false false) (exBranchOps ++ [.dispatch (.act 2), .loop, .loop, .go 0, .prim 0 none, .go 0])
     Reach (exTree false false) st ∧ st.idle ∧ st.ev = [] ∧ tview st.get = 15 ∧
      (∃ d m' e, SEv.reduced d (exSt (exTree false false) exBranchOps).get (.act 2) m' e ∈ st.log) ∧
      tview (exSt (exTree false false) exBranchOps).get = 11 ∧ ((exCfg false false).reducer 11 2).1 = 13 ∧
      (∃ x pos, SEv.prim x pos 7 ∈ st.log) ∧ ∀ m ∈ shows st.log, tview m ≠ 13) ∧
    (let st := exSt (exTree false false) (exBranchOps ++ [.dispatch .pause, .loop, .loop, .go 0, .prim 0 none, .go 0] ++
        exOne (.act 8) ++ [.dispatch .resume, .loop, .loop])
     Reach (exTree false false) st ∧ tview st.get = 15 ∧ st.get.pending = [] ∧
      ∀ m ∈ shows st.log, tview m ≠ 19) := by
  refine ⟨⟨exSt_reach (by decide +kernel), List.isEmpty_iff.1 (by decide +kernel),
    List.isEmpty_iff.1 (by decide +kernel), by decide +kernel, ?_, by decide +kernel, by decide +kernel, ?_,
    by decide +kernel⟩, exSt_reach (by decide +kernel), by decide +kernel⟩
  · refine ⟨5, (exSt (exTree false false) (exBranchOps ++ [.dispatch (.act 2), .loop])).cur, .prim 7, by decide +kernel⟩
  · exact ⟨5, 0, by decide +kernel⟩

/-- Paused at the end of a branch, with an action that has an effect; everything is run. -/
def exTreeResume : List (SOp (TAction Nat)) :=
  [.dispatch (.act 1), .loop, .loop, .go 0, .go 0, .dispatch .pause, .loop, .loop, .go 0, .prim 0 none, .go 0,
   .dispatch (.act 2), .loop, .loop, .go 0, .go 0, .dispatch .resume, .loop, .loop, .go 0, .go 0, .prim 0 none, .go 0,
   .go 0, .go 0, .go 0, .go 0, .prim 0 none, .go 0]

example : (exec (exTree false true) (start (exTree false true)) exTreeResume).isSome = true ∧
    (exSt (exTree false true) exTreeResume).queue.isEmpty = true ∧ (exSt (exTree false true) exTreeResume).ev = [] ∧
    ran 3 (exSt (exTree false true) exTreeResume).log = [101, 7] ∧
    tview (exSt (exTree false true) exTreeResume).get = 13 := by decide +kernel

/-- A reducer that throws for action 3, which is kept after action 2. -/
def exTreeStuck : Cfg (TAction Nat) (TModel Nat Nat) :=
  withTree 100 101 (fun x y => decide (x ≠ y)) { exCfg false false with throws := fun m a => a == 3 && m == 13 }

def exTreeStuckOps : List (SOp (TAction Nat)) :=
  exOne (.act 1) ++ [.dispatch .pause, .loop, .loop, .go 0, .prim 0 none, .go 0] ++ exOne (.act 2) ++ exOne (.act 3)

example : Reach exTreeStuck (exSt exTreeStuck exTreeStuckOps) ∧
    exTreeStuck.throws (exSt exTreeStuck exTreeStuckOps).cur .resume = true ∧
    exTreeStuck.throws (exSt exTreeStuck exTreeStuckOps).cur (.act 3) = false :=
  ⟨exSt_reach (by decide +kernel), by decide +kernel⟩

end Verif.Store
