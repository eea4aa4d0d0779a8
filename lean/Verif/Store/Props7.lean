import Verif.Store.ThreadsReach

/-!
Property C94: dispatching from several threads.

`Par.Reach c w p` says that `p` can be reached when the event loop has `w` threads that run tasks, any other
threads dispatch actions and use futures at any moment, also in the middle of a task, and so does user code that
the tasks call.  `Reach c s` is the model of stores in which tasks are single steps.
-/

namespace Verif.Store

variable {A Mo : Type}

/-! ### Examples -/

def exPar (c : Cfg A Mo) (w : Nat) (ops : List (POp A)) : Par A Mo :=
  (Par.exec c w (Par.start c) ops).getD (Par.start c)

theorem parExec_reach {c : Cfg A Mo} {w : Nat} {p p' : Par A Mo} {ops : List (POp A)} (r : Par.Reach c w p)
    (h : Par.exec c w p ops = some p') : Par.Reach c w p' := by
  induction ops generalizing p with
  | nil => cases h; exact r
  | cons op ops ih =>
    simp only [Par.exec, Option.bind_eq_some_iff] at h
    obtain ⟨p1, h1, h2⟩ := h
    exact ih (r.step op h1) h2

theorem exPar_reach {c : Cfg A Mo} {w : Nat} {ops : List (POp A)}
    (h : (Par.exec c w (Par.start c) ops).isSome = true) : Par.Reach c w (exPar c w ops) := by
  refine parExec_reach (ops := ops) .start ?_
  unfold exPar
  cases h' : Par.exec c w (Par.start c) ops with
  | none => rw [h'] at h; cases h
  | some s => rfl

/-- Action 1 is dispatched, and while the reducer runs, and again while watchers are called, another thread
dispatches 2 and 4. -/
def exParOps : List (POp Nat) :=
  [.user (.dispatch 1), .begin, .user (.dispatch 2), .go 0, .go 0, .begin, .go 0, .go 0, .begin, .go 0, .go 0,
   .user (.dispatch 4), .go 0, .begin, .go 0, .go 0, .go 0, .user (.go 0), .user (.prim 0 none), .user (.go 0),
   .begin, .go 0, .go 0, .begin, .go 0, .go 0, .go 0]

/-- Two threads run tasks: both reducers have been called before either of the results is stored. -/
def exPoolOps : List (POp Nat) :=
  [.user (.dispatch 1), .user (.dispatch 3), .begin, .begin, .go 0, .go 1, .go 0, .go 0, .begin, .go 0, .go 0,
   .go 0, .begin, .go 0, .go 0, .go 0]

/-! ### Helpers -/

theorem dispatches_filter (l : List (SEv A Mo)) : dispatches (l.filter fun e => !e.isTask) = dispatches l := by
  induction l with
  | nil => rfl
  | cons e l ih => cases e <;> first | exact ih | exact congrArg (_ :: ·) ih

theorem reductions_filter (l : List (SEv A Mo)) : reductions (l.filter SEv.isTask) = reductions l := by
  induction l with
  | nil => rfl
  | cons e l ih => cases e <;> first | exact ih | exact congrArg (_ :: ·) ih

theorem shows_filter (l : List (SEv A Mo)) : shows (l.filter SEv.isTask) = shows l := by
  induction l with
  | nil => rfl
  | cons e l ih => cases e <;> first | exact ih | exact congrArg (_ :: ·) ih

theorem lastShown_filter (l : List (SEv A Mo)) (v : Mo) : lastShown v (l.filter SEv.isTask) = lastShown v l := by
  induction l generalizing v with
  | nil => rfl
  | cons e l ih => cases e <;> exact ih _

theorem SameLog.dispatches {l l' : List (SEv A Mo)} (h : SameLog l l') :
    Store.dispatches l = Store.dispatches l' := by
  rw [← dispatches_filter l, ← dispatches_filter l', h.2]

theorem SameLog.reductions {l l' : List (SEv A Mo)} (h : SameLog l l') :
    Store.reductions l = Store.reductions l' := by
  rw [← reductions_filter l, ← reductions_filter l', h.1]

/-- An event of a task in one log has the same events of tasks before it in the other. -/
theorem SameLog.split {l l' l1 l2 : List (SEv A Mo)} {e : SEv A Mo} (h : SameLog l l') (he : e.isTask = true)
    (hl : l' = l1 ++ e :: l2) : ∃ k1 k2, l = k1 ++ e :: k2 ∧ k1.filter SEv.isTask = l1.filter SEv.isTask := by
  have h1 := h.1
  rw [hl, List.filter_append, List.filter_cons_of_pos he] at h1
  rw [List.filter_eq_append_iff] at h1
  obtain ⟨m1, m2, rfl, h2, h3⟩ := h1
  rw [List.filter_eq_cons_iff] at h3
  obtain ⟨n1, n2, rfl, h4, _, _⟩ := h3
  refine ⟨m1 ++ n1, n2, by simp, ?_⟩
  rw [List.filter_append, h2, List.filter_eq_nil_iff.2 h4, List.append_nil]

/-- In the middle of a task at most one call of the watchers is ahead. -/
theorem PRel.log {c : Cfg A Mo} {p : Par A Mo} {s : St A Mo} (h : PRel c p s) :
    SameLog s.log p.st.log ∨ SameLog (s.log ++ [.shown s.cur]) p.st.log := by
  have hh := h.here
  obtain ⟨t, js, n⟩ := p
  dsimp only at hh ⊢
  match js, hh with
  | [], hh => exact .inl hh.2.2
  | [.reducing _ _ _], hh => exact .inl hh.2.2
  | [.pushing _], hh => exact .inl hh.2.2
  | [.sending _], hh => exact .inl hh.2.2.1
  | [.notifying _], hh => exact .inl hh.2.2.1
  | [.watching it _], hh =>
    have h1 := hh.2.2.1
    unfold pubLog at h1
    split at h1
    · exact .inr h1
    · rw [List.append_nil] at h1
      exact .inl h1

/-- There is a log of which it is a reordering, in which all events are as they should be. -/
theorem Par.Reach.logOK {c : Cfg A Mo} (hc : c.sound) {p : Par A Mo} (r : Par.Reach c 1 p) :
    ∃ L, SameLog L p.st.log ∧ LogOK c L ∧ Store.reductions L <+: Store.dispatches L := by
  obtain ⟨s, hr, h⟩ := r.rel hc
  have k := hr.core hc
  have h3 : Store.reductions s.log <+: Store.dispatches s.log := by
    rw [(C48_order hc hr).1]; exact List.prefix_append _ _
  rcases h.log with h1 | h1
  · exact ⟨_, h1, k.log, h3⟩
  · refine ⟨_, h1, k.log.snoc (show s.cur = _ from k.cur), ?_⟩
    have e1 : Store.reductions (s.log ++ [.shown s.cur]) = Store.reductions s.log := by
      rw [reductions_append]; simp [Store.reductions]
    have e2 : Store.dispatches (s.log ++ [.shown s.cur]) = Store.dispatches s.log := by
      rw [← dispatches_filter, ← dispatches_filter s.log, List.filter_append]; simp [SEv.isTask]
    rw [e1, e2]
    exact h3

/-! ### C94 -/

/-- C94: when the event loop runs one task at a time, then whenever no task is in progress, the model, what
`get()` returns, the queue, promises, futures and effects are those of a run in which tasks are single steps,
that is, in which nobody dispatches in the middle of a task.  The reducer, watchers and effects were called with
the same values in the same order, and the same actions were dispatched in the same order. -/
theorem C94_serial {c : Cfg A Mo} (hc : c.sound) {p : Par A Mo} (r : Par.Reach c 1 p) (hj : p.jobs = []) :
    ∃ s, Reach c s ∧ Same' s p.st := by
  obtain ⟨s, hr, h⟩ := r.rel hc
  obtain ⟨t, js, n⟩ := p
  dsimp only at hj
  subst hj
  obtain ⟨f1, f2, f3, f4, f5, h1, h2, h3⟩ := h
  simp only [St.node, Prod.mk.injEq] at h1
  exact ⟨s, hr, f1, h1.1, h1.2.1, h1.2.2.1, h1.2.2.2, h2, f2, f3, f4, f5, h3⟩

/-- C94: so when nothing is left to do, `get()` is the fold of the reducer over all actions that any threads have
dispatched, in the order in which they were. -/
theorem C94_fold {c : Cfg A Mo} (hc : c.sound) (ht : c.trans = false) {p : Par A Mo} (r : Par.Reach c 1 p)
    (hj : p.jobs = []) (hi : p.st.idle) : p.st.get = fold c (dispatches p.st.log) := by
  obtain ⟨s, hr, h⟩ := C94_serial hc r hj
  have h1 := C48_fold hc ht hr (h.queue.trans hi)
  rw [show p.st.get = s.get from h.last.symm, h1, h.log.dispatches]

example : Par.Reach (exCfg false false) 1 (exPar (exCfg false false) 1 exParOps) := exPar_reach (by decide +kernel)

example : (exPar (exCfg false false) 1 exParOps).jobs.isEmpty = true ∧
    (exPar (exCfg false false) 1 exParOps).st.queue.isEmpty = true ∧
    (exPar (exCfg false false) 1 exParOps).st.get = 17 ∧
    dispatches (exPar (exCfg false false) 1 exParOps).st.log = [1, 2, 4] ∧
    shows (exPar (exCfg false false) 1 exParOps).st.log = [13, 17] := by decide +kernel

/-- C94: at any moment, also in the middle of tasks, the actions that were reduced are the first ones of those
dispatched, and the reducer was called with the fold over those before. -/
theorem C94_order {c : Cfg A Mo} (hc : c.sound) {p : Par A Mo} (r : Par.Reach c 1 p) :
    reductions p.st.log <+: dispatches p.st.log ∧
    (∀ l1 l2 d m a m' e, p.st.log = l1 ++ .reduced d m a m' e :: l2 →
      m = fold c (reductions l1) ∧ (m', e) = c.reducer m a ∧ c.throws m a = false) ∧
    ∀ l1 l2 d m a, p.st.log = l1 ++ .reduceThrew d m a :: l2 →
      m = fold c (reductions l1) ∧ c.throws m a = true := by
  obtain ⟨L, h1, h2, h3⟩ := r.logOK hc
  refine ⟨by rw [← h1.reductions, ← h1.dispatches]; exact h3, ?_, ?_⟩
  · intro l1 l2 d m a m' e hl
    obtain ⟨k1, k2, rfl, h4⟩ := h1.split rfl hl
    rw [← reductions_filter l1, ← h4, reductions_filter]
    exact h2 k1 _ k2 rfl
  · intro l1 l2 d m a hl
    obtain ⟨k1, k2, rfl, h4⟩ := h1.split rfl hl
    rw [← reductions_filter l1, ← h4, reductions_filter]
    exact h2 k1 _ k2 rfl

/-- C94: watchers only get folds over the first ones of the actions dispatched. -/
theorem C94_shown {c : Cfg A Mo} (hc : c.sound) {p : Par A Mo} (r : Par.Reach c 1 p)
    {l1 l2 : List (SEv A Mo)} {v : Mo} (h : p.st.log = l1 ++ .shown v :: l2) :
    v = fold c (reductions l1) ∧ reductions l1 <+: dispatches p.st.log := by
  obtain ⟨L, h1, h2, _⟩ := r.logOK hc
  obtain ⟨k1, k2, rfl, h4⟩ := h1.split rfl h
  refine ⟨?_, ?_⟩
  · rw [← reductions_filter l1, ← h4, reductions_filter]
    exact h2 k1 (.shown v) k2 rfl
  · refine List.IsPrefix.trans ?_ (C94_order hc r).1
    rw [h, reductions_append]
    exact List.prefix_append _ _

/-- C94: an effect is called when `get()` and the watchers have what the reducer returned with it, whatever is
dispatched in between. -/
theorem C94_effect {c : Cfg A Mo} (hc : c.sound) (ht : c.trans = false) {p : Par A Mo} (r : Par.Reach c 1 p)
    {l1 l2 : List (SEv A Mo)} {d x : Nat} {e : Eff} (h : p.st.log = l1 ++ .effStart d x e :: l2) :
    (∃ m a m', SEv.reduced d m a m' e ∈ l1) ∧ lastShown c.init l1 = fold c (reductions l1) := by
  obtain ⟨L, h1, h2, _⟩ := r.logOK hc
  obtain ⟨k1, k2, rfl, h4⟩ := h1.split rfl h
  obtain ⟨⟨m, a, m', h5⟩, h6⟩ := h2 k1 (.effStart d x e) k2 rfl
  refine ⟨⟨m, a, m', ?_⟩, ?_⟩
  · have := List.mem_filter.2 ⟨h5, show SEv.isTask _ = true from rfl⟩
    rw [h4] at this
    exact (List.mem_filter.1 this).1
  · rw [← lastShown_filter l1, ← reductions_filter l1, ← h4, lastShown_filter, reductions_filter]
    exact h6 ht

/-- In the middle of the call of the watchers, after another thread has dispatched. -/
example : Par.Reach (exCfg false false) 1 (exPar (exCfg false false) 1 (exParOps.take 12)) :=
  exPar_reach (by decide +kernel)

example : (exPar (exCfg false false) 1 (exParOps.take 12)).jobs.length = 1 ∧
    reductions (exPar (exCfg false false) 1 (exParOps.take 12)).st.log = [1, 2] ∧
    dispatches (exPar (exCfg false false) 1 (exParOps.take 12)).st.log = [1, 2, 4] ∧
    shows (exPar (exCfg false false) 1 (exParOps.take 12)).st.log = [13] ∧
    effRuns 1 (exPar (exCfg false false) 1 (exParOps.take 12)).st.log = 0 ∧
    effRuns 1 (exPar (exCfg false false) 1 exParOps).st.log = 1 := by decide +kernel

/-- C94: nothing of the above is lost by dividing tasks: whatever can be reached when tasks are steps can be
reached here. -/
theorem C94_covers {c : Cfg A Mo} (hc : c.sound) {s : St A Mo} (r : Reach c s) : Par.Reach c 1 ⟨s, [], 0⟩ := by
  induction r with
  | start => exact .start
  | @step s s' op hr h ih =>
    have hn := (hr.core hc).ntf
    by_cases hu : op.isUser = true
    · exact ih.step (.user op) (by simp only [Par.step, hu, if_true, h]; rfl)
    cases op with
    | loop =>
      have h : s.loop c = some s' := h
      cases hq : s.queue with
      | nil => unfold St.loop at h; rw [hq] at h; cases h
      | cons it q =>
        have pubs : Pubs c (some it) → Par.begin ⟨s, [], 0⟩ = some ⟨{ s with queue := q }, [.sending (some it)], 0⟩ →
            Par.Reach c 1 ⟨s', [], 0⟩ := by
          intro hp hb
          rw [loop_pubs c hq hp] at h
          have r1 := ih.step .begin (p' := ⟨{ s with queue := q }, [.sending (some it)], 0⟩)
            (by simp only [Par.step]; exact hb)
          have r2 := r1.step (.go 0) rfl
          have r3 := r2.step (.go 0) rfl
          refine r3.step (.go 0) ?_
          have e : (if sends c (some it) = true then
              (if sends c (some it) = true then { s with queue := q }.sendDown else { s with queue := q }).notify
              else (if sends c (some it) = true then { s with queue := q }.sendDown else { s with queue := q })) =
              pubIf c (some it) { s with queue := q } := by
            unfold pubIf
            by_cases hs : sends c (some it) = true
            · simp only [if_pos hs]
            · simp only [if_neg hs]
          show Option.map _ (Option.map _ (St.after c _ _)) = _
          simp only [List.set]
          rw [e, h]
          rfl
        cases it with
        | reduce d a i =>
          have r1 := ih.step .begin (p' := ⟨{ s with queue := q }, [.reducing d a i], 0⟩)
            (by simp only [Par.step, Par.begin, hq]; rfl)
          by_cases ht : c.throws s.cur a = true
          · have e : s' = { s with queue := q }.say (.reduceThrew d s.cur a) := by
              unfold St.loop at h; rw [hq] at h; dsimp only at h; rw [if_pos ht] at h; cases h; rfl
            subst e
            refine r1.step (.go 0) ?_
            simp only [Par.step, List.getElem?_cons_zero, Job.go]
            rw [if_pos ht]
            rfl
          · have ht' : c.throws s.cur a = false := by simpa using ht
            rw [loop_reduced c hq ht'] at h
            simp only [Option.map_eq_some_iff] at h
            obtain ⟨s1, h1, rfl⟩ := h
            have r2 := r1.step (.go 0) (p' := ⟨s1, [.pushing (c.reducer s.cur a).1], 0⟩) (by
              simp only [Par.step, List.getElem?_cons_zero, Job.go]
              rw [if_neg ht, h1]
              rfl)
            exact r2.step (.go 0) rfl
        | tok =>
          refine ih.step .begin ?_
          have h1 : { s with queue := q }.runTask 0 = some s' := by
            unfold St.loop at h; rw [hq] at h; exact h
          simp only [Par.step, Par.begin, hq, h1]
          rfl
        | effect d e i => exact pubs trivial (by simp only [Par.begin, hq]; rfl)
        | publish d i => exact pubs trivial (by simp only [Par.begin, hq]; rfl)
    | loopRaise =>
      have h : s.loopRaise c = some s' := h
      have gen : ∀ (it : Item A) (q : List (Item A)) (ev : SEv A Mo), s.queue = it :: q →
          Par.begin ⟨s, [], 0⟩ = some ⟨{ s with queue := q }, [.sending (some it)], 0⟩ →
          c.trans = false → s.dirty = true → s' = ({ s with queue := q }.publish c).say ev →
          (∀ st : St A Mo, (Job.watching (some it) true).raise st = some (st.say ev)) →
          Par.Reach c 1 ⟨s', [], 0⟩ := by
        intro it q ev hq hb ht hd hs' hr
        have hs : sends c (some it) = true := by simp [sends, ht]
        have r1 := ih.step .begin (p' := ⟨{ s with queue := q }, [.sending (some it)], 0⟩)
          (by simp only [Par.step]; exact hb)
        have r2 := r1.step (.go 0) (p' := ⟨{ s with queue := q }.sendDown, [.notifying (some it)], 0⟩)
          (by simp only [Par.step, List.getElem?_cons_zero, Job.go, if_pos hs]; rfl)
        have hcall : (sends c (some it) && { s with queue := q }.sendDown.ntf && !{ s with queue := q }.sendDown.dirty) =
            true := by
          rw [hs]; simp [St.sendDown, hd]
        have r3 := r2.step (.go 0)
          (p' := ⟨{ s with queue := q }.sendDown.notify, [.watching (some it) true], 0⟩) (by
            simp only [Par.step, List.getElem?_cons_zero, Job.go, if_pos hs]
            rw [hcall]
            rfl)
        refine r3.step (.raise 0) ?_
        simp only [Par.step, List.getElem?_cons_zero, hr, Option.map_some, List.eraseIdx_cons_zero]
        rw [hs']
        unfold St.publish
        rw [ht]
        rfl
      unfold St.loopRaise at h
      cases hq : s.queue with
      | nil => rw [hq] at h; cases h
      | cons it q =>
        rw [hq] at h
        dsimp only at h
        by_cases hd : c.trans = false ∧ s.dirty = true
        · simp only [if_pos hd] at h
          cases it with
          | effect d e i =>
            cases h
            exact gen (.effect d e i) q (.lost d (some e)) hq (by simp only [Par.begin, hq]; rfl) hd.1 hd.2 rfl
              (fun _ => rfl)
          | publish d i =>
            cases h
            exact gen (.publish d i) q (.lost d none) hq (by simp only [Par.begin, hq]; rfl) hd.1 hd.2 rfl
              (fun _ => rfl)
          | reduce d a i => cases h
          | tok => cases h
        · simp only [if_neg hd] at h
          cases it <;> cases h
    | commit =>
      simp only [Store.step] at h
      split at h
      · rename_i ht
        cases h
        have r1 := ih.step .commit (p' := ⟨s, [.sending none], 0⟩)
          (by simp only [Par.step, ht]; rfl)
        have r2 := r1.step (.go 0) rfl
        have r3 := r2.step (.go 0) rfl
        exact r3.step (.go 0) rfl
      · cases h
    | dispatch a => exact absurd rfl hu
    | other l => exact absurd rfl hu
    | fut o => exact absurd rfl hu
    | go n => exact absurd rfl hu
    | prim n o => exact absurd rfl hu
    | raise n => exact absurd rfl hu

/-- C94: what any thread does when it dispatches or uses futures, and what user code does in effects, neither
reads nor writes the members of the store (the models and marks of its node). -/
theorem C94_untouched (c : Cfg A Mo) {op : SOp A} (hu : op.isUser = true) (st : St A Mo) (v w : Mo) (x y : Bool) :
    step c { st with cur := v, last := w, dirty := x, ntf := y } op =
      (step c st op).map fun s => { s with cur := v, last := w, dirty := x, ntf := y } := by
  have u := step_uni c op hu st
  have h1 := u v w x y st.queue st.log
  have h2 := u st.cur st.last st.dirty st.ntf st.queue st.log
  have e1 : st.patch v w x y st.queue st.log = { st with cur := v, last := w, dirty := x, ntf := y } := rfl
  have e2 : st.patch st.cur st.last st.dirty st.ntf st.queue st.log = st := rfl
  rw [e1] at h1
  rw [e2] at h2
  refine h1.trans ?_
  rw [show step c st op = _ from h2, Option.map_map]
  rfl

example : ((step (exCfg false false) { start (exCfg false false) with dirty := true, last := 3 } (.dispatch 1)).map
    fun s => (s.cur, s.last, s.dirty, s.queue.length)) = some (10, 3, true, 1) := by decide +kernel

/-- C94: and so there are no data races on them, when the event loop runs one task at a time and other threads do
not call `get()` (or watch, …). -/
theorem C94_no_race {c : Cfg A Mo} {p : Par A Mo} (r : Par.Reach c 1 p) (h0 : p.peeks = 0) : ¬ p.racy c := by
  have hl := r.jobs
  rintro (⟨i, j, x, y, hij, h1, h2, _⟩ | ⟨x, _, _, h⟩)
  · have hi := (List.getElem?_eq_some_iff.1 h1).1
    have hj := (List.getElem?_eq_some_iff.1 h2).1
    omega
  · omega

/-- C94 is FALSE for an executor with several threads that is not wrapped in a strand: two threads access the
members of the store at the same time and one of them writes; and even if every access were atomic, an action
gets lost: in the end the model is not the fold over the actions in any order. -/
theorem C94_pool_false : ∃ (c : Cfg Nat Nat), c.sound ∧ c.trans = false ∧
    (∃ p, Par.Reach c 2 p ∧ p.peeks = 0 ∧ p.racy c) ∧
    ∃ p, Par.Reach c 2 p ∧ p.jobs = [] ∧ p.st.idle ∧ dispatches p.st.log = [1, 3] ∧
      ∀ as, as.Perm (dispatches p.st.log) → p.st.get ≠ fold c as := by
  refine ⟨exCfg false false, exCfg_sound _ _, rfl,
    ⟨exPar (exCfg false false) 2 (exPoolOps.take 6), exPar_reach (by decide +kernel), by decide +kernel, .inl ?_⟩,
    exPar (exCfg false false) 2 exPoolOps, exPar_reach (by decide +kernel),
    List.isEmpty_iff.1 (by decide +kernel), List.isEmpty_iff.1 (by decide +kernel), by decide +kernel, ?_⟩
  · exact ⟨0, 1, .pushing 11, .pushing 13, by decide, rfl, rfl, rfl, rfl⟩
  · intro as hp
    have h1 : dispatches (exPar (exCfg false false) 2 exPoolOps).st.log = [1, 3] := by decide +kernel
    have h2 : (exPar (exCfg false false) 2 exPoolOps).st.get = 13 := by decide +kernel
    rw [h1] at hp
    rw [h2]
    have h3 : fold (exCfg false false) as = 10 + as.sum := by
      unfold fold
      show as.foldl (exCfg false false).next 10 = _
      generalize 10 = m
      clear hp
      induction as generalizing m with
      | nil => simp
      | cons a as ih =>
        rw [List.foldl_cons, ih, List.sum_cons]
        show m + a + as.sum = _
        omega
    rw [h3, hp.sum_nat]
    decide

/-- C94 is FALSE for `get()`: when another thread reads the store while a task publishes the model, there is a
data race, also with one thread in the event loop. -/
theorem C94_get_false : ∃ (c : Cfg Nat Nat) (p : Par Nat Nat), c.sound ∧ Par.Reach c 1 p ∧ p.racy c := by
  refine ⟨exCfg false false, exPar (exCfg false false) 1
    [.user (.dispatch 1), .begin, .go 0, .go 0, .begin, .peek], exCfg_sound _ _, exPar_reach (by decide +kernel),
    .inr ⟨.sending (some (.publish 0 0)), ?_, rfl, by decide +kernel⟩⟩
  exact List.mem_singleton.2 rfl

end Verif.Store
