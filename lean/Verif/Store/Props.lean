import Verif.Store.Core

/-!
Properties C48 to C51 and C54: models, watchers and effects of stores.
-/

namespace Verif.Store

variable {A Mo : Type}

/-! ### An example

A store with a counter; action 2 has an effect and action 5 one that does nothing. -/

def exCfg (trans hasF : Bool) : Cfg Nat Nat where
  reducer m a := (m + a, if a = 2 then .prim 7 else if a = 5 then .noop else .empty)
  changed v w := v != w
  trans := trans
  hasF := hasF
  init := 10

theorem exCfg_sound (t f : Bool) : (exCfg t f).sound := by
  intro v w h
  simpa [exCfg] using h

/-- The state after some operations. -/
def exSt (c : Cfg A Mo) (ops : List (SOp A)) : St A Mo := (exec c (start c) ops).getD (start c)

theorem exec_reach {c : Cfg A Mo} {st st' : St A Mo} {ops : List (SOp A)} (r : Reach c st)
    (h : exec c st ops = some st') : Reach c st' := by
  induction ops generalizing st with
  | nil => cases h; exact r
  | cons op ops ih =>
    simp only [exec, Option.bind_eq_some_iff] at h
    obtain ⟨s1, h1, h2⟩ := h
    exact ih (r.step op h1) h2

theorem exSt_exec {c : Cfg A Mo} {ops : List (SOp A)} (h : (exec c (start c) ops).isSome = true) :
    exec c (start c) ops = some (exSt c ops) := by
  unfold exSt
  cases h' : exec c (start c) ops with
  | none => rw [h'] at h; cases h
  | some s => rfl

theorem exSt_reach {c : Cfg A Mo} {ops : List (SOp A)} (h : (exec c (start c) ops).isSome = true) :
    Reach c (exSt c ops) := exec_reach .start (exSt_exec h)

/-- Two dispatches, the second with an effect, which dispatches another one; everything is run. -/
def exOps : List (SOp Nat) :=
  [.dispatch 1, .dispatch 2, .loop, .loop, .loop, .loop, .go 0, .dispatch 4, .prim 0 none, .go 0,
   .loop, .loop]

/-! ### C48 -/

/-- C48: when no tasks are left, `get()` is the fold of the reducer over all actions that have been
dispatched, in the order in which they were.  (An action for which the reducer throws leaves the model as it
is; watchers and effects may throw, too.) -/
theorem C48_fold {c : Cfg A Mo} (hc : c.sound) (ht : c.trans = false) {st : St A Mo} (r : Reach c st)
    (hi : st.idle) : st.get = fold c (dispatches st.log) := by
  have k := r.core hc
  have hd : st.dirty = false := by
    cases h : st.dirty with
    | false => rfl
    | true =>
      obtain ⟨i, h1, _⟩ := k.wake ht h
      rw [show st.queue = [] from hi] at h1
      cases h1
  have : red st.log = disp st.log := by
    rw [k.order, show st.queue = [] from hi]
    simp [pend]
  show st.last = _
  rw [k.clean hd, k.cur, dispatches_disp, reductions_red, this]

/-- C48: at any time the actions that have been reduced are the first ones that were dispatched, and
what the reducer was called with for each is the fold over those before it: none is dropped, duplicated
or reordered.  The others wait in the queue, in order. -/
theorem C48_order {c : Cfg A Mo} (hc : c.sound) {st : St A Mo} (r : Reach c st) :
    dispatches st.log = reductions st.log ++ (pend st.queue).map (·.2) ∧
    (∀ l1 l2 d m a m' e, st.log = l1 ++ .reduced d m a m' e :: l2 →
      m = fold c (reductions l1) ∧ (m', e) = c.reducer m a ∧ c.throws m a = false) ∧
    ∀ l1 l2 d m a, st.log = l1 ++ .reduceThrew d m a :: l2 →
      m = fold c (reductions l1) ∧ c.throws m a = true := by
  have k := r.core hc
  refine ⟨?_, fun l1 l2 d m a m' e h => k.log l1 _ l2 h, fun l1 l2 d m a h => k.log l1 _ l2 h⟩
  rw [dispatches_disp, reductions_red, k.order, List.map_append]

example : (exSt (exCfg false false) exOps).idle ∧ (exSt (exCfg false false) exOps).get = 17 ∧
    dispatches (exSt (exCfg false false) exOps).log = [1, 2, 4] := by
  unfold St.idle
  exact ⟨by rw [← List.isEmpty_iff]; decide +kernel, by decide +kernel, by decide +kernel⟩

example : Reach (exCfg false false) (exSt (exCfg false false) exOps) := exSt_reach (by decide +kernel)

/-! ### C49 -/

/-- C49: on a store that is not transactional, when the effect of a dispatch is called, `get()` shows the
fold of all the actions that have been reduced, that of the dispatch is among them and has returned this
effect, and `get()` is what the watchers were called with last. -/
theorem C49_visible {c : Cfg A Mo} (hc : c.sound) (ht : c.trans = false) {st st' : St A Mo}
    (r : Reach c st) {op : SOp A} (h : step c st op = some st') {d : Nat}
    (hd : effRuns d st'.log ≠ effRuns d st.log) :
    st'.get = fold c (reductions st'.log) ∧ lastShown c.init st'.log = st'.get ∧
    ∃ a e x, Returned st d a e ∧ SEv.effStart d x e ∈ st'.log := by
  have k := r.core hc
  obtain ⟨rfl, e, i, q, hq⟩ := step_effRuns k h hd
  have k' := core_step hc k h
  have hret := k.qeff d e i (by rw [hq]; exact List.mem_cons_self)
  obtain ⟨m, a, m', hm⟩ := hret
  refine ⟨?_, k'.seen, a, e, st.nx, ⟨m, m', hm⟩, ?_⟩
  · rw [← k'.cur]
    show st'.last = st'.cur
    refine k'.clean ?_
    obtain ⟨_, _, _, h4, _⟩ := core_pub k q
    simp only [step, St.loop, hq] at h
    cases h
    exact (h4 ht).1
  · simp only [step, St.loop, hq] at h
    cases h
    exact List.mem_append_right _ (List.mem_singleton.2 rfl)

/-- C49: the effect of a dispatch is called at most once; if the reducer has returned one, and there
are no more tasks, exactly once, unless a watcher has thrown in the task that was going to call it; and if
it has not, never. -/
theorem C49_once {c : Cfg A Mo} (hc : c.sound) {st : St A Mo} (r : Reach c st) (d : Nat) :
    effRuns d st.log ≤ 1 ∧
    (∀ a e, Returned st d a e → e.isEmpty = false → st.idle → ¬ Lost st d → effRuns d st.log = 1) ∧
    (0 < effRuns d st.log → ∃ a e, Returned st d a e ∧ e.isEmpty = false) := by
  have k := r.core hc
  have h1 := k.effs d
  have h2 := k.redEff_one d
  refine ⟨by omega, ?_, ?_⟩
  · rintro a e ⟨m, m', hm⟩ he hi hl
    have := redEff_pos.2 ⟨m, a, m', e, hm, he⟩
    have hl : lostEff d st.log = 0 := by
      rcases Nat.eq_zero_or_pos (lostEff d st.log) with h | h
      · exact h
      · obtain ⟨e', he'⟩ := lostEff_pos h
        exact absurd ⟨_, he'⟩ hl
    rw [show st.queue = [] from hi] at h1
    simp [qEff] at h1
    omega
  · intro h
    obtain ⟨m, a, m', e, h3, h4⟩ := redEff_pos.1 (show 0 < redEff d st.log by omega)
    exact ⟨a, e, ⟨m, m', h3⟩, h4⟩

example : (exec (exCfg false false) (start (exCfg false false)) (exOps.take 5)).isSome = true ∧
    effRuns 1 (exSt (exCfg false false) (exOps.take 5)).log = 0 ∧
    effRuns 1 (exSt (exCfg false false) (exOps.take 6)).log = 1 ∧
    (exSt (exCfg false false) (exOps.take 6)).get = 13 ∧
    effRuns 1 (exSt (exCfg false false) exOps).log = 1 := by decide +kernel

/-! ### C50 -/

/-- C50: every value that the watchers are called with is the fold of the actions reduced by then, which
are the first ones of those dispatched; so for later calls they only get more. -/
theorem C50_genuine {c : Cfg A Mo} (hc : c.sound) {st : St A Mo} (r : Reach c st)
    {l1 l2 l3 : List (SEv A Mo)} {v w : Mo} (h : st.log = l1 ++ .shown v :: l2 ++ .shown w :: l3) :
    ∃ as bs, v = fold c as ∧ w = fold c (as ++ bs) ∧ as ++ bs <+: dispatches st.log := by
  have k := r.core hc
  have h1 : v = fold c (reductions l1) := k.log l1 (.shown v) (l2 ++ .shown w :: l3) (by rw [h]; simp)
  have h2 : w = fold c (reductions (l1 ++ .shown v :: l2)) := k.log _ (.shown w) l3 h
  refine ⟨reductions l1, reductions l2, h1, ?_, ?_⟩
  · rw [h2, reductions_append]; rfl
  · have h3 : reductions st.log <+: dispatches st.log := by
      rw [(C48_order hc r).1]; exact List.prefix_append _ _
    refine List.IsPrefix.trans ?_ h3
    rw [h, reductions_append, reductions_append]
    exact ⟨reductions (.shown w :: l3), rfl⟩

/-- C50, for a single value. -/
theorem C50_fold {c : Cfg A Mo} (hc : c.sound) {st : St A Mo} (r : Reach c st)
    {l1 l2 : List (SEv A Mo)} {v : Mo} (h : st.log = l1 ++ .shown v :: l2) :
    v = fold c (reductions l1) ∧ reductions l1 <+: dispatches st.log := by
  have k := r.core hc
  refine ⟨k.log l1 (.shown v) l2 h, ?_⟩
  have h3 : reductions st.log <+: dispatches st.log := by
    rw [(C48_order hc r).1]; exact List.prefix_append _ _
  refine List.IsPrefix.trans ?_ h3
  rw [h, reductions_append]
  exact List.prefix_append _ _

/-- C50: the value that the watchers were called with last, or the initial one, is `get()`; when no tasks
are left it is the fold of all actions. -/
theorem C50_last {c : Cfg A Mo} (hc : c.sound) {st : St A Mo} (r : Reach c st) :
    lastShown c.init st.log = st.get ∧
    (c.trans = false → st.idle → lastShown c.init st.log = fold c (dispatches st.log)) := by
  have k := r.core hc
  exact ⟨k.seen, fun ht hi => k.seen.trans (C48_fold hc ht r hi)⟩

example : shows (exSt (exCfg false false) exOps).log = [13, 17] := by decide +kernel

/-! ### C51 -/

/-- C51: on a transactional store nothing but a commit changes `get()` or calls watchers. -/
theorem C51_only_commit {c : Cfg A Mo} (ht : c.trans = true) {st st' : St A Mo} {op : SOp A}
    (h : step c st op = some st') (hop : op ≠ .commit) :
    st'.get = st.get ∧ shows st'.log = shows st.log := by
  by_cases hl : op = .loop
  · subst hl
    simp only [step] at h
    unfold St.loop at h
    have hpub : ∀ q, { st with queue := q }.publish c = { st with queue := q } := by
      intro q; unfold St.publish; simp [ht]
    split at h
    · cases h
    · dsimp only at h
      split at h
      · cases h
        exact ⟨rfl, by simp [St.say, shows_append, shows]⟩
      simp only [Option.map_eq_some_iff] at h
      obtain ⟨s1, h1, rfl⟩ := h
      have hl : s1.log = st.log ∧ s1.last = st.last := by
        split at h1
        · exact ⟨(complete_toks h1).log, (complete_toks h1).last⟩
        · cases h1; exact ⟨rfl, rfl⟩
      have hl2 : ∀ v, (s1.pushDown c v).log = st.log ∧ (s1.pushDown c v).last = st.last := by
        intro v; unfold St.pushDown; split <;> exact hl
      refine ⟨(hl2 _).2, ?_⟩
      simp only [St.say]
      rw [(hl2 _).1, shows_append]
      simp [shows]
    · dsimp only at h
      rw [hpub] at h
      cases h
      refine ⟨rfl, ?_⟩
      simp [St.say, shows_append, shows]
    · rw [hpub] at h
      refine ⟨(complete_toks h).last, ?_⟩
      rw [(complete_toks h).log]
      simp [St.say, shows_append, shows]
    · exact ⟨(runTask_toks h).last, by rw [(runTask_toks h).log]⟩
  · have hl' : op ≠ .loopRaise := by
      rintro rfl
      obtain ⟨_, _, _, _, _, _, h1, _⟩ := loopRaise_some h
      rw [ht] at h1
      cases h1
    obtain ⟨es, hes1, hes2⟩ := step_log h hl hl'
    refine ⟨?_, ?_⟩
    · cases op with
      | dispatch a =>
        simp only [step, St.dispatch, Option.map_eq_some_iff] at h
        obtain ⟨s1, h1, rfl⟩ := h
        exact (fstep_toks h1).last
      | loop => exact absurd rfl hl
      | loopRaise => exact absurd rfl hl'
      | other l =>
        simp only [step] at h
        split at h
        · cases h
        · exact (runTask_toks h).last
      | fut op =>
        simp only [step] at h
        split at h
        · exact (fstep_toks h).last
        · cases h
      | go n =>
        simp only [step] at h
        split at h
        · cases h
        · unfold St.go at h
          dsimp only at h
          split at h
          · cases h
          · cases h; rfl
          · cases h; rfl
          · cases h; rfl
          · cases h
          · split at h
            · split at h
              · simp only [Option.map_eq_some_iff] at h
                obtain ⟨s1, h1, rfl⟩ := h
                exact (fstep_toks h1).last
              · cases h; rfl
            · split at h
              · split at h
                · split at h
                  · exact (fstep_toks h).last
                  · exact (fstep_toks h).last
                · cases h; rfl
              · simp only [Option.bind_eq_some_iff] at h
                obtain ⟨n, _, h⟩ := h
                split at h
                · exact (fstep_toks h).last
                · simp only [Option.bind_eq_some_iff] at h
                  obtain ⟨s1, h1, h2⟩ := h
                  exact (fstep_toks h2).last.trans (fstep_toks h1).last
      | prim n o =>
        simp only [step] at h
        split at h
        · split at h
          · cases h; rfl
          · cases h
        · cases h
      | raise n =>
        simp only [step] at h
        split at h
        · cases h; rfl
        · simp only [Option.bind_eq_some_iff] at h
          obtain ⟨m, _, h⟩ := h
          exact (fstep_toks h).last
        · cases h
      | commit => exact absurd rfl hop
    · have : shows es = [] := by
        apply shows_nil
        intro e he v hv
        exact hop ((hes2 e he).2 ⟨v, hv⟩)
      rw [hes1, shows_append, this, List.append_nil]

/-- C51: a commit publishes the fold of all the actions processed so far: `get()` shows it, and the
watchers have been called with it last; they are called once at most. -/
theorem C51_commit {c : Cfg A Mo} (hc : c.sound) {st st' : St A Mo} (r : Reach c st)
    (h : step c st .commit = some st') :
    st'.get = fold c (reductions st.log) ∧ lastShown c.init st'.log = st'.get ∧
    (shows st'.log = shows st.log ∨ shows st'.log = shows st.log ++ [st'.get]) := by
  have k := r.core hc
  simp only [step] at h
  split at h
  · cases h
    obtain ⟨h1, h2, _⟩ := core_send k
    refine ⟨by rw [← k.cur]; exact h2, h1.seen, ?_⟩
    by_cases hd : st.dirty = true
    · right
      show shows st.sendDown.notify.log = shows st.log ++ [st.sendDown.notify.last]
      rw [h2]
      unfold St.sendDown St.notify
      simp [hd, shows_append, shows]
    · left
      unfold St.sendDown St.notify
      simp [hd, k.ntf]
  · cases h

/-- C51: effects still run, exactly once. -/
theorem C51_effects {c : Cfg A Mo} (hc : c.sound) (ht : c.trans = true) {st : St A Mo} (r : Reach c st)
    {d : Nat} {a : A} {e : Eff} (h : Returned st d a e) (he : e.isEmpty = false) (hi : st.idle) :
    effRuns d st.log = 1 := (C49_once hc r d).2.1 a e h he hi ((r.core hc).not_lost ht d)

/-- Transactional: dispatches, then a commit. -/
def exOpsT : List (SOp Nat) :=
  [.dispatch 1, .dispatch 2, .loop, .loop, .loop, .go 0, .dispatch 4, .prim 0 none, .go 0, .loop]

example : (exec (exCfg true false) (start (exCfg true false)) exOpsT).isSome = true ∧
    (exSt (exCfg true false) exOpsT).get = 10 ∧
    effRuns 1 (exSt (exCfg true false) exOpsT).log = 1 ∧
    ((step (exCfg true false) (exSt (exCfg true false) exOpsT) .commit).map (fun s => (s.get, shows s.log)))
      = some (17, [17]) := by decide +kernel

/-! ### C54 -/

/-- C54 is false: an effect made from `noop` is not recognised as empty; the store calls it. -/
theorem C54_false : ∃ st, Reach (exCfg false true) st ∧ ∃ d a x, Returned st d a .noop ∧
    SEv.effStart d x .noop ∈ st.log :=
  ⟨exSt (exCfg false true) [.dispatch 5, .loop, .loop, .go 0, .go 0], exSt_reach (by decide +kernel), 0, 5, 0,
    ⟨10, 15, by decide +kernel⟩, by decide +kernel⟩

/-- C54: running it makes no observable difference: on a store that is not transactional the task that
runs it, and then its call, do what the task that publishes the model does that is posted when there is
no effect: same model, same calls of watchers, same promises, same queue. -/
theorem C54_same {c : Cfg A Mo} {st s' : St A Mo} {d i : Nat} {q : List (Item A)}
    (hq : st.queue = .effect d .noop i :: q)
    (h : exec c { st with queue := .publish d i :: q } [.loop] = some s') :
    ∃ s, exec c st [.loop, .go 0, .go 0] = some s ∧
      s.log = s'.log ++ [.effStart d st.nx .noop, .effEnd d none] ∧
      s = { s' with nx := st.nx + 1, log := s.log } := by
  simp only [exec, step, Option.bind_eq_some_iff, Option.some.injEq] at h
  obtain ⟨x, h1, rfl⟩ := h
  simp only [St.loop] at h1
  simp only [exec, step, St.loop, hq, Option.bind_some]
  have hnx : ({ st with queue := q }.publish c).nx = st.nx := by
    unfold St.publish
    split
    · rfl
    · unfold St.sendDown St.notify
      split <;> split <;> rfl
  generalize { st with queue := q }.publish c = p at *
  simp only [St.go, List.getElem?_cons_zero, List.eraseIdx_cons_zero, Option.bind_some, Option.bind_none,
    Option.join_none]
  simp only [St.complete, St.fstep] at h1
  by_cases hF : c.hasF = true
  · simp only [hF, if_true, Option.map_eq_some_iff] at h1
    obtain ⟨fu, h2, rfl⟩ := h1
    have h2' : Future.step p.fu (.fulfil i) = some fu := h2
    simp only [hF, if_true, St.fstep, St.say]
    rw [h2']
    refine ⟨_, rfl, ?_, ?_⟩
    · simp
    · simp
  · rw [if_neg hF] at h1
    cases h1
    simp only [if_neg hF]
    refine ⟨_, rfl, ?_, ?_⟩
    · simp [St.say]
    · simp [St.say]

/-- An effect that does nothing, with futures. -/
example : (exec (exCfg false true) (start (exCfg false true)) [.dispatch 5, .loop]).isSome = true ∧
    (exec (exCfg false true) (start (exCfg false true)) [.dispatch 5, .loop, .loop, .go 0, .go 0]).isSome = true ∧
    shows (exSt (exCfg false true) [.dispatch 5, .loop, .loop, .go 0, .go 0]).log = [15] := by
  decide +kernel

end Verif.Store
