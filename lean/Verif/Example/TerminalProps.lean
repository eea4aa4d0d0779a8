import Verif.Example.Terminal
import Verif.Store.MultiReach

/-!
C139: the counter in a terminal.
-/

namespace Verif.Terminal

open Verif.Store (Cfg St dispatches)

/-! ### Spec -/

/-- What the program can become. -/
inductive Reach : Term → Prop where
  | start : Reach .start
  | step {t t'} (o : TOp) : Reach t → t.step o = some t' → Reach t'

/-- … if there is never only a part of a character to read. -/
inductive WholeReach : Term → Prop where
  | start : WholeReach .start
  | step {t t'} (o : TOp) : WholeReach t → o ≠ .fragment → t.step o = some t' → WholeReach t'

/-- The keys: up counts up, down counts down, and the space bar begins anew. -/
def count (c : Int) : List Key → Int
  | [] => c
  | .up :: ks => count (c + 1) ks
  | .down :: ks => count (c - 1) ks
  | .space :: ks => count 0 ks
  | _ :: ks => count c ks

/-- What the program writes on the screen that the keys do, `main.cpp:33-35`: "arrow up -- decrease counter",
"arrow down -- increase counter", "space bar -- reset counter". -/
def told (c : Int) : Key → Int
  | .up => c - 1
  | .down => c + 1
  | .space => 0
  | _ => c

/-- The steps in which the program reads keys. -/
def TOp.reads : TOp → Bool
  | .ready => true
  | .input => true
  | .get => true
  | _ => false

/-- … and those in which it does anything, but for changes of the size. -/
def TOp.works : TOp → Bool
  | .task => true
  | o => o.reads

/-- What the user does. -/
def TOp.types : TOp → Bool
  | .press _ => true
  | .fragment => true
  | _ => false

/-! ### Proofs -/

theorem WholeReach.reach {t : Term} (r : WholeReach t) : Reach t := by
  induction r with
  | start => exact .start
  | step o _ _ h ih => exact .step o ih h

theorem cfg_sound : cfg.sound := fun _ _ h => by cases h

theorem step_act {t t' : Term} {o : TOp} (h : t.step o = some t') : t.threw = false ∧ t.act o = some t' := by
  unfold Term.step at h
  split at h
  · cases h
  · rename_i ht
    exact ⟨by simpa using ht, h⟩

theorem runTask_log {s s' : St Counter.Act (Option Int)} {l : Nat} (h : s.runTask l = some s') : s'.log = s.log := by
  unfold Store.St.runTask at h
  split at h
  · cases h
  · simp only [Option.map_eq_some_iff] at h
    obtain ⟨s1, h1, rfl⟩ := h
    have : s1.log = s.log := by
      simp only [Store.St.fstep, Option.map_eq_some_iff] at h1
      obtain ⟨f, _, rfl⟩ := h1
      rfl
    split <;> exact this

theorem dispatch_some {s : St Counter.Act (Option Int)} (hu : s.fu.ub = false) (a : Counter.Act) :
    ∃ s', Store.step cfg s (.dispatch a) = some s' ∧ s'.fu.ub = false := by
  simp [Store.step, Store.St.dispatch, cfg, Store.St.fstep, Future.step, hu, Store.St.post, Store.St.say]

/-- Tasks without effects and futures. -/
def Plain : Store.Item Counter.Act → Prop
  | .reduce _ _ _ => True
  | .publish _ _ => True
  | _ => False

theorem loop_plain {s s' : St Counter.Act (Option Int)} (h : s.loop cfg = some s') (hp : ∀ x ∈ s.queue, Plain x) :
    s'.fu = s.fu ∧ ∀ x ∈ s'.queue, Plain x := by
  unfold Store.St.loop at h
  split at h
  · cases h
  · rename_i d a i q hq
    rw [hq] at hp
    simp only [cfg, Store.Eff.isEmpty, Bool.false_eq_true, if_false, if_true, Option.map_some, Option.some.injEq] at h
    subst h
    refine ⟨rfl, fun x hx => ?_⟩
    rcases List.mem_append.1 (show x ∈ q ++ [.publish d i] from hx) with hx | hx
    · exact hp x (List.mem_cons_of_mem _ hx)
    · cases List.mem_singleton.1 hx
      exact trivial
  · rename_i d e i q hq
    rw [hq] at hp
    exact (hp _ (List.mem_cons_self ..)).elim
  · rename_i d i q hq
    rw [hq] at hp
    simp only [Store.St.complete, cfg, Bool.false_eq_true, if_false, Option.some.injEq] at h
    subst h
    refine ⟨?_, fun x hx => hp x (List.mem_cons_of_mem _ ?_)⟩
    · simp only [Store.St.publish, Bool.false_eq_true, if_false, Store.St.say, Store.St.notify, Store.St.sendDown]
      split <;> split <;> rfl
    · revert hx
      simp only [Store.St.publish, Bool.false_eq_true, if_false, Store.St.say, Store.St.notify, Store.St.sendDown]
      split <;> split <;> exact id
  · rename_i q hq
    rw [hq] at hp
    exact (hp _ (List.mem_cons_self ..)).elim

theorem loop_log {s s' : St Counter.Act (Option Int)} (h : s.loop cfg = some s') :
    ∃ es, s'.log = s.log ++ es ∧ dispatches es = [] := by
  unfold Store.St.loop at h
  split at h
  · cases h
  · split at h
    · cases h
      exact ⟨_, rfl, rfl⟩
    · simp only [cfg, Option.map_eq_some_iff] at h
      obtain ⟨s1, h1, rfl⟩ := h
      simp only [Store.Eff.isEmpty, Bool.false_eq_true, if_false, if_true] at h1
      cases h1
      exact ⟨_, rfl, rfl⟩
  · cases h
    rename_i d e i q _
    obtain ⟨es, h1, _, h3⟩ := Store.publish_adds cfg { s with queue := q }
    refine ⟨es ++ [.ready d] ++ [.effStart d s.nx e], ?_, ?_⟩
    · simp only [Store.St.say, h1, List.append_assoc]
    · simp only [Store.dispatches_disp, Store.disp_append, h3]
      rfl
  · rename_i d i q _
    obtain ⟨es, h1, _, h3⟩ := Store.publish_adds cfg { s with queue := q }
    refine ⟨es ++ [.ready d], ?_, ?_⟩
    · rw [Store.complete_log h]
      simp only [Store.St.say, h1, List.append_assoc]
    · simp only [Store.dispatches_disp, Store.disp_append, h3]
      rfl
  · refine ⟨[], ?_, rfl⟩
    rw [runTask_log h, List.append_nil]

/-- The invariant. -/
structure Inv (t : Term) : Prop where
  keys : ∃ lost, t.pressed = t.handled ++ lost ++ t.keys ∧ lost.length ≤ 1 ∧ (t.threw = false → lost = [])
  store : Store.Reach cfg t.st
  disp : dispatches t.st.log = t.handled.filterMap Key.action
  screen : t.screen = t.st.get
  going : t.on = true → ∀ k ∈ t.handled, k.stops = false
  stopped : t.on = false → ∃ l k, t.handled = l ++ [k] ∧ k.stops = true ∧ ∀ k ∈ l, k.stops = false
  quiet : t.on = false → t.threw = false → t.waits = 0 ∧ t.sigWait = false

theorem nextResize_same (t : Term) : t.nextResize.pressed = t.pressed ∧ t.nextResize.handled = t.handled ∧
    t.nextResize.keys = t.keys ∧ t.nextResize.threw = t.threw ∧ t.nextResize.st = t.st ∧ t.nextResize.screen = t.screen ∧
    t.nextResize.on = t.on ∧ t.nextResize.waits = t.waits ∧ t.nextResize.due = t.due ∧ t.nextResize.reading = t.reading := by
  unfold Term.nextResize
  split <;> simp

theorem Inv.begin : Inv Term.start :=
  ⟨⟨[], rfl, by simp, fun _ => rfl⟩, .start, rfl, rfl, (fun _ => nofun), (by intro h; cases h), (by intro h; cases h)⟩

theorem Inv.handle {t t' : Term} (i : Inv t) (hon : t.on = true) {k : Key} {ks : List Key} (hk : t.keys = k :: ks)
    (ht : t.threw = false) (h : (Term.nextKey { t with keys := ks }).handle k = some t') : Inv t' := by
  obtain ⟨lost, h1, _, h3⟩ := i.keys
  have hl : lost = [] := h3 ht
  subst hl
  rw [hk, List.append_nil] at h1
  have hp : t.pressed = (t.handled ++ [k]) ++ [] ++ ks := by rw [h1]; simp
  have hg : ∀ {k'}, k'.stops = false → ∀ x ∈ t.handled ++ [k'], x.stops = false := by
    intro k' hk' x hx
    rcases List.mem_append.1 hx with hx | hx
    · exact i.going hon x hx
    · cases List.mem_singleton.1 hx
      exact hk'
  have act : ∀ a, k.stops = false → k.action = some a → Inv t' := by
    intro a hs ha
    simp only [Term.handle, hs, ha, Term.nextKey, Bool.false_eq_true, if_false, Option.map_eq_some_iff] at h
    obtain ⟨s, h4, rfl⟩ := h
    have hd := Store.dispatch_grows rfl h4
    refine ⟨⟨[], hp, by simp, fun _ => rfl⟩, .step (.dispatch a) i.store h4, ?_, ?_, fun _ => hg hs, ?_, ?_⟩
    · show dispatches s.log = _
      rw [hd.2.2.1, Store.dispatches_append, i.disp, List.filterMap_append]
      simp [dispatches, ha]
    · show t.screen = s.last
      rw [i.screen, hd.2.2.2.1]
      rfl
    · intro h; rw [hon] at h; cases h
    · intro h; rw [hon] at h; cases h
  have quit : k.stops = true → k.action = none → Inv t' := by
    intro hs ha
    simp only [Term.handle, hs, if_true, Term.nextKey, Term.stop] at h
    cases h
    refine ⟨⟨[], hp, by simp, fun _ => rfl⟩, i.store, ?_, i.screen, (by intro h; cases h),
      fun _ => ⟨t.handled, k, rfl, hs, i.going hon⟩,
      fun _ _ => ⟨rfl, rfl⟩⟩
    show dispatches t.st.log = _
    rw [List.filterMap_append, i.disp]
    simp [ha]
  cases k with
  | up => exact act _ rfl rfl
  | down => exact act _ rfl rfl
  | space => exact act _ rfl rfl
  | quit => exact quit rfl rfl
  | esc => exact quit rfl rfl
  | other n =>
    simp only [Term.handle, Key.stops, Key.action, Term.nextKey, Bool.false_eq_true, if_false] at h
    cases h
    refine ⟨⟨[], hp, by simp, fun _ => rfl⟩, i.store, ?_, i.screen, fun _ => hg rfl, ?_, ?_⟩
    · show dispatches t.st.log = _
      rw [List.filterMap_append, i.disp]
      simp [Key.action]
    · intro h; rw [hon] at h; cases h
    · intro h; rw [hon] at h; cases h

theorem Inv.step {t t' : Term} (i : Inv t) {o : TOp} (h : t.step o = some t') : Inv t' := by
  obtain ⟨ht, h⟩ := step_act h
  cases o with
  | press k =>
    cases h
    refine ⟨?_, i.store, i.disp, i.screen, i.going, i.stopped, i.quiet⟩
    obtain ⟨lost, h1, h2, h3⟩ := i.keys
    exact ⟨lost, by rw [h1]; simp, h2, h3⟩
  | ready =>
    simp only [Term.act] at h
    split at h
    · cases h
    · cases h
      refine ⟨i.keys, i.store, i.disp, i.screen, i.going, i.stopped, fun h1 h2 => ⟨rfl, (i.quiet h1 h2).2⟩⟩
  | fragment =>
    simp only [Term.act] at h
    split at h
    · cases h
    · cases h
      refine ⟨i.keys, i.store, i.disp, i.screen, i.going, i.stopped, fun h1 h2 => ⟨rfl, (i.quiet h1 h2).2⟩⟩
  | input =>
    simp only [Term.act] at h
    split at h
    · cases h
    · cases h
      exact ⟨i.keys, i.store, i.disp, i.screen, i.going, i.stopped, i.quiet⟩
  | get =>
    simp only [Term.act] at h
    split at h
    · split at h
      · cases h
        exact ⟨i.keys, i.store, i.disp, i.screen, i.going, i.stopped, i.quiet⟩
      · rename_i k ks hk
        split at h
        · rename_i hon
          exact i.handle hon hk ht h
        · cases h
          obtain ⟨lost, h1, _, h3⟩ := i.keys
          have hl : lost = [] := h3 ht
          subst hl
          refine ⟨⟨[k], ?_, by simp, by intro h; cases h⟩, i.store, i.disp, i.screen, i.going, i.stopped, by intro _ h; cases h⟩
          show t.pressed = t.handled ++ [k] ++ ks
          rw [h1, hk]
          simp
    · cases h
  | winch =>
    simp only [Term.act] at h
    split at h
    · cases h
      exact ⟨i.keys, i.store, i.disp, i.screen, i.going, i.stopped, fun h1 h2 => ⟨(i.quiet h1 h2).1, rfl⟩⟩
    · cases h
      exact ⟨i.keys, i.store, i.disp, i.screen, i.going, i.stopped, i.quiet⟩
  | resized =>
    simp only [Term.act] at h
    split at h
    · cases h
    · obtain ⟨e1, e2, e3, e4, e5, e6, e7, e8, e9, e10⟩ := nextResize_same { t with sigDue := false }
      split at h
      · rename_i hon
        cases h
        refine ⟨?_, ?_, ?_, rfl, ?_, ?_, ?_⟩
        · simp only [e1, e2, e3, e4]; exact i.keys
        · simp only [e5]; exact i.store
        · simp only [e5, e2]; exact i.disp
        · simp only [e2]; exact fun _ => i.going hon
        · simp only [e7]; intro h; rw [hon] at h; cases h
        · simp only [e7]; intro h; rw [hon] at h; cases h
      · rename_i hon
        cases h
        simp only [Bool.not_eq_true] at hon
        refine ⟨?_, ?_, ?_, ?_, ?_, ?_, by intro _ h; cases h⟩
        · simp only [Term.throw, e1, e2, e3]
          obtain ⟨lost, h1, h2, h3⟩ := i.keys
          exact ⟨lost, h1, h2, by intro h; cases h⟩
        · simp only [Term.throw, e5]; exact i.store
        · simp only [Term.throw, e5, e2]; exact i.disp
        · simp only [Term.throw, e5, e6]; exact i.screen
        · simp only [Term.throw, e7]; intro h; rw [hon] at h; cases h
        · simp only [Term.throw, e2]; exact fun _ => i.stopped hon
  | task =>
    simp only [Term.act] at h
    split at h
    · cases h
    · simp only [Option.map_eq_some_iff] at h
      obtain ⟨s, h1, rfl⟩ := h
      obtain ⟨es, h2, h3⟩ := loop_log h1
      have r' : Store.Reach cfg s := .step .loop i.store h1
      refine ⟨i.keys, r', ?_, ?_, i.going, i.stopped, i.quiet⟩
      · show dispatches s.log = _
        rw [h2, Store.dispatches_append, h3, List.append_nil, i.disp]
      · show Store.lastShown t.screen (s.log.drop t.st.log.length) = s.get
        rw [h2, List.drop_left, i.screen, ← (Store.C50_last cfg_sound r').1, h2, Store.lastShown_append,
          (Store.C50_last cfg_sound i.store).1]

theorem Reach.inv {t : Term} (r : Reach t) : Inv t := by
  induction r with
  | start => exact Inv.begin
  | step o _ h ih => exact ih.step h

theorem Reach.plain {t : Term} (r : Reach t) : t.st.fu.ub = false ∧ ∀ x ∈ t.st.queue, Plain x := by
  induction r with
  | start => exact ⟨rfl, nofun⟩
  | @step t t' o r h ih =>
    obtain ⟨ht, h⟩ := step_act h
    cases o with
    | press k => cases h; exact ih
    | ready => simp only [Term.act] at h; split at h <;> cases h; exact ih
    | fragment => simp only [Term.act] at h; split at h <;> cases h; exact ih
    | input => simp only [Term.act] at h; split at h <;> cases h; exact ih
    | get =>
      simp only [Term.act] at h
      split at h
      · split at h
        · cases h; exact ih
        · rename_i k ks hk
          split at h
          · simp only [Term.handle, Term.nextKey] at h
            split at h
            · cases h; exact ih
            · split at h
              · rename_i a _
                obtain ⟨s, h1, h2⟩ := dispatch_some ih.1 a
                have hq := (Store.dispatch_grows rfl h1).1
                simp only [h1, Option.map_some, Option.some.injEq] at h
                subst h
                refine ⟨h2, fun x hx => ?_⟩
                rw [show Store.St.queue _ = _ from hq] at hx
                rcases List.mem_append.1 hx with hx | hx
                · exact ih.2 x hx
                · cases List.mem_singleton.1 hx
                  exact trivial
              · cases h; exact ih
          · cases h; exact ih
      · cases h
    | winch => simp only [Term.act] at h; split at h <;> (cases h; exact ih)
    | resized =>
      simp only [Term.act] at h
      split at h
      · cases h
      · have e5 := (nextResize_same { t with sigDue := false }).2.2.2.2.1
        split at h
        · cases h
          simp only [e5]; exact ih
        · cases h
          simp only [Term.throw, e5]; exact ih
    | task =>
      simp only [Term.act] at h
      split at h
      · cases h
      · simp only [Option.map_eq_some_iff] at h
        obtain ⟨s, h1, rfl⟩ := h
        obtain ⟨h2, h3⟩ := loop_plain h1 ih.2
        exact ⟨by rw [h2]; exact ih.1, h3⟩

theorem count_value (c : Int) (ks : List Key) : count c ks = Counter.value c (ks.filterMap Key.action) := by
  induction ks generalizing c with
  | nil => rfl
  | cons k ks ih => cases k <;> simp [count, Key.action, Counter.value, List.filterMap_cons, ih]

theorem fold_run (m : Option Int) (as : List Counter.Act) :
    as.foldl cfg.next m = m.bind fun c => Counter.run c as := by
  induction as generalizing m with
  | nil => cases m <;> rfl
  | cons a as ih =>
    rw [List.foldl_cons, ih]
    cases m <;> rfl

theorem run_count (hs : List Key) :
    (∀ v, Counter.run 0 (hs.filterMap Key.action) = some v → v = count 0 hs) ∧
    (Counter.run 0 (hs.filterMap Key.action) = none ↔
      ∃ ks ls, hs = ks ++ ls ∧ ¬ (-2 ^ 31 ≤ count 0 ks ∧ count 0 ks < 2 ^ 31)) := by
  have hc := Counter.C125_counter 0 (hs.filterMap Key.action)
  refine ⟨fun v h => ?_, ?_⟩
  · rw [count_value]; exact hc.1 v h
  · rw [hc.2]
    constructor
    · rintro ⟨bs, a, cs, h1, _, h3⟩
      have h1' : hs.filterMap Key.action = (bs ++ [a]) ++ cs := by rw [h1]; simp
      obtain ⟨ks, ls, h4, h5, _⟩ := List.filterMap_eq_append_iff.1 h1'
      exact ⟨ks, ls, h4, by rw [count_value, h5]; exact h3⟩
    · rintro ⟨ks, ls, h1, h2⟩
      -- the last action of `ks` that leaves the range
      have key : ∀ (as : List Counter.Act) (c : Int), -2 ^ 31 ≤ c ∧ c < 2 ^ 31 → (∀ a ∈ as, ∀ n, a = .reset n → n = 0) →
          ¬ (-2 ^ 31 ≤ Counter.value c as ∧ Counter.value c as < 2 ^ 31) →
          ∃ bs a cs, as = bs ++ a :: cs ∧ (∀ n, a ≠ .reset n) ∧
            ¬ (-2 ^ 31 ≤ Counter.value c (bs ++ [a]) ∧ Counter.value c (bs ++ [a]) < 2 ^ 31) := by
        intro as
        induction as with
        | nil => intro c hc' _ h; exact absurd hc' h
        | cons a as ih =>
          intro c hc' hz h
          by_cases hin : -2 ^ 31 ≤ Counter.value c [a] ∧ Counter.value c [a] < 2 ^ 31
          · have hv : ∀ l, Counter.value c (a :: l) = Counter.value (Counter.value c [a]) l := by
              intro l; cases a <;> rfl
            rw [hv] at h
            obtain ⟨bs, b, cs, h3, h4, h5⟩ := ih _ hin (fun x hx => hz x (List.mem_cons_of_mem _ hx)) h
            exact ⟨a :: bs, b, cs, by rw [h3]; rfl, h4, by rw [List.cons_append, hv]; exact h5⟩
          · refine ⟨[], a, as, rfl, ?_, hin⟩
            intro n hn
            have := hz a (List.mem_cons_self ..) n hn
            subst this; subst hn
            exact hin (show -2 ^ 31 ≤ (0 : Int) ∧ (0 : Int) < 2 ^ 31 by decide)
      rw [count_value] at h2
      have hz : ∀ a ∈ ks.filterMap Key.action, ∀ n, a = .reset n → n = 0 := by
        intro a ha n hn
        obtain ⟨k, _, h4⟩ := List.mem_filterMap.1 ha
        subst hn
        cases k <;> simp [Key.action] at h4
        exact h4.symm
      obtain ⟨bs, a, cs, h3, h4, h5⟩ := key _ 0 (by decide) hz h2
      exact ⟨bs, a, cs ++ ls.filterMap Key.action, by rw [h1, List.filterMap_append, h3]; simp, h4, h5⟩

/-! ### C139 -/

/-- C139: the keys are handled in the order in which they are pressed, each once; only if the program throws, at most one of them
is read and not handled. -/
theorem C139_keys {t : Term} (r : Reach t) : ∃ lost, t.pressed = t.handled ++ lost ++ t.keys ∧ lost.length ≤ 1 ∧
    (t.threw = false → lost = []) := r.inv.keys

/-- C139: when no tasks of the store are left, the counter is the number of ups less the number of downs since the space bar was
pressed last; unless, and only unless, that was too large or too small for an `int` at some point. -/
theorem C139_value {t : Term} (r : Reach t) (hi : t.st.idle) :
    (∀ v, t.st.get = some v → v = count 0 t.handled) ∧
    (t.st.get = none ↔ ∃ ks ls, t.handled = ks ++ ls ∧ ¬ (-2 ^ 31 ≤ count 0 ks ∧ count 0 ks < 2 ^ 31)) := by
  have i := r.inv
  have hg : t.st.get = Counter.run 0 (t.handled.filterMap Key.action) := by
    rw [Store.C48_fold cfg_sound rfl i.store hi, i.disp]
    exact fold_run (some 0) _
  rw [hg]
  exact run_count t.handled

/-- C139: the screen shows what `get()` returns. -/
theorem C139_screen {t : Term} (r : Reach t) : t.screen = t.st.get := r.inv.screen

/-- The invariant that keeps the program reading. -/
theorem WholeReach.awake {t : Term} (r : WholeReach t) :
    t.on = true → t.waits ≠ 0 ∨ (t.keys ≠ [] ∧ (t.due ≠ 0 ∨ t.reading = true)) := by
  induction r with
  | start => intro _; exact .inl (by decide)
  | @step t t' o r ho h ih =>
    obtain ⟨ht, h⟩ := step_act h
    cases o with
    | fragment => exact absurd rfl ho
    | press k =>
      cases h
      intro hon
      rcases ih hon with h1 | ⟨_, h2⟩
      · exact .inl h1
      · exact .inr ⟨by simp, h2⟩
    | ready =>
      simp only [Term.act] at h
      split at h
      · cases h
      · rename_i hk
        cases h
        intro _
        simp only [Bool.or_eq_true, List.isEmpty_iff, beq_iff_eq, not_or] at hk
        exact .inr ⟨hk.1, .inl (by show t.due + t.waits ≠ 0; omega)⟩
    | input =>
      simp only [Term.act] at h
      split at h
      · cases h
      · cases h
        intro hon
        rcases ih hon with h1 | ⟨h1, _⟩
        · exact .inl h1
        · exact .inr ⟨h1, .inr rfl⟩
    | get =>
      simp only [Term.act] at h
      split at h
      · split at h
        · rename_i hk
          cases h
          intro hon
          rcases ih hon with h1 | ⟨h1, _⟩
          · exact .inl h1
          · exact absurd hk h1
        · rename_i k ks hk
          split at h
          · simp only [Term.handle] at h
            split at h
            · cases h
              intro hon; cases hon
            · split at h
              · simp only [Option.map_eq_some_iff] at h
                obtain ⟨s, _, rfl⟩ := h
                intro _
                exact .inl (Nat.succ_ne_zero _)
              · cases h
                intro _
                exact .inl (Nat.succ_ne_zero _)
          · rename_i hon
            cases h
            intro hon'
            exact absurd hon' hon
      · cases h
    | winch =>
      simp only [Term.act] at h
      split at h <;> (cases h; exact ih)
    | resized =>
      simp only [Term.act] at h
      split at h
      · cases h
      · obtain ⟨_, _, e3, _, _, _, e7, e8, e9, e10⟩ := nextResize_same { t with sigDue := false }
        split at h
        · cases h
          simp only [e3, e7, e8, e9, e10]
          exact ih
        · rename_i hon
          cases h
          simp only [Term.throw, e7]
          intro hon'
          exact absurd hon' hon
    | task =>
      simp only [Term.act] at h
      split at h
      · cases h
      · simp only [Option.map_eq_some_iff] at h
        obtain ⟨s, _, rfl⟩ := h
        exact ih

/-- C139: if there is never only a part of a character to read, the program goes on reading until it is stopped: when there is
nothing that it can do to read keys, it has handled all that were pressed. -/
theorem C139_all {t : Term} (r : WholeReach t) (hon : t.on = true) (ht : t.threw = false)
    (h : ∀ o : TOp, o.reads = true → t.step o = none) : t.handled = t.pressed := by
  have h1 := h .ready rfl
  have h2 := h .input rfl
  have h3 := h .get rfl
  simp only [Term.step, Term.act, ht, Bool.false_eq_true, if_false] at h1 h2 h3
  obtain ⟨lost, k1, _, k3⟩ := r.reach.inv.keys
  have hl : lost = [] := k3 ht
  subst hl
  suffices hk : t.keys = [] by rw [k1, hk]; simp
  have hr : t.reading = false := by
    cases hr : t.reading with
    | false => rfl
    | true =>
      simp only [hr, if_true] at h3
      split at h3
      · cases h3
      · rename_i k ks hk
        simp only [hon, if_true, Term.handle] at h3
        split at h3
        · cases h3
        · split at h3
          · simp only [Option.map_eq_none_iff] at h3
            obtain ⟨s, h4, _⟩ := dispatch_some r.reach.plain.1 _
            cases h3.symm.trans h4
          · cases h3
  rcases r.awake hon with hw | ⟨hk, hd⟩
  · split at h1
    · rename_i hh
      simp only [Bool.or_eq_true, List.isEmpty_iff, beq_iff_eq] at hh
      rcases hh with hh | hh
      · exact hh
      · exact absurd hh hw
    · cases h1
  · rcases hd with hd | hd
    · split at h2
      · rename_i hh
        simp only [hr, Bool.false_or, beq_iff_eq] at hh
        exact absurd hh hd
      · cases h2
    · rw [hr] at hd; cases hd

/-- How many tasks the store has to run. -/
def weigh : List (Store.Item Counter.Act) → Nat
  | [] => 0
  | .reduce _ _ _ :: q => 2 + weigh q
  | .publish _ _ :: q => 1 + weigh q
  | _ :: q => weigh q

/-- What is left to do. -/
def Term.left (t : Term) : Nat := 6 * t.keys.length + 3 * t.waits + 2 * t.due + (if t.reading then 1 else 0) + weigh t.st.queue

theorem weigh_append (l r : List (Store.Item Counter.Act)) : weigh (l ++ r) = weigh l + weigh r := by
  induction l with
  | nil => simp [weigh]
  | cons x l ih => cases x <;> simp [weigh, ih] <;> omega

theorem weigh_le (l : List (Store.Item Counter.Act)) : weigh l ≤ 2 * l.length := by
  induction l with
  | nil => exact Nat.le_refl _
  | cons x l ih => cases x <;> simp [weigh] <;> omega

theorem loop_weigh {s s' : St Counter.Act (Option Int)} (h : s.loop cfg = some s') (hp : ∀ x ∈ s.queue, Plain x) :
    weigh s'.queue + 1 ≤ weigh s.queue := by
  unfold Store.St.loop at h
  split at h
  · cases h
  · rename_i d a i q hq
    simp only [cfg, Store.Eff.isEmpty, Bool.false_eq_true, if_false, if_true, Option.map_some, Option.some.injEq] at h
    subst h
    rw [hq]
    show weigh (q ++ [.publish d i]) + 1 ≤ _
    rw [weigh_append]
    simp only [weigh]
    omega
  · rename_i d e i q hq
    rw [hq] at hp
    exact (hp _ (List.mem_cons_self ..)).elim
  · rename_i d i q hq
    simp only [Store.St.complete, cfg, Bool.false_eq_true, if_false, Option.some.injEq] at h
    subst h
    rw [hq]
    simp only [Store.St.publish, Bool.false_eq_true, if_false, Store.St.say, Store.St.notify, Store.St.sendDown, weigh]
    split <;> split <;> (simp only; omega)
  · rename_i q hq
    rw [hq] at hp
    exact (hp _ (List.mem_cons_self ..)).elim

theorem left_step {t t' : Term} (r : Reach t) {o : TOp} (h : t.step o = some t') (ho : o.types = false) :
    t'.left + (if o.works then 1 else 0) ≤ t.left := by
  obtain ⟨ht, h⟩ := step_act h
  cases o with
  | fragment => cases ho
  | press k => cases ho
  | ready =>
    simp only [Term.act] at h
    split at h
    · cases h
    · rename_i hk
      cases h
      simp only [Bool.or_eq_true, List.isEmpty_iff, beq_iff_eq, not_or] at hk
      simp only [Term.left, TOp.works, TOp.reads, if_true]
      omega
  | input =>
    simp only [Term.act] at h
    split at h
    · cases h
    · rename_i hk
      cases h
      simp only [Bool.or_eq_true, beq_iff_eq, not_or, Bool.not_eq_true] at hk
      simp only [Term.left, TOp.works, TOp.reads, if_true, hk.1, Bool.false_eq_true, if_false]
      omega
  | get =>
    simp only [Term.act] at h
    split at h
    · rename_i hr
      split at h
      · cases h
        simp [Term.left, TOp.works, TOp.reads, hr]
        omega
      · rename_i k ks hk
        split at h
        · simp only [Term.handle, Term.nextKey] at h
          split at h
          · cases h
            simp only [Term.left, TOp.works, TOp.reads, if_true, hr, hk, List.length_cons, Term.stop]
            omega
          · split at h
            · simp only [Option.map_eq_some_iff] at h
              obtain ⟨s, h1, rfl⟩ := h
              have hq := (Store.dispatch_grows rfl h1).1
              have hw : weigh s.queue = weigh t.st.queue + 2 := by
                rw [hq, weigh_append]; rfl
              simp only [Term.left, TOp.works, TOp.reads, if_true, hr, hk, List.length_cons]
              omega
            · cases h
              simp only [Term.left, TOp.works, TOp.reads, if_true, hr, hk, List.length_cons]
              omega
        · cases h
          simp only [Term.left, TOp.works, TOp.reads, if_true, hr, hk, List.length_cons, Term.throw, Term.nextKey,
            Bool.false_eq_true, if_false]
          omega
    · cases h
  | winch =>
    simp only [Term.act] at h
    split at h <;> (cases h; exact Nat.le_refl _)
  | resized =>
    simp only [Term.act] at h
    split at h
    · cases h
    · obtain ⟨_, _, e3, _, e5, _, e7, e8, e9, e10⟩ := nextResize_same { t with sigDue := false }
      split at h
      · cases h
        simp only [Term.left, TOp.works, TOp.reads, e3, e5, e8, e9, e10]
        exact Nat.le_refl _
      · cases h
        simp only [Term.left, TOp.works, TOp.reads, Term.throw, e3, e5, e8, e9, Bool.false_eq_true, if_false]
        omega
  | task =>
    simp only [Term.act] at h
    split at h
    · cases h
    · simp only [Option.map_eq_some_iff] at h
      obtain ⟨s, h1, rfl⟩ := h
      have := loop_weigh h1 r.plain.2
      simp only [Term.left, TOp.works, if_true]
      omega

/-- C139: and it does so soon: unless more keys are pressed, it has nothing more to do after so many steps, whether it has been
stopped or not. -/
theorem C139_soon {t t' : Term} (r : Reach t) {os : List TOp} (h : t.exec os = some t') (ho : ∀ o ∈ os, o.types = false) :
    (os.filter TOp.works).length ≤ 6 * t.keys.length + 3 * t.waits + 2 * t.due + 2 * t.st.queue.length + 1 := by
  suffices (os.filter TOp.works).length ≤ t.left by
    have hw := weigh_le t.st.queue
    unfold Term.left at this
    split at this <;> omega
  induction os generalizing t with
  | nil => exact Nat.zero_le _
  | cons o os ih =>
    simp only [Term.exec, Option.bind_eq_some_iff] at h
    obtain ⟨t1, h1, h2⟩ := h
    have h3 := left_step r h1 (ho o (List.mem_cons_self ..))
    have h4 := ih (.step o r h1) h2 fun x hx => ho x (List.mem_cons_of_mem _ hx)
    rw [List.filter_cons]
    split
    · rename_i hr
      rw [hr, if_pos rfl] at h3
      simp only [List.length_cons]
      omega
    · omega

/-- C139: `q` and escape stop the program, and nothing else does: no key is handled after them. -/
theorem C139_stop {t : Term} (r : Reach t) : (t.on = false ↔ .quit ∈ t.handled ∨ .esc ∈ t.handled) ∧
    ∀ l1 k l2, t.handled = l1 ++ k :: l2 → k = .quit ∨ k = .esc → l2 = [] := by
  have i := r.inv
  have hst : ∀ k : Key, k.stops = true ↔ k = .quit ∨ k = .esc := by
    intro k; cases k <;> simp [Key.stops]
  suffices (t.on = false ↔ ∃ k ∈ t.handled, k.stops = true) ∧
      ∀ l1 k l2, t.handled = l1 ++ k :: l2 → k.stops = true → l2 = [] by
    refine ⟨this.1.trans ⟨?_, ?_⟩, fun l1 k l2 h hk => this.2 l1 k l2 h ((hst k).2 hk)⟩
    · rintro ⟨k, h1, h2⟩
      rcases (hst k).1 h2 with rfl | rfl
      · exact .inl h1
      · exact .inr h1
    · rintro (h | h)
      · exact ⟨_, h, rfl⟩
      · exact ⟨_, h, rfl⟩
  refine ⟨⟨fun h => ?_, fun ⟨k, h1, h2⟩ => ?_⟩, ?_⟩
  · obtain ⟨l, k, h1, h2, _⟩ := i.stopped h
    exact ⟨k, by rw [h1]; simp, h2⟩
  · cases hon : t.on with
    | false => rfl
    | true => rw [i.going hon k h1] at h2; cases h2
  · intro l1 k l2 h hk
    cases hon : t.on with
    | true =>
      have := i.going hon k (by rw [h]; simp)
      rw [this] at hk; cases hk
    | false =>
      obtain ⟨l, k', h1, h2, h3⟩ := i.stopped hon
      rcases List.eq_nil_or_concat l2 with h4 | ⟨l3, x, h4⟩
      · exact h4
      · rw [h1, h4, List.concat_eq_append, ← List.cons_append, ← List.append_assoc] at h
        have h5 := (List.append_inj' h rfl).1
        have := h3 k (by rw [h5]; simp)
        rw [this] at hk; cases hk

/-- C139: if nothing else has been typed and no change of the size is due when the program is stopped, then it does not throw, and
waits neither for keys nor for changes of the size: `run()` returns when nothing is left to do for the store.  So all keys that
were handled count. -/
theorem C139_quit {t t' : Term} {os : List TOp} (r : Reach t) (hon : t.on = false) (ht : t.threw = false) (hk : t.keys = [])
    (hs : t.sigDue = false) (ho : ∀ o ∈ os, o.types = false) (h : t.exec os = some t') :
    t'.threw = false ∧ t'.waits = 0 ∧ t'.sigWait = false ∧ t'.sigDue = false ∧ t'.handled = t.handled := by
  have key : ∀ (os : List TOp) (t : Term), t.exec os = some t' → t.on = false → t.threw = false → t.keys = [] →
      t.sigDue = false → t.waits = 0 → t.sigWait = false → (∀ o ∈ os, o.types = false) →
      t'.threw = false ∧ t'.waits = 0 ∧ t'.sigWait = false ∧ t'.sigDue = false ∧ t'.handled = t.handled := by
    intro os
    induction os with
    | nil =>
      intro t h _ h2 _ h4 h5 h6 _
      cases h
      exact ⟨h2, h5, h6, h4, rfl⟩
    | cons o os ih =>
      intro t h h1 h2 h3 h4 h5 h6 ho
      simp only [Term.exec, Option.bind_eq_some_iff] at h
      obtain ⟨t1, h7, h8⟩ := h
      replace h7 := (step_act h7).2
      have ho' : ∀ x ∈ os, x.types = false := fun x hx => ho x (List.mem_cons_of_mem _ hx)
      simp only [Term.act] at h7
      cases o with
      | press k => cases ho (.press k) (List.mem_cons_self ..)
      | fragment => cases ho .fragment (List.mem_cons_self ..)
      | ready => simp [h3] at h7
      | input =>
        simp only at h7
        split at h7
        · cases h7
        · cases h7
          have := ih _ h8 h1 h2 h3 h4 h5 h6 ho'; exact this
      | get =>
        simp only [h3] at h7
        split at h7
        · cases h7
          have := ih _ h8 h1 h2 rfl h4 h5 h6 ho'; exact this
        · cases h7
      | winch =>
        simp only [h6, Bool.false_eq_true, if_false] at h7
        cases h7
        have := ih _ h8 h1 h2 h3 h4 h5 rfl ho'; exact this
      | resized => simp [h4] at h7
      | task =>
        simp only at h7
        split at h7
        · cases h7
        · simp only [Option.map_eq_some_iff] at h7
          obtain ⟨s, _, rfl⟩ := h7
          have := ih _ h8 h1 h2 h3 h4 h5 h6 ho'; exact this
  have hq := r.inv.quiet hon ht
  exact key os t h hon ht hk hs hq.1 hq.2 ho

/-! ### Examples and counterexamples -/

theorem Reach.exec {t t' : Term} (r : Reach t) {os : List TOp} (h : t.exec os = some t') : Reach t' := by
  induction os generalizing t with
  | nil => cases h; exact r
  | cons o os ih =>
    simp only [Term.exec, Option.bind_eq_some_iff] at h
    obtain ⟨t1, h1, h2⟩ := h
    exact ih (.step o r h1) h2

theorem WholeReach.exec {t t' : Term} (r : WholeReach t) {os : List TOp} (ho : ∀ o ∈ os, o ≠ .fragment)
    (h : t.exec os = some t') : WholeReach t' := by
  induction os generalizing t with
  | nil => cases h; exact r
  | cons o os ih =>
    simp only [Term.exec, Option.bind_eq_some_iff] at h
    obtain ⟨t1, h1, h2⟩ := h
    exact ih (.step o r (ho o (List.mem_cons_self ..)) h1) (fun x hx => ho x (List.mem_cons_of_mem _ hx)) h2

def ex (os : List TOp) : Term := (Term.start.exec os).getD .start

theorem ex_exec (os : List TOp) (h : (Term.start.exec os).isSome = true) : Term.start.exec os = some (ex os) := by
  unfold ex
  cases h1 : Term.start.exec os with
  | some t => rfl
  | none => rw [h1] at h; cases h

/-- Up, up, space, down at once, then up; the size changes in between. -/
def exKeys : List TOp :=
  [.press .up, .press .up, .press .space, .press .down, .ready, .input, .get, .get, .get, .get, .get, .task, .winch, .task,
   .resized, .task, .task, .task, .task, .task, .task, .press .up, .ready, .input, .get, .get, .input, .get, .input, .get,
   .input, .get, .task, .task]

example : WholeReach (ex exKeys) :=
  .exec .start (by decide) (ex_exec exKeys (by decide +kernel))

example : (ex exKeys).st.queue = [] ∧ (ex exKeys).st.get = some 0 ∧ (ex exKeys).screen = some 0 ∧
    (ex exKeys).handled = [.up, .up, .space, .down, .up] ∧ (ex exKeys).keys = [] ∧ (ex exKeys).on = true ∧
    (ex exKeys).waits = 1 ∧ (ex exKeys).due = 0 ∧ (ex exKeys).reading = false := by decide +kernel

/-- Up, then `q`. -/
def exQuit : List TOp := [.press .up, .press .quit, .ready, .input, .get, .get]

example : (ex exQuit).on = false ∧ (ex exQuit).threw = false ∧ (ex exQuit).keys = [] ∧ (ex exQuit).sigDue = false ∧
    (((ex exQuit).exec [.get, .task, .winch, .task]).map fun t => (t.st.queue.isEmpty, t.screen)) = some (true, some 1) :=
  ⟨by decide +kernel, by decide +kernel, by decide +kernel, by decide +kernel,
    by decide +kernel⟩

/-- C139 is FALSE if there is only a part of a character to read: no key is ever handled again, whatever happens. -/
theorem C139_stuck_false : ∃ t, Reach t ∧ t.on = true ∧ t.threw = false ∧ t.handled = [] ∧
    ∀ os t', t.exec os = some t' → t'.handled = [] := by
  have key : ∀ (os : List TOp) (t t' : Term), t.exec os = some t' → t.waits = 0 → t.due = 0 → t.reading = false →
      t.handled = [] → t'.handled = [] := by
    intro os
    induction os with
    | nil => intro t t' h' _ _ _ h; cases h'; exact h
    | cons o os ih =>
      intro t t' h h1 h2 h3 h4
      simp only [Term.exec, Option.bind_eq_some_iff] at h
      obtain ⟨t1, h7, h8⟩ := h
      replace h7 := (step_act h7).2
      simp only [Term.act] at h7
      · cases o with
        | press k => cases h7; exact ih _ t' h8 h1 h2 h3 h4
        | ready => simp [h1] at h7
        | fragment => simp [h1] at h7
        | input => simp [h2] at h7
        | get => simp [h3] at h7
        | winch =>
          simp only at h7
          split at h7
          · cases h7; exact ih _ t' h8 h1 h2 h3 h4
          · cases h7; exact ih _ t' h8 h1 h2 h3 h4
        | resized =>
          simp only at h7
          split at h7
          · cases h7
          · obtain ⟨_, e2, _, _, _, _, _, e8, e9, e10⟩ := nextResize_same { t with sigDue := false }
            split at h7
            · cases h7
              exact ih _ t' h8 (e8.trans h1) (e9.trans h2) (e10.trans h3) (e2.trans h4)
            · cases h7
              exact ih _ t' h8 (e8.trans h1) (e9.trans h2) rfl (e2.trans h4)
        | task =>
          simp only [h3, Bool.false_eq_true, if_false, Option.map_eq_some_iff] at h7
          obtain ⟨s, _, rfl⟩ := h7
          exact ih _ t' h8 h1 h2 rfl h4
  have h := ex_exec [.fragment, .input, .get] (by decide +kernel)
  exact ⟨_, Reach.start.exec h, by decide +kernel, by decide +kernel, by decide +kernel,
    fun os t' h => key os _ t' h (by decide +kernel) (by decide +kernel) (by decide +kernel) (by decide +kernel)⟩

/-- C139 is FALSE if more is typed with `q`, or the size changes at the same time: the handler is called when there is none
any more, and `std::bad_function_call` ends the program. -/
theorem C139_quit_false :
    (∃ t, Reach t ∧ t.pressed = [.quit, .quit] ∧ t.threw = true) ∧
    ∃ t, Reach t ∧ t.pressed = [.quit] ∧ t.threw = true := by
  have h := ex_exec [.press .quit, .press .quit, .ready, .input, .get, .get] (by decide +kernel)
  have h' := ex_exec [.press .quit, .ready, .winch, .input, .get, .get, .resized] (by decide +kernel)
  exact ⟨⟨_, Reach.start.exec h, by decide +kernel, by decide +kernel⟩, _, Reach.start.exec h', by decide +kernel, by decide +kernel⟩

/-- C139 is FALSE for what the screen says about the keys: up and down are the wrong way round. -/
theorem C139_help_false : ∃ t, Reach t ∧ t.handled = [.up] ∧ t.st.idle ∧ t.screen = some 1 ∧ told 0 .up = -1 := by
  have h := ex_exec [.press .up, .ready, .input, .get, .get, .task, .task] (by decide +kernel)
  exact ⟨_, Reach.start.exec h, by decide +kernel, by show Store.St.queue _ = []; decide +kernel, by decide +kernel, rfl⟩

end Verif.Terminal
