import Verif.Store.Map
import Verif.Store.Props

/-!
`with_thunk`, `extra/thunk.hpp`, and the simulation of stores whose reducer returns no effects by those
whose reducer returns effects that do nothing.
-/

namespace Verif.Store

variable {A Mo : Type}

/-- `with_thunk`, `extra/thunk.hpp:33-83`: the actions are `std::variant<effect_t, action_t>`.  For
reducers without effects the effect is `noop` (`:71-75`), else it is the one that the reducer returns
(`:62-70`), which is converted to an effect with other actions.
 -/
def withThunk (c : Cfg A Mo) : Cfg (Eff ⊕ A) Mo where
  reducer m
    | .inl e => (m, e)
    | .inr a => ((c.reducer m a).1, if (c.reducer m a).2.isEmpty then .noop else (c.reducer m a).2)
  throws m
    | .inl _ => false
    | .inr a => c.throws m a
  changed := c.changed
  trans := c.trans
  hasF := c.hasF
  init := c.init
  null := c.null

/-- A store where actions do what they do without `with_thunk`, up to the type.  It is not used with thunks. -/
def bare (c : Cfg A Mo) : Cfg (Eff ⊕ A) Mo where
  reducer m
    | .inl _ => (m, .noop)
    | .inr a => c.reducer m a
  throws m
    | .inl _ => false
    | .inr a => c.throws m a
  changed := c.changed
  trans := c.trans
  hasF := c.hasF
  init := c.init
  null := c.null

theorem same_bare (c : Cfg A Mo) : Same Sum.inr c (bare c) :=
  ⟨fun _ _ => rfl, fun _ _ => rfl, rfl, rfl, rfl, rfl, rfl⟩

theorem same_withThunk {c : Cfg A Mo} (h : ∀ m a, (c.reducer m a).2.isEmpty = false) :
    Same Sum.inr c (withThunk c) :=
  ⟨fun m a => by simp [withThunk, h], fun _ _ => rfl, rfl, rfl, rfl, rfl, rfl⟩

/-! ### Effects that do nothing -/

/-- The task when there is an effect that does nothing. -/
def Item.noop : Item A → Item A
  | .publish d i => .effect d .noop i
  | x => x

/-- What matters of an event. -/
def obs : SEv A Mo → Option (SEv A Mo)
  | .effStart _ _ _ => none
  | .effEnd _ _ => none
  | .reduced d m a m' _ => some (.reduced d m a m' .noop)
  | .lost d _ => some (.lost d none)
  | e => some e

/-- The state with other tasks. -/
def St.re (st : St A Mo) (n : Nat) (l : List (SEv A Mo)) : St A Mo :=
  { st with queue := st.queue.map Item.noop, nx := n, log := l }

theorem re_fstep (st : St A Mo) (n : Nat) (l : List (SEv A Mo)) (op : Future.Op) :
    (st.re n l).fstep op = (st.fstep op).map (fun s => s.re n l) := by
  unfold St.fstep
  show (Future.step st.fu op).map _ = _
  cases Future.step st.fu op with
  | none => rfl
  | some fu => simp [St.re, Item.noop]

theorem fstep_fields {st s1 : St A Mo} {op : Future.Op} (h : st.fstep op = some s1) :
    s1.log = st.log ∧ s1.ev = st.ev ∧ s1.tag = st.tag ∧
    (∀ x ∈ s1.queue, x ∈ st.queue ∨ x = .tok) ∧ s1.nx = st.nx := by
  unfold St.fstep at h
  simp only [Option.map_eq_some_iff] at h
  obtain ⟨fu, _, rfl⟩ := h
  refine ⟨rfl, rfl, rfl, ?_, rfl⟩
  intro x hx
  simp only [List.mem_append, List.mem_replicate] at hx
  rcases hx with hx | hx
  · exact .inl hx
  · exact .inr hx.2

/-- The invariants of stores without effects. -/
structure Plain (st : St A Mo) : Prop where
  ev : st.ev = []
  tag : st.tag = fun _ => none
  queue : ∀ d e i, Item.effect d e i ∉ st.queue

theorem Plain.fstep {st s1 : St A Mo} {op : Future.Op} (p : Plain st) (h : st.fstep op = some s1) :
    Plain s1 := by
  obtain ⟨_, h2, h3, h4, _⟩ := fstep_fields h
  refine ⟨h2.trans p.ev, h3.trans p.tag, fun d e i hm => ?_⟩
  rcases h4 _ hm with h | h
  · exact p.queue _ _ _ h
  · cases h

theorem runTask_plain {st : St A Mo} (p : st.tag = fun _ => none) (l : Nat) :
    st.runTask l = if st.fu.queue l = [] then none else st.fstep (.run l) := by
  unfold St.runTask
  cases st.fu.queue l with
  | nil => rfl
  | cons t q =>
    rw [p]
    simp

variable {c : Cfg A Mo}

/-- The same store with effects that do nothing. -/
structure Noops (c c1 : Cfg A Mo) : Prop where
  model : ∀ m a, (c1.reducer m a).1 = (c.reducer m a).1
  none : ∀ m a, (c.reducer m a).2 = .empty → (c1.reducer m a).2 = .noop
  throws : ∀ m a, c1.throws m a = c.throws m a
  changed : c1.changed = c.changed
  trans : c1.trans = c.trans
  hasF : c1.hasF = c.hasF
  init : c1.init = c.init

/-- One step of the store without effects, unless it reduces an action with one, is matched. -/
theorem noop_step {c1 : Cfg A Mo} (h : Noops c c1) (ht : c.trans = false) {st st' : St A Mo} {op : SOp A}
    (p : Plain st) (he : ∀ d a i q, st.queue = .reduce d a i :: q → (c.reducer st.cur a).2 = .empty)
    (hs : step c st op = some st') {n : Nat} {l : List (SEv A Mo)}
    (hl : l.filterMap obs = st.log.filterMap obs) :
    Plain st' ∧ ∃ ops n' l', exec c1 (st.re n l) ops = some (st'.re n' l') ∧
      l'.filterMap obs = st'.log.filterMap obs := by
  have one : ∀ n' l', step c1 (st.re n l) op = some (st'.re n' l') →
      l'.filterMap obs = st'.log.filterMap obs →
      ∃ ops n' l', exec c1 (st.re n l) ops = some (st'.re n' l') ∧
        l'.filterMap obs = st'.log.filterMap obs := by
    intro n' l' h1 h2
    exact ⟨[op], n', l', by simp [exec, h1], h2⟩
  cases op with
  | dispatch a =>
    simp only [step, St.dispatch, Option.map_eq_some_iff] at hs
    obtain ⟨s1, h1, rfl⟩ := hs
    have p1 := p.fstep h1
    refine ⟨⟨p1.ev, p1.tag, ?_⟩, one n (l ++ [.dispatched st.sent.length a]) ?_ ?_⟩
    · intro d e i hm
      simp only [St.say, St.post, List.mem_append, List.mem_singleton] at hm
      rcases hm with hm | hm
      · exact p1.queue _ _ _ hm
      · cases hm
    · simp only [step, St.dispatch]
      rw [h.hasF, re_fstep, h1]
      simp [St.re, St.post, St.say, Item.noop]
    · simp [St.say, St.post, (fstep_fields h1).1, List.filterMap_append, hl]
  | loop =>
    simp only [step] at hs
    cases hq : st.queue with
    | nil => simp [St.loop, hq] at hs
    | cons x q =>
      have hq1 : (st.re n l).queue = x.noop :: q.map Item.noop := by simp [St.re, hq]
      have pq : Plain { st with queue := q } := by
        refine ⟨p.ev, p.tag, fun d e i hm => p.queue d e i ?_⟩
        rw [hq]; exact List.mem_cons_of_mem _ hm
      cases x with
      | reduce d a i =>
        have he' := he _ _ _ _ hq
        rw [loop_reduce hq] at hs
        cases hth : c.throws st.cur a with
        | true =>
          simp only [hth, if_true, Option.some.injEq] at hs
          subst hs
          refine ⟨⟨pq.ev, pq.tag, pq.queue⟩, one n (l ++ [.reduceThrew d st.cur a]) ?_ ?_⟩
          · simp only [step]
            rw [loop_reduce (st := st.re n l) hq1]
            have hc : (st.re n l).cur = st.cur := rfl
            rw [hc, h.throws, hth, if_pos rfl]
            rfl
          · rw [List.filterMap_append, hl]
            simp [St.say, List.filterMap_append]
        | false =>
        simp only [hth, Bool.false_eq_true, if_false] at hs
        simp only [he', Eff.isEmpty, if_true, ht, Bool.false_eq_true, if_false, Option.map_some,
          Option.some.injEq] at hs
        subst hs
        have hp : ∀ (s : St A Mo) v, Plain s → Plain (s.pushDown c v) := by
          intro s v ps
          unfold St.pushDown
          split
          · exact ⟨ps.ev, ps.tag, ps.queue⟩
          · exact ps
        have pp : Plain (St.post { st with queue := q } (.publish d i)) := by
          refine ⟨p.ev, p.tag, fun d e i hm => ?_⟩
          simp only [St.post, List.mem_append, List.mem_singleton] at hm
          rcases hm with hm | hm
          · exact pq.queue _ _ _ hm
          · cases hm
        have p2 := hp _ (c.reducer st.cur a).1 pp
        refine ⟨⟨p2.ev, p2.tag, p2.queue⟩,
          one n (l ++ [.reduced d st.cur a (c.reducer st.cur a).1 .noop]) ?_ ?_⟩
        · simp only [step]
          rw [loop_reduce (st := st.re n l) hq1]
          have hc : (st.re n l).cur = st.cur := rfl
          rw [hc, h.model, h.none _ _ he', h.throws, hth]
          simp only [Eff.isEmpty, Bool.false_eq_true, if_false, Option.map_some]
          congr 1
          simp only [St.pushDown, h.changed]
          show St.say (if c.changed _ st.cur = true then _ else _) _ =
            (St.say (if c.changed _ st.cur = true then _ else _) _).re _ _
          split <;> simp [St.re, St.post, St.say, Item.noop]
        · rw [List.filterMap_append, hl]
          unfold St.pushDown
          split <;> simp [St.say, St.post, List.filterMap_append, obs]
      | effect d e i => exact absurd (by rw [hq]; exact List.mem_cons_self) (p.queue d e i)
      | publish d i =>
        -- one task and a call that does nothing
        have hd : ∃ s, exec c1 { st.re n l with queue := .publish d i :: q.map Item.noop } [.loop] = some s ∧
            s = st'.re n s.log ∧ s.log.filterMap obs = st'.log.filterMap obs := by
          simp only [St.loop, hq] at hs
          simp only [exec, step, St.loop]
          have hpub : ∀ st0 : St A Mo, ∃ k, (st0.publish c).log = st0.log ++ k ∧
              ∀ n l, (st0.re n l).publish c1 = (st0.publish c).re n (l ++ k) := by
            intro st0
            obtain ⟨fu, cur, last, dirty, ntf, queue, ev, sent, tag, nx, log⟩ := st0
            unfold St.publish
            rw [h.trans, ht]
            simp only [Bool.false_eq_true, if_false]
            cases dirty <;> cases ntf <;> simp [St.sendDown, St.notify, St.re]
            all_goals exact ⟨_, rfl, fun _ _ => rfl⟩
          obtain ⟨k, hk, hk1⟩ := hpub { st with queue := q }
          have hk2 := hk1 n l
          have hk3 : (({ st.re n l with queue := q.map Item.noop } : St A Mo)) = { st with queue := q }.re n l := rfl
          rw [hk3, hk2]
          generalize { st with queue := q }.publish c = s0 at *
          simp only [St.complete] at hs ⊢
          rw [h.hasF]
          have hk4 : ((s0.re n (l ++ k)).say (.ready d)) = (s0.say (.ready d)).re n (l ++ k ++ [.ready d]) := rfl
          rw [hk4, re_fstep]
          split at hs
          · rename_i hF
            rw [if_pos hF, hs]
            refine ⟨_, rfl, rfl, ?_⟩
            rw [(fstep_fields hs).1]
            simp [St.re, St.say, hk, List.filterMap_append, hl]
          · rename_i hF
            cases hs
            rw [if_neg hF]
            refine ⟨_, rfl, rfl, ?_⟩
            simp [St.re, St.say, hk, List.filterMap_append, hl]
        obtain ⟨s, hd1, hd2, hd3⟩ := hd
        have hq2 : (st.re n l).queue = .effect d .noop i :: q.map Item.noop := hq1
        obtain ⟨s2, e1, e2, e3⟩ := C54_same hq2 hd1
        refine ⟨?_, [.loop, .go 0, .go 0], (st.re n l).nx + 1, s2.log, ?_, ?_⟩
        · simp only [St.loop, hq] at hs
          have pp : Plain (({ st with queue := q }.publish c).say (.ready d)) := by
            unfold St.publish St.sendDown St.notify
            split
            · exact ⟨pq.ev, pq.tag, pq.queue⟩
            · split <;> split <;> exact ⟨pq.ev, pq.tag, pq.queue⟩
          unfold St.complete at hs
          split at hs
          · exact pp.fstep hs
          · cases hs; exact pp
        · rw [e1, e3, hd2]; rfl
        · rw [e2, List.filterMap_append, hd3]; simp [obs]
      | tok =>
        simp only [St.loop, hq] at hs
        rw [runTask_plain (st := { st with queue := q }) p.tag] at hs
        split at hs
        · cases hs
        rename_i hn
        refine ⟨pq.fstep hs, one n l ?_ ?_⟩
        · simp only [step, St.loop, hq1, Item.noop]
          have hk3 : (({ st.re n l with queue := q.map Item.noop } : St A Mo)) = { st with queue := q }.re n l := rfl
          rw [hk3, runTask_plain (st := St.re { st with queue := q } n l) p.tag]
          rw [if_neg (show ¬ (St.re { st with queue := q } n l).fu.queue 0 = [] from hn), re_fstep, hs]; rfl
        · rw [(fstep_fields hs).1, hl]
  | loopRaise =>
    obtain ⟨x, q, d, o, hq, hx, _, hdirty, rfl⟩ := loopRaise_some hs
    rcases hx with ⟨e, i, rfl, rfl⟩ | ⟨i, rfl, rfl⟩
    · exact absurd (by rw [hq]; exact List.mem_cons_self) (p.queue d e i)
    have pq : Plain { st with queue := q } := by
      refine ⟨p.ev, p.tag, fun d e i hm => p.queue d e i ?_⟩
      rw [hq]; exact List.mem_cons_of_mem _ hm
    have hq1 : (st.re n l).queue = .effect d .noop i :: q.map Item.noop := by simp [St.re, hq, Item.noop]
    obtain ⟨fu, cur, last, dirty, ntf, queue, ev, sent, tag, nx, log⟩ := st
    dsimp only at hdirty hq
    subst hdirty
    subst hq
    refine ⟨?_, one n (l ++ [.shown cur] ++ [.lost d (some .noop)]) ?_ ?_⟩
    · simp only [St.publish, ht, St.sendDown, St.notify, St.say]
      exact ⟨pq.ev, pq.tag, pq.queue⟩
    · simp only [step, St.loopRaise, hq1, h.trans, ht]
      simp [St.publish, h.trans, ht, St.sendDown, St.notify, St.re, St.say]
    · simp only [St.publish, ht, St.sendDown, St.notify, St.say]
      simp only [List.filterMap_append] at hl ⊢
      simp [hl, obs]
  | other l0 =>
    simp only [step] at hs
    split at hs
    · cases hs
    rename_i h0
    rw [runTask_plain p.tag] at hs
    split at hs
    · cases hs
    rename_i hn
    refine ⟨p.fstep hs, one n l ?_ ?_⟩
    · simp only [step]
      rw [if_neg h0, runTask_plain (st := st.re n l) p.tag,
        if_neg (show ¬ (st.re n l).fu.queue l0 = [] from hn), re_fstep, hs]; rfl
    · rw [(fstep_fields hs).1, hl]
  | fut op =>
    simp only [step] at hs
    split at hs
    · rename_i ha
      refine ⟨p.fstep hs, one n l ?_ ?_⟩
      · simp only [step]
        rw [if_pos (show (st.re n l).allowed op from by cases op <;> exact ha), re_fstep, hs]; rfl
      · rw [(fstep_fields hs).1, hl]
    · cases hs
  | go k => simp [step, p.ev] at hs
  | prim k o => simp [step, p.ev] at hs
  | raise k => simp [step, p.ev] at hs
  | commit =>
    simp only [step, ht] at hs
    cases hs

theorem noop_exec {c1 : Cfg A Mo} (h : Noops c c1) (ht : c.trans = false)
    (P : A → Prop) (he : ∀ m a, P a → (c.reducer m a).2 = .empty)
    {ops : List (SOp A)} (ho : ∀ a, SOp.dispatch a ∈ ops → P a) {st st' : St A Mo}
    (p : Plain st) (hq : ∀ d a i, Item.reduce d a i ∈ st.queue → P a)
    (hs : exec c st ops = some st') {n : Nat} {l : List (SEv A Mo)}
    (hl : l.filterMap obs = st.log.filterMap obs) :
    Plain st' ∧ ∃ ops' n' l', exec c1 (st.re n l) ops' = some (st'.re n' l') ∧
      l'.filterMap obs = st'.log.filterMap obs := by
  induction ops generalizing st n l with
  | nil => cases hs; exact ⟨p, [], n, l, rfl, hl⟩
  | cons op ops ih =>
    simp only [exec, Option.bind_eq_some_iff] at hs
    obtain ⟨s1, h1, h2⟩ := hs
    have hq' : ∀ d a i q, st.queue = .reduce d a i :: q → (c.reducer st.cur a).2 = .empty :=
      fun d a i q e => he _ _ (hq d a i (by rw [e]; exact List.mem_cons_self))
    obtain ⟨p1, o1, n1, l1, e1, e2⟩ := noop_step h ht p hq' h1 (n := n) hl
    have hq1 : ∀ d a i, Item.reduce d a i ∈ s1.queue → P a := by
      intro d a i hm
      have fsub : ∀ {s s' : St A Mo} {op : Future.Op}, s.fstep op = some s' →
          ∀ d a i, Item.reduce d a i ∈ s'.queue → Item.reduce d a i ∈ s.queue := by
        intro s s' op hf d a i hm
        rcases (fstep_fields hf).2.2.2.1 _ hm with h | h
        · exact h
        · cases h
      have rsub : ∀ {s s' : St A Mo} {k : Nat}, s.tag = (fun _ => none) → s.runTask k = some s' →
          ∀ d a i, Item.reduce d a i ∈ s'.queue → Item.reduce d a i ∈ s.queue := by
        intro s s' k ht hr
        rw [runTask_plain ht] at hr
        split at hr
        · cases hr
        · exact fsub hr
      cases op with
      | dispatch a' =>
        simp only [step, St.dispatch, Option.map_eq_some_iff] at h1
        obtain ⟨s2, h3, rfl⟩ := h1
        simp only [St.say, St.post, List.mem_append, List.mem_singleton] at hm
        rcases hm with hm | hm
        · exact hq _ _ _ (fsub h3 _ _ _ hm)
        · cases hm; exact ho _ List.mem_cons_self
      | loop =>
        simp only [step] at h1
        cases hQ : st.queue with
        | nil => simp [St.loop, hQ] at h1
        | cons x q =>
          refine hq d a i ?_
          rw [hQ]
          cases x with
          | reduce d' a' i' =>
            have he' := hq' _ _ _ _ hQ
            rw [loop_reduce hQ] at h1
            cases hth : c.throws st.cur a' with
            | true =>
              simp only [hth, if_true, Option.some.injEq] at h1
              subst h1
              exact List.mem_cons_of_mem _ hm
            | false =>
            simp only [hth, Bool.false_eq_true, if_false] at h1
            simp only [he', Eff.isEmpty, if_true, ht, Bool.false_eq_true, if_false, Option.map_some,
              Option.some.injEq] at h1
            subst h1
            have : Item.reduce d a i ∈ (St.post { st with queue := q } (.publish d' i')).queue := by
              unfold St.pushDown at hm
              split at hm <;> exact hm
            simp only [St.post, List.mem_append, List.mem_singleton] at this
            rcases this with h | h
            · exact List.mem_cons_of_mem _ h
            · cases h
          | effect d' e' i' => exact absurd (by rw [hQ]; exact List.mem_cons_self) (p.queue d' e' i')
          | publish d' i' =>
            simp only [St.loop, hQ] at h1
            have hp : ∀ s : St A Mo, (s.publish c).queue = s.queue := by
              intro s
              unfold St.publish St.sendDown St.notify
              split
              · rfl
              · split <;> split <;> rfl
            unfold St.complete at h1
            split at h1
            · have := fsub h1 _ _ _ hm
              simp only [St.say, hp] at this
              exact List.mem_cons_of_mem _ this
            · cases h1
              simp only [St.say, hp] at hm
              exact List.mem_cons_of_mem _ hm
          | tok =>
            simp only [St.loop, hQ] at h1
            exact List.mem_cons_of_mem _ (rsub (s := { st with queue := q }) p.tag h1 _ _ _ hm)
      | loopRaise =>
        obtain ⟨x, q, d', o, hQ, _, _, _, rfl⟩ := loopRaise_some h1
        refine hq d a i ?_
        rw [hQ]
        have hp : ∀ s : St A Mo, (s.publish c).queue = s.queue := by
          intro s
          unfold St.publish St.sendDown St.notify
          split
          · rfl
          · split <;> split <;> rfl
        simp only [St.say, hp] at hm
        exact List.mem_cons_of_mem _ hm
      | other l0 =>
        simp only [step] at h1
        split at h1
        · cases h1
        · exact hq _ _ _ (rsub p.tag h1 _ _ _ hm)
      | fut op =>
        simp only [step] at h1
        split at h1
        · exact hq _ _ _ (fsub h1 _ _ _ hm)
        · cases h1
      | go k => simp [step, p.ev] at h1
      | prim k o => simp [step, p.ev] at h1
      | raise k => simp [step, p.ev] at h1
      | commit =>
        simp only [step, ht] at h1
        cases h1
    obtain ⟨p2, o2, n2, l2, e3, e4⟩ :=
      ih (fun a ha => ho a (List.mem_cons_of_mem _ ha)) p1 hq1 h2 (n := n1) e2
    refine ⟨p2, o1 ++ o2, n2, l2, ?_, e4⟩
    have app : ∀ (o1 o2 : List (SOp A)) (s s1 : St A Mo), exec c1 s o1 = some s1 →
        exec c1 s (o1 ++ o2) = exec c1 s1 o2 := by
      intro o1
      induction o1 with
      | nil => intro o2 s s1 h; cases h; rfl
      | cons op o1 ih =>
        intro o2 s s1 h
        simp only [exec, Option.bind_eq_some_iff] at h
        obtain ⟨s3, h3, h4⟩ := h
        simp only [List.cons_append, exec, h3, Option.bind_some]
        exact ih _ _ _ h4
    rw [app _ _ _ _ e1, e3]

theorem shows_obs (l : List (SEv A Mo)) : shows (l.filterMap obs) = shows l := by
  induction l with
  | nil => rfl
  | cons e l ih => cases e <;> simp [obs, shows, List.filterMap_cons, ih]

theorem dispatches_obs (l : List (SEv A Mo)) : dispatches (l.filterMap obs) = dispatches l := by
  induction l with
  | nil => rfl
  | cons e l ih => cases e <;> simp [obs, dispatches, List.filterMap_cons, ih]

theorem reductions_obs (l : List (SEv A Mo)) : reductions (l.filterMap obs) = reductions l := by
  induction l with
  | nil => rfl
  | cons e l ih => cases e <;> simp [obs, reductions, List.filterMap_cons, ih]

theorem noops_withThunk (c : Cfg A Mo) : Noops (bare c) (withThunk c) where
  model m a := by cases a <;> rfl
  none m a h := by
    cases a with
    | inl e => simp [bare] at h
    | inr a => simp only [bare] at h; simp [withThunk, h, Eff.isEmpty]
  throws m a := by cases a <;> rfl
  changed := rfl
  trans := rfl
  hasF := rfl
  init := rfl

end Verif.Store
