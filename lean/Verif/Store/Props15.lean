import Verif.Store.QmlQ

/-!
C133: stores on the QML loop.
-/

namespace Verif.Store

variable {A Mo : Type}

/-! ### Lemmas -/

theorem go_red (c : Cfg A Mo) (f : EF) {s t : St A Mo} (h : s.go c f = some t) :
    reductions t.log = reductions s.log := by
  have of_eq : t.log = s.log → reductions t.log = reductions s.log := fun h => by rw [h]
  have one : ∀ e, reductions [e] = [] → t.log = s.log ++ [e] → reductions t.log = reductions s.log := by
    intro e he h; rw [h, reductions_append, he, List.append_nil]
  obtain ⟨fx, pos, mode, ks, k⟩ := f
  unfold St.go at h
  cases mode with
  | prim _ => cases h
  | call e =>
    cases e with
    | empty => cases h
    | noop => cases h; rfl
    | prim id => cases h; exact one _ rfl rfl
    | seq a b => cases h; rfl
  | got o =>
    dsimp only at h
    cases ks with
    | cons e ks =>
      dsimp only at h
      split at h
      · simp only [Option.map_eq_some_iff] at h
        obtain ⟨s2, h2, rfl⟩ := h
        have h3 := fstep_log h2
        exact of_eq h3
      · cases h; rfl
    | nil =>
      cases k with
      | store d i =>
        dsimp only at h
        split at h
        · split at h
          · exact one _ rfl (fstep_log h)
          · exact one _ rfl (fstep_log h)
        · cases h; exact one _ rfl rfl
      | clo n =>
        dsimp only at h
        rw [Option.bind_eq_some_iff] at h
        obtain ⟨k, _, h⟩ := h
        split at h
        · exact of_eq (fstep_log h)
        · rw [Option.bind_eq_some_iff] at h
          obtain ⟨s1, h1, h⟩ := h
          exact of_eq ((fstep_log h).trans (fstep_log h1))

theorem user_red (c : Cfg A Mo) {op : SOp A} (hu : op.isUser = true) {s t : St A Mo}
    (h : step c s op = some t) : reductions t.log = reductions s.log := by
  have one : ∀ e, reductions [e] = [] → t.log = s.log ++ [e] → reductions t.log = reductions s.log := by
    intro e he h; rw [h, reductions_append, he, List.append_nil]
  cases op with
  | loop => cases hu
  | loopRaise => cases hu
  | commit => cases hu
  | dispatch a =>
    simp only [step, St.dispatch, Option.map_eq_some_iff] at h
    obtain ⟨s1, h1, rfl⟩ := h
    show reductions (s1.log ++ [_]) = _
    rw [fstep_log h1, reductions_append]
    simp [reductions]
  | other l =>
    simp only [step] at h
    split at h
    · cases h
    · rw [(runTask_toks h).log]
  | fut op =>
    simp only [step] at h
    split at h
    · rw [fstep_log h]
    · cases h
  | go n =>
    simp only [step] at h
    split at h
    · cases h
    · rw [go_red c _ h]
  | prim n o =>
    simp only [step] at h
    split at h
    · split at h
      · cases h; exact one _ rfl rfl
      · cases h
    · cases h
  | raise n =>
    simp only [step] at h
    split at h
    · cases h; exact one _ rfl rfl
    · rw [Option.bind_eq_some_iff] at h
      obtain ⟨k, _, h⟩ := h
      exact one _ rfl (fstep_log h)
    · cases h


def QmlQ.exec (c : Cfg A Mo) (s : QmlQ A Mo) : List (GOp A) → Option (QmlQ A Mo)
  | [] => some s
  | op :: ops => (QmlQ.step c s op).bind fun s' => QmlQ.exec c s' ops

def exG (c : Cfg A Mo) (ops : List (GOp A)) : QmlQ A Mo := (QmlQ.exec c (.start c) ops).getD (.start c)

theorem gExec_reach {c : Cfg A Mo} {s s' : QmlQ A Mo} {ops : List (GOp A)} (r : QmlQ.Reach c s)
    (h : QmlQ.exec c s ops = some s') : QmlQ.Reach c s' := by
  induction ops generalizing s with
  | nil => cases h; exact r
  | cons op ops ih =>
    simp only [QmlQ.exec, Option.bind_eq_some_iff] at h
    obtain ⟨s1, h1, h2⟩ := h
    exact ih (r.step op h1) h2

theorem exG_reach {c : Cfg A Mo} {ops : List (GOp A)} (h : (QmlQ.exec c (.start c) ops).isSome = true) :
    QmlQ.Reach c (exG c ops) := by
  refine gExec_reach (ops := ops) .start ?_
  unfold exG
  cases h' : QmlQ.exec c (.start c) ops with
  | none => rw [h'] at h; cases h
  | some s => rfl

/-- When the item has something to do. -/
structure QmlQ.Awake (s : QmlQ A Mo) : Prop where
  round : s.round ≠ none → s.timer = true
  polished : s.polished = true → s.timer = true
  waiting : s.p.st.queue ≠ [] → s.scheduled = true ∨ s.timer = true

theorem QmlQ.Reach.awake {c : Cfg A Mo} {s : QmlQ A Mo} (r : QmlQ.Reach c s) : s.Awake := by
  induction r with
  | start => exact ⟨fun h => absurd rfl h, nofun, fun h => absurd rfl h⟩
  | @step s s' op r h k =>
    cases op with
    | away t a =>
      simp only [QmlQ.step] at h
      split at h
      · cases h; exact ⟨k.round, k.polished, k.waiting⟩
      · cases h
    | own op =>
      simp only [QmlQ.step] at h
      split at h
      · cases h
      · simp only [Option.map_eq_some_iff] at h
        obtain ⟨p, h1, rfl⟩ := h
        refine ⟨k.round, k.polished, fun hq => ?_⟩
        dsimp only at hq ⊢
        by_cases hl : s.p.st.queue.length < p.st.queue.length
        · left; simp [hl]
        · have : s.p.st.queue ≠ [] := by
            intro h0
            rw [h0] at hl
            exact hl (List.length_pos_iff.2 hq)
          rcases k.waiting this with h2 | h2
          · left; simp [h2]
          · exact .inr h2
    | deliver =>
      simp only [QmlQ.step] at h
      split at h
      · split at h
        · cases h
        · cases h; exact ⟨k.round, k.polished, fun _ => .inl rfl⟩
        · simp only [Option.map_eq_some_iff] at h
          obtain ⟨p, _, rfl⟩ := h
          exact ⟨k.round, k.polished, fun _ => .inl rfl⟩
      · cases h
    | frame =>
      simp only [QmlQ.step] at h
      split at h
      · split at h
        · rename_i hp
          cases h; exact ⟨k.round, k.polished, fun _ => .inr (k.polished hp)⟩
        · cases h; exact ⟨fun _ => rfl, fun _ => rfl, fun _ => .inr rfl⟩
      · cases h
    | paint => simp only [QmlQ.step] at h; cases h; exact ⟨k.round, nofun, k.waiting⟩
    | tick =>
      simp only [QmlQ.step] at h
      split at h
      · rename_i hp
        cases h; exact ⟨fun _ => hp.2, k.polished, k.waiting⟩
      · cases h
    | leave =>
      simp only [QmlQ.step] at h
      split at h
      · cases h
      · split at h
        · cases h; exact ⟨fun h => absurd rfl h, k.polished, k.waiting⟩
        · cases h
    | abort =>
      simp only [QmlQ.step] at h
      split at h
      · cases h; exact ⟨fun h => absurd rfl h, k.polished, k.waiting⟩
      · cases h

/-- Before the first frame no task begins. -/
theorem QmlQ.Reach.asleep {c : Cfg A Mo} (ht : c.trans = false) {s : QmlQ A Mo} (r : QmlQ.Reach c s)
    (h0 : s.timer = false) : s.round = none ∧ s.p.jobs = [] ∧ reductions s.p.st.log = [] := by
  induction r with
  | start => exact ⟨rfl, rfl, rfl⟩
  | @step s s' op r h ih =>
    have k := r.awake
    cases op with
    | away t a =>
      simp only [QmlQ.step] at h
      split at h
      · cases h; exact ih h0
      · cases h
    | own op =>
      simp only [QmlQ.step] at h
      split at h
      · cases h
      · rename_i hb
        simp only [Option.map_eq_some_iff] at h
        obtain ⟨p, h1, rfl⟩ := h
        obtain ⟨i1, i2, i3⟩ := ih h0
        refine ⟨i1, ?_⟩
        dsimp only
        cases op with
        | begin => exact absurd ⟨rfl, i1⟩ hb
        | commit =>
          simp only [Par.step] at h1
          split at h1
          · rename_i h2; rw [ht] at h2; cases h2.2
          · cases h1
        | go n => simp only [Par.step, i2] at h1; cases h1
        | raise n => simp only [Par.step, i2] at h1; cases h1
        | peek => simp only [Par.step] at h1; cases h1; exact ⟨i2, i3⟩
        | peeked =>
          simp only [Par.step] at h1
          split at h1
          · cases h1
          · cases h1; exact ⟨i2, i3⟩
        | user op =>
          simp only [Par.step] at h1
          split at h1
          · rename_i hu
            simp only [Option.map_eq_some_iff] at h1
            obtain ⟨st, h2, rfl⟩ := h1
            exact ⟨i2, (user_red c hu h2).trans i3⟩
          · cases h1
    | deliver =>
      simp only [QmlQ.step] at h
      split at h
      · split at h
        · cases h
        · cases h; exact ih h0
        · simp only [Option.map_eq_some_iff] at h
          obtain ⟨p, h1, rfl⟩ := h
          obtain ⟨i1, i2, i3⟩ := ih h0
          simp only [Par.step, SOp.isUser, if_true, Option.map_eq_some_iff] at h1
          obtain ⟨st, h2, rfl⟩ := h1
          exact ⟨i1, i2, (user_red c rfl h2).trans i3⟩
      · cases h
    | frame =>
      simp only [QmlQ.step] at h
      split at h
      · split at h
        · cases h; exact ih h0
        · cases h; cases h0
      · cases h
    | paint => simp only [QmlQ.step] at h; cases h; exact ih h0
    | tick =>
      simp only [QmlQ.step] at h
      split at h
      · rename_i hp
        cases h
        rw [show s.timer = true from hp.2] at h0; cases h0
      · cases h
    | leave =>
      simp only [QmlQ.step] at h
      split at h
      · cases h
      · split at h
        · cases h
          obtain ⟨_, i2, i3⟩ := ih h0
          exact ⟨rfl, i2, i3⟩
        · cases h
    | abort =>
      simp only [QmlQ.step] at h
      split at h
      · cases h
        obtain ⟨_, i2, i3⟩ := ih h0
        exact ⟨rfl, i2, i3⟩
      · cases h

theorem lastShown_same (v : Mo) (l : List (SEv A Mo)) (h : ∀ l1 w l2, l = l1 ++ .shown w :: l2 → w = v) :
    lastShown v l = v := by
  induction l with
  | nil => rfl
  | cons e l ih =>
    have ih' := ih fun l1 w l2 hl => h (e :: l1) w l2 (by rw [hl]; rfl)
    cases e with
    | shown w => rw [h [] w l rfl]; exact ih'
    | _ => exact ih'

/-! ### C133 -/

/-- C133: when no tasks are left and no dispatch is on its way, `get()` is the fold of the reducer over all actions that were
dispatched, in an order in which those of the thread of the item and those of all other threads are in the order in which
they were dispatched. -/
theorem C133_fold {c : Cfg A Mo} (hc : c.sound) (ht : c.trans = false) {s : QmlQ A Mo} (r : QmlQ.Reach c s)
    (hj : s.p.jobs = []) (hi : s.p.st.idle) (hs : travelling s.events = []) :
    ∃ ord, Keeping ord s.posted ∧ s.p.st.get = fold c (ord.map (·.2)) := by
  obtain ⟨ord, k⟩ := r.inv
  refine ⟨ord, ⟨?_, k.own, ?_⟩, ?_⟩
  · have := k.perm; rwa [hs, List.append_nil] at this
  · have := k.away; rwa [hs, List.append_nil] at this
  · rw [C94_fold hc ht k.par hj hi, k.tags]

/-- C133: at any moment the actions that the reducer has been called with are the first ones in such an order of all
dispatches so far, and watchers are only called with folds over the first ones of these.  In it, an action of the thread of
the item only comes after such actions of other threads that were dispatched before it. -/
theorem C133_order {c : Cfg A Mo} (hc : c.sound) {s : QmlQ A Mo} (r : QmlQ.Reach c s) :
    ∃ ord, Keeping ord s.posted ∧ reductions s.p.st.log <+: ord.map (·.2) ∧
      (∀ l1 v l2, s.p.st.log = l1 ++ .shown v :: l2 →
        v = fold c (reductions l1) ∧ reductions l1 <+: ord.map (·.2)) ∧
      ∀ o1 a o2, ord = o1 ++ (0, a) :: o2 → ∃ p1 p2, s.posted = p1 ++ (0, a) :: p2 ∧
        p1.filter mine = o1.filter mine ∧ o1.filter far <+: p1.filter far := by
  obtain ⟨ord, k⟩ := r.inv
  obtain ⟨g1, g2⟩ := filter_mine_far k.isFar
  refine ⟨ord ++ travelling s.events, ⟨k.perm, ?_, ?_⟩, ?_, ?_, ?_⟩
  · rw [List.filter_append, g1, List.append_nil, k.own]
  · rw [List.filter_append, g2, k.away]
  · rw [List.map_append, k.tags]
    exact (C94_order hc k.par).1.trans (List.prefix_append _ _)
  · intro l1 v l2 h
    obtain ⟨h1, h2⟩ := C94_shown hc k.par h
    refine ⟨h1, ?_⟩
    rw [List.map_append, k.tags]
    exact h2.trans (List.prefix_append _ _)
  · intro o1 a o2 ho
    have : ∃ o3, ord = o1 ++ (0, a) :: o3 := by
      rcases List.append_eq_append_iff.1 ho with ⟨l, h1, h2⟩ | ⟨l, h1, h2⟩
      · exfalso
        have := k.isFar (0, a) (by rw [h2]; simp)
        cases this
      · cases l with
        | nil =>
          exfalso
          have := k.isFar (0, a) (by rw [← List.nil_append (travelling s.events), ← h2]; simp)
          cases this
        | cons x l =>
          simp only [List.cons_append, List.cons.injEq] at h2
          exact ⟨l, by rw [h1, h2.1]⟩
    obtain ⟨o3, h3⟩ := this
    exact k.early o1 a o3 h3

/-- C133: when a round of tasks ends without exception, the reducer has been called with all actions that have been dispatched,
except those of other threads that are on their way. -/
theorem C133_round {c : Cfg A Mo} (hc : c.sound) {s s' : QmlQ A Mo} (r : QmlQ.Reach c s)
    (h : QmlQ.step c s .leave = some s') :
    ∃ ord : List (Nat × A), ord.map (·.2) = reductions s'.p.st.log ∧ Keeping (ord ++ travelling s'.events) s'.posted ∧
      ord.filter mine = s'.posted.filter mine := by
  obtain ⟨ord, k⟩ := (r.step _ h).inv
  have hq : s'.p.jobs = [] ∧ s'.p.st.queue = [] := by
    simp only [QmlQ.step] at h
    split at h
    · cases h
    · split at h
      · rename_i hp
        cases h
        exact ⟨List.isEmpty_iff.1 hp.1, List.isEmpty_iff.1 hp.2⟩
      · cases h
  obtain ⟨st, q1, q2⟩ := C94_serial hc k.par hq.1
  have hq' : st.queue = [] := q2.queue.trans hq.2
  have e := (C48_order hc q1).1
  rw [hq'] at e
  simp only [pend, List.map_nil, List.append_nil] at e
  obtain ⟨g1, g2⟩ := filter_mine_far k.isFar
  refine ⟨ord, ?_, ⟨k.perm, ?_, ?_⟩, k.own⟩
  · rw [k.tags, ← q2.log.dispatches, ← q2.log.reductions, e]
  · rw [List.filter_append, g1, List.append_nil, k.own]
  · rw [List.filter_append, g2, k.away]

/-- C133: whenever a task waits and none runs, a frame or the timer begins a round of tasks. -/
theorem C133_wakes {c : Cfg A Mo} {s : QmlQ A Mo} (r : QmlQ.Reach c s) (hr : s.round = none) (hq : s.p.st.queue ≠ []) :
    ∃ op s', (op = .frame ∨ op = .tick) ∧ QmlQ.step c s op = some s' ∧ s'.round ≠ none := by
  have k := r.awake
  cases ht : s.timer with
  | true => exact ⟨.tick, { s with round := some false }, .inr rfl, by simp only [QmlQ.step, hr, ht, and_self, if_true], by simp⟩
  | false =>
    have hs : s.scheduled = true := (k.waiting hq).resolve_right (by rw [ht]; nofun)
    have hp : s.polished = false := by
      cases hp : s.polished with
      | false => rfl
      | true => have := k.polished hp; rw [ht] at this; cases this
    exact ⟨.frame, { s with scheduled := false, polished := true, timer := true, round := some true }, .inl rfl,
      by simp only [QmlQ.step, hr, hs, hp, and_self, if_true, Bool.false_eq_true, if_false], by simp⟩

/-- C133: once a frame has begun a round of tasks, the timer never stops: between rounds of tasks it always can begin one. -/
theorem C133_timer {c : Cfg A Mo} {s s' : QmlQ A Mo} {op : GOp A} (ht : s.timer = true) (h : QmlQ.step c s op = some s') :
    s'.timer = true ∧ (s'.round = none → ∃ s'', QmlQ.step c s' .tick = some s'' ∧ s''.round ≠ none) := by
  have key : s'.timer = true := by
    cases op <;> simp only [QmlQ.step] at h
    case away => split at h <;> cases h; exact ht
    case own =>
      split at h
      · cases h
      · simp only [Option.map_eq_some_iff] at h
        obtain ⟨p, -, rfl⟩ := h; exact ht
    case deliver =>
      split at h
      · split at h
        · cases h
        · cases h; exact ht
        · simp only [Option.map_eq_some_iff] at h
          obtain ⟨p, -, rfl⟩ := h; exact ht
      · cases h
    case frame =>
      split at h
      · split at h <;> cases h
        · exact ht
        · rfl
      · cases h
    case paint => cases h; exact ht
    case tick => split at h <;> cases h; exact ht
    case leave =>
      split at h
      · cases h
      · split at h <;> cases h; exact ht
    case abort => split at h <;> cases h; exact ht
  exact ⟨key, fun hr => ⟨{ s' with round := some false },
    by simp only [QmlQ.step, hr, key, and_self, if_true], by simp⟩⟩

/-- C133 is FALSE for programs whose window is not shown: before the first frame, no action is evaluated, whatever is
dispatched, and `get()` is the initial model. -/
theorem C133_unseen {c : Cfg A Mo} (hc : c.sound) (ht : c.trans = false) {ops : List (GOp A)} (ho : GOp.frame ∉ ops)
    {s : QmlQ A Mo} (h : QmlQ.exec c (.start c) ops = some s) : reductions s.p.st.log = [] ∧ s.p.st.get = c.init := by
  have r := gExec_reach .start h
  have h0 : s.timer = false := by
    have main : ∀ (ops : List (GOp A)) (s0 : QmlQ A Mo), s0.timer = false → GOp.frame ∉ ops →
        QmlQ.exec c s0 ops = some s → s.timer = false := by
      intro ops
      induction ops with
      | nil => intro s0 h0 _ h; cases h; exact h0
      | cons op ops ih =>
        intro s0 h0 ho h
        simp only [QmlQ.exec, Option.bind_eq_some_iff] at h
        obtain ⟨s1, h1, h2⟩ := h
        refine ih s1 ?_ (fun hf => ho (List.mem_cons_of_mem _ hf)) h2
        clear h2
        cases op <;> simp only [QmlQ.step] at h1
        case away => split at h1 <;> cases h1; exact h0
        case own =>
          split at h1
          · cases h1
          · simp only [Option.map_eq_some_iff] at h1
            obtain ⟨p, -, rfl⟩ := h1; exact h0
        case deliver =>
          split at h1
          · split at h1
            · cases h1
            · cases h1; exact h0
            · simp only [Option.map_eq_some_iff] at h1
              obtain ⟨p, -, rfl⟩ := h1; exact h0
          · cases h1
        case frame => exact absurd (List.mem_cons_self ..) ho
        case paint => cases h1; exact h0
        case tick => split at h1 <;> cases h1; exact h0
        case leave =>
          split at h1
          · cases h1
          · split at h1 <;> cases h1; exact h0
        case abort => split at h1 <;> cases h1; exact h0
    exact main ops _ rfl ho h
  obtain ⟨_, i2, i3⟩ := r.asleep ht h0
  obtain ⟨ord, k⟩ := r.inv
  obtain ⟨st, q1, q2⟩ := C94_serial hc k.par i2
  refine ⟨i3, ?_⟩
  have hred : reductions st.log = [] := q2.log.reductions.trans i3
  have hl := (C50_last hc q1).1
  rw [lastShown_same c.init st.log fun l1 w l2 hl => by
    have := (C50_fold hc q1 hl).1
    rw [this]
    have h1 : reductions l1 = [] := by
      rw [hl, reductions_append] at hred
      exact (List.append_eq_nil_iff.1 hred).1
    rw [h1]; rfl] at hl
  exact (show s.p.st.get = st.get from q2.last.symm).trans hl.symm

/-! ### Examples, and what is false -/

/-- Thread 1 dispatches 1, then the thread of the item 2; a frame; the dispatch of thread 1 is delivered; the timer. -/
def exGOps : List (GOp Nat) :=
  [.away 1 1, .own (.user (.dispatch 2)), .frame, .own .begin, .own (.go 0), .own (.go 0),
   .own .begin, .own (.go 0), .own (.go 0), .own (.go 0), .leave, .paint, .deliver, .tick,
   .own .begin, .own (.go 0), .own (.go 0), .own .begin, .own (.go 0), .own (.go 0), .own (.go 0), .leave, .deliver]

example : (QmlQ.exec exMul (.start exMul) exGOps).isSome = true ∧ (exG exMul exGOps).posted = [(1, 1), (0, 2)] ∧
    (exG exMul exGOps).p.st.get = 21 ∧ (exG exMul exGOps).p.st.queue.isEmpty = true ∧
    (exG exMul exGOps).p.jobs.isEmpty = true ∧ travelling (exG exMul exGOps).events = [] ∧
    (exG exMul exGOps).scheduled = true ∧ shows (exG exMul exGOps).p.st.log = [2, 21] := by decide +kernel

/-- Two actions wait, the one of the thread of the item and one delivered; the window is not shown. -/
example : (QmlQ.exec exMul (.start exMul) [.away 1 1, .own (.user (.dispatch 2)), .deliver]).isSome = true ∧
    (exG exMul [.away 1 1, .own (.user (.dispatch 2)), .deliver]).p.st.queue.length = 2 ∧
    (exG exMul [.away 1 1, .own (.user (.dispatch 2)), .deliver]).round = none := by decide +kernel

/-- C133 is FALSE for the order in which actions are dispatched. -/
theorem C133_order_false : ∃ (c : Cfg Nat Nat) (s : QmlQ Nat Nat), c.sound ∧ c.trans = false ∧ QmlQ.Reach c s ∧
    s.p.jobs = [] ∧ s.p.st.idle ∧ travelling s.events = [] ∧ s.posted = [(1, 1), (0, 2)] ∧
    s.p.st.get ≠ fold c (s.posted.map (·.2)) :=
  ⟨exMul, exG exMul exGOps, exMul_sound, rfl, exG_reach (by decide +kernel),
    List.isEmpty_iff.1 (by decide +kernel), List.isEmpty_iff.1 (by decide +kernel), by decide +kernel,
    by decide +kernel, by decide +kernel⟩

end Verif.Store
