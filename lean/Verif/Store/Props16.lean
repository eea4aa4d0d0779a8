import Verif.Store.SdlQ
import Verif.Store.Props12

/-!
C134: stores on the SDL loop.
-/

namespace Verif.Store

variable {A Mo : Type}

/-! ### Vocabulary -/

/-- An operation by which an event arrives. -/
def LOp.arrives : LOp A → Bool
  | .dispatch _ => true
  | .event => true
  | _ => false

/-- The reducer is running, until it returns and what follows from it is posted. -/
def SdlQ.reducing (s : SdlQ A Mo) : Prop := ∃ d a i, s.p.jobs = [.reducing d a i]

/-- States that are reached without any event arriving while the reducer runs.  This is so if nothing but the thread of the
loop dispatches and pushes events. -/
inductive SdlQ.Calm (c : Cfg A Mo) (cap : Nat) : SdlQ A Mo → Prop where
  | start : Calm c cap (SdlQ.start c)
  | step {s s'} (op : LOp A) : Calm c cap s → SdlQ.step c cap s op = some s' → (s.reducing → op.arrives = false) →
      Calm c cap s'

/-! ### Lemmas -/

theorem SdlQ.Calm.reach {c : Cfg A Mo} {cap : Nat} {s : SdlQ A Mo} (r : SdlQ.Calm c cap s) : SdlQ.Reach c cap s := by
  induction r with
  | start => exact .start
  | step op _ h _ ih => exact ih.step op h

theorem evaluating_iff {s : SdlQ A Mo} (h : s.p.jobs.length ≤ 1) : evaluating s.p.jobs ≠ [] ↔ s.reducing := by
  constructor
  · intro he
    match hj : s.p.jobs with
    | [] => rw [hj] at he; exact absurd rfl he
    | [j] =>
      cases j with
      | reducing d a i => exact ⟨d, a, i, hj⟩
      | _ => rw [hj] at he; exact absurd rfl he
    | _ :: _ :: _ => rw [hj] at h; simp at h
  · rintro ⟨d, a, i, hj⟩
    rw [hj]; simp [evaluating]

/-- A step in the middle of a task does not begin one, and ends the call of the reducer if it goes on. -/
theorem own_evaluating {c : Cfg A Mo} {p q : Par A Mo} (hl : p.jobs.length ≤ 1) {op : POp A} (ho : op.inside)
    (h : Par.step c 1 p op = some q) : evaluating q.jobs ≠ [] → q.jobs = p.jobs := by
  intro he
  cases op with
  | go n =>
    cases (show n = 0 from ho)
    simp only [Par.step] at h
    match hj : p.jobs with
    | [] => rw [hj] at h; cases h
    | _ :: _ :: _ => rw [hj] at hl; simp at hl
    | [j] =>
      rw [hj] at h
      simp only [List.getElem?_cons_zero, Option.map_eq_some_iff] at h
      obtain ⟨⟨t, o⟩, h1, rfl⟩ := h
      exfalso
      apply he
      cases o with
      | none => rfl
      | some j' =>
        cases j with
        | reducing d a i =>
          simp only [Job.go] at h1
          split at h1
          · cases h1
          · simp only [Option.map_eq_some_iff] at h1
            obtain ⟨_, _, h2⟩ := h1
            cases h2; rfl
        | pushing v => cases h1
        | sending it => cases h1; rfl
        | notifying it => cases h1; rfl
        | watching it w =>
          simp only [Job.go, Option.map_eq_some_iff] at h1
          obtain ⟨_, _, h2⟩ := h1
          cases h2
  | raise n =>
    cases (show n = 0 from ho)
    simp only [Par.step] at h
    match hj : p.jobs with
    | [] => rw [hj] at h; cases h
    | _ :: _ :: _ => rw [hj] at hl; simp at hl
    | [j] =>
      rw [hj] at h
      simp only [List.getElem?_cons_zero, Option.map_eq_some_iff] at h
      obtain ⟨t, _, rfl⟩ := h
      exact absurd rfl he
  | user op =>
    simp only [Par.step] at h
    split at h
    · simp only [Option.map_eq_some_iff] at h
      obtain ⟨t, _, rfl⟩ := h
      rfl
    · cases h
  | begin => exact ho.elim
  | commit => exact ho.elim
  | peek => exact ho.elim
  | peeked => exact ho.elim

/-- What `own` does to the queue of SDL. -/
theorem own_cases {c : Cfg A Mo} (hc : c.sound) (hF : c.hasF = false) {cap : Nat} {s s' : SdlQ A Mo}
    (k : SdlQ.Inv c cap s) {op : POp A} (ho : op.inside) (h : s.own c cap op = some s') :
    s'.posted = s.posted ∧ s'.refused = s.refused ∧
    ((s'.events = s.events ∧ s'.dropped = s.dropped ∧ (evaluating s'.p.jobs ≠ [] → evaluating s.p.jobs ≠ [])) ∨
     (s'.events = s.events ++ [true] ∧ s'.dropped = s.dropped ∧ evaluating s.p.jobs ≠ [] ∧ evaluating s'.p.jobs = []) ∨
     (s'.events = s.events ∧ s'.dropped = s.dropped + 1 ∧ cap ≤ s.events.length ∧ evaluating s.p.jobs ≠ [] ∧
       evaluating s'.p.jobs = [])) := by
  simp only [SdlQ.own, Option.map_eq_some_iff] at h
  obtain ⟨q, h1, h2⟩ := h
  obtain ⟨-, ⟨r, k2, k3, k4⟩, k5⟩ := k.lossy.own hc hF ho h1
  split at h2
  · cases h2
    refine ⟨rfl, rfl, .inl ⟨rfl, rfl, fun he => ?_⟩⟩
    rw [← own_evaluating k.lossy.jobs ho h1 he]; exact he
  · rename_i hl
    have hq := k5 fun h => hl (by rw [h])
    split at h2
    · cases h2; exact ⟨rfl, rfl, .inr (.inl ⟨rfl, rfl, hq⟩)⟩
    · rename_i hr
      cases h2; exact ⟨rfl, rfl, .inr (.inr ⟨rfl, rfl, by omega, hq⟩)⟩

/-- The number of events that wait and that will follow. -/
def SdlQ.load (s : SdlQ A Mo) : Nat := s.events.length + (evaluating s.p.jobs).length

theorem evaluating_le (js : List (Job A Mo)) : (evaluating js).length ≤ 1 := by
  cases js with
  | nil => exact Nat.zero_le _
  | cons j js => cases j <;> simp [evaluating]

theorem own_load {c : Cfg A Mo} (hc : c.sound) (hF : c.hasF = false) {cap : Nat} {s s' : SdlQ A Mo}
    (k : SdlQ.Inv c cap s) {op : POp A} (ho : op.inside) (h : s.own c cap op = some s') (hl : s.load ≤ cap) :
    s'.load ≤ s.load ∧ s'.refused = s.refused ∧ s'.dropped = s.dropped := by
  have e1 := evaluating_le s.p.jobs
  have e2 := evaluating_le s'.p.jobs
  obtain ⟨_, h1, h2⟩ := own_cases hc hF k ho h
  unfold SdlQ.load at hl ⊢
  have pos : ∀ {l : List A}, l ≠ [] → 1 ≤ l.length := fun h => List.length_pos_iff.2 h
  rcases h2 with ⟨h2, h3, h4⟩ | ⟨h2, h3, h4, h5⟩ | ⟨h2, h3, h4, h5, h6⟩
  · refine ⟨?_, h1, h3⟩
    rw [h2]
    by_cases he : evaluating s'.p.jobs = []
    · rw [he]; simp
    · have := pos (h4 he); omega
  · refine ⟨?_, h1, h3⟩
    have := pos h4
    rw [h2, h5]; simp; omega
  · have := pos h5; omega

theorem take_load {c : Cfg A Mo} {cap : Nat} {s s' : SdlQ A Mo}
    (h : SdlQ.step c cap s .take = some s') :
    s'.load ≤ s.load ∧ s'.refused = s.refused ∧ s'.dropped = s.dropped := by
  have e2 := evaluating_le s'.p.jobs
  unfold SdlQ.load
  simp only [SdlQ.step] at h
  split at h
  · cases h
  · rename_i es he
    simp only [Option.map_eq_some_iff] at h
    obtain ⟨q, h1, rfl⟩ := h
    refine ⟨?_, rfl, rfl⟩
    rw [he]; dsimp only at e2 ⊢; simp only [List.length_cons]; omega
  · rename_i es he
    split at h
    · cases h
      refine ⟨?_, rfl, rfl⟩
      rw [he]; dsimp only; simp only [List.length_cons]; omega
    · cases h

theorem load_step {c : Cfg A Mo} (hc : c.sound) (hF : c.hasF = false) {cap : Nat} {s s' : SdlQ A Mo}
    (r : SdlQ.Reach c cap s) {op : LOp A} (h : SdlQ.step c cap s op = some s') (ha : op.arrives = true → s.load < cap)
    (hl : s.load ≤ cap) :
    s'.load ≤ s.load + (if op.arrives then 1 else 0) ∧ s'.refused = s.refused ∧ s'.dropped = s.dropped := by
  have k := r.inv hc hF
  cases op with
  | dispatch a =>
    have hr : s.events.length < cap := by have := ha rfl; unfold SdlQ.load at this; omega
    simp only [SdlQ.step, if_pos hr, Option.map_eq_some_iff] at h
    obtain ⟨q, h1, rfl⟩ := h
    obtain ⟨-, -, -, hj⟩ := k.lossy.dispatch hF h1
    refine ⟨?_, rfl, rfl⟩
    unfold SdlQ.load
    simp only [hj, List.length_append, List.length_cons, List.length_nil, LOp.arrives, if_true]
    omega
  | event =>
    have hr : s.events.length < cap := by have := ha rfl; unfold SdlQ.load at this; omega
    simp only [SdlQ.step, if_pos hr] at h
    cases h
    refine ⟨?_, rfl, rfl⟩
    unfold SdlQ.load
    simp only [List.length_append, List.length_cons, List.length_nil, LOp.arrives, if_true]
    omega
  | take => exact take_load h
  | go => exact own_load hc hF k (op := .go 0) rfl h hl
  | raise => exact own_load hc hF k (op := .raise 0) rfl h hl
  | effect n => exact own_load hc hF k (op := .user (.go n)) trivial h hl
  | prim n => exact own_load hc hF k (op := .user (.prim n none)) trivial h hl
  | primRaise n => exact own_load hc hF k (op := .user (.raise n)) trivial h hl

theorem calm_load {c : Cfg A Mo} (hc : c.sound) (hF : c.hasF = false) {cap : Nat} {s : SdlQ A Mo}
    (r : SdlQ.Calm c cap s) : s.load ≤ cap ∧ s.dropped = 0 := by
  induction r with
  | start => exact ⟨Nat.zero_le _, rfl⟩
  | @step s s' op r h ha ih =>
    obtain ⟨hl, hd⟩ := ih
    have k := r.reach.inv hc hF
    have hz : op.arrives = true → evaluating s.p.jobs = [] := by
      intro h0
      by_cases he : evaluating s.p.jobs = []
      · exact he
      · have := ha ((evaluating_iff k.lossy.jobs).1 he)
        rw [h0] at this; cases this
    by_cases hr : op.arrives = true → s.load < cap
    · obtain ⟨h1, -, h2⟩ := load_step hc hF r.reach h hr hl
      refine ⟨?_, h2.trans hd⟩
      split at h1
      · rename_i h3; have := hr h3; omega
      · omega
    · have hr1 : op.arrives = true := by
        cases h0 : op.arrives with
        | true => rfl
        | false => exact absurd (fun h => by rw [h0] at h; cases h) hr
      have hr2 : ¬ s.events.length < cap := by
        intro h0
        apply hr
        intro _
        unfold SdlQ.load; rw [hz hr1]; simpa using h0
      cases op with
      | dispatch a =>
        simp only [SdlQ.step, if_neg hr2] at h
        cases h; exact ⟨hl, hd⟩
      | event =>
        simp only [SdlQ.step, if_neg hr2] at h
        cases h; exact ⟨hl, hd⟩
      | _ => cases hr1

/-! ### C134 -/

/-- C134: if no event arrives while the reducer runs, what SDL has no room for is as if it had not been dispatched: when no
tasks are left, `get()` is the fold of the reducer over the actions that it had room for, in the order in which they were
dispatched.  At any time the reducer has been called with the first ones of these. -/
theorem C134_fold {c : Cfg A Mo} (hc : c.sound) (hF : c.hasF = false) {cap : Nat} {s : SdlQ A Mo}
    (r : SdlQ.Calm c cap s) :
    ∃ taken, taken.Sublist s.posted ∧ s.refused.Sublist s.posted ∧ (taken ++ s.refused).Perm s.posted ∧
      reductions s.p.st.log <+: taken ∧
      (c.trans = false → s.p.jobs = [] → true ∉ s.events →
        s.p.st.get = fold c taken ∧ lastShown c.init s.p.st.log = s.p.st.get ∧ reductions s.p.st.log = taken) := by
  have k := r.reach.inv hc hF
  refine ⟨dispatches s.p.st.log, k.taken, k.refused, k.perm, ?_, ?_⟩
  · rw [k.lossy.order, List.append_assoc]; exact List.prefix_append ..
  · intro ht hj he
    have hq : s.p.st.idle := by
      refine List.length_eq_zero_iff.1 ?_
      rw [← k.count, List.count_eq_zero]; exact he
    have d := done_of_idle hc ht (k.par (calm_load hc hF r).2) hj hq
    exact ⟨d.get, d.seen, d.all⟩

/-- C134: SDL has room for all of them, if at most `cap` actions are dispatched and other events arrive: every dispatch takes
at most one place.  Then, when no tasks are left, `get()` is the fold of the reducer over all actions. -/
theorem C134_room {c : Cfg A Mo} (hc : c.sound) (hF : c.hasF = false) {cap : Nat} {ops : List (LOp A)}
    (hn : ops.countP LOp.arrives ≤ cap) {s : SdlQ A Mo} (h : SdlQ.exec c cap (.start c) ops = some s) :
    s.refused = [] ∧
    (c.trans = false → s.p.jobs = [] → true ∉ s.events →
      s.p.st.get = fold c s.posted ∧ lastShown c.init s.p.st.log = s.p.st.get) := by
  have r := sdlExec_reach .start h
  have key : s.refused = [] ∧ s.dropped = 0 := by
    have main : ∀ (ops : List (LOp A)) (s0 : SdlQ A Mo), SdlQ.Reach c cap s0 → s0.load + ops.countP LOp.arrives ≤ cap →
        SdlQ.exec c cap s0 ops = some s → s.refused = s0.refused ∧ s.dropped = s0.dropped := by
      intro ops
      induction ops with
      | nil => intro s0 _ _ h; cases h; exact ⟨rfl, rfl⟩
      | cons op ops ih =>
        intro s0 r0 hl h
        simp only [SdlQ.exec, Option.bind_eq_some_iff] at h
        obtain ⟨s1, h1, h2⟩ := h
        rw [List.countP_cons] at hl
        obtain ⟨h3, h4, h5⟩ := load_step hc hF r0 h1 (fun ha => by rw [ha] at hl; simp at hl; omega)
          (by split at hl <;> omega)
        obtain ⟨h6, h7⟩ := ih s1 (r0.step op h1) (by split at hl <;> simp_all <;> omega) h2
        exact ⟨h6.trans h4, h7.trans h5⟩
    exact main ops _ .start (by simpa [SdlQ.load, SdlQ.start, Par.start, evaluating] using hn) h
  refine ⟨key.1, fun ht hj he => ?_⟩
  have k := r.inv hc hF
  have hq : s.p.st.idle := by
    refine List.length_eq_zero_iff.1 ?_
    rw [← k.count, List.count_eq_zero]; exact he
  have d := done_of_idle hc ht (k.par key.2) hj hq
  have hp := k.perm
  rw [key.1, List.append_nil] at hp
  rw [← k.taken.eq_of_length hp.length_eq]
  exact ⟨d.get, d.seen⟩

/-- C134: whatever SDL has room for, and whenever events arrive: the reducer is called with dispatched actions in the order
in which they were dispatched, each at most once; `get()` is a fold over the first ones of those that it was called with; and
watchers are called with the fold over those that it has been called with by then. -/
theorem C134_genuine {c : Cfg A Mo} (hc : c.sound) (hF : c.hasF = false) {cap : Nat} {s : SdlQ A Mo}
    (r : SdlQ.Reach c cap s) :
    (reductions s.p.st.log).Sublist s.posted ∧
    (∃ as, as <+: reductions s.p.st.log ∧ s.p.st.get = fold c as) ∧
    ∀ l1 v l2, s.p.st.log = l1 ++ .shown v :: l2 → v = fold c (reductions l1) := by
  have k := r.inv hc hF
  refine ⟨List.Sublist.trans ?_ k.taken, k.lossy.get, k.lossy.shown⟩
  rw [k.lossy.order, List.append_assoc]; exact List.sublist_append_left ..

/-- C134: and what watchers miss comes with the next action that gets through: when a task that follows the evaluation of any
action, and that SDL had room for, is about to call them, `get()` is the fold over all actions evaluated so far. -/
theorem C134_catches_up {c : Cfg A Mo} (hc : c.sound) (hF : c.hasF = false) (ht : c.trans = false) {cap : Nat}
    {s s' : SdlQ A Mo} (r : SdlQ.Reach c cap s) {it : Item A} (hj : s.p.jobs = [.sending (some it)])
    (h : SdlQ.step c cap s .go = some s') : s'.p.st.get = fold c (reductions s'.p.st.log) := by
  have k := r.inv hc hF
  have hm := k.lossy.model
  rw [hj] at hm
  simp only [SdlQ.step, SdlQ.own, Par.step, hj, List.getElem?_cons_zero, Job.go, Option.map_some] at h
  have hsend : sends c (some it) = true := by simp [sends, ht]
  rw [hsend] at h
  simp only [if_true, (sendDown_queue s.p.st).1, Option.some.injEq] at h
  subst h
  show s.p.st.sendDown.last = fold c (reductions s.p.st.sendDown.log)
  unfold St.sendDown
  split
  · exact hm
  · rename_i hd
    rw [k.lossy.clean (by simpa using hd)]; exact hm

/-- C134 is FALSE for any number of actions: when more are dispatched than SDL has room for, before any event is handled, the
last ones are lost, without any sign. -/
theorem C134_full_false {c : Cfg A Mo} (hc : c.sound) (hF : c.hasF = false) (cap : Nat) (as bs : List A)
    (ha : as.length = cap) :
    ∃ s, SdlQ.exec c cap (.start c) ((as ++ bs).map .dispatch) = some s ∧ s.posted = as ++ bs ∧ s.refused = bs ∧
      dispatches s.p.st.log = as := by
  have first : ∀ (as : List A) (s : SdlQ A Mo), SdlQ.Reach c cap s → s.p.st.fu.ub = false → s.events.length + as.length ≤ cap →
      ∃ s', SdlQ.exec c cap s (as.map .dispatch) = some s' ∧ s'.posted = s.posted ++ as ∧ s'.refused = s.refused ∧
        s'.events.length = s.events.length + as.length ∧
        dispatches s'.p.st.log = dispatches s.p.st.log ++ as := by
    intro as
    induction as with
    | nil => intro s _ _ _; exact ⟨s, rfl, by simp, rfl, rfl, by simp⟩
    | cons a as ih =>
      intro s r hu hl
      simp only [List.length_cons] at hl
      have hr : s.events.length < cap := by omega
      obtain ⟨q, hq, hu'⟩ : ∃ q, Par.step c 1 s.p (.user (.dispatch a)) = some q ∧ q.st.fu.ub = false := by
        simp [Par.step, SOp.isUser, Store.step, St.dispatch, hF, St.fstep, Future.step, hu, St.post, St.say]
      obtain ⟨-, -, k3, -⟩ := (r.inv hc hF).lossy.dispatch hF hq
      have h1 : SdlQ.step c cap s (.dispatch a) =
          some { s with p := q, events := s.events ++ [true], posted := s.posted ++ [a] } := by
        simp only [SdlQ.step, if_pos hr, hq, Option.map_some]
      obtain ⟨s', h2, h3, h4, h5, h6⟩ := ih _ (r.step _ h1) hu' (by simp; omega)
      refine ⟨s', by simp only [List.map_cons, SdlQ.exec, h1, Option.bind_some]; exact h2, by rw [h3]; simp, h4,
        by rw [h5]; simp; omega, by rw [h6]; dsimp only; rw [k3]; simp⟩
  have rest : ∀ (bs : List A) (s : SdlQ A Mo), cap ≤ s.events.length →
      ∃ s', SdlQ.exec c cap s (bs.map .dispatch) = some s' ∧ s'.posted = s.posted ++ bs ∧ s'.refused = s.refused ++ bs ∧
        s'.p = s.p := by
    intro bs
    induction bs with
    | nil => intro s _; exact ⟨s, rfl, by simp, by simp, rfl⟩
    | cons b bs ih =>
      intro s hl
      obtain ⟨s', h2, h3, h4, h5⟩ := ih { s with posted := s.posted ++ [b], refused := s.refused ++ [b] } hl
      have h1 : SdlQ.step c cap s (.dispatch b) =
          some { s with posted := s.posted ++ [b], refused := s.refused ++ [b] } := by
        simp only [SdlQ.step, if_neg (show ¬ s.events.length < cap by omega)]
      exact ⟨s', by simp only [List.map_cons, SdlQ.exec, h1, Option.bind_some]; exact h2, by rw [h3]; simp,
        by rw [h4]; simp, h5⟩
  have exec_append : ∀ (xs ys : List (LOp A)) (s s1 : SdlQ A Mo), SdlQ.exec c cap s xs = some s1 →
      SdlQ.exec c cap s (xs ++ ys) = SdlQ.exec c cap s1 ys := by
    intro xs ys
    induction xs with
    | nil => intro s s1 h; cases h; rfl
    | cons x xs ih =>
      intro s s1 h
      simp only [SdlQ.exec, Option.bind_eq_some_iff] at h
      obtain ⟨s2, h1, h2⟩ := h
      simp only [List.cons_append, SdlQ.exec, h1, Option.bind_some]
      exact ih s2 s1 h2
  obtain ⟨s1, h1, h2, h3, h4, h5⟩ := first as (.start c) .start rfl (by simp [SdlQ.start, ha])
  obtain ⟨s2, k1, k2, k3, k4⟩ := rest bs s1 (by rw [h4, ha]; simp)
  refine ⟨s2, ?_, by rw [k2, h2]; rfl, by rw [k3, h3]; rfl, ?_⟩
  · rw [List.map_append, exec_append _ _ _ _ h1]; exact k1
  · rw [k4, h5]; rfl

/-! ### Examples, and what else is false -/

def exL (c : Cfg A Mo) (cap : Nat) (ops : List (LOp A)) : SdlQ A Mo := (SdlQ.exec c cap (.start c) ops).getD (.start c)

theorem exL_reach {c : Cfg A Mo} {cap : Nat} {ops : List (LOp A)} (h : (SdlQ.exec c cap (.start c) ops).isSome = true) :
    SdlQ.Reach c cap (exL c cap ops) := by
  obtain ⟨s, hs⟩ := Option.isSome_iff_exists.1 h
  have : exL c cap ops = s := by unfold exL; rw [hs]; rfl
  rw [this]
  exact sdlExec_reach .start hs

/-- Does no event arrive while the reducer runs? -/
def calmly (c : Cfg A Mo) (cap : Nat) : SdlQ A Mo → List (LOp A) → Bool
  | _, [] => true
  | s, op :: ops => (!op.arrives || (evaluating s.p.jobs).isEmpty) &&
    match SdlQ.step c cap s op with
    | some s' => calmly c cap s' ops
    | none => false

theorem calm_exec {c : Cfg A Mo} {cap : Nat} {s s' : SdlQ A Mo} {ops : List (LOp A)} (r : SdlQ.Calm c cap s)
    (hk : calmly c cap s ops = true) (h : SdlQ.exec c cap s ops = some s') : SdlQ.Calm c cap s' := by
  induction ops generalizing s with
  | nil => cases h; exact r
  | cons op ops ih =>
    simp only [SdlQ.exec, Option.bind_eq_some_iff] at h
    obtain ⟨s1, h1, h2⟩ := h
    simp only [calmly, h1, Bool.and_eq_true, Bool.or_eq_true, Bool.not_eq_true', List.isEmpty_iff] at hk
    refine ih (r.step op h1 fun hr => ?_) hk.2 h2
    rcases hk.1 with hk | hk
    · exact hk
    · obtain ⟨d, a, i, hj⟩ := hr
      rw [hj] at hk; cases hk

/-- Room for two: three actions are dispatched at once, and two of them are evaluated. -/
def exLFull : List (LOp Nat) :=
  [.dispatch 1, .dispatch 2, .dispatch 3, .take, .go, .go, .take, .go, .go, .take, .go, .go, .go, .take, .go, .go, .go]

example : ∃ s, SdlQ.exec exMul 2 (.start exMul) exLFull = some s ∧ SdlQ.Calm exMul 2 s ∧ s.posted = [1, 2, 3] ∧
    s.refused = [3] ∧ s.p.st.get = 12 ∧ s.events = [] := by
  obtain ⟨s, hs⟩ := Option.isSome_iff_exists.1
    (show (SdlQ.exec exMul 2 (.start exMul) exLFull).isSome = true by decide +kernel)
  have he : s = exL exMul 2 exLFull := by unfold exL; rw [hs]; rfl
  refine ⟨s, hs, calm_exec .start (by decide +kernel) hs, ?_⟩
  rw [he]
  decide +kernel

/-- Room for three: two actions and an event; all are handled. -/
def exLOps : List (LOp Nat) :=
  [.dispatch 1, .event, .dispatch 2, .take, .go, .go, .take, .take, .go, .go, .take, .go, .go, .go, .take, .go, .go, .go]

example : (SdlQ.exec exMul 3 (.start exMul) exLOps).isSome = true ∧ exLOps.countP LOp.arrives = 3 ∧
    (exL exMul 3 exLOps).p.st.get = 12 ∧ (exL exMul 3 exLOps).events = [] ∧ (exL exMul 3 exLOps).p.jobs.isEmpty = true ∧
    shows (exL exMul 3 exLOps).p.st.log = [12] ∧ exMul.hasF = false ∧ exMul.trans = false := by decide +kernel

/-- C134 is FALSE for watchers, if events arrive while the reducer runs: an action is evaluated, all events are handled, and
`get()` does not show it, nor was any watcher called. -/
theorem C134_shown_false : ∃ (c : Cfg Nat Nat) (s : SdlQ Nat Nat), c.sound ∧ c.trans = false ∧ c.hasF = false ∧
    SdlQ.Reach c 1 s ∧ s.p.jobs = [] ∧ s.events = [] ∧ s.posted = [1] ∧ s.refused = [] ∧
    reductions s.p.st.log = [1] ∧ s.p.st.get = 0 ∧ fold c [1] = 1 ∧ shows s.p.st.log = [] :=
  ⟨exMul, exL exMul 1 [.dispatch 1, .take, .event, .go, .go, .take], exMul_sound, rfl, rfl, exL_reach (by decide +kernel),
    List.isEmpty_iff.1 (by decide +kernel), by decide +kernel, by decide +kernel, by decide +kernel, by decide +kernel,
    by decide +kernel, by decide +kernel, by decide +kernel⟩

/-- … and the next action that gets through shows both. -/
example : shows (exL exMul 1 [.dispatch 1, .take, .event, .go, .go, .take, .dispatch 2, .take, .go, .go, .take, .go, .go,
    .go]).p.st.log = [12] := by decide +kernel

end Verif.Store
