import Verif.Store.ManualQ
import Verif.Loop.Props

/-!
C113: stores on the manual event loop.
-/

namespace Verif.Store

open Verif

variable {A Mo : Type}

theorem effRuns_filter (d : Nat) (l : List (SEv A Mo)) : effRuns d (l.filter SEv.isTask) = effRuns d l := by
  induction l with
  | nil => rfl
  | cons e l ih => cases e <;> simp [List.filter_cons, SEv.isTask, effRuns, ih]

theorem mem_isTask {l l' : List (SEv A Mo)} (h : SameLog l l') {e : SEv A Mo} (he : e.isTask = true) :
    e ∈ l ↔ e ∈ l' := by
  have : e ∈ l.filter SEv.isTask ↔ e ∈ l'.filter SEv.isTask := by rw [h.1]
  simpa [List.mem_filter, he] using this

/-- What holds when everything is done: the model is the fold over all actions that were dispatched, the watchers have
been called with it, and the effects have been called, unless a watcher has thrown in their task. -/
structure Done (c : Cfg A Mo) (s : St A Mo) : Prop where
  get : s.get = fold c (dispatches s.log)
  seen : lastShown c.init s.log = s.get
  all : reductions s.log = dispatches s.log
  effects : ∀ d m a m' e, SEv.reduced d m a m' e ∈ s.log → e.isEmpty = false → (∀ o, SEv.lost d o ∉ s.log) →
    effRuns d s.log = 1

theorem done_of_idle {c : Cfg A Mo} (hc : c.sound) (ht : c.trans = false) {p : Par A Mo} (r : Par.Reach c 1 p)
    (hj : p.jobs = []) (hi : p.st.idle) : Done c p.st := by
  obtain ⟨s, hs, k⟩ := C94_serial hc r hj
  have hi' : s.idle := by unfold St.idle; rw [k.queue]; exact hi
  have hl := C50_last hc hs
  have hseen : lastShown c.init p.st.log = p.st.get := by
    rw [← lastShown_filter, ← k.log.1, lastShown_filter, hl.1]
    exact k.last
  refine ⟨C94_fold hc ht r hj hi, hseen, ?_, ?_⟩
  · have h1 := (C48_order hc hs).1
    rw [hi', pend, List.map_nil, List.append_nil] at h1
    have h2 : reductions p.st.log = reductions s.log := by
      rw [← reductions_filter, ← k.log.1, reductions_filter]
    have h3 : dispatches p.st.log = dispatches s.log := by
      rw [← dispatches_filter, ← k.log.2, dispatches_filter]
    rw [h2, h3, h1]
  · intro d m a m' e h1 h2 h3
    have h4 := (C49_once hc hs d).2.1 a e ⟨m, m', (mem_isTask k.log rfl).2 h1⟩ h2 hi' (by
      rintro ⟨o, ho⟩
      exact h3 o ((mem_isTask k.log rfl).1 ho))
    rw [← effRuns_filter, ← k.log.1, effRuns_filter]
    exact h4

theorem man_ret {l : Loop.Manual.St} (h : Loop.Manual.Reach l) (hret : l.log.getLast? = some .ret) :
    l.ctl = .idle ∧ Rest l [] := by
  have hi := Loop.Manual.reach_inv h
  constructor
  · cases hc : l.ctl with
    | idle => rfl
    | task n =>
      have h1 := (hi.task n hc).2
      obtain ⟨a, ha⟩ : ∃ a, l.log = a ++ [.ret] := by
        rw [List.getLast?_eq_some_iff] at hret
        exact hret
      rw [ha, Loop.nesting_snoc] at h1
      cases h2 : Loop.nesting a with
      | none => rw [h2] at h1; cases h1
      | some x =>
        rw [h2] at h1
        cases x with
        | none => cases h1
        | some y => cases y <;> cases h1
  · cases h with
    | init => cases hret
    | step op h hs =>
      have h1 := Loop.C38_manual_complete h hs hret
      obtain ⟨rest, h2, h3⟩ := hi.split
      have : rest = [] := by
        have := congrArg List.length h3
        rw [List.length_append, h1] at this
        exact List.length_eq_zero_iff.1 (by omega)
      rw [this] at h2
      exact h2

theorem done_of_rest {c : Cfg A Mo} (hc : c.sound) (ht : c.trans = false) (hF : c.hasF = false) {m : ManQ A Mo}
    (r : ManQ.Reach c m) (hi : m.l.ctl = .idle) (hr : Rest m.l []) :
    m.p.st.idle ∧ m.p.jobs = [] ∧ m.p.st.ev = [] ∧ Done c m.p.st := by
  have k := r.inv hF
  obtain ⟨-, hj, he, -⟩ := k.idle hi
  obtain ⟨rest, h1, h2, -⟩ := k.rest
  have : rest = [] := by
    unfold Rest at h1 hr
    rw [hr] at h1
    have := List.append_cancel_left h1
    simpa using this.symm
  rw [this] at h2
  have hq : m.p.st.queue = [] := List.length_eq_zero_iff.1 h2.symm
  exact ⟨hq, hj, he, done_of_idle hc ht k.par hj hq⟩

/-- C113: with the manual event loop, when the outermost `dispatch` (or `post`) returns, all actions that have been
dispatched so far, by whomever and in whatever callbacks, have been evaluated, and no task waits or runs. -/
theorem C113_sync {c : Cfg A Mo} (hc : c.sound) (ht : c.trans = false) (hF : c.hasF = false) {m : ManQ A Mo}
    (r : ManQ.Reach c m) (hret : m.l.log.getLast? = some .ret) :
    m.p.st.idle ∧ m.p.jobs = [] ∧ m.p.st.ev = [] ∧ Done c m.p.st := by
  obtain ⟨h1, h2⟩ := man_ret (r.inv hF).man hret
  exact done_of_rest hc ht hF r h1 h2

theorem man_idle {l : Loop.Manual.St} (h : Loop.Manual.Reach l) (hi : l.ctl = .idle) :
    l.log = [] ∨ l.log.getLast? = some .ret ∨ l.log.getLast? = some .exc := by
  have adv : ∀ {l : Loop.Manual.St}, Rest l [] ∨ (∃ n rest, Rest l (n :: rest)) →
      (Loop.Manual.advance l).ctl = .idle → (Loop.Manual.advance l).log.getLast? = some .ret := by
    intro l hr h
    rcases hr with hr | ⟨n, rest, hr⟩
    · rw [advance_nil hr]; simp
    · rw [(advance_cons hr).1] at h; cases h
  have rests : ∀ {l : Loop.Manual.St} {rest : List Nat}, Rest l rest → Rest l [] ∨ ∃ n rest, Rest l (n :: rest) := by
    intro l rest h
    cases rest with
    | nil => exact .inl h
    | cons n rest => exact .inr ⟨n, rest, h⟩
  cases h with
  | init => exact .inl rfl
  | @step s _ op h hs =>
    have k := Loop.Manual.reach_inv h
    obtain ⟨rest, h2, -⟩ := k.split
    cases op with
    | post =>
      simp only [Loop.Manual.step] at hs
      split at hs
      · cases hs
        refine .inr (.inl (adv (rests (rest := rest ++ [s.next]) ?_) hi))
        unfold Rest
        dsimp only
        rw [h2]; simp
      · rename_i h0
        cases hs
        exact absurd (k.idle hi).1 h0
    | ret =>
      simp only [Loop.Manual.step] at hs
      split at hs
      · cases hs
      · cases hs
        exact .inr (.inl (adv (rests (rest := rest) h2) hi))
    | throw =>
      simp only [Loop.Manual.step] at hs
      split at hs
      · cases hs
      · cases hs
        exact .inr (.inr (by simp [Loop.Manual.caught]))

/-- C113: so as long as no exception leaves a `dispatch`, this is so whenever the program is outside of all of them. -/
theorem C113_outside {c : Cfg A Mo} (hc : c.sound) (ht : c.trans = false) (hF : c.hasF = false) {m : ManQ A Mo}
    (r : ManQ.Reach c m) (hi : m.l.ctl = .idle) (hx : Loop.Ev.exc ∉ m.l.log) :
    m.p.st.idle ∧ m.p.jobs = [] ∧ m.p.st.ev = [] ∧ Done c m.p.st := by
  have k := r.inv hF
  rcases man_idle k.man hi with h | h | h
  · have h1 := Loop.Manual.reach_inv k.man
    obtain ⟨rest, h2, h3⟩ := h1.split
    rw [h] at h3
    have : rest = [] := by simpa [Loop.posted] using (List.append_eq_nil_iff.1 h3).2
    rw [this] at h2
    exact done_of_rest hc ht hF r hi h2
  · exact C113_sync hc ht hF r h
  · exact absurd (List.mem_of_getLast? h) hx

/-- C113: a `dispatch` in a reducer, a watcher, an effect or a function posted to the loop returns at once: nothing is
evaluated, published or called, the action waits behind those that wait already. -/
theorem C113_nested {c : Cfg A Mo} (hF : c.hasF = false) {m m' : ManQ A Mo} (r : ManQ.Reach c m) {n : Nat}
    (hc : m.l.ctl = .task n) {a : A} (h : ManQ.step c m (.dispatch a) = some m') :
    m'.l.ctl = .task n ∧ m'.p.st.get = m.p.st.get ∧ m'.p.st.cur = m.p.st.cur ∧ m'.p.jobs = m.p.jobs ∧
    (∃ d, m'.p.st.log = m.p.st.log ++ [.dispatched d a]) ∧
    ∃ d i, m'.p.st.queue = m.p.st.queue ++ [.reduce d a i] := by
  have k := r.inv hF
  simp only [ManQ.step] at h
  split at h
  · cases h
  · rw [hc] at h
    dsimp only at h
    have hctl := (own_inv hF k (by trivial) hc h).2
    simp only [ManQ.own, Option.map_eq_some_iff] at h
    obtain ⟨p, h1, rfl⟩ := h
    simp only [Par.step] at h1
    split at h1
    · simp only [Option.map_eq_some_iff] at h1
      obtain ⟨s, h3, rfl⟩ := h1
      obtain ⟨e1, -, e3, e4, e5⟩ := dispatch_grows hF h3
      exact ⟨hctl, e4, e5, rfl, ⟨_, e3⟩, _, _, e1⟩
    · cases h1

/-- C113: when user code in a task throws, the exception leaves the outermost `dispatch` (or `post`).  The tasks that
wait stay, and the next `dispatch` begins with the first of them. -/
theorem C113_throw {c : Cfg A Mo} (hF : c.hasF = false) {m m' : ManQ A Mo} (r : ManQ.Reach c m)
    (h : ManQ.step c m .throw = some m') :
    m'.l.ctl = .idle ∧ m'.l.log.getLast? = some .exc ∧ m'.p = m.p ∧
    ∀ a m'', ManQ.step c m' (.dispatch a) = some m'' →
      ∃ n, m''.l.ctl = .task n ∧ Loop.started m''.l.log = Loop.started m'.l.log ++ [n] ∧
        Loop.started m''.l.log <+: Loop.posted m''.l.log ∧
        (n ∉ m'.foreign → ∀ it q, m'.p.st.queue = it :: q →
          ∃ d i, m''.p.st.queue = q ++ [.reduce d a i]) := by
  have k := r.inv hF
  have r' := r.step _ h
  simp only [ManQ.step] at h
  split at h
  · simp only [Option.map_eq_some_iff] at h
    obtain ⟨l, h1, rfl⟩ := h
    obtain ⟨g1, g2, g3, g4, g5⟩ := Loop.C39_manual_throw k.man h1
    refine ⟨g1, g2, rfl, ?_⟩
    intro a m'' h2
    have k' := r'.inv hF
    simp only [ManQ.step] at h2
    rw [if_neg (by simp)] at h2
    rw [show l.ctl = _ from g1] at h2
    simp only [Option.bind_eq_some_iff] at h2
    obtain ⟨m1, h2, h3⟩ := h2
    simp only [ManQ.own, Option.map_eq_some_iff] at h2
    obtain ⟨p, h2, rfl⟩ := h2
    simp only [Par.step] at h2
    split at h2
    · simp only [Option.map_eq_some_iff] at h2
      obtain ⟨s, h4, rfl⟩ := h2
      obtain ⟨e1, -, -, -, -⟩ := dispatch_grows hF h4
      have hlen : s.queue.length - m.p.st.queue.length = 1 := by rw [e1]; simp
      dsimp only at h3
      rw [hlen] at h3
      cases hs : Loop.Manual.step l .post with
      | none => simp [Loop.Manual.step] at hs; split at hs <;> cases hs
      | some l2 =>
        obtain ⟨n, f1, f2, f3⟩ := g5 l2 hs
        have hp : posts 1 l = l2 := by simp [posts, hs]
        rw [hp] at h3
        unfold ManQ.begin at h3
        dsimp only at h3
        rw [f1] at h3
        dsimp only at h3
        split at h3
        · rename_i hn
          cases h3
          exact ⟨n, f1, f2, f3, fun h => absurd hn h⟩
        · simp only [Option.map_eq_some_iff] at h3
          obtain ⟨q, h3, rfl⟩ := h3
          refine ⟨n, f1, f2, f3, fun _ it q' hq => ?_⟩
          have ht : Item.tok ∉ s.queue := by
            rw [e1]
            simp [k.tok]
          obtain ⟨⟨it', h5⟩, -⟩ := parBegin_queue (p := { m.p with st := s }) ht h3
          dsimp only at h5 hq ⊢
          rw [e1, hq] at h5
          simp only [List.cons_append, List.cons.injEq] at h5
          exact ⟨_, _, h5.2.symm⟩
    · cases h2
  · cases h

/-- User code throws: a watcher, an effect, a function that the program has posted, or the reducer. -/
def Raises (c : Cfg A Mo) (m : ManQ A Mo) : MOp A → Prop
  | .raise => True
  | .primRaise => True
  | .fail => True
  | .go => ∃ d a i, m.p.jobs = [.reducing d a i] ∧ c.throws m.p.st.cur a = true
  | _ => False

/-- C113: after user code has thrown, the loop cannot go on as if it had returned, and no user code runs, until the
exception has left the outermost call. -/
theorem C113_exception {c : Cfg A Mo} (hF : c.hasF = false) {m m' : ManQ A Mo} (r : ManQ.Reach c m) {op : MOp A}
    (h : ManQ.step c m op = some m') (hr : Raises c m op) {m'' : ManQ A Mo} {ops : List (MOp A)} (ho : MOp.throw ∉ ops)
    (hx : ManQ.exec c m' ops = some m'') :
    ManQ.step c m'' .ret = none ∧ ManQ.step c m'' .post = none ∧ (∀ a, ManQ.step c m'' (.dispatch a) = none) ∧
    ManQ.step c m'' .effect = none := by
  have own_thrown : ∀ {m m' : ManQ A Mo} {op : POp A}, m.own c op = some m' → m.thrown = true → m'.thrown = true := by
    intro m m' op h ht
    simp only [ManQ.own, Option.map_eq_some_iff] at h
    obtain ⟨p, -, rfl⟩ := h
    simp [ht]
  have one : ∀ {m : ManQ A Mo} {op : MOp A} {m'}, ManQ.step c m op = some m' → op ≠ .throw → m.thrown = true →
      m'.thrown = true := by
    intro m op m' h ho ht
    cases op with
    | throw => exact absurd rfl ho
    | dispatch a => simp [ManQ.step, ht] at h
    | post => simp [ManQ.step, ht] at h
    | effect => simp [ManQ.step, ht] at h
    | ret => simp [ManQ.step, ht] at h
    | go => exact own_thrown h ht
    | raise => exact own_thrown h ht
    | prim => exact own_thrown h ht
    | primRaise => exact own_thrown h ht
    | fail =>
      simp only [ManQ.step] at h
      split at h
      · split at h
        · cases h; rfl
        · cases h
      · cases h
  have say : ∀ {p : Par A Mo} {e : SEv A Mo}, e.isThrow = true → p.st.log = m.p.st.log ++ [e] →
      ((m.thrown || (p.st.log.drop m.p.st.log.length).any SEv.isThrow) = true) := by
    intro p e h1 h2
    rw [h2]
    simp [h1]
  have first : m'.thrown = true := by
    cases op with
    | raise =>
      simp only [ManQ.step, ManQ.own, Option.map_eq_some_iff] at h
      obtain ⟨p, h1, rfl⟩ := h
      simp only [Par.step] at h1
      split at h1
      · cases h1
      · simp only [Option.map_eq_some_iff] at h1
        obtain ⟨s, h2, rfl⟩ := h1
        unfold Job.raise at h2
        split at h2
        · cases h2; exact say (p := ⟨_, _, _⟩) (e := .lost _ _) rfl rfl
        · cases h2; exact say (p := ⟨_, _, _⟩) (e := .lost _ _) rfl rfl
        · cases h2
    | primRaise =>
      simp only [ManQ.step, ManQ.own, Option.map_eq_some_iff] at h
      obtain ⟨p, h1, rfl⟩ := h
      simp only [Par.step, SOp.isUser, if_true, Option.map_eq_some_iff] at h1
      obtain ⟨s, h2, rfl⟩ := h1
      simp only [Store.step] at h2
      split at h2
      · cases h2; exact say (p := ⟨_, _, _⟩) (e := .primThrew _ _) rfl rfl
      · rename_i he
        obtain ⟨d, i, hk⟩ := ((r.inv hF).plain _ (List.mem_of_getElem? he)).2
        cases hk
      · cases h2
    | fail =>
      simp only [ManQ.step] at h
      split at h
      · split at h
        · cases h; rfl
        · cases h
      · cases h
    | go =>
      obtain ⟨d, a, i, hj, ht⟩ := hr
      simp only [ManQ.step, ManQ.own, Option.map_eq_some_iff] at h
      obtain ⟨p, h1, rfl⟩ := h
      simp only [Par.step, hj, List.getElem?_cons_zero, Job.go, ht, if_true, Option.map_some, Option.some.injEq] at h1
      subst h1
      exact say (p := ⟨_, _, _⟩) (e := .reduceThrew _ _ _) rfl rfl
    | dispatch a => cases hr
    | post => cases hr
    | effect => cases hr
    | prim => cases hr
    | ret => cases hr
    | throw => cases hr
  have last : m''.thrown = true := by
    clear h hr say
    induction ops generalizing m' with
    | nil => cases hx; exact first
    | cons op ops ih =>
      simp only [ManQ.exec, Option.bind_eq_some_iff] at hx
      obtain ⟨m1, h1, h2⟩ := hx
      exact ih (fun h => ho (List.mem_cons_of_mem _ h)) h2 (one h1 (fun e => ho (by simp [e])) first)
  simp [ManQ.step, last]

/-- C113: the loop is never stuck: when the running task is done, it goes on. -/
theorem C113_goes_on {c : Cfg A Mo} (hF : c.hasF = false) {m : ManQ A Mo} (r : ManQ.Reach c m) {n : Nat}
    (hc : m.l.ctl = .task n) (hf : m.free = true) :
    (m.thrown = false → ∃ m', ManQ.step c m .ret = some m') ∧ (m.thrown = true → ∃ m', ManQ.step c m .throw = some m') := by
  have k := r.inv hF
  obtain ⟨rest, g1, g2, g3⟩ := k.rest
  refine ⟨fun ht => ?_, fun ht => ?_⟩
  · simp only [ManQ.step, hf, ht, Loop.Manual.step, hc, and_self, if_true, Option.bind_some]
    have g1' : Rest ⟨m.l.queue, m.l.i, .task n, m.l.next, m.l.log ++ [.done n], m.l.bad⟩ rest := g1
    cases rest with
    | nil =>
      unfold ManQ.begin
      dsimp only
      rw [advance_nil g1']
      exact ⟨_, rfl⟩
    | cons x rest =>
      unfold ManQ.begin
      dsimp only
      rw [(advance_cons g1').1]
      dsimp only
      split
      · exact ⟨_, rfl⟩
      · rename_i hn
        have hlen : 0 < m.p.st.queue.length := by rw [← g2]; simp [ours, hn]
        have hj : m.p.jobs = [] := by
          simp only [ManQ.free, Bool.and_eq_true, List.isEmpty_iff] at hf
          exact hf.1
        simp only [Par.step, hj, List.length_nil, Nat.lt_one_iff, if_true]
        unfold Par.begin
        split
        · rename_i hq; rw [hq] at hlen; cases hlen
        · exact ⟨_, rfl⟩
        · rename_i hq; exact absurd (by rw [hq]; simp) k.tok
        · exact ⟨_, rfl⟩
  · simp only [ManQ.step, hf, ht, Loop.Manual.step, hc, and_self, if_true]
    exact ⟨_, rfl⟩

/-! ### Examples -/

def exMan (c : Cfg A Mo) (ops : List (MOp A)) : ManQ A Mo := (ManQ.exec c (.start c) ops).getD (.start c)

theorem exMan_reach {c : Cfg A Mo} {ops : List (MOp A)} (h : (ManQ.exec c (.start c) ops).isSome = true) :
    ManQ.Reach c (exMan c ops) := by
  refine manExec_reach (ops := ops) .start ?_
  unfold exMan
  cases h' : ManQ.exec c (.start c) ops with
  | none => rw [h'] at h; cases h
  | some s => rfl

/-- The model is a number; actions are appended as digits; action 1 has an effect. -/
def exManCfg : Cfg Nat Nat where
  reducer m a := (10 * m + a, if a = 1 then .prim 0 else .empty)
  changed v w := v != w
  trans := false
  hasF := false
  init := 0

/-- `dispatch(1)`, in whose reducer 2 is dispatched, in a watcher 3 and in the effect 4. -/
def exManOps : List (MOp Nat) :=
  [.dispatch 1, .dispatch 2, .go, .go, .ret, .go, .go, .ret, .go, .go, .dispatch 3, .go, .effect, .dispatch 4, .prim,
   .effect, .ret, .go, .go, .go, .ret, .go, .go, .ret, .go, .go, .ret, .go, .go, .go, .ret, .go, .go, .go, .ret]

/-- `dispatch(1)`, whose effect dispatches 2 and throws. -/
def exManThrow : List (MOp Nat) := [.dispatch 1, .go, .go, .ret, .go, .go, .go, .effect, .dispatch 2, .primRaise]

theorem exMan_sound : exManCfg.sound := by
  intro v w h
  simpa [exManCfg] using h

example : ManQ.Reach exManCfg (exMan exManCfg exManOps) ∧ (exMan exManCfg exManOps).l.log.getLast? = some .ret ∧
    Loop.Ev.exc ∉ (exMan exManCfg exManOps).l.log ∧
    dispatches (exMan exManCfg exManOps).p.st.log = [1, 2, 3, 4] ∧ (exMan exManCfg exManOps).p.st.get = 1234 ∧
    effRuns 0 (exMan exManCfg exManOps).p.st.log = 1 :=
  ⟨exMan_reach (by decide +kernel), by decide +kernel⟩

example : ManQ.Reach exManCfg (exMan exManCfg (exManOps.take 10)) ∧
    (exMan exManCfg (exManOps.take 10)).l.ctl = .task 2 ∧
    (ManQ.step exManCfg (exMan exManCfg (exManOps.take 10)) (.dispatch 3)).isSome = true :=
  ⟨exMan_reach (by decide +kernel), by decide +kernel, by decide +kernel⟩

example : ManQ.Reach exManCfg (exMan exManCfg exManThrow) ∧
    (ManQ.step exManCfg (exMan exManCfg exManThrow) .throw).isSome = true :=
  ⟨exMan_reach (by decide +kernel), by decide +kernel⟩

example : ManQ.Reach exManCfg (exMan exManCfg (exManThrow.take 9)) ∧
    (ManQ.step exManCfg (exMan exManCfg (exManThrow.take 9)) .primRaise).isSome = true ∧
    Raises exManCfg (exMan exManCfg (exManThrow.take 9)) .primRaise :=
  ⟨exMan_reach (by decide +kernel), by decide +kernel, trivial⟩

/-- C113: after an exception has left `dispatch` there can be actions that have been dispatched but not evaluated,
although no code of the store runs. … -/
theorem C113_throw_false : ∃ (c : Cfg Nat Nat) (m : ManQ Nat Nat), c.sound ∧ c.trans = false ∧ c.hasF = false ∧
    ManQ.Reach c m ∧ m.l.ctl = .idle ∧ m.p.st.get ≠ fold c (dispatches m.p.st.log) :=
  ⟨exManCfg, exMan exManCfg (exManThrow ++ [.throw]), exMan_sound, rfl, rfl, exMan_reach (by decide +kernel),
    by decide +kernel, by decide +kernel⟩

/-- … The next `dispatch` makes up for it: 2 is evaluated before 3. -/
example : (exMan exManCfg (exManThrow ++ [.throw])).p.st.get = 1 ∧
    (exMan exManCfg (exManThrow ++ [.throw, .dispatch 3, .go, .go, .ret, .go, .go, .ret, .go, .go, .go, .ret,
      .go, .go, .go, .ret])).p.st.get = 123 := by
  decide +kernel

end Verif.Store
