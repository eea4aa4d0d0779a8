import Verif.Store.Chain
import Verif.Store.Props

/-!
C111: chain reactions end if every action weighs more than what it causes.

Effects and watchers may dispatch actions, whose effects may dispatch actions, and so on.  A weight is given to
every action, `w`; `B id` bounds the weight of all that user code number `id` dispatches when it is called once
as an effect, and `W v` that of all that the watchers dispatch when they are called with `v`.
-/

namespace Verif.Store

variable {A Mo : Type}

/-- Actions that wait in the queue. -/
def St.waiting (st : St A Mo) : List A := (pend st.queue).map (·.2)

/-- Effects and watchers keep to what they may dispatch: everything that has been dispatched weighs at most `n`,
for what others have dispatched, plus what they may for the times that they have been called. -/
def Keeps (w : A → Nat) (B : Nat → Nat) (W : Mo → Nat) (n : Nat) (l : List (SEv A Mo)) : Prop :=
  sumOf w (dispatches l) ≤ n + sumOf (SEv.grants B W) l

theorem grants_eq (B : Nat → Nat) (W : Mo → Nat) (l : List (SEv A Mo)) :
    sumOf (SEv.grants B W) l = sumOf (SEv.primed B) l + sumOf (SEv.watched W) l := by
  rw [← sumOf_add]
  congr 1
  funext e
  cases e <;> simp [SEv.grants, SEv.primed, SEv.watched]

/-- C111: if every action weighs more than what it causes, then whatever the order in which things happen, and
also if there are exceptions, the reducer is called at most `n` times, where `n` is the weight of what has been
dispatched by others than effects and watchers; more exactly, the number of calls and the weight of the actions
that wait are at most `n` together.  So no more than `n` actions are ever dispatched. -/
theorem C111_bound {c : Cfg A Mo} (hc : c.sound) (hb : c.built) {w : A → Nat} {B : Nat → Nat} {W : Mo → Nat}
    (hd : Decreasing c w B W) {st : St A Mo} (r : Reach c st) (hu : st.fu.ub = false) {n : Nat}
    (hk : Keeps w B W n st.log) :
    (reductions st.log).length + sumOf w st.waiting ≤ n ∧ (dispatches st.log).length ≤ n := by
  have k := r.chain B W
  have h1 := primed_le hb B r hu
  have h2 := k.money
  have h3 := causes_le hd st.log k.red
  have ho : dispatches st.log = reductions st.log ++ st.waiting := by
    rw [dispatches_disp, (r.core hc).order, List.map_append, reductions_red]; rfl
  have hp : st.waiting.length ≤ sumOf w st.waiting := by
    have : ∀ l : List A, l.length ≤ sumOf w l := by
      intro l
      induction l with
      | nil => exact Nat.le_refl _
      | cons a l ih =>
        have := hd st.cur a
        rw [sumOf_cons, List.length_cons]
        omega
    exact this _
  unfold Keeps at hk
  rw [ho, sumOf_append, grants_eq] at hk
  have hlen : (dispatches st.log).length = (reductions st.log).length + st.waiting.length := by
    rw [ho, List.length_append]
  omega

/-- C111: and the loop has run at most `2 * n` tasks of the store; after so many there is none left in the queue,
only closures of promises. -/
theorem C111_tasks {c : Cfg A Mo} (hc : c.sound) (hb : c.built) {w : A → Nat} {B : Nat → Nat} {W : Mo → Nat}
    (hd : Decreasing c w B W) {st : St A Mo} (r : Reach c st) (hu : st.fu.ub = false) {n : Nat}
    (hk : Keeps w B W n st.log) :
    tasks st.log ≤ 2 * n ∧ (tasks st.log = 2 * n → ∀ i ∈ st.queue, i = .tok) := by
  have h1 := (C111_bound hc hb hd r hu hk).2
  have h2 := (r.chain B W).load
  refine ⟨by omega, fun ht => ?_⟩
  have h3 : sumOf Item.load st.queue = 0 := by omega
  have key : ∀ q : List (Item A), sumOf Item.load q = 0 → ∀ i ∈ q, i = .tok := by
    intro q
    induction q with
    | nil => intro _ i hi; cases hi
    | cons j q ih =>
      intro h i hi
      rw [sumOf_cons] at h
      rcases List.mem_cons.1 hi with rfl | hi
      · cases i <;> simp only [Item.load] at h <;> first | rfl | omega
      · exact ih (by omega) i hi
  exact key _ h3

/-- Every task of the store that the loop runs counts: its step is an event of this kind. -/
theorem C111_counts {c : Cfg A Mo} {st st' : St A Mo} {i : Item A} {q : List (Item A)}
    (hq : st.queue = i :: q) (hi : i ≠ .tok) (h : step c st .loop = some st') :
    tasks st'.log = tasks st.log + 1 := by
  have hs : ∀ es : List (SEv A Mo), (∀ e ∈ es, ∃ v, e = SEv.shown v) → tasks es = 0 := fun es he =>
    sumOf_zero fun e h => by obtain ⟨v, rfl⟩ := he e h; rfl
  have hp : ∀ s : St A Mo, tasks (s.publish c).log = tasks s.log := by
    intro s
    unfold St.publish
    split
    · rfl
    · obtain ⟨es, h1, h2⟩ := notify_log s
      rw [h1, tasks, sumOf_append]
      have := hs es h2
      simp only [tasks] at this ⊢
      omega
  have hc : ∀ {s s' : St A Mo} {j}, s.complete c j = some s' → s'.log = s.log := fun h => (complete_toks h).log
  simp only [step, St.loop, hq] at h
  cases i with
  | tok => exact absurd rfl hi
  | reduce d a i =>
    dsimp only at h
    split at h
    · cases h
      simp only [St.say, tasks, sumOf_append, sumOf_one, SEv.asTask]
    · simp only [Option.map_eq_some_iff] at h
      obtain ⟨s1, h1, rfl⟩ := h
      have hl : s1.log = st.log := by
        split at h1
        · split at h1
          · exact (hc h1).trans rfl
          · cases h1; rfl
        · cases h1; rfl
      have hl2 : ∀ v, (s1.pushDown c v).log = st.log := by
        intro v; unfold St.pushDown; split <;> exact hl
      simp only [St.say, tasks, sumOf_append, sumOf_one, SEv.asTask, hl2]
  | effect d e i =>
    dsimp only at h
    cases h
    have := hp { st with queue := q }
    simp only [St.say, tasks, sumOf_append, sumOf_one, SEv.asTask] at this ⊢
    omega
  | publish d i =>
    dsimp only at h
    rw [hc h]
    have := hp { st with queue := q }
    simp only [St.say, tasks, sumOf_append, sumOf_one, SEv.asTask] at this ⊢
    omega

/-! ### Endless reactions -/

/-- Every action has an effect. -/
def endless (e : Eff) : Cfg Unit Nat where
  reducer m _ := (m + 1, e)
  changed v w := v != w
  trans := false
  hasF := false
  init := 0

/-- A moment at which one action waits. -/
structure Again (c : Cfg Unit Nat) (B : Nat → Nat) (W : Nat → Nat) (n : Nat) (st : St Unit Nat) : Prop where
  reach : Reach c st
  queue : ∃ d i, st.queue = [.reduce d () i]
  ev : st.ev = []
  ub : st.fu.ub = false
  ntf : st.ntf = false
  len : (dispatches st.log).length ≤ 1 + sumOf (SEv.grants B W) st.log
  calls : (reductions st.log).length = n


theorem Again.next {B W : Nat → Nat} {e : Eff} {ops : List (SOp Unit)} {n : Nat} {st : St Unit Nat}
    (g : Again (endless e) B W n st)
    (h : ∃ st', exec (endless e) st ops = some st' ∧ (∃ d i, st'.queue = [.reduce d () i]) ∧ st'.ev = [] ∧
      st'.fu.ub = false ∧ st'.ntf = false ∧ ∃ es, st'.log = st.log ++ es ∧
      (dispatches es).length ≤ sumOf (SEv.grants B W) es ∧ (reductions es).length = 1) :
    ∃ st', Again (endless e) B W (n + 1) st' := by
  obtain ⟨st', h1, h2, h3, h4, h5, es, h6, h7, h8⟩ := h
  refine ⟨st', exec_reach g.reach h1, h2, h3, h4, h5, ?_, ?_⟩
  · have := g.len
    rw [h6, sumOf_append]
    simp only [dispatches_disp, disp_append, List.map_append, List.length_append] at this h7 ⊢
    omega
  · have := g.calls
    rw [h6, reductions_append, List.length_append]
    omega

/-- An effect that dispatches its own action. -/
theorem again_effect (n : Nat) : ∃ st, Again (endless (.prim 0)) (fun _ => 1) (fun _ => 0) n st := by
  induction n with
  | zero =>
    refine ⟨exSt (endless (.prim 0)) [.dispatch ()], exSt_reach (by decide +kernel), ⟨0, 0, rfl⟩, rfl, rfl, rfl,
      by decide +kernel, by decide +kernel⟩
  | succ n ih =>
    obtain ⟨st, g⟩ := ih
    refine g.next (ops := [.loop, .loop, .go 0, .dispatch (), .prim 0 none, .go 0]) ?_
    obtain ⟨r, ⟨d, i, hq⟩, hev, hub, hn, -, -⟩ := g
    obtain ⟨fu, cur, last, dirty, ntf, queue, ev, sent, tag, nx, log⟩ := st
    dsimp only at hq hev hub hn
    subst hq hev hn
    simp [exec, step, St.loop, endless, Eff.isEmpty, St.post, St.pushDown, St.say, St.publish, St.sendDown,
      St.notify, St.go, St.dispatch, St.fstep, Future.step, hub, dispatches, reductions, sumOf, SEv.grants]

/-- A watcher that dispatches whenever it is called. -/
theorem again_watch (n : Nat) : ∃ st, Again (endless .empty) (fun _ => 0) (fun _ => 1) n st := by
  induction n with
  | zero =>
    refine ⟨exSt (endless .empty) [.dispatch ()], exSt_reach (by decide +kernel), ⟨0, 0, rfl⟩, rfl, rfl, rfl,
      by decide +kernel, by decide +kernel⟩
  | succ n ih =>
    obtain ⟨st, g⟩ := ih
    refine g.next (ops := [.loop, .loop, .dispatch ()]) ?_
    obtain ⟨r, ⟨d, i, hq⟩, hev, hub, hn, -, -⟩ := g
    obtain ⟨fu, cur, last, dirty, ntf, queue, ev, sent, tag, nx, log⟩ := st
    dsimp only at hq hev hub hn
    subst hq hev hn
    simp [exec, step, St.loop, endless, Eff.isEmpty, St.post, St.pushDown, St.say, St.publish, St.sendDown,
      St.notify, St.complete, St.dispatch, St.fstep, Future.step, hub, dispatches, reductions, sumOf, SEv.grants]

/-- C111, false without a weight: there is a store where one action is dispatched from outside, every effect
dispatches one action each time it is called, and however often the reducer has been called, an action waits; and
the same with one where the watchers do, instead. -/
theorem C111_forever_false :
    (∃ c : Cfg Unit Nat, c.sound ∧ c.built ∧ ∀ n, ∃ st, Reach c st ∧ st.fu.ub = false ∧
      Keeps (fun _ => 1) (fun _ => 1) (fun _ => 0) 1 st.log ∧ (reductions st.log).length = n ∧
      st.waiting ≠ []) ∧
    (∃ c : Cfg Unit Nat, c.sound ∧ c.built ∧ ∀ n, ∃ st, Reach c st ∧ st.fu.ub = false ∧
      Keeps (fun _ => 1) (fun _ => 0) (fun _ => 1) 1 st.log ∧ (reductions st.log).length = n ∧
      st.waiting ≠ []) := by
  have hone : ∀ l : List Unit, sumOf (fun _ => 1) l = l.length := by
    intro l
    induction l with
    | nil => rfl
    | cons a l ih => rw [sumOf_cons, ih, List.length_cons]; omega
  have hs : ∀ e, (endless e).sound := fun e v w h => by simpa [endless] using h
  have key : ∀ {e B W n st}, Again (endless e) B W n st → Reach (endless e) st ∧ st.fu.ub = false ∧
      Keeps (fun _ => 1) B W 1 st.log ∧ (reductions st.log).length = n ∧ st.waiting ≠ [] := by
    intro e B W n st g
    refine ⟨g.reach, g.ub, ?_, g.calls, ?_⟩
    · unfold Keeps
      rw [hone]
      exact g.len
    · obtain ⟨d, i, hq⟩ := g.queue
      unfold St.waiting
      rw [hq]
      simp [pend]
  refine ⟨⟨endless (.prim 0), hs _, ?_, fun n => ?_⟩, ⟨endless .empty, hs _, ?_, fun n => ?_⟩⟩
  · intro m a; simp [endless]; constructor
  · obtain ⟨st, g⟩ := again_effect n; exact ⟨st, key g⟩
  · intro m a; simp [endless]; constructor
  · obtain ⟨st, g⟩ := again_watch n; exact ⟨st, key g⟩

/-! ### Examples -/

/-- A count down: `some n` is an action whose effect dispatches `some (n - 1)`, unless `n` is 0; a watcher
dispatches `none`, which resets the model, when the model is too large. -/
def exDown : Cfg (Option Nat) Nat where
  reducer m
    | none => (0, .empty)
    | some n => (m + n, if n = 0 then .empty else .prim n)
  changed v w := v != w
  trans := false
  hasF := true
  init := 0

def exW : Option Nat → Nat
  | none => 1
  | some n => 3 * n + 2

def exB (n : Nat) : Nat := 3 * n - 1

def exWatch (v : Nat) : Nat := if 5 < v then 1 else 0

theorem exDown_decreasing : Decreasing exDown exW exB exWatch := by
  intro m a
  cases a with
  | none => simp [exDown, exW, exWatch, Eff.budget, Eff.acts, sumOf]
  | some n =>
    by_cases hn : n = 0
    · subst hn; simp [exDown, exW, Eff.budget, Eff.acts, sumOf]
    · have hb : Eff.budget exB (.prim n) = 3 * n - 1 := by simp [Eff.budget, Eff.acts, sumOf, exB]
      simp only [exDown, exW, exWatch, hn, if_false, hb]
      split <;> (try split) <;> (try split) <;> omega

/-- Everything is dispatched that may be. -/
def exDownOps : List (SOp (Option Nat)) :=
  [.dispatch (some 6), .loop, .loop, .dispatch none, .go 0, .dispatch (some 5), .prim 0 none, .go 0, .loop, .loop]

example : (exec exDown (start exDown) exDownOps).isSome = true ∧
    dispatches (exSt exDown exDownOps).log = [some 6, none, some 5] ∧
    (exSt exDown exDownOps).fu.ub = false ∧
    sumOf exW (dispatches (exSt exDown exDownOps).log) ≤
      20 + sumOf (SEv.grants exB exWatch) (exSt exDown exDownOps).log ∧
    (reductions (exSt exDown exDownOps).log).length = 3 ∧ tasks (exSt exDown exDownOps).log = 4 := by
  decide +kernel

example : (dispatches (exSt exDown exDownOps).log).length ≤ 20 :=
  (C111_bound (fun v w h => by simpa [exDown] using h)
    (fun m a => by
      cases a with
      | none => exact .empty
      | some n => dsimp only [exDown]; split <;> constructor)
    exDown_decreasing (exSt_reach (by decide +kernel)) (by decide +kernel) (n := 20) (by
      unfold Keeps; decide +kernel)).2

end Verif.Store
