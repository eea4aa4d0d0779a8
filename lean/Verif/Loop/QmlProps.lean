import Verif.Loop.Qml
import Verif.Loop.Props

/-
Properties of the QML event loop: C82, C83, C84.
-/

namespace Verif.Loop

open Qml (Flat Reach Unseen ran pending callsStep)

/-- C82.  If no task runs a nested event loop: the tasks run are the first ones that reached the
queue, in that order and each once, one at a time; those of one thread reach the queue in the order
in which that thread posted them (those of the item's own thread at once, the others when Qt delivers
them); no empty function is called and nothing is undefined. -/
theorem C82_qml_fifo {o : Nat} {s : Qml.St} (h : Flat o s) :
    ran s <+: s.arrived ∧ (ran s).length = (started s.q.log).length ∧
    (∀ t, s.arrived.filter (·.1 = t) ++ (pending s.events).filter (·.1 = t) =
      s.calls.filter (·.1 = t)) ∧
    s.arrived.filter (·.1 = o) = s.calls.filter (·.1 = o) ∧
    Sequential s.q.log ∧ s.q.bad = false ∧ s.q.ub = false := by
  obtain ⟨hi, hp, hs, hb, hu, _⟩ := C40_queue_fifo (Qml.flat_q h)
  have hr := Qml.flat_reach h
  have hk := Qml.reach_book hr
  refine ⟨Qml.ran_prefix hr hp hi, ?_, hk.order, ?_, hs, hb, hu⟩
  · have hlt : ∀ n ∈ started s.q.log, n < s.arrived.length := by
      intro n hn
      obtain ⟨r, hr⟩ := hp
      have : n ∈ posted s.q.log := by rw [← hr]; exact List.mem_append_left _ hn
      rw [hi, List.mem_range] at this
      rw [hk.count]; exact this
    have key : ∀ l : List Nat, (∀ n ∈ l, n < s.arrived.length) →
        (l.filterMap (s.arrived[·]?)).length = l.length := by
      intro l
      induction l with
      | nil => intro _; rfl
      | cons a l ih =>
        intro hl
        rw [List.filterMap_cons, List.getElem?_eq_getElem (hl a (.head _))]
        simp [ih (fun n hn => hl n (.tail _ hn))]
    exact key _ hlt
  · have := hk.order o
    rw [Qml.filter_none (l := pending s.events) hk.foreign, List.append_nil] at this
    exact this

/-- C82.  When a round of tasks ends normally every task that reached the queue has run. -/
theorem C82_qml_complete {o : Nat} {s : Qml.St} (h : Flat o s)
    (hret : s.q.log.getLast? = some .ret) : ran s = s.arrived := by
  have hq := Qml.flat_q h
  obtain ⟨hi, _⟩ := C40_queue_fifo hq
  refine Qml.ran_all (Qml.flat_reach h) ?_ hi
  generalize s.q = q at hq hret
  cases hq with
  | init => cases hret
  | step op hp hf he => exact (C40_queue_complete hp hf he hret).1

/-- One operation that calls `step()` outside of tasks makes progress. -/
theorem qml_progress {o : Nat} {s s' : Qml.St} {op : Qml.Op} (h : Flat o s) (hs : s.q.stack = [])
    (he : Qml.step s op = some s') (hq : Queue.step s.q .step = some s'.q)
    (ha : s'.arrived = s.arrived) :
    ran s = s.arrived ∨ ∃ p, ran s' = ran s ++ [p] ∧ ran s' <+: s.arrived := by
  have hf := Qml.flat_q h
  have hr := Qml.flat_reach h
  obtain ⟨hi, hp, _⟩ := C40_queue_fifo hf
  rcases C40_queue_progress hf hs hq with ⟨h1, _⟩ | ⟨n, h1, h2⟩
  · exact .inl (Qml.ran_all hr h1 hi)
  · right
    have hn : n < s.arrived.length := by
      rw [(Qml.reach_book hr).count, ← List.mem_range, ← hi]
      obtain ⟨r, hr⟩ := h2
      rw [← hr, h1]
      simp
    refine ⟨s.arrived[n], ?_, ?_⟩
    · simp only [ran, h1, ha, List.filterMap_append]
      congr 1
      rw [List.filterMap_cons, List.getElem?_eq_getElem hn]
      rfl
    · have hf' : Flat o s' := .step op h (fun _ => hs) he
      rw [← ha]
      exact (C82_qml_fifo hf').1

/-- C83.  Once the timer runs, each time it fires outside of tasks the oldest waiting task starts, or
there was none. -/
theorem C83_qml_tick {o : Nat} {s : Qml.St} (h : Flat o s) (ht : s.timer = true)
    (hs : s.q.stack = []) :
    ∃ s', Qml.step s .tick = some s' ∧
      (ran s = s.arrived ∨ ∃ p, ran s' = ran s ++ [p] ∧ ran s' <+: s.arrived) := by
  have he : Qml.step s .tick = some (Qml.settle s (Queue.advance
      { s.q with log := s.q.log ++ [.enter] } 0 s.q.stack) (false :: s.origins)) := by
    simp only [Qml.step, ht, Qml.callStep, Queue.step]
    rfl
  exact ⟨_, he, qml_progress h hs he (by rw [Qml.settle_q]; rfl) (Qml.settle_fields _ _ _).1⟩

/-- C83.  The same for the first frame after a paint, and that frame starts the timer. -/
theorem C83_qml_frame {o : Nat} {s : Qml.St} (h : Flat o s) (hd : s.scheduled = true)
    (hp : s.polished = false) (hs : s.q.stack = []) :
    ∃ s', Qml.step s .frame = some s' ∧ s'.timer = true ∧
      (ran s = s.arrived ∨ ∃ p, ran s' = ran s ++ [p] ∧ ran s' <+: s.arrived) := by
  have he : Qml.step s .frame = some (Qml.settle
      { s with scheduled := false, polished := true, timer := true }
      (Queue.advance { s.q with log := s.q.log ++ [.enter] } 0 s.q.stack) (true :: s.origins)) := by
    simp [Qml.step, hd, hp, Qml.callStep, Queue.step]
  exact ⟨_, he, (Qml.settle_fields _ _ _).2.2.2.1,
    qml_progress h hs he (by rw [Qml.settle_q]; rfl) (Qml.settle_fields _ _ _).1⟩

/-- C83.  A post asks for a frame at once, or when it is delivered. -/
theorem C83_qml_post {s s' : Qml.St} (t x : Nat) (he : Qml.step s (.post t x) = some s') :
    (t = s.owner → s'.scheduled = true ∧ (t, x) ∈ s'.arrived) ∧
    (t ≠ s.owner → (t, x) ∈ pending s'.events) := by
  simp only [Qml.step] at he
  split at he <;> cases he
  · exact ⟨fun _ => ⟨rfl, by simp [Qml.enqueue]⟩, fun hn => absurd ‹_› hn⟩
  · exact ⟨fun hn => absurd hn ‹_›, fun _ => by simp [Qml.pending_append, pending]⟩

/-- C83.  Once the timer runs and as long as no exception left the tasks, Qt always has a reason to
polish the item again: it is scheduled, or a request is on its way.  The timer never stops. -/
theorem C83_qml_chain {o : Nat} {s : Qml.St} (h : Reach o s) (ht : s.timer = true)
    (hs : s.q.stack = []) (hx : Ev.exc ∉ s.q.log) :
    s.scheduled = true ∨ Qml.Event.polish ∈ s.events := by
  have hc := Qml.reach_chain h
  rcases hc.chain ht with h1 | h1 | h1 | h1
  · exact absurd h1 hx
  · exact .inl h1
  · exact .inr h1
  · have hd := hc.depth
    rw [hs] at hd
    rw [List.eq_nil_of_length_eq_zero hd] at h1
    cases h1

theorem C83_qml_timer_stays {s s' : Qml.St} {op : Qml.Op} (he : Qml.step s op = some s')
    (ht : s.timer = true) : s'.timer = true := by
  cases op with
  | post t x => simp only [Qml.step] at he; split at he <;> cases he <;> exact ht
  | dispatch => simp only [Qml.step] at he; split at he <;> cases he <;> exact ht
  | frame =>
    simp only [Qml.step] at he
    split at he
    · split at he
      · cases he; exact ht
      · simp only [Qml.callStep, Option.map_eq_some_iff] at he
        obtain ⟨q, _, rfl⟩ := he
        exact (Qml.settle_fields _ _ _).2.2.2.1
    · cases he
  | paint => simp only [Qml.step] at he; cases he; exact ht
  | tick =>
    simp only [Qml.step, if_pos ht, Qml.callStep, Option.map_eq_some_iff] at he
    obtain ⟨q, _, rfl⟩ := he
    exact (Qml.settle_fields _ _ _).2.2.2.1.trans ht
  | ret =>
    simp only [Qml.step, Option.map_eq_some_iff] at he
    obtain ⟨q, _, rfl⟩ := he
    exact (Qml.settle_fields _ _ _).2.2.2.1.trans ht
  | throw =>
    simp only [Qml.step, Option.map_eq_some_iff] at he
    obtain ⟨q, _, rfl⟩ := he
    exact (Qml.settle_fields _ _ _).2.2.2.1.trans ht

/-- C83 is false before the first frame: while the item has not been polished, whatever else happens
no task runs. -/
theorem C83_qml_unseen {o : Nat} {s : Qml.St} (h : Unseen o s) :
    ran s = [] ∧ started s.q.log = [] := by
  have key : s.timer = false ∧ s.q.stack = [] ∧ started s.q.log = [] := by
    induction h with
    | init => exact ⟨rfl, rfl, rfl⟩
    | @step s s' op _ hn he ih =>
      obtain ⟨h1, h2, h3⟩ := ih
      have enq : ∀ (u : Qml.St) (t x : Nat), u.q = s.q → u.timer = s.timer →
          (Qml.enqueue u t x).timer = false ∧ (Qml.enqueue u t x).q.stack = [] ∧
          started (Qml.enqueue u t x).q.log = [] := by
        intro u t x hu ht
        refine ⟨ht.trans h1, by simp [Qml.enqueue, Queue.step, hu, h2], ?_⟩
        simp [Qml.enqueue, Queue.step, hu, started_append, started, h3]
      cases op with
      | post t x =>
        simp only [Qml.step] at he
        split at he <;> cases he
        · exact enq _ t x rfl rfl
        · exact ⟨h1, h2, h3⟩
      | dispatch =>
        simp only [Qml.step] at he
        split at he <;> cases he
        · exact ⟨h1, h2, h3⟩
        · exact enq _ _ _ rfl rfl
      | frame => exact absurd rfl hn
      | paint => simp only [Qml.step] at he; cases he; exact ⟨h1, h2, h3⟩
      | tick => simp [Qml.step, h1] at he
      | ret => simp [Qml.step, Queue.step, h2] at he
      | throw => simp [Qml.step, Queue.step, h2] at he
  refine ⟨?_, key.2.2⟩
  simp [ran, key.2.2]

/-- C83.  Between two paints at most one frame runs tasks; the timer does the rest. -/
theorem C83_qml_throttle {s s' : Qml.St} {op : Qml.Op} (he : Qml.step s op = some s')
    (hp : s.polished = true) : (op = .frame → s'.q = s.q) ∧ (op ≠ .paint → s'.polished = true) := by
  have sp : ∀ (u : Qml.St) q os, (Qml.settle u q os).polished = u.polished := by
    intro u q os
    unfold Qml.settle Qml.polishAgain
    simp only
    split
    · rfl
    · split <;> rfl
  cases op with
  | post t x =>
    refine ⟨nofun, fun _ => ?_⟩
    simp only [Qml.step] at he; split at he <;> cases he <;> exact hp
  | dispatch =>
    refine ⟨nofun, fun _ => ?_⟩
    simp only [Qml.step] at he; split at he <;> cases he <;> exact hp
  | frame =>
    simp only [Qml.step, hp] at he
    split at he
    · cases he; exact ⟨fun _ => rfl, fun _ => rfl⟩
    · cases he
  | paint => exact ⟨nofun, fun hn => absurd rfl hn⟩
  | tick =>
    refine ⟨nofun, fun _ => ?_⟩
    simp only [Qml.step] at he
    split at he
    · simp only [Qml.callStep, Option.map_eq_some_iff] at he
      obtain ⟨q, _, rfl⟩ := he
      rw [sp]; exact hp
    · cases he
  | ret =>
    refine ⟨nofun, fun _ => ?_⟩
    simp only [Qml.step, Option.map_eq_some_iff] at he
    obtain ⟨q, _, rfl⟩ := he
    rw [sp]; exact hp
  | throw =>
    refine ⟨nofun, fun _ => ?_⟩
    simp only [Qml.step, Option.map_eq_some_iff] at he
    obtain ⟨q, _, rfl⟩ := he
    rw [sp]; exact hp

/-- Behaviours from a state. -/
inductive QmlFrom (s : Qml.St) : Qml.St → Prop where
  | refl : QmlFrom s s
  | step {t u} (op : Qml.Op) : QmlFrom s t → Qml.step t op = some u → QmlFrom s u

theorem qml_from_queue {s s' : Qml.St} (h : QmlFrom s s') : QueueFrom s.q s'.q := by
  induction h with
  | refl => exact .refl
  | step op _ he ih =>
    rcases Qml.step_q he with hq | ⟨qop, hq, _⟩
    · rw [hq]; exact ih
    · exact .step qop ih hq

/-- C84 is false: a task that runs a nested Qt event loop during which the timer fires, and that then
lets the exception out, makes another task disappear: it reached the queue, has not run, and never
will, whatever happens later. -/
theorem C84_qml_nested_false (o : Nat) :
    ∃ s n, Reach o s ∧ s.q.stack = [] ∧ s.q.ub = false ∧ n < s.arrived.length ∧
      ∀ s', QmlFrom s s' → n ∉ started s'.q.log := by
  have hrun : ∃ s, Qml.run (Qml.init o) [.post o 7, .post o 8, .frame, .tick, .throw] = some s ∧
      s.q.stack = [] ∧ s.q.ub = false ∧ s.arrived.length = 2 ∧ some 1 ∉ s.q.queue ∧ s.q.next = 2 ∧
      started s.q.log = [0] := by
    simp only [Qml.run, Qml.step, Qml.init, ↓reduceIte, Qml.enqueue, Queue.init, Queue.step,
      Option.getD_some, Option.bind_some]
    refine ⟨_, rfl, rfl, rfl, rfl, ?_, rfl, rfl⟩
    show some 1 ∉ []
    simp
  obtain ⟨s, hr, h1, h2, h3, h4, h5, h6⟩ := hrun
  refine ⟨s, 1, Qml.reach_run .init _ hr, h1, h2, by omega, fun s' hs' => ?_⟩
  have key : ∀ q', QueueFrom s.q q' → some 1 ∉ q'.queue ∧ 1 < q'.next ∧ 1 ∉ started q'.log := by
    intro q' hq'
    induction hq' with
    | refl => exact ⟨h4, by omega, by rw [h6]; simp⟩
    | step op _ he ih => exact queue_lost_step 1 op ih he
  exact (key _ (qml_from_queue hs')).2.2

/-- C84, what happens in general: the first time the timer fires inside a task, or the item is
polished there after a paint, the nested `step()` calls an empty function: it throws and runs
nothing. -/
theorem C84_qml_nested_throws {o : Nat} {s s' : Qml.St} {op : Qml.Op} (h : Flat o s)
    (hs : s.q.stack ≠ []) (hop : op = .tick ∨ (op = .frame ∧ s.polished = false))
    (he : Qml.step s op = some s') :
    ran s' = ran s ∧ s'.q.log.getLast? = some .exc ∧ s'.q.bad = true := by
  have key : ∀ u b, Qml.callStep u b = some s' → u.q = s.q → u.arrived = s.arrived →
      ran s' = ran s ∧ s'.q.log.getLast? = some .exc ∧ s'.q.bad = true := by
    intro u b hc hu ha
    simp only [Qml.callStep, Option.map_eq_some_iff] at hc
    obtain ⟨q, hq, rfl⟩ := hc
    rw [hu] at hq
    obtain ⟨h1, h2, h3⟩ := C41_nested_always_throws (Qml.flat_q h) hs hq
    refine ⟨?_, by rw [Qml.settle_q]; exact h2, by rw [Qml.settle_q]; exact h3⟩
    simp only [ran, Qml.settle_q, h1, (Qml.settle_fields u q (b :: u.origins)).1, ha]
  rcases hop with rfl | ⟨rfl, hp⟩
  · simp only [Qml.step] at he
    split at he
    · exact key _ _ he rfl rfl
    · cases he
  · simp only [Qml.step] at he
    split at he
    · simp only [hp] at he
      exact key _ _ he rfl rfl
    · cases he

/-! ### Non-vacuity -/

/-- Posts from two threads, a frame that runs them, a post from inside a task, a throwing task, then
the timer. -/
def exQmlOps : List Qml.Op :=
  [.post 0 10, .post 1 20, .post 1 21, .dispatch, .frame, .post 0 11, .ret, .ret, .ret, .paint,
   .dispatch, .post 0 12, .tick, .throw, .tick, .ret]

def exQml : Option Qml.St := Qml.run (Qml.init 0) exQmlOps

example : exQml.map ran = some [(0, 10), (1, 20), (0, 11), (1, 21), (0, 12)] := by decide +kernel
example : exQml.map (·.timer) = some true := by decide +kernel

theorem qml_flat_run {o : Nat} {s s' : Qml.St} (h : Flat o s) (ops : List Qml.Op)
    (hops : ∀ k, ∀ s₁, Qml.run s (ops.take k) = some s₁ → ∀ op, ops[k]? = some op →
      callsStep s₁ op → s₁.q.stack = [])
    (he : Qml.run s ops = some s') : Flat o s' := by
  induction ops generalizing s with
  | nil => cases he; exact h
  | cons op ops ih =>
    simp only [Qml.run] at he
    cases hs : Qml.step s op with
    | none => rw [hs] at he; cases he
    | some t =>
      rw [hs] at he
      refine ih (.step op h (hops 0 s rfl op rfl) hs) (fun k s₁ h1 op' h2 => ?_) he
      refine hops (k + 1) s₁ ?_ op' h2
      simp only [List.take_succ_cons, Qml.run, hs]
      exact h1

example : ∃ s, Flat 0 s ∧ s.timer = true ∧ s.q.stack = [] ∧ Ev.exc ∉ s.q.log ∧
    ran s = [(0, 10)] ∧ pending s.events = [(1, 20)] := by
  refine ⟨_, .step .ret (.step .frame (.step (.post 1 20) (.step (.post 0 10) .init nofun rfl)
    nofun rfl) (fun _ => rfl) rfl) nofun rfl, rfl, rfl, by decide +kernel, rfl, rfl⟩

example : ∃ s, Unseen 0 s ∧ s.arrived = [(0, 10), (1, 20)] := by
  refine ⟨_, .step .dispatch (.step (.post 1 20) (.step (.post 0 10) .init nofun rfl) nofun rfl)
    nofun rfl, rfl⟩

example : ∃ s, Flat 0 s ∧ s.q.stack ≠ [] ∧ s.timer = true :=
  ⟨_, .step .frame (.step (.post 0 10) .init nofun rfl) (fun _ => rfl) rfl, by decide, rfl⟩

end Verif.Loop
