import Verif.Store.Actors

/-!
Property C120: stores as actors.

`Actors.Reach c s` says that `s` can be reached by stores that are named by `K`, each with an event loop of its own that
runs one task at a time, when their reducers, watchers and effects, and anybody else, dispatch to any of them.
-/

namespace Verif.Store

variable {K : Type} [DecidableEq K] {A Mo : K → Type} {c : (k : K) → Cfg (A k) (Mo k)} {s : Actors A Mo}

/-! ### Examples -/

def Actors.exec (c : (k : K) → Cfg (A k) (Mo k)) (s : Actors A Mo) : List (AOp A) → Option (Actors A Mo)
  | [] => some s
  | op :: ops => (Actors.step c s op).bind fun s' => Actors.exec c s' ops

def exActors (c : (k : K) → Cfg (A k) (Mo k)) (ops : List (AOp A)) : Actors A Mo :=
  (Actors.exec c (Actors.start c) ops).getD (Actors.start c)

theorem actors_exec {s' : Actors A Mo} {ops : List (AOp A)} (r : Actors.Reach c s)
    (h : Actors.exec c s ops = some s') : Actors.Reach c s' := by
  induction ops generalizing s with
  | nil => cases h; exact r
  | cons op ops ih =>
    simp only [Actors.exec, Option.bind_eq_some_iff] at h
    obtain ⟨s1, h1, h2⟩ := h
    exact ih (r.step op h1) h2

theorem exActors_reach {ops : List (AOp A)} (h : (Actors.exec c (Actors.start c) ops).isSome = true) :
    Actors.Reach c (exActors c ops) := by
  refine actors_exec (ops := ops) .start ?_
  unfold exActors
  cases h' : Actors.exec c (Actors.start c) ops with
  | none => rw [h'] at h; cases h
  | some s => rfl

/-- Two stores. -/
def exActs : (k : Bool) → Cfg Nat Nat := fun _ => exCfg false false

/-- Action 2 is sent to one store; its effect sends 1 to the other one, whose watcher sends 4 back, and 3 to its own
store; meanwhile somebody else sends 1 to the first one. -/
def exActorOps : List (AOp (K := Bool) fun _ => Nat) :=
  [.send none true 2, .here true .begin, .here true (.go 0), .here true (.go 0), .here true .begin, .here true (.go 0),
   .here true (.go 0), .here true (.go 0), .here true (.user (.go 0)), .send (some true) false 1,
   .here false .begin, .send none true 1, .here false (.go 0), .here true (.user (.prim 0 none)), .here false (.go 0),
   .here true (.user (.go 0)), .here false .begin, .here false (.go 0), .here true .begin, .here false (.go 0),
   .send (some false) true 4, .send (some false) false 3, .here true (.go 0), .here false (.go 0), .here true (.go 0),
   .here true .begin, .here true (.go 0), .here true (.go 0), .here true .begin, .here false .begin,
   .here true (.go 0), .here true (.go 0), .here true (.go 0), .here false (.go 0), .here false (.go 0),
   .here true .begin, .here true (.go 0), .here true (.go 0), .here true (.go 0), .here false .begin,
   .here false (.go 0), .here false (.go 0), .here false (.go 0)]

/-- While the first one evaluates the second action, the other one, which is in its reducer, reads it. -/
def exPeekOps : List (AOp (K := Bool) fun _ => Nat) :=
  exActorOps.take 12 ++ [.here true (.user (.prim 0 none)), .here true (.user (.go 0)), .here true .begin,
    .here true (.go 0), .here true .peek]

/-! ### C120 -/

/-- C120: each store is as if it were alone: for it the others are just threads that dispatch, so that all that C94 says
holds for it.  In particular, whenever no task of it is in progress, its state is one that is reached by a store all of
whose tasks are single steps, however many others are in the middle of theirs. -/
theorem C120_alone (hc : ∀ k, (c k).sound) (r : Actors.Reach c s) (k : K) :
    Par.Reach (c k) 1 (s.part k) ∧
    ((s.part k).jobs = [] → ∃ t, Reach (c k) t ∧ Same' t (s.part k).st) :=
  ⟨r.part k, C94_serial (hc k) (r.part k)⟩

/-- C120: the actions that a store has evaluated are the first ones of those that were sent to it by anybody, in the
order in which they were sent: none is lost, duplicated or overtaken by another one.  So what one store sends to another
arrives in order, and what is sent in answer to something is evaluated after all that was sent before that. -/
theorem C120_order (hc : ∀ k, (c k).sound) (r : Actors.Reach c s) (k : K) :
    reductions (s.part k).st.log <+: s.mail k := by
  rw [← r.mail k]
  exact (C94_order (hc k) (r.part k)).1

/-- C120: the same for two messages: when the later one has been evaluated, so has the earlier one, before it. -/
theorem C120_fifo (hc : ∀ k, (c k).sound) (r : Actors.Reach c s) {k : K} {l1 l2 l3 : List (Msg A)} {i j : Option K}
    {a b : A k} (h : s.hist = l1 ++ ⟨i, k, a⟩ :: l2 ++ ⟨j, k, b⟩ :: l3)
    (hb : (l1 ++ l2).countP (·.to = k) + 1 < (reductions (s.part k).st.log).length) :
    (reductions (s.part k).st.log)[l1.countP (·.to = k)]? = some a ∧
    (reductions (s.part k).st.log)[(l1 ++ l2).countP (·.to = k) + 1]? = some b := by
  obtain ⟨t, ht⟩ := C120_order hc r k
  have len : ∀ l : List (Msg A), (l.filterMap (Msg.for k)).length = l.countP (·.to = k) := by
    intro l
    induction l with
    | nil => rfl
    | cons m l ih =>
      by_cases e : m.to = k
      · simp [Msg.for, e, ← ih]
      · simp [Msg.for, e, ← ih]
  have fa : ∀ (i : Option K) (a : A k), Msg.for k ⟨i, k, a⟩ = some a := by intro i a; simp [Msg.for]
  have hm : s.mail k = l1.filterMap (Msg.for k) ++ a :: (l2.filterMap (Msg.for k) ++ b :: l3.filterMap (Msg.for k)) := by
    unfold Actors.mail
    rw [h]
    simp [List.filterMap_append, fa]
  rw [List.countP_append] at hb ⊢
  have e1 := len l1
  have e2 := len l2
  have g : ∀ n, n < (reductions (s.part k).st.log).length →
      (reductions (s.part k).st.log)[n]? = (s.mail k)[n]? := by
    intro n hn
    rw [← ht, List.getElem?_append_left hn]
  refine ⟨?_, ?_⟩
  · rw [g _ (by omega), hm, List.getElem?_append_right (by omega), e1, Nat.sub_self]
    rfl
  · rw [g _ hb, hm, List.getElem?_append_right (by omega), e1,
      show List.countP (fun x => decide (x.to = k)) l1 + List.countP (fun x => decide (x.to = k)) l2 + 1 -
        List.countP (fun x => decide (x.to = k)) l1 = List.countP (fun x => decide (x.to = k)) l2 + 1 by omega,
      List.getElem?_cons_succ, List.getElem?_append_right (by omega), e2, Nat.sub_self]
    rfl

/-- C120: when a store has nothing left to do, it has evaluated everything that was sent to it, once and in order, and
`get()` is the fold over it. -/
theorem C120_fold (hc : ∀ k, (c k).sound) {k : K} (ht : (c k).trans = false) (r : Actors.Reach c s)
    (hj : (s.part k).jobs = []) (hi : (s.part k).st.idle) :
    reductions (s.part k).st.log = s.mail k ∧ (s.part k).st.get = fold (c k) (s.mail k) := by
  refine ⟨?_, ?_⟩
  · obtain ⟨t, hr, h⟩ := C94_serial (hc k) (r.part k) hj
    have h1 := (C48_order (hc k) hr).1
    rw [show t.queue = [] from h.queue.trans hi] at h1
    rw [← r.mail k, ← h.log.reductions, ← h.log.dispatches, h1]
    simp [pend]
  · rw [← r.mail k]
    exact C94_fold (hc k) ht (r.part k) hj hi

/-- C120: dispatching to a store never has to wait: neither for the store, which may be in the middle of a task, nor for
anything else; also not when stores send to each other, or to themselves, in their tasks.  (Nobody has misused a promise.) -/
theorem C120_async (s : Actors A Mo) {i : Option K} (hm : s.may i) {k : K} (hu : (s.part k).st.fu.ub = false) (a : A k) :
    ∃ s', Actors.step c s (.send i k a) = some s' ∧ s'.hist = s.hist ++ [⟨i, k, a⟩] ∧
      (∀ j, (s'.part j).jobs = (s.part j).jobs) ∧ ∀ j, j ≠ k → s'.part j = s.part j := by
  have h1 : ∃ t, (s.part k).st.dispatch (c k) a = some t := by
    cases hf : (c k).hasF <;> simp [St.dispatch, hf, St.fstep, Future.step, hu]
  obtain ⟨t, h1⟩ := h1
  have h2 : Par.step (c k) 1 (s.part k) (.user (.dispatch a)) = some { s.part k with st := t } := by
    simp only [Par.step, SOp.isUser, if_true, Store.step, h1]
    rfl
  refine ⟨{ s.put k { s.part k with st := t } with hist := s.hist ++ [⟨i, k, a⟩] }, ?_, rfl, ?_, ?_⟩
  · simp only [Actors.step, if_pos hm, h2]
    rfl
  · intro j
    show ((s.put k _).part j).jobs = _
    by_cases e : j = k
    · subst e; rw [Actors.put_same]
    · rw [Actors.put_other s _ e]
  · intro j e
    exact Actors.put_other s _ e

/-- C120: there are no data races on any of the stores, when nobody calls `get()` of a store in another thread. -/
theorem C120_no_race (r : Actors.Reach c s) {k : K} (h0 : (s.part k).peeks = 0) : ¬ (s.part k).racy (c k) :=
  C94_no_race (r.part k) h0

/-- C120: what a store sends is caused by what was sent to it: before its reducer, a watcher or an effect of it has
dispatched anything, something was dispatched to it. -/
theorem C120_cause (r : Actors.Reach c s) {l1 l2 : List (Msg A)} {m : Msg A} (h : s.hist = l1 ++ m :: l2) {k : K}
    (hk : m.sender = some k) : ∃ m' ∈ l1, m'.to = k := r.cause h hk

/-- C120: so the first message comes from outside, and without it nothing happens in any store. -/
theorem C120_outside (hc : ∀ k, (c k).sound) (r : Actors.Reach c s) :
    (∀ m l, s.hist = m :: l → m.sender = none) ∧
    (s.hist = [] → ∀ k, ¬ (s.part k).busy ∧ reductions (s.part k).st.log = []) := by
  refine ⟨?_, ?_⟩
  · intro m l h
    cases hk : m.sender with
    | none => rfl
    | some k =>
      obtain ⟨m', h1, _⟩ := r.cause (l1 := []) h hk
      cases h1
  · intro h k
    have hm : dispatches (s.part k).st.log = [] := by rw [r.mail k]; unfold Actors.mail; rw [h]; rfl
    refine ⟨fun hb => (r.part k).busy hb hm, ?_⟩
    have h1 := C120_order hc r k
    rw [← r.mail k, hm] at h1
    exact List.prefix_nil.1 h1

example : Actors.Reach exActs (exActors exActs exActorOps) := exActors_reach (by decide +kernel)

/-- In the end both have nothing left to do. -/
example : (∀ k, ((exActors exActs exActorOps).part k).jobs.isEmpty = true ∧
      ((exActors exActs exActorOps).part k).st.queue.isEmpty = true) ∧
    (exActors exActs exActorOps).mail true = [2, 1, 4] ∧ (exActors exActs exActorOps).mail false = [1, 3] ∧
    ((exActors exActs exActorOps).part true).st.get = 17 ∧ ((exActors exActs exActorOps).part false).st.get = 14 ∧
    (exActors exActs exActorOps).hist.map (fun m => (m.sender, m.to, m.action)) =
      [(none, true, 2), (some true, false, 1), (none, true, 1), (some false, true, 4), (some false, false, 3)] := by
  decide +kernel

/-- In the middle, both are in tasks. -/
example : Actors.Reach exActs (exActors exActs (exActorOps.take 20)) := exActors_reach (by decide +kernel)

example : (∀ k, ((exActors exActs (exActorOps.take 20)).part k).jobs.length = 1) ∧
    (exActors exActs (exActorOps.take 20)).mail true = [2, 1] ∧
    reductions ((exActors exActs (exActorOps.take 20)).part true).st.log = [2] ∧
    ((exActors exActs (exActorOps.take 20)).part false).busy ∧ ((exActors exActs (exActorOps.take 20)).part true).busy ∧
    ¬ ((exActors exActs (exActorOps.take 10)).part false).busy ∧
    (∀ k, ((exActors exActs (exActorOps.take 20)).part k).st.fu.ub = false) := by
  decide +kernel

/-- C120 is FALSE if an actor reads another one with `get()` instead of sending it something: that is a data race. -/
theorem C120_get_false : ∃ (c : Bool → Cfg Nat Nat) (s : Actors (K := Bool) (fun _ => Nat) (fun _ => Nat)),
    (∀ k, (c k).sound) ∧ Actors.Reach c s ∧ (s.part false).busy ∧ (s.part true).peeks = 1 ∧ (s.part true).racy (c true) := by
  refine ⟨exActs, exActors exActs exPeekOps, fun _ => exCfg_sound _ _, exActors_reach (by decide +kernel),
    by decide +kernel, by decide +kernel, .inr ⟨.pushing 13, ?_, rfl, by decide +kernel⟩⟩
  have h : ((exActors exActs exPeekOps).part true).jobs.head? = some (.pushing 13) := rfl
  exact List.mem_of_mem_head? h

end Verif.Store
