import Verif.Store.Props7
import Verif.Store.SafeQ

/-!
Stores as actors, `doc/modularity.rst:413-445`: several stores, each on an event loop of its own, in threads of their
own, that dispatch to each other.
-/

namespace Verif.Store

section One

variable {A Mo : Type}

/-! ### Model -/

/-- Is user code called in the task: the reducer or a watcher? -/
def Job.isUser : Job A Mo → Bool
  | .reducing _ _ _ => true
  | .watching _ called => called
  | _ => false

/-- Is it in user code of an effect? -/
def EF.isUser (f : EF) : Bool :=
  match f.mode with
  | .prim _ => true
  | _ => false

/-- The reducer, a watcher or an effect of the store is in progress. -/
def Par.busy (p : Par A Mo) : Prop := (∃ j ∈ p.jobs, j.isUser = true) ∨ (∃ f ∈ p.st.ev, f.isUser = true)

instance (p : Par A Mo) : Decidable p.busy := by unfold Par.busy; infer_instance

end One

variable {K : Type} [DecidableEq K] {A Mo : K → Type}

/-- A message: `sender` is the store whose reducer, watcher or effect has dispatched; `none` are others (threads that do
not belong to any of the stores, callbacks of futures). -/
structure Msg (A : K → Type) where
  sender : Option K
  to : K
  action : A to

/-- Several stores, each with an event loop that runs one task at a time.  What they share is nothing. -/
structure Actors (A Mo : K → Type) where
  part : (k : K) → Par (A k) (Mo k)
  /-- ghost: all dispatches to any of them, in the order in which they were done -/
  hist : List (Msg A)

/-- What happens. -/
inductive AOp (A : K → Type) where
  /-- `store.hpp:149-158`: a dispatch to store `k` -/
  | send (sender : Option K) (k : K) (a : A k)
  /-- anything else at store `k`: its event loop, effects, futures -/
  | here (k : K) (op : POp (A k))

/-- May it dispatch now? -/
def Actors.may (s : Actors A Mo) : Option K → Prop
  | none => True
  | some j => (s.part j).busy

instance (s : Actors A Mo) (i : Option K) : Decidable (s.may i) := by
  cases i <;> unfold Actors.may <;> infer_instance

/-- Store `k` is then `p`. -/
def Actors.put (s : Actors A Mo) (k : K) (p : Par (A k) (Mo k)) : Actors A Mo :=
  { s with part := fun j => if h : j = k then h ▸ p else s.part j }

/-- The steps.  Simplified: a future that another store has returned is for this one a future of user code, that is
fulfilled at any time. -/
def Actors.step (c : (k : K) → Cfg (A k) (Mo k)) (s : Actors A Mo) : AOp A → Option (Actors A Mo)
  | .send i k a =>
    if s.may i then
      (Par.step (c k) 1 (s.part k) (.user (.dispatch a))).map fun p =>
        { s.put k p with hist := s.hist ++ [⟨i, k, a⟩] }
    else none
  | .here k op =>
    if op.sent.isEmpty then (Par.step (c k) 1 (s.part k) op).map (s.put k) else none

/-- The state at the beginning. -/
def Actors.start (c : (k : K) → Cfg (A k) (Mo k)) : Actors A Mo where
  part := fun k => Par.start (c k)
  hist := []

/-- The states that can be reached. -/
inductive Actors.Reach (c : (k : K) → Cfg (A k) (Mo k)) : Actors A Mo → Prop where
  | start : Reach c (Actors.start c)
  | step {s s'} (op : AOp A) : Reach c s → Actors.step c s op = some s' → Reach c s'

/-! ### Vocabulary -/

/-- The action, if the message is for store `k`. -/
def Msg.for (k : K) (m : Msg A) : Option (A k) := if h : m.to = k then some (h ▸ m.action) else none

/-- What was sent to store `k`. -/
def Actors.mail (s : Actors A Mo) (k : K) : List (A k) := s.hist.filterMap (Msg.for k)

/-! ### Invariants -/

theorem send_step {c : (k : K) → Cfg (A k) (Mo k)} {s s' : Actors A Mo} {i : Option K} {k : K} {a : A k}
    (h : Actors.step c s (.send i k a) = some s') : s.may i ∧
      ∃ p, Par.step (c k) 1 (s.part k) (.user (.dispatch a)) = some p ∧
        s' = { s.put k p with hist := s.hist ++ [⟨i, k, a⟩] } := by
  simp only [Actors.step] at h
  split at h
  · simp only [Option.map_eq_some_iff] at h
    obtain ⟨p, h1, rfl⟩ := h
    exact ⟨by assumption, p, h1, rfl⟩
  · cases h

theorem here_step {c : (k : K) → Cfg (A k) (Mo k)} {s s' : Actors A Mo} {k : K} {op : POp (A k)}
    (h : Actors.step c s (.here k op) = some s') : op.sent = [] ∧
      ∃ p, Par.step (c k) 1 (s.part k) op = some p ∧ s' = s.put k p := by
  simp only [Actors.step] at h
  split at h
  · simp only [Option.map_eq_some_iff] at h
    obtain ⟨p, h1, rfl⟩ := h
    exact ⟨List.isEmpty_iff.1 (by assumption), p, h1, rfl⟩
  · cases h

theorem Actors.put_same (s : Actors A Mo) (k : K) (p : Par (A k) (Mo k)) : (s.put k p).part k = p := by
  simp [Actors.put]

theorem Actors.put_other (s : Actors A Mo) {k j : K} (p : Par (A k) (Mo k)) (h : j ≠ k) :
    (s.put k p).part j = s.part j := by
  simp [Actors.put, h]

theorem Actors.Reach.part {c : (k : K) → Cfg (A k) (Mo k)} {s : Actors A Mo} (r : Actors.Reach c s) (k : K) :
    Par.Reach (c k) 1 (s.part k) := by
  induction r with
  | start => exact .start
  | @step s s' op _ h ih =>
    cases op with
    | send i j a =>
      obtain ⟨_, p, h1, rfl⟩ := send_step h
      show Par.Reach (c k) 1 ((s.put j p).part k)
      by_cases e : k = j
      · subst e; rw [Actors.put_same]; exact ih.step _ h1
      · rw [Actors.put_other s p e]; exact ih
    | here j op =>
      obtain ⟨_, p, h1, rfl⟩ := here_step h
      by_cases e : k = j
      · subst e; rw [Actors.put_same]; exact ih.step _ h1
      · rw [Actors.put_other s p e]; exact ih

theorem Actors.Reach.mail {c : (k : K) → Cfg (A k) (Mo k)} {s : Actors A Mo} (r : Actors.Reach c s) (k : K) :
    dispatches (s.part k).st.log = s.mail k := by
  induction r with
  | start => rfl
  | @step s s' op _ h ih =>
    cases op with
    | send i j a =>
      obtain ⟨_, p, h1, rfl⟩ := send_step h
      show dispatches ((s.put j p).part k).st.log = (s.hist ++ [_]).filterMap _
      rw [List.filterMap_append]
      by_cases e : k = j
      · subst e
        rw [Actors.put_same, par_disp h1, ih]
        simp [POp.sent, Msg.for, Actors.mail]
      · rw [Actors.put_other s p e, ih]
        simp [Msg.for, Actors.mail, Ne.symm e]
    | here j op =>
      obtain ⟨h0, p, h1, rfl⟩ := here_step h
      show dispatches ((s.put j p).part k).st.log = s.mail k
      by_cases e : k = j
      · subst e; rw [Actors.put_same, par_disp h1, ih, h0]; simp
      · rw [Actors.put_other s p e]; exact ih

section One

variable {A Mo : Type}

/-- Nothing has been dispatched: there are only tasks of promises, and `commit` has nothing to do. -/
structure Silent (p : Par A Mo) : Prop where
  queue : ∀ x ∈ p.st.queue, x = .tok
  ev : p.st.ev = []
  tag : ∀ n, p.st.tag n = none
  dirty : p.st.dirty = false
  ntf : p.st.ntf = false
  jobs : ∀ j ∈ p.jobs, j = .sending none ∨ j = .notifying none ∨ j = .watching none false

/-- A step of futures in such a state. -/
structure Mild (s t : St A Mo) : Prop where
  queue : ∀ x ∈ t.queue, x ∈ s.queue ∨ x = .tok
  ev : t.ev = s.ev
  tag : t.tag = s.tag
  dirty : t.dirty = s.dirty
  ntf : t.ntf = s.ntf

theorem fstep_mild {s t : St A Mo} {op : Future.Op} (h : s.fstep op = some t) : Mild s t := by
  simp only [St.fstep, Option.map_eq_some_iff] at h
  obtain ⟨fu, _, rfl⟩ := h
  refine ⟨?_, rfl, rfl, rfl, rfl⟩
  intro x hx
  rcases List.mem_append.1 hx with hx | hx
  · exact .inl hx
  · exact .inr (List.mem_replicate.1 hx).2

theorem runTask_mild {s t : St A Mo} {l : Nat} (ht : ∀ n, s.tag n = none) (h : s.runTask l = some t) : Mild s t := by
  unfold St.runTask at h
  split at h
  · cases h
  · simp only [Option.map_eq_some_iff, ht] at h
    obtain ⟨s2, h2, rfl⟩ := h
    exact fstep_mild h2

theorem Silent.mild {p : Par A Mo} {t : St A Mo} (k : Silent p) (h : Mild p.st t) : Silent { p with st := t } :=
  ⟨fun x hx => (h.queue x hx).elim (k.queue x) id, h.ev.trans k.ev, fun n => by show t.tag n = none; rw [h.tag]; exact k.tag n,
    h.dirty.trans k.dirty, h.ntf.trans k.ntf, k.jobs⟩

theorem user_mild {c : Cfg A Mo} {p : Par A Mo} {t : St A Mo} {op : SOp A} (k : Silent p) (hu : op.isUser = true)
    (h0 : (POp.user op).sent = []) (h : step c p.st op = some t) : Mild p.st t := by
  have ev := k.ev
  cases op with
  | loop => cases hu
  | loopRaise => cases hu
  | commit => cases hu
  | dispatch a => cases h0
  | other l =>
    simp only [step] at h
    split at h
    · cases h
    · exact runTask_mild k.tag h
  | fut op =>
    simp only [step] at h
    split at h
    · exact fstep_mild h
    · cases h
  | go n => simp [step, ev] at h
  | prim n o => simp [step, ev] at h
  | raise n => simp [step, ev] at h

theorem Silent.step {c : Cfg A Mo} {w : Nat} {p p' : Par A Mo} {op : POp A} (k : Silent p) (h0 : op.sent = [])
    (h : Par.step c w p op = some p') : Silent p' := by
  cases op with
  | begin =>
    simp only [Par.step] at h
    split at h
    · cases hq : p.st.queue with
      | nil => simp [Par.begin, hq] at h
      | cons it q =>
        have e : it = .tok := k.queue it (hq ▸ List.mem_cons_self)
        subst e
        simp only [Par.begin, hq, Option.map_eq_some_iff] at h
        obtain ⟨s, h1, rfl⟩ := h
        have h2 := runTask_mild (s := { p.st with queue := q }) k.tag h1
        refine k.mild ⟨fun x hx => ?_, h2.ev, h2.tag, h2.dirty, h2.ntf⟩
        rcases h2.queue x hx with h3 | h3
        · exact .inl (hq ▸ List.mem_cons_of_mem _ h3)
        · exact .inr h3
    · cases h
  | commit =>
    simp only [Par.step] at h
    split at h
    · cases h
      refine ⟨k.queue, k.ev, k.tag, k.dirty, k.ntf, ?_⟩
      intro j hj
      rcases List.mem_append.1 hj with hj | hj
      · exact k.jobs j hj
      · exact .inl (List.mem_singleton.1 hj)
    · cases h
  | go n =>
    simp only [Par.step] at h
    split at h
    · cases h
    · rename_i j hj
      have hm := k.jobs j (List.mem_of_getElem? hj)
      have sub : ∀ j', (j' = .sending none ∨ j' = .notifying none ∨ j' = .watching none false) →
          ∀ x ∈ p.jobs.set n j', x = .sending none ∨ x = .notifying none ∨ x = .watching none false := by
        intro j' h1 x hx
        rcases List.mem_or_eq_of_mem_set hx with h2 | rfl
        · exact k.jobs x h2
        · exact h1
      have hd := k.dirty
      have hn := k.ntf
      rcases hm with rfl | rfl | rfl
      · simp only [Job.go, sends, if_true, St.sendDown, hd, Bool.false_eq_true, if_false, Option.map_some,
          Option.some.injEq] at h
        subst h
        exact ⟨k.queue, k.ev, k.tag, k.dirty, k.ntf, sub _ (.inr (.inl rfl))⟩
      · simp only [Job.go, sends, if_true, St.notify, hn, Bool.false_and, Bool.and_false, Bool.false_eq_true, if_false, Option.map_some,
          Option.some.injEq] at h
        subst h
        exact ⟨k.queue, k.ev, k.tag, k.dirty, k.ntf, sub _ (.inr (.inr rfl))⟩
      · simp only [Job.go, St.after, Option.map_some, Option.some.injEq] at h
        subst h
        exact ⟨k.queue, k.ev, k.tag, k.dirty, k.ntf, fun x hx => k.jobs x (List.mem_of_mem_eraseIdx hx)⟩
  | raise n =>
    simp only [Par.step] at h
    split at h
    · cases h
    · rename_i j hj
      rcases k.jobs j (List.mem_of_getElem? hj) with rfl | rfl | rfl <;> simp [Job.raise] at h
  | user op =>
    simp only [Par.step] at h
    split at h
    · simp only [Option.map_eq_some_iff] at h
      obtain ⟨s, h1, rfl⟩ := h
      rename_i hu
      exact k.mild (user_mild k hu h0 h1)
    · cases h
  | peek =>
    simp only [Par.step] at h
    cases h
    exact ⟨k.queue, k.ev, k.tag, k.dirty, k.ntf, k.jobs⟩
  | peeked =>
    simp only [Par.step] at h
    split at h
    · cases h
    · cases h
      exact ⟨k.queue, k.ev, k.tag, k.dirty, k.ntf, k.jobs⟩

theorem Par.Reach.silent {c : Cfg A Mo} {w : Nat} {p : Par A Mo} (r : Par.Reach c w p)
    (h : dispatches p.st.log = []) : Silent p := by
  induction r with
  | start => exact ⟨(by intro x hx; cases hx), rfl, fun _ => rfl, rfl, rfl, (by intro x hx; cases hx)⟩
  | @step p p' op r h1 ih =>
    rw [par_disp h1, List.append_eq_nil_iff, List.map_eq_nil_iff] at h
    exact (ih h.1).step h.2 h1

/-- No user code of a store is called before something was dispatched to it. -/
theorem Par.Reach.busy {c : Cfg A Mo} {w : Nat} {p : Par A Mo} (r : Par.Reach c w p) (hb : p.busy) :
    dispatches p.st.log ≠ [] := by
  intro h
  have k := r.silent h
  rcases hb with ⟨j, hj, hu⟩ | ⟨f, hf, _⟩
  · rcases k.jobs j hj with rfl | rfl | rfl <;> cases hu
  · rw [k.ev] at hf; cases hf

end One

/-- Every message that was sent by a store comes after one to that store. -/
theorem Actors.Reach.cause {c : (k : K) → Cfg (A k) (Mo k)} {s : Actors A Mo} (r : Actors.Reach c s)
    {l1 l2 : List (Msg A)} {m : Msg A} (h : s.hist = l1 ++ m :: l2) {k : K} (hk : m.sender = some k) :
    ∃ m' ∈ l1, m'.to = k := by
  induction r generalizing l2 with
  | start => simp [Actors.start] at h
  | @step s s' op r h1 ih =>
    cases op with
    | here j op =>
      obtain ⟨_, p, _, rfl⟩ := here_step h1
      exact ih h
    | send i j a =>
      obtain ⟨hm, p, h2, rfl⟩ := send_step h1
      replace h : s.hist ++ [⟨i, j, a⟩] = l1 ++ m :: l2 := h
      rcases List.eq_nil_or_concat l2 with rfl | ⟨l3, x, rfl⟩
      · obtain ⟨e1, e2⟩ := List.append_inj' h rfl
        simp only [List.cons.injEq, and_true] at e2
        subst e2
        dsimp only at hk
        subst hk
        have hb := (r.part k).busy hm
        rw [r.mail k] at hb
        unfold Actors.mail at hb
        rw [e1] at hb
        obtain ⟨x, hx⟩ := List.exists_mem_of_ne_nil _ hb
        obtain ⟨m', h3, h4⟩ := List.mem_filterMap.1 hx
        refine ⟨m', h3, ?_⟩
        unfold Msg.for at h4
        split at h4
        · assumption
        · cases h4
      · rw [List.concat_eq_append, ← List.cons_append, ← List.append_assoc] at h
        exact ih (List.append_inj' h rfl).1

end Verif.Store
