import Verif.Store.Props7

/-!
Stores on the thread-safe queue, `event_loop/safe_queue.hpp`.  It has two queues: the thread of the loop posts to the
local one, all others post to the shared one, which `step()` swaps with the local one when that is empty.
-/

namespace Verif.Store

variable {A Mo : Type}

/-! ### Model -/

/-- Where the thread of the loop is: outside `step()`, in the first or the second `run_local_queue_()`,
`safe_queue.hpp:54-56`. -/
inductive QPhase where
  | out
  | first
  | second
deriving DecidableEq

/-- A store on the thread-safe queue.  The queue of the store in `p` is the local one.  The tasks in the shared one are
those of dispatches by other threads; the thread of the loop is thread 0. -/
structure SafeQ (A Mo : Type) where
  p : Par A Mo
  /-- `shared_queue_`, `safe_queue.hpp:92` -/
  shared : List (Nat × A)
  ph : QPhase
  /-- ghost: all dispatches, in the order in which they were done -/
  posted : List (Nat × A)
  /-- ghost: those before the last call of `step()` -/
  begun : List (Nat × A)

/-- What happens. -/
inductive QOp (A : Type) where
  /-- thread `t`, not that of the loop, dispatches -/
  | away (t : Nat) (a : A)
  /-- the thread of the loop, or user code that it calls, does something -/
  | own (op : POp A)
  /-- `step()` is called -/
  | enter
  /-- `swap_queues_()`, `safe_queue.hpp:67-73` -/
  | swap
  /-- `step()` returns -/
  | leave
  /-- an exception leaves `step()` -/
  | abort

/-- What user code of the thread of the loop dispatches. -/
def POp.sent : POp A → List (Nat × A)
  | .user (.dispatch a) => [(0, a)]
  | _ => []

/-- Does a task begin? -/
def POp.isBegin : POp A → Bool
  | .begin => true
  | _ => false

/-- The steps.  Simplified: no store with futures is dispatched to by other threads, so that a task in the shared
queue is just the action (its number and dummy promise are given when it gets to the local queue); `adopt()` is not
called; tasks do not call `step()`. -/
def SafeQ.step (c : Cfg A Mo) (s : SafeQ A Mo) : QOp A → Option (SafeQ A Mo)
  -- `post`, `safe_queue.hpp:35-38`
  | .away t a =>
    if t ≠ 0 ∧ c.hasF = false then
      some { s with shared := s.shared ++ [(t, a)], posted := s.posted ++ [(t, a)] } else none
  -- tasks run in `step()` only; `post`, `safe_queue.hpp:33-34`
  | .own op =>
    if op.isBegin = true ∧ s.ph = .out then none
    else (Par.step c 1 s.p op).map fun p => { s with p := p, posted := s.posted ++ op.sent }
  | .enter => if s.ph = .out then some { s with ph := .first, begun := s.posted } else none
  | .swap =>
    if s.ph = .first ∧ s.p.jobs.isEmpty = true ∧ s.p.st.queue.isEmpty = true then
      (Par.exec c 1 s.p (s.shared.map fun x => .user (.dispatch x.2))).map fun p =>
        { s with p := p, shared := [], ph := .second }
    else none
  | .leave =>
    if s.ph = .second ∧ s.p.jobs.isEmpty = true ∧ s.p.st.queue.isEmpty = true then some { s with ph := .out }
    else none
  | .abort => if s.ph ≠ .out ∧ s.p.jobs.isEmpty = true then some { s with ph := .out } else none

/-- The state at the beginning. -/
def SafeQ.start (c : Cfg A Mo) : SafeQ A Mo := ⟨Par.start c, [], .out, [], []⟩

/-- The states that can be reached. -/
inductive SafeQ.Reach (c : Cfg A Mo) : SafeQ A Mo → Prop where
  | start : Reach c (SafeQ.start c)
  | step {s s'} (op : QOp A) : Reach c s → SafeQ.step c s op = some s' → Reach c s'

/-- Dispatched by the thread of the loop? -/
def mine (x : Nat × A) : Bool := x.1 == 0

/-- … or by another one? -/
def far (x : Nat × A) : Bool := x.1 != 0

/-! ### What is dispatched -/

theorem dispatches_append (l r : List (SEv A Mo)) : dispatches (l ++ r) = dispatches l ++ dispatches r := by
  simp [dispatches_disp, disp_append]

theorem complete_log {c : Cfg A Mo} {s t : St A Mo} {i : Nat} (h : s.complete c i = some t) : t.log = s.log :=
  (complete_toks h).log

theorem sendDown_log (s : St A Mo) : s.sendDown.log = s.log := by unfold St.sendDown; split <;> rfl

theorem notify_disp (s : St A Mo) : dispatches s.notify.log = dispatches s.log := by
  unfold St.notify
  split
  · show dispatches (s.log ++ [_]) = _
    simp [dispatches_append, dispatches]
  · rfl

theorem go_disp (c : Cfg A Mo) (f : EF) {s t : St A Mo} (h : s.go c f = some t) :
    dispatches t.log = dispatches s.log := by
  have of_eq : t.log = s.log → dispatches t.log = dispatches s.log := fun h => by rw [h]
  have one : ∀ e, dispatches [e] = [] → t.log = s.log ++ [e] → dispatches t.log = dispatches s.log := by
    intro e he h; rw [h, dispatches_append, he, List.append_nil]
  obtain ⟨fx, pos, mode, ks, k⟩ := f
  unfold St.go at h
  cases mode with
  | prim _ => cases h
  | call e =>
    cases e with
    | empty => cases h
    | noop => cases h; rfl
    | prim id => cases h; exact one _ rfl rfl
    | seq a b => cases h; rfl
  | got o =>
    dsimp only at h
    cases ks with
    | cons e ks =>
      dsimp only at h
      split at h
      · simp only [Option.map_eq_some_iff] at h
        obtain ⟨s2, h2, rfl⟩ := h
        have h3 := fstep_log h2
        exact of_eq h3
      · cases h; rfl
    | nil =>
      cases k with
      | store d i =>
        dsimp only at h
        split at h
        · split at h
          · exact one _ rfl (fstep_log h)
          · exact one _ rfl (fstep_log h)
        · cases h; exact one _ rfl rfl
      | clo n =>
        dsimp only at h
        rw [Option.bind_eq_some_iff] at h
        obtain ⟨k, _, h⟩ := h
        split at h
        · exact of_eq (fstep_log h)
        · rw [Option.bind_eq_some_iff] at h
          obtain ⟨s1, h1, h⟩ := h
          exact of_eq ((fstep_log h).trans (fstep_log h1))

theorem user_disp (c : Cfg A Mo) {op : SOp A} (hu : op.isUser = true) {s t : St A Mo}
    (h : step c s op = some t) : dispatches t.log = dispatches s.log ++ (POp.user op).sent.map (·.2) := by
  have one : ∀ e, dispatches [e] = [] → t.log = s.log ++ [e] → dispatches t.log = dispatches s.log ++ [] := by
    intro e he h; rw [h, dispatches_append, he]
  cases op with
  | loop => cases hu
  | loopRaise => cases hu
  | commit => cases hu
  | dispatch a =>
    simp only [step, St.dispatch, Option.map_eq_some_iff] at h
    obtain ⟨s1, h1, rfl⟩ := h
    show dispatches (s1.log ++ [_]) = _
    rw [fstep_log h1, dispatches_append]
    rfl
  | other l =>
    simp only [step] at h
    split at h
    · cases h
    · rw [(runTask_toks h).log]; simp [POp.sent]
  | fut op =>
    simp only [step] at h
    split at h
    · rw [fstep_log h]; simp [POp.sent]
    · cases h
  | go n =>
    simp only [step] at h
    split at h
    · cases h
    · rw [go_disp c _ h]; simp [POp.sent]
  | prim n o =>
    simp only [step] at h
    split at h
    · split at h
      · cases h; exact one _ rfl rfl
      · cases h
    · cases h
  | raise n =>
    simp only [step] at h
    split at h
    · cases h; exact one _ rfl rfl
    · rw [Option.bind_eq_some_iff] at h
      obtain ⟨k, _, h⟩ := h
      exact one _ rfl (fstep_log h)
    · cases h

theorem job_disp (c : Cfg A Mo) {s t : St A Mo} {j : Job A Mo} {o : Option (Job A Mo)}
    (h : j.go c s = some (t, o)) : dispatches t.log = dispatches s.log := by
  have one : ∀ (s : St A Mo) e, dispatches [e] = [] → dispatches (s.log ++ [e]) = dispatches s.log := by
    intro s e he; rw [dispatches_append, he, List.append_nil]
  cases j with
  | reducing d a i =>
    simp only [Job.go] at h
    split at h
    · cases h; exact one _ _ rfl
    · simp only [Option.map_eq_some_iff] at h
      obtain ⟨s1, h1, h2⟩ := h
      cases h2
      unfold St.reduced at h1
      dsimp only at h1
      simp only [Option.map_eq_some_iff] at h1
      obtain ⟨s2, h1, rfl⟩ := h1
      show dispatches (s2.log ++ [_]) = _
      rw [one _ _ rfl]
      split at h1
      · split at h1
        · rw [complete_log h1]
        · cases h1; rfl
      · cases h1; rfl
  | pushing v =>
    simp only [Job.go] at h
    cases h
    unfold St.pushDown
    split <;> rfl
  | sending it =>
    simp only [Job.go] at h
    cases h
    split
    · rw [sendDown_log]
    · rfl
  | notifying it =>
    simp only [Job.go] at h
    cases h
    split
    · rw [notify_disp]
    · rfl
  | watching it b =>
    simp only [Job.go, Option.map_eq_some_iff] at h
    obtain ⟨s1, h1, h2⟩ := h
    cases h2
    unfold St.after at h1
    split at h1
    · cases h1
      rename_i d e i
      show dispatches (s.log ++ [SEv.ready d] ++ [_]) = _
      rw [dispatches_append, one _ _ rfl]; simp [dispatches]
    · rw [complete_log h1]; exact one _ _ rfl
    · cases h1; rfl
    · cases h1

theorem par_disp {c : Cfg A Mo} {w : Nat} {p p' : Par A Mo} {op : POp A} (h : Par.step c w p op = some p') :
    dispatches p'.st.log = dispatches p.st.log ++ op.sent.map (·.2) := by
  cases op with
  | begin =>
    simp only [Par.step] at h
    split at h
    · unfold Par.begin at h
      split at h
      · cases h
      · cases h; simp [POp.sent]
      · simp only [Option.map_eq_some_iff] at h
        obtain ⟨s, h1, rfl⟩ := h
        rw [(runTask_toks h1).log]; simp [POp.sent]
      · cases h; simp [POp.sent]
    · cases h
  | commit =>
    simp only [Par.step] at h
    split at h
    · cases h; simp [POp.sent]
    · cases h
  | go n =>
    simp only [Par.step] at h
    split at h
    · cases h
    · simp only [Option.map_eq_some_iff] at h
      obtain ⟨⟨s, o⟩, h1, rfl⟩ := h
      simp only [POp.sent, List.map_nil, List.append_nil]
      exact job_disp c h1
  | raise n =>
    simp only [Par.step] at h
    split at h
    · cases h
    · simp only [Option.map_eq_some_iff] at h
      obtain ⟨s, h1, rfl⟩ := h
      simp only [POp.sent, List.map_nil, List.append_nil]
      unfold Job.raise at h1
      split at h1
      · cases h1; simp [St.say, dispatches_append, dispatches]
      · cases h1; simp [St.say, dispatches_append, dispatches]
      · cases h1
  | user op =>
    simp only [Par.step] at h
    split at h
    · simp only [Option.map_eq_some_iff] at h
      obtain ⟨s, h1, rfl⟩ := h
      rename_i hu
      exact user_disp c hu h1
    · cases h
  | peek =>
    simp only [Par.step] at h
    cases h; simp [POp.sent]
  | peeked =>
    simp only [Par.step] at h
    split at h
    · cases h
    · cases h; simp [POp.sent]

theorem exec_disp {c : Cfg A Mo} {w : Nat} {as : List A} {p p' : Par A Mo}
    (h : Par.exec c w p (as.map fun a => .user (.dispatch a)) = some p') :
    dispatches p'.st.log = dispatches p.st.log ++ as := by
  induction as generalizing p with
  | nil => cases h; simp
  | cons a as ih =>
    simp only [List.map_cons, Par.exec, Option.bind_eq_some_iff] at h
    obtain ⟨p1, h1, h2⟩ := h
    rw [ih h2, par_disp h1]
    simp [POp.sent]

/-! ### Invariant -/

/-- `ord` has the dispatches that have got to the local queue, in that order. -/
structure SafeQ.Inv (c : Cfg A Mo) (s : SafeQ A Mo) (ord : List (Nat × A)) : Prop where
  par : Par.Reach c 1 s.p
  tags : ord.map (·.2) = dispatches s.p.st.log
  own : ord.filter mine = s.posted.filter mine
  away : ord.filter far ++ s.shared = s.posted.filter far
  isFar : ∀ x ∈ s.shared, far x = true
  perm : (ord ++ s.shared).Perm s.posted
  early : ∀ o1 a o2, ord = o1 ++ (0, a) :: o2 → ∃ p1 p2, s.posted = p1 ++ (0, a) :: p2 ∧
    p1.filter mine = o1.filter mine ∧ o1.filter far <+: p1.filter far
  begun : s.begun <+: s.posted
  taken : s.ph = .second → s.begun.filter far <+: ord.filter far

theorem filter_mine_far {l : List (Nat × A)} (h : ∀ x ∈ l, far x = true) : l.filter mine = [] ∧ l.filter far = l := by
  refine ⟨List.filter_eq_nil_iff.2 fun x hx => ?_, List.filter_eq_self.2 h⟩
  have := h x hx
  simp only [far, mine, bne_iff_ne, ne_eq, beq_iff_eq] at this ⊢
  exact this

theorem filter_prefix {l r : List (Nat × A)} (p : Nat × A → Bool) (h : l <+: r) : l.filter p <+: r.filter p := by
  obtain ⟨t, rfl⟩ := h
  exact ⟨t.filter p, by simp⟩

theorem snoc_split {α : Type} {l o1 o2 : List α} {x y : α} (h : l ++ [x] = o1 ++ y :: o2) :
    (o2 = [] ∧ o1 = l ∧ y = x) ∨ ∃ o3, o2 = o3 ++ [x] ∧ l = o1 ++ y :: o3 := by
  rcases List.eq_nil_or_concat o2 with rfl | ⟨o3, z, rfl⟩
  · left
    have := List.append_inj' h rfl
    refine ⟨rfl, this.1.symm, ?_⟩
    have := this.2
    simp only [List.cons.injEq, and_true] at this
    exact this.symm
  · right
    have h : l ++ [x] = (o1 ++ y :: o3) ++ [z] := by rw [h]; simp
    have := List.append_inj' h rfl
    have h2 := this.2
    simp only [List.cons.injEq, and_true] at h2
    exact ⟨o3, by rw [h2]; simp, this.1⟩

theorem SafeQ.Reach.inv {c : Cfg A Mo} {s : SafeQ A Mo} (r : SafeQ.Reach c s) : ∃ ord, SafeQ.Inv c s ord := by
  induction r with
  | start =>
    exact ⟨[], .start, rfl, rfl, rfl, (by intro x h; cases h), .refl _,
      (by intro o1 a o2 h; cases o1 <;> cases h), List.prefix_refl _, (by intro h; cases h)⟩
  | @step s s' op r h ih =>
    obtain ⟨ord, k⟩ := ih
    cases op with
    | away t a =>
      simp only [SafeQ.step] at h
      split at h
      · rename_i ht
        cases h
        have hf : far (t, a) = true := by simp [far, ht.1]
        have hm : mine (t, a) = false := by simp [mine, ht.1]
        refine ⟨ord, k.par, k.tags, ?_, ?_, ?_, ?_, ?_, k.begun.trans (List.prefix_append _ _), k.taken⟩
        · simp [List.filter_append, hm, k.own]
        · simp [List.filter_append, hf, ← k.away]
        · intro x hx
          rcases List.mem_append.1 hx with hx | hx
          · exact k.isFar x hx
          · rw [List.mem_singleton] at hx; subst hx; exact hf
        · rw [← List.append_assoc]; exact k.perm.append_right _
        · intro o1 b o2 ho
          obtain ⟨p1, p2, h1, h2, h3⟩ := k.early o1 b o2 ho
          exact ⟨p1, p2 ++ [(t, a)], by rw [h1]; simp, h2, h3⟩
      · cases h
    | own op =>
      simp only [SafeQ.step] at h
      split at h
      · cases h
      · simp only [Option.map_eq_some_iff] at h
        obtain ⟨p, h1, rfl⟩ := h
        have hd := par_disp h1
        have hp := k.par.step op h1
        by_cases ho : op.sent = []
        · rw [ho] at hd
          simp only [List.map_nil, List.append_nil] at hd
          refine ⟨ord, hp, by rw [k.tags, hd], ?_, ?_, k.isFar, ?_, ?_, ?_, k.taken⟩
          all_goals simp only [ho, List.append_nil]
          · exact k.own
          · exact k.away
          · exact k.perm
          · exact k.early
          · exact k.begun
        · have : ∃ a, op.sent = [(0, a)] := by
            unfold POp.sent at ho ⊢
            split at ho
            · exact ⟨_, rfl⟩
            · exact absurd rfl ho
          obtain ⟨a, ho⟩ := this
          rw [ho] at hd
          have hf : far (0, a) = false := rfl
          have hm : mine (0, a) = true := rfl
          refine ⟨ord ++ [(0, a)], hp, ?_, ?_, ?_, k.isFar, ?_, ?_, ?_, ?_⟩
          all_goals simp only [ho]
          · rw [List.map_append, k.tags, hd]
          · simp [List.filter_append, hm, k.own]
          · simp [List.filter_append, hf, k.away]
          · refine List.Perm.trans ?_ (k.perm.append_right [(0, a)])
            rw [List.append_assoc, List.append_assoc]
            exact List.Perm.append_left _ List.perm_append_comm
          · intro o1 b o2 h
            rcases snoc_split h with ⟨-, rfl, hx⟩ | ⟨o3, rfl, ho3⟩
            · refine ⟨s.posted, [], by rw [hx], k.own.symm, ⟨s.shared, k.away⟩⟩
            · obtain ⟨p1, p2, h1, h2, h3⟩ := k.early o1 b o3 ho3
              exact ⟨p1, p2 ++ [(0, a)], by rw [h1]; simp, h2, h3⟩
          · exact k.begun.trans (List.prefix_append _ _)
          · intro hph
            refine (k.taken hph).trans ?_
            rw [List.filter_append]
            exact List.prefix_append _ _
    | enter =>
      simp only [SafeQ.step] at h
      split at h
      · cases h
        exact ⟨ord, k.par, k.tags, k.own, k.away, k.isFar, k.perm, k.early, List.prefix_refl _, fun h => by cases h⟩
      · cases h
    | swap =>
      simp only [SafeQ.step] at h
      split at h
      · simp only [Option.map_eq_some_iff] at h
        obtain ⟨p, h1, rfl⟩ := h
        have h1' : Par.exec c 1 s.p ((s.shared.map (·.2)).map fun a => .user (.dispatch a)) = some p := by
          rw [List.map_map]; exact h1
        obtain ⟨g1, g2⟩ := filter_mine_far k.isFar
        refine ⟨ord ++ s.shared, parExec_reach k.par h1, ?_, ?_, ?_, (by intro x hx; cases hx), ?_, ?_, k.begun, ?_⟩
        · rw [List.map_append, k.tags, exec_disp h1']
        · rw [List.filter_append, g1, List.append_nil, k.own]
        · rw [List.filter_append, g2, List.append_nil, k.away]
        · simpa using k.perm
        · intro o1 a o2 ho
          have : ∃ o3, ord = o1 ++ (0, a) :: o3 := by
            rcases List.append_eq_append_iff.1 ho with ⟨l, h1, h2⟩ | ⟨l, h1, h2⟩
            · exfalso
              have := k.isFar (0, a) (by rw [h2]; simp)
              cases this
            · cases l with
              | nil =>
                exfalso
                have := k.isFar (0, a) (by rw [← List.nil_append s.shared, ← h2]; simp)
                cases this
              | cons x l =>
                simp only [List.cons_append, List.cons.injEq] at h2
                exact ⟨l, by rw [h1, h2.1]⟩
          obtain ⟨o3, h3⟩ := this
          exact k.early o1 a o3 h3
        · intro _
          rw [List.filter_append, g2, k.away]
          exact filter_prefix _ k.begun
      · cases h
    | leave =>
      simp only [SafeQ.step] at h
      split at h
      · cases h
        exact ⟨ord, k.par, k.tags, k.own, k.away, k.isFar, k.perm, k.early, k.begun, fun h => by cases h⟩
      · cases h
    | abort =>
      simp only [SafeQ.step] at h
      split at h
      · cases h
        exact ⟨ord, k.par, k.tags, k.own, k.away, k.isFar, k.perm, k.early, k.begun, fun h => by cases h⟩
      · cases h

end Verif.Store
