import Verif.Store.SafeQ
import Verif.Store.Props11

/-!
C112: stores on the thread-safe queue.
-/

namespace Verif.Store

variable {A Mo : Type}

def SafeQ.exec (c : Cfg A Mo) (s : SafeQ A Mo) : List (QOp A) → Option (SafeQ A Mo)
  | [] => some s
  | op :: ops => (SafeQ.step c s op).bind fun s' => SafeQ.exec c s' ops

def exQ (c : Cfg A Mo) (ops : List (QOp A)) : SafeQ A Mo := (SafeQ.exec c (.start c) ops).getD (.start c)

theorem qExec_reach {c : Cfg A Mo} {s s' : SafeQ A Mo} {ops : List (QOp A)} (r : SafeQ.Reach c s)
    (h : SafeQ.exec c s ops = some s') : SafeQ.Reach c s' := by
  induction ops generalizing s with
  | nil => cases h; exact r
  | cons op ops ih =>
    simp only [SafeQ.exec, Option.bind_eq_some_iff] at h
    obtain ⟨s1, h1, h2⟩ := h
    exact ih (r.step op h1) h2

theorem exQ_reach {c : Cfg A Mo} {ops : List (QOp A)} (h : (SafeQ.exec c (.start c) ops).isSome = true) :
    SafeQ.Reach c (exQ c ops) := by
  refine qExec_reach (ops := ops) .start ?_
  unfold exQ
  cases h' : SafeQ.exec c (.start c) ops with
  | none => rw [h'] at h; cases h
  | some s => rfl

/-- `ord` is an order of the dispatches `l` in which those of the thread of the loop, and those of all other threads
together, are in the order of `l`. -/
structure Keeping (ord l : List (Nat × A)) : Prop where
  perm : ord.Perm l
  own : ord.filter mine = l.filter mine
  away : ord.filter far = l.filter far

/-- Then those of each thread are. -/
theorem Keeping.thread {ord l : List (Nat × A)} (k : Keeping ord l) (t : Nat) :
    ord.filter (fun x => x.1 == t) = l.filter (fun x => x.1 == t) := by
  have key : ∀ (m : List (Nat × A)) (p : Nat × A → Bool), (∀ x : Nat × A, x.1 = t → p x = true) →
      m.filter (fun x => x.1 == t) = (m.filter p).filter (fun x => x.1 == t) := by
    intro m p hp
    rw [List.filter_filter]
    congr 1
    funext x
    by_cases hx : x.1 = t
    · simp [hx, hp x hx]
    · simp [hx]
  by_cases ht : t = 0
  · have hp : ∀ x : Nat × A, x.1 = t → mine x = true := fun x hx => by simp [mine, hx, ht]
    rw [key ord mine hp, key l mine hp, k.own]
  · have hp : ∀ x : Nat × A, x.1 = t → far x = true := fun x hx => by simp [far, hx, ht]
    rw [key ord far hp, key l far hp, k.away]

/-- C112: when no tasks are left in either queue, `get()` is the fold of the reducer over all actions that were
dispatched, in an order in which those of the thread of the loop and those of all other threads are in the order in
which they were dispatched. -/
theorem C112_fold {c : Cfg A Mo} (hc : c.sound) (ht : c.trans = false) {s : SafeQ A Mo} (r : SafeQ.Reach c s)
    (hj : s.p.jobs = []) (hi : s.p.st.idle) (hs : s.shared = []) :
    ∃ ord, Keeping ord s.posted ∧ s.p.st.get = fold c (ord.map (·.2)) := by
  obtain ⟨ord, k⟩ := r.inv
  refine ⟨ord, ⟨?_, k.own, ?_⟩, ?_⟩
  · have := k.perm; rwa [hs, List.append_nil] at this
  · have := k.away; rwa [hs, List.append_nil] at this
  · rw [C94_fold hc ht k.par hj hi, k.tags]

/-- C112: so if the thread of the loop dispatches nothing, the order is that of the dispatches. -/
theorem C112_others {c : Cfg A Mo} (hc : c.sound) (ht : c.trans = false) {s : SafeQ A Mo} (r : SafeQ.Reach c s)
    (hj : s.p.jobs = []) (hi : s.p.st.idle) (hs : s.shared = []) (ho : ∀ x ∈ s.posted, x.1 ≠ 0) :
    s.p.st.get = fold c (s.posted.map (·.2)) := by
  obtain ⟨ord, k, h⟩ := C112_fold hc ht r hj hi hs
  have hf : ∀ x ∈ s.posted, far x = true := fun x hx => by simp [far, ho x hx]
  have h1 := (filter_mine_far hf).2
  have h2 := (filter_mine_far (l := ord) fun x hx => hf x (k.perm.mem_iff.1 hx)).2
  rw [h, ← h2, k.away, h1]

/-- C112: and if only it dispatches. -/
theorem C112_alone {c : Cfg A Mo} (hc : c.sound) (ht : c.trans = false) {s : SafeQ A Mo} (r : SafeQ.Reach c s)
    (hj : s.p.jobs = []) (hi : s.p.st.idle) (hs : s.shared = []) (ho : ∀ x ∈ s.posted, x.1 = 0) :
    s.p.st.get = fold c (s.posted.map (·.2)) := by
  obtain ⟨ord, k, h⟩ := C112_fold hc ht r hj hi hs
  have hf : ∀ x ∈ s.posted, mine x = true := fun x hx => by simp [mine, ho x hx]
  have h1 := List.filter_eq_self.2 hf
  have h2 : ord.filter mine = ord := List.filter_eq_self.2 fun x hx => hf x (k.perm.mem_iff.1 hx)
  rw [h, ← h2, k.own, h1]

/-- C112: at any moment the actions that the reducer has been called with are the first ones in such an order of all
dispatches so far, and watchers are only called with folds over the first ones of these.  In it, an action of the
thread of the loop only comes after such actions of other threads that were dispatched before it: waiting in the shared
queue makes actions later, never earlier. -/
theorem C112_order {c : Cfg A Mo} (hc : c.sound) {s : SafeQ A Mo} (r : SafeQ.Reach c s) :
    ∃ ord, Keeping ord s.posted ∧ reductions s.p.st.log <+: ord.map (·.2) ∧
      (∀ l1 v l2, s.p.st.log = l1 ++ .shown v :: l2 →
        v = fold c (reductions l1) ∧ reductions l1 <+: ord.map (·.2)) ∧
      ∀ o1 a o2, ord = o1 ++ (0, a) :: o2 → ∃ p1 p2, s.posted = p1 ++ (0, a) :: p2 ∧
        p1.filter mine = o1.filter mine ∧ o1.filter far <+: p1.filter far := by
  obtain ⟨ord, k⟩ := r.inv
  obtain ⟨g1, g2⟩ := filter_mine_far k.isFar
  refine ⟨ord ++ s.shared, ⟨k.perm, ?_, ?_⟩, ?_, ?_, ?_⟩
  · rw [List.filter_append, g1, List.append_nil, k.own]
  · rw [List.filter_append, g2, k.away]
  · rw [List.map_append, k.tags]
    exact (C94_order hc k.par).1.trans (List.prefix_append _ _)
  · intro l1 v l2 h
    obtain ⟨h1, h2⟩ := C94_shown hc k.par h
    refine ⟨h1, ?_⟩
    rw [List.map_append, k.tags]
    exact h2.trans (List.prefix_append _ _)
  · intro o1 a o2 ho
    have : ∃ o3, ord = o1 ++ (0, a) :: o3 := by
      rcases List.append_eq_append_iff.1 ho with ⟨l, h1, h2⟩ | ⟨l, h1, h2⟩
      · exfalso
        have := k.isFar (0, a) (by rw [h2]; simp)
        cases this
      · cases l with
        | nil =>
          exfalso
          have := k.isFar (0, a) (by rw [← List.nil_append s.shared, ← h2]; simp)
          cases this
        | cons x l =>
          simp only [List.cons_append, List.cons.injEq] at h2
          exact ⟨l, by rw [h1, h2.1]⟩
    obtain ⟨o3, h3⟩ := this
    exact k.early o1 a o3 h3

theorem begun_step {c : Cfg A Mo} {s s' : SafeQ A Mo} {op : QOp A} (h : SafeQ.step c s op = some s')
    (ho : op ≠ .enter) : s'.begun = s.begun := by
  cases op <;> simp only [SafeQ.step] at h
  case away => split at h <;> cases h; rfl
  case own =>
    split at h
    · cases h
    · simp only [Option.map_eq_some_iff] at h
      obtain ⟨p, -, rfl⟩ := h; rfl
  case enter => exact absurd rfl ho
  case swap =>
    split at h
    · simp only [Option.map_eq_some_iff] at h
      obtain ⟨p, -, rfl⟩ := h; rfl
    · cases h
  case leave => split at h <;> cases h; rfl
  case abort => split at h <;> cases h; rfl

/-- C112: when `step()` returns, the reducer has been called with every action that was dispatched, by any thread,
before `step()` was called. -/
theorem C112_step {c : Cfg A Mo} (hc : c.sound) {s0 s1 s2 s3 : SafeQ A Mo} (r : SafeQ.Reach c s0)
    (h1 : SafeQ.step c s0 .enter = some s1) {ops : List (QOp A)} (ho : QOp.enter ∉ ops)
    (h2 : SafeQ.exec c s1 ops = some s2) (h3 : SafeQ.step c s2 .leave = some s3) :
    ∃ ord : List (Nat × A), ord.map (·.2) = reductions s3.p.st.log ∧ Keeping (ord ++ s3.shared) s3.posted ∧
      s0.posted.filter mine <+: ord.filter mine ∧ s0.posted.filter far <+: ord.filter far := by
  have hb1 : s1.begun = s0.posted := by
    simp only [SafeQ.step] at h1
    split at h1
    · cases h1; rfl
    · cases h1
  have hb2 : s2.begun = s1.begun := by
    clear h1 hb1 h3
    induction ops generalizing s1 with
    | nil => cases h2; rfl
    | cons op ops ih =>
      simp only [SafeQ.exec, Option.bind_eq_some_iff] at h2
      obtain ⟨s, e1, e2⟩ := h2
      rw [ih (fun h => ho (List.mem_cons_of_mem _ h)) e2, begun_step e1 fun h => ho (h ▸ List.mem_cons_self)]
  have r2 := qExec_reach (r.step _ h1) h2
  obtain ⟨ord, k⟩ := r2.inv
  simp only [SafeQ.step] at h3
  split at h3
  · rename_i hp
    cases h3
    obtain ⟨st, q1, q2⟩ := C94_serial hc k.par (List.isEmpty_iff.1 hp.2.1)
    have hq : st.queue = [] := q2.queue.trans (List.isEmpty_iff.1 hp.2.2)
    have e := (C48_order hc q1).1
    rw [hq] at e
    simp only [pend, List.map_nil, List.append_nil] at e
    obtain ⟨g1, g2⟩ := filter_mine_far k.isFar
    refine ⟨ord, ?_, ⟨k.perm, ?_, ?_⟩, ?_, ?_⟩
    · show _ = reductions s2.p.st.log
      rw [k.tags, ← q2.log.dispatches, ← q2.log.reductions, e]
    · rw [List.filter_append, g1, List.append_nil, k.own]
    · rw [List.filter_append, g2, k.away]
    · rw [k.own, ← hb1, ← hb2]; exact filter_prefix _ k.begun
    · rw [← hb1, ← hb2]; exact k.taken hp.1
  · cases h3

/-! ### Examples, and what is false -/

/-- Actions do not commute. -/
def exMul : Cfg Nat Nat where
  reducer m a := (10 * m + a, .empty)
  changed v w := v != w
  trans := false
  hasF := false
  init := 0

theorem exMul_sound : exMul.sound := fun v w h => by simpa [exMul] using h

/-- Thread 1 dispatches 1, then the thread of the loop 2, then thread 2 dispatches 3; then `step()`. -/
def exQOps : List (QOp Nat) :=
  [.away 1 1, .own (.user (.dispatch 2)), .away 2 3, .enter,
   .own .begin, .own (.go 0), .own (.go 0), .own .begin, .own (.go 0), .own (.go 0), .own (.go 0), .swap,
   .own .begin, .own (.go 0), .own (.go 0), .own .begin, .own (.go 0), .own (.go 0),
   .own .begin, .own (.go 0), .own (.go 0), .own (.go 0), .own .begin, .own (.go 0), .own (.go 0), .own (.go 0),
   .leave]

example : (SafeQ.exec exMul (.start exMul) exQOps).isSome = true ∧
    (exQ exMul exQOps).posted = [(1, 1), (0, 2), (2, 3)] ∧ (exQ exMul exQOps).p.st.get = 213 ∧
    (exQ exMul exQOps).p.st.queue.isEmpty = true ∧ (exQ exMul exQOps).p.jobs.isEmpty = true ∧
    shows (exQ exMul exQOps).p.st.log = [2, 213] := by decide +kernel

/-- C112 is FALSE for the order in which actions are dispatched: an action of the thread of the loop overtakes one that
another thread has dispatched before. -/
theorem C112_order_false : ∃ (c : Cfg Nat Nat) (s : SafeQ Nat Nat), c.sound ∧ c.trans = false ∧ SafeQ.Reach c s ∧
    s.p.jobs = [] ∧ s.p.st.idle ∧ s.shared = [] ∧ s.posted = [(1, 1), (0, 2), (2, 3)] ∧
    s.p.st.get ≠ fold c (s.posted.map (·.2)) :=
  ⟨exMul, exQ exMul exQOps, exMul_sound, rfl, exQ_reach (by decide +kernel),
    List.isEmpty_iff.1 (by decide +kernel), List.isEmpty_iff.1 (by decide +kernel), by decide +kernel,
    by decide +kernel, by decide +kernel⟩

/-- While an action of another thread waits, everything that the thread of the loop can do alone can happen in one
call of `step()`. -/
theorem waits {c : Cfg A Mo} (hf : c.hasF = false) {p : Par A Mo} (r : Par.Reach c 1 p) (a : A) :
    ∃ l, SafeQ.Reach c ⟨p, [(1, a)], .first, (1, a) :: l, [(1, a)]⟩ := by
  induction r with
  | start =>
    have h1 : SafeQ.step c (.start c) (.away 1 a) = some ⟨Par.start c, [(1, a)], .out, [(1, a)], []⟩ := by
      simp only [SafeQ.step, hf]
      rfl
    exact ⟨[], .step .enter (.step (.away 1 a) .start h1) rfl⟩
  | @step p p' op _ h ih =>
    obtain ⟨l, k⟩ := ih
    refine ⟨l ++ op.sent, k.step (.own op) ?_⟩
    simp only [SafeQ.step, h, Option.map_some]
    rw [if_neg (fun h => by cases h.2)]
    rfl

/-- C112 is FALSE for fairness: if effects on the thread of the loop dispatch again and again, an action that another
thread has dispatched first is never evaluated, and `step()` does not return. -/
theorem C112_starved_false : ∃ c : Cfg Unit Nat, c.sound ∧ ∀ n, ∃ s, SafeQ.Reach c s ∧
    s.posted.head? = some (1, ()) ∧ s.shared = [(1, ())] ∧ s.ph = .first ∧ s.begun = [(1, ())] ∧
    (reductions s.p.st.log).length = n := by
  have hs : (endless (.prim 0)).sound := fun v w h => by simpa [endless] using h
  refine ⟨endless (.prim 0), hs, fun n => ?_⟩
  obtain ⟨st, g⟩ := again_effect n
  obtain ⟨l, k⟩ := waits (c := endless (.prim 0)) rfl (C94_covers hs g.reach) ()
  exact ⟨_, k, rfl, rfl, rfl, rfl, g.calls⟩

end Verif.Store
