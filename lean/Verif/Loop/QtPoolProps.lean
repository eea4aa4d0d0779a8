import Verif.Loop.QtPool

/-!
C118: asynchronous functions on the Qt loop, and what destroying it waits for.
-/

namespace Verif.QtPool

/-! ## The invariant -/

structure Inv (m : Nat) (st : St) : Prop where
  max : st.max = m
  tasks : posted st.log = began st.log ++ st.queue
  fns : asyncs st.log = started st.log ++ st.ready
  perm : (started st.log).Perm (finished st.log ++ st.active.map (·.1))
  incP : (posted st.log).Pairwise (· < ·) ∧ ∀ k ∈ posted st.log, k < st.next
  incA : (asyncs st.log).Pairwise (· < ·) ∧ ∀ t ∈ asyncs st.log, t < st.next
  pool : st.active.length ≤ m

theorem posted_snoc (l : List Ev) (e : Ev) :
    posted (l ++ [e]) = posted l ++ (match e with | .posted k => [k] | _ => []) := by
  cases e <;> simp [posted, List.filterMap_append]
theorem began_snoc (l : List Ev) (e : Ev) :
    began (l ++ [e]) = began l ++ (match e with | .began k => [k] | _ => []) := by
  cases e <;> simp [began, List.filterMap_append]
theorem asyncs_snoc (l : List Ev) (e : Ev) :
    asyncs (l ++ [e]) = asyncs l ++ (match e with | .async k => [k] | _ => []) := by
  cases e <;> simp [asyncs, List.filterMap_append]
theorem started_snoc (l : List Ev) (e : Ev) :
    started (l ++ [e]) = started l ++ (match e with | .started k => [k] | _ => []) := by
  cases e <;> simp [started, List.filterMap_append]
theorem finished_snoc (l : List Ev) (e : Ev) :
    finished (l ++ [e]) = finished l ++ (match e with | .finished k => [k] | _ => []) := by
  cases e <;> simp [finished, List.filterMap_append]

theorem inv_start (m : Nat) : Inv m (start m) := by
  constructor <;> simp [start, posted, began, asyncs, started, finished]

theorem inc_snoc {l : List Nat} {n : Nat} (h : l.Pairwise (· < ·) ∧ ∀ k ∈ l, k < n) :
    (l ++ [n]).Pairwise (· < ·) ∧ ∀ k ∈ l ++ [n], k < n + 1 := by
  refine ⟨List.pairwise_append.2 ⟨h.1, List.pairwise_singleton _ _, fun a ha b hb => ?_⟩, fun k hk => ?_⟩
  · simp only [List.mem_singleton] at hb; subst hb; exact h.2 a ha
  · simp only [List.mem_append, List.mem_singleton] at hk
    rcases hk with hk | hk
    · have := h.2 k hk; omega
    · omega

theorem inc_le {l : List Nat} {n : Nat} (h : l.Pairwise (· < ·) ∧ ∀ k ∈ l, k < n) :
    l.Pairwise (· < ·) ∧ ∀ k ∈ l, k < n + 1 :=
  ⟨h.1, fun k hk => Nat.lt_succ_of_lt (h.2 k hk)⟩

/-- Moving a function to the end of the list of those that run. -/
theorem perm_move {l : List (Nat × Option Nat)} {t : Nat} {x y : Option Nat} (h : (t, x) ∈ l) :
    (l.map (·.1)).Perm ((l.erase (t, x) ++ [(t, y)]).map (·.1)) := by
  have h1 := (List.perm_cons_erase h).map (·.1)
  refine h1.trans ?_
  rw [List.map_append]
  simpa using (List.perm_append_singleton t ((l.erase (t, x)).map (·.1))).symm

theorem inv_step {m : Nat} {st st' : St} {op : Op} (h : Inv m st) (hs : step st op = some st') : Inv m st' := by
  obtain ⟨h0, h1, h2, h3, h4, h5, h6⟩ := h
  cases op with
  | post w =>
    simp only [step] at hs
    split at hs
    · cases hs
      refine ⟨h0, ?_, ?_, ?_, ?_, ?_, h6⟩ <;>
        simp only [St.say, posted_snoc, began_snoc, asyncs_snoc, started_snoc, finished_snoc, List.append_nil]
      · rw [h1, List.append_assoc]
      · exact h2
      · exact h3
      · exact inc_snoc h4
      · exact inc_le h5
    · cases hs
  | async w =>
    simp only [step] at hs
    split at hs
    · cases hs
      refine ⟨h0, ?_, ?_, ?_, ?_, ?_, h6⟩ <;>
        simp only [St.say, posted_snoc, began_snoc, asyncs_snoc, started_snoc, finished_snoc, List.append_nil]
      · exact h1
      · rw [h2, List.append_assoc]
      · exact h3
      · exact inc_le h4
      · exact inc_snoc h5
    · cases hs
  | take =>
    simp only [step] at hs
    split at hs
    · split at hs
      · cases hs
      · rename_i k q hq
        cases hs
        refine ⟨h0, ?_, ?_, ?_, ?_, ?_, h6⟩ <;>
          simp only [St.say, posted_snoc, began_snoc, asyncs_snoc, started_snoc, finished_snoc, List.append_nil]
        · rw [h1, hq, List.append_assoc]; rfl
        · exact h2
        · exact h3
        · exact h4
        · exact h5
    · cases hs
  | ret =>
    simp only [step] at hs
    split at hs
    · split at hs
      · cases hs
        refine ⟨h0, ?_, ?_, ?_, ?_, ?_, h6⟩ <;>
          simp only [St.say, posted_snoc, began_snoc, asyncs_snoc, started_snoc, finished_snoc, List.append_nil] <;>
          assumption
      · cases hs
    · cases hs
  | destroy =>
    simp only [step] at hs
    split at hs
    · cases hs
      refine ⟨h0, ?_, ?_, ?_, ?_, ?_, h6⟩ <;>
        simp only [St.say, posted_snoc, began_snoc, asyncs_snoc, started_snoc, finished_snoc, List.append_nil] <;>
        assumption
    · cases hs
  | destroyed =>
    simp only [step] at hs
    split at hs
    · cases hs
      refine ⟨h0, ?_, ?_, ?_, ?_, ?_, h6⟩ <;>
        simp only [St.say, posted_snoc, began_snoc, asyncs_snoc, started_snoc, finished_snoc, List.append_nil] <;>
        assumption
    · cases hs
  | begin =>
    simp only [step] at hs
    split at hs
    · rename_i hlt
      split at hs
      · cases hs
      · rename_i t q hq
        cases hs
        refine ⟨h0, ?_, ?_, ?_, ?_, ?_, ?_⟩ <;>
          simp only [St.say, posted_snoc, began_snoc, asyncs_snoc, started_snoc, finished_snoc, List.append_nil]
        · exact h1
        · rw [h2, hq, List.append_assoc]; rfl
        · rw [List.map_append, ← List.append_assoc]
          exact h3.append_right _
        · exact h4
        · exact h5
        · simp only [List.length_append, List.length_singleton]; omega
    · cases hs
  | block t k =>
    simp only [step] at hs
    split at hs
    · rename_i hm
      cases hs
      refine ⟨h0, h1, h2, ?_, h4, h5, ?_⟩
      · exact h3.trans ((perm_move hm).append_left _)
      · have := List.length_erase_of_mem hm
        have := List.length_pos_of_mem hm
        simp only [List.length_append, List.length_singleton]; omega
    · cases hs
  | wake t k =>
    simp only [step] at hs
    split at hs
    · rename_i hm
      cases hs
      refine ⟨h0, h1, h2, ?_, h4, h5, ?_⟩
      · exact h3.trans ((perm_move hm.1).append_left _)
      · have := List.length_erase_of_mem hm.1
        have := List.length_pos_of_mem hm.1
        simp only [List.length_append, List.length_singleton]; omega
    · cases hs
  | over t =>
    simp only [step] at hs
    split at hs
    · rename_i hm
      cases hs
      refine ⟨h0, ?_, ?_, ?_, ?_, ?_, ?_⟩ <;>
        simp only [St.say, posted_snoc, began_snoc, asyncs_snoc, started_snoc, finished_snoc, List.append_nil]
      · exact h1
      · exact h2
      · refine h3.trans ?_
        rw [List.append_assoc]
        exact ((List.perm_cons_erase hm).map (·.1)).append_left _
      · exact h4
      · exact h5
      · have := List.length_erase_of_mem hm
        omega
    · cases hs

theorem Reach.inv {m : Nat} {st : St} (h : Reach m st) : Inv m st := by
  induction h with
  | start => exact inv_start m
  | step op _ hs ih => exact inv_step ih hs

/-! ## The log -/

/-- What a step says, and when. -/
theorem step_log {st st' : St} {op : Op} (hs : step st op = some st') :
    (st'.log = st.log ∧ st'.waiting = st.waiting) ∨
    ∃ e, st'.log = st.log ++ [e] ∧
      (e = .waits → st'.waiting = true) ∧
      (e = .destroyed → st.ready = [] ∧ st.active = []) ∧
      (e ≠ .destroyed → st.waiting = true → st'.waiting = true) ∧
      ((∃ k, e = .began k ∨ e = .ended k) → st.waiting = false) := by
  cases op <;> simp only [step] at hs <;> (repeat' split at hs) <;> first
    | (cases hs; done)
    | (cases hs; exact .inl ⟨rfl, rfl⟩)
    | (cases hs; refine .inr ⟨_, rfl, ?_, ?_, ?_, ?_⟩ <;> simp_all [St.say])

theorem ev_snoc {l A B : List Ev} {x f : Ev} (h : l ++ [x] = A ++ f :: B) :
    (B = [] ∧ f = x ∧ A = l) ∨ ∃ B', B = B' ++ [x] ∧ l = A ++ f :: B' := by
  rcases List.eq_nil_or_concat B with hB | ⟨B', y, hB⟩
  · subst hB
    have := List.append_inj' h rfl
    exact .inl ⟨rfl, by simpa using this.2.symm, this.1.symm⟩
  · subst hB
    rw [List.concat_eq_append] at h ⊢
    rw [← List.cons_append, ← List.append_assoc] at h
    have := List.append_inj' h rfl
    have hx : x = y := by simpa using this.2
    subst hx
    exact .inr ⟨B', rfl, this.1⟩

/-- While the destructor has not returned, the main thread waits. -/
theorem Reach.waits {m : Nat} {st : St} (h : Reach m st) : ∀ A B, st.log = A ++ .waits :: B → .destroyed ∉ B →
    st.waiting = true := by
  induction h with
  | start => intro A B h; cases A <;> cases h
  | step op _ hs ih =>
    intro A B hl hB
    rcases step_log hs with ⟨h1, h2⟩ | ⟨e, h1, h2, h3, h4, h5⟩
    · rw [h2]; exact ih A B (h1 ▸ hl) hB
    · rw [h1] at hl
      rcases ev_snoc hl with ⟨_, hf, _⟩ | ⟨B', hB', hl'⟩
      · exact h2 hf.symm
      · subst hB'
        exact h4 (fun he => hB (by simp [he])) (ih A B' hl' (fun hm => hB (by simp [hm])))

/-! ## The theorems -/

/-- C118: when the destructor returns, all functions that had been given to `async` have returned. -/
theorem C118_destroyed {m : Nat} {st : St} (h : Reach m st) (A B : List Ev) (hl : st.log = A ++ .destroyed :: B) :
    ∀ t ∈ asyncs A, t ∈ finished A := by
  induction h generalizing B with
  | start => cases A <;> cases hl
  | @step s s' op hr hs ih =>
    rcases step_log hs with ⟨h1, _⟩ | ⟨e, h1, _, h3, _, _⟩
    · exact ih B (h1 ▸ hl)
    · rw [h1] at hl
      rcases ev_snoc hl with ⟨_, hf, hA⟩ | ⟨B', _, hl'⟩
      · subst hA
        have hi := hr.inv
        obtain ⟨hr1, hr2⟩ := h3 hf.symm
        intro t ht
        rw [hi.fns, hr1, List.append_nil] at ht
        have := hi.perm.mem_iff.1 ht
        rw [hr2] at this
        simpa using this
      · exact ih B' hl'

/-- C118: while the destructor waits, no task begins and none ends: the main thread does nothing else. -/
theorem C118_blocks {m : Nat} {st : St} (h : Reach m st) (A B C : List Ev) (e : Ev)
    (hl : st.log = A ++ .waits :: B ++ e :: C) (hB : .destroyed ∉ B) (k : Nat) : e ≠ .began k ∧ e ≠ .ended k := by
  induction h generalizing C with
  | start => cases A <;> cases hl
  | @step s s' op hr hs ih =>
    rcases step_log hs with ⟨h1, _⟩ | ⟨x, h1, _, _, _, h5⟩
    · exact ih C (h1 ▸ hl)
    · rw [h1] at hl
      rcases ev_snoc hl with ⟨_, hf, hA⟩ | ⟨C', _, hl'⟩
      · have hw := hr.waits A B hA.symm hB
        constructor <;> intro he <;> subst he
        · have := h5 ⟨k, .inl hf.symm⟩; rw [hw] at this; cases this
        · have := h5 ⟨k, .inr hf.symm⟩; rw [hw] at this; cases this
      · exact ih C' hl'

/-- C118: and it calls nothing of the loop. -/
theorem C118_main {m : Nat} {st : St} (h : Reach m st) (A B : List Ev) (hl : st.log = A ++ .waits :: B)
    (hB : .destroyed ∉ B) :
    step st (.post .main) = none ∧ step st (.async .main) = none ∧ step st .take = none ∧ step st .ret = none ∧
    step st .destroy = none := by
  have hw := h.waits A B hl hB
  simp [step, St.acts, hw]

/-- C118: tasks begin in the order in which they were posted, each at most once. -/
theorem C118_tasks {m : Nat} {st : St} (h : Reach m st) : began st.log <+: posted st.log ∧ (posted st.log).Nodup := by
  refine ⟨⟨st.queue, h.inv.tasks.symm⟩, h.inv.incP.1.imp (fun h => Nat.ne_of_lt h)⟩

/-- C118: asynchronous functions begin in the order in which they were given to `async`, each at most once, and
no more of them than the pool has threads are running. -/
theorem C118_pool {m : Nat} {st : St} (h : Reach m st) :
    started st.log <+: asyncs st.log ∧ (asyncs st.log).Nodup ∧ (finished st.log).Nodup ∧
    (∀ t ∈ finished st.log, t ∈ started st.log) ∧ (started st.log).length ≤ (finished st.log).length + m := by
  have hi := h.inv
  have hn : (asyncs st.log).Nodup := hi.incA.1.imp (fun h => Nat.ne_of_lt h)
  have hs : (started st.log).Nodup := by
    have := hn; rw [hi.fns] at this; exact (List.nodup_append.1 this).1
  have hp := (hi.perm.nodup_iff).1 hs
  refine ⟨⟨st.ready, hi.fns.symm⟩, hn, (List.nodup_append.1 hp).1, fun t ht => hi.perm.mem_iff.2 (by simp [ht]), ?_⟩
  have := hi.perm.length_eq
  have h2 := hi.pool
  simp only [List.length_append, List.length_map] at this
  omega

/-! ## It returns -/

/-- What is left to do for the pool and the destructor. -/
def St.left (st : St) : Nat := 2 * st.ready.length + st.active.length + st.waiting.toNat

/-- What the pool and the destructor do. -/
def Op.pool : Op → Bool
  | .begin | .over _ | .destroyed => true
  | _ => false

theorem left_step {st st' : St} {op : Op} (ho : op.pool = true) (hs : step st op = some st') :
    st'.left + 1 = st.left := by
  cases op <;> cases ho <;> simp only [step] at hs <;> (repeat' split at hs) <;> first
    | (cases hs; done)
    | (cases hs; simp_all [St.left, St.say]; done)
    | (cases hs; simp_all [St.left, St.say]; omega)
    | (cases hs
       rename_i hm
       have := List.length_erase_of_mem hm
       have := List.length_pos_of_mem hm
       simp only [St.left, St.say]
       omega)

/-- C118: as long as the destructor waits, and no function waits for a task, something can go on. -/
theorem C118_goes_on {m : Nat} (hm : 0 < m) {st : St} (h : Reach m st) (hw : st.waiting = true)
    (hb : ∀ x ∈ st.active, x.2 = none) : ∃ op st', op.pool = true ∧ step st op = some st' := by
  cases ha : st.active with
  | cons x l =>
    obtain ⟨t, o⟩ := x
    have : o = none := hb (t, o) (by simp [ha])
    subst this
    exact ⟨.over t, _, rfl, by simp only [step]; rw [if_pos (by simp [ha])]⟩
  | nil =>
    cases hr : st.ready with
    | cons t q =>
      refine ⟨.begin, { st.say (.started t) with ready := q, active := st.active ++ [(t, none)] }, rfl, ?_⟩
      simp only [step]
      rw [if_pos (by rw [ha, h.inv.max]; exact hm), hr]
    | nil => exact ⟨.destroyed, _, rfl, by simp only [step]; rw [if_pos ⟨hw, hr, ha⟩]⟩

/-- C118: and that ends: without further calls of `async` and functions that wait, it takes a bounded number of steps. -/
theorem C118_bounded {st st' : St} {ops : List Op} (hr : Run st ops st') (ho : ∀ op ∈ ops, op.pool = true) :
    st'.left + ops.length = st.left := by
  induction hr with
  | nil => simp
  | cons hs _ ih =>
    have h1 := left_step (ho _ (by simp)) hs
    have h2 := ih (fun op hop => ho op (by simp [hop]))
    simp only [List.length_cons]; omega

/-! ## It does not return -/

/-- C118: it is false that the destructor always returns: if a function of the pool waits for a task that has not run, then
the main thread waits for ever, whatever happens. -/
theorem C118_deadlock_false {st : St} {t k : Nat} (hw : st.waiting = true) (ht : (t, some k) ∈ st.active)
    (hk : .ended k ∉ st.log) {ops : List Op} {st' : St} (hr : Run st ops st') :
    st'.waiting = true ∧ (t, some k) ∈ st'.active ∧ .ended k ∉ st'.log ∧ Op.destroyed ∉ ops := by
  induction hr with
  | nil => exact ⟨hw, ht, hk, by simp⟩
  | @cons s s1 s2 op ops hs _ ih =>
    have key : s1.waiting = true ∧ (t, some k) ∈ s1.active ∧ Ev.ended k ∉ s1.log ∧ op ≠ .destroyed := by
      cases op with
      | post w => simp only [step] at hs; split at hs <;> cases hs; simp_all [St.say]
      | async w => simp only [step] at hs; split at hs <;> cases hs; simp_all [St.say]
      | take => simp [step, hw] at hs
      | ret => simp [step, hw] at hs
      | destroy => simp [step, hw] at hs
      | destroyed =>
        simp only [step] at hs
        split at hs
        · rename_i hc; rw [hc.2.2] at ht; cases ht
        · cases hs
      | begin =>
        simp only [step] at hs
        split at hs
        · split at hs <;> cases hs; simp_all [St.say]
        · cases hs
      | block u j =>
        simp only [step] at hs
        split at hs <;> cases hs
        refine ⟨hw, ?_, hk, by simp⟩
        exact List.mem_append_left _ ((List.mem_erase_of_ne (by simp)).2 ht)
      | wake u j =>
        simp only [step] at hs
        split at hs
        · rename_i hc
          cases hs
          refine ⟨hw, ?_, hk, by simp⟩
          refine List.mem_append_left _ ((List.mem_erase_of_ne ?_).2 ht)
          intro he
          cases he
          exact hk hc.2
        · cases hs
      | over u =>
        simp only [step] at hs
        split at hs <;> cases hs
        refine ⟨hw, ?_, by simpa [St.say] using hk, by simp⟩
        exact (List.mem_erase_of_ne (by simp)).2 ht
    obtain ⟨k1, k2, k3, k4⟩ := key
    obtain ⟨i1, i2, i3, i4⟩ := ih k1 k2 k3
    exact ⟨i1, i2, i3, by simp [i4, Ne.symm k4]⟩

def runOps (st : St) : List Op → Option St
  | [] => some st
  | op :: ops => (step st op).bind (runOps · ops)

theorem reach_runOps {m : Nat} {ops : List Op} : ∀ {st st' : St}, Reach m st → runOps st ops = some st' → Reach m st' := by
  induction ops with
  | nil => intro st st' h hr; cases hr; exact h
  | cons op ops ih =>
    intro st st' h hr
    simp only [runOps, Option.bind_eq_some_iff] at hr
    obtain ⟨s, h1, h2⟩ := hr
    exact ih (h.step op h1) h2

theorem run_runOps {ops : List Op} : ∀ {st st' : St}, runOps st ops = some st' → Run st ops st' := by
  induction ops with
  | nil => intro st st' hr; cases hr; exact .nil st
  | cons op ops ih =>
    intro st st' hr
    simp only [runOps, Option.bind_eq_some_iff] at hr
    obtain ⟨s, h1, h2⟩ := hr
    exact .cons h1 (ih h2)

/-- A function posts a task and waits for it, and then the main thread makes or destroys a store. -/
def deadSt : St := ⟨2, [1], none, true, [], [(0, some 1)], 2, [.async 0, .started 0, .posted 1, .waits]⟩

theorem deadSt_reach : Reach 2 deadSt :=
  reach_runOps (ops := [.async .main, .begin, .post (.fn 0), .block 0 1, .destroy]) .start (by decide +kernel)

example {ops : List Op} {st' : St} (hr : Run deadSt ops st') : Op.destroyed ∉ ops :=
  (C118_deadlock_false (t := 0) (k := 1) rfl (by decide) (by decide) hr).2.2.2

/-- Two functions, the second from the first one, while the destructor waits, and one thread. -/
def okOps : List Op :=
  [.post .main, .take, .async .main, .destroy, .begin, .async (.fn 1), .post (.fn 1), .over 1, .begin,
    .over 2, .destroyed, .ret, .take, .ret]

def okSt : St := ⟨1, [], none, false, [], [], 4, [.posted 0, .began 0, .async 1, .waits, .started 1, .async 2, .posted 3,
  .finished 1, .started 2, .finished 2, .destroyed, .ended 0, .began 3, .ended 3]⟩

theorem okSt_reach : Reach 1 okSt := reach_runOps (ops := okOps) .start (by decide +kernel)

example : ∀ t ∈ [1, 2], t ∈ [1, 2] :=
  C118_destroyed okSt_reach [.posted 0, .began 0, .async 1, .waits, .started 1, .async 2, .posted 3, .finished 1, .started 2,
    .finished 2] [.ended 0, .began 3, .ended 3] rfl

/-- While the destructor waits for one function that runs and one that does not, four steps are left. -/
def midSt : St := ⟨1, [], none, true, [1], [(0, none)], 2, [.async 0, .async 1, .started 0, .waits]⟩

theorem midSt_reach : Reach 1 midSt :=
  reach_runOps (ops := [.async .main, .async .main, .begin, .destroy]) .start (by decide +kernel)

example : ∃ op st', op.pool = true ∧ step midSt op = some st' :=
  C118_goes_on (by decide) midSt_reach rfl (by decide)

def midEnd : St := ⟨1, [], none, false, [], [], 2, [.async 0, .async 1, .started 0, .waits, .finished 0, .started 1,
  .finished 1, .destroyed]⟩

theorem midSt_run : Run midSt [.over 0, .begin, .over 1, .destroyed] midEnd := run_runOps (by decide +kernel)

example : 0 + 4 = midSt.left := C118_bounded midSt_run (by decide)

example : Ev.posted 3 ≠ .began 3 ∧ Ev.posted 3 ≠ .ended 3 :=
  C118_blocks okSt_reach [.posted 0, .began 0, .async 1] [.started 1, .async 2]
    [.finished 1, .started 2, .finished 2, .destroyed, .ended 0, .began 3, .ended 3] (.posted 3) rfl (by decide) 3

example : step midSt (.post .main) = none :=
  (C118_main midSt_reach [.async 0, .async 1, .started 0] [] rfl (by decide)).1

example : [0, 3] <+: [0, 3] ∧ ([0, 3] : List Nat).Nodup := C118_tasks okSt_reach

example : [1, 2] <+: [1, 2] ∧ ([1, 2] : List Nat).Nodup ∧ ([1, 2] : List Nat).Nodup ∧ (∀ t ∈ [1, 2], t ∈ [1, 2]) ∧
    2 ≤ 2 + 1 := C118_pool okSt_reach

/-- C118: it is false that nothing of it is left when the destructor returns: a task that a function has posted is
still to be run, and has its pointer to the store that was destroyed. -/
theorem C118_pending_false : ∃ st,
    Run (start 1) [.async .main, .destroy, .begin, .post (.fn 0), .over 0, .destroyed] st ∧ st.queue = [1] :=
  ⟨⟨1, [1], none, false, [], [], 2, [.async 0, .waits, .started 0, .posted 1, .finished 0, .destroyed]⟩,
    run_runOps (by decide +kernel), rfl⟩

end Verif.QtPool
