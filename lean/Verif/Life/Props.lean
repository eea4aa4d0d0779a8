import Verif.Life.Reach
import Verif.Graph.Exec

/-!
# How long readers, cursors and stores live (C90, C91)
-/

namespace Verif.Life

/-- `Uses h a t`: the node `t` is `a`, or derived from it, in any number of steps. -/
inductive Uses (h : Heap) (a : Nat) : Nat → Prop where
  | refl : Uses h a a
  | step {p t : Nat} : p ∈ h.parents t → Uses h a p → Uses h a t

/-- The node exists. -/
def P.Alive (s : P) (n : Nat) : Prop := 0 < s.heap.rc n

/-- A handle of the user, or a running call, refers to `n` or to something derived from it. -/
def P.Kept (s : P) (n : Nat) : Prop :=
  ∃ t, (some t ∈ s.handles ∨ t ∈ s.locks) ∧ Uses s.heap n t

theorem mem_held {s : P} {t : Nat} : t ∈ s.held ↔ some t ∈ s.handles ∨ t ∈ s.locks := by
  unfold P.held
  rw [List.mem_append, List.mem_filterMap]
  constructor
  · rintro (⟨x, h1, h2⟩ | h)
    · exact .inl (by rw [← show x = some t from h2]; exact h1)
    · exact .inr h
  · rintro (h | h)
    · exact .inl ⟨some t, h, rfl⟩
    · exact .inr h

theorem Uses.trans {h : Heap} {a b c : Nat} (h1 : Uses h a b) (h2 : Uses h b c) : Uses h a c := by
  induction h2 with
  | refl => exact h1
  | step hp _ ih => exact .step hp ih

theorem uses_alive {h : Heap} {R : List Nat} (hi : Inv h R) {a t : Nat} (hu : Uses h a t)
    (ht : 0 < h.rc t) : 0 < h.rc a := by
  induction hu with
  | refl => exact ht
  | @step p t hp _ ih =>
    apply ih
    have h1 := hi.count p
    have h2 : 0 < inner h p := inner_pos.2 ⟨t, hi.rc_lt ht, ht, hp⟩
    omega

theorem alive_uses {h : Heap} {R : List Nat} (hi : Inv h R) : ∀ (d n : Nat), h.size - n ≤ d →
    0 < h.rc n → ∃ t ∈ R, Uses h n t := by
  intro d
  induction d with
  | zero =>
    intro n hd hn
    have := hi.rc_lt hn
    omega
  | succ d ih =>
    intro n hd hn
    have h1 := hi.count n
    by_cases hR : n ∈ R
    · exact ⟨n, hR, .refl⟩
    · have h2 : 0 < inner h n := by
        rw [List.count_eq_zero.2 hR] at h1
        omega
      obtain ⟨c, hc1, hc2, hc3⟩ := inner_pos.1 h2
      have := hi.lt c n hc3
      obtain ⟨t, ht1, ht2⟩ := ih c (by omega) hc2
      exact ⟨t, ht1, Uses.trans (.step hc3 .refl) ht2⟩

/-- C90: a node exists exactly as long as a handle or a running call refers to it or to something
derived from it. -/
theorem C90_alive {s : P} (hr : Reach s) (n : Nat) : s.Alive n ↔ s.Kept n := by
  have hi := (reach_inv hr).inv
  constructor
  · intro h
    obtain ⟨t, h1, h2⟩ := alive_uses hi _ n (Nat.le_refl _) h
    exact ⟨t, mem_held.1 h1, h2⟩
  · rintro ⟨t, h1, h2⟩
    refine uses_alive hi h2 ?_
    have := hi.count t
    have : 0 < s.held.count t := List.count_pos_iff.2 (mem_held.2 h1)
    omega

/-- C90: nothing is leaked: when all handles are gone and no call is running, every node that was
ever made has been destroyed. -/
theorem C90_all_freed {s : P} (hr : Reach s) (hh : ∀ x ∈ s.handles, x = none) (hl : s.locks = [])
    (n : Nat) (hn : n < s.heap.size) : n ∈ s.heap.freed := by
  have hi := (reach_inv hr).inv
  rw [hi.freed n]
  refine ⟨hn, Nat.eq_zero_of_not_pos fun hp => ?_⟩
  obtain ⟨t, h1 | h1, _⟩ := (C90_alive hr n).1 hp
  · cases hh _ h1
  · rw [hl] at h1; cases h1

/-- C90: a node is destroyed once, after everything that is derived from it, and what is destroyed
does not come back. -/
theorem C90_once {s : P} (hr : Reach s) :
    s.heap.freed.Nodup ∧ (∀ n, n ∈ s.heap.freed ↔ n < s.heap.size ∧ ¬ s.Alive n) ∧
    (∀ a n b, s.heap.freed = a ++ n :: b → ∀ c, n ∈ s.heap.parents c → c ∈ a) ∧
    ∀ op s', step s op = some s' → s.heap.freed <+: s'.heap.freed := by
  have h := reach_inv hr
  refine ⟨h.inv.nodup, fun n => ?_, h.inv.order, fun op s' he => (step_static h he).1⟩
  rw [h.inv.freed n]
  unfold P.Alive
  constructor
  · rintro ⟨h1, h2⟩; exact ⟨h1, by omega⟩
  · rintro ⟨h1, h2⟩; exact ⟨h1, by omega⟩

/-- C90: no pointer to something destroyed is ever copied or released. -/
theorem C90_no_dangling {s : P} (hr : Reach s) : s.heap.bad = false := (reach_inv hr).inv.bad

/-- C90: handles and temporary pointers refer to nodes that exist, and so do the pointers of nodes
that exist to what they are derived from. -/
theorem C90_valid {s : P} (hr : Reach s) :
    (∀ n, some n ∈ s.handles ∨ n ∈ s.locks → s.Alive n) ∧
    ∀ n p, s.Alive n → p ∈ s.heap.parents n → s.Alive p := by
  refine ⟨fun n h => (C90_alive hr n).2 ⟨n, h, .refl⟩, fun n p hn hp => ?_⟩
  obtain ⟨t, h1, h2⟩ := (C90_alive hr n).1 hn
  exact (C90_alive hr p).2 ⟨t, h1, Uses.trans (.step hp .refl) h2⟩

/-! ### The same in the model of values -/

/-- The two models talk about the same nodes. -/
structure Agrees {V S : Type} (g : Graph.Graph V S) (h : Heap) : Prop where
  size : g.size = h.size
  parents : ∀ n, n < h.size → (g.node n).parents = h.parents n
  alive : ∀ n, n < h.size → ((g.node n).alive = true ↔ 0 < h.rc n)

theorem kills {V S : Type} [DecidableEq V] [Inhabited S] (F : List Nat) :
    ∀ (m : Graph.M V S) (st : List (Graph.Frame V)), m.stack = .user :: st → m.ub = false →
    (∀ a n b, F = a ++ n :: b → m.g.valid n = true ∧ n ∉ a ∧
      (∀ c, c < m.g.size → (m.g.node c).alive = true → n ∈ (m.g.node c).parents → c ∈ a) ∧
      ∀ f ∈ m.stack, n ∉ f.holds) →
    ∃ m' : Graph.M V S, Graph.Trace m (F.map .kill) m' ∧ m'.stack = m.stack ∧ m'.ub = false ∧
      m'.g.size = m.g.size ∧ (∀ n, (m'.g.node n).parents = (m.g.node n).parents) ∧
      ∀ n, (m'.g.node n).alive = true ↔ (m.g.node n).alive = true ∧ n ∉ F := by
  induction F with
  | nil =>
    intro m st hst hub _
    exact ⟨m, .refl m, rfl, hub, rfl, fun _ => rfl, fun n => by simp⟩
  | cons x F ih =>
    intro m st hst hub hF
    obtain ⟨h1, _, h3, h4⟩ := hF [] x F rfl
    have he : Graph.ustep m (.kill x) = some { m with
        g := m.g.mod x fun y => { y with alive := false, obs := [] } } := by
      unfold Graph.ustep
      rw [if_neg (by rw [hub]; exact Bool.false_ne_true), hst]
      simp only
      rw [if_pos]
      refine ⟨h1, fun c hc ha hp => ?_, ?_⟩
      · cases h3 c hc ha hp
      · rw [← hst]; exact h4
    have hal : ∀ n, ((m.g.mod x fun y => { y with alive := false, obs := [] }).node n).alive = true ↔
        (m.g.node n).alive = true ∧ n ≠ x := by
      intro n
      by_cases e : n = x
      · subst e; rw [Graph.Graph.mod_self]; simp
      · rw [Graph.Graph.mod_ne _ _ e]; simp [e]
    have hpa : ∀ n, ((m.g.mod x fun y => { y with alive := false, obs := [] }).node n).parents =
        (m.g.node n).parents := by
      intro n
      by_cases e : n = x
      · subst e; rw [Graph.Graph.mod_self]
      · rw [Graph.Graph.mod_ne _ _ e]
    obtain ⟨m', k1, k2, k3, k4, k5, k6⟩ := ih { m with
        g := m.g.mod x fun y => { y with alive := false, obs := [] } } st hst hub (by
      intro a n b hab
      obtain ⟨j1, j2, j3, j4⟩ := hF (x :: a) n b (by rw [hab]; rfl)
      have hnx : n ≠ x := fun e => j2 (by rw [e]; exact List.mem_cons_self)
      refine ⟨?_, fun hm => j2 (List.mem_cons_of_mem _ hm), fun c hc ha hp => ?_, j4⟩
      · unfold Graph.Graph.valid at j1 ⊢
        rw [Bool.and_eq_true] at j1 ⊢
        exact ⟨j1.1, (hal n).2 ⟨j1.2, hnx⟩⟩
      · dsimp only at ha hp
        rw [hal] at ha
        rw [hpa] at hp
        rcases List.mem_cons.1 (j3 c hc ha.1 hp) with e | hm
        · exact absurd e ha.2
        · exact hm)
    refine ⟨m', .user he k1, k2, k3, k4, fun n => (k5 n).trans (hpa n), fun n => ?_⟩
    rw [k6, hal]
    simp only [List.mem_cons, not_or]
    constructor
    · rintro ⟨⟨a1, a2⟩, a3⟩; exact ⟨a1, a2, a3⟩
    · rintro ⟨a1, a2, a3⟩; exact ⟨⟨a1, a2⟩, a3⟩

/-- C90: what is destroyed when handles and temporary pointers go away is destroyed in the model of
values by legal `kill` operations, in the same order; so everything that is proved there about
destroyed readers holds for destruction by reference counts. -/
theorem C90_kills {V S : Type} [DecidableEq V] [Inhabited S] {s s' : P} (hr : Reach s) {op : Op}
    (he : step s op = some s') (hsz : s'.heap.size = s.heap.size) {F : List Nat}
    (hF : s'.heap.freed = s.heap.freed ++ F) {m : Graph.M V S} {st : List (Graph.Frame V)}
    (hst : m.stack = .user :: st) (hub : m.ub = false) (ha : Agrees m.g s.heap)
    (hl : ∀ f ∈ m.stack, ∀ n ∈ f.holds, n ∈ s'.locks) :
    ∃ m' : Graph.M V S, Graph.Trace m (F.map .kill) m' ∧ Agrees m'.g s'.heap := by
  have hi := (reach_inv hr).inv
  have hr' : Reach s' := .step hr he
  have hi' := (reach_inv hr').inv
  obtain ⟨_, hp⟩ := step_static (reach_inv hr) he
  have hp : s'.heap.parents = s.heap.parents := by
    rcases hp with h | h
    · exact h.2
    · omega
  have hnd := hi'.nodup
  rw [hF, List.nodup_append] at hnd
  have hfr : ∀ n, n ∈ F → n < s.heap.size ∧ 0 < s.heap.rc n ∧ s'.heap.rc n = 0 := by
    intro n hn
    have h1 := (hi'.freed n).1 (by rw [hF]; exact List.mem_append_right _ hn)
    rw [hsz] at h1
    refine ⟨h1.1, Nat.pos_of_ne_zero fun h0 => ?_, h1.2⟩
    exact hnd.2.2 n ((hi.freed n).2 ⟨h1.1, h0⟩) n hn rfl
  obtain ⟨m', k1, k2, k3, k4, k5, k6⟩ := kills F m st hst hub (by
    intro a n b hab
    have hn : n ∈ F := by rw [hab]; exact List.mem_append_right _ List.mem_cons_self
    obtain ⟨f1, f2, f3⟩ := hfr n hn
    refine ⟨?_, ?_, fun c hc hac hpc => ?_, fun f hf hnf => ?_⟩
    · unfold Graph.Graph.valid
      rw [Bool.and_eq_true]
      refine ⟨decide_eq_true ?_, (ha.alive n f1).2 f2⟩
      rw [ha.size]; exact f1
    · intro hm
      have := hnd.2.1
      rw [hab, List.nodup_append] at this
      exact this.2.2 n hm n List.mem_cons_self rfl
    · rw [ha.size] at hc
      rw [ha.parents c hc] at hpc
      have h1 := hi'.order (s.heap.freed ++ a) n b (by rw [hF, hab, List.append_assoc]) c
        (by rw [hp]; exact hpc)
      rcases List.mem_append.1 h1 with h2 | h2
      · have h3 := ((hi.freed c).1 h2).2
        have h4 := (ha.alive c hc).1 hac
        omega
      · exact h2
    · have h1 := (C90_valid hr').1 n (.inr (hl f hf n hnf))
      unfold P.Alive at h1
      omega)
  refine ⟨m', k1, ⟨by rw [k4, ha.size, hsz], fun n hn => ?_, fun n hn => ?_⟩⟩
  · rw [k5, ha.parents n (by rw [← hsz]; exact hn), hp]
  · rw [k6]
    have hn' : n < s.heap.size := by rw [← hsz]; exact hn
    rw [ha.alive n hn']
    constructor
    · rintro ⟨h1, h2⟩
      apply Nat.pos_of_ne_zero
      intro h0
      have h3 := (hi'.freed n).2 ⟨hn, h0⟩
      rw [hF] at h3
      rcases List.mem_append.1 h3 with h4 | h4
      · have := ((hi.freed n).1 h4).2; omega
      · exact h2 h4
    · intro h1
      refine ⟨Nat.pos_of_ne_zero fun h0 => ?_, fun hm => ?_⟩
      · have h2 := (hi.freed n).2 ⟨hn', h0⟩
        have h3 := ((hi'.freed n).1 (by rw [hF]; exact List.mem_append_left _ h2)).2
        omega
      · have := (hfr n hm).2.2
        omega

/-! ### Stores -/

/-- The store, if any, whose node this operation uses through a raw pointer. -/
def usesRaw (s : P) : Op → Option Nat
  | .dispatch c => s.ctxs[c]?
  | .begin => s.tasks.head?
  | .post | .resume => s.running.head?
  | _ => none

/-- C91: dispatching to a store, running one of its tasks, and going on in one after callbacks, is
defined behaviour exactly if at that time something refers to the store or to a reader derived from
it. -/
theorem C91_exact {s s' : P} (hr : Reach s) {op : Op} (he : step s op = some s') :
    s'.ub = true ↔ ∃ n, usesRaw s op = some n ∧ ¬ s.Kept n := by
  have hk : ∀ n, s.heap.rc n = 0 ↔ ¬ s.Kept n := by
    intro n
    rw [← C90_alive hr n]
    unfold P.Alive
    omega
  unfold step at he
  split at he
  · cases he
  · rename_i hub
    have hub : s.ub = false := by simpa using hub
    have quiet : ∀ {t : P} {o : Op}, t.ub = s.ub → usesRaw s o = none →
        (t.ub = true ↔ ∃ n, usesRaw s o = some n ∧ ¬ s.Kept n) := by
      intro t o h1 h2
      rw [h1, hub, h2]
      simp
    have loud : ∀ {t : P} {o : Op} {n : Nat}, usesRaw s o = some n →
        (t.ub = true ↔ s.heap.rc n = 0) →
        (t.ub = true ↔ ∃ n, usesRaw s o = some n ∧ ¬ s.Kept n) := by
      intro t o n h1 h2
      rw [h2, hk, h1]
      constructor
      · intro h; exact ⟨n, rfl, h⟩
      · rintro ⟨n', h3, h4⟩
        cases h3
        exact h4
    cases op with
    | root => cases he; exact quiet rfl rfl
    | derive is =>
      simp only at he
      split at he
      · cases he
      · split at he
        · cases he
        · cases he; exact quiet rfl rfl
    | copy i =>
      simp only at he
      split at he
      · cases he
      · cases he; exact quiet rfl rfl
      · cases he; exact quiet rfl rfl
    | move i =>
      simp only at he
      split at he
      · cases he
      · cases he; exact quiet rfl rfl
    | assign i j =>
      simp only at he
      split at he
      · cases he; exact quiet rfl rfl
      · cases he; exact quiet rfl rfl
      · cases he
    | moveAssign i j =>
      simp only at he
      split at he
      · cases hx : s.handles[i]? with
        | none => rw [hx] at he; cases he
        | some x => rw [hx] at he; cases he; exact quiet rfl rfl
      · split at he
        · cases he; exact quiet rfl rfl
        · cases he
    | destroy i =>
      simp only at he
      split at he
      · cases he
      · cases he; exact quiet rfl rfl
    | enter i =>
      simp only at he
      split at he
      · cases he; exact quiet rfl rfl
      · cases he
    | lock n =>
      simp only at he
      split at he
      · split at he <;> (cases he; exact quiet rfl rfl)
      · cases he
    | leave =>
      simp only at he
      split at he
      · cases he
      · cases he; exact quiet rfl rfl
    | context i =>
      simp only at he
      split at he
      · split at he
        · cases he; exact quiet rfl rfl
        · cases he
      · cases he
    | dispatch c =>
      simp only at he
      split at he
      · cases he
      · rename_i n hn
        split at he
        · rename_i h0; cases he; exact loud hn (by simp [h0])
        · rename_i h0; cases he; exact loud hn (by simp [h0, hub])
    | begin =>
      simp only at he
      split at he
      · cases he
      · rename_i n l hl
        have hn : usesRaw s .begin = some n := by unfold usesRaw; rw [hl]; rfl
        split at he
        · rename_i h0; cases he; exact loud hn (by simp [h0])
        · rename_i h0; cases he; exact loud hn (by simp [h0, hub])
    | post =>
      simp only at he
      split at he
      · cases he
      · rename_i n l hl
        have hn : usesRaw s .post = some n := by unfold usesRaw; rw [hl]; rfl
        split at he
        · rename_i h0; cases he; exact loud hn (by simp [h0])
        · rename_i h0; cases he; exact loud hn (by simp [h0, hub])
    | resume =>
      simp only at he
      split at he
      · cases he
      · rename_i n l hl
        have hn : usesRaw s .resume = some n := by unfold usesRaw; rw [hl]; rfl
        split at he
        · rename_i h0; cases he; exact loud hn (by simp [h0])
        · rename_i h0; cases he; exact loud hn (by simp [h0, hub])
    | finish =>
      simp only at he
      split at he
      · cases he
      · cases he; exact quiet rfl rfl

theorem run_append (a b : List Op) (s : P) : run (a ++ b) s = (run a s).bind (run b) := by
  induction a generalizing s with
  | nil => rfl
  | cons op a ih =>
    rw [List.cons_append]
    simp only [run]
    cases h : step s op with
    | none => rfl
    | some t => exact ih t

theorem run_reach {ops : List Op} {s s' : P} (hr : Reach s) (h : run ops s = some s') :
    Reach s' := by
  induction ops generalizing s with
  | nil => cases h; exact hr
  | cons op ops ih =>
    simp only [run] at h
    cases h1 : step s op with
    | none => rw [h1] at h; cases h
    | some t => rw [h1] at h; exact ih (.step hr h1) h

/-- C91: if as long as there are contexts, pending tasks or running tasks of a store, something
refers to it or to a reader derived from it, nothing undefined happens. -/
theorem C91_safe {ops : List Op} {s' : P} (h : run ops start = some s')
    (hk : ∀ pre post s, ops = pre ++ post → run pre start = some s →
      ∀ n, n ∈ s.ctxs ∨ n ∈ s.tasks ∨ n ∈ s.running → s.Kept n) : s'.ub = false := by
  have key : ∀ (post pre : List Op) (s : P), ops = pre ++ post → run pre start = some s →
      s.ub = false → run post s = some s' → s'.ub = false := by
    intro post
    induction post with
    | nil => intro pre s _ _ hub hs; cases hs; exact hub
    | cons op post ih =>
      intro pre s hpre hs hub hrun
      simp only [run] at hrun
      cases h2 : step s op with
      | none => rw [h2] at hrun; cases hrun
      | some u =>
        rw [h2] at hrun
        refine ih (pre ++ [op]) u (by rw [hpre, List.append_assoc]; rfl) ?_ ?_ hrun
        · rw [run_append, hs]
          simp only [Option.bind_some, run, h2]
        · cases hu : u.ub with
          | false => rfl
          | true =>
            obtain ⟨n, h3, h4⟩ := (C91_exact (run_reach .start hs) h2).1 hu
            refine absurd (hk pre (op :: post) s hpre hs n ?_) h4
            cases op with
            | dispatch c => exact .inl (List.mem_of_getElem? h3)
            | begin => exact .inr (.inl (List.mem_of_mem_head? h3))
            | post => exact .inr (.inr (List.mem_of_mem_head? h3))
            | resume => exact .inr (.inr (List.mem_of_mem_head? h3))
            | _ => cases h3
  exact key ops [] start rfl rfl rfl h

/-- C91: the store may not be destroyed while actions are pending. -/
theorem C91_pending_false : ∃ s, run [.root, .context 0, .dispatch 0, .destroy 0, .begin] start =
    some s ∧ s.ub = true :=
  ⟨_, rfl, rfl⟩

/-- C91: a context may not be used when the store is gone. -/
theorem C91_context_false : ∃ s, run [.root, .context 0, .destroy 0, .dispatch 0] start = some s ∧
    s.ub = true :=
  ⟨_, rfl, rfl⟩

/-- C91: a callback or an effect may not destroy the store. -/
theorem C91_inside_false : ∃ s,
    run [.root, .context 0, .dispatch 0, .begin, .destroy 0, .resume] start = some s ∧
    s.ub = true :=
  ⟨_, rfl, rfl⟩

/-- C91: a reader, or cursor, that is derived from the store is enough to keep it. -/
theorem C91_reader {s s' : P} (hr : Reach s) {op : Op} (he : step s op = some s') {n t : Nat}
    (hn : usesRaw s op = some n) (ht : some t ∈ s.handles) (hu : Uses s.heap n t) :
    s'.ub = false := by
  cases h : s'.ub with
  | false => rfl
  | true =>
    obtain ⟨n', h1, h2⟩ := (C91_exact hr he).1 h
    rw [hn] at h1
    cases h1
    exact absurd ⟨t, .inl ht, hu⟩ h2

/-! ### Examples -/

/-- A state, a reader of it, a reader of both, copies, moves and assignments. -/
def exLife : List Op :=
  [.root, .derive [0], .derive [0, 1], .copy 2, .move 1, .destroy 0, .destroy 2, .enter 3,
    .assign 3 4, .lock 2]

/-- The handle of the first reader is moved to slot 4; the third node exists only because of
running calls. -/
example : ∃ s, run exLife start = some s ∧ s.handles = [none, none, none, some 1, some 1] ∧
    s.locks = [2, 2] ∧ s.heap.rc 0 = 2 ∧ s.heap.rc 1 = 3 ∧ s.heap.rc 2 = 2 ∧ s.heap.freed = [] :=
  ⟨_, rfl, by decide, by decide, by decide, by decide, by decide, by decide⟩

example : ∃ s, run (exLife ++ [.leave, .leave, .destroy 3, .destroy 4]) start = some s ∧
    (∀ x ∈ s.handles, x = none) ∧ s.locks = [] ∧ s.heap.freed = [2, 1, 0] ∧ s.heap.size = 3 :=
  ⟨_, rfl, by decide, by decide, by decide, by decide⟩

def exHeld : P := (run (exLife ++ [.leave]) start).getD start

def exDropped : P := (step exHeld .leave).getD start

def exSame : Graph.M Nat Nat := Graph.exec [.newState false true 3,
  .newCalc true [0] (fun l => some l.sum) none false 0,
  .newCalc true [0, 1] (fun l => some l.sum) none false 0] Graph.boot

/-- The second `leave` destroys node 2; the model of values agrees (`C90_kills`). -/
example : Reach exHeld ∧ step exHeld .leave = some exDropped ∧
    exDropped.heap.freed = exHeld.heap.freed ++ [2] ∧ exDropped.heap.size = exHeld.heap.size ∧
    exSame.stack = [.user] ∧ exSame.ub = false ∧ Agrees exSame.g exHeld.heap := by
  refine ⟨run_reach .start (ops := exLife ++ [.leave]) rfl, rfl, by decide +kernel,
    by decide +kernel, by decide +kernel, by decide +kernel, by decide +kernel, ?_, ?_⟩
  all_goals
    intro n hn
    have h3 : exHeld.heap.size = 3 := by decide +kernel
    rw [h3] at hn
    have h : n = 0 ∨ n = 1 ∨ n = 2 := by omega
    rcases h with rfl | rfl | rfl <;> decide +kernel

/-- The store is destroyed early, but a reader of it is kept. -/
def exKept : List Op :=
  [.root, .derive [0], .context 0, .dispatch 0, .destroy 0, .begin, .post, .resume, .finish, .begin,
    .finish, .dispatch 0]

/-- Do all stores with contexts or tasks exist, all the time? -/
def keptAll : Nat → List Op → Bool
  | 0, _ => true
  | k + 1, ops => keptAll k ops && match run (ops.take k) start with
    | none => true
    | some s => (s.ctxs ++ s.tasks ++ s.running).all fun n => decide (0 < s.heap.rc n)

theorem keptAll_spec {k j : Nat} {ops : List Op} (h : keptAll k ops = true) (hj : j < k) {s : P}
    (hs : run (ops.take j) start = some s) {n : Nat}
    (hn : n ∈ s.ctxs ∨ n ∈ s.tasks ∨ n ∈ s.running) : s.Kept n := by
  induction k with
  | zero => cases hj
  | succ k ih =>
    simp only [keptAll, Bool.and_eq_true] at h
    by_cases e : j = k
    · subst e
      have h2 := h.2
      rw [hs] at h2
      have h3 : n ∈ s.ctxs ++ s.tasks ++ s.running → 0 < s.heap.rc n :=
        fun hm => of_decide_eq_true (List.all_eq_true.1 h2 n hm)
      refine (C90_alive (run_reach .start hs) n).1 (h3 ?_)
      rw [List.mem_append, List.mem_append]
      rcases hn with h | h | h
      · exact .inl (.inl h)
      · exact .inl (.inr h)
      · exact .inr h
    · exact ih h.1 (by omega)

/-- The hypotheses of `C91_safe` are met. -/
example : (run exKept start).isSome = true ∧
    ∀ pre post s, exKept = pre ++ post → run pre start = some s →
      ∀ n, n ∈ s.ctxs ∨ n ∈ s.tasks ∨ n ∈ s.running → s.Kept n := by
  refine ⟨by decide +kernel, fun pre post s h1 h2 n hn => ?_⟩
  have hl := congrArg List.length h1
  rw [List.length_append, show exKept.length = 12 from rfl] at hl
  refine keptAll_spec (k := 13) (j := pre.length) (ops := exKept) (by decide +kernel) (by omega) ?_ hn
  rw [h1, List.take_left]
  exact h2

end Verif.Life
