import Verif.Store.Nest

/-!
C138: stores and nested event loops.
-/

namespace Verif.Store

variable {A Mo : Type}

/-- C138: also with nested event loops the reducer is called with the actions in the order in which they are dispatched, each
time with what it has made of the ones before; and watchers begin to be notified of this. -/
theorem C138_order {c : Cfg A Mo} (hc : c.sound) (ht : c.trans = false) {k : Nat} {n : Nest A Mo} (r : Nest.Reach c k n) :
    reductions n.st.log <+: dispatches n.st.log ∧
    (∀ l1 l2 d m a m' e, n.st.log = l1 ++ .reduced d m a m' e :: l2 →
      m = fold c (reductions l1) ∧ (m', e) = c.reducer m a ∧ c.throws m a = false) ∧
    (∀ l1 l2 v, n.st.log = l1 ++ .shown v :: l2 → v = fold c (reductions l1)) := by
  have h := r.inv hc ht
  refine ⟨?_, fun l1 l2 d m a m' e hl => h.log l1 _ l2 hl, fun l1 l2 v hl => h.log l1 _ l2 hl⟩
  rw [dispatches_disp, h.order, List.map_append, ← reductions_red]
  exact List.prefix_append _ _

/-- C138: whenever no task waits, also in the middle of tasks, the model is the fold over all actions. -/
theorem C138_fold {c : Cfg A Mo} (hc : c.sound) (ht : c.trans = false) {k : Nat} {n : Nest A Mo} (r : Nest.Reach c k n)
    (hi : n.st.idle) : n.st.get = fold c (dispatches n.st.log) := by
  have h := r.inv hc ht
  have hq : n.st.queue = [] := hi
  have hd : n.st.dirty = false := by
    cases hd : n.st.dirty with
    | false => rfl
    | true =>
      obtain ⟨i, hi, _⟩ := h.wake hd
      rw [hq] at hi
      cases hi
  have ho := h.order
  rw [hq] at ho
  rw [show n.st.get = n.st.cur from h.clean hd, h.cur, reductions_red, dispatches_disp, ho]
  simp [pend]

/-- C138: every call of a watcher is with the fold over the first ones of the actions, and over at least as many as in all calls of
watchers before. -/
theorem C138_calls {c : Cfg A Mo} (hc : c.sound) (ht : c.trans = false) {k : Nat} {n : Nest A Mo} (r : Nest.Reach c k n) :
    ∃ ns : List Nat, ns.length = n.calls.length ∧ ns.Pairwise (· ≤ ·) ∧
      ∀ (j i : Nat) (v : Mo) (x : Nat), n.calls[j]? = some (i, v) → ns[j]? = some x →
        x ≤ (dispatches n.st.log).length ∧ v = fold c ((dispatches n.st.log).take x) := by
  obtain ⟨ns, m, h1, h2, h3, h4, h5⟩ := (r.inv hc ht).calls
  obtain ⟨bs, hb⟩ := (C138_order hc ht r).1
  rw [List.pairwise_append] at h2
  refine ⟨ns, h1, h2.1, fun j i v x hj hx => ?_⟩
  have hx' : x ≤ m := h2.2.2 x (List.mem_of_getElem? hx) m List.mem_cons_self
  rw [← hb, List.take_append_of_le_length (by omega), List.length_append]
  exact ⟨by omega, h5 j i v x hj hx⟩

/-- C138: between tasks every watcher was last called with what `get()` returns, or `get()` has not changed. -/
theorem C138_last {c : Cfg A Mo} (hc : c.sound) (ht : c.trans = false) {k : Nat} {n : Nest A Mo} (r : Nest.Reach c k n)
    (hs : n.stack = []) {w : Nat} (hw : w < k) :
    ((n.calls.filter (·.1 = w)).getLast?.map (·.2)).getD c.init = n.st.get := by
  rcases (r.inv hc ht).told w hw with h | ⟨l, h, _⟩
  · exact h
  · rw [hs] at h
    cases h

/-- C138: no effect is called twice, and when nothing is left to do, each one that the reducer has returned was called. -/
theorem C138_effects {c : Cfg A Mo} (hc : c.sound) (ht : c.trans = false) {k : Nat} {n : Nest A Mo} (r : Nest.Reach c k n)
    (d : Nat) :
    effRuns d n.st.log ≤ 1 ∧
    (n.stack = [] → n.st.idle → ∀ m a m' e, .reduced d m a m' e ∈ n.st.log → e.isEmpty = false → effRuns d n.st.log = 1) := by
  have h := r.inv hc ht
  have h1 : redEff d n.st.log ≤ 1 := by
    have hn := h.nums
    rw [h.order, List.map_append] at hn
    have h2 := range_count n.st.sent.length d
    rw [← hn, List.count_append] at h2
    have := redEff_le d n.st.log
    omega
  have h2 := h.effs d
  refine ⟨by omega, ?_⟩
  intro hs hi m a m' e hm he
  have hq : n.st.queue = [] := hi
  have h3 : 0 < redEff d n.st.log := redEff_pos.2 ⟨m, a, m', e, hm, he⟩
  rw [hs, hq] at h2
  simp only [List.map_nil, qEff] at h2
  omega

/-! ### What is not so -/

/-- The model is the list of the actions so far; each one has an effect. -/
def exNestCfg : Cfg Nat (List Nat) where
  reducer m a := (m ++ [a], .prim a)
  changed v w := decide (v ≠ w)
  trans := false
  hasF := false
  init := []

theorem exNest_sound : exNestCfg.sound := by
  intro v w h
  simpa [exNestCfg] using h

def exNest (ops : List (NOp Nat)) : Nest Nat (List Nat) := (Nest.exec exNestCfg 2 (.start exNestCfg) ops).getD (.start exNestCfg)

theorem exNest_reach {ops : List (NOp Nat)} (h : (Nest.exec exNestCfg 2 (.start exNestCfg) ops).isSome = true) :
    Nest.Reach exNestCfg 2 (exNest ops) := by
  have main : ∀ (ops : List (NOp Nat)) (n n' : Nest Nat (List Nat)), Nest.Reach exNestCfg 2 n →
      Nest.exec exNestCfg 2 n ops = some n' → Nest.Reach exNestCfg 2 n' := by
    intro ops
    induction ops with
    | nil => intro n n' r h; cases h; exact r
    | cons o ops ih =>
      intro n n' r h
      simp only [Nest.exec, Option.bind_eq_some_iff] at h
      obtain ⟨n1, h1, h2⟩ := h
      exact ih n1 n' (r.step o h1) h2
  obtain ⟨n, hn⟩ := Option.isSome_iff_exists.1 h
  have : exNest ops = n := by unfold exNest; rw [hn]; rfl
  rw [this]
  exact main ops _ n .start hn

/-- The first of two watchers runs the event loop until another action is handled. -/
def exDialog : List (NOp Nat) :=
  [.user (.dispatch 1), .loop, .loop, .call, .user (.dispatch 2), .loop, .loop, .call, .call, .fin, .call, .fin]

example : Nest.Reach exNestCfg 2 (exNest exDialog) := exNest_reach (by decide +kernel)

example : (exNest exDialog).st.queue.isEmpty = true ∧ (exNest exDialog).stack.isEmpty = true ∧
    dispatches (exNest exDialog).st.log = [1, 2] ∧ (exNest exDialog).st.get = [1, 2] ∧
    effRuns 0 (exNest exDialog).st.log = 1 ∧ effRuns 1 (exNest exDialog).st.log = 1 := by decide +kernel

/-- In the middle, when the nested event loop has nothing left to do. -/
example : Nest.Reach exNestCfg 2 (exNest (exDialog.take 10)) ∧ (exNest (exDialog.take 10)).st.queue.isEmpty = true ∧
    (exNest (exDialog.take 10)).stack.length = 1 ∧ (exNest (exDialog.take 10)).calls = [(0, [1]), (0, [1, 2]), (1, [1, 2])] :=
  ⟨exNest_reach (by decide +kernel), by decide +kernel, by decide +kernel, by decide +kernel⟩

/-- C138 is FALSE for single calls: that all watchers see all values that the first one is called with, and that a watcher is only
called when the value has changed since its last call.  (The second one is called with `[1, 2]` twice, and never with `[1]`.) -/
theorem C138_twice_false : ∃ n, Nest.Reach exNestCfg 2 n ∧ n.st.idle ∧ n.stack = [] ∧
    n.calls = [(0, [1]), (0, [1, 2]), (1, [1, 2]), (1, [1, 2])] :=
  ⟨exNest exDialog, exNest_reach (by decide +kernel), List.isEmpty_iff.1 (by decide +kernel),
    List.isEmpty_iff.1 (by decide +kernel), by decide +kernel⟩

/-- C138 is FALSE for the order of effects: the one for the second action is called before the one for the first. -/
theorem C138_effects_false : ∃ n, Nest.Reach exNestCfg 2 n ∧ n.st.idle ∧ n.stack = [] ∧
    n.st.log.filterMap (fun e => match e with
      | .effStart _ _ e => some e
      | _ => none) = [.prim 2, .prim 1] ∧ dispatches n.st.log = [1, 2] :=
  ⟨exNest exDialog, exNest_reach (by decide +kernel), List.isEmpty_iff.1 (by decide +kernel),
    List.isEmpty_iff.1 (by decide +kernel), by decide +kernel, by decide +kernel⟩

end Verif.Store
