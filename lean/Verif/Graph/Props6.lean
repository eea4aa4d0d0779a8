import Verif.Graph.RaiseInv
import Verif.Graph.Line

/-
Property C80: exceptions thrown by callbacks and setter functions.  `Verif.Graph.Spec` has the
vocabulary; `raise`, `XReach` and `Waiting` are in `Verif.Graph.Raise`.
-/

set_option linter.unusedSectionVars false

namespace Verif.Graph

variable {V S : Type} [DecidableEq V]

/-- An exception changes nothing that can be seen: no value, no pending write, no subscription, no
reader is lost or created, and no callback is called.  Control goes back to the user code that made the
library call during which the callback was running. -/
theorem C80_throw [Inhabited S] {m m' : M V S} (h : XReach m) (hr : raise m = some m') :
    (∀ n, m'.get n = m.get n ∧ m'.pending n = m.pending n ∧ (m'.Live n ↔ m.Live n) ∧
      (m'.Uncommitted n ↔ m.Uncommitted n) ∧ (m'.Waiting n ↔ m.Waiting n) ∧
      (m'.g.node n).obs = (m.g.node n).obs ∧ (m'.g.node n).parents = (m.g.node n).parents ∧
      (m'.g.node n).kind = (m.g.node n).kind) ∧
    m'.log = m.log ∧
    ∃ lib st, m.stack = .user :: lib ++ .user :: st ∧ m'.stack = .user :: st ∧ .user ∉ lib := by
  have hub : m.ub = false := by
    unfold raise at hr
    split at hr
    · cases hr
    · rename_i hu; simpa using hu
  obtain ⟨E, σ, hx⟩ := xreach_inv h hub
  obtain ⟨h1, _, h3, _, _, h6, _⟩ := raise_spec hr hx.base
  refine ⟨fun n => ?_, h6, h3⟩
  obtain ⟨b, hb⟩ := h1 n
  unfold M.get M.pending M.Live M.Uncommitted M.Source M.Waiting
  rw [hb]
  exact ⟨rfl, rfl, Iff.rfl, Iff.rfl, Iff.rfl, rfl, rfl, rfl⟩

/-- An exception can leave any callback and any setter function. -/
theorem C80_can_throw {m : M V S} {f : Frame V} {st : List (Frame V)} (hub : m.ub = false)
    (hst : m.stack = .user :: f :: st) : ∃ m', raise m = some m' := by
  unfold raise
  rw [if_neg (by simp [hub]), hst]
  exact ⟨_, rfl⟩

/-- C01 in the presence of exceptions: derived readers agree with their sources. -/
theorem C80_consistent [Inhabited S] {m : M V S} (h : XReach m) (hub : m.ub = false) {n : Nat}
    (hlive : m.Live n) {view put r} (hk : (m.g.node n).kind = .calc view put r)
    (hc : ∀ a, m.Above a n → ¬ m.Uncommitted a)
    {v : V} (hv : view ((m.g.node n).parents.map m.get) = some v) : m.get n = v := by
  obtain ⟨E, σ, hx⟩ := xreach_inv h hub
  exact hx.consistent hlive hc hk hv

/-- C06 in the presence of exceptions: a callback is given the value that its reader shows. -/
theorem C80_call_value [Inhabited S] {m m' : M V S} (h : XReach m) (hs : XStep m m')
    {w n : Nat} {v : V} (hlog : m'.log = m.log ++ [.call w n v]) :
    v = m'.get n ∧ w ∈ (m'.g.node n).obs ∧ m'.Live n := by
  cases hs with
  | raise hr =>
    rw [(C80_throw h hr).2.1] at hlog
    exact absurd hlog (by simp)
  | step hs =>
    obtain ⟨E, σ, hx⟩ := xreach_inv h (step_ub hs)
    cases hs with
    | user op he =>
      rw [(ustep_log he).1] at hlog
      exact absurd hlog (by simp)
    | lib he =>
      obtain ⟨_, h1⟩ := istep_log he
      rcases h1 with ⟨h1, _⟩ | ⟨n', w', prev, st, cur, rest, hst, hrem, rfl⟩ |
        ⟨n', v', st, a, _, _, rfl⟩
      · rw [h1] at hlog
        exact absurd hlog (by simp)
      · simp only [List.append_cancel_left_eq, List.cons.injEq, Ev.call.injEq, and_true] at hlog
        obtain ⟨rfl, rfl, rfl⟩ := hlog
        refine ⟨rfl, ?_, ?_⟩
        · exact remaining_mem hrem (List.mem_cons_self ..)
        · exact hx.stackOK.holds _ (by rw [hst]; exact List.mem_cons_self ..) _
            (List.mem_cons_self ..)
      · simp at hlog

/-- When no library call is running, no reader is left in the state of being notified, whatever was
thrown before. -/
theorem C80_rest [Inhabited S] {m : M V S} (h : XReach m) (hr : m.AtRest) (n : Nat) :
    (m.g.node n).notifying = false := by
  obtain ⟨E, σ, hx⟩ := xreach_inv h hr.2
  rw [hx.stackOK.notifying, hr.1]
  rfl

/-- A setter function that throws: nothing was written, and nobody but the setter function was
called. -/
theorem C80_setter [Inhabited S] {m m1 m2 m3 : M V S} {n : Nat} {v : V} {auto : Bool}
    (hk : (m.g.node n).kind = .setter auto) (h1 : ustep m (.set n v) = some m1)
    (h2 : istep m1 = some m2) (h3 : raise m2 = some m3) :
    m3 = { m with log := m.log ++ [.setterCall n v] } := by
  obtain ⟨g, stack, nextW, seen, log, ub⟩ := m
  have hu : ub = false := (ustep_ub h1).1
  cases hu
  unfold ustep at h1
  simp only [Bool.false_eq_true, if_false] at h1
  split at h1
  case h_2 => cases h1
  rename_i st
  split at h1
  case isFalse => cases h1
  cases h1
  have hk' : (g.node n).kind = .setter auto := hk
  simp only [istep, Bool.false_eq_true, if_false, hk'] at h2
  cases h2
  simp only [raise, Bool.false_eq_true, if_false, unwind] at h3
  cases h3
  rfl

/-- After exceptions, at a moment when neither `n` nor anything it is derived from waits for a
notification, callbacks on `n` work as if nothing had happened (C07): when later, without further
exceptions, no library call is running and there are no uncommitted writes above `n`, a callback that
was attached to `n` has been given the final value of `n` - if it was called at all since that moment;
otherwise `n` has the value it had then. -/
theorem C80_recovers [Inhabited S] {m m' : M V S} (h : XReach m) {n w : Nat} (hlive0 : m.Live n)
    (hwait : ∀ a, m.Above a n → ¬ m.Waiting a)
    (hatt0 : w ∈ (m.g.node n).obs) (hr : Runs m m') (hrest : m'.AtRest)
    (hatt : w ∈ (m'.g.node n).obs) (hlive : m'.Live n)
    (hc : ∀ a, m'.Above a n → ¬ m'.Uncommitted a)
    (hcmp : ∀ a, m'.Above a n → ¬ m'.Source a → (m'.g.node a).cmp = true) :
    ∃ l, m'.log = m.log ++ l ∧ given (m.get n) w l = m'.get n := by
  obtain ⟨E, σ, hx⟩ := xreach_inv h (hr.ub hrest.2)
  obtain ⟨σ', hσ⟩ := exists_seen hx.inv.obs.uniq
  have hx' : XInv m.g.waiting σ' m := hx.again (fun k hk => ((mem_waiting hx.wf).1 hk).1)
    (fun k ha hn => .inl (.inr ((mem_waiting hx.wf).2 ⟨ha, hn⟩))) (fun k u hu => .inl (hσ k u hu))
  exact hx'.final hr hrest (fun a hab hm => hwait a hab ((mem_waiting hx.wf).1 hm).2)
    (hx.wf.alive_lt hlive0) (hx.inv.obs.lt n w hatt0) (hσ n w hatt0) hatt hlive hc hcmp

/-- After exceptions, with no library call running, `set` is called on an automatic state `r`.  In
state `m1` the new value has been propagated and nothing has been notified yet.  Any reader `n` that
has changed, and with it everything it is derived from, gets its callbacks called, also those that an
earlier exception left out: at the end they have been given the value that `n` shows. -/
theorem C80_next_set [Inhabited S] {m m0 m1 m' : M V S} (h : XReach m) (hrest0 : m.AtRest) {r : Nat}
    {v : V} (hk : (m.g.node r).kind = .state true) (h0 : ustep m (.set r v) = some m0)
    (h1 : istep m0 = some m1) {n w : Nat} (hlive0 : m.Live n) (hatt0 : w ∈ (m.g.node n).obs)
    (hchg : ∀ a, m.Above a n → m1.get a ≠ m.get a)
    (hr : Runs m1 m') (hrest : m'.AtRest) (hatt : w ∈ (m'.g.node n).obs) (hlive : m'.Live n)
    (hc : ∀ a, m'.Above a n → ¬ m'.Uncommitted a)
    (hcmp : ∀ a, m'.Above a n → ¬ m'.Source a → (m'.g.node a).cmp = true) :
    ∃ l, m'.log = m.log ++ l ∧ ∀ d, given d w l = m'.get n := by
  obtain ⟨E, σ, hx⟩ := xreach_inv h hrest0.2
  obtain ⟨_, σ0, hx0⟩ := xreach_inv (h.runs (.step (.user _ h0) (.refl _))) (step_ub (.lib h1))
  obtain ⟨E1, σ1, hx1⟩ := xreach_inv
    ((h.runs (.step (.user _ h0) (.step (.lib h1) (.refl _))))) (hr.ub hrest.2)
  -- the state after the propagation
  have hval : m.g.valid r = true ∧ m0 = { m with stack := .up r v :: m.stack } := by
    unfold ustep at h0
    rw [if_neg (by simp [hrest0.2])] at h0
    split at h0
    case h_2 => cases h0
    simp only at h0
    split at h0
    · rename_i hcnd
      cases h0
      rw [Bool.and_eq_true] at hcnd
      exact ⟨hcnd.1, rfl⟩
    · cases h0
  obtain ⟨hval, rfl⟩ := hval
  have hm1 : m1 = { m with
      g := (m.g.pushDown r v).sendDown r
      stack := .notify r :: m.stack } := by
    simp only [istep, hrest0.2, Bool.false_eq_true, if_false, hk, if_true] at h1
    rw [← Option.some.inj h1, hrest0.2]
  have ht := pushDown_touch m.g r v
  have hmv := sendDown_moves (m.g.pushDown r v) r
  have hpar : ∀ k, (m1.g.node k).parents = (m.g.node k).parents := by
    intro k; rw [hm1]; exact (hmv.same.parents k).trans (ht.same.parents k)
  have hobs : ∀ k, (m1.g.node k).obs = (m.g.node k).obs := by
    intro k; rw [hm1]; exact (hmv.same.obs k).trans (ht.same.obs k)
  have hal : ∀ k, (m1.g.node k).alive = (m.g.node k).alive := by
    intro k; rw [hm1]; exact (hmv.same.alive k).trans (ht.same.alive k)
  have hnn : ∀ a, m.Above a n → (m1.g.node a).needsNotify = true := by
    intro a ha
    rcases hmv.last a with h2 | h2
    · refine absurd ?_ (hchg a ha)
      rw [hm1]
      exact h2.trans (ht.last_all a).1
    · rw [hm1]; exact h2
  have hab : ∀ a k, m1.Above a k → m.Above a k := by
    intro a k ha
    induction ha with
    | refl => exact .refl
    | step hp _ ih => rw [hpar] at hp; exact .step hp ih
  -- what will not be notified by this call
  let E2 : List Nat := open Classical in m1.g.waiting.filter fun a => ¬ m.Above a n
  have hE2 : ∀ a, a ∈ E2 ↔ a ∈ m1.g.waiting ∧ ¬ m.Above a n := by
    intro a
    simp [E2]
  have hcov : Covered (fun k => pending m1.g m1.stack k ∨ k ∈ E2) m1.g := by
    intro k ha hn
    by_cases hkn : m.Above k n
    · cases hp : (m.g.node k).parents with
      | cons p ps =>
        have hpm : p ∈ (m.g.node k).parents := by rw [hp]; exact List.mem_cons_self ..
        refine .inr (.inr ⟨p, by rw [hpar]; exact hpm, .inl (hnn p (hkn.up hpm))⟩)
      | nil =>
        by_cases hkr : k = r
        · refine .inl (.inl ⟨.notify r, by rw [hm1]; exact List.mem_cons_self .., hkr⟩)
        · refine absurd ?_ (hchg k hkn)
          rw [hm1]
          show (((m.g.pushDown r v).sendDown r).node k).last = _
          rw [sendDown_root _ _ (ht.same.wf hx.wf) hkr (by rw [ht.same.parents]; exact hp),
            ht.other k hkr]
          rfl
    · exact .inl (.inr ((hE2 k).2 ⟨(mem_waiting hx1.wf).2 ⟨ha, hn⟩, hkn⟩))
  obtain ⟨σ2, hσ⟩ := exists_seen hx1.inv.obs.uniq
  have hw1 : w ∈ (m1.g.node n).obs := by rw [hobs]; exact hatt0
  have hn1 : n < m1.g.size := hx1.wf.alive_lt (by rw [hal]; exact hlive0)
  have hlog1 : m1.log = m.log := by rw [hm1]
  have key : ∀ d, ∃ l, m'.log = m1.log ++ l ∧ given d w l = m'.get n := by
    intro d
    have hx2 : XInv E2 (fun u => if u = w then some d else σ2 u) m1 := by
      refine hx1.again (fun a ha => ((mem_waiting hx1.wf).1 ((hE2 a).1 ha).1).1) hcov ?_
      intro k u hu
      by_cases huw : u = w
      · subst huw
        cases hx1.inv.obs.uniq k n u hu hw1
        exact .inr (.inl (hnn _ .refl))
      · exact .inl (by simp only [if_neg huw]; exact hσ k u hu)
    exact hx2.final hr hrest (fun a ha hm => ((hE2 a).1 hm).2 (hab a n ha)) hn1
      (hx1.inv.obs.lt n w hw1) (by simp) hatt hlive hc hcmp
  obtain ⟨_, l, hl, _⟩ := runs_given hr
  refine ⟨l, by rw [hl, hlog1], fun d => ?_⟩
  obtain ⟨l', h2, h3⟩ := key d
  rw [hl] at h2
  rw [List.append_cancel_left h2]
  exact h3

/-! ### Examples -/

/-- An automatic state with two callbacks, and a reader with a callback; the first callback throws
when it is called by `set`. -/
def exThrow : List (Option (Op Nat Nat)) :=
  [some (.newState true true 1), some (.newCalc true [0] (on1 (· / 10)) none false 0),
   some (.attach 0 0), some (.attach 0 1), some (.attach 1 0), some (.set 0 57), none]

/-- The state after the exception. -/
example : XReach (xexec exThrow boot) ∧ (xexec exThrow boot).AtRest ∧
    (xexec exThrow boot).get 0 = 57 ∧ (xexec exThrow boot).get 1 = 5 ∧
    (xexec exThrow boot).log = [.call 0 0 57] :=
  ⟨xexec_reach _, ⟨by decide +kernel, by decide +kernel⟩, by decide +kernel, by decide +kernel,
    by decide +kernel⟩

/-- The callback, running, before it throws. -/
example : ∃ m m' : M Nat Nat, XReach m ∧ raise m = some m' ∧ m.stack.length = 3 ∧
    m'.stack = [.user] := by
  let m := xexec exThrow.dropLast boot
  exact ⟨m, (raise m).getD m, xexec_reach _, some_getD m (by decide +kernel), by decide +kernel,
    by decide +kernel⟩

/-- Hypotheses of `C80_next_set`: after the exception, the state is set again, so that the reader
changes, too. -/
example : ∃ m m0 m1 m' : M Nat Nat, XReach m ∧ m.AtRest ∧ (m.g.node 0).kind = .state true ∧
    ustep m (.set 0 63) = some m0 ∧ istep m0 = some m1 ∧ m.Live 1 ∧ 2 ∈ (m.g.node 1).obs ∧
    (∀ a, m.Above a 1 → m1.get a ≠ m.get a) ∧ Runs m1 m' ∧ m'.AtRest ∧ 2 ∈ (m'.g.node 1).obs ∧
    m'.Live 1 ∧ m'.calm = true ∧
    m'.log = m.log ++ [.call 0 0 63, .call 1 0 63, .call 2 1 6] := by
  let m := xexec exThrow boot
  let m0 := (ustep m (.set 0 63)).getD m
  have h0 : ustep m (.set 0 63) = some m0 := some_getD m (by decide +kernel)
  let m1 := (istep m0).getD m0
  have h1 : istep m0 = some m1 := some_getD m0 (by decide +kernel)
  let m' := exec [.ret, .ret, .ret] (libN 200 m1)
  have hr : XReach m := xexec_reach _
  obtain ⟨E, σ, hx⟩ := xreach_inv hr (by decide +kernel)
  refine ⟨m, m0, m1, m', hr, ⟨by decide +kernel, by decide +kernel⟩,
    isState_state (by decide +kernel), h0, h1,
    by unfold M.Live; decide +kernel, by decide +kernel, ?_,
    (libN_run 200 m1).runs.trans (exec_runs _ _), ⟨by decide +kernel, by decide +kernel⟩,
    by decide +kernel, by unfold M.Live; decide +kernel, by decide +kernel, by decide +kernel⟩
  intro a ha
  have hle : a ≤ 1 := Above.le hx.wf ha
  rcases (by omega : a = 0 ∨ a = 1) with rfl | rfl
  · decide +kernel
  · decide +kernel

/-- Hypotheses of `C80_recovers`: the callback on the state itself, after the exception.  The state
does not wait for a notification any more, although its second callback was left out. -/
example : ∃ m m' : M Nat Nat, XReach m ∧ m.AtRest ∧ m.Live 0 ∧ (∀ a, m.Above a 0 → ¬ m.Waiting a) ∧
    1 ∈ (m.g.node 0).obs ∧ Runs m m' ∧ m'.AtRest ∧ m'.calm = true ∧
    m'.log = m.log ++ [.call 0 0 58, .call 1 0 58, .call 2 1 5] := by
  let m := xexec exThrow boot
  have hr : XReach m := xexec_reach _
  obtain ⟨E, σ, hx⟩ := xreach_inv hr (by decide +kernel)
  refine ⟨m, exec [.set 0 58, .ret, .ret, .ret] m, hr, ⟨by decide +kernel, by decide +kernel⟩,
    by unfold M.Live; decide +kernel, ?_, by decide +kernel, exec_runs _ _,
    ⟨by decide +kernel, by decide +kernel⟩, by decide +kernel, by decide +kernel⟩
  intro a ha
  have hle : a ≤ 0 := Above.le hx.wf ha
  rcases (by omega : a = 0) with rfl
  unfold M.Waiting
  decide +kernel

/-- A setter function that throws. -/
example : ∃ m m1 m2 m3 : M Nat Nat, XReach m ∧ (m.g.node 1).kind = .setter true ∧
    ustep m (.set 1 9) = some m1 ∧ istep m1 = some m2 ∧ raise m2 = some m3 ∧ m3.AtRest ∧
    m3.get 1 = 4 ∧ m3.pending 1 = 4 := by
  let m := xexec [some (.newState true true 4), some (.newSetter true 0 true)] boot
  let m1 := (ustep m (.set 1 9)).getD m
  let m2 := (istep m1).getD m1
  exact ⟨m, m1, m2, (raise m2).getD m2, xexec_reach _, rfl, some_getD m (by decide +kernel),
    some_getD m1 (by decide +kernel), some_getD m2 (by decide +kernel),
    ⟨by decide +kernel, by decide +kernel⟩, by decide +kernel, by decide +kernel⟩

/-- C07 does not hold with exceptions: the callbacks that were to be called after the one that has
thrown are not called.  Their readers show values that they were never given. -/
theorem C80_missed_false : ∃ m : M Nat Nat, XReach m ∧ m.AtRest ∧ m.Live 1 ∧
    (∀ a, m.Above a 1 → ¬ m.Uncommitted a) ∧
    1 ∈ (m.g.node 0).obs ∧ m.get 0 = 57 ∧ given 1 1 m.log = 1 ∧
    2 ∈ (m.g.node 1).obs ∧ m.get 1 = 5 ∧ given 0 2 m.log = 0 := by
  have hr : XReach (xexec exThrow boot) := xexec_reach _
  obtain ⟨E, σ, hx⟩ := xreach_inv hr (by decide +kernel)
  refine ⟨xexec exThrow boot, hr, ⟨by decide +kernel, by decide +kernel⟩,
    by unfold M.Live; decide +kernel, ?_, by decide +kernel, by decide +kernel, by decide +kernel,
    by decide +kernel, by decide +kernel, by decide +kernel⟩
  intro a ha hu
  have hle : a ≤ 1 := Above.le hx.wf ha
  rcases (by omega : a = 0 ∨ a = 1) with rfl | rfl
  · have := hu.2; revert this; decide +kernel
  · have := hu.2; revert this; decide +kernel

/-- Writing to a cursor that was merged from two automatic states is not atomic: if a callback on the
first one throws, the second one is not written. -/
theorem C80_atomic_false : ∃ m m' : M Nat Nat, XReach m ∧ m.AtRest ∧ XRuns m m' ∧ m'.AtRest ∧
    m.get 0 = 1 ∧ m.get 1 = 2 ∧ (m.g.node 2).parents = [0, 1] ∧
    ustep m (.set 2 34) = some { m with stack := .up 2 34 :: m.stack } ∧
    m'.get 0 = 3 ∧ m'.get 1 = 2 ∧ m'.get 2 = 32 := by
  let view : List Nat → Option Nat := fun
    | [a, b] => some (10 * a + b)
    | _ => none
  let ops : List (Option (Op Nat Nat)) :=
    [some (.newState true true 1), some (.newState true true 2),
     some (.newCalc true [0, 1] view (some fun _ v => [v / 10, v % 10]) false 0),
     some (.attach 0 0)]
  let m := xexec ops boot
  let a := (ustep m (.set 2 34)).getD m
  have ha : ustep m (.set 2 34) = some a := some_getD m (by decide +kernel)
  let b := libN 200 a
  let c := (raise b).getD b
  have hc : raise b = some c := some_getD b (by decide +kernel)
  refine ⟨m, c, xexec_reach ops, ⟨by decide +kernel, by decide +kernel⟩, ?_,
    ⟨by decide +kernel, by decide +kernel⟩, by decide +kernel, by decide +kernel, by decide +kernel,
    ?_, by decide +kernel, by decide +kernel, by decide +kernel⟩
  · have runs_x : ∀ {x y : M Nat Nat}, Runs x y → ∀ {z}, XRuns y z → XRuns x z := by
      intro x y h
      induction h with
      | refl => intro z hz; exact hz
      | step hs _ ih => intro z hz; exact .step (.step hs) (ih hz)
    exact .step (.step (.user _ ha)) (runs_x (libN_run 200 a).runs (.step (.raise hc) (.refl _)))
  · rfl

end Verif.Graph
