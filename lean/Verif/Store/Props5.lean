import Verif.Store.Lost

/-!
Property C81: reducers and watchers that throw.
-/

namespace Verif.Store

open Verif.Future (Fulfilled)

variable {A Mo : Type}

/-- The actions for which the reducer has returned, in order. -/
def survivors : List (SEv A Mo) → List A
  | [] => []
  | .reduced _ _ a _ _ :: l => a :: survivors l
  | _ :: l => survivors l

/-- What the reducer alone makes of them. -/
def plainFold (c : Cfg A Mo) (as : List A) : Mo := as.foldl (fun m a => (c.reducer m a).1) c.init

theorem survivors_append (l r : List (SEv A Mo)) : survivors (l ++ r) = survivors l ++ survivors r := by
  induction l with
  | nil => rfl
  | cons x l ih => cases x <;> simp [survivors, ih]

theorem fold_survivors {c : Cfg A Mo} {l : List (SEv A Mo)} (h : LogOK c l) :
    fold c (reductions l) = plainFold c (survivors l) := by
  suffices hh : ∀ n, n ≤ l.length → fold c (reductions (l.take n)) = plainFold c (survivors (l.take n)) by
    have := hh l.length (Nat.le_refl _)
    rwa [List.take_length] at this
  intro n
  induction n with
  | zero => intro _; rfl
  | succ n ih =>
    intro hn
    have ih := ih (by omega)
    have hlt : n < l.length := hn
    have h1 : l = l.take n ++ l[n] :: l.drop (n + 1) := by
      rw [List.getElem_cons_drop, List.take_append_drop]
    have h2 := h _ _ _ h1
    rw [List.take_succ_eq_append_getElem hlt, reductions_append, survivors_append]
    generalize l.take n = l1 at *
    generalize l[n] = x at *
    cases x with
    | reduced d m a m' e =>
      obtain ⟨_, h3, h4⟩ := h2
      simp only [reductions, survivors, fold, plainFold, List.foldl_append, List.foldl_cons, List.foldl_nil] at ih ⊢
      rename_i hm
      have hm : m = List.foldl c.next c.init (reductions l1) := hm
      rw [← ih, ← hm]
      simp [Cfg.next, h4]
    | reduceThrew d m a =>
      obtain ⟨hm, h4⟩ := h2
      simp only [reductions, survivors, List.append_nil]
      rw [← ih, fold_append, ← hm]
      simp [Cfg.next, h4]
    | _ => simpa [reductions, survivors] using ih

/-- C81: an action for which the reducer throws is as good as one that was never dispatched: when no tasks are
left, the model is what the reducer makes of the others, and so is every model that watchers are called
with. -/
theorem C81_model {c : Cfg A Mo} (hc : c.sound) {st : St A Mo} (r : Reach c st) :
    (c.trans = false → st.idle → st.get = plainFold c (survivors st.log)) ∧
    (∀ l1 v l2, st.log = l1 ++ .shown v :: l2 → v = plainFold c (survivors l1)) := by
  have k := r.core hc
  refine ⟨fun ht hi => ?_, fun l1 v l2 hl => ?_⟩
  · rw [← fold_survivors k.log, ← k.cur]
    show st.last = _
    cases hd : st.dirty with
    | false => exact k.clean hd
    | true =>
      obtain ⟨x, hx, _⟩ := k.wake ht hd
      rw [show st.queue = [] from hi] at hx
      cases hx
  · have h1 : v = fold c (reductions l1) := k.log l1 _ l2 hl
    have h2 : LogOK c l1 := fun a e b hab => k.log a e (b ++ .shown v :: l2) (by rw [hl, hab]; simp)
    rw [h1, fold_survivors h2]

/-- C81: when the reducer throws, nothing has changed but that the task is gone: not the model, not what
`get()` returns, no futures or promises, and no watcher or effect is called. -/
theorem C81_threw {c : Cfg A Mo} {st : St A Mo} {d i : Nat} {a : A} {q : List (Item A)}
    (hq : st.queue = .reduce d a i :: q) (ht : c.throws st.cur a = true) :
    step c st .loop = some { st with queue := q, log := st.log ++ [.reduceThrew d st.cur a] } := by
  simp [step, St.loop, hq, ht, St.say]

/-- C81: the dispatch for which the reducer throws has no effect, and its future is never fulfilled. -/
theorem C81_reducer {c : Cfg A Mo} (hc : c.sound) {st : St A Mo} (r : Reach c st) {d : Nat}
    (h : ReducerThrew st d) :
    effRuns d st.log = 0 ∧ (∀ a e, ¬ Returned st d a e) ∧
    (c.hasF = true → st.fu.ub = false → ∀ s, Promised st d s → ¬ Fulfilled st.fu s) := by
  have hno : ∀ {m a m' e}, SEv.reduced d m a m' e ∉ st.log := fun h' => reduced_not_threw hc r h' h
  refine ⟨?_, fun a e ⟨m, m', h'⟩ => hno h', ?_⟩
  · rcases Nat.eq_zero_or_pos (effRuns d st.log) with h0 | h0
    · exact h0
    · obtain ⟨a, e, ⟨m, m', h'⟩, _⟩ := (C49_once hc r d).2.2 h0
      exact absurd h' hno
  · rintro hF hu s ⟨i, hs⟩ hd
    rcases (r.pi hF hu).p.done d i s hs hd with ⟨m, a', m', e, h1, _⟩ | ⟨x, o, ⟨m, a', m', e, h1, _⟩, _⟩
    · exact hno h1
    · exact hno h1

/-- C81: a watcher that throws has seen the model that includes the action; the effect of the dispatch whose
task it was is not called, and its future is never fulfilled. -/
theorem C81_watcher {c : Cfg A Mo} (hc : c.sound) (hF : c.hasF = true) {st : St A Mo} (r : Reach c st)
    (hu : st.fu.ub = false) {d : Nat} (h : Lost st d) :
    (∃ a e, Returned st d a e) ∧ effRuns d st.log = 0 ∧
    (∃ l1 o l2, st.log = l1 ++ .lost d o :: l2 ∧ lastShown c.init l1 = plainFold c (survivors l1)) ∧
    (∀ s, Promised st d s → ¬ Fulfilled st.fu s) := by
  obtain ⟨o, h⟩ := h
  have g := r.ginv hF hu
  have k := r.core hc
  obtain ⟨m, a, m', e, h1, h2⟩ := g.red d o h
  have h0 : effRuns d st.log = 0 := by
    have h3 := k.effs d
    have h4 := k.redEff_one d
    rcases h2 with ⟨rfl, h2⟩ | ⟨rfl, h2⟩
    · have : 0 < lostEff d st.log := by
        obtain ⟨l1, l2, hl⟩ := List.append_of_mem h
        rw [hl, lostEff_append]
        simp only [lostEff, if_true]
        omega
      omega
    · rcases Nat.eq_zero_or_pos (effRuns d st.log) with h0 | h0
      · exact h0
      · obtain ⟨b, f, ⟨n, n', h'⟩, hf⟩ := (C49_once hc r d).2.2 h0
        have := reduced_unique hc r h1 h'
        cases this
        rw [h2] at hf; cases hf
  refine ⟨⟨a, e, m, m', h1⟩, h0, ?_, ?_⟩
  · obtain ⟨l1, l2, hl⟩ := List.append_of_mem h
    refine ⟨l1, o, l2, hl, ?_⟩
    have h3 : LogOK c l1 := fun a e b hab => k.log a e (b ++ .lost d o :: l2) (by rw [hl, hab]; simp)
    rw [← fold_survivors h3]
    exact (k.log l1 _ l2 hl).2
  · rintro s ⟨i, hs⟩ hd
    have ht : c.trans = false := by
      obtain ⟨l1, l2, hl⟩ := List.append_of_mem h
      exact (k.log l1 _ l2 hl).1
    rcases (r.pi hF hu).p.done d i s hs hd with ⟨n, a', n', f, _, _, h3⟩ | ⟨x, o', ⟨_, _, _, _, _, _, _, h3⟩, _⟩
    · exact g.excl d (h3 ht) o h
    · have : 0 < effRuns d st.log := by
        obtain ⟨l1, l2, hl⟩ := List.append_of_mem h3
        rw [hl, effRuns_append]
        simp only [effRuns, if_true]
        omega
      omega

/-- C81: the others go on: when nothing is left to do, every other dispatch has been reduced, the effects that
the reducer has returned have been called, and the futures are fulfilled, except where effects have thrown or
returned futures that are not. -/
theorem C81_others {c : Cfg A Mo} (hc : c.sound) (hF : c.hasF = true) {st : St A Mo} (r : Reach c st)
    (hu : st.fu.ub = false) (hi : st.idle) (hq : st.quiet) {d : Nat} {a : A}
    (hd : SEv.dispatched d a ∈ st.log) (hr : ¬ ReducerThrew st d) (hl : ¬ Lost st d) :
    (∃ e, Returned st d a e ∧ (e.isEmpty = false → effRuns d st.log = 1)) ∧
    ∀ s, Promised st d s → (∀ x e, SEv.effStart d x e ∈ st.log → ¬ Threw st x) →
      (∀ g, SEv.effEnd d (some g) ∈ st.log → Fulfilled st.fu g) → Fulfilled st.fu s := by
  have k := r.core hc
  refine ⟨?_, fun s hp ht hf => C52_completes hc hF r hu hi hq hp hr hl ht hf⟩
  have h1 : (d, a) ∈ red st.log := by
    have := mem_disp.1 hd
    rw [k.order, show st.queue = [] from hi] at this
    simpa [pend] using this
  obtain ⟨m, m', e, h4⟩ := (mem_red.1 h1).resolve_right fun ⟨m, h⟩ => hr ⟨m, a, h⟩
  exact ⟨e, ⟨m, m', h4⟩, fun he => (C49_once hc r d).2.1 a e ⟨m, m', h4⟩ he hi hl⟩

/-! ### An example

The reducer throws for action 3.  Five actions are dispatched: the reducer throws for the second one, and a
watcher in the task that was going to call the effect of the fourth one. -/

def exThrowCfg : Cfg Nat Nat := { exCfg false true with throws := fun _ a => a == 3 }

def exThrowOps : List (SOp Nat) :=
  [.dispatch 1, .dispatch 3, .dispatch 4, .loop, .loop, .loop, .loop, .loop, .dispatch 2, .dispatch 1, .loop,
   .loop, .loopRaise, .loop]

theorem exThrow_sound : exThrowCfg.sound := by
  intro v w h
  simpa [exThrowCfg, exCfg] using h

theorem exThrow_reach : Reach exThrowCfg (exSt exThrowCfg exThrowOps) := exSt_reach (by decide +kernel)

theorem exThrow_quiet : (exSt exThrowCfg exThrowOps).quiet :=
  quiet_of (exThrow_reach.pi rfl (by decide +kernel)).fi (by decide +kernel)
    (by decide +kernel) (by decide +kernel) (by decide +kernel)

/-- The model is 10 + 1 + 4 + 2 + 1, the effect of dispatch 3 is lost, and all other futures are fulfilled. -/
example : (exSt exThrowCfg exThrowOps).queue.isEmpty = true ∧ (exSt exThrowCfg exThrowOps).fu.ub = false ∧
    (exSt exThrowCfg exThrowOps).get = 18 ∧
    survivors (exSt exThrowCfg exThrowOps).log = [1, 4, 2, 1] ∧
    SEv.reduceThrew 1 11 3 ∈ (exSt exThrowCfg exThrowOps).log ∧
    SEv.lost 3 (some (.prim 7)) ∈ (exSt exThrowCfg exThrowOps).log ∧
    (exSt exThrowCfg exThrowOps).sent = [(0, 0), (1, 1), (2, 2), (3, 3), (4, 4)] ∧
    ((List.range 5).map fun s => ((exSt exThrowCfg exThrowOps).fu.cell s).done) =
      [true, false, true, false, true] := by decide +kernel

end Verif.Store
