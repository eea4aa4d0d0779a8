import Verif.Store.Thunk
import Verif.Store.Props3

/-!
Property C55: thunks.
-/

namespace Verif.Store

variable {A Mo : Type}

/-- The ordinary actions among actions and thunks. -/
def ordinary : List (Eff ⊕ A) → List A
  | [] => []
  | .inl _ :: l => ordinary l
  | .inr a :: l => a :: ordinary l

theorem withThunk_sound {c : Cfg A Mo} (hc : c.sound) : (withThunk c).sound := hc

theorem fold_withThunk (c : Cfg A Mo) (l : List (Eff ⊕ A)) : fold (withThunk c) l = fold c (ordinary l) := by
  unfold fold
  show List.foldl _ c.init l = _
  generalize c.init = m
  induction l generalizing m with
  | nil => rfl
  | cons x l ih => cases x <;> exact ih _

/-- C55: dispatching a thunk leaves the model as it is, and the effect is the thunk, which is called once:
it has been when no tasks are left, unless a watcher has thrown in its task, and never more often. -/
theorem C55_thunk {c : Cfg A Mo} (hc : c.sound) {st : St (Eff ⊕ A) Mo} (r : Reach (withThunk c) st)
    {d : Nat} {m m' : Mo} {e e' : Eff} (h : SEv.reduced d m (.inl e) m' e' ∈ st.log) :
    m' = m ∧ e' = e ∧ effRuns d st.log ≤ 1 ∧
    (e ≠ .empty → st.idle → ¬ Lost st d → effRuns d st.log = 1) ∧
    (∀ x e1, SEv.effStart d x e1 ∈ st.log → e1 = e) := by
  obtain ⟨l1, l2, hl⟩ := List.append_of_mem h
  have h1 := ((C48_order (withThunk_sound hc) r).2.1 l1 l2 d m _ m' e' hl).2.1
  simp only [withThunk, Prod.mk.injEq] at h1
  obtain ⟨rfl, rfl⟩ := h1
  obtain ⟨o1, o2, o3⟩ := C49_once (withThunk_sound hc) r d
  refine ⟨rfl, rfl, o1, fun he hi hl => ?_, fun x e1 h1 => ?_⟩
  · refine o2 (.inl e') e' ⟨_, _, h⟩ ?_ hi hl
    cases e' <;> simp_all [Eff.isEmpty]
  · obtain ⟨l3, l4, hl'⟩ := List.append_of_mem h1
    obtain ⟨⟨n, a, n', h2⟩, _⟩ := (r.core (withThunk_sound hc)).log l3 _ l4 hl'
    have h3 := reduced_unique (withThunk_sound hc) r h
      (show SEv.reduced d n a n' e1 ∈ st.log by rw [hl']; exact List.mem_append_left _ h2)
    cases h3; rfl

/-- C55: the model is what the ordinary actions alone make of it. -/
theorem C55_model {c : Cfg A Mo} (hc : c.sound) (ht : c.trans = false) {st : St (Eff ⊕ A) Mo}
    (r : Reach (withThunk c) st) (hi : st.idle) : st.get = fold c (ordinary (dispatches st.log)) := by
  rw [← fold_withThunk]
  exact C48_fold (withThunk_sound hc) ht r hi

/-- C55: the same at each moment for the calls of watchers. -/
theorem C55_shown {c : Cfg A Mo} (hc : c.sound) {st : St (Eff ⊕ A) Mo}
    (r : Reach (withThunk c) st) {l1 l2 : List (SEv (Eff ⊕ A) Mo)} {v : Mo}
    (h : st.log = l1 ++ .shown v :: l2) : v = fold c (ordinary (reductions l1)) := by
  rw [← fold_withThunk]
  exact (C50_fold (withThunk_sound hc) r h).1

/-- C55: … and for transactional stores, where `commit` makes the model visible. -/
theorem C55_commit {c : Cfg A Mo} (hc : c.sound) {st st' : St (Eff ⊕ A) Mo} (r : Reach (withThunk c) st)
    (h : step (withThunk c) st .commit = some st') : st'.get = fold c (ordinary (reductions st.log)) := by
  rw [← fold_withThunk]
  exact (C51_commit (withThunk_sound hc) r h).1

/-- C55: if the reducer has effects, then with ordinary actions every run of the store without the
enhancer is one of the store with it, and the other way round: the states are the same, except for the type
of actions. -/
theorem C55_actions {c : Cfg A Mo} (h : ∀ m a, (c.reducer m a).2 ≠ .empty) (ops : List (SOp A)) :
    exec (withThunk c) (start (withThunk c)) (ops.map (SOp.map .inr)) =
      (exec c (start c) ops).map (St.map .inr) := by
  have hs : Same Sum.inr c (withThunk c) := same_withThunk fun m a => by
    have := h m a
    cases hh : (c.reducer m a).2 <;> simp_all [Eff.isEmpty]
  rw [← start_map hs]
  exact exec_map hs _ _

/-- C55: if it has no effects, then for each run of the store without the enhancer there is one of the
store with it that leads to the same model, futures and promises and number of waiting tasks, with the
same calls of the reducer and of watchers; it is the one where the effects, which do nothing, return at
once. -/
theorem C55_actions_plain {c : Cfg A Mo} (h : ∀ m a, (c.reducer m a).2 = .empty) (ht : c.trans = false)
    {ops : List (SOp A)} {st : St A Mo} (hs : exec c (start c) ops = some st) :
    ∃ ops' st', exec (withThunk c) (start (withThunk c)) ops' = some st' ∧
      st'.get = st.get ∧ st'.fu = st.fu ∧ st'.sent = st.sent ∧ st'.ev = [] ∧
      st'.queue.length = st.queue.length ∧ shows st'.log = shows st.log ∧
      dispatches st'.log = (dispatches st.log).map .inr ∧
      reductions st'.log = (reductions st.log).map .inr := by
  have h1 := exec_map (same_bare c) (start c) ops
  rw [start_map (same_bare c), hs] at h1
  have hp : Plain (start (bare c)) := ⟨rfl, rfl, fun _ _ _ hm => by cases hm⟩
  obtain ⟨p, ops', n', l', e1, e2⟩ := noop_exec (noops_withThunk c) ht (fun x => ∃ a, x = .inr a)
    (by rintro m _ ⟨a, rfl⟩; exact h m a)
    (ops := ops.map (SOp.map .inr))
    (by
      intro a ha
      rw [List.mem_map] at ha
      obtain ⟨op, _, h⟩ := ha
      cases op <;> cases h
      exact ⟨_, rfl⟩)
    hp (by intro d a i hm; cases hm) h1 (n := 0) (l := []) rfl
  have hlog : ∀ {α : Type} (f : List (SEv (Eff ⊕ A) Mo) → List α), (∀ l, f (l.filterMap obs) = f l) →
      f l' = f (st.map Sum.inr).log := by
    intro α f hf
    rw [← hf, e2, hf]
  refine ⟨ops', _, e1, rfl, rfl, rfl, p.ev, ?_, ?_, ?_, ?_⟩
  · simp [St.re, St.map]
  · show shows l' = _
    rw [hlog _ shows_obs]
    simp only [St.map]
    induction st.log with
    | nil => rfl
    | cons e l ih => cases e <;> simp [SEv.map, shows, ih]
  · show dispatches l' = _
    rw [hlog _ dispatches_obs]
    simp only [St.map]
    induction st.log with
    | nil => rfl
    | cons e l ih => cases e <;> simp [SEv.map, dispatches, ih]
  · show reductions l' = _
    rw [hlog _ reductions_obs]
    simp only [St.map]
    induction st.log with
    | nil => rfl
    | cons e l ih => cases e <;> simp [SEv.map, reductions, ih]

/-! ### An example -/

/-- An ordinary action, and a thunk that dispatches another one. -/
def exThunkOps : List (SOp (Eff ⊕ Nat)) :=
  [.dispatch (.inr 1), .dispatch (.inl (.prim 9)), .loop, .loop, .loop, .go 0, .go 0, .loop, .go 0,
   .dispatch (.inr 2), .prim 0 none, .go 0, .loop, .loop, .go 0, .prim 0 none, .go 0]

example : (exec (withThunk (exCfg false false)) (start (withThunk (exCfg false false))) exThunkOps).isSome = true ∧
    SEv.reduced 1 11 (.inl (.prim 9)) 11 (.prim 9) ∈ (exSt (withThunk (exCfg false false)) exThunkOps).log ∧
    effRuns 1 (exSt (withThunk (exCfg false false)) exThunkOps).log = 1 ∧
    (exSt (withThunk (exCfg false false)) exThunkOps).get = 13 ∧
    dispatches (exSt (withThunk (exCfg false false)) exThunkOps).log = [.inr 1, .inl (.prim 9), .inr 2] := by
  decide +kernel

/-- A store whose reducer always returns an effect. -/
example : ∀ m a, ((exSeqCfg false).reducer m a).2 ≠ .empty := by
  intro m a; simp [exSeqCfg, sequence]

/-- A store without effects. -/
def exPlainCfg : Cfg Nat Nat := { exCfg false true with reducer := fun m a => (m + a, .empty) }

example : (exec exPlainCfg (start exPlainCfg) [.dispatch 1, .dispatch 2, .loop, .loop, .loop, .loop]).isSome = true ∧
    (exSt exPlainCfg [.dispatch 1, .dispatch 2, .loop, .loop, .loop, .loop]).get = 13 := by decide +kernel

end Verif.Store
