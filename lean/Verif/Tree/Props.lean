import Verif.Tree.Lemmas

/-
Property theorems C66-C68 (and C74) about the tree debugger.
-/

namespace Verif.Tree

open Verif.Debugger (Atom Reducer userEff)

variable {A M E : Type}

/-- An adding reducer for the examples. -/
def exRed : Reducer Nat Nat Nat := fun m a => (m + a, some a)

/-! ### C66 -/

/-- **C66**: no further sequence of actions (including redo, which throws) causes undefined
behaviour, and after it every cursor that denoted a recorded step still denotes a step with the
same action and model; and the shown cursor denotes an existing state. -/
theorem C66_keeps_past (r : Reducer M A E) (m : Model A M) (hm : Reachable r m)
    (as : List (Action A)) :
    ∃ m' es, run r m as = some (m', es) ∧
      (∀ c s, stepAt m.branches c = some s →
        ∃ s', stepAt m'.branches c = some s' ∧ s'.action = s.action ∧ s'.model = s.model) ∧
      (∃ x, m'.shown = some x) := by
  obtain ⟨m', es, h1, h2, h3⟩ := run_inv r as m (reachable_inv r m hm)
  refine ⟨m', es, h1, ?_, ?_⟩
  · intro c s hs
    have hl := h3 c _ (stepAt_lookup m c s hs)
    rcases lookup_stepAt m' c _ hl with rfl | ⟨s', hs', he⟩
    · cases hs
    · obtain ⟨e1, e2⟩ := Prod.mk.inj he
      exact ⟨s', hs', (Option.some.inj e1).symm, e2.symm⟩
  · obtain ⟨p, hp⟩ := h2.valid
    exact ⟨p.2, by unfold Model.shown; rw [hp]; rfl⟩

example : ∃ m es, run exRed (Model.start 0) [.act 1, .act 2, .undo, .act 4, .redo, .pause, .act 9,
    .resume, .undo] = some (m, es) ∧ m.shown = some 5 ∧
    (stepAt m.branches [⟨0, 1⟩]).map Step.model = some 3 := ⟨_, _, rfl, by decide, by decide⟩

/-! ### C67 -/

/-- **C67 is false**: acting on a past step that already has a branch shows the *first* branch,
not the result of the action: after actions 1, 2, undo, 4, undo, 8 the model before the last action
is 1, the reducer gives 9, and 5 is shown. -/
theorem C67_false :
    ∃ (m m' : Model Nat Nat) (es es' : List (Atom Nat)),
      run exRed (Model.start 0) [.act 1, .act 2, .undo, .act 4, .undo] = some (m, es) ∧
      m.paused = false ∧ m.shown = some 1 ∧ update exRed m (.act 8) = .ok m' es' ∧
      m'.shown = some 5 ∧ (exRed 1 8).1 = 9 :=
  ⟨_, _, _, _, rfl, rfl, by decide, rfl, by decide, rfl⟩

/-- **C67, the part that holds**: at the root, at the last step of a branch and on a step
without branches, the shown model is the reducer's result.  For the other positions see `C67_old_branch`. -/
theorem C67_shows_result (r : Reducer M A E) (m : Model A M) (hm : Reachable r m)
    (hp : m.paused = false) (a : A)
    (h : m.cursor = [] ∨ stepAt m.branches (nextInBranch m.cursor) = none ∨
      ∃ s, stepAt m.branches m.cursor = some s ∧ s.branches = []) :
    ∃ x m', m.shown = some x ∧ update r m (.act a) = .ok m' ((r x a).2.toList.map .user) ∧
      m'.shown = some (r x a).1 := by
  obtain ⟨x, m', h1, h2, _, _, _, h6, h7⟩ := act_spec r m a (reachable_inv r m hm) hp
  refine ⟨x, m', h1, ?_, ?_⟩
  · simp only [update, h2]
    cases (r x a).2 <;> rfl
  · have hc : m'.cursor = newPos m.branches m.cursor := by
      rcases h7 with h7 | ⟨s, hs, hb, ⟨t, ht⟩, _⟩
      · exact h7
      · exfalso
        rcases h with h | h | ⟨s', hs', hb'⟩
        · rw [h] at hs; cases hs
        · rw [h] at ht; cases ht
        · rw [hs] at hs'; cases hs'; exact hb hb'
    unfold Model.shown
    rw [h6, if_pos hc]
    rfl

/-- **C67, all other positions**: on a past step that already has branches, what is shown after the action is what was
recorded earlier as the first step of its first branch, whatever the action is. -/
theorem C67_old_branch (r : Reducer M A E) (m : Model A M) (hm : Reachable r m) (hp : m.paused = false) (a : A)
    {s t : Step A M} (hs : stepAt m.branches m.cursor = some s) (hb : s.branches ≠ [])
    (ht : stepAt m.branches (nextInBranch m.cursor) = some t) :
    ∃ m' es y, update r m (.act a) = .ok m' es ∧ m'.cursor = m.cursor ++ [⟨0, 0⟩] ∧
      m.lookup m'.cursor = some y ∧ m'.shown = some y.2 := by
  have hi := reachable_inv r m hm
  obtain ⟨x, m', h1, h2, h3, _, _, h6, _⟩ := act_spec r m a hi hp
  have hc : m'.cursor = m.cursor ++ [⟨0, 0⟩] := by
    unfold updateAct at h2
    rw [if_neg (by simp [hp]), h1] at h2
    simp only at h2
    split at h2
    · cases h2
    · next m1 hm1 =>
      injection h2 with h2
      subst h2
      unfold Model.append at hm1
      cases hcur : m.cursor with
      | nil => rw [hcur] at hs; cases hs
      | cons p rest =>
        rw [if_neg (by simp [hcur])] at hm1
        split at hm1
        · cases hm1
        · next b' cur' he =>
          have := doAppend_branch_cursor _ _ _ _ _ _ _ _ _ he ht
          injection hm1 with hm1
          rw [← hm1]
          rw [← hcur]
          exact this
  have hne : m.cursor ++ [⟨0, 0⟩] ≠ newPos m.branches m.cursor := by
    unfold newPos
    rw [hs]
    simp only [ht]
    intro e
    have := List.append_cancel_left e
    injection this with h _
    injection h with h _
    exact hb (List.length_eq_zero_iff.mp h.symm)
  obtain ⟨y, hy⟩ := h3.valid
  have hl := h6 m'.cursor
  rw [if_neg (by rw [hc]; exact hne)] at hl
  exact ⟨m', _, y, h2, hc, hl ▸ hy, by unfold Model.shown; rw [hy]; rfl⟩

example : ∃ m es s t, run exRed (Model.start 0) [.act 1, .act 2, .undo, .act 4, .undo] = some (m, es) ∧
    m.paused = false ∧ stepAt m.branches m.cursor = some s ∧ s.branches ≠ [] ∧
    stepAt m.branches (nextInBranch m.cursor) = some t :=
  ⟨_, _, _, _, rfl, rfl, rfl, by simp [Step.branches], rfl⟩

/-- **C67**, exact description: the step taken is always recorded, at a position that did not exist
before, and that position is where `undo` leads back to the acting position; nothing else changes. -/
theorem C67_recorded (r : Reducer M A E) (m : Model A M) (hm : Reachable r m)
    (hp : m.paused = false) (a : A) :
    ∃ x m' es c, m.shown = some x ∧ update r m (.act a) = .ok m' es ∧
      m.lookup c = none ∧ m'.lookup c = some (some a, (r x a).1) ∧
      undoCursor c = m.cursor ∧
      (∀ d, d ≠ c → m'.lookup d = m.lookup d) := by
  have hi := reachable_inv r m hm
  obtain ⟨x, m', h1, h2, _, _, _, h6, h7⟩ := act_spec r m a hi hp
  refine ⟨x, m', _, newPos m.branches m.cursor, h1, h2, lookup_newPos_none m, ?_, ?_, ?_⟩
  · rw [h6, if_pos rfl]
  · apply undo_newPos
    obtain ⟨p, hx⟩ := hi.valid
    rcases lookup_stepAt m _ _ hx with h | ⟨s, h, _⟩
    · exact .inl h
    · exact .inr ⟨s, h⟩
  · intro d hd
    rw [h6, if_neg hd]

example : ∃ m es, run exRed (Model.start 0) [.act 1, .act 2, .undo] = some (m, es) ∧
    m.paused = false ∧ m.cursor = [⟨0, 0⟩] ∧
    (stepAt m.branches m.cursor).map (fun s => s.branches.length) = some 0 :=
  ⟨_, _, rfl, rfl, rfl, rfl⟩

/-! ### C68 -/

/-- **C68**: undo moves to the state in which the current step was taken: the step's model is the
reducer's result on the model shown after undo and the step's action.  At the root undo does
nothing. -/
theorem C68_undo (r : Reducer M A E) (m : Model A M) (hm : Reachable r m) :
    (m.cursor = [] → update r m .undo = .ok m []) ∧
    (∀ a x, m.lookup m.cursor = some (some a, x) →
      ∃ m' y, update r m .undo = .ok m' [] ∧ m'.shown = some y ∧ x = (r y a).1 ∧
        m'.branches = m.branches) := by
  constructor
  · intro h
    simp only [update]
    congr 1
    rw [h, undoCursor_nil]
    cases m
    simp only at h
    rw [h]
  · intro a x hx
    obtain ⟨o, y, h1, h2⟩ := (reachable_inv r m hm).genuine _ a x hx
    refine ⟨_, y, rfl, ?_, h2, rfl⟩
    show ((m.lookup (undoCursor m.cursor)).map (·.2)) = some y
    rw [h1]; rfl

/-- **C68**: every recorded step of the tree, not only the shown one, is genuine. -/
theorem C68_genuine (r : Reducer M A E) (m : Model A M) (hm : Reachable r m) (c : Cursor)
    (s : Step A M) (hs : stepAt m.branches c = some s) :
    ∃ o y, m.lookup (undoCursor c) = some (o, y) ∧ s.model = (r y s.action).1 :=
  (reachable_inv r m hm).genuine c s.action s.model (stepAt_lookup m c s hs)

/-- **C68**: goto moves exactly to existing positions, and to a non-existing one does nothing. -/
theorem C68_goto (r : Reducer M A E) (m : Model A M) (c : Cursor) :
    (c ≠ [] → stepAt m.branches c = none → update r m (.goto_ c) = .ok m []) ∧
    (∀ s, stepAt m.branches c = some s →
      ∃ m', update r m (.goto_ c) = .ok m' [] ∧ m'.shown = some s.model ∧
        m'.branches = m.branches) ∧
    (∃ m', update r m (.goto_ []) = .ok m' [] ∧ m'.shown = some m.init ∧
        m'.branches = m.branches) := by
  refine ⟨?_, ?_, ?_⟩
  · intro hne h
    have : m.check c = false := by
      unfold Model.check
      rw [lookup_ne _ _ hne, doLookup_eq, h]; rfl
    simp [update, this]
  · intro s hs
    have hl := stepAt_lookup m c s hs
    have : m.check c = true := by unfold Model.check; rw [hl]; rfl
    refine ⟨{ m with cursor := c }, by simp [update, this], ?_, rfl⟩
    show (m.lookup c).map (·.2) = _
    rw [hl]; rfl
  · exact ⟨{ m with cursor := [] }, rfl, rfl, rfl⟩

/-- **C68**: redo always throws. -/
theorem C68_redo (r : Reducer M A E) (m : Model A M) : update r m .redo = .threw := rfl

example : ∃ m es, run exRed (Model.start 0) [.act 1, .act 2] = some (m, es) ∧
    m.lookup m.cursor = some (some 2, 3) := ⟨_, _, rfl, by decide⟩

/-! ### C74 -/

theorem nav_cursor (r : Reducer M A E) (m : Model A M) (o : Action A) (h : o.isNav) :
    ∃ c, ∀ (p : Bool) (q : List A), update r { m with paused := p, pending := q } o =
      .ok { m with paused := p, pending := q, cursor := c } [] := by
  cases o with
  | act a => exact absurd h (by simp [Action.isNav])
  | goto_ d =>
    refine ⟨if m.check d then d else m.cursor, fun p q => ?_⟩
    simp only [update]
    have : ({ m with paused := p, pending := q } : Model A M).check d = m.check d := rfl
    rw [this]
    split <;> rfl
  | undo => exact ⟨undoCursor m.cursor, fun p q => rfl⟩
  | redo => exact absurd h (by simp [Action.isNav])
  | pause => exact absurd h (by simp [Action.isNav])
  | resume => exact absurd h (by simp [Action.isNav])

theorem run_paused (r : Reducer M A E) (ops : List (Action A)) (m : Model A M)
    (hp : m.paused = true) (h : ∀ o ∈ ops, o.isNav ∨ ∃ a, o = .act a) :
    ∃ c, run r m ops = some ({ m with cursor := c, pending := m.pending ++ acts ops }, []) ∧
      run r { m with paused := false, pending := [] } (ops.filter (·.isNav)) =
        some ({ m with paused := false, pending := [], cursor := c }, []) := by
  induction ops generalizing m with
  | nil => exact ⟨m.cursor, by simp [run, acts], rfl⟩
  | cons o os ih =>
    rcases h o List.mem_cons_self with hn | ⟨a, rfl⟩
    · obtain ⟨c, hc⟩ := nav_cursor r m o hn
      obtain ⟨d, h1, h2⟩ := ih { m with cursor := c } hp
        (fun o' ho' => h o' (List.mem_cons_of_mem _ ho'))
      have hc1 := hc m.paused m.pending
      have hc2 := hc false []
      refine ⟨d, ?_, ?_⟩
      · have e : update r m o = .ok { m with cursor := c } [] := hc1
        simp only [run, e, h1]
        cases o <;> simp_all [acts, Action.isNav]
      · rw [List.filter_cons_of_pos hn]
        simp only [run, hc2]
        simp only at h2
        simp only [h2]
        rfl
    · obtain ⟨d, h1, h2⟩ := ih { m with pending := m.pending ++ [a] } hp
        (fun o' ho' => h o' (List.mem_cons_of_mem _ ho'))
      refine ⟨d, ?_, ?_⟩
      · simp only [run, update, act_paused r m a hp, h1]
        simp [acts]
      · exact h2

/-- **C74**: in the tree debugger too, pausing, then any mix of ordinary actions and navigation,
then resuming gives the same state as doing the navigation first and then dispatching the actions
one by one; the effects are the same too, after the loop's pause and resume. -/
theorem C74_tree_resume (r : Reducer M A E) (m : Model A M) (hm : Reachable r m)
    (hp : m.paused = false) (ops : List (Action A))
    (h : ∀ o ∈ ops, o.isNav ∨ ∃ a, o = .act a) :
    ∃ m' es, run r m (ops.filter (·.isNav) ++ (acts ops).map .act) = some (m', es) ∧
      run r m (.pause :: ops ++ [.resume]) = some (m', [.pause, .resume] ++ es) := by
  have hi := reachable_inv r m hm
  have hpend := hi.pending hp
  obtain ⟨c, h1, h2⟩ := run_paused r ops { m with paused := true } rfl h
  have e1 : ({ { m with paused := true } with paused := false, pending := [] } : Model A M) = m := by
    cases m; simp_all
  rw [e1] at h2
  have hmid := run_inv r (ops.filter (·.isNav)) m hi
  rw [h2] at hmid
  obtain ⟨_, _, he, hinv, _⟩ := hmid
  cases he
  obtain ⟨m', es, k1, k2, _⟩ := run_inv r ((acts ops).map .act) _ hinv
  refine ⟨m', es, ?_, ?_⟩
  · rw [run_append, h2]
    simp only [k1, List.nil_append]
  · rw [run_append]
    simp only [run, update, h1]
    simp only [hpend, List.nil_append]
    have := resumeLoop_eq_run r (acts ops) _ m' [] es hinv k1
    simp only at this
    rw [this]
    simp

/-- **C74**: while paused, actions and navigation change nothing that is recorded and have no
effects, and an action does not change the shown model either. -/
theorem C74_tree_paused_inert (r : Reducer M A E) (m : Model A M) (hp : m.paused = true)
    (ops : List (Action A)) (h : ∀ o ∈ ops, o.isNav ∨ ∃ a, o = .act a) :
    (∃ m', run r m ops = some (m', []) ∧ m'.branches = m.branches ∧ m'.init = m.init) ∧
    (∀ a, ∃ m', update r m (.act a) = .ok m' [] ∧ m'.branches = m.branches ∧
      m'.shown = m.shown) := by
  constructor
  · obtain ⟨c, hc, _⟩ := run_paused r ops m hp h
    exact ⟨_, hc, rfl, rfl⟩
  · intro a
    exact ⟨_, act_paused r m a hp, rfl, rfl⟩

theorem resumeLoop_live (r : Reducer M A E) (as : List A) (m m' : Model A M) (e e' : List (Atom E))
    (h : Inv r m) (hp : m.paused = false) (hr : resumeLoop r as m e = .ok m' e') :
    m'.paused = false ∧ m'.pending = [] := by
  induction as generalizing m e with
  | nil =>
    simp only [resumeLoop, Res.ok.injEq] at hr
    rw [← hr.1]
    exact ⟨hp, h.pending hp⟩
  | cons a as ih =>
    obtain ⟨m1, e1, h2, h3, _, h4⟩ := updateAct_inv r m a h
    simp only [resumeLoop, h2] at hr
    exact ih m1 _ h3 (h4.trans hp) hr

/-- **C74**: after resume nothing is pending and the debugger is not paused, whatever happened
before. -/
theorem C74_tree_nothing_pending (r : Reducer M A E) (m : Model A M) (hm : Reachable r m) :
    ∃ m' es, update r m .resume = .ok m' es ∧ m'.pending = [] ∧ m'.paused = false := by
  have h := reachable_inv r m hm
  have hi : Inv r { m with paused := false, pending := [] } :=
    ⟨h.valid, h.genuine, fun _ => rfl, h.full⟩
  obtain ⟨m', e, h1, _⟩ := resumeLoop_inv r m.pending _ [] hi
  refine ⟨m', [.resume] ++ e, ?_, ?_⟩
  · simp only [update, h1]
  · obtain ⟨k1, k2⟩ := resumeLoop_live r m.pending _ _ _ _ hi rfl h1
    exact ⟨k2, k1⟩

example : ∃ m es, run exRed (Model.start 0) [.act 1, .pause, .act 2, .undo, .act 5, .resume] =
    some (m, es) ∧ m.shown = some 7 ∧ es = [.user 1, .pause, .resume, .user 2, .user 5] :=
  ⟨_, _, rfl, by decide⟩

end Verif.Tree
