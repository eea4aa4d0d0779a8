import Verif.Tree.Summary
import Verif.Tree.Props

/-!
Property theorems C97: the summary of a tree debugger.
-/

namespace Verif.Tree

open Verif.Debugger (Atom Reducer userEff)

variable {A M E : Type}

/-! ### Lemmas: appending adds one step -/

theorem countHistory_append (h k : List (Step A M)) : countHistory (h ++ k) = countHistory h + countHistory k := by
  induction h with
  | nil => rw [countHistory, Nat.zero_add]; rfl
  | cons s h ih =>
    obtain ⟨a, m, b⟩ := s
    rw [List.cons_append, countHistory, countHistory, ih]; omega

theorem countBranches_append (b c : List (List (Step A M))) :
    countBranches (b ++ c) = countBranches b + countBranches c := by
  induction b with
  | nil => rw [countBranches, Nat.zero_add]; rfl
  | cons h b ih => rw [List.cons_append, countBranches, countBranches, ih]; omega

theorem countBranches_new (b : List (List (Step A M))) (a : A) (x : M) :
    countBranches (b ++ [[.mk a x []]]) = countBranches b + 1 := by
  rw [countBranches_append, countBranches, countHistory, countBranches, countHistory]

theorem countHistory_set (h : List (Step A M)) : ∀ (i : Nat) (s t : Step A M), h[i]? = some s →
    countBranches t.branches = countBranches s.branches + 1 →
    countHistory (h.set i t) = countHistory h + 1 := by
  induction h with
  | nil => intro i s t h; cases h
  | cons u h ih =>
    intro i s t hs hc
    obtain ⟨a, m, b⟩ := u
    cases i with
    | zero =>
      cases hs
      obtain ⟨a', m', b'⟩ := t
      rw [List.set_cons_zero, countHistory, countHistory]
      have : countBranches b' = countBranches b + 1 := hc
      omega
    | succ i =>
      rw [List.set_cons_succ, countHistory, countHistory, ih i s t hs hc]; omega

theorem countBranches_set (b : List (List (Step A M))) : ∀ (i : Nat) (h k : List (Step A M)), b[i]? = some h →
    countHistory k = countHistory h + 1 → countBranches (b.set i k) = countBranches b + 1 := by
  induction b with
  | nil => intro i h k e; cases e
  | cons u b ih =>
    intro i h k e hc
    cases i with
    | zero => cases e; rw [List.set_cons_zero, countBranches, countBranches, hc]; omega
    | succ i => rw [List.set_cons_succ, countBranches, countBranches, ih i h k e hc]; omega

theorem doAppend_count (cursor : Cursor) (act : A) (m : M) :
    ∀ (c : Cursor) (index : Nat) (b b' : List (List (Step A M))) (cur' : Cursor),
      doAppend cursor act m index c b = some (b', cur') → countBranches b' = countBranches b + 1 := by
  intro c
  induction c with
  | nil => intro _ _ _ _ h; cases h
  | cons p rest ih =>
    intro index b b' cur' h
    cases rest with
    | nil =>
      simp only [doAppend] at h
      cases hb : b[p.branch]? with
      | none => rw [hb] at h; cases h
      | some hist =>
        rw [hb] at h
        simp only at h
        split at h
        · rw [← (Prod.mk.inj (Option.some.inj h)).1]
          refine countBranches_set _ _ _ _ hb ?_
          rw [countHistory_append, countHistory, countBranches, countHistory]
        · cases hs : hist[p.step]? with
          | none => rw [hs] at h; cases h
          | some node =>
            rw [hs] at h
            rw [← (Prod.mk.inj (Option.some.inj h)).1]
            exact countBranches_set _ _ _ _ hb (countHistory_set _ _ _ _ hs (countBranches_new _ _ _))
    | cons q rest =>
      simp only [doAppend] at h
      cases hb : b[p.branch]? with
      | none => rw [hb] at h; cases h
      | some hist =>
        rw [hb] at h
        simp only at h
        cases hs : hist[p.step]? with
        | none => rw [hs] at h; cases h
        | some node =>
          rw [hs] at h
          simp only at h
          cases hA : doAppend cursor act m (index + 1) (q :: rest) node.branches with
          | none => rw [hA] at h; cases h
          | some r =>
            obtain ⟨nb, cur⟩ := r
            rw [hA] at h
            rw [← (Prod.mk.inj (Option.some.inj h)).1]
            exact countBranches_set _ _ _ _ hb (countHistory_set _ _ _ _ hs (ih _ _ _ _ hA))

theorem append_count (m m' : Model A M) (act : A) (x : M) (he : m.append act x = some m') :
    countBranches m'.branches = countBranches m.branches + 1 ∧ m'.pending = m.pending := by
  unfold Model.append at he
  split at he
  · cases he
    exact ⟨countBranches_new _ _ _, rfl⟩
  · cases hA : doAppend m.cursor act x 0 m.cursor m.branches with
    | none => rw [hA] at he; cases he
    | some r =>
      rw [hA] at he
      cases he
      exact ⟨doAppend_count _ _ _ _ _ _ _ _ hA, rfl⟩

/-- Steps and actions that wait. -/
def Model.weight (m : Model A M) : Nat := countBranches m.branches + m.pending.length

theorem updateAct_weight (r : Reducer M A E) (m m' : Model A M) (a : A) (e)
    (h : updateAct r m a = .ok m' e) : m'.weight = m.weight + 1 := by
  unfold updateAct at h
  split at h
  · cases h; simp [Model.weight]; omega
  · cases hs : m.shown with
    | none => rw [hs] at h; cases h
    | some x =>
      rw [hs] at h
      simp only at h
      cases hA : m.append a (r x a).1 with
      | none => rw [hA] at h; cases h
      | some m1 =>
        rw [hA] at h
        cases h
        obtain ⟨h1, h2⟩ := append_count m _ a _ hA
        unfold Model.weight
        rw [h1, h2]; omega

theorem resumeLoop_weight (r : Reducer M A E) (as : List A) : ∀ (m m' : Model A M) (e e'),
    resumeLoop r as m e = .ok m' e' → m'.weight = m.weight + as.length := by
  induction as with
  | nil => intro m m' e e' h; cases h; rfl
  | cons a as ih =>
    intro m m' e e' h
    simp only [resumeLoop] at h
    cases hu : updateAct r m a with
    | threw => rw [hu] at h; cases h
    | ub => rw [hu] at h; cases h
    | ok m1 e1 =>
      rw [hu] at h
      rw [ih _ _ _ _ h, updateAct_weight r m m1 a e1 hu, List.length_cons]; omega

theorem run_weight (r : Reducer M A E) (as : List (Action A)) : ∀ (m m' : Model A M) (es), Inv r m →
    run r m as = some (m', es) → m'.weight = m.weight + (acts as).length := by
  induction as with
  | nil => intro m m' es _ h; cases h; rfl
  | cons a as ih =>
    intro m m' es hi h
    rcases update_inv r m a hi with ⟨h1, hr⟩ | ⟨m1, e, h1, h2, _⟩
    · simp only [run, h1] at h
      rw [ih m m' es hi h]
      subst hr
      rfl
    · simp only [run, h1] at h
      cases hk : run r m1 as with
      | none => rw [hk] at h; cases h
      | some p =>
        obtain ⟨m2, e2⟩ := p
        rw [hk] at h
        cases h
        rw [ih m1 _ _ h2 hk]
        cases a with
        | act a => rw [updateAct_weight r m m1 a e h1]; simp only [acts, List.length_cons]; omega
        | goto_ c =>
          have : m1.weight = m.weight := by
            simp only [update] at h1
            cases h1
            split <;> rfl
          rw [this]; rfl
        | undo => cases h1; rfl
        | redo => cases h1
        | pause => cases h1; rfl
        | resume =>
          have : m1.weight = m.weight := by
            simp only [update] at h1
            cases hl : resumeLoop r m.pending { m with paused := false, pending := [] } [] with
            | threw => rw [hl] at h1; cases h1
            | ub => rw [hl] at h1; cases h1
            | ok m3 e3 =>
              rw [hl] at h1
              cases h1
              rw [resumeLoop_weight r _ _ _ _ _ hl]
              rfl
          rw [this]; rfl

/-! ### C97 -/

/-- **C97**: the summary tells exactly which positions there are, that is, which cursors `goto` accepts. -/
theorem C97_positions (m : Model A M) (c : Cursor) : Sum.has m.summary c = m.check c := by
  cases c with
  | nil => rw [Sum.has]; rfl
  | cons p rest =>
    unfold Model.check
    rw [lookup_ne _ _ (by simp), doLookup_eq]
    show Sum.has (doSummary m.branches) _ = _
    rw [has_summary _ _ (by simp)]
    cases stepAt m.branches (p :: rest) <;> rfl

/-- After 1, 2, undo, 4, undo, undo, 5, the tree has a branch with the steps 1 and 2, of which the first has
a branch with the step 4, and a branch with the step 5. -/
example : (run exRed (Model.start 0) [.act 1, .act 2, .undo, .act 4, .undo, .undo, .act 5]).map
    (fun p => ([[⟨0, 1⟩], [⟨0, 0⟩, ⟨0, 0⟩], [⟨1, 0⟩], [⟨0, 2⟩], [⟨0, 0⟩, ⟨1, 0⟩], [⟨0, 1⟩, ⟨0, 0⟩]] : List Cursor).map
      (Sum.has p.1.summary)) = some [true, true, true, false, false, false] := by decide +kernel

/-- **C97**: nothing else goes into the summary: two debuggers, for any two programs, have the same summary
if and only if they have the same positions. -/
theorem C97_shape {A' M' E' : Type} (r : Reducer M A E) (m : Model A M) (hm : Reachable r m)
    (r' : Reducer M' A' E') (m' : Model A' M') (hm' : Reachable r' m') :
    m.summary = m'.summary ↔ ∀ c, m.check c = m'.check c := by
  constructor
  · intro h c
    rw [← C97_positions, ← C97_positions, h]
  · intro h
    have hs : ∀ {A M : Type} (n : Model A M) (c : Cursor), c ≠ [] → (stepAt n.branches c).isSome = n.check c := by
      intro A M n c hc
      rw [← C97_positions]
      exact (has_summary _ _ hc).symm
    exact full_same (reachable_inv r m hm).full (reachable_inv r' m' hm').full
      (fun c hc => by rw [hs m c hc, hs m' c hc, h])

/-- The shape is what counts, not the values: 1, 2, undo, 3 and 7, 7, undo, 7 have the same summary, and it
differs from that of three actions in a row. -/
example :
    let pos := fun as => (run exRed (Model.start 0) as).map fun p =>
      ([[⟨0, 0⟩], [⟨0, 1⟩], [⟨0, 2⟩], [⟨0, 0⟩, ⟨0, 0⟩]] : List Cursor).map (Sum.has p.1.summary)
    pos [.act 1, .act 2, .undo, .act 3] = pos [.act 7, .act 7, .undo, .act 7] ∧
    pos [.act 1, .act 2, .undo, .act 3] ≠ pos [.act 1, .act 2, .act 3] := by decide +kernel

/-- **C97**: the summary of a run counts each action that was dispatched once, except for those that wait
until the debugger is resumed. -/
theorem C97_count (r : Reducer M A E) (i : M) (as : List (Action A)) (m : Model A M) (es)
    (h : run r (Model.start i) as = some (m, es)) :
    Sum.countBranches m.summary + m.pending.length = (acts as).length := by
  have := run_weight r as _ _ _ (start_inv r i) h
  unfold Model.summary
  rw [count_summary]
  have hz : (Model.start (A := A) i).weight = 0 := by
    show countBranches [] + 0 = 0
    rw [countBranches]
  rw [hz, Nat.zero_add] at this
  exact this

/-- **C97**: an action that is not kept adds one position to the summary, and all others stay. -/
theorem C97_grows (r : Reducer M A E) (m : Model A M) (hm : Reachable r m) (hp : m.paused = false) (a : A) :
    ∃ m' es c, update r m (.act a) = .ok m' es ∧ Sum.has m.summary c = false ∧ undoCursor c = m.cursor ∧
      (∀ d, Sum.has m'.summary d = (Sum.has m.summary d || decide (d = c))) ∧
      Sum.countBranches m'.summary = Sum.countBranches m.summary + 1 := by
  obtain ⟨x, m', es, c, h1, h2, h3, h4, h5, h6⟩ := C67_recorded r m hm hp a
  refine ⟨m', es, c, h2, ?_, h5, ?_, ?_⟩
  · rw [C97_positions]; unfold Model.check; rw [h3]; rfl
  · intro d
    rw [C97_positions, C97_positions]
    unfold Model.check
    by_cases hd : d = c
    · subst hd; rw [h4]; simp
    · rw [h6 d hd]; simp [hd]
  · unfold Model.summary
    rw [count_summary, count_summary]
    have hi := reachable_inv r m hm
    have hw := updateAct_weight r m m' a es h2
    rcases update_inv r m (.act a) hi with ⟨k1, _⟩ | ⟨m1, e, k1, k2, _⟩
    · rw [h2] at k1; cases k1
    · rw [h2] at k1
      cases k1
      have hp' : m'.paused = false := by
        obtain ⟨_, m2, _, k3, _, k4, _⟩ := act_spec r m a hi hp
        rw [show updateAct r m a = .ok m' es from h2] at k3
        cases k3
        exact k4
      unfold Model.weight at hw
      rw [hi.pending hp, k2.pending hp'] at hw
      exact hw

/-- Nothing but actions and resuming changes the summary. -/
theorem C97_navigation (r : Reducer M A E) (m m' : Model A M) (a : Action A) (es)
    (ha : a.isNav = true ∨ a = .pause) (h : update r m a = .ok m' es) : m'.summary = m.summary := by
  cases a with
  | act a => rcases ha with ha | ha <;> cases ha
  | goto_ c => cases h; unfold Model.summary; split <;> rfl
  | undo => cases h; rfl
  | redo => cases h
  | pause => cases h; rfl
  | resume => rcases ha with ha | ha <;> cases ha

example : ∃ m es, run exRed (Model.start 0) [.act 1, .act 2, .undo, .act 4, .undo, .undo, .act 5, .pause, .act 7]
    = some (m, es) ∧ Sum.countBranches m.summary = 4 ∧ m.pending.length = 1 :=
  ⟨_, _, rfl, by decide +kernel, by decide +kernel⟩

end Verif.Tree
