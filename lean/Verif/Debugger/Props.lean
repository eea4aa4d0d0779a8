import Verif.Debugger.Lemmas

/-
Property theorems C60-C65 about the time-travelling debugger.
-/

namespace Verif.Debugger

variable {A M E : Type}

/-- A counter with an effect on odd results, used in the examples. -/
def exRed : Reducer Nat Nat Nat := fun m a => (m + a, if (m + a) % 2 = 1 then some (m + a) else none)

/-! ### C60 -/

/-- **C60**: with only ordinary actions, the debugger shows after the actions what the plain
store holds, and the effects are those of the plain store. -/
theorem C60_transparent (r : Reducer M A E) (i : M) (as : List A) :
    ∃ m, run r (Model.start i) (as.map .act) = some (m, (plain r i as).2.map .user) ∧
      m.shown = some (plain r i as).1 := by
  suffices h : ∀ (as : List A) (m : Model A M) (x : M), m.paused = false →
      m.shown = some x → m.cursor ≤ m.history.length →
      ∃ m', run r m (as.map .act) = some (m', (plain r x as).2.map .user) ∧
        m'.shown = some (plain r x as).1 from
    h as _ i rfl rfl (Nat.le_refl _)
  intro as
  induction as with
  | nil => intro m x _ hx _; exact ⟨m, rfl, hx⟩
  | cons a as ih =>
    intro m x hp hx hc
    have hu := updateAct_live r m a hp x hx
    have hlen : (m.history.take m.cursor).length = m.cursor := by simp [Nat.min_eq_left hc]
    obtain ⟨m', h1, h2⟩ := ih { m with
        history := m.history.take m.cursor ++ [⟨a, (r x a).1⟩]
        cursor := (m.history.take m.cursor).length + 1 } (r x a).1 hp
      (by rw [shown_eq _ (by simp)]; simp [modelAfter])
      (by simp)
    refine ⟨m', ?_, h2⟩
    simp only [List.map_cons, run, update, hu, h1]
    simp only [plain, List.map_append]
    cases (r x a).2 <;> rfl

/-- "After each action": the theorem applies to every prefix of the actions. -/
example : ∀ k, ∃ m, run exRed (Model.start 0) (([1, 2, 4].take k).map .act) =
    some (m, (plain exRed 0 ([1, 2, 4].take k)).2.map .user) ∧
    m.shown = some (plain exRed 0 ([1, 2, 4].take k)).1 :=
  fun _ => C60_transparent exRed 0 _
example : (plain exRed 0 [1, 2, 4]) = (7, [1, 3, 7]) := by decide

/-! ### C61 -/

/-- **C61**: after any sequence of debugger actions nothing has thrown, the cursor is within the
history, and the shown state exists. -/
theorem C61_cursor_valid (r : Reducer M A E) (i : M) (as : List (Action A)) :
    ∃ m es, run r (Model.start i) as = some (m, es) ∧ m.cursor ≤ m.history.length ∧
      ∃ x, m.shown = some x := by
  obtain ⟨m, e, h1, h2, _⟩ := run_inv r as _ (start_inv r i)
  exact ⟨m, e, h1, h2.cursor, shown_isSome m h2.cursor⟩

example : ∃ m es, run exRed (Model.start 0)
    [.act 1, .act 2, .undo, .pause, .act 5, .goto_ 7, .resume, .undo, .undo, .undo, .redo] =
      some (m, es) ∧ m.shown = some 1 := ⟨_, _, rfl, by decide⟩

/-! ### C62 -/

/-- **C62**: the history is a genuine run of the reducer from the initial model. -/
theorem C62_genuine (r : Reducer M A E) (i : M) (as : List (Action A)) (m : Model A M) es
    (h : run r (Model.start i) as = some (m, es)) : m.init = i ∧ Genuine r i m.history := by
  obtain ⟨m', e, h1, h2, h3⟩ := run_inv r as _ (start_inv r i)
  rw [h] at h1
  cases h1
  have h3 : m.init = i := h3
  have h4 := h2.genuine
  rw [h3] at h4
  exact ⟨h3, h4⟩

/-- **C62**: navigation never changes the history (nor the pending actions), in any state, and
has no effects. -/
theorem C62_nav (r : Reducer M A E) (m : Model A M) (a : Action A) (ha : a.isNav) :
    ∃ c, update r m a = some ({ m with cursor := c }, []) := by
  cases a with
  | act a => exact absurd ha (by simp [Action.isNav])
  | goto_ c =>
    refine ⟨if c ≤ m.history.length then c else m.cursor, ?_⟩
    simp only [update]; split <;> rfl
  | undo =>
    refine ⟨if m.cursor > 0 then m.cursor - 1 else m.cursor, ?_⟩
    simp only [update]; split <;> rfl
  | redo =>
    refine ⟨if m.cursor < m.history.length then m.cursor + 1 else m.cursor, ?_⟩
    simp only [update]; split <;> rfl
  | pause => exact absurd ha (by simp [Action.isNav])
  | resume => exact absurd ha (by simp [Action.isNav])

example : (Action.undo : Action Nat).isNav := rfl
example : ∃ m es, run exRed (Model.start 0) [.act 1, .act 2, .undo, .act 4] = some (m, es) ∧
    m.history = [⟨1, 1⟩, ⟨4, 5⟩] := ⟨_, _, rfl, by decide⟩

/-! ### C63 -/

/-- **C63**: undo then redo, not at the start, is the identity. -/
theorem C63_undo_redo (r : Reducer M A E) (m : Model A M) (hm : Reachable r m)
    (h : 0 < m.cursor) : run r m [.undo, .redo] = some (m, []) := by
  have hc := (reachable_inv r m hm).cursor
  have h1 : m.cursor - 1 < m.history.length := by omega
  have h2 : m.cursor - 1 + 1 = m.cursor := by omega
  simp only [run, update]
  rw [if_pos h]
  simp only [List.append_nil]
  rw [if_pos h1]
  simp only [h2]

/-- **C63**: redo then undo, not at the end, is the identity. -/
theorem C63_redo_undo (r : Reducer M A E) (m : Model A M)
    (h : m.cursor < m.history.length) : run r m [.redo, .undo] = some (m, []) := by
  simp only [run, update]
  rw [if_pos h]
  simp

/-- **C63**: undo at the start, redo at the end and goto beyond the end do nothing. -/
theorem C63_ends (r : Reducer M A E) (m : Model A M) :
    (m.cursor = 0 → update r m .undo = some (m, [])) ∧
    (m.cursor = m.history.length → update r m .redo = some (m, [])) ∧
    (∀ c, m.history.length < c → update r m (.goto_ c) = some (m, [])) := by
  refine ⟨?_, ?_, ?_⟩
  · intro h; simp [update, h]
  · intro h; simp [update, h]
  · intro c h; simp only [update]; rw [if_neg (by omega)]

/-- **C63**: `n` undos from the end show the model before the last `n` actions (the initial model
if there are fewer than `n`). -/
theorem C63_undo_n (r : Reducer M A E) (m : Model A M)
    (h : m.cursor = m.history.length) (n : Nat) :
    ∃ m', run r m (List.replicate n .undo) = some (m', []) ∧
      m'.shown = modelAfter m.init m.history (m.history.length - n) ∧
      m'.history = m.history := by
  have key : ∀ (n : Nat) (m : Model A M),
      run r m (List.replicate n .undo) = some ({ m with cursor := m.cursor - n }, []) := by
    intro n
    induction n with
    | zero => intro m; rfl
    | succ n ih =>
      intro m
      simp only [List.replicate_succ, run, update, ih]
      congr 2
      split
      · simp only; congr 1; omega
      · congr 1; omega
  refine ⟨_, key n m, ?_, rfl⟩
  rw [shown_eq _ (by simp only; omega)]
  simp only [h]

/-- **C63**: goto shows exactly the state at the position. -/
theorem C63_goto (r : Reducer M A E) (m : Model A M) (c : Nat) (h : c ≤ m.history.length) :
    ∃ m', update r m (.goto_ c) = some (m', []) ∧ m'.history = m.history ∧
      m'.shown = modelAfter m.init m.history c := by
  refine ⟨{ m with cursor := c }, ?_, rfl, ?_⟩
  · simp only [update]; rw [if_pos h]
  · rw [shown_eq _ (by exact h)]

example : ∃ m es, run exRed (Model.start 0) [.act 1, .act 2, .act 3] = some (m, es) ∧
    m.cursor = m.history.length ∧ modelAfter m.init m.history (m.history.length - 2) = some 1 :=
  ⟨_, _, rfl, by decide, by decide⟩

/-! ### C64 -/

/-- **C64**: an ordinary action at position `k` (not paused) keeps the first `k` entries and
replaces everything after by the new one, whose model is the reducer's result on the shown
model. -/
theorem C64_act_in_past (r : Reducer M A E) (m : Model A M) (hm : Reachable r m)
    (hp : m.paused = false) (a : A) :
    ∃ x m' es, m.shown = some x ∧ update r m (.act a) = some (m', es) ∧
      m'.history = m.history.take m.cursor ++ [⟨a, (r x a).1⟩] ∧
      m'.cursor = m.cursor + 1 ∧ m'.shown = some (r x a).1 ∧
      es = (r x a).2.toList.map .user := by
  have hc := (reachable_inv r m hm).cursor
  obtain ⟨x, hx⟩ := shown_isSome m hc
  refine ⟨x, _, _, hx, updateAct_live r m a hp x hx, rfl, ?_, ?_, ?_⟩
  · simp [Nat.min_eq_left hc]
  · rw [shown_eq _ (by simp)]
    simp [modelAfter]
  · cases (r x a).2 <;> rfl

example : ∃ m es, run exRed (Model.start 0) [.act 1, .act 2, .act 3, .undo, .undo] =
    some (m, es) ∧ m.paused = false ∧ m.cursor = 1 ∧ m.history.length = 3 :=
  ⟨_, _, rfl, by decide⟩

/-! ### C65 -/

theorem run_paused (r : Reducer M A E) (ops : List (Action A)) (m : Model A M)
    (hp : m.paused = true) (h : ∀ o ∈ ops, o.isNav ∨ ∃ a, o = .act a) :
    ∃ c, run r m ops = some ({ m with cursor := c, pending := m.pending ++ acts ops }, []) ∧
      run r { m with paused := false, pending := [] } (ops.filter (·.isNav)) =
        some ({ m with paused := false, pending := [], cursor := c }, []) := by
  induction ops generalizing m with
  | nil => exact ⟨m.cursor, by simp [run, acts], rfl⟩
  | cons o os ih =>
    rcases h o List.mem_cons_self with hn | ⟨a, rfl⟩
    · obtain ⟨c, hc⟩ := C62_nav r m o hn
      obtain ⟨c', hc'⟩ := C62_nav r { m with paused := false, pending := [] } o hn
      have hcc : c' = c := by
        cases o <;> simp only [Action.isNav, Bool.false_eq_true] at hn <;>
          simp only [update, Option.some.injEq, Prod.mk.injEq, and_true] at hc hc' <;>
          (have e1 := congrArg Model.cursor hc; have e2 := congrArg Model.cursor hc'
           simp only at e1 e2
           rw [← e1, ← e2]
           split <;> rfl)
      subst hcc
      obtain ⟨d, h1, h2⟩ := ih { m with cursor := c' } hp
        (fun o' ho' => h o' (List.mem_cons_of_mem _ ho'))
      refine ⟨d, ?_, ?_⟩
      · simp only [run, hc, h1]
        cases o <;> simp_all [acts, Action.isNav]
      · rw [List.filter_cons_of_pos hn]
        simp only [run, hc', h2]
        rfl
    · obtain ⟨d, h1, h2⟩ := ih { m with pending := m.pending ++ [a] } hp
        (fun o' ho' => h o' (List.mem_cons_of_mem _ ho'))
      refine ⟨d, ?_, ?_⟩
      · simp only [run, update, updateAct_paused r m a hp, h1]
        simp [acts]
      · exact h2

/-- **C65** (first half): between pause and resume, actions and navigation do not change the
history and have no effects; an ordinary action does not change the shown model. -/
theorem C65_paused_inert (r : Reducer M A E) (m : Model A M) (hp : m.paused = true)
    (ops : List (Action A)) (h : ∀ o ∈ ops, o.isNav ∨ ∃ a, o = .act a) :
    (∃ m', run r m ops = some (m', []) ∧ m'.history = m.history ∧ m'.init = m.init) ∧
    (∀ a, ∃ m', update r m (.act a) = some (m', []) ∧ m'.history = m.history ∧
      m'.shown = m.shown) := by
  constructor
  · obtain ⟨c, hc, _⟩ := run_paused r ops m hp h
    exact ⟨_, hc, rfl, rfl⟩
  · intro a
    exact ⟨_, updateAct_paused r m a hp, rfl, rfl⟩

/-- **C65** (second half): pausing, then any mix of ordinary actions and navigation, then resuming
gives the same state as doing the navigation first and then dispatching the ordinary actions one by
one, without pausing; the effects are the same too, after the loop's pause and resume. -/
theorem C65_resume (r : Reducer M A E) (m : Model A M) (hm : Reachable r m)
    (hp : m.paused = false) (ops : List (Action A))
    (h : ∀ o ∈ ops, o.isNav ∨ ∃ a, o = .act a) :
    ∃ m' es, run r m (ops.filter (·.isNav) ++ (acts ops).map .act) = some (m', es) ∧
      run r m (.pause :: ops ++ [.resume]) = some (m', [.pause, .resume] ++ es) := by
  have hi := reachable_inv r m hm
  have hpend := hi.pending hp
  obtain ⟨c, h1, h2⟩ := run_paused r ops { m with paused := true } rfl h
  have e1 : ({ { m with paused := true } with paused := false, pending := [] } : Model A M) = m := by
    cases m; simp_all
  rw [e1] at h2
  have hmid := run_inv r (ops.filter (·.isNav)) m hi
  rw [h2] at hmid
  obtain ⟨_, _, he, hinv, _⟩ := hmid
  cases he
  obtain ⟨m', es, k1, k2, _⟩ := run_inv r ((acts ops).map .act) _ hinv
  refine ⟨m', es, ?_, ?_⟩
  · rw [run_append, h2]
    simp only [k1, List.nil_append]
  · rw [run_append]
    simp only [run, update, h1]
    simp only [hpend, List.nil_append]
    rw [resumeLoop_eq_run]
    simp only at k1
    simp [k1]

example : ∃ m es, run exRed (Model.start 0) [.act 1, .act 2] = some (m, es) ∧ m.paused = false :=
  ⟨_, _, rfl, rfl⟩
example : ∃ m es, run exRed (Model.start 0)
    [.act 1, .pause, .act 2, .undo, .act 5, .resume] = some (m, es) ∧
    m.shown = some 7 ∧ es = [.user 1, .pause, .resume, .user 7] := ⟨_, _, rfl, by decide⟩

end Verif.Debugger
