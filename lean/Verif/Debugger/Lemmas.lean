import Verif.Debugger.Spec

namespace Verif.Debugger

variable {A M E : Type}

/-- The invariant of the debugger. -/
structure Inv (r : Reducer M A E) (m : Model A M) : Prop where
  cursor : m.cursor ≤ m.history.length
  genuine : Genuine r m.init m.history
  pending : m.paused = false → m.pending = []

theorem shown_eq (m : Model A M) (h : m.cursor ≤ m.history.length) :
    m.shown = modelAfter m.init m.history m.cursor := by
  unfold Model.shown Model.lookup
  rw [if_neg (by omega)]
  cases hc : m.cursor with
  | zero => simp [modelAfter]
  | succ k => simp [modelAfter]; rfl

theorem modelAfter_isSome (i : M) (h : List (Step A M)) (k : Nat) (hk : k ≤ h.length) :
    ∃ x, modelAfter i h k = some x := by
  cases k with
  | zero => exact ⟨i, rfl⟩
  | succ k =>
    refine ⟨(h[k]'(by omega)).model, ?_⟩
    simp only [modelAfter]
    rw [List.getElem?_eq_getElem (show k < h.length by omega)]
    rfl

theorem shown_isSome (m : Model A M) (h : m.cursor ≤ m.history.length) :
    ∃ x, m.shown = some x := by
  rw [shown_eq m h]; exact modelAfter_isSome _ _ _ h

theorem genuine_take (r : Reducer M A E) (i : M) (h : List (Step A M)) (k : Nat)
    (g : Genuine r i h) : Genuine r i (h.take k) := by
  induction h generalizing i k with
  | nil => cases k <;> simp [Genuine]
  | cons s ss ih =>
    cases k with
    | zero => simp [Genuine]
    | succ k => exact ⟨g.1, ih s.model k g.2⟩

theorem genuine_append (r : Reducer M A E) (i : M) (h : List (Step A M)) (s : Step A M) (x : M)
    (g : Genuine r i h) (hx : modelAfter i h h.length = some x) (hs : s.model = (r x s.action).1) :
    Genuine r i (h ++ [s]) := by
  induction h generalizing i with
  | nil =>
    simp [modelAfter] at hx
    subst hx
    exact ⟨hs, trivial⟩
  | cons t ts ih =>
    refine ⟨g.1, ih t.model g.2 ?_⟩
    cases ts with
    | nil => simpa [modelAfter] using hx
    | cons u us => simpa [modelAfter] using hx

theorem modelAfter_take (i : M) (h : List (Step A M)) (k : Nat) (hk : k ≤ h.length) :
    modelAfter i (h.take k) (h.take k).length = modelAfter i h k := by
  rw [List.length_take, Nat.min_eq_left hk]
  cases k with
  | zero => rfl
  | succ k => simp [modelAfter]

theorem updateAct_live (r : Reducer M A E) (m : Model A M) (a : A) (hp : m.paused = false)
    (x : M) (hx : m.shown = some x) :
    updateAct r m a = some ({ m with
        history := m.history.take m.cursor ++ [⟨a, (r x a).1⟩]
        cursor := (m.history.take m.cursor).length + 1 }, userEff (r x a).2) := by
  simp [updateAct, hp, hx]

theorem updateAct_paused (r : Reducer M A E) (m : Model A M) (a : A) (hp : m.paused = true) :
    updateAct r m a = some ({ m with pending := m.pending ++ [a] }, []) := by
  simp [updateAct, hp]

theorem updateAct_inv (r : Reducer M A E) (m : Model A M) (a : A) (h : Inv r m) :
    ∃ m' e, updateAct r m a = some (m', e) ∧ Inv r m' ∧ m'.paused = m.paused ∧
      m'.init = m.init := by
  cases hp : m.paused with
  | true =>
    refine ⟨_, _, updateAct_paused r m a hp, ⟨h.cursor, h.genuine, ?_⟩, hp, rfl⟩
    intro hf; simp only at hf; rw [hp] at hf; cases hf
  | false =>
    obtain ⟨x, hx⟩ := shown_isSome m h.cursor
    refine ⟨_, _, updateAct_live r m a hp x hx, ⟨?_, ?_, ?_⟩, hp, rfl⟩
    · simp
    · refine genuine_append r _ _ _ x (genuine_take r _ _ _ h.genuine) ?_ rfl
      simp only
      rw [modelAfter_take _ _ _ h.cursor, ← shown_eq m h.cursor, hx]
    · intro _; exact h.pending hp

theorem resumeLoop_inv (r : Reducer M A E) (as : List A) (m : Model A M) (e : List (Atom E))
    (h : Inv r m) : ∃ m' e', resumeLoop r as (m, e) = some (m', e') ∧ Inv r m' ∧
      m'.paused = m.paused ∧ m'.init = m.init := by
  induction as generalizing m e with
  | nil => exact ⟨m, e, rfl, h, rfl, rfl⟩
  | cons a as ih =>
    obtain ⟨m', e', h1, h2, h3, h4⟩ := updateAct_inv r m a h
    obtain ⟨m'', e'', k1, k2, k3, k4⟩ := ih m' (e ++ e') h2
    refine ⟨m'', e'', ?_, k2, k3.trans h3, k4.trans h4⟩
    simp only [resumeLoop, h1, k1]

theorem update_inv (r : Reducer M A E) (m : Model A M) (a : Action A) (h : Inv r m) :
    ∃ m' e, update r m a = some (m', e) ∧ Inv r m' ∧ m'.init = m.init := by
  cases a with
  | act a =>
    obtain ⟨m', e, h1, h2, _, h4⟩ := updateAct_inv r m a h
    exact ⟨m', e, h1, h2, h4⟩
  | goto_ c =>
    refine ⟨_, _, rfl, ?_, ?_⟩
    · split
      · exact ⟨‹_›, h.genuine, h.pending⟩
      · exact h
    · split <;> rfl
  | undo =>
    refine ⟨_, _, rfl, ?_, ?_⟩
    · split
      · exact ⟨by have := h.cursor; simp only; omega, h.genuine, h.pending⟩
      · exact h
    · split <;> rfl
  | redo =>
    refine ⟨_, _, rfl, ?_, ?_⟩
    · split
      · exact ⟨by simp only; omega, h.genuine, h.pending⟩
      · exact h
    · split <;> rfl
  | pause =>
    exact ⟨_, _, rfl, ⟨h.cursor, h.genuine, by simp⟩, rfl⟩
  | resume =>
    obtain ⟨m', e, h1, h2, _, h4⟩ := resumeLoop_inv r m.pending
      { m with paused := false, pending := [] } [] ⟨h.cursor, h.genuine, by simp⟩
    refine ⟨m', [.resume] ++ e, ?_, h2, h4⟩
    simp only [update, h1]

theorem run_inv (r : Reducer M A E) (as : List (Action A)) (m : Model A M) (h : Inv r m) :
    ∃ m' e, run r m as = some (m', e) ∧ Inv r m' ∧ m'.init = m.init := by
  induction as generalizing m with
  | nil => exact ⟨m, [], rfl, h, rfl⟩
  | cons a as ih =>
    obtain ⟨m', e, h1, h2, h3⟩ := update_inv r m a h
    obtain ⟨m'', e', k1, k2, k3⟩ := ih m' h2
    exact ⟨m'', e ++ e', by simp only [run, h1, k1], k2, k3.trans h3⟩

theorem start_inv (r : Reducer M A E) (i : M) : Inv r (Model.start (A := A) i) :=
  ⟨Nat.le_refl _, trivial, fun _ => rfl⟩

theorem reachable_inv (r : Reducer M A E) (m : Model A M) (h : Reachable r m) : Inv r m := by
  obtain ⟨i, as, es, he⟩ := h
  obtain ⟨m', e, h1, h2, _⟩ := run_inv r as _ (start_inv r i)
  rw [he] at h1
  cases h1
  exact h2

theorem run_append (r : Reducer M A E) (as bs : List (Action A)) (m : Model A M) :
    run r m (as ++ bs) = (match run r m as with
      | none => none
      | some (m', e) => match run r m' bs with
        | none => none
        | some (m'', e') => some (m'', e ++ e')) := by
  induction as generalizing m with
  | nil => simp only [List.nil_append, run]; cases run r m bs <;> rfl
  | cons a as ih =>
    simp only [List.cons_append, run]
    cases update r m a with
    | none => rfl
    | some p =>
      obtain ⟨m', e⟩ := p
      simp only [ih]
      cases run r m' as with
      | none => rfl
      | some p =>
        obtain ⟨m'', e'⟩ := p
        simp only
        cases run r m'' bs with
        | none => rfl
        | some p => simp [List.append_assoc]

/-- The resume loop is a run of ordinary actions. -/
theorem resumeLoop_eq_run (r : Reducer M A E) (as : List A) (m : Model A M)
    (e : List (Atom E)) :
    resumeLoop r as (m, e) =
      (run r m (as.map .act)).map fun p => (p.1, e ++ p.2) := by
  induction as generalizing m e with
  | nil => simp [resumeLoop, run]
  | cons a as ih =>
    simp only [resumeLoop, List.map_cons, run, update]
    cases updateAct r m a with
    | none => rfl
    | some p =>
      obtain ⟨m', e'⟩ := p
      simp only [ih]
      cases run r m' (as.map .act) with
      | none => rfl
      | some p => simp

end Verif.Debugger
