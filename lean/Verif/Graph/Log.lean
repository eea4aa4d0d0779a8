import Verif.Graph.Evolve

/-
How the log and the ghost record of what callbacks have seen change, and determinism of calls.
-/

set_option linter.unusedSectionVars false

namespace Verif.Graph

variable {V S : Type} [DecidableEq V]

theorem ustep_log [Inhabited S] {m m' : M V S} {op : Op V S} (h : ustep m op = some m') :
    m'.log = m.log ∧ m.nextW ≤ m'.nextW ∧ ∀ w, w < m.nextW → m'.seen w = m.seen w := by
  unfold ustep at h
  split at h
  · cases h
  · split at h
    case h_2 => cases h
    cases op with
    | attach n i =>
      simp only at h
      split at h
      · cases h
        refine ⟨rfl, Nat.le_succ _, fun w hw => ?_⟩
        simp only
        rw [if_neg (by omega)]
      · cases h
    | newState | newSensor | newConstant | detach =>
      cases h; exact ⟨rfl, Nat.le_refl _, fun _ _ => rfl⟩
    | newCalc | newXform | newSetter | set | update | commit | kill =>
      simp only at h
      split at h
      · cases h; exact ⟨rfl, Nat.le_refl _, fun _ _ => rfl⟩
      · cases h
    | ret =>
      simp only at h
      split at h
      · cases h
      · cases h; exact ⟨rfl, Nat.le_refl _, fun _ _ => rfl⟩

/-- A library step logs nothing, a call of a callback, or a call of a setter function. -/
theorem istep_log {m m' : M V S} (he : istep m = some m') :
    m'.nextW = m.nextW ∧
    ((m'.log = m.log ∧ m'.seen = m.seen) ∨
     (∃ n w prev st cur rest, m.stack = .obs n cur prev :: st ∧
        remaining cur (m.g.node n).obs = some (w :: rest) ∧
        m' = { m with
          stack := .user :: .obs n (some w) prev :: st
          seen := fun w' => if w' = w then some (m.g.node n).last else m.seen w'
          log := m.log ++ [.call w n (m.g.node n).last] }) ∨
     (∃ n v st a, m.stack = .up n v :: st ∧ (m.g.node n).kind = .setter a ∧
        m' = { m with stack := .user :: .setterRest n v :: st,
                      log := m.log ++ [.setterCall n v] })) := by
  unfold istep at he
  split at he
  · cases he
  · split at he
    · split at he <;> (cases he; exact ⟨rfl, .inl ⟨rfl, rfl⟩⟩)
    · rename_i n cur prev st hst
      split at he
      · cases he; exact ⟨rfl, .inl ⟨rfl, rfl⟩⟩
      · cases he; exact ⟨rfl, .inl ⟨rfl, rfl⟩⟩
      · rename_i w rest hr
        cases he
        exact ⟨rfl, .inr (.inl ⟨n, w, prev, st, cur, rest, hst, hr, rfl⟩)⟩
    · split at he
      · split at he
        · cases he; exact ⟨rfl, .inl ⟨rfl, rfl⟩⟩
        · split at he <;> (cases he; exact ⟨rfl, .inl ⟨rfl, rfl⟩⟩)
      · cases he; exact ⟨rfl, .inl ⟨rfl, rfl⟩⟩
    · cases he; exact ⟨rfl, .inl ⟨rfl, rfl⟩⟩
    · cases he; exact ⟨rfl, .inl ⟨rfl, rfl⟩⟩
    · rename_i n v st hst
      split at he
      · split at he <;> (cases he; exact ⟨rfl, .inl ⟨rfl, rfl⟩⟩)
      · cases he; exact ⟨rfl, .inl ⟨rfl, rfl⟩⟩
      · cases he; exact ⟨rfl, .inl ⟨rfl, rfl⟩⟩
      · rename_i a hk
        cases he; exact ⟨rfl, .inr (.inr ⟨n, v, st, a, hst, hk, rfl⟩)⟩
      · cases he; exact ⟨rfl, .inl ⟨rfl, rfl⟩⟩
    · cases he; exact ⟨rfl, .inl ⟨rfl, rfl⟩⟩
    · cases he; exact ⟨rfl, .inl ⟨rfl, rfl⟩⟩
    · split at he <;> (cases he; exact ⟨rfl, .inl ⟨rfl, rfl⟩⟩)
    · cases he
    · cases he

theorem given_append (d : V) (w : Nat) (l l' : List (Ev V)) :
    given d w (l ++ l') = given (given d w l) w l' := by
  unfold given; rw [List.foldl_append]

/-- The ghost record is what the log says. -/
theorem step_given [Inhabited S] {m m' : M V S} (h : Step m m') :
    m.nextW ≤ m'.nextW ∧ ∃ l, m'.log = m.log ++ l ∧
      ∀ w d, w < m.nextW → m.seen w = some d → m'.seen w = some (given d w l) := by
  cases h with
  | user op he =>
    obtain ⟨h1, h2, h3⟩ := ustep_log he
    exact ⟨h2, [], by rw [h1, List.append_nil], fun w d hw hs => by rw [h3 w hw]; exact hs⟩
  | lib he =>
    obtain ⟨hn, h1⟩ := istep_log he
    refine ⟨by rw [hn]; exact Nat.le_refl _, ?_⟩
    rcases h1 with ⟨h1, h2⟩ | ⟨n, w, prev, st, cur, rest, _, _, rfl⟩ | ⟨n, v, st, a, _, _, rfl⟩
    · exact ⟨[], by rw [h1, List.append_nil], fun w d _ hs => by rw [h2]; exact hs⟩
    · refine ⟨_, rfl, fun w' d _ hs => ?_⟩
      simp only [given, List.foldl_cons, List.foldl_nil]
      by_cases hw : w' = w
      · subst hw; simp
      · rw [if_neg hw, if_neg (fun e => hw e.symm)]; exact hs
    · exact ⟨_, rfl, fun w' d _ hs => hs⟩

theorem runs_given [Inhabited S] {m m' : M V S} (h : Runs m m') :
    m.nextW ≤ m'.nextW ∧ ∃ l, m'.log = m.log ++ l ∧
      ∀ w d, w < m.nextW → m.seen w = some d → m'.seen w = some (given d w l) := by
  induction h with
  | refl => exact ⟨Nat.le_refl _, [], by rw [List.append_nil], fun w d _ hs => hs⟩
  | step hs _ ih =>
    obtain ⟨h1, l, h2, h3⟩ := step_given hs
    obtain ⟨k1, l', k2, k3⟩ := ih
    refine ⟨by omega, l ++ l', by rw [k2, h2, List.append_assoc], fun w d hw hd => ?_⟩
    rw [given_append]
    exact k3 w _ (by omega) (h3 w d hw hd)

/-! ### Calls have one result -/

theorem LibRun.det {a b c : M V S} (h : LibRun a b) (hb : istep b = none) (k : LibRun a c)
    (hc : istep c = none) : b = c := by
  induction h with
  | refl =>
    cases k with
    | refl => rfl
    | step he _ => rw [he] at hb; cases hb
  | step he _ ih =>
    cases k with
    | refl => rw [he] at hc; cases hc
    | step he' k' => rw [he] at he'; cases he'; exact ih hb k'

theorem PRun.det [Inhabited S] {d : Nat} {a b c : M V S} (h : PRun d a b) (hb : pstep d b = none)
    (k : PRun d a c) (hc : pstep d c = none) : b = c := by
  induction h with
  | refl =>
    cases k with
    | refl => rfl
    | step he _ => rw [he] at hb; cases hb
  | step he _ ih =>
    cases k with
    | refl => rw [he] at hc; cases hc
    | step he' k' => rw [he] at he'; cases he'; exact ih hb k'

theorem istep_user {m : M V S} {st : List (Frame V)} (h : m.stack = .user :: st) :
    istep m = none := by
  unfold istep
  split
  · rfl
  · rw [h]

theorem ustep_user [Inhabited S] {m m' : M V S} {op : Op V S} (h : ustep m op = some m') :
    ∃ st, m.stack = .user :: st := by
  unfold ustep at h
  split at h
  · cases h
  · split at h
    · rename_i st hst; exact ⟨st, hst⟩
    · cases h

theorem Call.det [Inhabited S] {m a b : M V S} {op : Op V S} (h : Call m op a) (k : Call m op b) :
    a = b := by
  obtain ⟨m1, h1, h2, h3⟩ := h
  obtain ⟨m2, k1, k2, k3⟩ := k
  rw [h1] at k1; cases k1
  obtain ⟨st, hst⟩ := ustep_user h1
  exact h2.det (istep_user (h3.trans hst)) k2 (istep_user (k3.trans hst))

theorem pstep_done [Inhabited S] {d : Nat} {m : M V S} (h : m.stack.length = d) :
    pstep d m = none := by
  unfold pstep
  rw [if_pos (by omega)]

theorem PCall.det [Inhabited S] {m a b : M V S} {op : Op V S} (h : PCall m op a)
    (k : PCall m op b) : a = b := by
  obtain ⟨m1, h1, h2, h3⟩ := h
  obtain ⟨m2, k1, k2, k3⟩ := k
  rw [h1] at k1; cases k1
  exact h2.det (pstep_done (by rw [h3])) k2 (pstep_done (by rw [k3]))

theorem Call.runs [Inhabited S] {m a : M V S} {op : Op V S} (h : Call m op a) : Runs m a := by
  obtain ⟨m1, h1, h2, _⟩ := h
  exact .step (.user op h1) h2.runs

theorem PCall.runs [Inhabited S] {m a : M V S} {op : Op V S} (h : PCall m op a) : Runs m a := by
  obtain ⟨m1, h1, h2, _⟩ := h
  exact .step (.user op h1) h2.runs

theorem Calls.runs [Inhabited S] {m a : M V S} {ops : List (Op V S)} (h : Calls m ops a) :
    Runs m a := by
  induction h with
  | nil => exact .refl _
  | cons hc _ ih => exact hc.runs.trans ih

theorem Calls.append [Inhabited S] {a b c : M V S} {l l' : List (Op V S)} (h : Calls a l b)
    (k : Calls b l' c) : Calls a (l ++ l') c := by
  induction h with
  | nil => exact k
  | cons hc _ ih => exact .cons hc (ih k)

end Verif.Graph
