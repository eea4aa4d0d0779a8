import Verif.Watch.More

/-!
Running operations, for examples.
-/

namespace Verif.Watch

/-- Several steps, one after the other. -/
def exec : St → List Op → Option St
  | st, [] => some st
  | st, op :: ops =>
    match step st op with
    | some st' => exec st' ops
    | none => none

theorem exec_run {st st' : St} {ops : List Op} (h : exec st ops = some st') : Run st ops st' := by
  induction ops generalizing st with
  | nil => cases h; exact .nil _
  | cons op ops ih =>
    unfold exec at h
    split at h
    · rename_i hs
      exact .cons hs (ih h)
    · cases h

/-- The state after the operations. -/
def after (ops : List Op) : St := (exec start ops).getD start

/-- Are these steps possible at the beginning? -/
def ok (ops : List Op) : Bool := (exec start ops).isSome

theorem reach_after {ops : List Op} (h : ok ops = true) : Reach (after ops) := by
  unfold ok at h
  obtain ⟨s, hs⟩ := Option.isSome_iff_exists.1 h
  have : after ops = s := by unfold after; rw [hs]; rfl
  rw [this]
  exact Reach.start.run (exec_run hs)

theorem step_after {ops : List Op} {op : Op} (h : ok (ops ++ [op]) = true) :
    step (after ops) op = some (after (ops ++ [op])) := by
  have key : ∀ (st : St) (ops : List Op) (s : St), exec st (ops ++ [op]) = some s →
      ∃ t, exec st ops = some t ∧ step t op = some s := by
    intro st ops
    induction ops generalizing st with
    | nil =>
      intro s hs
      refine ⟨st, rfl, ?_⟩
      unfold exec at hs
      simp only [List.nil_append] at hs
      split at hs
      · rename_i h; cases hs; exact h
      · cases hs
    | cons o ops ih =>
      intro s hs
      unfold exec at hs
      simp only [List.cons_append] at hs
      split at hs
      · rename_i h
        obtain ⟨t, h1, h2⟩ := ih _ s hs
        exact ⟨t, by unfold exec; rw [h]; exact h1, h2⟩
      · cases hs
  unfold ok at h
  obtain ⟨s, hs⟩ := Option.isSome_iff_exists.1 h
  obtain ⟨t, h1, h2⟩ := key start ops s hs
  have e1 : after ops = t := by unfold after; rw [h1]; rfl
  have e2 : after (ops ++ [op]) = s := by unfold after; rw [hs]; rfl
  rw [e1, e2]; exact h2

theorem run_after {a b : List Op} (h : ok (a ++ b) = true) : Run (after a) b (after (a ++ b)) := by
  have key : ∀ (st : St) (a : List Op) (s : St), exec st (a ++ b) = some s →
      ∃ t, exec st a = some t ∧ exec t b = some s := by
    intro st a
    induction a generalizing st with
    | nil => intro s hs; exact ⟨st, rfl, hs⟩
    | cons o ops ih =>
      intro s hs
      unfold exec at hs
      simp only [List.cons_append] at hs
      split at hs
      · rename_i h
        obtain ⟨t, h1, h2⟩ := ih _ s hs
        exact ⟨t, by unfold exec; rw [h]; exact h1, h2⟩
      · cases hs
  unfold ok at h
  obtain ⟨s, hs⟩ := Option.isSome_iff_exists.1 h
  obtain ⟨t, h1, h2⟩ := key start a s hs
  have e1 : after a = t := by unfold after; rw [h1]; rfl
  have e2 : after (a ++ b) = s := by unfold after; rw [hs]; rfl
  rw [e1, e2]; exact exec_run h2

/-- `St.hits`, decided. -/
def hitB (st : St) (op : Op) : Bool :=
  st.stack.any fun fr => match fr with
    | .node _ _ r => op.target == some r
    | .slot _ _ r _ _ => op.drops == some r
    | .bind r _ => op == .destroy r

/-- `St.nulls`, decided. -/
def nullB (st : St) : Op → Bool
  | .bind r | .nudge r => (st.node r).isNone
  | _ => false

theorem fine_of {st : St} {op : Op} (h1 : hitB st op = false) (h2 : nullB st op = false) : st.fine op := by
  constructor
  · rintro ⟨fr, hm, h⟩
    unfold hitB at h1
    rw [List.any_eq_false] at h1
    have := h1 fr hm
    cases fr <;> simp_all
  · rintro ⟨r, h | h, hn⟩ <;> subst h <;> simp [nullB, hn] at h2

/-- Several steps, one after the other, all of them `fine`. -/
def safeExec : St → List Op → Option St
  | st, [] => some st
  | st, op :: ops =>
    if hitB st op || nullB st op then none
    else match step st op with
      | some st' => safeExec st' ops
      | none => none

theorem safeExec_run {st st' : St} {ops : List Op} (h : safeExec st ops = some st') : SafeRun st ops st' := by
  induction ops generalizing st with
  | nil => cases h; exact .nil _
  | cons op ops ih =>
    unfold safeExec at h
    split at h
    · cases h
    · rename_i hb
      simp only [Bool.or_eq_true, not_or, Bool.not_eq_true] at hb
      split at h
      · rename_i hs
        exact .cons (fine_of hb.1 hb.2) hs (ih h)
      · cases h

theorem safe_exec {st st' : St} {ops : List Op} (h : safeExec st ops = some st') : exec st ops = some st' := by
  induction ops generalizing st with
  | nil => exact h
  | cons op ops ih =>
    unfold safeExec at h
    unfold exec
    split at h
    · cases h
    · split at h
      · exact ih h
      · cases h

/-- Are these steps possible and `fine` at the beginning? -/
def okSafe (ops : List Op) : Bool := (safeExec start ops).isSome

theorem safe_after {ops : List Op} (h : okSafe ops = true) : SafeReach (after ops) := by
  unfold okSafe at h
  obtain ⟨s, hs⟩ := Option.isSome_iff_exists.1 h
  have : after ops = s := by unfold after; rw [safe_exec hs]; rfl
  rw [this]
  exact SafeReach.start.run (safeExec_run hs)

theorem safeRun_after {a b : List Op} (h : okSafe (a ++ b) = true) : SafeRun (after a) b (after (a ++ b)) := by
  have key : ∀ (st : St) (a : List Op) (s : St), safeExec st (a ++ b) = some s →
      ∃ t, safeExec st a = some t ∧ safeExec t b = some s := by
    intro st a
    induction a generalizing st with
    | nil => intro s hs; exact ⟨st, rfl, hs⟩
    | cons o ops ih =>
      intro s hs
      unfold safeExec at hs
      simp only [List.cons_append] at hs
      split at hs
      · cases hs
      · rename_i hb
        split at hs
        · rename_i h
          obtain ⟨t, h1, h2⟩ := ih _ s hs
          exact ⟨t, by unfold safeExec; rw [if_neg hb, h]; exact h1, h2⟩
        · cases hs
  unfold okSafe at h
  obtain ⟨s, hs⟩ := Option.isSome_iff_exists.1 h
  obtain ⟨t, h1, h2⟩ := key start a s hs
  have e1 : after a = t := by unfold after; rw [safe_exec h1]; rfl
  have e2 : after (a ++ b) = s := by unfold after; rw [safe_exec hs]; rfl
  rw [e1, e2]; exact safeExec_run h2

end Verif.Watch
