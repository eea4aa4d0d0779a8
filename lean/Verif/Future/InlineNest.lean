import Verif.Future.Inline

/-! A manual loop does not run inside of its own tasks. -/

namespace Verif.Future

/-- A loop is on the stack once if it runs, and not at all otherwise. -/
def Once (busy : Nat → Bool) (st : List KF) : Prop :=
  ∀ l, st.count (.drain l) = if busy l then 1 else 0

theorem Once.cons {busy : Nat → Bool} {st : List KF} (h : Once busy st) {f : KF} (hf : ∀ l, f ≠ .drain l) :
    Once busy (f :: st) := by
  intro l
  rw [List.count_cons_of_ne (hf l)]
  exact h l

theorem Once.pop {busy : Nat → Bool} {st : List KF} {f : KF} (h : Once busy (f :: st))
    (hf : ∀ l, f ≠ .drain l) : Once busy st := by
  intro l
  rw [← List.count_cons_of_ne (hf l)]
  exact h l

theorem Once.drained {busy : Nat → Bool} {st : List KF} {a : Nat} (h : Once busy (.drain a :: st)) :
    Once (upd busy a false) st := by
  intro l
  have := h l
  unfold upd
  by_cases e : l = a
  · subst e
    rw [List.count_cons_self] at this
    rw [if_pos rfl]
    simp only [Bool.false_eq_true, if_false]
    split at this <;> omega
  · rw [List.count_cons_of_ne (by simpa using fun x => e x.symm)] at this
    rw [if_neg e]
    exact this

theorem Once.drain {busy : Nat → Bool} {st : List KF} (h : Once busy st) {a : Nat} (hb : busy a = false) :
    Once (upd busy a true) (.drain a :: st) := by
  intro l
  have := h l
  unfold upd
  by_cases e : l = a
  · subst e
    rw [hb] at this
    rw [List.count_cons_self, if_pos rfl, this]
    rfl
  · rw [List.count_cons_of_ne (by simpa using fun x => e x.symm), if_neg e]
    exact this

theorem once_post {inl : Nat → Bool} {k : K} (h : Once k.busy k.stack) (a : Nat) (t : Task) :
    Once (k.post inl a t).busy (k.post inl a t).stack := by
  unfold K.post
  dsimp only
  split
  · rename_i hb
    simp only [Bool.and_eq_true, Bool.not_eq_true'] at hb
    exact h.drain hb.2
  · exact h

theorem once_fulfil {inl : Nat → Bool} {k : K} (h : Once k.busy k.stack) (s : Nat) (i : Option Nat) :
    Once (k.fulfil inl s i).busy (k.fulfil inl s i).stack := by
  unfold K.fulfil
  split
  · exact h
  · dsimp only
    split
    · refine once_post ?_ _ _
      exact h.cons (fun _ => nofun)
    · exact h

theorem once_attach {inl : Nat → Bool} {k : K} (h : Once k.busy k.stack) (s : Nat) (fn : Fn) :
    Once (k.attach inl s fn).busy (k.attach inl s fn).stack := by
  unfold K.attach
  dsimp only
  split
  · exact h
  · split
    · exact h
    · split
      · refine once_post ?_ _ _
        exact h.cons (fun _ => nofun)
      · exact h

theorem once_thenF {inl : Nat → Bool} {k : K} (h : Once k.busy k.stack) (s : Option Nat) (fn : Fn)
    (j : Option Nat) : Once (k.thenF inl s fn j).busy (k.thenF inl s fn j).stack := by
  unfold K.thenF
  cases s with
  | some s => exact once_attach h s fn
  | none =>
    cases fn with
    | void => exact h.cons (fun _ => nofun)
    | fut => exact h.cons (fun _ => nofun)
    | prom q => exact once_fulfil h q j
    | give g => exact h

theorem once_user {inl : Nat → Bool} {k k' : K} (h : Once k.busy k.stack) {op : UOp}
    (he : k.user inl op = some k') : Once k'.busy k'.stack := by
  cases op with
  | newPair l => simp only [K.user, Option.some.injEq] at he; subst he; exact h
  | invalid => simp only [K.user, Option.some.injEq] at he; subst he; exact h
  | copyP i =>
    simp only [K.user] at he
    split at he
    · cases he; exact h
    · rw [Option.map_eq_some_iff] at he
      obtain ⟨_, _, rfl⟩ := he
      exact h
  | copyF i =>
    simp only [K.user] at he
    rw [Option.map_eq_some_iff] at he
    obtain ⟨_, _, rfl⟩ := he
    exact h
  | fulfil i =>
    simp only [K.user] at he
    split at he
    · cases he; exact h
    · split at he
      · cases he
      · cases he; exact h
      · cases he; refine once_fulfil ?_ _ _; exact h
  | «then» i isF =>
    simp only [K.user] at he
    split at he
    · cases he
    · cases he; refine once_thenF ?_ _ _ _; exact h
  | thenP i j =>
    simp only [K.user] at he
    split at he
    · cases he; exact h
    · split at he
      · cases he; refine once_thenF ?_ _ _ _; exact h
      · cases he
  | also i j =>
    simp only [K.user] at he
    split at he
    · split at he
      · cases he
      · cases he; refine once_thenF ?_ _ _ _; exact h
    · cases he
  | run l =>
    simp only [K.user] at he
    split at he
    · cases he
    · split at he
      · cases he
      · cases he; exact h.cons (fun _ => nofun)
  | retV =>
    simp only [K.user] at he
    split at he
    · rename_i hst
      split at he
      · cases he; rw [hst] at h; exact (h.pop (fun _ => nofun)).cons (fun _ => nofun)
      · cases he
    · rename_i hst
      cases he
      rw [hst] at h
      exact h.pop (fun _ => nofun)
    · cases he
  | retF i =>
    simp only [K.user] at he
    split at he
    · rename_i hst _
      split at he
      · cases he; rw [hst] at h; exact (h.pop (fun _ => nofun)).cons (fun _ => nofun)
      · cases he
    · rename_i hst _
      cases he
      rw [hst] at h
      exact h.pop (fun _ => nofun)
    · cases he
  | raise =>
    simp only [K.user] at he
    split at he
    · rename_i hst
      cases he
      rw [hst] at h
      exact h.pop (fun _ => nofun)
    · cases he

theorem once_lib {inl : Nat → Bool} {k k' : K} (h : Once k.busy k.stack) (he : k.lib inl = some k') :
    Once k'.busy k'.stack := by
  unfold K.lib at he
  split at he
  · rename_i hst
    cases he
    rw [hst] at h
    refine once_fulfil ?_ _ _
    exact h.pop (fun _ => nofun)
  · rename_i hst
    cases he
    rw [hst] at h
    refine once_fulfil ?_ _ _
    exact h.pop (fun _ => nofun)
  · rename_i hst
    cases he
    rw [hst] at h
    refine once_attach ?_ _ _
    exact h.pop (fun _ => nofun)
  · rename_i hst
    cases he
    rw [hst] at h
    refine once_fulfil ?_ _ _
    exact (h.pop (fun _ => nofun)).cons (fun _ => nofun)
  · rename_i l st hst
    rw [hst] at h
    split at he
    · cases he
      exact h.drained
    · cases he
      exact h.cons (fun _ => nofun)
  · rename_i hst
    cases he
    rw [hst] at h
    exact h.pop (fun _ => nofun)
  · rename_i hst
    cases he
    rw [hst] at h
    exact h.pop (fun _ => nofun)
  · cases he

theorem once_unwind {k k' : K} (h : Once k.busy k.stack) (he : k.unwind = some k') :
    Once k'.busy k'.stack := by
  unfold K.unwind at he
  split at he
  · cases he
  all_goals
    rename_i hst
    cases he
    rw [hst] at h
  · exact h.drained
  · exact h.pop (fun _ => nofun)
  · exact h.pop (fun _ => nofun)
  · exact h.pop (fun _ => nofun)

theorem KReach.once {inl : Nat → Bool} {k : K} (r : KReach inl k) : Once k.busy k.stack := by
  induction r with
  | start => exact fun _ => rfl
  | @step k k' op r he ih =>
    unfold kstep at he
    split at he
    · cases he
    · cases op with
      | user op =>
        dsimp only at he
        split at he
        · exact once_user ih he
        · cases he
      | lib =>
        dsimp only at he
        split at he
        · exact once_lib ih he
        · cases he
      | unwind =>
        dsimp only at he
        split at he
        · exact once_unwind ih he
        · cases he
      | «catch» =>
        dsimp only at he
        split at he
        · cases he; exact ih
        · cases he

end Verif.Future
