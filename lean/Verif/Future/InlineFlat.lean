import Verif.Future.Inline

/-
If no loop is manual, callbacks do not run inside of calls of `then` and of promises.
-/

namespace Verif.Future

/-- Only code is on the stack. -/
def Plain (st : List KF) : Prop := ∀ g ∈ st, ∃ c, g = KF.code c

/-- … except for a call on top. -/
def Flat (st : List KF) : Prop := Plain st.tail ∧ ∀ l, KF.drain l ∉ st

theorem plain_user {st : List KF} (hu : userTop st = true) (h0 : Flat st) : Plain st := by
  have h := h0.1
  cases st with
  | nil => exact h
  | cons f st =>
    intro g hg
    rcases List.mem_cons.1 hg with rfl | hg
    · cases g with
      | code c => exact ⟨c, rfl⟩
      | _ => cases hu
    · exact h g hg

theorem plain_tail {st : List KF} (h : Plain st) : Plain st.tail := fun g hg => h g (List.mem_of_mem_tail hg)

theorem Plain.flat {st : List KF} (h : Plain st) : Flat st :=
  ⟨plain_tail h, fun l hl => by obtain ⟨c, e⟩ := h _ hl; cases e⟩

theorem Plain.cons {st : List KF} (h : Plain st) {f : KF} (hf : ∀ l, f ≠ .drain l) : Flat (f :: st) :=
  ⟨h, fun l hl => by
    rcases List.mem_cons.1 hl with e | hl
    · exact hf l e.symm
    · exact h.flat.2 l hl⟩

theorem flat_post {inl : Nat → Bool} (h0 : ∀ l, inl l = false) (k : K) (l : Nat) (t : Task) :
    (k.post inl l t).stack = k.stack := by
  unfold K.post
  simp [h0 l]

theorem flat_fulfil {inl : Nat → Bool} (h0 : ∀ l, inl l = false) {k : K} (h : Plain k.stack) (s : Nat)
    (i : Option Nat) : Flat (k.fulfil inl s i).stack := by
  unfold K.fulfil
  split
  · exact h.flat
  · dsimp only
    split
    · rw [flat_post h0]
      exact h.cons (fun _ => nofun)
    · exact h.flat

theorem flat_attach {inl : Nat → Bool} (h0 : ∀ l, inl l = false) {k : K} (h : Plain k.stack) (s : Nat)
    (fn : Fn) : Flat (k.attach inl s fn).stack := by
  unfold K.attach
  dsimp only
  split
  · exact h.flat
  · split
    · exact h.flat
    · split
      · rw [flat_post h0]
        exact h.cons (fun _ => nofun)
      · exact h.flat

theorem flat_thenF {inl : Nat → Bool} (h0 : ∀ l, inl l = false) {k : K} (h : Plain k.stack) (s : Option Nat)
    (fn : Fn) (j : Option Nat) : Flat (k.thenF inl s fn j).stack := by
  unfold K.thenF
  cases s with
  | some s => exact flat_attach h0 h s fn
  | none =>
    cases fn with
    | void => exact h.cons (fun _ => nofun)
    | fut => exact h.cons (fun _ => nofun)
    | prom q => exact flat_fulfil h0 h q j
    | give g => exact h.flat

theorem flat_user {inl : Nat → Bool} (h0 : ∀ l, inl l = false) {k k' : K} (h : Plain k.stack) {op : UOp}
    (he : k.user inl op = some k') : Flat k'.stack := by
  cases op with
  | newPair l => simp only [K.user, Option.some.injEq] at he; subst he; exact h.flat
  | invalid => simp only [K.user, Option.some.injEq] at he; subst he; exact h.flat
  | copyP i =>
    simp only [K.user] at he
    split at he
    · cases he; exact h.flat
    · rw [Option.map_eq_some_iff] at he
      obtain ⟨_, _, rfl⟩ := he
      exact h.flat
  | copyF i =>
    simp only [K.user] at he
    rw [Option.map_eq_some_iff] at he
    obtain ⟨_, _, rfl⟩ := he
    exact h.flat
  | fulfil i =>
    simp only [K.user] at he
    split at he
    · cases he; exact h.flat
    · split at he
      · cases he
      · cases he; exact h.flat
      · cases he; refine flat_fulfil h0 ?_ _ _; exact h
  | «then» i isF =>
    simp only [K.user] at he
    split at he
    · cases he
    · cases he; refine flat_thenF h0 ?_ _ _ _; exact h
  | thenP i j =>
    simp only [K.user] at he
    split at he
    · cases he; exact h.flat
    · split at he
      · cases he; refine flat_thenF h0 ?_ _ _ _; exact h
      · cases he
  | also i j =>
    simp only [K.user] at he
    split at he
    · split at he
      · cases he
      · cases he; refine flat_thenF h0 ?_ _ _ _; exact h
    · cases he
  | run l =>
    simp only [K.user] at he
    split at he
    · cases he
    · split at he
      · cases he
      · cases he; exact h.cons (fun _ => by unfold Task.frame; split <;> nofun)
  | retV =>
    simp only [K.user] at he
    split at he
    · rename_i hst
      split at he
      · cases he; rw [hst] at h; exact Plain.cons (plain_tail h) (fun _ => nofun)
      · cases he
    · rename_i hst
      cases he
      rw [hst] at h
      exact Plain.flat (plain_tail h)
    · cases he
  | retF i =>
    simp only [K.user] at he
    split at he
    · rename_i hst _
      split at he
      · cases he; rw [hst] at h; exact Plain.cons (plain_tail h) (fun _ => nofun)
      · cases he
    · rename_i hst _
      cases he
      rw [hst] at h
      exact Plain.flat (plain_tail h)
    · cases he
  | raise =>
    simp only [K.user] at he
    split at he
    · rename_i hst
      cases he
      rw [hst] at h
      exact Plain.flat (plain_tail h)
    · cases he

theorem flat_lib {inl : Nat → Bool} (h0 : ∀ l, inl l = false) {k k' : K} (h : Flat k.stack)
    (he : k.lib inl = some k') : Flat k'.stack := by
  unfold K.lib at he
  split at he
  · rename_i hst
    cases he
    rw [hst] at h
    refine flat_fulfil h0 ?_ _ _
    exact h.1
  · rename_i hst
    cases he
    rw [hst] at h
    refine flat_fulfil h0 ?_ _ _
    exact h.1
  · rename_i hst
    cases he
    rw [hst] at h
    refine flat_attach h0 ?_ _ _
    exact h.1
  · rename_i hst
    cases he
    rw [hst] at h
    refine flat_fulfil h0 ?_ _ _
    intro g hg
    rcases List.mem_cons.1 hg with rfl | hg
    · exact ⟨_, rfl⟩
    · exact h.1 g hg
  · rename_i l st hst
    exact absurd (by rw [hst]; exact List.mem_cons_self) (h.2 l)
  · rename_i hst
    cases he
    rw [hst] at h
    exact Plain.flat h.1
  · rename_i hst
    cases he
    rw [hst] at h
    exact Plain.flat h.1
  · cases he

theorem flat_unwind {k k' : K} (h : Flat k.stack) (he : k.unwind = some k') : Flat k'.stack := by
  unfold K.unwind at he
  split at he
  · cases he
  all_goals
    rename_i hst
    cases he
    rw [hst] at h
    exact Plain.flat h.1

/-- Loops that only queue never run inside of calls. -/
theorem KReach.flat {inl : Nat → Bool} (h0 : ∀ l, inl l = false) {k : K} (r : KReach inl k) :
    Flat k.stack := by
  induction r with
  | start => exact ⟨fun _ h => (nomatch h), fun _ h => (nomatch h)⟩
  | @step k k' op r he ih =>
    unfold kstep at he
    split at he
    · cases he
    · cases op with
      | user op =>
        dsimp only at he
        split at he
        · rename_i hc
          simp only [Bool.and_eq_true] at hc
          exact flat_user h0 (plain_user hc.2 ih) he
        · cases he
      | lib =>
        dsimp only at he
        split at he
        · exact flat_lib h0 ih he
        · cases he
      | unwind =>
        dsimp only at he
        split at he
        · exact flat_unwind ih he
        · cases he
      | «catch» =>
        dsimp only at he
        split at he
        · cases he; exact ih
        · cases he

end Verif.Future
