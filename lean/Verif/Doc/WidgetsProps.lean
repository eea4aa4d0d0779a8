import Verif.Doc.Widgets

/-!
C143: widgets that are kept up to date by comparing models.
-/

namespace Verif.Widgets

variable {M A I V : Type} [DecidableEq M] [DecidableEq I] [DecidableEq V]

/-! ### Spec -/

/-- What the program can become. -/
inductive Reach (c : Cfg M A I V) (m : M) : Sys M A I V → Prop where
  | start : Reach c m (c.start m)
  | step {s s'} (o : Op A I V) : Reach c m s → c.step s o = some s' → Reach c m s'

/-- A widget shows what the user has put there last, and since then the watcher has not seen that the part of the model has
changed from what it is in `m`; or, if it does not compare, was not called. -/
def Stale (c : Cfg M A I V) (s : Sys M A I V) (m : M) (i : I) : Prop :=
  ∃ l v r, s.log = l ++ .edited i v :: r ∧ (∀ u, .edited i u ∉ r) ∧ s.widgets i = v ∧
    ∀ m', .drawn m' ∈ r → c.diff = true ∧ c.part i m' = c.part i m

/-! ### Proofs -/

structure Good (c : Cfg M A I V) (m : M) (s : Sys M A I V) : Prop where
  app : s.model = s.done.foldl c.update m
  clean : s.dirty = false → s.old = s.model
  will : s.dirty = true → .publish ∈ s.queue
  was : ∃ l l', s.done = l ++ l' ∧ s.old = l.foldl c.update m
  shows : ∀ i, s.widgets i = c.part i s.old ∨ Stale c s s.old i

omit [DecidableEq M] [DecidableEq I] [DecidableEq V] in
theorem Good.begin (c : Cfg M A I V) (m : M) : Good c m (c.start m) :=
  ⟨rfl, fun _ => rfl, nofun, ⟨[], [], rfl, rfl⟩, fun _ => .inl rfl⟩

theorem Good.step {c : Cfg M A I V} {m : M} {s s' : Sys M A I V} (g : Good c m s) {o : Op A I V} (h : c.step s o = some s') :
    Good c m s' := by
  cases o with
  | act a =>
    cases h
    exact ⟨g.app, g.clean, fun h => List.mem_append_left _ (g.will h), g.was, g.shows⟩
  | edit i v =>
    cases h
    refine ⟨g.app, g.clean, fun h => List.mem_append_left _ (g.will h), g.was, fun j => ?_⟩
    by_cases hj : j = i
    · subst hj
      exact .inr ⟨s.log, v, [], rfl, nofun, if_pos rfl, nofun⟩
    · rcases g.shows j with h | ⟨l, u, r, h1, h2, h3, h4⟩
      · exact .inl ((if_neg hj).trans h)
      · refine .inr ⟨l, u, r ++ [.edited i v], by simp [h1], fun u' h => ?_, (if_neg hj).trans h3, fun m' h => ?_⟩
        · rcases List.mem_append.1 h with h | h
          · exact h2 u' h
          · cases List.mem_singleton.1 h; exact hj rfl
        · rcases List.mem_append.1 h with h | h
          · exact h4 m' h
          · cases List.mem_singleton.1 h
  | work =>
    simp only [Cfg.step, Cfg.work] at h
    split at h
    · cases h
    · rename_i a q hq
      cases h
      obtain ⟨l, l', h1, h2⟩ := g.was
      refine ⟨?_, fun h => ?_, fun _ => List.mem_append_right _ (List.mem_singleton.2 rfl),
        ⟨l, l' ++ [a], by simp [Cfg.eval, h1], h2⟩, g.shows⟩
      · simp [Cfg.eval, List.foldl_append, ← g.app]
      · simp only [Cfg.eval, Bool.or_eq_false_iff, decide_eq_false_iff_not, Decidable.not_not] at h ⊢
        rw [h.2]
        exact g.clean h.1
    · rename_i q hq
      split at h
      · cases h
        refine ⟨g.app, fun _ => rfl, nofun, ⟨s.done, [], by simp [Cfg.watcher], g.app⟩, fun i => ?_⟩
        simp only [Cfg.watcher]
        by_cases hp : (!c.diff || c.part i s.old ≠ c.part i s.model) = true
        · exact .inl (if_pos hp)
        · simp only [Bool.or_eq_true, Bool.not_eq_true', decide_eq_true_eq, not_or, Bool.not_eq_false, Decidable.not_not] at hp
          have hw : (if (!c.diff || c.part i s.old ≠ c.part i s.model) = true then c.part i s.model else s.widgets i) =
              s.widgets i := by simp [hp.1, hp.2]
          rcases g.shows i with h | ⟨l, v, r, h1, h2, h3, h4⟩
          · left; rw [hw, h, hp.2]
          · right
            refine ⟨l, v, r ++ [.drawn s.model], by simp [h1], fun u h => ?_, hw.trans h3, fun m' h => ?_⟩
            · rcases List.mem_append.1 h with h | h
              · exact h2 u h
              · cases List.mem_singleton.1 h
            · refine ⟨hp.1, ?_⟩
              rcases List.mem_append.1 h with h | h
              · exact (h4 m' h).2.trans hp.2
              · cases List.mem_singleton.1 h; rfl
      · rename_i hd
        cases h
        exact ⟨g.app, g.clean, fun h => absurd h hd, g.was, g.shows⟩

theorem Reach.good {c : Cfg M A I V} {m : M} {s : Sys M A I V} (r : Reach c m s) : Good c m s := by
  induction r with
  | start => exact .begin c m
  | step o _ h ih => exact ih.step h

omit [DecidableEq M] [DecidableEq I] [DecidableEq V] in
theorem Good.rest {c : Cfg M A I V} {m : M} {s : Sys M A I V} (g : Good c m s) (hq : s.queue = []) : s.old = s.model := by
  cases hd : s.dirty with
  | false => exact g.clean hd
  | true => have := g.will hd; rw [hq] at this; cases this

/-! ### C143 -/

/-- C143: there is always a model that was there after some of the actions, and if no task waits it is that after all of them, of
which each widget shows its part, or what the user has put there last, if since then that part has not been seen to change. -/
theorem C143_shown {c : Cfg M A I V} {m : M} {s : Sys M A I V} (r : Reach c m s) :
    ∃ m', (∃ l l', s.done = l ++ l' ∧ m' = l.foldl c.update m) ∧ (s.queue = [] → m' = s.done.foldl c.update m) ∧
      ∀ i, s.widgets i = c.part i m' ∨ Stale c s m' i :=
  ⟨s.old, r.good.was, fun hq => (r.good.rest hq).trans r.good.app, r.good.shows⟩

/-- C143: so widgets that the user has not changed all show parts of the same model: that after all actions, if no task waits. -/
theorem C143_untouched {c : Cfg M A I V} {m : M} {s : Sys M A I V} (r : Reach c m s) :
    ∃ m', (∃ l l', s.done = l ++ l' ∧ m' = l.foldl c.update m) ∧ (s.queue = [] → m' = s.done.foldl c.update m) ∧
      ∀ i, (∀ v, .edited i v ∉ s.log) → s.widgets i = c.part i m' := by
  obtain ⟨m', h1, h2, h3⟩ := C143_shown r
  refine ⟨m', h1, h2, fun i hi => (h3 i).resolve_right ?_⟩
  rintro ⟨l, v, r, h, _⟩
  exact hi v (by rw [h]; simp)

/-- C143: if nothing else is going on, then after a change by the user the widget shows the model just if the part is now what the
user has put there, or another one than before. -/
theorem C143_quiet {c : Cfg M A I V} {m : M} {s s' : Sys M A I V} (r : Reach c m s) (hc : c.diff = true) (hq : s.queue = [])
    {i : I} {v : V} (hx : c.exec s [.edit i v, .work, .work] = some s') :
    s'.queue = [] ∧ s'.model = c.update s.model (c.on i v) ∧
    (s'.widgets i = c.part i s'.model ↔ c.part i s'.model = v ∨ c.part i s'.model ≠ c.part i s.model) := by
  have ho := r.good.rest hq
  simp only [Cfg.exec, Cfg.step, Option.bind_some, Cfg.work, hq, List.nil_append, Cfg.eval] at hx
  by_cases hd : (s.dirty || decide (c.update s.model (c.on i v) ≠ s.model)) = true
  · simp only [hd, if_true, Option.bind_some, Option.some.injEq] at hx
    cases hx
    simp only [Cfg.watcher, ho, hc, Bool.not_true, Bool.false_or, decide_eq_true_eq, if_true]
    refine ⟨trivial, trivial, ?_⟩
    by_cases hp : c.part i s.model = c.part i (c.update s.model (c.on i v))
    · rw [if_neg (by simpa using hp), hp]
      simp [eq_comm]
    · rw [if_pos (by simpa using hp)]
      simp only [true_iff]
      exact .inr fun h => hp h.symm
  · simp only [hd, Bool.false_eq_true, if_false, Option.bind_some, Option.some.injEq] at hx
    cases hx
    simp only [Bool.or_eq_true, not_or, decide_eq_true_eq, Decidable.not_not] at hd
    simp [hd.2, eq_comm]

/-- C143: if the watcher does not compare, and whatever the user does with a widget changes the model, then whenever no task
waits, all widgets show the model. -/
theorem C143_assign {c : Cfg M A I V} {m : M} {s : Sys M A I V} (r : Reach c m s) (hc : c.diff = false)
    (hu : ∀ m i v, c.update m (c.on i v) ≠ m) (hq : s.queue = []) (i : I) :
    s.widgets i = c.part i (s.done.foldl c.update m) := by
  have key : ∀ s, Reach c m s → ∀ l i v r, s.log = l ++ .edited i v :: r → (∀ m', .drawn m' ∉ r) →
      s.dirty = true ∨ .eval (c.on i v) ∈ s.queue := by
    intro s r
    induction r with
    | start => intro l i v r h; simp [Cfg.start] at h
    | step o _ h ih =>
      rename_i s s' _
      intro l i v r hl hr
      cases o with
      | act a =>
        cases h
        exact (ih l i v r hl hr).imp_right (List.mem_append_left _)
      | edit j u =>
        cases h
        rcases List.eq_nil_or_concat r with rfl | ⟨r', y, rfl⟩
        · obtain ⟨_, h2⟩ := List.append_inj' (show s.log ++ [Log.edited j u] = l ++ [.edited i v] from hl) rfl
          cases h2
          exact .inr (List.mem_append_right _ (List.mem_singleton.2 rfl))
        · have hl' : s.log ++ [Log.edited j u] = (l ++ .edited i v :: r') ++ [y] := by
            rw [show s.log ++ [Log.edited j u] = _ from hl]; simp
          have h1 := (List.append_inj' hl' rfl).1
          exact (ih l i v r' h1 fun m' h => hr m' (by simp [h])).imp_right (List.mem_append_left _)
      | work =>
        simp only [Cfg.step, Cfg.work] at h
        split at h
        · cases h
        · rename_i a q hq
          cases h
          simp only [Cfg.eval] at hl ⊢
          rcases ih l i v r hl hr with h | h
          · exact .inl (by simp [h])
          · rw [hq] at h
            rcases List.mem_cons.1 h with h | h
            · cases h
              exact .inl (by simp [hu])
            · exact .inr (List.mem_append_left _ h)
        · rename_i q hq
          split at h
          · cases h
            simp only [Cfg.watcher] at hl ⊢
            exfalso
            rcases List.eq_nil_or_concat r with rfl | ⟨r', y, rfl⟩
            · obtain ⟨_, h2⟩ := List.append_inj' (show s.log ++ [Log.drawn s.model] = l ++ [.edited i v] from hl) rfl
              cases h2
            · have hl' : s.log ++ [Log.drawn s.model] = (l ++ .edited i v :: r') ++ [y] := by
                rw [show s.log ++ [Log.drawn s.model] = _ from hl]; simp
              have h2 := (List.append_inj' hl' rfl).2
              cases h2
              exact hr s.model (by simp)
          · cases h
            rcases ih l i v r hl hr with h | h
            · exact .inl h
            · rw [hq] at h
              rcases List.mem_cons.1 h with h | h
              · cases h
              · exact .inr h
  have g := r.good
  rw [← g.app, ← g.rest hq]
  refine (g.shows i).resolve_right ?_
  rintro ⟨l, v, r', h1, _, _, h4⟩
  have hn : ∀ m', Log.drawn m' ∉ r' := fun m' h => by
    have := (h4 m' h).1
    rw [hc] at this; cases this
  rcases key s r l i v r' h1 hn with h | h
  · have := g.will h; rw [hq] at this; cases this
  · rw [hq] at h; cases h

/-- C143: readers do the same as comparing by hand: whatever happens, the widgets, the model and the tasks are the same. -/
theorem C143_readers (c : Cfg M A I V) (hc : c.diff = true) (m : M) (os : List (Op A I V)) :
    (c.cexec (c.cstart m) os).map (fun s => (s.widgets, s.model, s.queue)) =
    (c.exec (c.start m) os).map fun s => (s.widgets, s.model, s.queue) := by
  suffices h : ∀ (s : Sys M A I V) (t : CSys M A I V), t = ⟨s.model, s.dirty, s.queue, fun i => c.part i s.old, s.widgets⟩ →
      (c.cexec t os).map (fun s => (s.widgets, s.model, s.queue)) =
      (c.exec s os).map fun s => (s.widgets, s.model, s.queue) from h _ _ rfl
  induction os with
  | nil => rintro s _ rfl; rfl
  | cons o os ih =>
    rintro s _ rfl
    simp only [Cfg.exec, Cfg.cexec]
    cases o with
    | act a => exact ih _ _ rfl
    | edit i v => exact ih _ _ rfl
    | work =>
      simp only [Cfg.step, Cfg.cstep, Cfg.work, Cfg.cwork]
      cases hq : s.queue with
      | nil => rfl
      | cons t q =>
        cases t with
        | eval a => exact ih _ _ rfl
        | publish =>
          cases hd : s.dirty with
          | false =>
            have := ih { s with queue := q } _ rfl
            simpa [hd] using this
          | true =>
            refine ih _ _ ?_
            simp only [Cfg.notify, Cfg.watcher, hc, Bool.not_true, Bool.false_or, CSys.mk.injEq, true_and]
            constructor
            · funext i
              by_cases h : c.part i s.model = c.part i s.old <;> simp [h]
            · funext i
              by_cases h : c.part i s.model = c.part i s.old
              · simp [h]
              · have h' : ¬ c.part i s.old = c.part i s.model := fun e => h e.symm
                simp [h, h']

/-! ### Examples -/

/-- A number that may not be more than nine, and a widget for it. -/
def field (diff : Bool) : Cfg Nat Nat Unit Nat := ⟨fun m a => if a ≤ 9 then a else m, fun _ m => m, fun _ v => v, diff⟩

theorem Reach.exec {c : Cfg M A I V} {m : M} {s s' : Sys M A I V} (r : Reach c m s) {os : List (Op A I V)}
    (h : c.exec s os = some s') : Reach c m s' := by
  induction os generalizing s with
  | nil => cases h; exact r
  | cons o os ih =>
    simp only [Cfg.exec, Option.bind_eq_some_iff] at h
    obtain ⟨s1, h1, h2⟩ := h
    exact ih (.step o r h1) h2

/-- C143 is FALSE if the reducer refuses what the user has done: the model does not change, so the watcher is not called, and the
widget goes on showing what the user has put there, also if the watcher does not compare. -/
theorem C143_refused_false (diff : Bool) : ∃ s, Reach (field diff) 0 s ∧ s.queue = [] ∧ s.done = [12] ∧ s.model = 0 ∧
    s.widgets () = 12 ∧ Log.edited () 12 ∈ s.log := by
  have h : (field diff).exec ((field diff).start 0) [.edit () 12, .work, .work] =
      some ⟨0, false, [], 0, fun j => if j = () then 12 else 0, [12], [.edited () 12]⟩ := by
    cases diff <;> rfl
  exact ⟨_, Reach.start.exec h, rfl, rfl, rfl, rfl, by simp⟩

/-- C143 is FALSE if the reducer accepts it, and another action that was dispatched before the watcher is called takes it back:
the watcher finds no difference.  If it does not compare, the widget shows the model. -/
theorem C143_taken_back_false : ∃ os : List (Op Nat Unit Nat), os = [.edit () 5, .act 0, .work, .work, .work, .work] ∧
    (∃ s, (field true).exec ((field true).start 0) os = some s ∧ s.queue = [] ∧ s.model = 0 ∧ s.widgets () = 5) ∧
    ∃ s, (field false).exec ((field false).start 0) os = some s ∧ s.queue = [] ∧ s.model = 0 ∧ s.widgets () = 0 :=
  ⟨_, rfl, ⟨_, rfl, rfl, rfl, rfl⟩, ⟨_, rfl, rfl, rfl, rfl⟩⟩

/-- Two numbers: the second one counts the changes of the first. -/
def pair : Cfg (Nat × Nat) (Option Nat) Bool Nat :=
  ⟨fun m a => (a.getD m.1, m.2 + 1), fun i m => if i then m.2 else m.1, fun _ v => some v, false⟩

example : (∀ m i v, pair.update m (pair.on i v) ≠ m) ∧ pair.diff = false ∧
    ∃ s, pair.exec (pair.start (0, 0)) [.edit false 3, .work, .edit false 4, .work, .work, .work] = some s ∧
      s.queue = [] ∧ s.widgets false = 4 ∧ s.widgets true = 2 := by
  refine ⟨fun m i v h => ?_, rfl, _, rfl, rfl, rfl, rfl⟩
  have := congrArg Prod.snd h
  simp [pair] at this

example : ∃ s, (field true).cexec ((field true).cstart 0) [.edit () 5, .act 0, .work, .work, .work, .work] = some s ∧
    s.queue = [] ∧ s.model = 0 ∧ s.widgets () = 5 :=
  ⟨_, rfl, rfl, rfl, rfl⟩

example : ∃ s, (field true).exec ((field true).start 0) [.edit () 7, .work, .work] = some s ∧ s.queue = [] ∧ s.widgets () = 7 :=
  ⟨_, rfl, rfl, rfl⟩

end Verif.Widgets
