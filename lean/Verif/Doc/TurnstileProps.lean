import Verif.Doc.Turnstile

/-!
C144: who passes the turnstile.
-/

namespace Verif.Turnstile

/-- Every state that the program can be in. -/
inductive Reach : Sys → Prop where
  | start : Reach start
  | step {s s' : Sys} (o : Op) : Reach s → s.step o = some s' → Reach s'

/-- The same, if those who push wait until no task is waiting. -/
inductive Patient : Sys → Prop where
  | start : Patient start
  | coin {s : Sys} : Patient s → Patient (s.act .coin)
  | push {s : Sys} : Patient s → s.queue = [] → Patient (s.act .push)
  | work {s s' : Sys} : Patient s → s.work = some s' → Patient s'

/-- How often a coin is directly followed by a push. -/
def paid (l : List Act) : Nat := (l.zip l.tail).count (.coin, .push)

/-! ### Lemmas -/

theorem foldl_snoc (l : List Act) (a : Act) : (l ++ [a]).foldl update .locked = update (l.foldl update .locked) a := by
  simp

theorem paid_aux (a b : Act) (l : List Act) : ((b :: (l ++ [a])).zip (l ++ [a])).count (Act.coin, Act.push) =
    ((b :: l).zip l).count (Act.coin, Act.push) +
      if passes ((b :: l).foldl update .locked) a = true then 1 else 0 := by
  induction l generalizing b with
  | nil => cases a <;> cases b <;> rfl
  | cons c l ih =>
    have := ih c
    have e : (b :: c :: l).foldl update .locked = (c :: l).foldl update .locked := by
      cases b <;> cases c <;> rfl
    rw [e, List.cons_append, List.zip_cons_cons, List.count_cons, this, List.zip_cons_cons, List.count_cons]
    omega

theorem paid_snoc (l : List Act) (a : Act) :
    paid (l ++ [a]) = paid l + if passes (l.foldl update .locked) a = true then 1 else 0 := by
  cases l with
  | nil => cases a <;> rfl
  | cons b l =>
    have := paid_aux a b l
    simpa [paid] using this

theorem paid_le (l : List Act) : paid l ≤ l.count .coin := by
  have h : ∀ l : List Act, ∀ b, ((b :: l).zip l).count (Act.coin, Act.push) ≤ (b :: l).count .coin := by
    intro l
    induction l with
    | nil => intro b; simp
    | cons c l ih =>
      intro b
      have := ih c
      rw [List.zip_cons_cons, List.count_cons, List.count_cons (l := c :: l)]
      cases b <;> cases c <;> simp_all <;> omega
  cases l with
  | nil => exact Nat.le_refl _
  | cons b l => exact h l b

/-- The actions that wait. -/
def waiting (q : List Task) : List Act := q.filterMap fun | .eval a => some a | .after _ => none

/-- The effects that wait. -/
def owed (q : List Task) : List Bool := q.filterMap fun | .eval _ => none | .after e => some e

/-- The effects of actions. -/
def effs (m : Model) : List Act → List Bool
  | [] => []
  | a :: l => passes m a :: effs (update m a) l

theorem effs_snoc (m : Model) (l : List Act) (a : Act) : effs m (l ++ [a]) = effs m l ++ [passes (l.foldl update m) a] := by
  induction l generalizing m with
  | nil => rfl
  | cons b l ih => simp [effs, ih]

/-- `l` has been evaluated with its effects, `k` without them. -/
structure Inv (s : Sys) (l k : List Act) : Prop where
  acts : s.acts = l ++ k ++ waiting s.queue
  model : s.model = (l ++ k).foldl update .locked
  owed : owed s.queue = effs (l.foldl update .locked) k
  through : s.through = paid l

theorem Inv.act {s : Sys} {l k : List Act} (h : Inv s l k) (a : Act) : Inv (s.act a) l k := by
  obtain ⟨h1, h2, h3, h4⟩ := h
  refine ⟨?_, h2, ?_, h4⟩
  · simp [Sys.act, h1, waiting]
  · simp only [Sys.act, ← h3]; simp [Turnstile.owed]

theorem publish_fields (s : Sys) (e : Bool) : (s.publish.effect e).queue = s.queue ∧ (s.publish.effect e).model = s.model ∧
    (s.publish.effect e).acts = s.acts ∧ (s.publish.effect e).through = s.through + (if e = true then 1 else 0) ∧
    (s.publish.effect e).waved = s.waved ∧ (s.publish.effect e).last = (if s.dirty then s.model else s.last) ∧
    (s.publish.effect e).dirty = false := by
  unfold Sys.publish Sys.effect
  cases e <;> cases h : s.dirty <;> simp [h]

theorem Inv.work {s s' : Sys} {l k : List Act} (h : Inv s l k) (hw : s.work = some s') : ∃ l k, Inv s' l k := by
  obtain ⟨h1, h2, h3, h4⟩ := h
  unfold Sys.work at hw
  split at hw
  · cases hw
  · rename_i a q hq
    cases hw
    refine ⟨l, k ++ [a], ?_, ?_, ?_, h4⟩
    · simp [Sys.eval, h1, hq, waiting]
    · simp [Sys.eval, h2]
    · simp only [effs_snoc, ← h3, Sys.eval, hq, h2]
      simp [Turnstile.owed]
  · rename_i e q hq
    cases hw
    obtain ⟨f1, f2, f3, f4, _⟩ := publish_fields { s with queue := q } e
    cases k with
    | nil => simp [hq, Turnstile.owed, effs] at h3
    | cons a k =>
      have h3 : e :: Turnstile.owed q = passes (l.foldl update .locked) a :: effs (update (l.foldl update .locked) a) k := by rw [hq] at h3; exact h3
      obtain ⟨h3, h5⟩ := List.cons.inj h3
      refine ⟨l ++ [a], k, ?_, ?_, ?_, ?_⟩
      · rw [f3, f1]; simp [h1, hq, waiting]
      · rw [f2]; simp [h2]
      · rw [f1]; simpa [Turnstile.owed] using h5
      · rw [f4, paid_snoc, h3, h4]

theorem Reach.inv {s : Sys} (r : Reach s) : ∃ l k, Inv s l k := by
  induction r with
  | start => exact ⟨[], [], rfl, rfl, rfl, rfl⟩
  | step o r h ih =>
    obtain ⟨l, k, i⟩ := ih
    cases o with
    | act a => cases h; exact ⟨l, k, i.act a⟩
    | work => exact i.work h

/-- The store shows the model unless something is going to be published. -/
structure Fresh (s : Sys) : Prop where
  clean : s.dirty = false → s.last = s.model
  owed : s.dirty = true → ∃ e, Task.after e ∈ s.queue

theorem Fresh.act {s : Sys} (h : Fresh s) (a : Act) : Fresh (s.act a) :=
  ⟨h.clean, fun d => (h.owed d).imp fun _ m => List.mem_append_left _ m⟩

theorem Fresh.work {s s' : Sys} (h : Fresh s) (hw : s.work = some s') : Fresh s' := by
  unfold Sys.work at hw
  split at hw
  · cases hw
  · rename_i a q hq
    cases hw
    refine ⟨fun d => ?_, fun _ => ⟨_, List.mem_append_right _ (List.mem_singleton.2 rfl)⟩⟩
    simp only [Sys.eval, Bool.or_eq_false_iff, decide_eq_false_iff_not, ne_eq, Decidable.not_not] at d ⊢
    rw [d.2]; exact h.clean d.1
  · rename_i e q hq
    cases hw
    obtain ⟨_, f2, _, _, _, f6, f7⟩ := publish_fields { s with queue := q } e
    refine ⟨fun _ => ?_, fun d => by rw [f7] at d; cases d⟩
    rw [f6, f2]
    cases hd : s.dirty with
    | true => rfl
    | false => exact h.clean hd

theorem Patient.reach {s : Sys} (p : Patient s) : Reach s := by
  induction p with
  | start => exact .start
  | coin _ ih => exact .step (.act .coin) ih rfl
  | push _ _ ih => exact .step (.act .push) ih rfl
  | work _ h ih => exact .step .work ih h

theorem Reach.fresh {s : Sys} (r : Reach s) : Fresh s := by
  induction r with
  | start => exact ⟨fun _ => rfl, nofun⟩
  | step o r h ih =>
    cases o with
    | act a => cases h; exact ih.act a
    | work => exact ih.work h

theorem Reach.idle {s : Sys} (r : Reach s) (h : s.queue = []) :
    s.last = s.acts.foldl update .locked ∧ s.through = paid s.acts := by
  obtain ⟨l, k, h1, h2, h3, h4⟩ := r.inv
  cases k with
  | cons a k => simp [h, owed, effs] at h3
  | nil =>
    simp only [h, waiting, List.filterMap_nil, List.append_nil] at h1 h2
    have hd : s.dirty = false := by
      cases hd : s.dirty with
      | false => rfl
      | true => obtain ⟨e, he⟩ := r.fresh.owed hd; rw [h] at he; cases he
    exact ⟨by rw [r.fresh.clean hd, h2, h1], by rw [h4, h1]⟩

/-! ### Properties -/

/-- C144: the effect lets somebody through for each push that directly follows a coin, in the order in which coins and pushes were
dispatched: at any time for the first so many of them, and when no task waits, for all. -/
theorem C144_through {s : Sys} (r : Reach s) :
    ∃ n, s.through = ((s.acts.take n).zip (s.acts.take n).tail).count (.coin, .push) ∧ (s.queue = [] → n = s.acts.length) := by
  obtain ⟨l, k, h1, h2, h3, h4⟩ := r.inv
  refine ⟨l.length, by rw [h1, List.append_assoc, List.take_left]; exact h4, fun h => ?_⟩
  cases k with
  | cons a k => simp [h, owed, effs] at h3
  | nil => simp [h1, h, waiting]

/-- C144: at no time more have been let through than coins were inserted. -/
theorem C144_coins {s : Sys} (r : Reach s) : s.through ≤ s.acts.count .coin := by
  obtain ⟨l, k, h1, _, _, h4⟩ := r.inv
  have := paid_le l
  rw [h4, h1, List.append_assoc, List.count_append]
  omega

/-- C144: when no task waits, the store is unlocked exactly if the last thing that was dispatched is a coin. -/
theorem C144_shown {s : Sys} (r : Reach s) (h : s.queue = []) : s.last = .unlocked ↔ s.acts.getLast? = some .coin := by
  rw [(r.idle h).1]
  rcases List.eq_nil_or_concat s.acts with e | ⟨l, a, e⟩
  · simp [e]
  · rw [e, List.concat_eq_append, foldl_snoc]
    cases a <;> simp [update]

/-- C144: looking at the store is as good, if those who push wait until no task is waiting. -/
theorem C144_waved {s : Sys} (p : Patient s) : s.waved = (s.acts.zip s.acts.tail).count (.coin, .push) := by
  show s.waved = paid s.acts
  induction p with
  | start => rfl
  | coin _ ih => simp only [Sys.act, paid_snoc, ← ih]; simp [passes]
  | push p hq ih =>
    simp only [Sys.act, paid_snoc, ← ih, (p.reach.idle hq).1, and_true]
    cases List.foldl update Model.locked _ <;> rfl
  | work p h ih =>
    unfold Sys.work at h
    split at h
    · cases h
    · cases h; exact ih
    · cases h
      rename_i e q _
      rw [(publish_fields _ e).2.2.1, (publish_fields _ e).2.2.2.2.1]; exact ih

/-! ### Examples -/

theorem Reach.exec {s s' : Sys} (r : Reach s) {os : List Op} (h : s.exec os = some s') : Reach s' := by
  induction os generalizing s with
  | nil => cases h; exact r
  | cons o os ih =>
    simp only [Sys.exec, Option.bind_eq_some_iff] at h
    obtain ⟨s1, h1, h2⟩ := h
    exact ih (.step o r h1) h2

/-- C144 is FALSE for a program that looks at the store when somebody pushes: two pass for one coin.  The effect lets one
through. -/
theorem C144_waved_false : ∃ s, Reach s ∧ s.queue = [] ∧ s.acts = [.coin, .push, .push] ∧ s.waved = 2 ∧ s.through = 1 := by
  have h : start.exec [.act .coin, .work, .work, .act .push, .act .push, .work, .work, .work, .work] =
      some ⟨.locked, .locked, false, [], 1, 2, [.coin, .push, .push], [.unlocked, .locked]⟩ := by decide
  exact ⟨_, Reach.start.exec h, rfl, rfl, rfl, rfl⟩

/-- C144 is FALSE for a watcher, too: it may not be told that the arms were unlocked, although somebody has passed. -/
theorem C144_told_false : ∃ s, Reach s ∧ s.queue = [] ∧ s.through = 1 ∧ s.told = [.locked] := by
  have h : start.exec [.act .coin, .act .push, .work, .work, .work, .work] =
      some ⟨.locked, .locked, false, [], 1, 0, [.coin, .push], [.locked]⟩ := by decide
  exact ⟨_, Reach.start.exec h, rfl, rfl, rfl⟩

/-- C144: it is FALSE that each coin lets somebody through: one that is inserted while the arms are unlocked is lost. -/
theorem C144_lost_false : ∃ s, Reach s ∧ s.queue = [] ∧ s.acts = [.coin, .coin, .push, .push] ∧ s.through = 1 := by
  have h : start.exec [.act .coin, .act .coin, .act .push, .act .push, .work, .work, .work, .work, .work, .work, .work, .work] =
      some ⟨.locked, .locked, false, [], 1, 0, [.coin, .coin, .push, .push], [.locked]⟩ := by decide
  exact ⟨_, Reach.start.exec h, rfl, rfl, rfl⟩

/-- In the middle of things. -/
example : ∃ s, Reach s ∧ s.queue = [.after true, .after false, .after true] ∧ s.acts = [.coin, .push, .coin, .push] ∧ s.through = 0 := by
  have h : start.exec [.act .coin, .act .push, .act .coin, .act .push, .work, .work, .work, .work, .work] =
      some ⟨.locked, .locked, false, [.after true, .after false, .after true], 0, 0, [.coin, .push, .coin, .push], [.locked]⟩ := by
    decide
  exact ⟨_, Reach.start.exec h, rfl, rfl, rfl⟩

example : ∃ s, Patient s ∧ s.queue = [] ∧ s.acts = [.coin, .push, .push] ∧ s.waved = 1 ∧ s.through = 1 :=
  ⟨_, .work (.work (.push (.work (.work (.push (.work (.work (.coin .start) rfl) rfl) rfl) rfl) rfl) rfl) rfl) rfl, rfl, rfl, rfl, rfl⟩

end Verif.Turnstile
