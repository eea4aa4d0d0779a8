import Verif.Future.Reach
import Verif.Future.Spec

/-! What single operations do. -/

namespace Verif.Future

theorem exec_reach {m m' : M} {ops : List Op} (r : Reach m) (h : exec m ops = some m') : Reach m' := by
  induction ops generalizing m with
  | nil => cases h; exact r
  | cons op ops ih =>
    simp only [exec, Option.bind_eq_some_iff] at h
    obtain ⟨m1, h1, h2⟩ := h
    exact ih (r.step op h1) h2

/-- How a step changes log and queues. -/
structure Tame (m m' : M) : Prop where
  log : ∃ es, m'.log = m.log ++ es ∧ ∀ c, Ev.start c ∉ es
  queue : ∀ l, ∃ ts, m'.queue l = m.queue l ++ ts

theorem Tame.refl (m : M) : Tame m m :=
  ⟨⟨[], by simp⟩, fun _ => ⟨[], by simp⟩⟩

theorem Tame.trans {a b c : M} (h : Tame a b) (k : Tame b c) : Tame a c := by
  obtain ⟨e1, h1, h2⟩ := h.log
  obtain ⟨e2, k1, k2⟩ := k.log
  refine ⟨⟨e1 ++ e2, by rw [k1, h1, List.append_assoc], ?_⟩, ?_⟩
  · intro x hx
    rcases List.mem_append.1 hx with hx | hx
    · exact h2 x hx
    · exact k2 x hx
  · intro l
    obtain ⟨t1, h3⟩ := h.queue l
    obtain ⟨t2, k3⟩ := k.queue l
    exact ⟨t1 ++ t2, by rw [k3, h3, List.append_assoc]⟩

/-- Same log and queues. -/
theorem Tame.of_eq {m m' : M} (h : m'.log = m.log) (k : m'.queue = m.queue) : Tame m m' :=
  ⟨⟨[], by simp [h]⟩, fun l => ⟨[], by simp [k]⟩⟩

theorem tame_say (m : M) (e : Ev) (h : ∀ c, e ≠ .start c) : Tame m (m.say e) :=
  ⟨⟨[e], rfl, fun c hc => by simp at hc; exact h c hc.symm⟩, fun l => ⟨[], by simp [M.say]⟩⟩

theorem tame_fulfil (m : M) (s : Nat) : Tame m (m.fulfil s) :=
  ⟨⟨[], by simp [fulfil_log]⟩, fun l => ⟨_, fulfil_queue m s l⟩⟩

theorem tame_attach (m : M) (s : Nat) (fn : Fn) : Tame m (m.attach s fn) := by
  refine ⟨⟨_, attach_log m s fn, fun c hc => by simp at hc⟩, fun l => ?_⟩
  unfold M.attach
  dsimp only
  split
  · unfold M.post upd
    dsimp only
    split
    · rename_i h; subst h; exact ⟨_, rfl⟩
    · exact ⟨[], by simp⟩
  · split
    · exact ⟨[], by simp⟩
    · exact ⟨[], by simp⟩

theorem tame_thenF (m : M) (s : Option Nat) (fn : Fn) : Tame m (m.thenF s fn) := by
  cases s with
  | some s => exact (tame_attach m s fn).trans (Tame.of_eq rfl rfl)
  | none =>
    cases fn with
    | void => exact (tame_say m (.now m.nextC) (by simp)).trans (Tame.of_eq rfl rfl)
    | fut => exact (tame_say m (.now m.nextC) (by simp)).trans (Tame.of_eq rfl rfl)
    | prom q => exact (tame_fulfil m q).trans (Tame.of_eq rfl rfl)
    | give g => exact Tame.of_eq rfl rfl

theorem tame_lib {m m' : M} {f : Frame} (h : m.lib f = some m') : Tame m m' := by
  cases f with
  | run t => simp [M.lib] at h
  | imm => simp [M.lib] at h
  | ret t r =>
    rcases r with _ | _ | g
    all_goals
      simp only [M.lib, Option.some.injEq] at h
      subst h
    · exact (tame_say m _ (by simp)).trans (tame_fulfil _ _)
    · exact (tame_say m _ (by simp)).trans (tame_fulfil _ _)
    · exact (tame_say m _ (by simp)).trans (tame_attach _ _ _)
  | satisfy q t =>
    simp only [M.lib, Option.some.injEq] at h
    subst h
    exact (tame_fulfil m q).trans (Tame.of_eq rfl rfl)

/-- Only a loop starts callbacks. -/
theorem step_tame {m m' : M} {op : Op} (h : step m op = some m') (hop : ∀ l, op ≠ .run l) :
    Tame m m' := by
  unfold step at h
  split at h
  · cases h
  cases op with
  | newPair l => simp only [Option.some.injEq] at h; subst h; exact Tame.of_eq rfl rfl
  | invalid => simp only [Option.some.injEq] at h; subst h; exact Tame.of_eq rfl rfl
  | copyP a =>
    simp only [Option.map_eq_some_iff] at h
    obtain ⟨x, hx, rfl⟩ := h
    exact Tame.of_eq rfl rfl
  | copyF a =>
    simp only [Option.map_eq_some_iff] at h
    obtain ⟨x, hx, rfl⟩ := h
    exact Tame.of_eq rfl rfl
  | fulfil a =>
    dsimp only at h
    split at h
    · cases h
    · simp only [Option.some.injEq] at h
      subst h
      exact tame_say m _ (by simp)
    · simp only [Option.some.injEq] at h
      subst h
      exact (tame_fulfil m _).trans (Tame.of_eq rfl rfl)
  | «then» a isF =>
    dsimp only at h
    split at h
    · cases h
    · simp only [Option.some.injEq] at h
      subst h
      exact (Tame.of_eq rfl rfl : Tame m { m with futs := m.futs.set a none }).trans (tame_thenF _ _ _)
  | thenP a b =>
    dsimp only at h
    split at h
    · simp only [Option.some.injEq] at h
      subst h
      exact (Tame.of_eq rfl rfl : Tame m { m with futs := m.futs.set a none, proms := m.proms.set b none }).trans
        (tame_thenF _ _ _)
    · cases h
  | also a b =>
    dsimp only at h
    split at h
    · split at h
      · cases h
      · simp only [Option.some.injEq] at h
        subst h
        exact (Tame.of_eq rfl rfl : Tame m { m with futs := (m.futs.set b none).set a none }).trans
          (tame_thenF _ _ _)
    · cases h
  | run l => exact absurd rfl (hop l)
  | retV k =>
    dsimp only at h
    split at h
    · split at h
      · simp only [Option.some.injEq] at h; subst h; exact Tame.of_eq rfl rfl
      · cases h
    · simp only [Option.some.injEq] at h; subst h; exact Tame.of_eq rfl rfl
    · cases h
  | retF k a =>
    dsimp only at h
    split at h
    · split at h
      · simp only [Option.some.injEq] at h; subst h; exact Tame.of_eq rfl rfl
      · cases h
    · simp only [Option.some.injEq] at h; subst h; exact Tame.of_eq rfl rfl
    · cases h
  | raise k =>
    dsimp only at h
    split at h
    · simp only [Option.some.injEq] at h; subst h; exact Tame.of_eq rfl rfl
    · simp only [Option.some.injEq] at h; subst h; exact Tame.of_eq rfl rfl
    · cases h
  | lib k =>
    dsimp only at h
    split at h
    · exact (Tame.of_eq rfl rfl : Tame m { m with active := m.active.eraseIdx k }).trans (tame_lib h)
    · cases h

theorem step_run {m m' : M} {l : Nat} (h : step m (.run l) = some m') :
    ∃ t q, m.queue l = t :: q ∧ m'.log = m.log ++ [.start t.c] ∧ m'.queue = upd m.queue l q := by
  unfold step at h
  split at h
  · cases h
  · dsimp only at h
    split at h
    · cases h
    · rename_i t q hq
      simp only [Option.some.injEq] at h
      subst h
      exact ⟨t, q, hq, rfl, rfl⟩

theorem step_log {m m' : M} {op : Op} (h : step m op = some m') : ∃ es, m'.log = m.log ++ es := by
  by_cases hop : ∃ l, op = .run l
  · obtain ⟨l, rfl⟩ := hop
    obtain ⟨t, q, _, h2, _⟩ := step_run h
    exact ⟨_, h2⟩
  · obtain ⟨es, h1, _⟩ := (step_tame h (fun l e => hop ⟨l, e⟩)).log
    exact ⟨es, h1⟩

theorem exec_log {m m' : M} {ops : List Op} (h : exec m ops = some m') :
    ∀ e, e ∈ m.log → e ∈ m'.log := by
  induction ops generalizing m with
  | nil => cases h; exact fun _ h => h
  | cons op ops ih =>
    simp only [exec, Option.bind_eq_some_iff] at h
    obtain ⟨m1, h1, h2⟩ := h
    obtain ⟨es, he⟩ := step_log h1
    intro e hm
    exact ih h2 e (by rw [he]; exact List.mem_append_left _ hm)

/-- A task in a queue is run when as many tasks have been run as the queue has had. -/
theorem exec_starts {m m' : M} {ops : List Op} {l : Nat} {t : Task} {pre post : List Task}
    (h : exec m ops = some m') (hq : m.queue l = pre ++ t :: post)
    (hn : pre.length < loopRuns l ops) : Ev.start t.c ∈ m'.log := by
  induction ops generalizing m pre post with
  | nil => simp [loopRuns] at hn
  | cons op ops ih =>
    simp only [exec, Option.bind_eq_some_iff] at h
    obtain ⟨m1, h1, h2⟩ := h
    by_cases hop : ∃ k, op = .run k
    · obtain ⟨k, rfl⟩ := hop
      obtain ⟨t', q, h3, h4, h5⟩ := step_run h1
      by_cases hk : k = l
      · subst hk
        rw [h3] at hq
        cases pre with
        | nil =>
          simp at hq
          refine exec_log h2 _ ?_
          rw [h4, hq.1]
          simp
        | cons x pre =>
          simp at hq
          refine ih h2 (pre := pre) (post := post) ?_ ?_
          · rw [h5]
            unfold upd
            rw [if_pos rfl]
            exact hq.2
          · simp [loopRuns] at hn
            omega
      · refine ih h2 (pre := pre) (post := post) ?_ ?_
        · rw [h5]
          unfold upd
          rw [if_neg (fun e => hk e.symm)]
          exact hq
        · simp [loopRuns, hk] at hn
          omega
    · have hop : ∀ k, op ≠ .run k := fun k e => hop ⟨k, e⟩
      obtain ⟨ts, h3⟩ := (step_tame h1 hop).queue l
      refine ih h2 (pre := pre) (post := post ++ ts) (by rw [h3, hq]; simp) ?_
      have : loopRuns l (op :: ops) = loopRuns l ops := by
        cases op <;> first | rfl | exact absurd rfl (hop _)
      omega

theorem runs_starts (m : M) (c : Nat) : runs m c = m.starts c := rfl

theorem Inv.runs_le {m : M} (i : Inv m) (c : Nat) : runs m c ≤ 1 := by
  rw [runs_starts]
  by_cases h : m.starts c = 0
  · omega
  · have : Ev.start c ∈ m.log := List.count_pos_iff.1 (Nat.pos_of_ne_zero h)
    obtain ⟨s, p, fn, h1, _⟩ := i.started c this
    have := i.one _ _ _ _ h1
    omega

theorem Inv.finish_unique {m : M} (i : Inv m) {c : Nat} {r r' : Option (Option Nat)}
    (h : Finished m c r) (h' : Finished m c r') : r = r' := by
  apply Decidable.byContradiction
  intro hne
  have h1 := i.balance c
  have h2 := i.runs_le c
  rw [runs_starts] at h2
  have h3 : 2 ≤ m.fins c := by
    unfold M.fins
    unfold Finished at h h'
    generalize m.log = log at h h'
    have hr : ∀ r, isFinish c (Ev.finish c r) = true := by simp [isFinish]
    clear h1 h2
    induction log with
    | nil => cases h
    | cons e log ih =>
      rw [List.countP_cons]
      rcases List.mem_cons.1 h with e1 | h
      · rcases List.mem_cons.1 h' with e2 | h'
        · rw [← e1] at e2; cases e2; exact absurd rfl hne
        · have : 0 < List.countP (isFinish c) log := List.countP_pos_iff.2 ⟨_, h', hr _⟩
          rw [← e1, if_pos (hr _)]
          omega
      · rcases List.mem_cons.1 h' with e2 | h'
        · have : 0 < List.countP (isFinish c) log := List.countP_pos_iff.2 ⟨_, h, hr _⟩
          rw [← e2, if_pos (hr _)]
          omega
        · have := ih h h'
          omega
  omega

theorem Inv.finish_start {m : M} (i : Inv m) {c : Nat} {r : Option (Option Nat)}
    (h : Finished m c r) : Ev.start c ∈ m.log := by
  have h1 := i.balance c
  have : 0 < m.fins c := List.countP_pos_iff.2 ⟨_, h, by simp [isFinish]⟩
  have h2 : 0 < m.starts c := by omega
  exact List.count_pos_iff.1 h2

/-- A callback starts only when the previous one has finished. -/
theorem Inv.prev {m : M} (i : Inv m) {a s p : Nat} (ha : Attached m a s p)
    (hs : Fulfilled m p) : ∃ r, Finished m a r ∧ ∀ g, r = some (some g) → Fulfilled m g := by
  obtain ⟨fa, ha⟩ := ha
  have h1 := i.att _ _ _ _ ha
  obtain ⟨r, h2, h3⟩ := i.done p a h1.2.2.1 h1.2.2.2.1 hs
  exact ⟨r, h2, fun g hg => (h3 g hg).2⟩

theorem Inv.started_fulfilled {m : M} (i : Inv m) {b p q : Nat} (hb : Attached m b p q)
    (hs : Ev.start b ∈ m.log ∨ ∃ l, Waits m l b) : Fulfilled m p := by
  obtain ⟨fb, hb⟩ := hb
  rcases hs with hs | ⟨l, t, ht, rfl⟩
  · obtain ⟨s, p', fn, h1, h2⟩ := i.started b hs
    have := (i.uniq _ _ _ _ _ _ _ h1 hb).1
    subst this
    exact h2
  · obtain ⟨s, h1, h2, _⟩ := i.queued l t ht
    have := (i.uniq _ _ _ _ _ _ _ h1 hb).1
    subst this
    exact h2

theorem Inv.chain {m : M} (i : Inv m) {a b : Nat} (h : Chain m a b)
    (hs : Ev.start b ∈ m.log ∨ ∃ l, Waits m l b) :
    ∃ r, Finished m a r ∧ ∀ g, r = some (some g) → Fulfilled m g := by
  induction h with
  | next ha hb => exact i.prev ha (i.started_fulfilled hb hs)
  | more h1 h2 h3 ih =>
    obtain ⟨s, h2⟩ := h2
    obtain ⟨r, h4, _⟩ := i.prev h2 (i.started_fulfilled h3 hs)
    exact ih (Or.inl (i.finish_start h4))

end Verif.Future
