import Verif.Loop.SafeRace

/-! C102: data races on the thread-safe queue. -/

namespace Verif.Loop.Safe

theorem racy_false {r : R} (v : RInv r) : ¬ r.racy := by
  rintro ⟨t, u, f, htu, hw, ha⟩
  -- only the owner writes the local queue; only a thread that adopts writes the id
  have hwrite : ∀ x, ∀ g ∈ r.writes x, (g = .loc ∧ x = r.st.owner) ∨
      (g = .id ∧ r.pc x = some .adoptWrite) ∨ (g = .shared ∧ r.held = some x) := by
    intro x g hg
    unfold R.writes at hg
    cases hp : r.pc x with
    | none =>
      rw [hp] at hg
      dsimp only at hg
      split at hg
      · rename_i e
        split at hg
        · simp only [List.mem_singleton] at hg; exact Or.inl ⟨hg, e⟩
        · cases hg
      · cases hg
    | some p =>
      rw [hp] at hg
      cases p <;> simp [Pc.writes] at hg
      · exact Or.inl ⟨hg, (v.own x hp).1⟩
      · exact Or.inr (Or.inr ⟨hg, v.held x _ hp (Or.inl rfl)⟩)
      · rcases hg with hg | hg
        · exact Or.inl ⟨hg, (v.swap x hp).1⟩
        · exact Or.inr (Or.inr ⟨hg, v.held x _ hp (Or.inr (Or.inl rfl))⟩)
      · exact Or.inr (Or.inl ⟨hg, rfl⟩)
  -- and nobody is in any other call then
  have hquiet : ∀ x p, r.pc x = some p → p.adopts = true → ∀ y, y ≠ x → r.writes y = [] ∧ r.reads y = [] := by
    intro x p hx hp y hy
    obtain ⟨h1, _, h3⟩ := v.adopts x p hx hp
    unfold R.writes R.reads
    rw [h3 y hy, h1]
    simp
  rcases ha with ha | ha
  · rcases hwrite t f hw with ⟨rfl, e⟩ | ⟨rfl, e⟩ | ⟨rfl, e⟩
    · rcases hwrite u _ ha with ⟨_, e'⟩ | ⟨h, _⟩ | ⟨h, _⟩
      · exact htu (e.trans e'.symm)
      · cases h
      · cases h
    · rw [(hquiet t _ e rfl u (fun h => htu h.symm)).1] at ha; cases ha
    · rcases hwrite u _ ha with ⟨h, _⟩ | ⟨h, _⟩ | ⟨_, e'⟩
      · cases h
      · cases h
      · rw [e] at e'; exact htu (Option.some.inj e')
  · unfold R.reads at ha
    cases hp : r.pc u with
    | none =>
      rw [hp] at ha
      dsimp only at ha
      split at ha
      · rename_i eu
        split at ha
        · simp only [List.mem_singleton] at ha
          subst ha
          rcases hwrite t _ hw with ⟨_, e⟩ | ⟨h, _⟩ | ⟨h, _⟩
          · exact htu (e.trans eu.symm)
          · cases h
          · cases h
        · cases ha
      · cases ha
    | some p =>
      rw [hp] at ha
      cases p <;> simp [Pc.reads] at ha
      · subst ha
        rcases hwrite t _ hw with ⟨h, _⟩ | ⟨_, e⟩ | ⟨h, _⟩
        · cases h
        · have := (v.adopts t _ e rfl).2.2 u (fun h => htu h.symm)
          rw [hp] at this; cases this
        · cases h
      · subst ha
        rcases hwrite t _ hw with ⟨h, _⟩ | ⟨_, e⟩ | ⟨h, _⟩
        · cases h
        · have := (v.adopts t _ e rfl).2.2 u (fun h => htu h.symm)
          rw [hp] at this; cases this
        · cases h
      · rw [(hquiet u _ hp rfl t htu).1] at hw; cases hw

/-- C102: posting from any number of threads while the owner runs `step` is free of data races; also with
`adopt`, if nobody else uses the loop at the same time. -/
theorem C102_race_free {dbg : Bool} {r : R} (h : R.ReachCalm dbg r) : ¬ r.racy :=
  racy_false (rinv_calm h).1

/-- C102: and then the loop goes through the states in which posting is one step, so that C42 and C43 hold. -/
theorem C102_atomic {dbg : Bool} {r : R} (h : R.ReachCalm dbg r) : ReachAdopt r.st := (rinv_calm h).2

theorem none_calm {dbg : Bool} {r : R} (h : R.ReachNone dbg r) :
    RInv r ∧ Reach r.st ∧ ∀ u p, r.pc u = some p → p.adopts = false := by
  induction h with
  | init o => exact ⟨rinv_init o, .init o, by intro u p h; cases h⟩
  | @step r r' op _ hn he ih =>
    obtain ⟨v, hr, hna⟩ := ih
    have hc : r.Calm op := by
      cases op with
      | adopt t => exact (hn t rfl).elim
      | post t => intro u p _ h; exact hna u p h
      | step => intro u p _ h; exact hna u p h
      | _ => trivial
    obtain ⟨v', hs⟩ := step_free v hc he
    refine ⟨v', ?_, ?_⟩
    · rcases hs with e | ⟨op', h1, h2⟩
      · rw [e]; exact hr
      · refine .step op' hr ?_ h1
        intro t e
        have := hna t _ (h2 t e).2
        cases this
    · have hset : ∀ (t : Nat) (q : Option Pc), (∀ x, q = some x → x.adopts = false) →
          ∀ u p, setPc r.pc t q u = some p → p.adopts = false := by
        intro t q hq u p hp
        unfold setPc at hp
        split at hp
        · exact hq p hp
        · exact hna u p hp
      have hok : ∀ {x : Pc}, x.adopts = false → ∀ y, some x = some y → y.adopts = false := by
        intro x hx y e; cases e; exact hx
      have hnone : ∀ y, (none : Option Pc) = some y → y.adopts = false := by intro y e; cases e
      cases op with
      | adopt t => exact (hn t rfl).elim
      | post t =>
        simp only [R.step] at he
        split at he
        · cases he; exact hset _ _ (hok rfl)
        · cases he
      | step =>
        simp only [R.step] at he
        split at he
        · split at he
          · cases he; exact hset _ _ (hok rfl)
          · cases hs : Safe.step r.st .step with
            | none => simp [hs] at he
            | some s => simp only [hs, Option.map_some, Option.some.injEq] at he; subst he; exact hna
        · cases he
      | tick =>
        simp only [R.step] at he
        split at he
        · split at he
          · cases hs : Safe.step r.st .tick with
            | none => simp [hs] at he
            | some s => simp only [hs, Option.map_some, Option.some.injEq] at he; subst he; exact hna
          · cases he; exact hset _ _ (hok rfl)
          · cases he
        · cases he
      | ret =>
        simp only [R.step] at he
        split at he
        · cases hs : Safe.step r.st .ret with
          | none => simp [hs] at he
          | some s => simp only [hs, Option.map_some, Option.some.injEq] at he; subst he; exact hna
        · cases he
      | throw =>
        simp only [R.step] at he
        split at he
        · cases hs : Safe.step r.st .throw with
          | none => simp [hs] at he
          | some s => simp only [hs, Option.map_some, Option.some.injEq] at he; subst he; exact hna
        · cases he
      | go t =>
        simp only [R.step] at he
        cases hp : r.pc t with
        | none => simp [hp] at he
        | some p =>
          have hpa := hna t p hp
          simp only [hp] at he
          cases p with
          | check => cases he; refine hset _ _ (hok ?_); split <;> rfl
          | own => cases he; exact hset _ _ hnone
          | lock =>
            dsimp only at he
            split at he
            · cases he; exact hset _ _ (hok rfl)
            · cases he
          | push => cases he; exact hset _ _ (hok rfl)
          | swapLock =>
            dsimp only at he
            split at he
            · cases he; exact hset _ _ (hok rfl)
            · cases he
          | swap =>
            dsimp only at he
            cases hs : Safe.step r.st .tick with
            | none => simp [hs] at he
            | some s =>
              simp only [hs, Option.map_some, Option.some.injEq] at he; subst he; exact hset _ _ (hok rfl)
          | unlock => cases he; exact hset _ _ hnone
          | stepCheck =>
            dsimp only at he
            cases hs : Safe.step r.st .step with
            | none => simp [hs] at he
            | some s =>
              simp only [hs, Option.map_some, Option.some.injEq] at he; subst he; exact hset _ _ hnone
          | adoptCheck => cases hpa
          | adoptWrite => cases hpa

/-- C102: if no one adopts the loop there is nothing to take care of: no data races, and the loop goes through the
states in which posting is one step. -/
theorem C102_no_adopt {dbg : Bool} {r : R} (h : R.ReachNone dbg r) : ¬ r.racy ∧ Reach r.st :=
  ⟨racy_false (none_calm h).1, (none_calm h).2.1⟩

/-! ### With `adopt` -/

def R.run (dbg : Bool) (r : R) : List ROp → Option R
  | [] => some r
  | op :: ops => (r.step dbg op).bind fun r' => r'.run dbg ops

theorem R.Reach.run {dbg : Bool} : ∀ {ops : List ROp} {r r' : R}, R.Reach dbg r → r.run dbg ops = some r' →
    R.Reach dbg r'
  | [], _, _, h, e => by cases e; exact h
  | op :: ops, r, r', h, e => by
    simp only [R.run] at e
    cases hs : r.step dbg op with
    | none => simp [hs] at e
    | some r1 => rw [hs] at e; exact R.Reach.run (.step op h hs) e

/-- C102, the negative part: adopting the loop while another thread posts is a data race, on `thread_id_`. -/
theorem C102_adopt_false : ∃ r, R.Reach false r ∧ r.racy := by
  obtain ⟨r, hr⟩ : ∃ r, (R.init 0).run false [.post 1, .adopt 2] = some r := ⟨_, rfl⟩
  refine ⟨r, R.Reach.run (.init 0) hr, 2, 1, .id, by decide, ?_, ?_⟩
  · cases hr; decide
  · cases hr; exact Or.inr (by decide)

/-- And so is adopting it while its owner posts, also if the local queue is empty at that time and the owner then
only completes its post: there is one on the local queue too. -/
theorem C102_adopt_local_false : ∃ r, R.Reach false r ∧
    (∃ t u, t ≠ u ∧ Field.loc ∈ r.writes t ∧ Field.loc ∈ r.writes u) ∧ r.st.log = [.enter] := by
  obtain ⟨r, hr⟩ : ∃ r, (R.init 0).run false [.post 0, .go 0, .adopt 1, .go 1, .step] = some r := ⟨_, rfl⟩
  refine ⟨r, R.Reach.run (.init 0) hr, ⟨0, 1, by decide, ?_, ?_⟩, ?_⟩
  · cases hr; decide
  · cases hr; decide
  · cases hr; decide

/-! ### An example -/

-- thread 1 posts and adopts the loop, thread 2 posts while thread 1 swaps the queues
def calmOps : List ROp := [.post 1, .go 1, .go 1, .go 1, .go 1, .adopt 1, .go 1, .step, .tick, .post 2, .go 2,
  .tick, .go 1, .go 1, .go 1, .go 2, .tick, .ret, .go 2, .go 2, .tick]

example : ((R.init 0).run false calmOps).map (fun r => (r.st.log, r.st.shared, r.st.owner, r.held)) =
    some ([.post 1 0, .enter, .start 0, .done 0, .post 2 1, .ret], [some 1], 1, none) := by decide +kernel

-- it is calm: `adopt` begins when no one is in a call, and no one begins one before it ends
example : R.ReachCalm false (((R.init 0).run false [.post 1, .go 1, .go 1, .go 1, .go 1, .adopt 1]).getD (R.init 0)) := by
  refine .step (.adopt 1) (.step (.go 1) (.step (.go 1) (.step (.go 1) (.step (.go 1) (.step (.post 1) (.init 0)
    ?_ rfl) trivial rfl) trivial rfl) trivial rfl) trivial rfl) ?_ rfl
  · intro u p _ h; cases h
  · refine ⟨?_, rfl⟩
    intro u hu
    simp [setPc, hu, R.init]

end Verif.Loop.Safe
