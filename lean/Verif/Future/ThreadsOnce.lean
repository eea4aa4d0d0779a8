import Verif.Future.ThreadsReach
import Verif.Future.Spec

/-! Callbacks in sequences of calls without interruption. -/

namespace Verif.Future

/-- How often callback `c` waits in loop `l`. -/
def waiting (m : M) (l c : Nat) : Nat := ((m.queue l).filter (fun t => t.c = c)).length

/-- What holds after a sequence of calls. -/
structure Ser (m : M) (L : List Done) : Prop where
  small : ∀ i s r, (i, Call.fulfil s, r) ∈ L → s < m.size
  done : ∀ s, s < m.size → ((m.cell s).done = true ↔ ∃ i r, (i, Call.fulfil s, r) ∈ L)
  att : ∀ c s p fn, Ev.attach c s p fn ∈ m.log → c < m.nextC ∧ s < m.size ∧
    ((m.cell s).done = true → runs m c + waiting m (m.cell s).loop c = 1) ∧
    ((m.cell s).done = false → (m.cell s).cb = some ⟨c, p, fn⟩ ∧ runs m c = 0 ∧ ∀ l, waiting m l c = 0)
  uniq : ∀ c s p fn s' p' fn', Ev.attach c s p fn ∈ m.log → Ev.attach c s' p' fn' ∈ m.log → s = s' ∧ p = p' ∧ fn = fn'
  queued : ∀ l t, t ∈ m.queue l → ∃ s, Ev.attach t.c s t.p t.fn ∈ m.log ∧ (m.cell s).loop = l ∧
    (m.cell s).done = true
  cb : ∀ s t, s < m.size → (m.cell s).cb = some t → Ev.attach t.c s t.p t.fn ∈ m.log ∧ (m.cell s).done = false
  started : ∀ c, Ev.start c ∈ m.log → c < m.nextC
  calls : ∀ i s fn p, (i, Call.attach s fn, Res.state p) ∈ L → ∃ c, Ev.attach c s p fn ∈ m.log

theorem waiting_zero {m : M} {l c : Nat} : waiting m l c = 0 ↔ ∀ t ∈ m.queue l, t.c ≠ c := by
  unfold waiting
  rw [List.length_eq_zero_iff, List.filter_eq_nil_iff]
  simp

theorem waiting_append (q : List Task) (t : Task) (c : Nat) :
    ((q ++ [t]).filter (fun t => t.c = c)).length =
      (q.filter (fun t => t.c = c)).length + if t.c = c then 1 else 0 := by
  rw [List.filter_append, List.length_append]
  by_cases h : t.c = c <;> simp [h]

theorem ser_start : Ser Future.start [] where
  small := by intro i s r h; cases h
  done := by intro s h; cases h
  att := by intro c s p fn h; cases h
  uniq := by intro c s p fn s' p' fn' h; cases h
  queued := by intro l t h; cases h
  cb := by intro s t h; cases h
  started := by intro c h; cases h
  calls := by intro i s fn p h; cases h

variable {m : M} {L : List Done}

theorem ser_make (v : Ser m L) (i l : Nat) : Ser (m.make l) (L ++ [(i, .make l, .state m.size)]) := by
  have hne : ∀ {s}, s < m.size → s ≠ m.size := fun h => Nat.ne_of_lt h
  have hc : ∀ {s}, s < m.size → (m.make l).cell s = m.cell s := fun h => by simp [M.make, upd, hne h]
  have hnew : (m.make l).cell m.size = ⟨l, false, none, none⟩ := by simp [M.make, upd]
  have hlt : ∀ {s}, s < (m.make l).size → s < m.size ∨ s = m.size := fun {s} h => by
    have : s < m.size + 1 := h
    omega
  have hL : ∀ {j s r}, (j, Call.fulfil s, r) ∈ L ++ [(i, Call.make l, Res.state m.size)] → (j, Call.fulfil s, r) ∈ L := by
    intro j s r h
    rcases List.mem_append.1 h with h | h
    · exact h
    · simp at h
  constructor
  · intro j s r h
    exact Nat.lt_succ_of_lt (v.small j s r (hL h))
  · intro s hs
    rcases hlt hs with hs | rfl
    · rw [hc hs, v.done s hs]
      exact ⟨fun ⟨j, r, h⟩ => ⟨j, r, List.mem_append.2 (Or.inl h)⟩, fun ⟨j, r, h⟩ => ⟨j, r, hL h⟩⟩
    · rw [hnew]
      refine ⟨fun h => (nomatch h), fun ⟨j, r, h⟩ => ?_⟩
      exact (Nat.lt_irrefl _ (v.small j _ r (hL h))).elim
  · intro c s p fn h
    obtain ⟨h1, h2, h3, h4⟩ := v.att c s p fn h
    rw [hc h2]
    exact ⟨h1, Nat.lt_succ_of_lt h2, h3, h4⟩
  · exact v.uniq
  · intro l' t h
    obtain ⟨s, h1, h2, h3⟩ := v.queued l' t h
    refine ⟨s, h1, ?_⟩
    rw [hc (v.att _ _ _ _ h1).2.1]
    exact ⟨h2, h3⟩
  · intro s t hs hcb
    rcases hlt hs with hs | rfl
    · rw [hc hs] at hcb ⊢; exact v.cb s t hs hcb
    · rw [hnew] at hcb; cases hcb
  · exact v.started
  · intro j s fn p h
    rcases List.mem_append.1 h with h | h
    · exact v.calls j s fn p h
    · simp at h

theorem ser_take (v : Ser m L) (i : Nat) {l : Nat} {t : Task} {q : List Task} (hq : m.queue l = t :: q) :
    Ser { m with queue := upd m.queue l q, log := m.log ++ [.start t.c] } (L ++ [(i, .take l, .task t)]) := by
  have hlog : ∀ {c s p fn}, Ev.attach c s p fn ∈ m.log ++ [Ev.start t.c] → Ev.attach c s p fn ∈ m.log := by
    intro c s p fn h
    simpa using h
  obtain ⟨s0, ht, hl0, hd0⟩ := v.queued l t (by rw [hq]; simp)
  have hL : ∀ {j s r}, (j, Call.fulfil s, r) ∈ L ++ [(i, Call.take l, Res.task t)] → (j, Call.fulfil s, r) ∈ L := by
    intro j s r h
    rcases List.mem_append.1 h with h | h
    · exact h
    · simp at h
  constructor
  · intro j s r h; exact v.small j s r (hL h)
  · intro s hs
    rw [v.done s hs]
    exact ⟨fun ⟨j, r, h⟩ => ⟨j, r, List.mem_append.2 (Or.inl h)⟩, fun ⟨j, r, h⟩ => ⟨j, r, hL h⟩⟩
  · intro c s p fn h
    have h := hlog h
    obtain ⟨h1, h2, h3, h4⟩ := v.att c s p fn h
    refine ⟨h1, h2, ?_, ?_⟩
    · intro hd
      have h3 := h3 hd
      dsimp only at h3 ⊢
      unfold runs waiting at h3 ⊢
      dsimp only [upd]
      rw [List.count_append]
      by_cases e : t.c = c
      · subst e
        obtain ⟨rfl, _, _⟩ := v.uniq _ _ _ _ _ _ _ h ht
        rw [hl0] at h3 ⊢
        rw [hq] at h3
        simp at h3 ⊢
        omega
      · by_cases el : (m.cell s).loop = l
        · rw [el] at h3 ⊢
          rw [hq] at h3
          simp [e] at h3 ⊢
          exact h3
        · simp [el, e]
          simpa using h3
    · intro hd
      obtain ⟨h5, h6, h7⟩ := h4 hd
      have e : t.c ≠ c := fun e => by
        have := waiting_zero.1 (h7 l) t (by rw [hq]; simp)
        exact this e
      refine ⟨h5, ?_, ?_⟩
      · unfold runs at h6 ⊢
        dsimp only
        rw [List.count_append, h6]
        simp [e]
      · intro l'
        rw [waiting_zero]
        intro x hx
        dsimp only [upd] at hx
        by_cases el : l' = l
        · subst el
          rw [if_pos rfl] at hx
          exact waiting_zero.1 (h7 l') x (by rw [hq]; simp [hx])
        · rw [if_neg el] at hx
          exact waiting_zero.1 (h7 l') x hx
  · intro c s p fn s' p' fn' h h'; exact v.uniq c s p fn s' p' fn' (hlog h) (hlog h')
  · intro l' x hx
    have : x ∈ m.queue l' := by
      dsimp only [upd] at hx
      by_cases el : l' = l
      · subst el; rw [if_pos rfl] at hx; rw [hq]; simp [hx]
      · rw [if_neg el] at hx; exact hx
    obtain ⟨s, h1, h2, h3⟩ := v.queued l' x this
    exact ⟨s, List.mem_append.2 (Or.inl h1), h2, h3⟩
  · intro s x hs hx
    obtain ⟨h1, h2⟩ := v.cb s x hs hx
    exact ⟨List.mem_append.2 (Or.inl h1), h2⟩
  · intro c h
    rcases List.mem_append.1 h with h | h
    · exact v.started c h
    · simp at h; subst h; exact (v.att _ _ _ _ ht).1
  · intro j s fn p h
    rcases List.mem_append.1 h with h | h
    · obtain ⟨c, hc⟩ := v.calls j s fn p h; exact ⟨c, List.mem_append.2 (Or.inl hc)⟩
    · simp at h

theorem ser_fulfil (v : Ser m L) (i : Nat) {s : Nat} (hs : s < m.size) :
    Ser (m.fulfil s) (L ++ [(i, .fulfil s, .nothing)]) := by
  have hcell : (m.fulfil s).cell = upd m.cell s { m.cell s with done := true, cb := none } := by
    unfold M.fulfil; dsimp only
  have hlog : (m.fulfil s).log = m.log := by unfold M.fulfil; dsimp only; split <;> rfl
  have hsize : (m.fulfil s).size = m.size := by unfold M.fulfil; dsimp only; split <;> rfl
  have hnext : (m.fulfil s).nextC = m.nextC := by unfold M.fulfil; dsimp only; split <;> rfl
  have hruns : ∀ c, runs (m.fulfil s) c = runs m c := fun c => by unfold runs; rw [hlog]
  have hloop : ∀ t, ((m.fulfil s).cell t).loop = (m.cell t).loop := by
    intro t; rw [hcell]; unfold upd; split
    · rename_i h; rw [h]
    · rfl
  have hother : ∀ t, t ≠ s → (m.fulfil s).cell t = m.cell t := fun t h => by rw [hcell]; simp [upd, h]
  have hself : (m.fulfil s).cell s = { m.cell s with done := true, cb := none } := by rw [hcell]; simp [upd]
  have hqueue : ((m.fulfil s).queue = m.queue ∧ ((m.cell s).done = true ∨ (m.cell s).cb = none)) ∨
      ∃ t, (m.cell s).done = false ∧ (m.cell s).cb = some t ∧
        (m.fulfil s).queue = upd m.queue (m.cell s).loop (m.queue (m.cell s).loop ++ [t]) := by
    unfold M.fulfil
    dsimp only
    cases hd : (m.cell s).done with
    | true => exact Or.inl ⟨rfl, Or.inl rfl⟩
    | false =>
      cases hb : (m.cell s).cb with
      | none => exact Or.inl ⟨rfl, Or.inr rfl⟩
      | some t => exact Or.inr ⟨t, rfl, rfl, rfl⟩
  have hwait : ∀ c s' p fn, Ev.attach c s' p fn ∈ m.log → s' ≠ s → ∀ l, waiting (m.fulfil s) l c = waiting m l c := by
    intro c s' p fn h hne l
    unfold waiting
    rcases hqueue with ⟨hq, _⟩ | ⟨t, hd, hb, hq⟩
    · rw [hq]
    · rw [hq]
      unfold upd
      split
      · rename_i el
        subst el
        rw [waiting_append]
        have : t.c ≠ c := by
          rintro rfl
          obtain ⟨h1, _⟩ := v.cb s t hs hb
          exact hne (v.uniq _ _ _ _ _ _ _ h h1).1
        simp [this]
      · rfl
  constructor
  · intro j s' r h
    rw [hsize]
    rcases List.mem_append.1 h with h | h
    · exact v.small j s' r h
    · simp at h; rw [h.2.1]; exact hs
  · intro s' hs'
    rw [hsize] at hs'
    by_cases e : s' = s
    · subst e
      rw [hself]
      exact ⟨fun _ => ⟨i, .nothing, by simp⟩, fun _ => rfl⟩
    · rw [hother s' e, v.done s' hs']
      refine ⟨fun ⟨j, r, h⟩ => ⟨j, r, List.mem_append.2 (Or.inl h)⟩, fun ⟨j, r, h⟩ => ⟨j, r, ?_⟩⟩
      rcases List.mem_append.1 h with h | h
      · exact h
      · simp [e] at h
  · intro c s' p fn h
    rw [hlog] at h
    obtain ⟨h1, h2, h3, h4⟩ := v.att c s' p fn h
    rw [hnext, hsize, hloop, hruns]
    refine ⟨h1, h2, ?_, ?_⟩
    · intro hd
      by_cases e : s' = s
      · subst e
        unfold waiting
        rcases hqueue with ⟨hq, hor⟩ | ⟨t, hd', hb, hq⟩
        · rw [hq]
          cases hdd : (m.cell s').done with
          | true => exact h3 hdd
          | false =>
            have := (h4 hdd).1
            rcases hor with h | h
            · rw [h] at hdd; cases hdd
            · rw [h] at this; cases this
        · obtain ⟨h5, h6, h7⟩ := h4 hd'
          rw [hb] at h5
          cases h5
          have h8 := h7 (m.cell s').loop
          unfold waiting at h8
          rw [hq]
          unfold upd
          rw [if_pos rfl, waiting_append, h6, h8]
          simp
      · rw [hwait c s' p fn h e]
        rw [hother s' e] at hd
        exact h3 hd
    · intro hd
      by_cases e : s' = s
      · subst e; rw [hself] at hd; cases hd
      · rw [hother s' e] at hd ⊢
        obtain ⟨h5, h6, h7⟩ := h4 hd
        refine ⟨h5, h6, fun l => ?_⟩
        rw [hwait c s' p fn h e]
        exact h7 l
  · rw [hlog]; exact v.uniq
  · intro l t h
    rw [hlog]
    have hold : t ∈ m.queue l → ∃ s', Ev.attach t.c s' t.p t.fn ∈ m.log ∧ ((m.fulfil s).cell s').loop = l ∧
        ((m.fulfil s).cell s').done = true := by
      intro h
      obtain ⟨s', h1, h2, h3⟩ := v.queued l t h
      refine ⟨s', h1, by rw [hloop]; exact h2, ?_⟩
      by_cases e : s' = s
      · subst e; rw [hself]
      · rw [hother s' e]; exact h3
    rcases hqueue with ⟨hq, _⟩ | ⟨t', hd, hb, hq⟩
    · rw [hq] at h; exact hold h
    · rw [hq] at h
      unfold upd at h
      split at h
      · rename_i el
        subst el
        rcases List.mem_append.1 h with h | h
        · exact hold h
        · rw [List.mem_singleton] at h
          subst h
          exact ⟨s, (v.cb s t hs hb).1, hloop s, by rw [hself]⟩
      · exact hold h
  · intro s' t hs' hb
    rw [hsize] at hs'
    rw [hlog]
    by_cases e : s' = s
    · subst e; rw [hself] at hb; cases hb
    · rw [hother s' e] at hb ⊢; exact v.cb s' t hs' hb
  · rw [hlog, hnext]; exact v.started
  · intro j s' fn p h
    rw [hlog]
    rcases List.mem_append.1 h with h | h
    · exact v.calls j s' fn p h
    · simp at h

theorem ser_attach (v : Ser m L) (i : Nat) {s : Nat} {fn : Fn} (hs : s < m.size)
    (hu : (m.attach s fn).ub = false) :
    Ser (m.attach s fn) (L ++ [(i, .attach s fn, .state m.size)]) := by
  have hlog : (m.attach s fn).log = m.log ++ [.attach m.nextC s m.size fn] := by
    unfold M.attach; dsimp only; split
    · rfl
    · split <;> rfl
  have hsize : (m.attach s fn).size = m.size + 1 := by
    unfold M.attach; dsimp only; split
    · rfl
    · split <;> rfl
  have hnext : (m.attach s fn).nextC = m.nextC + 1 := by
    unfold M.attach; dsimp only; split
    · rfl
    · split <;> rfl
  have hne : ∀ {t}, t < m.size → t ≠ m.size := fun h => Nat.ne_of_lt h
  have hother : ∀ t, t < m.size → t ≠ s → (m.attach s fn).cell t = m.cell t := by
    intro t h1 h2
    unfold M.attach; dsimp only; split
    · simp [M.post, upd, hne h1]
    · split <;> simp [upd, hne h1, h2]
  have hnew : (m.attach s fn).cell m.size = ⟨(m.cell s).loop, false, none, some m.nextC⟩ := by
    unfold M.attach; dsimp only; split
    · simp [M.post, upd]
    · split <;> simp [upd, (hne hs).symm]
  have hself : ((m.cell s).done = true ∧ (m.attach s fn).cell s = m.cell s ∧
        (m.attach s fn).queue = upd m.queue (m.cell s).loop (m.queue (m.cell s).loop ++ [⟨m.nextC, m.size, fn⟩])) ∨
      ((m.cell s).done = false ∧ (m.cell s).cb = none ∧
        (m.attach s fn).cell s = { m.cell s with cb := some ⟨m.nextC, m.size, fn⟩ } ∧
        (m.attach s fn).queue = m.queue) := by
    revert hu
    unfold M.attach; dsimp only
    cases hd : (m.cell s).done with
    | true => intro _; exact Or.inl ⟨rfl, by simp [M.post, upd, hne hs], rfl⟩
    | false =>
      cases hb : (m.cell s).cb with
      | some t => intro hu; simp at hu
      | none => intro _; exact Or.inr ⟨rfl, rfl, by simp [upd], rfl⟩
  have hloop : ∀ t, t < m.size → ((m.attach s fn).cell t).loop = (m.cell t).loop := by
    intro t ht
    by_cases e : t = s
    · subst e
      rcases hself with ⟨_, h, _⟩ | ⟨_, _, h, _⟩ <;> rw [h]
    · rw [hother t ht e]
  have hdone : ∀ t, t < m.size → ((m.attach s fn).cell t).done = (m.cell t).done := by
    intro t ht
    by_cases e : t = s
    · subst e
      rcases hself with ⟨_, h, _⟩ | ⟨_, _, h, _⟩ <;> rw [h]
    · rw [hother t ht e]
  have hlt : ∀ {t}, t < (m.attach s fn).size → t < m.size ∨ t = m.size := fun {t} h => by
    rw [hsize] at h; omega
  have hatt : ∀ {c s' p fn'}, Ev.attach c s' p fn' ∈ (m.attach s fn).log →
      (Ev.attach c s' p fn' ∈ m.log ∧ c < m.nextC) ∨ (c = m.nextC ∧ s' = s ∧ p = m.size ∧ fn' = fn) := by
    intro c s' p fn' h
    rw [hlog] at h
    rcases List.mem_append.1 h with h | h
    · exact Or.inl ⟨h, (v.att _ _ _ _ h).1⟩
    · simp at h; exact Or.inr h
  have hruns : ∀ c, runs (m.attach s fn) c = runs m c := fun c => by
    unfold runs; rw [hlog, List.count_append]; simp
  have hwait : ∀ c, c < m.nextC → ∀ l, waiting (m.attach s fn) l c = waiting m l c := by
    intro c hc l
    unfold waiting
    rcases hself with ⟨_, _, hq⟩ | ⟨_, _, _, hq⟩
    · rw [hq]
      unfold upd
      split
      · rename_i el
        subst el
        rw [waiting_append]
        have : m.nextC ≠ c := (Nat.ne_of_lt hc).symm
        simp [this]
      · rfl
    · rw [hq]
  have hnewruns : runs m m.nextC = 0 := by
    unfold runs
    rw [List.count_eq_zero]
    intro h
    exact Nat.lt_irrefl _ (v.started _ h)
  have hnewwait : ∀ l, waiting m l m.nextC = 0 := by
    intro l
    rw [waiting_zero]
    intro t ht e
    obtain ⟨s', h, _⟩ := v.queued l t ht
    have := (v.att _ _ _ _ h).1
    omega
  have hL : ∀ {j s' r}, (j, Call.fulfil s', r) ∈ L ++ [(i, Call.attach s fn, Res.state m.size)] →
      (j, Call.fulfil s', r) ∈ L := by
    intro j s r h
    rcases List.mem_append.1 h with h | h
    · exact h
    · simp at h
  constructor
  · intro j s' r h
    rw [hsize]
    exact Nat.lt_succ_of_lt (v.small j s' r (hL h))
  · intro s' hs'
    rcases hlt hs' with hs' | rfl
    · rw [hdone s' hs', v.done s' hs']
      exact ⟨fun ⟨j, r, h⟩ => ⟨j, r, List.mem_append.2 (Or.inl h)⟩, fun ⟨j, r, h⟩ => ⟨j, r, hL h⟩⟩
    · rw [hnew]
      refine ⟨fun h => (nomatch h), fun ⟨j, r, h⟩ => ?_⟩
      exact (Nat.lt_irrefl _ (v.small j _ r (hL h))).elim
  · intro c s' p fn' h
    rw [hnext, hsize, hruns]
    rcases hatt h with ⟨h, hc⟩ | ⟨rfl, rfl, rfl, rfl⟩
    · obtain ⟨h1, h2, h3, h4⟩ := v.att c s' p fn' h
      rw [hloop s' h2, hdone s' h2, hwait c hc]
      refine ⟨Nat.lt_succ_of_lt h1, Nat.lt_succ_of_lt h2, h3, ?_⟩
      intro hd
      obtain ⟨h5, h6, h7⟩ := h4 hd
      refine ⟨?_, h6, fun l => by rw [hwait c hc]; exact h7 l⟩
      by_cases e : s' = s
      · subst e
        rcases hself with ⟨hd', _⟩ | ⟨_, hb, _⟩
        · rw [hd'] at hd; cases hd
        · rw [hb] at h5; cases h5
      · rw [hother s' h2 e]; exact h5
    · rw [hloop s' hs, hdone s' hs]
      refine ⟨Nat.lt_succ_self _, Nat.lt_succ_of_lt hs, ?_, ?_⟩
      · intro hd
        rcases hself with ⟨_, _, hq⟩ | ⟨hd', _⟩
        · unfold waiting
          rw [hq]
          unfold upd
          rw [if_pos rfl, waiting_append]
          have := hnewwait (m.cell s').loop
          unfold waiting at this
          rw [this, hnewruns]
          simp
        · rw [hd'] at hd; cases hd
      · intro hd
        rcases hself with ⟨hd', _⟩ | ⟨_, _, hc, hq⟩
        · rw [hd'] at hd; cases hd
        · refine ⟨by rw [hc], hnewruns, fun l => ?_⟩
          unfold waiting
          rw [hq]
          exact hnewwait l
  · intro c s' p fn' s'' p' fn'' h h'
    rcases hatt h with ⟨h, hc⟩ | ⟨hc, rfl, rfl, rfl⟩ <;> rcases hatt h' with ⟨h', hc'⟩ | ⟨hc', rfl, rfl, rfl⟩
    · exact v.uniq _ _ _ _ _ _ _ h h'
    · omega
    · omega
    · exact ⟨rfl, rfl, rfl⟩
  · intro l t h
    have hold : t ∈ m.queue l → ∃ s', Ev.attach t.c s' t.p t.fn ∈ (m.attach s fn).log ∧
        ((m.attach s fn).cell s').loop = l ∧ ((m.attach s fn).cell s').done = true := by
      intro h
      obtain ⟨s', h1, h2, h3⟩ := v.queued l t h
      have h4 := (v.att _ _ _ _ h1).2.1
      exact ⟨s', by rw [hlog]; simp [h1], by rw [hloop s' h4]; exact h2, by rw [hdone s' h4]; exact h3⟩
    rcases hself with ⟨hd, _, hq⟩ | ⟨_, _, _, hq⟩
    · rw [hq] at h
      unfold upd at h
      split at h
      · rename_i el
        subst el
        rcases List.mem_append.1 h with h | h
        · exact hold h
        · rw [List.mem_singleton] at h
          subst h
          exact ⟨s, by rw [hlog]; simp, hloop s hs, by rw [hdone s hs]; exact hd⟩
      · exact hold h
    · rw [hq] at h; exact hold h
  · intro s' t hs' hb
    rcases hlt hs' with hs' | rfl
    · by_cases e : s' = s
      · subst e
        rcases hself with ⟨hd, hc, _⟩ | ⟨hd, _, hc, _⟩
        · rw [hc] at hb
          have := (v.cb s' t hs hb).2
          rw [hd] at this; cases this
        · rw [hc] at hb
          simp only [Option.some.injEq] at hb
          subst hb
          exact ⟨by rw [hlog]; simp, by rw [hc]; exact hd⟩
      · rw [hother s' hs' e] at hb ⊢
        obtain ⟨h1, h2⟩ := v.cb s' t hs' hb
        exact ⟨by rw [hlog]; simp [h1], h2⟩
    · rw [hnew] at hb; cases hb
  · intro c h
    rw [hlog] at h
    rw [hnext]
    rcases List.mem_append.1 h with h | h
    · exact Nat.lt_succ_of_lt (v.started c h)
    · simp at h
  · intro j s' fn' p h
    rw [hlog]
    rcases List.mem_append.1 h with h | h
    · obtain ⟨c, hc⟩ := v.calls j s' fn' p h; exact ⟨c, by simp [hc]⟩
    · simp only [List.mem_singleton, Prod.mk.injEq, Call.attach.injEq, Res.state.injEq] at h
      obtain ⟨_, ⟨rfl, rfl⟩, rfl⟩ := h
      exact ⟨m.nextC, by simp⟩

/-- Undefined behaviour stays. -/
theorem atom_ub {m m' : M} {c : Call} {r : Res} (h : atom m c = some (m', r)) (hu : m'.ub = false) :
    m.ub = false := by
  cases c with
  | make l => simp only [atom, Option.some.injEq, Prod.mk.injEq] at h; rw [← h.1] at hu; exact hu
  | take l =>
    simp only [atom] at h
    cases hq : m.queue l with
    | nil => simp [hq] at h
    | cons t q => simp only [hq, Option.some.injEq, Prod.mk.injEq] at h; rw [← h.1] at hu; exact hu
  | fulfil s =>
    simp only [atom] at h
    split at h
    · simp only [Option.some.injEq, Prod.mk.injEq] at h
      rw [← h.1] at hu
      unfold M.fulfil at hu
      dsimp only at hu
      split at hu <;> exact hu
    · cases h
  | attach s fn =>
    simp only [atom] at h
    split at h
    · simp only [Option.some.injEq, Prod.mk.injEq] at h
      rw [← h.1] at hu
      unfold M.attach at hu
      dsimp only at hu
      split at hu
      · exact hu
      · split at hu
        · cases hu
        · exact hu
    · cases h

theorem ser_of_serial {m0 m : M} {L : List Done} (h : Serial m0 L m) (h0 : m0 = Future.start) (hu : m.ub = false) :
    Ser m L := by
  induction h with
  | nil => subst h0; exact ser_start
  | @snoc m' m'' l i c r hs ha ih =>
    have v := ih (atom_ub ha hu)
    cases c with
    | make l =>
      simp only [atom, Option.some.injEq, Prod.mk.injEq] at ha
      obtain ⟨rfl, rfl⟩ := ha
      exact ser_make v i l
    | take l =>
      simp only [atom] at ha
      cases hq : m'.queue l with
      | nil => simp [hq] at ha
      | cons t q =>
        simp only [hq, Option.some.injEq, Prod.mk.injEq] at ha
        obtain ⟨rfl, rfl⟩ := ha
        exact ser_take v i hq
    | fulfil s =>
      simp only [atom] at ha
      split at ha
      · rename_i hs
        simp only [Option.some.injEq, Prod.mk.injEq] at ha
        obtain ⟨rfl, rfl⟩ := ha
        exact ser_fulfil v i hs
      · cases ha
    | attach s fn =>
      simp only [atom] at ha
      split at ha
      · rename_i hs
        simp only [Option.some.injEq, Prod.mk.injEq] at ha
        obtain ⟨rfl, rfl⟩ := ha
        exact ser_attach v i hs hu
      · cases ha

end Verif.Future
