import Verif.Future.Model

/-! Invariants of promises and futures. -/

namespace Verif.Future

/-- The closure that a frame belongs to. -/
def Frame.tick : Frame → Option Nat
  | .run t => some t.c
  | .imm _ _ => none
  | .ret t _ => some t.c
  | .satisfy _ t => some t.c

/-- How often closure `c` was called. -/
def M.starts (m : M) (c : Nat) : Nat := m.log.count (.start c)

/-- Does closure `c` return? -/
def isFinish (c : Nat) : Ev → Bool
  | .finish d _ => d == c
  | _ => false

/-- How often closure `c` has returned. -/
def M.fins (m : M) (c : Nat) : Nat := m.log.countP (isFinish c)

/-- How many calls of closure `c` are under way. -/
def M.acts (m : M) (c : Nat) : Nat := m.active.countP (fun f => f.tick == some c)

/-- How often closure `c` is in the queue of loop `l`. -/
def M.queued (m : M) (l c : Nat) : Nat := (m.queue l).countP (fun t => t.c == c)

/-- Is closure `c` stored in state `s`? -/
def M.here (m : M) (s c : Nat) : Nat :=
  match (m.cell s).cb with
  | some t => if t.c = c then 1 else 0
  | none => 0

/-- What is known about a function that was attached to `s`. -/
def FnOK (m : M) (s : Nat) : Fn → Prop
  | .prom q => q < m.size ∧
      ∀ c, (m.cell q).src = some c → Ev.finish c (some (some s)) ∈ m.log
  | .give (some g) => g < m.size
  | _ => True

/-- Of the proof: a closure that exists was attached. -/
def TaskOK (m : M) (s : Nat) (t : Task) : Prop := Ev.attach t.c s t.p t.fn ∈ m.log

/-- Of the proof: what is known about running library code. -/
def FrameOK (m : M) : Frame → Prop
  | .run t => ∃ s, TaskOK m s t ∧ (m.cell s).done = true
  | .imm _ _ => True
  | .ret t r => (∃ s, TaskOK m s t ∧ (m.cell s).done = true) ∧
      (∀ g, r = some (some g) → g < m.size) ∧ (∀ g, t.fn = .give g → r = some g) ∧
      (t.fn = .void → r = none)
  | .satisfy q t => (∃ s, TaskOK m s t ∧ (m.cell s).done = true) ∧ t.fn = .prom q

/-- A promise that a closure holds is fulfilled only when the closure has finished. -/
def DoneOK (m : M) (c : Nat) : Prop :=
  ∃ r, Ev.finish c r ∈ m.log ∧ ∀ g, r = some (some g) → g < m.size ∧ (m.cell g).done = true

/-- Of the proof: the invariant. -/
structure Inv (m : M) : Prop where
  att : ∀ c s p fn, Ev.attach c s p fn ∈ m.log →
    c < m.nextC ∧ s < m.size ∧ p < m.size ∧ (m.cell p).src = some c ∧ FnOK m s fn ∧
    (m.cell p).loop = (m.cell s).loop
  uniq : ∀ c s p fn s' p' fn', Ev.attach c s p fn ∈ m.log → Ev.attach c s' p' fn' ∈ m.log →
    s = s' ∧ p = p' ∧ fn = fn'
  one : ∀ c s p fn, Ev.attach c s p fn ∈ m.log →
    m.here s c + m.queued (m.cell s).loop c + m.starts c = 1
  stored : ∀ s t, (m.cell s).cb = some t →
    s < m.size ∧ (m.cell s).done = false ∧ TaskOK m s t
  queued : ∀ l t, t ∈ m.queue l → ∃ s, TaskOK m s t ∧ (m.cell s).done = true ∧ (m.cell s).loop = l
  started : ∀ c, Ev.start c ∈ m.log → ∃ s p fn, Ev.attach c s p fn ∈ m.log ∧ (m.cell s).done = true
  balance : ∀ c, m.fins c + m.acts c ≤ m.starts c
  frames : ∀ f ∈ m.active, FrameOK m f
  gives : ∀ c s p g r, Ev.attach c s p (.give g) ∈ m.log → Ev.finish c r ∈ m.log → r = some g
  done : ∀ p c, p < m.size → (m.cell p).src = some c → (m.cell p).done = true → DoneOK m c
  proms : ∀ s, some s ∈ m.proms → s < m.size ∧ (m.cell s).src = none
  futs : ∀ s, some s ∈ m.futs → s < m.size

/-- What never goes away. -/
structure Le (m m' : M) : Prop where
  log : ∀ e, e ∈ m.log → e ∈ m'.log
  size : m.size ≤ m'.size
  done : ∀ s, s < m.size → (m.cell s).done = true → (m'.cell s).done = true
  src : ∀ s, s < m.size → (m'.cell s).src = (m.cell s).src
  loop : ∀ s, s < m.size → (m'.cell s).loop = (m.cell s).loop

theorem Le.refl (m : M) : Le m m :=
  ⟨fun _ h => h, Nat.le_refl _, fun _ _ h => h, fun _ _ => rfl, fun _ _ => rfl⟩

theorem Le.trans {a b c : M} (h : Le a b) (k : Le b c) : Le a c where
  log e he := k.log e (h.log e he)
  size := Nat.le_trans h.size k.size
  done s hs hd := k.done s (Nat.lt_of_lt_of_le hs h.size) (h.done s hs hd)
  src s hs := by rw [k.src s (Nat.lt_of_lt_of_le hs h.size), h.src s hs]
  loop s hs := by rw [k.loop s (Nat.lt_of_lt_of_le hs h.size), h.loop s hs]

theorem FnOK.le {m m' : M} {s : Nat} {fn : Fn} (l : Le m m') (h : FnOK m s fn) : FnOK m' s fn := by
  cases fn with
  | void => trivial
  | fut => trivial
  | prom q =>
    refine ⟨Nat.lt_of_lt_of_le h.1 l.size, fun c hc => l.log _ (h.2 c ?_)⟩
    rw [← hc, l.src q h.1]
  | give g =>
    cases g with
    | none => trivial
    | some g => exact Nat.lt_of_lt_of_le h l.size

theorem Inv.lt {m : M} (i : Inv m) {s : Nat} {t : Task} (h : TaskOK m s t) : s < m.size :=
  (i.att _ _ _ _ h).2.1

theorem Inv.frame_le {m m' : M} (i : Inv m) (l : Le m m') {f : Frame} (h : FrameOK m f) :
    FrameOK m' f := by
  cases f with
  | run t =>
    obtain ⟨s, h1, h2⟩ := h
    exact ⟨s, l.log _ h1, l.done s (i.lt h1) h2⟩
  | imm => trivial
  | ret t r =>
    obtain ⟨⟨s, h1, h2⟩, h3, h4⟩ := h
    exact ⟨⟨s, l.log _ h1, l.done s (i.lt h1) h2⟩, fun g hg => Nat.lt_of_lt_of_le (h3 g hg) l.size, h4⟩
  | satisfy q t =>
    obtain ⟨⟨s, h1, h2⟩, h3⟩ := h
    exact ⟨⟨s, l.log _ h1, l.done s (i.lt h1) h2⟩, h3⟩

/-- Fulfilling a promise. -/
theorem fulfil_le (m : M) (s : Nat) : Le m (m.fulfil s) := by
  have hl : (m.fulfil s).log = m.log := by
    unfold M.fulfil
    dsimp only
    split <;> rfl
  have hs : (m.fulfil s).size = m.size := by
    unfold M.fulfil
    dsimp only
    split <;> rfl
  have hc : (m.fulfil s).cell = upd m.cell s { m.cell s with done := true, cb := none } := rfl
  refine ⟨fun e he => by rw [hl]; exact he, by rw [hs]; exact Nat.le_refl _, ?_, ?_, ?_⟩
  all_goals
    intro t ht
    rw [hc]
    unfold upd
    by_cases h : t = s
    · subst h; simp
    · simp [h]

theorem fulfil_log (m : M) (s : Nat) : (m.fulfil s).log = m.log := by
  unfold M.fulfil; dsimp only; split <;> rfl

theorem fulfil_size (m : M) (s : Nat) : (m.fulfil s).size = m.size := by
  unfold M.fulfil; dsimp only; split <;> rfl

theorem fulfil_active (m : M) (s : Nat) : (m.fulfil s).active = m.active := by
  unfold M.fulfil; dsimp only; split <;> rfl

theorem fulfil_proms (m : M) (s : Nat) : (m.fulfil s).proms = m.proms := by
  unfold M.fulfil; dsimp only; split <;> rfl

theorem fulfil_futs (m : M) (s : Nat) : (m.fulfil s).futs = m.futs := by
  unfold M.fulfil; dsimp only; split <;> rfl

theorem fulfil_nextC (m : M) (s : Nat) : (m.fulfil s).nextC = m.nextC := by
  unfold M.fulfil; dsimp only; split <;> rfl

theorem fulfil_ub (m : M) (s : Nat) : (m.fulfil s).ub = m.ub := by
  unfold M.fulfil; dsimp only; split <;> rfl

theorem fulfil_cell (m : M) (s t : Nat) :
    (m.fulfil s).cell t = if t = s then { m.cell s with done := true, cb := none } else m.cell t := rfl

theorem fulfil_queue (m : M) (s l : Nat) : (m.fulfil s).queue l =
    m.queue l ++ (if l = (m.cell s).loop ∧ (m.cell s).done = false then (m.cell s).cb.toList else []) := by
  unfold M.fulfil
  dsimp only
  split
  · rename_i t h1 h2
    simp only [M.post, upd, h1, h2, Option.toList]
    by_cases h : l = (m.cell s).loop
    · simp [h]
    · simp [h]
  · rename_i h
    cases hd : (m.cell s).done with
    | true => simp
    | false =>
      cases hc : (m.cell s).cb with
      | none => simp
      | some t => exact absurd hc (h t hd)

theorem inv_fulfil {m : M} (i : Inv m) {s : Nat} (hs : s < m.size)
    (hd : ∀ c, (m.cell s).src = some c → DoneOK m c) : Inv (m.fulfil s) := by
  have l := fulfil_le m s
  have hlog := fulfil_log m s
  have hsz := fulfil_size m s
  have hst : ∀ c, (m.fulfil s).starts c = m.starts c := fun c => by unfold M.starts; rw [hlog]
  constructor
  · intro c a p fn h
    rw [hlog] at h
    obtain ⟨h1, h2, h3, h4, h5, h6⟩ := i.att _ _ _ _ h
    refine ⟨by rw [fulfil_nextC]; exact h1, by rw [hsz]; exact h2, by rw [hsz]; exact h3, ?_, h5.le l,
      by rw [l.loop p h3, l.loop a h2]; exact h6⟩
    rw [l.src p h3]; exact h4
  · intro c a p fn a' p' fn' h h'
    rw [hlog] at h h'
    exact i.uniq _ _ _ _ _ _ _ h h'
  · intro c a p fn h
    rw [hlog] at h
    have h1 := i.one _ _ _ _ h
    have hlt := (i.att _ _ _ _ h).2.1
    rw [hst, l.loop a hlt]
    unfold M.queued at h1 ⊢
    rw [fulfil_queue, List.countP_append]
    have key : (m.fulfil s).here a c + List.countP (fun t => t.c == c)
        (if (m.cell a).loop = (m.cell s).loop ∧ (m.cell s).done = false then (m.cell s).cb.toList
          else []) = m.here a c := by
      unfold M.here
      rw [fulfil_cell]
      by_cases has : a = s
      · subst has
        simp only [if_pos trivial, true_and]
        cases hc : (m.cell a).cb with
        | none => simp
        | some t =>
          have h2 := i.stored a t hc
          simp [h2.2.1, Option.toList]
          try (by_cases ht : t.c = c <;> simp [ht])
      · rw [if_neg has]
        have : List.countP (fun t => t.c == c)
            (if (m.cell a).loop = (m.cell s).loop ∧ (m.cell s).done = false then
              (m.cell s).cb.toList else []) = 0 := by
          split
          · cases hc : (m.cell s).cb with
            | none => simp
            | some t =>
              have h2 := i.stored s t hc
              have : t.c ≠ c := by
                intro e
                subst e
                exact has (i.uniq _ _ _ _ _ _ _ h h2.2.2).1
              simp [Option.toList, this]
          · simp
        rw [this, Nat.add_zero]
    omega
  · intro a t h
    rw [fulfil_cell] at h ⊢
    by_cases has : a = s
    · subst has; simp at h
    · rw [if_neg has] at h ⊢
      obtain ⟨h1, h2, h3⟩ := i.stored a t h
      exact ⟨by rw [hsz]; exact h1, h2, l.log _ h3⟩
  · intro k t h
    rw [fulfil_queue, List.mem_append] at h
    rcases h with h | h
    · obtain ⟨a, h1, h2, h3⟩ := i.queued k t h
      exact ⟨a, l.log _ h1, l.done a (i.lt h1) h2, by rw [l.loop a (i.lt h1)]; exact h3⟩
    · split at h
      · rename_i hk
        cases hc : (m.cell s).cb with
        | none => rw [hc] at h; simp at h
        | some t' =>
          rw [hc] at h
          simp [Option.toList] at h
          subst h
          refine ⟨s, l.log _ (i.stored s t hc).2.2, ?_, ?_⟩
          · rw [fulfil_cell, if_pos rfl]
          · rw [l.loop s hs]; exact hk.1.symm
      · simp at h
  · intro c h
    rw [hlog] at h
    obtain ⟨a, p, fn, h1, h2⟩ := i.started c h
    exact ⟨a, p, fn, l.log _ h1, l.done a (i.att _ _ _ _ h1).2.1 h2⟩
  · intro c
    have := i.balance c
    unfold M.fins M.acts M.starts at *
    rw [hlog, fulfil_active]
    exact this
  · intro f hf
    rw [fulfil_active] at hf
    exact i.frame_le l (i.frames f hf)
  · intro c a p g r h h'
    rw [hlog] at h h'
    exact i.gives _ _ _ _ _ h h'
  · intro p c hp hsrc hdone
    rw [hsz] at hp
    rw [l.src p hp] at hsrc
    have : DoneOK m c := by
      by_cases hps : p = s
      · subst hps; exact hd c hsrc
      · rw [fulfil_cell, if_neg hps] at hdone
        exact i.done p c hp hsrc hdone
    obtain ⟨r, h1, h2⟩ := this
    refine ⟨r, l.log _ h1, fun g hg => ?_⟩
    have := h2 g hg
    exact ⟨by rw [hsz]; exact this.1, l.done g this.1 this.2⟩
  · intro q hq
    rw [fulfil_proms] at hq
    obtain ⟨h1, h2⟩ := i.proms q hq
    exact ⟨by rw [hsz]; exact h1, by rw [l.src q h1]; exact h2⟩
  · intro q hq
    rw [fulfil_futs] at hq
    rw [hsz]
    exact i.futs q hq

/-- Attaching a closure. -/
theorem attach_log (m : M) (s : Nat) (fn : Fn) :
    (m.attach s fn).log = m.log ++ [.attach m.nextC s m.size fn] := by
  unfold M.attach; dsimp only; split
  · rfl
  · split <;> rfl

theorem attach_size (m : M) (s : Nat) (fn : Fn) : (m.attach s fn).size = m.size + 1 := by
  unfold M.attach; dsimp only; split
  · rfl
  · split <;> rfl

theorem attach_nextC (m : M) (s : Nat) (fn : Fn) : (m.attach s fn).nextC = m.nextC + 1 := by
  unfold M.attach; dsimp only; split
  · rfl
  · split <;> rfl

theorem attach_active (m : M) (s : Nat) (fn : Fn) : (m.attach s fn).active = m.active := by
  unfold M.attach; dsimp only; split
  · rfl
  · split <;> rfl

theorem attach_proms (m : M) (s : Nat) (fn : Fn) : (m.attach s fn).proms = m.proms := by
  unfold M.attach; dsimp only; split
  · rfl
  · split <;> rfl

theorem attach_futs (m : M) (s : Nat) (fn : Fn) : (m.attach s fn).futs = m.futs := by
  unfold M.attach; dsimp only; split
  · rfl
  · split <;> rfl

theorem attach_free {m : M} {s : Nat} {fn : Fn} (hu : (m.attach s fn).ub = false) :
    (m.cell s).done = false → (m.cell s).cb = none := by
  intro hd
  unfold M.attach at hu
  simp only [hd] at hu
  cases hc : (m.cell s).cb with
  | none => rfl
  | some t => simp [hc] at hu

theorem attach_cell {m : M} {s : Nat} {fn : Fn} (hs : s < m.size)
    (hu : (m.attach s fn).ub = false) (a : Nat) : (m.attach s fn).cell a =
    if a = m.size then ⟨(m.cell s).loop, false, none, some m.nextC⟩
    else if a = s ∧ (m.cell s).done = false then
      { m.cell s with cb := some ⟨m.nextC, m.size, fn⟩ }
    else m.cell a := by
  have hfree := attach_free hu
  unfold M.attach
  dsimp only
  cases hd : (m.cell s).done with
  | true => simp [M.post, upd]
  | false =>
    rw [hfree hd]
    by_cases ha : a = s
    · subst ha
      have : a ≠ m.size := by omega
      simp [this, upd]
    · simp [ha, upd]

theorem attach_queue {m : M} {s : Nat} {fn : Fn} (hu : (m.attach s fn).ub = false) (l : Nat) :
    (m.attach s fn).queue l = m.queue l ++
    (if l = (m.cell s).loop ∧ (m.cell s).done = true then [⟨m.nextC, m.size, fn⟩] else []) := by
  have hfree := attach_free hu
  unfold M.attach
  dsimp only
  cases hd : (m.cell s).done with
  | true =>
    by_cases h : l = (m.cell s).loop
    · simp [h, M.post, upd]
    · simp [h, M.post, upd]
  | false =>
    rw [hfree hd]
    simp

theorem attach_le {m : M} {s : Nat} {fn : Fn} (hs : s < m.size)
    (hu : (m.attach s fn).ub = false) : Le m (m.attach s fn) := by
  refine ⟨fun e he => by rw [attach_log]; exact List.mem_append_left _ he,
    by rw [attach_size]; omega, ?_, ?_, ?_⟩
  all_goals
    intro a ha
    rw [attach_cell hs hu]
    have : a ≠ m.size := by omega
    rw [if_neg this]
    split
    · rename_i h
      rw [h.1]
      try (first | rfl | exact id)
    · first | rfl | exact id

theorem inv_attach {m : M} (i : Inv m) {s : Nat} {fn : Fn} (hs : s < m.size) (hfn : FnOK m s fn)
    (hu : (m.attach s fn).ub = false) : Inv (m.attach s fn) := by
  have l := attach_le hs hu
  have hlog := attach_log m s fn
  have hsz := attach_size m s fn
  have hnew : ∀ c a p f, Ev.attach c a p f ∈ (m.attach s fn).log →
      Ev.attach c a p f ∈ m.log ∨ (c = m.nextC ∧ a = s ∧ p = m.size ∧ f = fn) := by
    intro c a p f h
    rw [hlog, List.mem_append] at h
    rcases h with h | h
    · exact Or.inl h
    · simp at h; exact Or.inr ⟨h.1, h.2.1, h.2.2.1, h.2.2.2⟩
  have hst : ∀ c, (m.attach s fn).starts c = m.starts c := by
    intro c
    unfold M.starts
    rw [hlog, List.count_append]
    simp
  have hfresh : m.starts m.nextC = 0 := by
    unfold M.starts
    rw [List.count_eq_zero]
    intro h
    obtain ⟨a, p, f, h1, h2⟩ := i.started _ h
    have := (i.att _ _ _ _ h1).1
    omega
  have hqfresh : ∀ k, m.queued k m.nextC = 0 := by
    intro k
    unfold M.queued
    rw [List.countP_eq_zero]
    intro t ht e
    obtain ⟨a, h1, _⟩ := i.queued k t ht
    have := (i.att _ _ _ _ h1).1
    simp at e
    omega
  have hfin : ∀ c r, Ev.finish c r ∈ (m.attach s fn).log → Ev.finish c r ∈ m.log := by
    intro c r h
    rw [hlog, List.mem_append] at h
    rcases h with h | h
    · exact h
    · simp at h
  constructor
  · intro c a p f h
    rcases hnew c a p f h with h | ⟨rfl, rfl, rfl, rfl⟩
    · obtain ⟨h1, h2, h3, h4, h5, h6⟩ := i.att _ _ _ _ h
      refine ⟨by rw [attach_nextC]; omega, by rw [hsz]; omega, by rw [hsz]; omega, ?_, h5.le l, ?_⟩
      · rw [l.src p h3]; exact h4
      · rw [l.loop p h3, l.loop a h2]; exact h6
    · refine ⟨by rw [attach_nextC]; omega, by rw [hsz]; omega, by rw [hsz]; omega, ?_, hfn.le l, ?_⟩
      · rw [attach_cell hs hu, if_pos rfl]
      · rw [l.loop a hs, attach_cell hs hu, if_pos rfl]
  · intro c a p f a' p' f' h h'
    rcases hnew c a p f h with k | ⟨k1, k2, k3, k4⟩ <;>
      rcases hnew _ a' p' f' h' with k' | ⟨j1, j2, j3, j4⟩
    · exact i.uniq _ _ _ _ _ _ _ k k'
    · have := (i.att _ _ _ _ k).1
      omega
    · have := (i.att _ _ _ _ k').1
      omega
    · exact ⟨k2.trans j2.symm, k3.trans j3.symm, k4.trans j4.symm⟩
  · intro c a p f h
    rw [hst]
    rcases hnew c a p f h with h | ⟨rfl, rfl, rfl, rfl⟩
    · have h1 := i.one _ _ _ _ h
      obtain ⟨hc, ha, _⟩ := i.att _ _ _ _ h
      rw [l.loop a ha]
      have e1 : (m.attach s fn).here a c = m.here a c := by
        unfold M.here
        rw [attach_cell hs hu, if_neg (by omega)]
        by_cases h2 : a = s ∧ (m.cell s).done = false
        · rw [if_pos h2, h2.1, attach_free hu h2.2]
          simp
          omega
        · rw [if_neg h2]
      have e2 : (m.attach s fn).queued (m.cell a).loop c = m.queued (m.cell a).loop c := by
        unfold M.queued
        rw [attach_queue hu, List.countP_append]
        split
        · have : m.nextC ≠ c := by omega
          simp [this]
        · simp
      rw [e1, e2]
      exact h1
    · rw [l.loop a hs, hfresh]
      have hq := hqfresh (m.cell a).loop
      unfold M.queued M.here at *
      rw [attach_queue hu, List.countP_append, hq, attach_cell hs hu,
        if_neg (by omega)]
      cases hd : (m.cell a).done with
      | true =>
        have hcb : (m.cell a).cb = none := by
          cases hc : (m.cell a).cb with
          | none => rfl
          | some t => have := (i.stored a t hc).2.1; rw [hd] at this; cases this
        simp [hcb]
      | false => simp
  · intro a t h
    rw [attach_cell hs hu] at h ⊢
    by_cases h1 : a = m.size
    · rw [if_pos h1] at h; cases h
    · rw [if_neg h1] at h ⊢
      by_cases h2 : a = s ∧ (m.cell s).done = false
      · rw [if_pos h2] at h ⊢
        cases h
        refine ⟨by rw [hsz]; omega, h2.2, ?_⟩
        unfold TaskOK
        rw [hlog, h2.1]
        simp
      · rw [if_neg h2] at h ⊢
        obtain ⟨h3, h4, h5⟩ := i.stored a t h
        exact ⟨by rw [hsz]; omega, h4, l.log _ h5⟩
  · intro k t h
    rw [attach_queue hu, List.mem_append] at h
    rcases h with h | h
    · obtain ⟨a, h1, h2, h3⟩ := i.queued k t h
      exact ⟨a, l.log _ h1, l.done a (i.lt h1) h2, by rw [l.loop a (i.lt h1)]; exact h3⟩
    · split at h
      · rename_i hk
        simp at h
        subst h
        refine ⟨s, ?_, l.done s hs hk.2, by rw [l.loop s hs]; exact hk.1.symm⟩
        unfold TaskOK
        rw [hlog]
        simp
      · simp at h
  · intro c h
    rw [hlog, List.mem_append] at h
    rcases h with h | h
    · obtain ⟨a, p, f, h1, h2⟩ := i.started c h
      exact ⟨a, p, f, l.log _ h1, l.done a (i.att _ _ _ _ h1).2.1 h2⟩
    · simp at h
  · intro c
    have := i.balance c
    rw [hst]
    have e1 : (m.attach s fn).fins c = m.fins c := by
      unfold M.fins
      rw [hlog, List.countP_append]
      simp [isFinish]
    have e2 : (m.attach s fn).acts c = m.acts c := by
      unfold M.acts
      rw [attach_active]
    rw [e1, e2]
    exact this
  · intro f hf
    rw [attach_active] at hf
    exact i.frame_le l (i.frames f hf)
  · intro c a p g r h h'
    replace h' := hfin _ _ h'
    rcases hnew c a p _ h with h | ⟨rfl, -, -, -⟩
    · exact i.gives _ _ _ _ _ h h'
    · exfalso
      have hb := i.balance m.nextC
      rw [hfresh] at hb
      have : 0 < m.fins m.nextC := by
        unfold M.fins
        rw [List.countP_pos_iff]
        exact ⟨_, h', by simp [isFinish]⟩
      omega
  · intro p c hp hsrc hdone
    rw [hsz] at hp
    by_cases hpm : p = m.size
    · rw [attach_cell hs hu, if_pos hpm] at hdone; cases hdone
    · have hp' : p < m.size := by omega
      rw [l.src p hp'] at hsrc
      have hd : (m.cell p).done = true := by
        rw [attach_cell hs hu, if_neg hpm] at hdone
        split at hdone
        · rename_i h; rw [h.1]; exact hdone
        · exact hdone
      obtain ⟨r, h1, h2⟩ := i.done p c hp' hsrc hd
      refine ⟨r, l.log _ h1, fun g hg => ?_⟩
      have hgd := h2 g hg
      exact ⟨by rw [hsz]; omega, l.done g hgd.1 hgd.2⟩
  · intro q hq
    rw [attach_proms] at hq
    obtain ⟨h1, h2⟩ := i.proms q hq
    exact ⟨by rw [hsz]; omega, by rw [l.src q h1]; exact h2⟩
  · intro q hq
    rw [attach_futs] at hq
    rw [hsz]
    have := i.futs q hq
    omega

end Verif.Future
