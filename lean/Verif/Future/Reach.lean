import Verif.Future.Inv

/-! The invariants hold in every state that is reached without an assertion failure. -/

namespace Verif.Future

theorem say_le (m : M) (e : Ev) : Le m (m.say e) :=
  ⟨fun _ h => List.mem_append_left _ h, Nat.le_refl _, fun _ _ h => h, fun _ _ => rfl, fun _ _ => rfl⟩

/-- Objects and running code change. -/
theorem inv_objs {m : M} (i : Inv m) (ps fs : List (Option Nat)) (act : List Frame) (n : Nat)
    (hn : m.nextC ≤ n)
    (hp : ∀ s, some s ∈ ps → s < m.size ∧ (m.cell s).src = none)
    (hf : ∀ s, some s ∈ fs → s < m.size)
    (ha : ∀ f ∈ act, FrameOK m f)
    (hc : ∀ c, act.countP (fun f => f.tick == some c) ≤ m.acts c) :
    Inv { m with proms := ps, futs := fs, active := act, nextC := n } := by
  constructor
  · intro c s p fn h
    obtain ⟨h1, h2⟩ := i.att _ _ _ _ h
    refine ⟨Nat.lt_of_lt_of_le h1 hn, h2.1, h2.2.1, h2.2.2.1, ?_, h2.2.2.2.2⟩
    exact h2.2.2.2.1
  · exact i.uniq
  · exact i.one
  · exact i.stored
  · exact i.queued
  · exact i.started
  · intro c
    have h1 := i.balance c
    have h2 := hc c
    show m.fins c + act.countP (fun f => f.tick == some c) ≤ m.starts c
    omega
  · intro f h
    exact ha f h
  · exact i.gives
  · exact i.done
  · exact hp
  · exact hf

theorem acts_erase (act : List Frame) (k : Nat) (c : Nat) :
    (act.eraseIdx k).countP (fun f => f.tick == some c) ≤ act.countP (fun f => f.tick == some c) :=
  List.Sublist.countP_le (List.eraseIdx_sublist act k)

theorem acts_erase_eq {act : List Frame} {k : Nat} {f : Frame} (h : act[k]? = some f) (c : Nat) :
    (act.eraseIdx k).countP (fun f => f.tick == some c) + (if f.tick = some c then 1 else 0) =
      act.countP (fun f => f.tick == some c) := by
  induction act generalizing k with
  | nil => simp at h
  | cons a act ih =>
    cases k with
    | zero =>
      simp at h
      subst h
      simp [List.countP_cons]
    | succ k =>
      simp at h
      rw [List.eraseIdx_cons_succ, List.countP_cons, List.countP_cons, ← ih h]
      omega

theorem inv_erase {m : M} (i : Inv m) (k : Nat) :
    Inv { m with active := m.active.eraseIdx k } :=
  inv_objs i m.proms m.futs _ m.nextC (Nat.le_refl _) i.proms i.futs
    (fun f hf => i.frames f (List.mem_of_mem_eraseIdx hf)) (acts_erase m.active k)

/-- An event that says nothing about closures. -/
theorem inv_say {m : M} (i : Inv m) (e : Ev) (h1 : ∀ c s p fn, e ≠ .attach c s p fn)
    (h2 : ∀ c, e ≠ .start c) (h3 : ∀ c r, e ≠ .finish c r) : Inv (m.say e) := by
  have l := say_le m e
  have hm : ∀ x, x ∈ (m.say e).log → x ∈ m.log ∨ x = e := fun x hx => by
    simpa [M.say] using hx
  have ha : ∀ c s p fn, Ev.attach c s p fn ∈ (m.say e).log → Ev.attach c s p fn ∈ m.log := by
    intro c s p fn h
    rcases hm _ h with h | h
    · exact h
    · exact absurd h.symm (h1 _ _ _ _)
  have hst : ∀ c, (m.say e).starts c = m.starts c := by
    intro c
    show List.count _ (m.log ++ [e]) = _
    rw [List.count_append]
    have : List.count (Ev.start c) [e] = 0 := by simp [List.count_eq_zero, (h2 c).symm]
    rw [this]; rfl
  have hfi : ∀ c, (m.say e).fins c = m.fins c := by
    intro c
    show List.countP _ (m.log ++ [e]) = _
    rw [List.countP_append]
    have : List.countP (isFinish c) [e] = 0 := by
      cases e <;> simp [isFinish]
      exact absurd rfl (h3 _ _)
    rw [this]; rfl
  constructor
  · intro c s p fn h
    obtain ⟨k1, k2, k3, k4, k5, k6⟩ := i.att _ _ _ _ (ha _ _ _ _ h)
    exact ⟨k1, k2, k3, k4, k5.le l, k6⟩
  · intro c s p fn s' p' fn' h h'
    exact i.uniq _ _ _ _ _ _ _ (ha _ _ _ _ h) (ha _ _ _ _ h')
  · intro c s p fn h
    rw [hst]
    exact i.one _ _ _ _ (ha _ _ _ _ h)
  · intro s t h
    obtain ⟨k1, k2, k3⟩ := i.stored s t h
    exact ⟨k1, k2, l.log _ k3⟩
  · intro q t h
    obtain ⟨s, k1, k2⟩ := i.queued q t h
    exact ⟨s, l.log _ k1, k2⟩
  · intro c h
    rcases hm _ h with h | h
    · obtain ⟨s, p, fn, k1, k2⟩ := i.started c h
      exact ⟨s, p, fn, l.log _ k1, k2⟩
    · exact absurd h.symm (h2 _)
  · intro c
    rw [hst, hfi]
    exact i.balance c
  · intro f hf
    exact i.frame_le l (i.frames f hf)
  · intro c s p g r h h'
    rcases hm _ h' with h' | h'
    · exact i.gives _ _ _ _ _ (ha _ _ _ _ h) h'
    · exact absurd h'.symm (h3 _ _)
  · intro p c hp hs hd
    obtain ⟨r, k1, k2⟩ := i.done p c hp hs hd
    exact ⟨r, l.log _ k1, k2⟩
  · exact i.proms
  · exact i.futs

/-- The function of a closure has returned. -/
theorem inv_finish {m : M} (i : Inv m) (c : Nat) (r : Option (Option Nat))
    (hroom : m.fins c + m.acts c + 1 ≤ m.starts c)
    (hg : ∀ s p g, Ev.attach c s p (.give g) ∈ m.log → r = some g) : Inv (m.say (.finish c r)) := by
  have l := say_le m (.finish c r)
  have hm : ∀ x, x ∈ (m.say (.finish c r)).log → x ∈ m.log ∨ x = .finish c r := fun x hx => by
    simpa [M.say] using hx
  have ha : ∀ a s p fn, Ev.attach a s p fn ∈ (m.say (.finish c r)).log →
      Ev.attach a s p fn ∈ m.log := by
    intro a s p fn h
    rcases hm _ h with h | h
    · exact h
    · cases h
  have hst : ∀ a, (m.say (.finish c r)).starts a = m.starts a := by
    intro a
    show List.count _ (m.log ++ [_]) = _
    rw [List.count_append]
    simp [M.starts]
  have hfi : ∀ a, (m.say (.finish c r)).fins a = m.fins a + if c = a then 1 else 0 := by
    intro a
    show List.countP _ (m.log ++ [_]) = _
    rw [List.countP_append]
    simp [isFinish, M.fins]
  constructor
  · intro a s p fn h
    obtain ⟨k1, k2, k3, k4, k5, k6⟩ := i.att _ _ _ _ (ha _ _ _ _ h)
    exact ⟨k1, k2, k3, k4, k5.le l, k6⟩
  · intro a s p fn s' p' fn' h h'
    exact i.uniq _ _ _ _ _ _ _ (ha _ _ _ _ h) (ha _ _ _ _ h')
  · intro a s p fn h
    rw [hst]
    exact i.one _ _ _ _ (ha _ _ _ _ h)
  · intro s t h
    obtain ⟨k1, k2, k3⟩ := i.stored s t h
    exact ⟨k1, k2, l.log _ k3⟩
  · intro q t h
    obtain ⟨s, k1, k2⟩ := i.queued q t h
    exact ⟨s, l.log _ k1, k2⟩
  · intro a h
    rcases hm _ h with h | h
    · obtain ⟨s, p, fn, k1, k2⟩ := i.started a h
      exact ⟨s, p, fn, l.log _ k1, k2⟩
    · cases h
  · intro a
    rw [hst, hfi]
    have h1 := i.balance a
    show m.fins a + _ + m.acts a ≤ _
    split
    · rename_i h; subst h; omega
    · omega
  · intro f hf
    exact i.frame_le l (i.frames f hf)
  · intro a s p g r' h h'
    rcases hm _ h' with h' | h'
    · exact i.gives _ _ _ _ _ (ha _ _ _ _ h) h'
    · cases h'
      exact hg _ _ _ (ha _ _ _ _ h)
  · intro p a hp hs hd
    obtain ⟨r, k1, k2⟩ := i.done p a hp hs hd
    exact ⟨r, l.log _ k1, k2⟩
  · exact i.proms
  · exact i.futs

/-- A loop runs a closure. -/
theorem inv_run {m : M} (i : Inv m) {l : Nat} {t : Task} {q : List Task} (hq : m.queue l = t :: q) :
    Inv { m with
          queue := upd m.queue l q
          active := t.frame :: m.active
          log := m.log ++ [.start t.c] } := by
  obtain ⟨s0, hT, hD, hL⟩ := i.queued l t (by rw [hq]; exact List.mem_cons_self)
  have hone := i.one _ _ _ _ hT
  have hq1 : 0 < m.queued l t.c := by
    unfold M.queued
    rw [hq, List.countP_pos_iff]
    exact ⟨t, List.mem_cons_self, by simp⟩
  rw [hL] at hone
  have hst0 : m.starts t.c = 0 := by omega
  have hle : Le m { m with
          queue := upd m.queue l q
          active := t.frame :: m.active
          log := m.log ++ [.start t.c] } :=
    ⟨fun _ h => List.mem_append_left _ h, Nat.le_refl _, fun _ _ h => h, fun _ _ => rfl, fun _ _ => rfl⟩
  have ha : ∀ a s p fn, Ev.attach a s p fn ∈ m.log ++ [.start t.c] → Ev.attach a s p fn ∈ m.log := by
    intro a s p fn h
    simpa using h
  have hstE : ∀ a, List.count (Ev.start a) (m.log ++ [.start t.c]) =
      m.starts a + if t.c = a then 1 else 0 := by
    intro a
    rw [List.count_append]
    unfold M.starts
    by_cases h : t.c = a
    · subst h; simp
    · have : Ev.start t.c ≠ Ev.start a := by simpa using h
      rw [List.count_singleton]
      simp [h]
  have hfinE : ∀ a, List.countP (isFinish a) (m.log ++ [.start t.c]) = m.fins a := by
    intro a
    rw [List.countP_append]
    simp [isFinish, M.fins]
  have htick : t.frame.tick = some t.c := by
    unfold Task.frame
    split <;> rfl
  constructor
  · intro a s p fn h
    obtain ⟨k1, k2, k3, k4, k5, k6⟩ := i.att _ _ _ _ (ha _ _ _ _ h)
    exact ⟨k1, k2, k3, k4, k5.le hle, k6⟩
  · intro a s p fn s' p' fn' h h'
    exact i.uniq _ _ _ _ _ _ _ (ha _ _ _ _ h) (ha _ _ _ _ h')
  · intro a s p fn h
    have h := ha _ _ _ _ h
    have h1 := i.one _ _ _ _ h
    show m.here s a + List.countP (fun t => t.c == a) (upd m.queue l q (m.cell s).loop) +
      List.count (Ev.start a) (m.log ++ [.start t.c]) = 1
    rw [hstE]
    unfold M.queued at h1
    by_cases hsl : (m.cell s).loop = l
    · rw [hsl, hq, List.countP_cons] at h1
      unfold upd
      rw [if_pos hsl]
      by_cases hta : t.c = a
      · simp [hta] at h1 ⊢
        omega
      · simp [hta] at h1 ⊢
        omega
    · unfold upd
      rw [if_neg hsl]
      have hta : t.c ≠ a := by
        intro e
        subst e
        have := (i.uniq _ _ _ _ _ _ _ h hT).1
        subst this
        exact hsl hL
      rw [if_neg hta]
      omega
  · intro s t' h
    obtain ⟨k1, k2, k3⟩ := i.stored s t' h
    exact ⟨k1, k2, hle.log _ k3⟩
  · intro k t' h
    have : t' ∈ m.queue k := by
      change t' ∈ upd m.queue l q k at h
      unfold upd at h
      split at h
      · rename_i e; rw [e, hq]; exact List.mem_cons_of_mem _ h
      · exact h
    obtain ⟨s, k1, k2⟩ := i.queued k t' this
    exact ⟨s, hle.log _ k1, k2⟩
  · intro a h
    by_cases hat : a = t.c
    · subst hat
      exact ⟨s0, t.p, t.fn, hle.log _ hT, hD⟩
    · have : Ev.start a ∈ m.log := by simpa [hat] using h
      obtain ⟨s, p, fn, k1, k2⟩ := i.started a this
      exact ⟨s, p, fn, hle.log _ k1, k2⟩
  · intro a
    have h1 := i.balance a
    show List.countP (isFinish a) (m.log ++ [.start t.c]) +
      List.countP (fun f => f.tick == some a) (t.frame :: m.active) ≤
      List.count (Ev.start a) (m.log ++ [.start t.c])
    rw [hfinE, hstE, List.countP_cons, htick]
    unfold M.acts at h1
    by_cases hta : t.c = a
    · simp [hta]; omega
    · simp [hta]; omega
  · intro f hf
    rcases List.mem_cons.1 hf with rfl | hf
    · have hok := (i.att _ _ _ _ hT).2.2.2.2.1
      unfold Task.frame
      cases hfn : t.fn with
      | void => exact ⟨s0, hle.log _ hT, hD⟩
      | fut => exact ⟨s0, hle.log _ hT, hD⟩
      | prom q' => exact ⟨⟨s0, hle.log _ hT, hD⟩, hfn⟩
      | give g =>
        refine ⟨⟨s0, hle.log _ hT, hD⟩, ?_, ?_, ?_⟩
        · intro g' e
          simp at e
          subst e
          rw [hfn] at hok
          exact hok
        · intro g' e
          rw [hfn] at e
          cases e
          rfl
        · intro e; rw [hfn] at e; cases e
    · exact i.frame_le hle (i.frames f hf)
  · intro a s p g r h h'
    have h' : Ev.finish a r ∈ m.log := by simpa using h'
    exact i.gives _ _ _ _ _ (ha _ _ _ _ h) h'
  · intro p a hp hs hd
    obtain ⟨r, k1, k2⟩ := i.done p a hp hs hd
    exact ⟨r, hle.log _ k1, k2⟩
  · exact i.proms
  · exact i.futs

/-- A new promise. -/
theorem inv_new {m : M} (i : Inv m) (l : Nat) : Inv { m with
        size := m.size + 1
        cell := upd m.cell m.size ⟨l, false, none, none⟩
        proms := m.proms ++ [some m.size]
        futs := m.futs ++ [some m.size] } := by
  have hc : ∀ s, s < m.size → upd m.cell m.size ⟨l, false, none, none⟩ s = m.cell s := by
    intro s hs
    unfold upd
    rw [if_neg (by omega)]
  have hle : Le m { m with
        size := m.size + 1
        cell := upd m.cell m.size ⟨l, false, none, none⟩
        proms := m.proms ++ [some m.size]
        futs := m.futs ++ [some m.size] } :=
    ⟨fun _ h => h, Nat.le_succ _, fun s hs h => by dsimp only; rw [hc s hs]; exact h,
     fun s hs => by dsimp only; rw [hc s hs], fun s hs => by dsimp only; rw [hc s hs]⟩
  constructor
  · intro a s p fn h
    obtain ⟨k1, k2, k3, k4, k5, k6⟩ := i.att _ _ _ _ h
    exact ⟨k1, Nat.lt_succ_of_lt k2, Nat.lt_succ_of_lt k3, by rw [hle.src p k3]; exact k4, k5.le hle,
      by rw [hle.loop p k3, hle.loop s k2]; exact k6⟩
  · exact i.uniq
  · intro a s p fn h
    have h1 := i.one _ _ _ _ h
    have hs := (i.att _ _ _ _ h).2.1
    unfold M.here M.queued at *
    dsimp only
    rw [hc s hs]
    exact h1
  · intro s t h
    by_cases hs : s = m.size
    · subst hs
      simp [upd] at h
    · have hcs : upd m.cell m.size ⟨l, false, none, none⟩ s = m.cell s := by
        unfold upd; rw [if_neg hs]
      dsimp only at h ⊢
      rw [hcs] at h ⊢
      obtain ⟨k1, k2, k3⟩ := i.stored s t h
      exact ⟨Nat.lt_succ_of_lt k1, k2, k3⟩
  · intro k t h
    obtain ⟨s, k1, k2, k3⟩ := i.queued k t h
    exact ⟨s, k1, hle.done s (i.lt k1) k2, by rw [hle.loop s (i.lt k1)]; exact k3⟩
  · intro c h
    obtain ⟨s, p, fn, k1, k2⟩ := i.started c h
    exact ⟨s, p, fn, k1, hle.done s (i.att _ _ _ _ k1).2.1 k2⟩
  · exact i.balance
  · intro f hf
    exact i.frame_le hle (i.frames f hf)
  · exact i.gives
  · intro p c hp hs hd
    by_cases hpm : p = m.size
    · subst hpm; simp [upd] at hs
    · have hp' : p < m.size := by
        have : p < m.size + 1 := hp
        omega
      dsimp only at hs hd
      rw [hc p hp'] at hs hd
      obtain ⟨r, k1, k2⟩ := i.done p c hp' hs hd
      exact ⟨r, k1, fun g hg => ⟨Nat.lt_succ_of_lt (k2 g hg).1, hle.done g (k2 g hg).1 (k2 g hg).2⟩⟩
  · intro s hs
    rw [List.mem_append] at hs
    rcases hs with hs | hs
    · obtain ⟨k1, k2⟩ := i.proms s hs
      exact ⟨Nat.lt_succ_of_lt k1, by rw [hle.src s k1]; exact k2⟩
    · simp at hs
      subst hs
      exact ⟨Nat.lt_succ_self _, by simp [upd]⟩
  · intro s hs
    rw [List.mem_append] at hs
    rcases hs with hs | hs
    · exact Nat.lt_succ_of_lt (i.futs s hs)
    · simp at hs
      subst hs
      exact Nat.lt_succ_self _

/-- What is known about a function that is given to `then`. -/
def GivenOK (m : M) : Fn → Prop
  | .prom q => q < m.size ∧ (m.cell q).src = none
  | .give (some g) => g < m.size
  | _ => True

theorem GivenOK.fn {m : M} {fn : Fn} (h : GivenOK m fn) (s : Nat) : FnOK m s fn := by
  cases fn with
  | void => trivial
  | fut => trivial
  | prom q => exact ⟨h.1, fun c hc => by rw [h.2] at hc; cases hc⟩
  | give g => cases g with
    | none => trivial
    | some g => exact h

theorem mem_app {x : Option Nat} {l : List (Option Nat)} {s : Nat} (h : some s ∈ l ++ [x]) :
    some s ∈ l ∨ x = some s := by
  rcases List.mem_append.1 h with h | h
  · exact Or.inl h
  · simp at h; exact Or.inr h.symm

theorem mem_set_none {l : List (Option Nat)} {i s : Nat} (h : some s ∈ l.set i none) :
    some s ∈ l := by
  rcases List.mem_or_eq_of_mem_set h with h | h
  · exact h
  · cases h

theorem inv_thenF {m : M} (i : Inv m) {s : Option Nat} {fn : Fn} (hs : ∀ a, s = some a → a < m.size)
    (hfn : GivenOK m fn) (hu : (m.thenF s fn).ub = false) : Inv (m.thenF s fn) := by
  cases s with
  | some s =>
    have hs := hs s rfl
    have hu' : (m.attach s fn).ub = false := hu
    have k := inv_attach i hs (hfn.fn s) hu'
    refine inv_objs k _ _ _ _ (Nat.le_refl _) k.proms ?_ k.frames (fun _ => Nat.le_refl _)
    intro a ha
    rcases mem_app ha with ha | ha
    · exact k.futs a ha
    · cases ha
      rw [attach_size]
      omega
  | none =>
    cases fn with
    | void =>
      have k := inv_say i (.now m.nextC) (by simp) (by simp) (by simp)
      exact inv_objs k m.proms m.futs (.imm m.nextC false :: m.active) (m.nextC + 1) (Nat.le_succ _)
        k.proms k.futs
        (fun f hf => by
          rcases List.mem_cons.1 hf with rfl | hf
          · trivial
          · exact k.frames f hf)
        (fun c => by simp [Frame.tick, M.acts, M.say])
    | fut =>
      have k := inv_say i (.now m.nextC) (by simp) (by simp) (by simp)
      exact inv_objs k m.proms m.futs (.imm m.nextC true :: m.active) (m.nextC + 1) (Nat.le_succ _)
        k.proms k.futs
        (fun f hf => by
          rcases List.mem_cons.1 hf with rfl | hf
          · trivial
          · exact k.frames f hf)
        (fun c => by simp [Frame.tick, M.acts, M.say])
    | prom q =>
      have k := inv_fulfil i hfn.1 (fun c hc => by rw [hfn.2] at hc; cases hc)
      refine inv_objs k _ _ _ _ (Nat.le_refl _) k.proms ?_ k.frames (fun _ => Nat.le_refl _)
      intro a ha
      rcases mem_app ha with ha | ha
      · exact k.futs a ha
      · cases ha
    | give g =>
      refine inv_objs i _ _ _ _ (Nat.le_refl _) i.proms ?_ i.frames (fun _ => Nat.le_refl _)
      intro a ha
      rcases mem_app ha with ha | ha
      · exact i.futs a ha
      · subst ha
        exact hfn

/-- The closure of a running frame has not finished. -/
theorem room {m : M} (i : Inv m) {k : Nat} {f : Frame} {c : Nat} (hf : m.active[k]? = some f)
    (hc : f.tick = some c) :
    m.fins c + (m.active.eraseIdx k).countP (fun f => f.tick == some c) + 1 ≤ m.starts c := by
  have h1 := i.balance c
  have h2 := acts_erase_eq hf c
  rw [if_pos hc] at h2
  unfold M.acts at h1
  omega

theorem inv_lib {m : M} (i : Inv m) {k : Nat} {f : Frame} (hf : m.active[k]? = some f) {m' : M}
    (h : { m with active := m.active.eraseIdx k }.lib f = some m') (hu : m'.ub = false) : Inv m' := by
  have hok := i.frames f (List.mem_of_getElem? hf)
  have ie := inv_erase i k
  cases f with
  | run t => simp [M.lib] at h
  | imm => simp [M.lib] at h
  | ret t r =>
    obtain ⟨⟨s, h1, h2⟩, h3, h4, h5⟩ := hok
    have hroom := room i hf (c := t.c) rfl
    have hgive : ∀ s p g, Ev.attach t.c s p (.give g) ∈ m.log → r = some g := by
      intro s' p g hg
      have := (i.uniq _ _ _ _ _ _ _ hg h1).2.2
      exact h4 g this.symm
    have i1 := inv_finish ie t.c r hroom hgive
    have hat := i.att _ _ _ _ h1
    have hdone : (∀ g, r ≠ some (some g)) → ∀ c, (m.cell t.p).src = some c →
        DoneOK ({ m with active := m.active.eraseIdx k }.say (.finish t.c r)) c := by
      intro hr c hc
      rw [hat.2.2.2.1] at hc
      cases hc
      exact ⟨r, by simp [M.say], fun g hg => absurd hg (hr g)⟩
    rcases r with _ | _ | g
    · simp only [M.lib, Option.some.injEq] at h
      subst h
      exact inv_fulfil i1 hat.2.2.1 (hdone (by simp))
    · simp only [M.lib, Option.some.injEq] at h
      subst h
      exact inv_fulfil i1 hat.2.2.1 (hdone (by simp))
    · simp only [M.lib, Option.some.injEq] at h
      subst h
      refine inv_attach i1 (h3 g rfl) ⟨hat.2.2.1, ?_⟩ hu
      intro c hc
      have : (m.cell t.p).src = some c := hc
      rw [hat.2.2.2.1] at this
      cases this
      simp [M.say]
  | satisfy q t =>
    obtain ⟨⟨s, h1, h2⟩, h3⟩ := hok
    have hat := i.att _ _ _ _ h1
    have hfn := hat.2.2.2.2.1
    rw [h3] at hfn
    simp only [M.lib, Option.some.injEq] at h
    subst h
    have i1 : Inv ({ m with active := m.active.eraseIdx k }.fulfil q) := by
      refine inv_fulfil ie hfn.1 ?_
      intro c hc
      refine ⟨some (some s), hfn.2 c hc, ?_⟩
      intro g hg
      cases hg
      exact ⟨hat.2.1, h2⟩
    have hbal := room i hf (c := t.c) rfl
    have hle := fulfil_le { m with active := m.active.eraseIdx k } q
    have h0 : FrameOK ({ m with active := m.active.eraseIdx k }.fulfil q) (.ret t none) := by
      refine ⟨⟨s, hle.log _ h1, hle.done s hat.2.1 h2⟩, by simp, ?_, fun _ => rfl⟩
      intro g hg
      rw [h3] at hg
      cases hg
    constructor
    · exact i1.att
    · exact i1.uniq
    · exact i1.one
    · exact i1.stored
    · exact i1.queued
    · exact i1.started
    · intro c
      have hb := i1.balance c
      unfold M.fins M.acts M.starts at *
      dsimp only
      rw [fulfil_log, fulfil_active] at *
      rw [List.countP_cons]
      by_cases hc : t.c = c
      · subst hc
        simp only [Frame.tick, beq_self_eq_true, if_true]
        exact hbal
      · have : (Frame.ret t none).tick ≠ some c := by simpa [Frame.tick] using hc
        simp only [Frame.tick, Option.some_beq_some, beq_iff_eq, hc, if_false]
        exact hb
    · intro f hf
      rcases List.mem_cons.1 hf with rfl | hf
      · exact h0
      · exact i1.frames f hf
    · exact i1.gives
    · exact i1.done
    · exact i1.proms
    · exact i1.futs

theorem get_mem {l : List (Option Nat)} {i s : Nat} (h : l[i]? = some (some s)) : some s ∈ l :=
  List.mem_of_getElem? h

theorem inv_step {m m' : M} (i : Inv m) {op : Op} (h : step m op = some m') (hu' : m'.ub = false) :
    Inv m' := by
  unfold step at h
  split at h
  · cases h
  cases op with
  | newPair l =>
    simp only [Option.some.injEq] at h
    subst h
    exact inv_new i l
  | invalid =>
    simp only [Option.some.injEq] at h
    subst h
    refine inv_objs i _ _ _ _ (Nat.le_refl _) ?_ ?_ i.frames (fun _ => Nat.le_refl _)
    · intro s hs
      rcases mem_app hs with hs | hs
      · exact i.proms s hs
      · cases hs
    · intro s hs
      rcases mem_app hs with hs | hs
      · exact i.futs s hs
      · cases hs
  | copyP a =>
    simp only [Option.map_eq_some_iff] at h
    obtain ⟨x, hx, rfl⟩ := h
    refine inv_objs i _ _ _ _ (Nat.le_refl _) ?_ i.futs i.frames (fun _ => Nat.le_refl _)
    intro s hs
    rcases mem_app hs with hs | hs
    · exact i.proms s hs
    · subst hs
      exact i.proms s (get_mem hx)
  | copyF a =>
    simp only [Option.map_eq_some_iff] at h
    obtain ⟨x, hx, rfl⟩ := h
    refine inv_objs i _ _ _ _ (Nat.le_refl _) i.proms ?_ i.frames (fun _ => Nat.le_refl _)
    intro s hs
    rcases mem_app hs with hs | hs
    · exact i.futs s hs
    · subst hs
      exact i.futs s (get_mem hx)
  | fulfil a =>
    dsimp only at h
    split at h
    · cases h
    · simp only [Option.some.injEq] at h
      subst h
      exact inv_say i _ (by simp) (by simp) (by simp)
    · rename_i s hs
      simp only [Option.some.injEq] at h
      subst h
      have hp := i.proms s (get_mem hs)
      have k := inv_fulfil i hp.1 (fun c hc => by rw [hp.2] at hc; cases hc)
      refine inv_objs k _ _ _ _ (Nat.le_refl _) ?_ k.futs k.frames (fun _ => Nat.le_refl _)
      intro b hb
      have := mem_set_none hb
      rw [← fulfil_proms m s] at this
      exact k.proms b this
  | «then» a isF =>
    dsimp only at h
    split at h
    · cases h
    · rename_i s hs
      simp only [Option.some.injEq] at h
      subst h
      have k : Inv { m with futs := m.futs.set a none } :=
        inv_objs i m.proms _ m.active _ (Nat.le_refl _) i.proms (fun b hb => i.futs b (mem_set_none hb))
          i.frames (fun _ => Nat.le_refl _)
      refine inv_thenF k ?_ (by cases isF <;> trivial) hu'
      intro b hb
      subst hb
      exact i.futs b (get_mem hs)
  | thenP a b =>
    dsimp only at h
    split at h
    · rename_i s q hs hq
      simp only [Option.some.injEq] at h
      subst h
      have k : Inv { m with futs := m.futs.set a none, proms := m.proms.set b none } :=
        inv_objs i _ _ m.active _ (Nat.le_refl _) (fun b hb => i.proms b (mem_set_none hb))
          (fun b hb => i.futs b (mem_set_none hb)) i.frames (fun _ => Nat.le_refl _)
      refine inv_thenF k ?_ (i.proms q (get_mem hq)) hu'
      intro b hb
      subst hb
      exact i.futs b (get_mem hs)
    · cases h
  | also a b =>
    dsimp only at h
    split at h
    · rename_i s g hs hg
      split at h
      · cases h
      · simp only [Option.some.injEq] at h
        subst h
        have k : Inv { m with futs := (m.futs.set b none).set a none } :=
          inv_objs i m.proms _ m.active _ (Nat.le_refl _) i.proms
            (fun b hb => i.futs b (mem_set_none (mem_set_none hb))) i.frames (fun _ => Nat.le_refl _)
        refine inv_thenF k ?_ ?_ hu'
        · intro b hb
          subst hb
          exact i.futs b (get_mem hs)
        · cases g with
          | none => trivial
          | some g => exact i.futs g (get_mem hg)
    · cases h
  | run l =>
    dsimp only at h
    split at h
    · cases h
    · rename_i t q hq
      simp only [Option.some.injEq] at h
      subst h
      exact inv_run i hq
  | retV k =>
    dsimp only at h
    split at h
    · rename_i t ht
      split at h
      · rename_i hfn
        simp only [Option.some.injEq] at h
        subst h
        have hok := i.frames _ (List.mem_of_getElem? ht)
        refine inv_objs i m.proms m.futs _ m.nextC (Nat.le_refl _) i.proms i.futs ?_ ?_
        · intro f hf
          rcases List.mem_cons.1 hf with rfl | hf
          · exact ⟨hok, by simp, (by intro g hg; rw [hfn] at hg; cases hg), fun _ => rfl⟩
          · exact i.frames f (List.mem_of_mem_eraseIdx hf)
        · intro c
          have := acts_erase_eq ht c
          rw [List.countP_cons]
          unfold M.acts
          rw [← this]
          simp [Frame.tick]
      · cases h
    · rename_i ht
      simp only [Option.some.injEq] at h
      subst h
      refine inv_objs i m.proms _ _ m.nextC (Nat.le_refl _) i.proms ?_
        (fun f hf => i.frames f (List.mem_of_mem_eraseIdx hf)) (acts_erase m.active k)
      intro s hs
      rcases mem_app hs with hs | hs
      · exact i.futs s hs
      · cases hs
    · cases h
  | retF k a =>
    dsimp only at h
    split at h
    · rename_i t s ht hs
      split at h
      · rename_i hfn
        simp only [Option.some.injEq] at h
        subst h
        have hok := i.frames _ (List.mem_of_getElem? ht)
        refine inv_objs i m.proms _ _ m.nextC (Nat.le_refl _) i.proms
          (fun b hb => i.futs b (mem_set_none hb)) ?_ ?_
        · intro f hf
          rcases List.mem_cons.1 hf with rfl | hf
          · refine ⟨hok, ?_, (by intro g hg; rw [hfn] at hg; cases hg), (by intro e; rw [hfn] at e; cases e)⟩
            intro g hg
            simp at hg
            subst hg
            exact i.futs g (get_mem hs)
          · exact i.frames f (List.mem_of_mem_eraseIdx hf)
        · intro c
          have := acts_erase_eq ht c
          rw [List.countP_cons]
          unfold M.acts
          rw [← this]
          simp [Frame.tick]
      · cases h
    · rename_i s ht hs
      simp only [Option.some.injEq] at h
      subst h
      refine inv_objs i m.proms _ _ m.nextC (Nat.le_refl _) i.proms ?_
        (fun f hf => i.frames f (List.mem_of_mem_eraseIdx hf)) (acts_erase m.active k)
      intro b hb
      rcases mem_app hb with hb | hb
      · exact i.futs b (mem_set_none hb)
      · subst hb
        exact i.futs b (get_mem hs)
    · cases h
  | raise k =>
    dsimp only at h
    split at h
    · simp only [Option.some.injEq] at h
      subst h
      exact inv_erase i k
    · simp only [Option.some.injEq] at h
      subst h
      exact inv_erase i k
    · cases h
  | lib k =>
    dsimp only at h
    split at h
    · rename_i f hf
      exact inv_lib i hf h hu'
    · cases h

theorem inv_start : Inv start := by
  constructor <;> simp [start, M.fins, M.acts, M.starts]

theorem step_ub {m m' : M} {op : Op} (h : step m op = some m') : m.ub = false := by
  unfold step at h
  split at h
  · cases h
  · simpa using ‹¬m.ub = true›

theorem Reach.inv {m : M} (r : Reach m) : m.ub = false → Inv m := by
  induction r with
  | start => intro _; exact inv_start
  | step op hr h ih =>
    intro hu
    exact inv_step (ih (step_ub h)) h hu

end Verif.Future
