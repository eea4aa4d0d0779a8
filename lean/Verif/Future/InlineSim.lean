import Verif.Future.Inline
import Verif.Future.Linear

/-! Futures over loops that run functions inside of `post` do what they do over loops that queue. -/

namespace Verif.Future

/-- The user code and the closures on the stack. -/
def codes : List KF → List Frame
  | [] => []
  | .code f :: st => f :: codes st
  | _ :: st => codes st

/-- A callback was attached to promise state `s`. -/
def HasCb (m : M) (s : Nat) : Prop := ∃ c p fn, Ev.attach c s p fn ∈ m.log

/-- The state `m` of the model with queues that corresponds to `k`.  Promises whose call is under way, or
was left by an exception, are fulfilled there. -/
structure Sim (k : K) (m : M) : Prop where
  size : k.m.size = m.size
  nextC : k.m.nextC = m.nextC
  log : k.m.log = m.log
  proms : k.m.proms = m.proms
  futs : k.m.futs = m.futs
  queue : k.m.queue = m.queue
  loop : ∀ s, (k.m.cell s).loop = (m.cell s).loop
  src : ∀ s, (k.m.cell s).src = (m.cell s).src
  cb : ∀ s, (k.m.cell s).cb = (m.cell s).cb
  done : ∀ s, (k.m.cell s).done = true → (m.cell s).done = true
  limbo : ∀ s, (m.cell s).done = true → (k.m.cell s).done = false → HasCb m s
  lock : ∀ s, k.locked s = true → (m.cell s).done = true ∧ HasCb m s
  frames : (codes k.stack).Sublist m.active
  called : ∀ s i, KF.called s i ∈ k.stack → (m.cell s).done = true ∧ HasCb m s

theorem sub_split {α : Type} {f : α} {rest l : List α} (h : (f :: rest).Sublist l) :
    ∃ n, l[n]? = some f ∧ rest.Sublist (l.eraseIdx n) := by
  induction l with
  | nil => cases h
  | cons a l ih =>
    cases h with
    | cons _ h =>
      obtain ⟨n, h1, h2⟩ := ih h
      exact ⟨n + 1, by simpa using h1, by simpa using List.Sublist.cons _ h2⟩
    | cons_cons _ h => exact ⟨0, rfl, by simpa using h⟩

theorem post_codes (inl : Nat → Bool) (k : K) (l : Nat) (t : Task) :
    codes (k.post inl l t).stack = codes k.stack := by
  unfold K.post
  dsimp only
  split <;> rfl

theorem post_m (inl : Nat → Bool) (k : K) (l : Nat) (t : Task) : (k.post inl l t).m = k.m.post l t := by
  unfold K.post
  dsimp only
  split <;> rfl

theorem post_locked (inl : Nat → Bool) (k : K) (l : Nat) (t : Task) :
    (k.post inl l t).locked = k.locked := by
  unfold K.post
  dsimp only
  split <;> rfl

theorem post_bad (inl : Nat → Bool) (k : K) (l : Nat) (t : Task) : (k.post inl l t).bad = k.bad := by
  unfold K.post
  dsimp only
  split <;> rfl

theorem post_called (inl : Nat → Bool) (k : K) (l : Nat) (t : Task) {s : Nat} {i : Option Nat}
    (h : KF.called s i ∈ (k.post inl l t).stack) : KF.called s i ∈ k.stack := by
  unfold K.post at h
  dsimp only at h
  split at h
  · simpa using h
  · exact h

theorem sim_fulfil {inl : Nat → Bool} {k : K} {m : M} (h : Sim k m) {s : Nat} {i : Option Nat}
    (hl : k.locked s = false) (hd : (m.cell s).done = false)
    (hcb : ∀ t, (m.cell s).cb = some t → HasCb m s) :
    Sim (k.fulfil inl s i) (m.fulfil s) ∧ (k.fulfil inl s i).bad = k.bad := by
  have hkd : (k.m.cell s).done = false := by
    cases hk : (k.m.cell s).done with
    | false => rfl
    | true => rw [h.done s hk] at hd; cases hd
  have hcell : ∀ a, (m.fulfil s).cell a = if a = s then { m.cell s with done := true, cb := none }
      else m.cell a := fulfil_cell m s
  have hlog := fulfil_log m s
  have hmono : ∀ a, (m.cell a).done = true → ((m.fulfil s).cell a).done = true := by
    intro a ha
    rw [hcell]
    split
    · rfl
    · exact ha
  have hcbm : ∀ {a}, HasCb m a → HasCb (m.fulfil s) a := by
    intro a ⟨c, p, fn, ha⟩
    exact ⟨c, p, fn, by rw [hlog]; exact ha⟩
  cases hc : (m.cell s).cb with
  | none =>
    have hkc : (k.m.cell s).cb = none := by rw [h.cb]; exact hc
    have e : k.fulfil inl s i = { k with
        m := { k.m with cell := upd k.m.cell s { k.m.cell s with done := true, cb := none } } } := by
      unfold K.fulfil
      rw [hl]
      dsimp only
      simp only [hkd, hkc]
      rfl
    have em : m.fulfil s = { m with cell := upd m.cell s { m.cell s with done := true, cb := none } } := by
      unfold M.fulfil
      dsimp only
      rw [hd, hc]
    rw [e]
    refine ⟨⟨?_, ?_, ?_, ?_, ?_, ?_, ?_, ?_, ?_, ?_, ?_, ?_, ?_, ?_⟩, rfl⟩
    · rw [fulfil_size]; exact h.size
    · rw [fulfil_nextC]; exact h.nextC
    · rw [hlog]; exact h.log
    · rw [fulfil_proms]; exact h.proms
    · rw [fulfil_futs]; exact h.futs
    · rw [em]; exact h.queue
    · intro a
      rw [hcell]
      simp only [upd]
      split
      · exact h.loop s
      · exact h.loop a
    · intro a
      rw [hcell]
      simp only [upd]
      split
      · exact h.src s
      · exact h.src a
    · intro a
      rw [hcell]
      simp only [upd]
      split
      · rfl
      · exact h.cb a
    · intro a ha
      rw [hcell]
      split
      · rfl
      · rename_i hne
        simp only [upd, if_neg hne] at ha
        exact h.done a ha
    · intro a ha hka
      rw [hcell] at ha
      by_cases hne : a = s
      · simp only [upd, if_pos hne] at hka
        cases hka
      · rw [if_neg hne] at ha
        simp only [upd, if_neg hne] at hka
        exact hcbm (h.limbo a ha hka)
    · intro a ha
      exact ⟨hmono a (h.lock a ha).1, hcbm (h.lock a ha).2⟩
    · rw [fulfil_active]; exact h.frames
    · intro a j ha
      exact ⟨hmono a (h.called a j ha).1, hcbm (h.called a j ha).2⟩
  | some t =>
    have hkc : (k.m.cell s).cb = some t := by rw [h.cb]; exact hc
    have e : k.fulfil inl s i = K.post inl { k with
        m := { k.m with cell := upd k.m.cell s { k.m.cell s with cb := none } }
        locked := upd k.locked s true
        stack := .called s i :: k.stack
        spent := i.toList ++ k.spent } (k.m.cell s).loop t := by
      unfold K.fulfil
      rw [hl]
      dsimp only
      simp only [hkd, hkc]
      rfl
    have em : m.fulfil s = { m.post (m.cell s).loop t with
        cell := upd m.cell s { m.cell s with done := true, cb := none } } := by
      unfold M.fulfil
      dsimp only
      rw [hd, hc]
    have hs : HasCb m s := hcb t hc
    rw [e]
    refine ⟨⟨?_, ?_, ?_, ?_, ?_, ?_, ?_, ?_, ?_, ?_, ?_, ?_, ?_, ?_⟩, ?_⟩
    · rw [fulfil_size, post_m]; exact h.size
    · rw [fulfil_nextC, post_m]; exact h.nextC
    · rw [hlog, post_m]; exact h.log
    · rw [fulfil_proms, post_m]; exact h.proms
    · rw [fulfil_futs, post_m]; exact h.futs
    · rw [em, post_m]
      simp only [M.post]
      rw [h.queue, h.loop]
    · intro a
      rw [hcell, post_m]
      simp only [M.post, upd]
      split
      · exact h.loop s
      · exact h.loop a
    · intro a
      rw [hcell, post_m]
      simp only [M.post, upd]
      split
      · exact h.src s
      · exact h.src a
    · intro a
      rw [hcell, post_m]
      simp only [M.post, upd]
      split
      · rfl
      · exact h.cb a
    · intro a ha
      rw [hcell]
      split
      · rfl
      · rename_i hne
        rw [post_m] at ha
        simp only [M.post, upd, if_neg hne] at ha
        exact h.done a ha
    · intro a ha hka
      by_cases hne : a = s
      · subst hne
        exact hcbm hs
      · rw [hcell, if_neg hne] at ha
        rw [post_m] at hka
        simp only [M.post, upd, if_neg hne] at hka
        exact hcbm (h.limbo a ha hka)
    · intro a ha
      rw [post_locked] at ha
      by_cases hne : a = s
      · subst hne
        exact ⟨by rw [hcell, if_pos rfl], hcbm hs⟩
      · simp only [upd, if_neg hne] at ha
        exact ⟨hmono a (h.lock a ha).1, hcbm (h.lock a ha).2⟩
    · rw [fulfil_active, post_codes]; exact h.frames
    · intro a j ha
      have ha := post_called _ _ _ _ ha
      rcases List.mem_cons.1 ha with e | ha
      · cases e
        exact ⟨by rw [hcell, if_pos rfl], hcbm hs⟩
      · exact ⟨hmono a (h.called a j ha).1, hcbm (h.called a j ha).2⟩
    · rw [post_bad]

theorem sim_attach {inl : Nat → Bool} {k : K} {m : M} (h : Sim k m) {s : Nat} {fn : Fn}
    (hs : s < m.size) (hl : k.locked s = false) (hc : (m.cell s).cb = none)
    (hd : (k.m.cell s).done = (m.cell s).done) (hu : m.ub = false)
    (hb : ∀ a, HasCb m a → a < m.size) :
    Sim (k.attach inl s fn) (m.attach s fn) ∧ (k.attach inl s fn).bad = k.bad := by
  have hkc : (k.m.cell s).cb = none := by rw [h.cb]; exact hc
  have hu' : (m.attach s fn).ub = false := attach_safe hu (by intro t; rw [hc]; simp)
  have hcell := attach_cell (fn := fn) hs hu'
  have hlog := attach_log m s fn
  have hmono : ∀ a, a < m.size → (m.cell a).done = true → ((m.attach s fn).cell a).done = true :=
    (attach_le hs hu').done
  have hcbm : ∀ {a}, HasCb m a → HasCb (m.attach s fn) a := by
    intro a ⟨c, p, fn', ha⟩
    exact ⟨c, p, fn', by rw [hlog]; exact List.mem_append_left _ ha⟩
  have hself : HasCb (m.attach s fn) s :=
    ⟨m.nextC, m.size, fn, by rw [hlog]; exact List.mem_append_right _ (List.mem_singleton.2 rfl)⟩
  have hq := attach_queue (fn := fn) hu'
  have hsz : s ≠ m.size := by omega
  cases hdm : (m.cell s).done with
  | true =>
    have hkd : (k.m.cell s).done = true := by rw [hd]; exact hdm
    have e : k.attach inl s fn = K.post inl { k with
        m := { k.m with
          size := k.m.size + 1
          nextC := k.m.nextC + 1
          cell := upd k.m.cell k.m.size ⟨(k.m.cell s).loop, false, none, some k.m.nextC⟩
          log := k.m.log ++ [.attach k.m.nextC s k.m.size fn] }
        locked := upd k.locked s true
        stack := .attached s :: k.stack } (k.m.cell s).loop ⟨k.m.nextC, k.m.size, fn⟩ := by
      unfold K.attach
      dsimp only
      rw [hkc, hl, hkd]
      rfl
    rw [e]
    refine ⟨⟨?_, ?_, ?_, ?_, ?_, ?_, ?_, ?_, ?_, ?_, ?_, ?_, ?_, ?_⟩, ?_⟩
    · rw [attach_size, post_m]; simp only [M.post]; rw [h.size]
    · rw [attach_nextC, post_m]; simp only [M.post]; rw [h.nextC]
    · rw [hlog, post_m]; simp only [M.post]; rw [h.log, h.nextC, h.size]
    · rw [attach_proms, post_m]; exact h.proms
    · rw [attach_futs, post_m]; exact h.futs
    · funext l
      rw [hq l, post_m]
      simp only [M.post, upd]
      rw [h.queue, h.loop, h.nextC, h.size, hdm]
      by_cases e : l = (m.cell s).loop
      · simp [e]
      · simp [e]
    · intro a
      rw [hcell, post_m]
      simp only [M.post, upd, h.size, hdm]
      split
      · exact h.loop s
      · simp [h.loop a]
    · intro a
      rw [hcell, post_m]
      simp only [M.post, upd, h.size, hdm]
      split
      · rw [h.nextC]
      · simp [h.src a]
    · intro a
      rw [hcell, post_m]
      simp only [M.post, upd, h.size, hdm]
      split
      · rfl
      · simp [h.cb a]
    · intro a ha
      rw [post_m] at ha
      simp only [M.post, upd, h.size] at ha
      rw [hcell]
      split at ha
      · cases ha
      · rename_i hne
        rw [if_neg hne, hdm]
        simpa using h.done a ha
    · intro a ha hka
      rw [post_m] at hka
      simp only [M.post, upd, h.size] at hka
      rw [hcell] at ha
      split at ha
      · cases ha
      · rename_i hne
        rw [if_neg hne] at hka
        rw [hdm] at ha
        exact hcbm (h.limbo a (by simpa using ha) hka)
    · intro a ha
      rw [post_locked] at ha
      by_cases hne : a = s
      · subst hne
        exact ⟨hmono a hs hdm, hself⟩
      · simp only [upd, if_neg hne] at ha
        exact ⟨hmono a (hb a (h.lock a ha).2) (h.lock a ha).1, hcbm (h.lock a ha).2⟩
    · rw [attach_active, post_codes]; exact h.frames
    · intro a j ha
      have ha := post_called _ _ _ _ ha
      rcases List.mem_cons.1 ha with e | ha
      · cases e
      · have h0 := h.called a j ha
        exact ⟨hmono a (hb a h0.2) h0.1, hcbm h0.2⟩
    · rw [post_bad]
  | false =>
    have hkd : (k.m.cell s).done = false := by rw [hd]; exact hdm
    have e : k.attach inl s fn = { k with
        m := { k.m with
          size := k.m.size + 1
          nextC := k.m.nextC + 1
          cell := upd (upd k.m.cell k.m.size ⟨(k.m.cell s).loop, false, none, some k.m.nextC⟩) s
            { k.m.cell s with cb := some ⟨k.m.nextC, k.m.size, fn⟩ }
          log := k.m.log ++ [.attach k.m.nextC s k.m.size fn] } } := by
      unfold K.attach
      dsimp only
      rw [hkc, hl, hkd]
      rfl
    rw [e]
    refine ⟨⟨?_, ?_, ?_, ?_, ?_, ?_, ?_, ?_, ?_, ?_, ?_, ?_, ?_, ?_⟩, rfl⟩
    · rw [attach_size]; dsimp only; rw [h.size]
    · rw [attach_nextC]; dsimp only; rw [h.nextC]
    · rw [hlog]; dsimp only; rw [h.log, h.nextC, h.size]
    · rw [attach_proms]; exact h.proms
    · rw [attach_futs]; exact h.futs
    · funext l
      rw [hq l, hdm]
      simp [h.queue]
    · intro a
      rw [hcell]
      simp only [upd, h.size, hdm]
      by_cases h1 : a = s
      · subst h1; simp [hsz, h.loop]
      · by_cases h2 : a = m.size
        · subst h2; simp [h1, h.loop]
        · simp [h1, h2, h.loop]
    · intro a
      rw [hcell]
      simp only [upd, h.size, hdm]
      by_cases h1 : a = s
      · subst h1; simp [hsz, h.src]
      · by_cases h2 : a = m.size
        · subst h2; simp [h1, h.nextC]
        · simp [h1, h2, h.src]
    · intro a
      rw [hcell]
      simp only [upd, h.size, h.nextC, hdm]
      by_cases h1 : a = s
      · subst h1; simp [hsz]
      · by_cases h2 : a = m.size
        · subst h2; simp [h1]
        · simp [h1, h2, h.cb]
    · intro a ha
      rw [hcell]
      simp only [upd, h.size] at ha
      by_cases h1 : a = s
      · subst h1
        rw [if_pos rfl] at ha
        dsimp only at ha
        rw [hkd] at ha
        cases ha
      · rw [if_neg h1] at ha
        by_cases h2 : a = m.size
        · rw [if_pos h2] at ha
          cases ha
        · rw [if_neg h2] at ha
          simpa [h1, h2] using h.done a ha
    · intro a ha hka
      rw [hcell] at ha
      simp only [upd, h.size] at hka
      by_cases h1 : a = s
      · subst h1
        exact hself
      · rw [if_neg h1] at hka
        by_cases h2 : a = m.size
        · rw [if_pos h2] at ha
          cases ha
        · rw [if_neg h2] at hka
          exact hcbm (h.limbo a (by simpa [h1, h2] using ha) hka)
    · intro a ha
      exact ⟨hmono a (hb a (h.lock a ha).2) (h.lock a ha).1, hcbm (h.lock a ha).2⟩
    · rw [attach_active]; exact h.frames
    · intro a j ha
      have h0 := h.called a j ha
      exact ⟨hmono a (hb a h0.2) h0.1, hcbm h0.2⟩

theorem sim_objs {k : K} {m : M} (h : Sim k m) (ps fs : List (Option Nat)) :
    Sim { k with m := { k.m with proms := ps, futs := fs } } { m with proms := ps, futs := fs } :=
  ⟨h.size, h.nextC, h.log, rfl, rfl, h.queue, h.loop, h.src, h.cb, h.done, h.limbo, h.lock, h.frames,
    h.called⟩

theorem sim_say {k : K} {m : M} (h : Sim k m) (e : Ev) :
    Sim { k with m := k.m.say e } (m.say e) := by
  have hcb : ∀ {a}, HasCb m a → HasCb (m.say e) a :=
    fun ⟨c, p, fn, h⟩ => ⟨c, p, fn, List.mem_append_left _ h⟩
  exact ⟨h.size, h.nextC, by show k.m.log ++ [e] = m.log ++ [e]; rw [h.log], h.proms, h.futs, h.queue,
    h.loop, h.src, h.cb, h.done, fun a x y => hcb (h.limbo a x y),
    fun a x => ⟨(h.lock a x).1, hcb (h.lock a x).2⟩, h.frames,
    fun a j x => ⟨(h.called a j x).1, hcb (h.called a j x).2⟩⟩

theorem sim_stack {k : K} {m : M} (h : Sim k m) {st : List KF} {act : List Frame}
    (h1 : (codes st).Sublist act) (h2 : ∀ s i, KF.called s i ∈ st → KF.called s i ∈ k.stack) :
    Sim { k with stack := st } { m with active := act } :=
  ⟨h.size, h.nextC, h.log, h.proms, h.futs, h.queue, h.loop, h.src, h.cb, h.done, h.limbo, h.lock, h1,
    fun s i x => h.called s i (h2 s i x)⟩

theorem sim_tick {k : K} {m : M} (h : Sim k m) {c : Nat} {b : Bool} :
    Sim { k with
      m := { k.m with nextC := k.m.nextC + 1, log := k.m.log ++ [.now k.m.nextC] }
      stack := .code (.imm c b) :: k.stack } { m with
        active := .imm c b :: m.active
        nextC := m.nextC + 1
        log := m.log ++ [.now m.nextC] } := by
  have hcb : ∀ {a}, HasCb m a → HasCb { m with
        active := .imm c b :: m.active
        nextC := m.nextC + 1
        log := m.log ++ [.now m.nextC] } a :=
    fun ⟨c, p, fn, h⟩ => ⟨c, p, fn, List.mem_append_left _ h⟩
  refine ⟨h.size, ?_, ?_, h.proms, h.futs, h.queue,
    h.loop, h.src, h.cb, h.done, fun a x y => hcb (h.limbo a x y),
    fun a x => ⟨(h.lock a x).1, hcb (h.lock a x).2⟩, h.frames.cons_cons _, ?_⟩
  · show k.m.nextC + 1 = m.nextC + 1
    rw [h.nextC]
  · show k.m.log ++ [_] = m.log ++ [_]
    rw [h.log, h.nextC]
  · intro a j x
    have x : KF.called a j ∈ k.stack := by simpa using x
    exact ⟨(h.called a j x).1, hcb (h.called a j x).2⟩

/-- The next task of a loop is run. -/
theorem sim_run {k : K} {m : M} (h : Sim k m) {l : Nat} {t : Task} {q : List Task} :
    Sim { k with
      m := { k.m with queue := upd k.m.queue l q, log := k.m.log ++ [.start t.c] }
      stack := .code t.frame :: k.stack } { m with
        queue := upd m.queue l q
        active := t.frame :: m.active
        log := m.log ++ [.start t.c] } := by
  have hcb : ∀ {a}, HasCb m a → HasCb { m with
        queue := upd m.queue l q
        active := t.frame :: m.active
        log := m.log ++ [.start t.c] } a :=
    fun ⟨c, p, fn, h⟩ => ⟨c, p, fn, List.mem_append_left _ h⟩
  refine ⟨h.size, h.nextC, ?_, h.proms, h.futs, ?_,
    h.loop, h.src, h.cb, h.done, fun a x y => hcb (h.limbo a x y),
    fun a x => ⟨(h.lock a x).1, hcb (h.lock a x).2⟩, h.frames.cons_cons _, ?_⟩
  · show k.m.log ++ [_] = m.log ++ [_]
    rw [h.log]
  · show upd k.m.queue l q = upd m.queue l q
    rw [h.queue]
  · intro a j x
    have x : KF.called a j ∈ k.stack := by simpa using x
    exact ⟨(h.called a j x).1, hcb (h.called a j x).2⟩

/-- The future is free: it can be used. -/
theorem sim_free {k : K} {m : M} (h : Sim k m) (r : ReachM m) {x : Place} {s : Nat} (hx : Holds m x s) :
    k.locked s = false ∧ (k.m.cell s).done = (m.cell s).done ∧ (m.cell s).cb = none := by
  obtain ⟨hu, lf, lp⟩ := r.lin
  have i := r.reach.inv hu
  have hn : ¬ HasCb m s := fun ⟨c, p, fn, ha⟩ => lf.free x s hx _ _ _ ha
  refine ⟨?_, ?_, ?_⟩
  · cases hl : k.locked s with
    | false => rfl
    | true => exact absurd (h.lock s hl).2 hn
  · cases hk : (k.m.cell s).done with
    | true => exact (h.done s hk).symm
    | false =>
      cases hm : (m.cell s).done with
      | false => rfl
      | true => exact absurd (h.limbo s hm hk) hn
  · cases hc : (m.cell s).cb with
    | none => rfl
    | some t => exact absurd ⟨_, _, _, (i.stored s t hc).2.2⟩ hn

theorem sim_open {k : K} {m : M} (h : Sim k m) {s : Nat} (hd : (m.cell s).done = false) :
    k.locked s = false := by
  cases hl : k.locked s with
  | false => rfl
  | true => rw [(h.lock s hl).1] at hd; cases hd

theorem cb_has {m : M} (i : Inv m) {s : Nat} {t : Task} (h : (m.cell s).cb = some t) : HasCb m s :=
  ⟨_, _, _, (i.stored s t h).2.2⟩

theorem has_lt {m : M} (i : Inv m) {s : Nat} (h : HasCb m s) : s < m.size := by
  obtain ⟨c, p, fn, h⟩ := h
  exact (i.att _ _ _ _ h).2.1

/-- `then` with a function of the user or of `also`. -/
theorem sim_then {inl : Nat → Bool} {k : K} {m : M} (h : Sim k m) (hu : m.ub = false)
    {s : Option Nat} {fn : Fn} {j : Option Nat}
    (hs : ∀ a, s = some a → a < m.size ∧ k.locked a = false ∧
      (k.m.cell a).done = (m.cell a).done ∧ (m.cell a).cb = none)
    (hb : ∀ a, HasCb m a → a < m.size)
    (hf : s = none → ∀ q, fn = .prom q → (m.cell q).done = false ∧
      ∀ t, (m.cell q).cb = some t → HasCb m q) :
    Sim (k.thenF inl s fn j) (m.thenF s fn) ∧ (k.thenF inl s fn j).bad = k.bad := by
  cases s with
  | some s =>
    obtain ⟨h1, h2, h3, h4⟩ := hs s rfl
    obtain ⟨h5, h6⟩ := sim_attach (inl := inl) (fn := fn) h h1 h2 h4 h3 hu hb
    refine ⟨?_, h6⟩
    have := sim_objs h5 (k.attach inl s fn).m.proms ((k.attach inl s fn).m.futs ++ [some k.m.size])
    unfold K.thenF M.thenF
    dsimp only
    rw [← h5.futs, ← h.size]
    have e : m.attach s fn = { m.attach s fn with proms := (k.attach inl s fn).m.proms } := by
      rw [h5.proms]
    rw [e]
    exact this
  | none =>
    cases fn with
    | void =>
      have := sim_tick h (c := m.nextC) (b := false)
      refine ⟨?_, rfl⟩
      unfold K.thenF M.thenF
      dsimp only
      rw [h.nextC] at this ⊢
      exact this
    | fut =>
      have := sim_tick h (c := m.nextC) (b := true)
      refine ⟨?_, rfl⟩
      unfold K.thenF M.thenF
      dsimp only
      rw [h.nextC] at this ⊢
      exact this
    | prom q =>
      obtain ⟨h1, h2⟩ := hf rfl q rfl
      obtain ⟨h5, h6⟩ := sim_fulfil (inl := inl) (i := j) h (sim_open h h1) h1 h2
      refine ⟨?_, h6⟩
      have := sim_objs h5 (k.fulfil inl q j).m.proms ((k.fulfil inl q j).m.futs ++ [none])
      unfold K.thenF M.thenF
      dsimp only
      rw [← h5.futs]
      have e : m.fulfil q = { m.fulfil q with proms := (k.fulfil inl q j).m.proms } := by
        rw [h5.proms]
      rw [e]
      exact this
    | give g =>
      refine ⟨?_, rfl⟩
      unfold K.thenF M.thenF
      dsimp only
      rw [h.futs]
      have := sim_objs h m.proms (m.futs ++ [g])
      rw [← h.proms] at this
      have e : m = { m with proms := k.m.proms } := by rw [h.proms]
      rw [e]
      exact this

theorem sim_user {inl : Nat → Bool} {k k' : K} {m : M} (r : ReachM m) (h : Sim k m) (hb : k.bad = none)
    {op : UOp} (hop : KOp.copies (.user op) = false) (he : k.user inl op = some k') :
    k'.bad = some .misuse ∨ (k'.bad = none ∧ ∃ m', ReachM m' ∧ Sim k' m') := by
  obtain ⟨hu, lf, lp⟩ := r.lin
  have i := r.reach.inv hu
  have hlt := fun a => has_lt (s := a) i
  cases op with
  | newPair l =>
    simp only [K.user, Option.some.injEq] at he
    subst he
    refine Or.inr ⟨hb, _, r.step (.newPair l) rfl (by unfold step; rw [if_neg (by simp [hu])]), ?_⟩
    have hne : ∀ {a}, HasCb m a → a ≠ m.size := by
      intro a ha e
      have := hlt a ha
      omega
    refine ⟨?_, h.nextC, h.log, ?_, ?_, h.queue, ?_, ?_, ?_, ?_, ?_, ?_, h.frames, ?_⟩
    · dsimp only; rw [h.size]
    · dsimp only; rw [h.size, h.proms]
    · dsimp only; rw [h.size, h.futs]
    · intro a
      dsimp only
      rw [h.size]
      unfold upd
      split
      · rfl
      · exact h.loop a
    · intro a
      dsimp only
      rw [h.size]
      unfold upd
      split
      · rfl
      · exact h.src a
    · intro a
      dsimp only
      rw [h.size]
      unfold upd
      split
      · rfl
      · exact h.cb a
    · intro a ha
      dsimp only at ha ⊢
      rw [h.size] at ha
      unfold upd at ha ⊢
      split at ha
      · cases ha
      · rename_i hn
        rw [if_neg hn]
        exact h.done a ha
    · intro a ha hk
      dsimp only at ha hk
      rw [h.size] at hk
      unfold upd at ha hk
      split at ha
      · cases ha
      · rename_i hn
        rw [if_neg hn] at hk
        exact h.limbo a ha hk
    · intro a ha
      have h1 := h.lock a ha
      refine ⟨?_, h1.2⟩
      dsimp only
      unfold upd
      rw [if_neg (hne h1.2)]
      exact h1.1
    · intro a j ha
      have h1 := h.called a j ha
      refine ⟨?_, h1.2⟩
      dsimp only
      unfold upd
      rw [if_neg (hne h1.2)]
      exact h1.1
  | invalid =>
    simp only [K.user, Option.some.injEq] at he
    subst he
    refine Or.inr ⟨hb, _, r.step .invalid rfl (by unfold step; rw [if_neg (by simp [hu])]), ?_⟩
    rw [h.proms, h.futs]
    exact sim_objs h _ _
  | copyP => cases hop
  | copyF => cases hop
  | fulfil a =>
    simp only [K.user] at he
    split at he
    · cases he
      exact Or.inl rfl
    · rw [h.proms] at he
      split at he
      · cases he
      · rename_i hp
        cases he
        exact Or.inr ⟨hb, _, r.step (.fulfil a) rfl (by unfold step; rw [if_neg (by simp [hu])]; simp [hp]), sim_say h _⟩
      · rename_i s hp
        cases he
        have hd := (lp.obj a s hp).2
        have h0 : Sim { k with m := { k.m with proms := m.proms.set a none } }
            { m with proms := m.proms.set a none } := by
          have := sim_objs h (m.proms.set a none) m.futs
          rw [← h.futs] at this
          have e : m = { m with futs := k.m.futs } := by rw [h.futs]
          rw [e]
          exact this
        obtain ⟨h1, h2⟩ := sim_fulfil (inl := inl) (i := some a) (s := s) h0 (sim_open h hd) hd
          (fun t ht => cb_has i ht)
        refine Or.inr ⟨h2.trans hb, _, r.step (.fulfil a) rfl (by unfold step; rw [if_neg (by simp [hu])]; simp [hp]; rfl), ?_⟩
        have e : { m.fulfil s with proms := m.proms.set a none } =
            { m with proms := m.proms.set a none }.fulfil s := by
          unfold M.fulfil
          dsimp only
          split <;> rfl
        rw [e]
        exact h1
  | «then» a isF =>
    simp only [K.user] at he
    rw [h.futs] at he
    split at he
    · cases he
    · rename_i s hs
      cases he
      have h0 : Sim { k with m := { k.m with futs := m.futs.set a none } }
          { m with futs := m.futs.set a none } := by
        have := sim_objs h m.proms (m.futs.set a none)
        rw [← h.proms] at this
        have e : m = { m with proms := k.m.proms } := by rw [h.proms]
        rw [e]
        exact this
      obtain ⟨h1, h2⟩ := sim_then (inl := inl) (s := s) (fn := if isF then .fut else .void) (j := none) h0 hu
        (by
          intro b e
          subst e
          exact ⟨i.futs _ (get_mem hs), sim_free h r (x := .obj a) hs⟩)
        hlt (by
          intro _ q hq
          cases isF <;> cases hq)
      exact Or.inr ⟨h2.trans hb, _, r.step (.then a isF) rfl (by unfold step; rw [if_neg (by simp [hu])]; simp [hs]), h1⟩
  | thenP a b =>
    simp only [K.user] at he
    split at he
    · cases he
      exact Or.inl rfl
    · rw [h.futs, h.proms] at he
      split at he
      · rename_i s q hs hq
        cases he
        have h0 : Sim { k with m := { k.m with
              futs := m.futs.set a none
              proms := m.proms.set b none } }
            { m with futs := m.futs.set a none, proms := m.proms.set b none } :=
          sim_objs h (m.proms.set b none) (m.futs.set a none)
        have hd := (lp.obj b q hq).2
        obtain ⟨h1, h2⟩ := sim_then (inl := inl) (s := s) (fn := .prom q) (j := some b) h0 hu
          (by
            intro c e
            subst e
            exact ⟨i.futs _ (get_mem hs), sim_free h r (x := .obj a) hs⟩)
          hlt (by
            intro _ q' hq'
            cases hq'
            exact ⟨hd, fun t ht => cb_has i ht⟩)
        exact Or.inr ⟨h2.trans hb, _, r.step (.thenP a b) rfl (by unfold step; rw [if_neg (by simp [hu])]; simp [hs, hq]), h1⟩
      · cases he
  | also a b =>
    simp only [K.user] at he
    rw [h.futs] at he
    split at he
    · rename_i s g hs hg
      split at he
      · cases he
      · rename_i hab
        cases he
        have h0 : Sim { k with m := { k.m with futs := (m.futs.set b none).set a none } }
            { m with futs := (m.futs.set b none).set a none } := by
          have := sim_objs h m.proms ((m.futs.set b none).set a none)
          rw [← h.proms] at this
          have e : m = { m with proms := k.m.proms } := by rw [h.proms]
          rw [e]
          exact this
        obtain ⟨h1, h2⟩ := sim_then (inl := inl) (s := s) (fn := .give g) (j := none) h0 hu
          (by
            intro c e
            subst e
            exact ⟨i.futs _ (get_mem hs), sim_free h r (x := .obj a) hs⟩)
          hlt (by
            intro _ q' hq'
            cases hq')
        exact Or.inr ⟨h2.trans hb, _, r.step (.also a b) rfl
          (by unfold step; rw [if_neg (by simp [hu])]; simp [hs, hg, hab]), h1⟩
    · cases he
  | run l =>
    simp only [K.user] at he
    split at he
    · cases he
    · rw [h.queue] at he
      split at he
      · cases he
      · rename_i t q hq
        cases he
        refine Or.inr ⟨hb, _, r.step (.run l) rfl (by unfold step; rw [if_neg (by simp [hu])]; simp [hq]; rfl), ?_⟩
        have := sim_run h (l := l) (t := t) (q := q)
        rw [h.queue] at this
        exact this
  | retV =>
    simp only [K.user] at he
    split at he
    · rename_i t st hst
      split at he
      · rename_i hfn
        cases he
        have hF := h.frames
        rw [hst] at hF
        obtain ⟨n, h1, h2⟩ := sub_split hF
        refine Or.inr ⟨hb, _, r.step (.retV n) rfl (by unfold step; rw [if_neg (by simp [hu])]; simp [h1, hfn]; rfl), ?_⟩
        refine sim_stack h (st := .code (.ret t none) :: st) (h2.cons_cons _) ?_
        intro s j hj
        rw [hst]
        simpa using hj
      · cases he
    · rename_i c st hst
      cases he
      have hF := h.frames
      rw [hst] at hF
      obtain ⟨n, h1, h2⟩ := sub_split hF
      refine Or.inr ⟨hb, _, r.step (.retV n) rfl (by unfold step; rw [if_neg (by simp [hu])]; simp [h1]; rfl), ?_⟩
      have h3 := sim_stack h h2 (fun s j hj => by rw [hst]; exact List.mem_cons_of_mem _ hj)
      have := sim_objs h3 m.proms (m.futs ++ [none])
      dsimp only at this
      rw [← h.proms] at this
      have e : m.proms = k.m.proms := h.proms.symm
      rw [h.futs]
      simp only [e]
      exact this
    · cases he
  | retF a =>
    simp only [K.user] at he
    rw [h.futs] at he
    split at he
    · rename_i t st s hst hs
      split at he
      · rename_i hfn
        cases he
        have hF := h.frames
        rw [hst] at hF
        obtain ⟨n, h1, h2⟩ := sub_split hF
        refine Or.inr ⟨hb, _, r.step (.retF n a) rfl (by unfold step; rw [if_neg (by simp [hu])]; simp [h1, hs, hfn]; rfl), ?_⟩
        have h3 := sim_stack h (st := .code (.ret t (some s)) :: st) (h2.cons_cons _)
          (fun s j hj => by rw [hst]; simpa using hj)
        have := sim_objs h3 m.proms (m.futs.set a none)
        dsimp only at this
        have e : m.proms = k.m.proms := h.proms.symm
        simp only [e] at this ⊢
        exact this
      · cases he
    · rename_i c st s hst hs
      cases he
      have hF := h.frames
      rw [hst] at hF
      obtain ⟨n, h1, h2⟩ := sub_split hF
      refine Or.inr ⟨hb, _, r.step (.retF n a) rfl (by unfold step; rw [if_neg (by simp [hu])]; simp [h1, hs]; rfl), ?_⟩
      have h3 := sim_stack h h2 (fun s j hj => by rw [hst]; exact List.mem_cons_of_mem _ hj)
      have := sim_objs h3 m.proms (m.futs.set a none ++ [s])
      dsimp only at this
      have e : m.proms = k.m.proms := h.proms.symm
      simp only [e] at this ⊢
      exact this
    · cases he
  | raise =>
    simp only [K.user] at he
    split at he
    · rename_i f st hst
      cases he
      refine Or.inr ⟨hb, m, r, ?_⟩
      have hF := h.frames
      rw [hst] at hF
      have := sim_stack h (st := st) (act := m.active) ((List.sublist_cons_self _ _).trans hF)
        (fun s j hj => by rw [hst]; exact List.mem_cons_of_mem _ hj)
      exact ⟨this.size, this.nextC, this.log, this.proms, this.futs, this.queue, this.loop, this.src,
        this.cb, this.done, this.limbo, this.lock, this.frames, this.called⟩
    · cases he

theorem sim_unlock {k : K} {m : M} (h : Sim k m) {st : List KF} {s : Nat} {b : Nat → Bool}
    {sp : List Nat} (h1 : codes st = codes k.stack)
    (h2 : ∀ s i, KF.called s i ∈ st → KF.called s i ∈ k.stack) :
    Sim { k with locked := upd k.locked s false, stack := st, busy := b, spent := sp } m := by
  refine ⟨h.size, h.nextC, h.log, h.proms, h.futs, h.queue, h.loop, h.src, h.cb, h.done, h.limbo, ?_, ?_,
    fun s i x => h.called s i (h2 s i x)⟩
  · intro a ha
    dsimp only at ha
    unfold upd at ha
    split at ha
    · cases ha
    · exact h.lock a ha
  · dsimp only
    rw [h1]
    exact h.frames

theorem sim_lib {inl : Nat → Bool} {k k' : K} {m : M} (r : ReachM m) (h : Sim k m) (hb : k.bad = none)
    (he : k.lib inl = some k') : k'.bad = none ∧ ∃ m', ReachM m' ∧ Sim k' m' := by
  obtain ⟨hu, lf, lp⟩ := r.lin
  have i := r.reach.inv hu
  have hlt := fun a => has_lt (s := a) i
  have fulfils : ∀ (t : Task) (x : Option (Option Nat)) (st : List KF), (∀ g, x ≠ some (some g)) →
      k.stack = .code (.ret t x) :: st →
      ({ k with m := k.m.say (.finish t.c x), stack := st }.fulfil inl t.p none).bad = none ∧
      ∃ m', ReachM m' ∧ Sim ({ k with m := k.m.say (.finish t.c x), stack := st }.fulfil inl t.p none) m' := by
    intro t x st hx hst
    have hF := h.frames
    rw [hst] at hF
    obtain ⟨n, h1, h2⟩ := sub_split hF
    have hm := List.mem_of_getElem? h1
    have hd : (m.cell t.p).done = false := by
      cases hd : (m.cell t.p).done with
      | false => rfl
      | true =>
        obtain ⟨⟨b, h3, _⟩, _⟩ := i.frames _ hm
        obtain ⟨res, h4, _⟩ := i.done _ _ (i.att _ _ _ _ h3).2.2.1 (own_src i hm (Or.inr (Or.inl ⟨_, rfl⟩))) hd
        exact absurd h4 (i.unfinished (c := t.c) hm rfl _)
    have h3 := sim_say (sim_stack h h2 (fun s j hj => by rw [hst]; exact List.mem_cons_of_mem _ hj))
      (.finish t.c x)
    obtain ⟨h4, h5⟩ := sim_fulfil (inl := inl) (i := none) (s := t.p) h3 (sim_open h hd) hd (by
      intro t' ht'
      obtain ⟨c, p, fn, h6⟩ := cb_has i ht'
      exact ⟨c, p, fn, List.mem_append_left _ h6⟩)
    refine ⟨h5.trans hb, _, r.step (.lib n) rfl ?_, h4⟩
    unfold step
    rw [if_neg (by simp [hu])]
    simp only [h1]
    match x, hx with
    | none, _ => rfl
    | some none, _ => rfl
    | some (some g), hx => exact absurd rfl (hx g)
  unfold K.lib at he
  split at he
  · rename_i t st hst
    cases he
    exact fulfils t none st (by simp) hst
  · rename_i t st hst
    cases he
    exact fulfils t (some none) st (by simp) hst
  · rename_i t g st hst
    cases he
    have hF := h.frames
    rw [hst] at hF
    obtain ⟨n, h1, h2⟩ := sub_split hF
    have hm := List.mem_of_getElem? h1
    obtain ⟨x, hx⟩ := ret_held i h1
    obtain ⟨f1, f2, f3⟩ := sim_free h r hx
    have h3 := sim_say (sim_stack h h2 (fun s j hj => by rw [hst]; exact List.mem_cons_of_mem _ hj))
      (.finish t.c (some (some g)))
    obtain ⟨h4, h5⟩ := sim_attach (inl := inl) (fn := .prom t.p) (s := g) h3 (holds_lt i hx) f1 f3 f2 hu (by
      intro a ⟨c, p, fn, ha⟩
      rcases List.mem_append.1 ha with ha | ha
      · exact hlt a ⟨c, p, fn, ha⟩
      · rw [List.mem_singleton] at ha
        cases ha)
    refine ⟨h5.trans hb, _, r.step (.lib n) rfl ?_, h4⟩
    unfold step
    rw [if_neg (by simp [hu])]
    simp only [h1]
    rfl
  · rename_i q t st hst
    cases he
    have hF := h.frames
    rw [hst] at hF
    obtain ⟨n, h1, h2⟩ := sub_split hF
    have hm := List.mem_of_getElem? h1
    have hd := lp.sat _ _ hm
    have h3 := sim_stack h (st := .code (.ret t none) :: st) (act := .ret t none :: m.active.eraseIdx n)
      (List.Sublist.cons_cons (Frame.ret t none) h2)
      (fun s j hj => by rw [hst]; simpa using hj)
    obtain ⟨h4, h5⟩ := sim_fulfil (inl := inl) (i := none) (s := q) h3 (sim_open h hd) hd
      (fun t' ht' => cb_has i ht')
    refine ⟨h5.trans hb, _, r.step (.lib n) rfl ?_, h4⟩
    unfold step
    rw [if_neg (by simp [hu])]
    simp only [h1]
    have e : ({ m with active := m.active.eraseIdx n }.lib (.satisfy q t)) =
        some ({ m with active := .ret t none :: m.active.eraseIdx n }.fulfil q) := by
      simp only [M.lib]
      unfold M.fulfil
      dsimp only
      split <;> rfl
    exact e
  · rename_i l st hst
    split at he
    · cases he
      refine ⟨hb, m, r, ?_⟩
      have hF := h.frames
      rw [hst] at hF
      have := sim_stack h (st := st) (act := m.active) hF
        (fun s j hj => by rw [hst]; exact List.mem_cons_of_mem _ hj)
      exact ⟨this.size, this.nextC, this.log, this.proms, this.futs, this.queue, this.loop, this.src,
        this.cb, this.done, this.limbo, this.lock, this.frames, this.called⟩
    · rename_i t q hq
      cases he
      rw [h.queue] at hq
      refine ⟨hb, _, r.step (.run l) rfl (by unfold step; rw [if_neg (by simp [hu])]; simp [hq]; rfl), ?_⟩
      have := sim_run h (l := l) (t := t) (q := q)
      rw [hst] at this
      exact this
  · rename_i s j st hst
    cases he
    refine ⟨hb, m, r, ?_⟩
    have hc := h.called s j (by rw [hst]; exact List.mem_cons_self)
    have := sim_unlock h (st := st) (s := s) (b := k.busy) (sp := k.spent.filter fun i => some i ≠ j)
      (by rw [hst]; rfl) (fun s j hj => by rw [hst]; exact List.mem_cons_of_mem _ hj)
    have hcb : (m.cell s).cb = none := by
      cases hx : (m.cell s).cb with
      | none => rfl
      | some t =>
        have := (i.stored s t hx).2.1
        rw [hc.1] at this
        cases this
    refine ⟨this.size, this.nextC, this.log, this.proms, this.futs, this.queue, ?_, ?_, ?_, ?_, ?_,
      this.lock, this.frames, this.called⟩
    · intro a
      dsimp only
      unfold upd
      split
      · rename_i e; rw [e]; exact h.loop s
      · exact h.loop a
    · intro a
      dsimp only
      unfold upd
      split
      · rename_i e; rw [e]; exact h.src s
      · exact h.src a
    · intro a
      dsimp only
      unfold upd
      split
      · rename_i e; rw [e]; exact hcb.symm
      · exact h.cb a
    · intro a ha
      dsimp only at ha
      unfold upd at ha
      split at ha
      · rename_i e; rw [e]; exact hc.1
      · exact h.done a ha
    · intro a ha hk
      dsimp only at hk
      unfold upd at hk
      split at hk
      · cases hk
      · exact h.limbo a ha hk
  · rename_i s st hst
    cases he
    refine ⟨hb, m, r, ?_⟩
    exact sim_unlock h (st := st) (s := s) (b := k.busy) (sp := k.spent)
      (by rw [hst]; rfl) (fun s j hj => by rw [hst]; exact List.mem_cons_of_mem _ hj)
  · cases he

theorem sim_unwind {k k' : K} {m : M} (h : Sim k m) (he : k.unwind = some k') :
    k'.bad = k.bad ∧ Sim k' m := by
  unfold K.unwind at he
  split at he
  · cases he
  · rename_i l st hst
    cases he
    have hF := h.frames
    rw [hst] at hF
    have := sim_stack h (st := st) (act := m.active) hF
      (fun s j hj => by rw [hst]; exact List.mem_cons_of_mem _ hj)
    exact ⟨rfl, this.size, this.nextC, this.log, this.proms, this.futs, this.queue, this.loop, this.src,
      this.cb, this.done, this.limbo, this.lock, this.frames, this.called⟩
  · rename_i s j st hst
    cases he
    exact ⟨rfl, sim_unlock h (st := st) (s := s) (b := k.busy) (sp := k.spent)
      (by rw [hst]; rfl) (fun s j hj => by rw [hst]; exact List.mem_cons_of_mem _ hj)⟩
  · rename_i s st hst
    cases he
    exact ⟨rfl, sim_unlock h (st := st) (s := s) (b := k.busy) (sp := k.spent)
      (by rw [hst]; rfl) (fun s j hj => by rw [hst]; exact List.mem_cons_of_mem _ hj)⟩
  · rename_i f st hst
    cases he
    have hF := h.frames
    rw [hst] at hF
    have := sim_stack h (st := st) (act := m.active) ((List.sublist_cons_self _ _).trans hF)
      (fun s j hj => by rw [hst]; exact List.mem_cons_of_mem _ hj)
    exact ⟨rfl, this⟩

/-- Without copies: the only thing that goes wrong is the use of a promise object whose call has not
returned; until then, this is a run of the model with queues. -/
theorem KReachM.sim {inl : Nat → Bool} {k : K} (r : KReachM inl k) :
    k.bad = some .misuse ∨ (k.bad = none ∧ ∃ m, ReachM m ∧ Sim k m) := by
  induction r with
  | start =>
    refine Or.inr ⟨rfl, Future.start, .start, rfl, rfl, rfl, rfl, rfl, rfl, fun _ => rfl, fun _ => rfl,
      fun _ => rfl, fun _ h => h, ?_, ?_, List.Sublist.refl _, ?_⟩
    · intro _ h1 h2
      rw [show kstart.m = Future.start from rfl, h1] at h2
      cases h2
    · intro _ h; cases h
    · intro _ _ h; cases h
  | @step k k' op r hop he ih =>
    unfold kstep at he
    split at he
    · cases he
    · rename_i hbad
      have hb : k.bad = none := by
        cases hb : k.bad with
        | none => rfl
        | some x => rw [hb] at hbad; exact absurd rfl hbad
      rcases ih with ih | ⟨_, m, rm, h⟩
      · rw [hb] at ih; cases ih
      · cases op with
        | user op =>
          dsimp only at he
          split at he
          · exact sim_user rm h hb hop he
          · cases he
        | lib =>
          dsimp only at he
          split at he
          · exact Or.inr (sim_lib rm h hb he)
          · cases he
        | unwind =>
          dsimp only at he
          split at he
          · obtain ⟨h1, h2⟩ := sim_unwind h he
            exact Or.inr ⟨h1.trans hb, m, rm, h2⟩
          · cases he
        | «catch» =>
          dsimp only at he
          split at he
          · cases he
            exact Or.inr ⟨hb, m, rm, h.size, h.nextC, h.log, h.proms, h.futs, h.queue, h.loop, h.src,
              h.cb, h.done, h.limbo, h.lock, h.frames, h.called⟩
          · cases he

end Verif.Future
