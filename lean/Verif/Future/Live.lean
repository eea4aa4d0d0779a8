import Verif.Future.Steps

/-! Promises that closures hold are fulfilled. -/

namespace Verif.Future

/-- Of the proof: promises that closures hold are fulfilled when they have finished. -/
structure Live (m : M) : Prop where
  void : ∀ a s p fn r, Ev.attach a s p fn ∈ m.log → Ev.finish a r ∈ m.log →
    (∀ g, r ≠ some (some g)) → (m.cell p).done = true
  pass : ∀ a s p fn g, Ev.attach a s p fn ∈ m.log → Ev.finish a (some (some g)) ∈ m.log →
    ∃ c q, Ev.attach c g q (.prom p) ∈ m.log
  sat : ∀ c s p q r, Ev.attach c s p (.prom q) ∈ m.log → Ev.finish c r ∈ m.log →
    (m.cell q).done = true
  ret : ∀ t r, Frame.ret t r ∈ m.active → ∀ q, t.fn = .prom q → (m.cell q).done = true

/-- No closure finishes. -/
structure Quiet (m m' : M) : Prop where
  le : Le m m'
  fin : ∀ c r, Ev.finish c r ∈ m'.log → Ev.finish c r ∈ m.log
  att : ∀ c s p fn, Ev.attach c s p fn ∈ m'.log → Ev.attach c s p fn ∈ m.log ∨ m.nextC ≤ c
  ret : ∀ t r, Frame.ret t r ∈ m'.active → Frame.ret t r ∈ m.active ∨ ∀ q, t.fn ≠ .prom q

theorem Inv.fin_lt {m : M} (i : Inv m) {c : Nat} {r : Option (Option Nat)}
    (h : Ev.finish c r ∈ m.log) : c < m.nextC := by
  obtain ⟨s, p, fn, h1, _⟩ := i.started c (i.finish_start h)
  exact (i.att _ _ _ _ h1).1

theorem Live.quiet {m m' : M} (i : Inv m) (k : Live m) (q : Quiet m m') : Live m' := by
  have hold : ∀ c s p fn r, Ev.attach c s p fn ∈ m'.log → Ev.finish c r ∈ m'.log →
      Ev.attach c s p fn ∈ m.log ∧ Ev.finish c r ∈ m.log := by
    intro c s p fn r h1 h2
    have h2 := q.fin _ _ h2
    rcases q.att _ _ _ _ h1 with h | h
    · exact ⟨h, h2⟩
    · have := i.fin_lt h2
      omega
  constructor
  · intro a s p fn r h1 h2 hr
    obtain ⟨h1, h2⟩ := hold _ _ _ _ _ h1 h2
    exact q.le.done p (i.att _ _ _ _ h1).2.2.1 (k.void _ _ _ _ _ h1 h2 hr)
  · intro a s p fn g h1 h2
    obtain ⟨h1, h2⟩ := hold _ _ _ _ _ h1 h2
    obtain ⟨c, x, h3⟩ := k.pass _ _ _ _ _ h1 h2
    exact ⟨c, x, q.le.log _ h3⟩
  · intro c s p x r h1 h2
    obtain ⟨h1, h2⟩ := hold _ _ _ _ _ h1 h2
    exact q.le.done x (i.att _ _ _ _ h1).2.2.2.2.1.1 (k.sat _ _ _ _ _ h1 h2)
  · intro t r h x hx
    rcases q.ret t r h with h | h
    · obtain ⟨⟨s, hT, _⟩, _⟩ := i.frames _ h
      have := (i.att _ _ _ _ hT).2.2.2.2.1
      rw [hx] at this
      exact q.le.done x this.1 (k.ret t r h x hx)
    · exact absurd hx (h x)

theorem Quiet.refl (m : M) : Quiet m m :=
  ⟨Le.refl m, fun _ _ h => h, fun _ _ _ _ h => Or.inl h, fun _ _ h => Or.inl h⟩

theorem Quiet.trans {a b c : M} (h : Quiet a b) (k : Quiet b c) (hn : a.nextC ≤ b.nextC) : Quiet a c where
  le := h.le.trans k.le
  fin x r e := h.fin x r (k.fin x r e)
  att x s p fn e := by
    rcases k.att x s p fn e with e | e
    · exact h.att x s p fn e
    · exact Or.inr (Nat.le_trans hn e)
  ret t r e := by
    rcases k.ret t r e with e | e
    · exact h.ret t r e
    · exact Or.inr e

theorem quiet_objs (m : M) (ps fs : List (Option Nat)) (act : List Frame) (n : Nat)
    (ha : ∀ t r, Frame.ret t r ∈ act → Frame.ret t r ∈ m.active ∨ ∀ q, t.fn ≠ .prom q) :
    Quiet m { m with proms := ps, futs := fs, active := act, nextC := n } :=
  ⟨⟨fun _ h => h, Nat.le_refl _, fun _ _ h => h, fun _ _ => rfl, fun _ _ => rfl⟩, fun _ _ h => h,
   fun _ _ _ _ h => Or.inl h, ha⟩

theorem quiet_say (m : M) (e : Ev) (h1 : ∀ c s p fn, e ≠ .attach c s p fn)
    (h3 : ∀ c r, e ≠ .finish c r) : Quiet m (m.say e) := by
  refine ⟨say_le m e, ?_, ?_, fun _ _ h => Or.inl h⟩
  · intro c r h
    simp [M.say] at h
    rcases h with h | h
    · exact h
    · exact absurd h.symm (h3 _ _)
  · intro c s p fn h
    simp [M.say] at h
    rcases h with h | h
    · exact Or.inl h
    · exact absurd h.symm (h1 _ _ _ _)

theorem quiet_fulfil (m : M) (s : Nat) : Quiet m (m.fulfil s) :=
  ⟨fulfil_le m s, fun c r h => by rw [fulfil_log] at h; exact h,
   fun c s' p fn h => by rw [fulfil_log] at h; exact Or.inl h,
   fun t r h => by rw [fulfil_active] at h; exact Or.inl h⟩

theorem quiet_attach {m : M} {s : Nat} {fn : Fn} (hs : s < m.size)
    (hu : (m.attach s fn).ub = false) : Quiet m (m.attach s fn) := by
  refine ⟨attach_le hs hu, ?_, ?_, fun t r h => by rw [attach_active] at h; exact Or.inl h⟩
  · intro c r h
    rw [attach_log] at h
    simpa using h
  · intro c s' p f h
    rw [attach_log] at h
    simp at h
    rcases h with h | h
    · exact Or.inl h
    · exact Or.inr (by omega)

theorem quiet_thenF {m : M} {s : Option Nat} {fn : Fn} (hs : ∀ a, s = some a → a < m.size)
    (hu : (m.thenF s fn).ub = false) : Quiet m (m.thenF s fn) := by
  cases s with
  | some s =>
    exact (quiet_attach (hs s rfl) hu).trans (quiet_objs _ _ _ _ _ (fun _ _ h => Or.inl h))
      (by rw [attach_nextC]; omega)
  | none =>
    cases fn with
    | void =>
      exact (quiet_say m (.now m.nextC) (by simp) (by simp)).trans (quiet_objs _ _ _ _ _ (fun t r h => by
        simp at h; exact Or.inl h)) (Nat.le_refl _)
    | fut =>
      exact (quiet_say m (.now m.nextC) (by simp) (by simp)).trans (quiet_objs _ _ _ _ _ (fun t r h => by
        simp at h; exact Or.inl h)) (Nat.le_refl _)
    | prom q =>
      exact (quiet_fulfil m q).trans (quiet_objs _ _ _ _ _ (fun _ _ h => Or.inl h))
        (by rw [fulfil_nextC]; omega)
    | give g => exact quiet_objs _ _ _ _ _ (fun _ _ h => Or.inl h)

theorem quiet_step {m m' : M} (i : Inv m) {op : Op} (h : step m op = some m') (hu' : m'.ub = false)
    (hop : ∀ k, op ≠ .lib k) : Quiet m m' := by
  have herase : ∀ k t r, Frame.ret t r ∈ m.active.eraseIdx k →
      Frame.ret t r ∈ m.active ∨ ∀ q, t.fn ≠ .prom q :=
    fun k t r h => Or.inl (List.mem_of_mem_eraseIdx h)
  unfold step at h
  split at h
  · cases h
  cases op with
  | newPair l =>
    simp only [Option.some.injEq] at h
    subst h
    refine ⟨⟨fun _ h => h, Nat.le_succ _, ?_, ?_, ?_⟩, fun _ _ h => h, fun _ _ _ _ h => Or.inl h,
      fun _ _ h => Or.inl h⟩
    all_goals
      intro s hs
      have : s ≠ m.size := by omega
      simp [upd, this]
  | invalid =>
    simp only [Option.some.injEq] at h
    subst h
    exact quiet_objs _ _ _ _ _ (fun _ _ h => Or.inl h)
  | copyP a =>
    simp only [Option.map_eq_some_iff] at h
    obtain ⟨x, hx, rfl⟩ := h
    exact quiet_objs _ _ _ _ _ (fun _ _ h => Or.inl h)
  | copyF a =>
    simp only [Option.map_eq_some_iff] at h
    obtain ⟨x, hx, rfl⟩ := h
    exact quiet_objs _ _ _ _ _ (fun _ _ h => Or.inl h)
  | fulfil a =>
    dsimp only at h
    split at h
    · cases h
    · simp only [Option.some.injEq] at h
      subst h
      exact quiet_say m _ (by simp) (by simp)
    · simp only [Option.some.injEq] at h
      subst h
      exact (quiet_fulfil m _).trans (quiet_objs _ _ _ _ _ (fun _ _ h => Or.inl h))
        (by rw [fulfil_nextC]; omega)
  | «then» a isF =>
    dsimp only at h
    split at h
    · cases h
    · rename_i s hs
      simp only [Option.some.injEq] at h
      subst h
      refine (quiet_objs m m.proms (m.futs.set a none) m.active m.nextC (fun _ _ h => Or.inl h)).trans
        (quiet_thenF ?_ hu') (Nat.le_refl _)
      intro b hb
      subst hb
      exact i.futs b (get_mem hs)
  | thenP a b =>
    dsimp only at h
    split at h
    · rename_i s q hs hq
      simp only [Option.some.injEq] at h
      subst h
      refine (quiet_objs m (m.proms.set b none) (m.futs.set a none) m.active m.nextC
        (fun _ _ h => Or.inl h)).trans (quiet_thenF ?_ hu') (Nat.le_refl _)
      intro b hb
      subst hb
      exact i.futs b (get_mem hs)
    · cases h
  | also a b =>
    dsimp only at h
    split at h
    · rename_i s q hs hq
      split at h
      · cases h
      · simp only [Option.some.injEq] at h
        subst h
        refine (quiet_objs m m.proms ((m.futs.set b none).set a none) m.active m.nextC
          (fun _ _ h => Or.inl h)).trans (quiet_thenF ?_ hu') (Nat.le_refl _)
        intro b hb
        subst hb
        exact i.futs b (get_mem hs)
    · cases h
  | run l =>
    dsimp only at h
    split at h
    · cases h
    · rename_i t q hq
      simp only [Option.some.injEq] at h
      subst h
      refine ⟨⟨fun _ h => List.mem_append_left _ h, Nat.le_refl _, fun _ _ h => h, fun _ _ => rfl,
        fun _ _ => rfl⟩, fun c r h => by simpa using h, fun c s p fn h => Or.inl (by simpa using h), ?_⟩
      intro t' r h
      rcases List.mem_cons.1 h with h | h
      · right
        unfold Task.frame at h
        split at h
        · cases h
        · cases h
        · cases h
        · rename_i g hg
          cases h
          intro q e
          rw [hg] at e
          cases e
      · exact Or.inl h
  | retV k =>
    dsimp only at h
    split at h
    · rename_i t ht
      split at h
      · rename_i hfn
        simp only [Option.some.injEq] at h
        subst h
        refine quiet_objs _ _ _ _ _ ?_
        intro t' r h
        rcases List.mem_cons.1 h with h | h
        · cases h
          exact Or.inr (fun q e => by rw [hfn] at e; cases e)
        · exact herase k t' r h
      · cases h
    · simp only [Option.some.injEq] at h; subst h; exact quiet_objs _ _ _ _ _ (herase k)
    · cases h
  | retF k a =>
    dsimp only at h
    split at h
    · rename_i t s ht hs
      split at h
      · rename_i hfn
        simp only [Option.some.injEq] at h
        subst h
        refine quiet_objs _ _ _ _ _ ?_
        intro t' r h
        rcases List.mem_cons.1 h with h | h
        · cases h
          exact Or.inr (fun q e => by rw [hfn] at e; cases e)
        · exact herase k t' r h
      · cases h
    · simp only [Option.some.injEq] at h; subst h; exact quiet_objs _ _ _ _ _ (herase k)
    · cases h
  | raise k =>
    dsimp only at h
    split at h
    · simp only [Option.some.injEq] at h; subst h; exact quiet_objs _ _ _ _ _ (herase k)
    · simp only [Option.some.injEq] at h; subst h; exact quiet_objs _ _ _ _ _ (herase k)
    · cases h
  | lib k => exact absurd rfl (hop k)

/-- The library code of a closure. -/
theorem live_lib {m : M} (i : Inv m) (lv : Live m) {k : Nat} {f : Frame} (hf : m.active[k]? = some f)
    {m' : M} (h : { m with active := m.active.eraseIdx k }.lib f = some m') (hu : m'.ub = false) :
    Live m' := by
  have i' := inv_lib i hf h hu
  have hmem := List.mem_of_getElem? hf
  have hok := i.frames f hmem
  cases f with
  | run t => simp [M.lib] at h
  | imm => simp [M.lib] at h
  | satisfy q t =>
    simp only [M.lib, Option.some.injEq] at h
    obtain ⟨⟨s, h1, h2⟩, h3⟩ := hok
    have hq : Quiet m ({ m with active := m.active.eraseIdx k }.fulfil q) :=
      (quiet_objs m m.proms m.futs _ m.nextC
        (fun t r h => Or.inl (List.mem_of_mem_eraseIdx h))).trans (quiet_fulfil _ _) (Nat.le_refl _)
    have l1 := lv.quiet i hq
    subst h
    refine ⟨l1.void, l1.pass, l1.sat, ?_⟩
    intro t' r h x hx
    rcases List.mem_cons.1 h with h | h
    · cases h
      rw [h3] at hx
      cases hx
      show ((M.fulfil _ _).cell _).done = true
      rw [fulfil_cell, if_pos rfl]
    · exact l1.ret t' r h x hx
  | ret t r =>
    obtain ⟨⟨s, h1, h2⟩, h3, h4, h5⟩ := hok
    have hat := i.att _ _ _ _ h1
    -- what the step does, in terms of `Le` and events
    have key : ∃ rest, m'.log = m.log ++ .finish t.c r :: rest ∧ Le m m' ∧
        (∀ c s p fn, Ev.attach c s p fn ∈ rest → m.nextC ≤ c) ∧ (∀ c r, Ev.finish c r ∉ rest) ∧
        m'.active = m.active.eraseIdx k ∧
        ((∀ g, r ≠ some (some g)) → (m'.cell t.p).done = true) ∧
        (∀ g, r = some (some g) → ∃ c q, Ev.attach c g q (.prom t.p) ∈ m'.log) := by
      have le0 : Le m ({ m with active := m.active.eraseIdx k }.say (.finish t.c r)) :=
        ⟨fun _ h => List.mem_append_left _ h, Nat.le_refl _, fun _ _ h => h, fun _ _ => rfl,
          fun _ _ => rfl⟩
      rcases r with _ | _ | g
      · simp only [M.lib, Option.some.injEq] at h
        subst h
        exact ⟨[], by rw [fulfil_log]; rfl, le0.trans (fulfil_le _ _), by simp, by simp,
          by rw [fulfil_active]; rfl, fun _ => by rw [fulfil_cell, if_pos rfl], by simp⟩
      · simp only [M.lib, Option.some.injEq] at h
        subst h
        exact ⟨[], by rw [fulfil_log]; rfl, le0.trans (fulfil_le _ _), by simp, by simp,
          by rw [fulfil_active]; rfl, fun _ => by rw [fulfil_cell, if_pos rfl], by simp⟩
      · simp only [M.lib, Option.some.injEq] at h
        subst h
        refine ⟨[.attach m.nextC g m.size (.prom t.p)], ?_, le0.trans (attach_le (h3 g rfl) hu), ?_,
          by simp, by rw [attach_active]; rfl, fun hr => absurd rfl (hr g), ?_⟩
        · rw [attach_log]; simp [M.say]
        · intro c s p fn hm; simp at hm; omega
        · intro g' hg'
          cases hg'
          exact ⟨m.nextC, m.size, by rw [attach_log]; simp [M.say]⟩
    obtain ⟨rest, hlog, hle, hatt, hnof, hact, hvoid, hpass⟩ := key
    have hfin : ∀ c x, Ev.finish c x ∈ m'.log → Ev.finish c x ∈ m.log ∨ (c = t.c ∧ x = r) := by
      intro c x hx
      rw [hlog] at hx
      simp at hx
      rcases hx with hx | hx | hx
      · exact Or.inl hx
      · exact Or.inr hx
      · exact absurd hx (hnof _ _)
    have hold : ∀ c s p fn x, Ev.attach c s p fn ∈ m'.log → Ev.finish c x ∈ m'.log →
        Ev.attach c s p fn ∈ m.log := by
      intro c s p fn x hx hy
      rw [hlog] at hx
      simp at hx
      rcases hx with hx | hx
      · exact hx
      · have h6 := hatt _ _ _ _ hx
        rcases hfin _ _ hy with hy | hy
        · have := i.fin_lt hy; omega
        · have := hat.1; omega
    constructor
    · intro a s' p fn x hx hy hr
      have hx' := hold _ _ _ _ _ hx hy
      rcases hfin _ _ hy with hy | ⟨rfl, rfl⟩
      · exact hle.done p (i.att _ _ _ _ hx').2.2.1 (lv.void _ _ _ _ _ hx' hy hr)
      · have := (i.uniq _ _ _ _ _ _ _ hx' h1).2.1
        subst this
        exact hvoid hr
    · intro a s' p fn g hx hy
      have hx' := hold _ _ _ _ _ hx hy
      rcases hfin _ _ hy with hy | ⟨rfl, hr⟩
      · obtain ⟨c, q, h7⟩ := lv.pass _ _ _ _ _ hx' hy
        exact ⟨c, q, hle.log _ h7⟩
      · have := (i.uniq _ _ _ _ _ _ _ hx' h1).2.1
        subst this
        exact hpass g hr.symm
    · intro c s' p q x hx hy
      have hx' := hold _ _ _ _ _ hx hy
      rcases hfin _ _ hy with hy | ⟨rfl, rfl⟩
      · exact hle.done q (i.att _ _ _ _ hx').2.2.2.2.1.1 (lv.sat _ _ _ _ _ hx' hy)
      · have e := (i.uniq _ _ _ _ _ _ _ hx' h1).2.2
        have hq := (i.att _ _ _ _ hx').2.2.2.2.1.1
        exact hle.done q hq (lv.ret t x hmem q e.symm)
    · intro t' r' hm q hq
      rw [hact] at hm
      have hm := List.mem_of_mem_eraseIdx hm
      obtain ⟨⟨s2, hT, _⟩, _⟩ := i.frames _ hm
      have := (i.att _ _ _ _ hT).2.2.2.2.1
      rw [hq] at this
      exact hle.done q this.1 (lv.ret t' r' hm q hq)

theorem Reach.live {m : M} (r : Reach m) : m.ub = false → Live m := by
  induction r with
  | start =>
    intro _
    constructor <;> simp [Verif.Future.start]
  | @step m m' op hr h ih =>
    intro hu
    have i := hr.inv (step_ub h)
    have lv := ih (step_ub h)
    by_cases hop : ∃ k, op = .lib k
    · obtain ⟨k, rfl⟩ := hop
      unfold Verif.Future.step at h
      split at h
      · cases h
      · dsimp only at h
        split at h
        · rename_i f hf
          exact live_lib i lv hf h hu
        · cases h
    · exact lv.quiet i (quiet_step i h hu (fun k e => hop ⟨k, e⟩))

end Verif.Future
