import Verif.Watch.Kind

/-!
Reachable states are good, and the log grows.
-/

namespace Verif.Watch

theorem start_good : Good start := by
  refine ⟨start_inv, .nil _, ?_, ?_⟩ <;> simp [start]

theorem kind_good {st st' : St} {op : Op} (g : Good st) (k : Kind st op st') : Good st' := by
  have same : ∀ {s : St}, st.same s → st.nc ≤ s.nc → Inv s := fun h hc => g.inv.same h hc
  have bsame : ∀ {s : St} , s.stack.filterMap bindOf = st.stack.filterMap bindOf → s.slots = st.slots →
      st.nc ≤ s.nc → (∀ c ∈ s.stack.filterMap bindOf, c < s.nc ∧ ∀ q, c ∉ s.slots q)
        ∧ (s.stack.filterMap bindOf).Nodup := by
    intro s h1 h2 h3
    rw [h1, h2]
    exact ⟨fun c hc => ⟨Nat.lt_of_lt_of_le (g.binds c hc).1 h3, (g.binds c hc).2⟩, g.nodup⟩
  cases k with
  | misc hm hc hu h1 h2 h3 h4 h5 h6 =>
    obtain ⟨k1, k2, k3⟩ := misc_slots g.inv hm hu
    refine ⟨k1, ?_, ?_, ?_⟩
    · rw [h1, h2, h3]; exact g.shape
    · rw [h1]
      intro c hc
      have := g.binds c hc
      refine ⟨by omega, fun q hq => ?_⟩
      rcases k3 q c hq with h | h
      · exact this.2 q h
      · omega
    · rw [h1]; exact g.nodup
  | null r hc ho hn =>
    exact ⟨same ⟨rfl, rfl, rfl, rfl, rfl, rfl⟩ (Nat.le_refl _), g.shape, g.binds, g.nodup⟩
  | bind r n hc ha hn =>
    refine ⟨same ⟨rfl, rfl, rfl, rfl, rfl, rfl⟩ (Nat.le_succ _), ?_, ?_, ?_⟩
    · have := g.shape
      rw [hc] at this
      show Shape st.nf st.ctrl _
      rw [hc]
      exact Base.bind r st.nc this
    · intro c hc
      have hc : c ∈ st.nc :: st.stack.filterMap bindOf := hc
      show c < st.nc + 1 ∧ ∀ q, c ∉ st.slots q
      simp only [List.mem_cons] at hc
      rcases hc with rfl | hc
      · exact ⟨Nat.lt_succ_self _, fun q hq => Nat.lt_irrefl _ (g.inv.fresh q _ hq)⟩
      · exact ⟨Nat.lt_succ_of_lt (g.binds c hc).1, (g.binds c hc).2⟩
    · show (st.nc :: st.stack.filterMap bindOf).Nodup
      rw [List.nodup_cons]
      exact ⟨fun h => Nat.lt_irrefl _ (g.binds _ h).1, g.nodup⟩
  | nudge0 r n hc ha hn hs => exact g
  | nudge r n c l hc ha hn hs =>
    refine ⟨same ⟨rfl, rfl, rfl, rfl, rfl, rfl⟩ (Nat.le_refl _), ?_, g.binds, g.nodup⟩
    have := g.shape
    rw [hc] at this
    show Shape (st.nf + 1) st.ctrl _
    rw [hc]
    exact Base.nudge n r c (Nat.lt_succ_self _) this
  | notify0 n hc hs =>
    refine ⟨same ⟨rfl, rfl, rfl, rfl, rfl, rfl⟩ (Nat.le_refl _), ?_, g.binds, g.nodup⟩
    have := g.shape
    rw [hc] at this
    show Shape (st.nf + 1) st.ctrl _
    rw [hc]
    exact Base.mono this (Nat.le_succ _)
  | notify n r l hc hs =>
    refine ⟨same ⟨rfl, rfl, rfl, rfl, rfl, rfl⟩ (Nat.le_refl _), ?_, g.binds, g.nodup⟩
    have := g.shape
    rw [hc] at this
    exact ⟨_, _, _, rfl, Nat.lt_succ_self _, this⟩
  | retSlot f n r c b fs hc hs =>
    refine ⟨same ⟨rfl, rfl, rfl, rfl, rfl, rfl⟩ (Nat.le_refl _), ?_, g.binds, g.nodup⟩
    have := g.shape
    rw [hc] at this
    exact .inl ⟨this, _, _, _, _, _, _, hs⟩
  | retBind r c fs hc hs ha =>
    have hsh := g.shape
    rw [hc, hs] at hsh
    have hb := g.binds
    have hn := g.nodup
    rw [hs] at hb hn
    have hb : ∀ d ∈ c :: fs.filterMap bindOf, d < st.nc ∧ ∀ q, d ∉ st.slots q := hb
    have hn : (c :: fs.filterMap bindOf).Nodup := hn
    have hi : Inv ({ st with stack := fs } : St) := same ⟨rfl, rfl, rfl, rfl, rfl, rfl⟩ (Nat.le_refl _)
    obtain ⟨e1, e2, e3, e4, e5, e6, e7, e8, e9, e10, e11, e12, e13⟩ := watch_eq hi (r := r) (c := c)
    refine ⟨watch_inv hi ha (hb c (by simp)).1 (hb c (by simp)).2, ?_, ?_, ?_⟩
    · rw [e9, e10, e11]
      show Shape st.nf st.ctrl fs
      rw [hc]
      cases hsh; assumption
    · rw [e9, e8, e1]
      intro d hd
      have hd : d ∈ fs.filterMap bindOf := hd
      refine ⟨(hb d (by simp [hd])).1, fun q hq => ?_⟩
      have hq : d ∈ upd st.slots r (st.slots r ++ [c]) q := hq
      have hno := (hb d (by simp [hd])).2
      have hne : d ≠ c := by intro e; subst e; exact (List.nodup_cons.1 hn).1 hd
      by_cases h : q = r
      · subst h
        simp [hne] at hq; exact hno q hq
      · simp [h] at hq; exact hno q hq
    · rw [e9]; exact (List.nodup_cons.1 hn).2
  | retDead r c fs hc hs ha =>
    have hsh := g.shape
    rw [hc, hs] at hsh
    have hb := g.binds
    have hn := g.nodup
    rw [hs] at hb hn
    have hn : (c :: fs.filterMap bindOf).Nodup := hn
    refine ⟨same ⟨rfl, rfl, rfl, rfl, rfl, rfl⟩ (Nat.le_refl _), ?_, ?_, (List.nodup_cons.1 hn).2⟩
    · show Shape st.nf st.ctrl fs
      rw [hc]
      cases hsh; assumption
    · intro d hd; exact hb d (List.mem_cons_of_mem _ hd)
  | enter0 f n q r fs hc hs hl =>
    refine ⟨same ⟨rfl, rfl, rfl, rfl, rfl, rfl⟩ (Nat.le_refl _), ?_, g.binds, g.nodup⟩
    have := g.shape
    rw [hc] at this
    obtain ⟨f', n', fs', h, hf, hb⟩ := this
    exact .inr ⟨_, _, _, _, h, hf, hb⟩
  | enter f n q r c l fs hc hs hl =>
    refine ⟨same ⟨rfl, rfl, rfl, rfl, rfl, rfl⟩ (Nat.le_refl _), ?_, g.binds, g.nodup⟩
    have := g.shape
    rw [hc] at this
    obtain ⟨f', n', fs', h, hf, hb⟩ := this
    rw [hs] at h
    cases h
    show Base st.nf (.slot f n _ c false :: st.stack)
    rw [hs]
    exact Base.node n _ c hf hb
  | slotNext f n r c c' b fs hc hs hm hn =>
    have hbs : (Frame.slot f n r c' b :: fs).filterMap bindOf = st.stack.filterMap bindOf := by
      rw [hs]; rfl
    obtain ⟨hb1, hb2⟩ := bsame (s := { st.say (.called f n r c' (st.val n)) with
            stack := .slot f n r c' b :: fs
            ctrl := .user }) hbs rfl (Nat.le_refl _)
    refine ⟨same ⟨rfl, rfl, rfl, rfl, rfl, rfl⟩ (Nat.le_refl _), ?_, hb1, hb2⟩
    have := g.shape
    rw [hc, hs] at this
    show Base st.nf _
    rcases this with ⟨hb, _⟩ | ⟨_, _, _, _, h, _⟩
    · cases hb with
      | nudge _ _ _ hf hb => exact .nudge _ _ _ hf hb
      | node _ _ _ hf hb => exact .node _ _ _ hf hb
    · cases h
  | nudgeEnd f n r c fs hc hs hm hn =>
    have hbs : fs.filterMap bindOf = st.stack.filterMap bindOf := by
      rw [hs]; rfl
    obtain ⟨hb1, hb2⟩ := bsame (s := { st.say (.done f) with stack := fs, ctrl := .user }) hbs rfl
      (Nat.le_refl _)
    refine ⟨same ⟨rfl, rfl, rfl, rfl, rfl, rfl⟩ (Nat.le_refl _), ?_, hb1, hb2⟩
    have := g.shape
    rw [hc, hs] at this
    show Base st.nf _
    rcases this with ⟨hb, _⟩ | ⟨_, _, _, _, h, _⟩
    · cases hb with
      | nudge _ _ _ hf hb => exact hb.mono (Nat.le_of_lt hf)
    · cases h
  | slotEnd f n r c fs hc hs hm hn =>
    have hbs : fs.filterMap bindOf = st.stack.filterMap bindOf := by
      rw [hs]; rfl
    obtain ⟨hb1, hb2⟩ := bsame (s := { st with stack := fs }) hbs rfl (Nat.le_refl _)
    refine ⟨same ⟨rfl, rfl, rfl, rfl, rfl, rfl⟩ (Nat.le_refl _), ?_, hb1, hb2⟩
    have := g.shape
    rw [hc, hs] at this
    show Shape st.nf st.ctrl fs
    rw [hc]
    rcases this with ⟨hb, _⟩ | ⟨_, _, _, _, h, _⟩
    · cases hb with
      | node _ _ _ hf hb => exact .inr ⟨_, _, _, _, rfl, hf, hb⟩
    · cases h
  | slotUb f n r c b fs hc hs hm =>
    exact ⟨same ⟨rfl, rfl, rfl, rfl, rfl, rfl⟩ (Nat.le_refl _), g.shape, g.binds, g.nodup⟩
  | nodeNext f n r m r' fs hc hs hl hn =>
    have hbs : (Frame.node f n r' :: fs).filterMap bindOf = st.stack.filterMap bindOf := by
      rw [hs]; rfl
    obtain ⟨hb1, hb2⟩ := bsame (s := { st.say (.turn f r') with stack := .node f n r' :: fs, ctrl := .enter r' })
      hbs rfl (Nat.le_refl _)
    refine ⟨same ⟨rfl, rfl, rfl, rfl, rfl, rfl⟩ (Nat.le_refl _), ?_, hb1, hb2⟩
    have := g.shape
    rw [hc, hs] at this
    rcases this with ⟨_, _, _, _, _, _, _, h⟩ | ⟨_, _, _, _, h, hf, hb⟩
    · cases h
    · cases h
      exact ⟨_, _, _, rfl, hf, hb⟩
  | nodeEnd f n r fs hc hs hl hn =>
    have hbs : fs.filterMap bindOf = st.stack.filterMap bindOf := by
      rw [hs]; rfl
    obtain ⟨hb1, hb2⟩ := bsame (s := { st.say (.done f) with stack := fs, ctrl := .user }) hbs rfl
      (Nat.le_refl _)
    refine ⟨same ⟨rfl, rfl, rfl, rfl, rfl, rfl⟩ (Nat.le_refl _), ?_, hb1, hb2⟩
    have := g.shape
    rw [hc, hs] at this
    rcases this with ⟨_, _, _, _, _, _, _, h⟩ | ⟨_, _, _, _, h, hf, hb⟩
    · cases h
    · cases h
      exact hb.mono (Nat.le_of_lt hf)
  | nodeUb f n r fs hc hs hl =>
    exact ⟨same ⟨rfl, rfl, rfl, rfl, rfl, rfl⟩ (Nat.le_refl _), g.shape, g.binds, g.nodup⟩

theorem step_good {st st' : St} {op : Op} (g : Good st) (h : step st op = some st') : Good st' :=
  kind_good g (step_kind h).2

theorem Reach.good {st : St} (h : Reach st) : Good st := by
  induction h with
  | start => exact start_good
  | step op _ h ih => exact step_good ih h

theorem run_good {st st' : St} {ops : List Op} (g : Good st) (h : Run st ops st') : Good st' := by
  induction h with
  | nil => exact g
  | cons h _ ih => exact ih (step_good g h)

theorem Reach.run {st st' : St} {ops : List Op} (r : Reach st) (h : Run st ops st') : Reach st' := by
  induction h with
  | nil => exact r
  | cons h _ ih => exact ih (r.step _ h)

/-- What a step adds to the log. -/
theorem kind_log {st st' : St} {op : Op} (g : Good st) (k : Kind st op st') :
    ∃ d, st'.log = st.log ++ d := by
  cases k with
  | misc _ _ _ _ _ _ h => exact ⟨_, h⟩
  | retBind r c fs hc hs ha =>
    have hi : Inv ({ st with stack := fs } : St) := g.inv.same ⟨rfl, rfl, rfl, rfl, rfl, rfl⟩ (Nat.le_refl _)
    obtain ⟨e1, e2, e3, e4, e5, e6, e7, e8, e9, e10, e11, e12, e13⟩ := watch_eq hi (r := r) (c := c)
    exact ⟨[], by rw [e12]; simp⟩
  | notify0 n => exact ⟨[.notify st.nf n, .done st.nf], by simp [St.say]⟩
  | notify n r => exact ⟨[.notify st.nf n, .turn st.nf r], by simp [St.say]⟩
  | bind => exact ⟨[_], rfl⟩
  | nudge => exact ⟨[_], rfl⟩
  | enter => exact ⟨[_], rfl⟩
  | slotNext => exact ⟨[_], rfl⟩
  | nudgeEnd => exact ⟨[_], rfl⟩
  | nodeNext => exact ⟨[_], rfl⟩
  | nodeEnd => exact ⟨[_], rfl⟩
  | _ => exact ⟨[], by simp⟩

theorem run_log {st st' : St} {ops : List Op} (g : Good st) (h : Run st ops st') :
    ∃ d, st'.log = st.log ++ d := by
  induction h with
  | nil => exact ⟨[], by simp⟩
  | cons h _ ih =>
    obtain ⟨d, hd⟩ := kind_log g (step_kind h).2
    obtain ⟨e, he⟩ := ih (step_good g h)
    exact ⟨d ++ e, by rw [he, hd]; simp⟩

end Verif.Watch
