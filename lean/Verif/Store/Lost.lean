import Verif.Store.Props3

/-! What reducers and watchers that throw do to the tasks of other actions: nothing. -/

namespace Verif.Store

variable {A Mo : Type}

/-- The tasks that belong to dispatches. -/
def jobs (q : List (Item A)) : List (Nat × Nat) := q.filterMap Item.job

theorem jobs_toks (q : List (Item A)) (n : Nat) : jobs (q ++ List.replicate n .tok) = jobs q := by
  have := holders_toks q n []
  simpa [holders, jobs] using this

theorem Toks.jobs {st s1 : St A Mo} (h : Toks st s1) : jobs s1.queue = jobs st.queue := by
  obtain ⟨n, hn⟩ := h.queue
  rw [hn, jobs_toks]

/-- Only the loop and `dispatch` touch them. -/
theorem step_jobs {c : Cfg A Mo} {st st' : St A Mo} {op : SOp A} (h : step c st op = some st')
    (h1 : op ≠ .loop) (h2 : op ≠ .loopRaise) (h3 : ∀ a, op ≠ .dispatch a) :
    jobs st'.queue = jobs st.queue ∧ st'.sent = st.sent := by
  have ft : ∀ {s s1 : St A Mo} {o : Future.Op}, s.fstep o = some s1 →
      jobs s1.queue = jobs s.queue ∧ s1.sent = s.sent :=
    fun h => ⟨(fstep_toks h).jobs, (fstep_toks h).sent⟩
  cases op with
  | dispatch a => exact absurd rfl (h3 a)
  | loop => exact absurd rfl h1
  | loopRaise => exact absurd rfl h2
  | other l =>
    simp only [step] at h
    split at h
    · cases h
    · exact ⟨(runTask_toks h).jobs, (runTask_toks h).sent⟩
  | fut op =>
    simp only [step] at h
    split at h
    · exact ft h
    · cases h
  | go n =>
    simp only [step] at h
    split at h
    · cases h
    · unfold St.go at h
      dsimp only at h
      split at h
      · cases h
      · cases h; exact ⟨rfl, rfl⟩
      · cases h; exact ⟨rfl, rfl⟩
      · cases h; exact ⟨rfl, rfl⟩
      · cases h
      · split at h
        · split at h
          · simp only [Option.map_eq_some_iff] at h
            obtain ⟨_, h, rfl⟩ := h
            have := ft h; exact this
          · cases h; exact ⟨rfl, rfl⟩
        · split at h
          · split at h
            · split at h
              · have := ft h; exact this
              · have := ft h; exact this
            · cases h; exact ⟨rfl, rfl⟩
          · simp only [Option.bind_eq_some_iff] at h
            obtain ⟨w, _, h⟩ := h
            split at h
            · have := ft h; exact this
            · simp only [Option.bind_eq_some_iff] at h
              obtain ⟨s1, h, h2⟩ := h
              have h := ft h
              exact ⟨(ft h2).1.trans h.1, (ft h2).2.trans h.2⟩
  | prim n o =>
    simp only [step] at h
    split at h
    · split at h
      · cases h; exact ⟨rfl, rfl⟩
      · cases h
    · cases h
  | raise n =>
    simp only [step] at h
    split at h
    · cases h; exact ⟨rfl, rfl⟩
    · simp only [Option.bind_eq_some_iff] at h
      obtain ⟨_, _, h⟩ := h
      have := ft h; exact this
    · cases h
  | commit =>
    simp only [step] at h
    split at h
    · cases h
      exact ⟨by rw [(send_fields st).2.2.1], (send_fields st).2.1⟩
    · cases h

/-- The task of a dispatch that shows the model has begun. -/
def Over (log : List (SEv A Mo)) (d : Nat) : Prop := SEv.ready d ∈ log ∨ ∃ o, SEv.lost d o ∈ log

theorem Over.app {log es : List (SEv A Mo)} {d : Nat} (h : Over (log ++ es) d) : Over log d ∨ Over es d := by
  rcases h with h | ⟨o, h⟩
  · rcases List.mem_append.1 h with h | h
    · exact .inl (.inl h)
    · exact .inr (.inl h)
  · rcases List.mem_append.1 h with h | h
    · exact .inl (.inr ⟨o, h⟩)
    · exact .inr (.inr ⟨o, h⟩)

/-- Of the proof: the invariant. -/
structure GInv (st : St A Mo) : Prop where
  gone : ∀ d, Over st.log d → ∀ i, (d, i) ∉ jobs st.queue
  excl : ∀ d, SEv.ready d ∈ st.log → ∀ o, SEv.lost d o ∉ st.log
  red : ∀ d o, SEv.lost d o ∈ st.log → ∃ m a m' e, SEv.reduced d m a m' e ∈ st.log ∧
    ((o = some e ∧ e.isEmpty = false) ∨ (o = none ∧ e.isEmpty = true))
  lt : ∀ d, Over st.log d → d < st.sent.length

/-- Nothing ends, and there are no more tasks. -/
theorem GInv.sub {st s1 : St A Mo} (g : GInv st) {es : List (SEv A Mo)} (hl : s1.log = st.log ++ es)
    (he : ∀ d, ¬ Over es d) (hj : ∀ d i, (d, i) ∈ jobs s1.queue →
      (d, i) ∈ jobs st.queue ∨ ¬ Over st.log d)
    (hs : st.sent.length ≤ s1.sent.length) : GInv s1 where
  gone d ho i hi := by
    rw [hl] at ho
    rcases ho.app with ho | ho
    · rcases hj d i hi with h | h
      · exact g.gone d ho i h
      · exact h ho
    · exact he d ho
  excl d h o h' := by
    rw [hl] at h h'
    rcases List.mem_append.1 h with h | h
    · rcases List.mem_append.1 h' with h' | h'
      · exact g.excl d h o h'
      · exact he d (.inr ⟨o, h'⟩)
    · exact he d (.inl h)
  red d o h := by
    rw [hl] at h
    rcases List.mem_append.1 h with h | h
    · obtain ⟨m, a, m', e, h1, h2⟩ := g.red d o h
      exact ⟨m, a, m', e, by rw [hl]; exact List.mem_append_left _ h1, h2⟩
    · exact absurd (.inr ⟨o, h⟩) (he d)
  lt d h := by
    rw [hl] at h
    rcases h.app with h | h
    · exact Nat.lt_of_lt_of_le (g.lt d h) hs
    · exact absurd h (he d)

/-- A task that shows the model is done or lost. -/
theorem GInv.ends {st s1 : St A Mo} (g : GInv st) {d i : Nat} {es : List (SEv A Mo)} {x : SEv A Mo}
    (hl : s1.log = st.log ++ es ++ [x]) (he : ∀ d, ¬ Over es d)
    (hx : x = .ready d ∨ ∃ o, x = .lost d o ∧ ∃ m a m' e, SEv.reduced d m a m' e ∈ st.log ∧
      ((o = some e ∧ e.isEmpty = false) ∨ (o = none ∧ e.isEmpty = true)))
    (hj : (d, i) ∈ jobs st.queue) (hq : ∀ y ∈ jobs s1.queue, y ∈ jobs st.queue ∧ y.1 ≠ d)
    (hd : d < st.sent.length) (hs : s1.sent = st.sent) : GInv s1 := by
  have hnew : ∀ {d'}, Over s1.log d' → Over st.log d' ∨ d' = d := by
    intro d' h
    rw [hl] at h
    rcases h.app with h | h
    · rcases h.app with h | h
      · exact .inl h
      · exact absurd h (he _)
    · right
      rcases hx with rfl | ⟨o, rfl, _⟩
      · rcases h with h | ⟨o, h⟩
        · cases List.mem_singleton.1 h; rfl
        · cases List.mem_singleton.1 h
      · rcases h with h | ⟨o', h⟩
        · cases List.mem_singleton.1 h
        · cases List.mem_singleton.1 h; rfl
  have hsingle : ∀ {y : SEv A Mo}, (∃ d, y = .ready d ∨ ∃ o, y = .lost d o) → y ∈ s1.log →
      y ∈ st.log ∨ y = x := by
    rintro y ⟨d', hy⟩ h
    rw [hl] at h
    rcases List.mem_append.1 h with h | h
    · rcases List.mem_append.1 h with h | h
      · exact .inl h
      · refine absurd ?_ (he d')
        rcases hy with rfl | ⟨o, rfl⟩
        · exact .inl h
        · exact .inr ⟨o, h⟩
    · exact .inr (List.mem_singleton.1 h)
  refine ⟨?_, ?_, ?_, ?_⟩
  · intro d' ho j hm
    obtain ⟨h1, h2⟩ := hq _ hm
    rcases hnew ho with h | h
    · exact g.gone d' h j h1
    · exact h2 h
  · intro d' h o h'
    have hno : ¬ Over st.log d := fun h => g.gone d h i hj
    rcases hsingle ⟨d', .inl rfl⟩ h with h | h
    · rcases hsingle ⟨d', .inr ⟨o, rfl⟩⟩ h' with h' | h'
      · exact g.excl d' h o h'
      · subst h'
        rcases hx with hx | ⟨o', hx, _⟩
        · cases hx
        · cases hx; exact hno (.inl h)
    · subst h
      rcases hx with hx | ⟨o', hx, _⟩
      · cases hx
        rcases hsingle ⟨_, .inr ⟨o, rfl⟩⟩ h' with h' | h'
        · exact hno (.inr ⟨o, h'⟩)
        · cases h'
      · cases hx
  · intro d' o h
    have hmono : ∀ {y}, y ∈ st.log → y ∈ s1.log := by
      intro y hy
      rw [hl]
      exact List.mem_append_left _ (List.mem_append_left _ hy)
    rcases hsingle ⟨d', .inr ⟨o, rfl⟩⟩ h with h | h
    · obtain ⟨m, a, m', e, h1, h2⟩ := g.red d' o h
      exact ⟨m, a, m', e, hmono h1, h2⟩
    · subst h
      rcases hx with hx | ⟨o', hx, m, a, m', e, h1, h2⟩
      · cases hx
      · cases hx
        exact ⟨m, a, m', e, hmono h1, h2⟩
  · intro d' h
    rw [hs]
    rcases hnew h with h | h
    · exact g.lt d' h
    · rw [h]; exact hd

theorem shown_not_over {es : List (SEv A Mo)} (h : ∀ e ∈ es, ∃ v, e = SEv.shown v) (d : Nat) : ¬ Over es d := by
  rintro (h' | ⟨o, h'⟩)
  · obtain ⟨v, h⟩ := h _ h'; cases h
  · obtain ⟨v, h⟩ := h _ h'; cases h

theorem ginv_step {c : Cfg A Mo} {st st' : St A Mo} (k : PI c st) (g : GInv st)
    {op : SOp A} (h : step c st op = some st') : GInv st' := by
  have hnd : ∀ {x : Item A} {q : List (Item A)} {d i : Nat}, st.queue = x :: q → x.job = some (d, i) →
      (∀ j, (d, j) ∉ jobs q) ∧ (d, i) ∈ jobs st.queue ∧ (∀ y ∈ jobs q, y ∈ jobs st.queue ∧ y.1 ≠ d) ∧
      d < st.sent.length := by
    intro x q d i hq hj
    have h1 := k.p.nodup
    rw [hq, holders_pop, hj] at h1
    have h2 : ∀ j, (d, j) ∉ jobs q := by
      intro j hm
      refine (List.nodup_cons.1 h1).1 (List.mem_map.2 ⟨(d, j), ?_, rfl⟩)
      show (d, j) ∈ jobs q ++ _
      exact List.mem_append_left _ hm
    refine ⟨h2, ?_, ?_, ?_⟩
    · simp [jobs, hq, hj]
    · intro y hy
      refine ⟨?_, ?_⟩
      · rw [hq]
        simp only [jobs, List.filterMap_cons, hj]
        exact List.mem_cons_of_mem _ hy
      · rintro rfl; exact h2 _ hy
    · exact k.q.jobs x (by rw [hq]; exact List.mem_cons_self) d i hj
  have hno0 : ∀ d, ¬ Over ([] : List (SEv A Mo)) d := by
    rintro d (h | ⟨o, h⟩) <;> cases h
  cases op with
  | dispatch a =>
    simp only [step, St.dispatch, Option.map_eq_some_iff] at h
    obtain ⟨s1, h1, rfl⟩ := h
    refine g.sub (es := [.dispatched st.sent.length a]) ?_ ?_ ?_ ?_
    · show s1.log ++ _ = _
      rw [(fstep_toks h1).log]
    · rintro d (h | ⟨o, h⟩) <;> simp at h
    · intro d i hm
      have : jobs (s1.queue ++ [Item.reduce st.sent.length a st.fu.proms.length]) =
          jobs st.queue ++ [(st.sent.length, st.fu.proms.length)] := by
        have := (fstep_toks h1).jobs
        simp only [jobs, List.filterMap_append] at this ⊢
        rw [this]; rfl
      have hm : (d, i) ∈ jobs (s1.queue ++ [Item.reduce st.sent.length a st.fu.proms.length]) := hm
      rw [this] at hm
      rcases mem_app_one hm with h | h
      · exact .inl h
      · cases h
        exact .inr fun h => Nat.lt_irrefl _ (g.lt _ h)
    · show st.sent.length ≤ (st.sent ++ [_]).length
      simp
  | loop =>
    simp only [step] at h
    unfold St.loop at h
    split at h
    · cases h
    · rename_i d a i q hq
      obtain ⟨n1, n2, n3, n4⟩ := hnd hq rfl
      have hno : ¬ Over st.log d := fun h => g.gone d h i n2
      dsimp only at h
      split at h
      · cases h
        refine g.sub (es := [.reduceThrew d st.cur a]) rfl ?_ ?_ (Nat.le_refl _)
        · rintro d (h | ⟨o, h⟩) <;> simp at h
        · intro d' i' hm
          exact .inl (n3 _ hm).1
      simp only [Option.map_eq_some_iff] at h
      obtain ⟨s1, hs, rfl⟩ := h
      obtain ⟨_, _, _, _, f5, f6⟩ := pushDown_fields c s1 (c.reducer st.cur a).1
      have f7 : (s1.pushDown c (c.reducer st.cur a).1).sent = s1.sent := by
        unfold St.pushDown; split <;> rfl
      have key : s1.log = st.log ∧ s1.sent = st.sent ∧ ∀ y ∈ jobs s1.queue, y ∈ jobs q ∨ y = (d, i) := by
        split at hs
        · split at hs
          · have h1 := (complete_toks hs)
            refine ⟨h1.log, h1.sent, ?_⟩
            intro y hy
            rw [h1.jobs] at hy
            exact .inl hy
          · cases hs
            refine ⟨rfl, rfl, ?_⟩
            intro y hy
            simp only [St.post, jobs, List.filterMap_append] at hy
            rcases List.mem_append.1 hy with h | h
            · exact .inl h
            · simp [Item.job] at h; exact .inr h
        · cases hs
          refine ⟨rfl, rfl, ?_⟩
          intro y hy
          simp only [St.post, jobs, List.filterMap_append] at hy
          rcases List.mem_append.1 hy with h | h
          · exact .inl h
          · simp [Item.job] at h; exact .inr h
      obtain ⟨k1, k2, k3⟩ := key
      refine g.sub (es := [.reduced d st.cur a (c.reducer st.cur a).1 (c.reducer st.cur a).2]) ?_ ?_ ?_ ?_
      · show (s1.pushDown c _).log ++ _ = _
        rw [f6, k1]
      · rintro d (h | ⟨o, h⟩) <;> simp at h
      · intro d' i' hm
        have hm : (d', i') ∈ jobs (s1.pushDown c (c.reducer st.cur a).1).queue := hm
        rw [f5] at hm
        rcases k3 _ hm with h | h
        · exact .inl (n3 _ h).1
        · cases h; exact .inr hno
      · show st.sent.length ≤ (s1.pushDown c _).sent.length
        rw [f7, k2]
        exact Nat.le_refl _
    · rename_i d e i q hq
      obtain ⟨n1, n2, n3, n4⟩ := hnd hq rfl
      cases h
      obtain ⟨f1, f2, f3, f4, es, f5, f6⟩ := publish_fields c { st with queue := q }
      have g1 : GInv ((St.publish c { st with queue := q }).say (.ready d)) := by
        refine g.ends (d := d) (i := i) (es := es) (x := .ready d) ?_ (shown_not_over f6) (.inl rfl) n2 ?_ n4 f2
        · show (St.publish c { st with queue := q }).log ++ _ = _
          rw [f5]
        · show ∀ y ∈ jobs (St.publish c { st with queue := q }).queue, _
          rw [f3]; exact n3
      refine g1.sub (es := [.effStart d st.nx e]) rfl ?_ (fun _ _ h => .inl h) (Nat.le_refl _)
      rintro d (h | ⟨o, h⟩) <;> simp at h
    · rename_i d i q hq
      obtain ⟨n1, n2, n3, n4⟩ := hnd hq rfl
      obtain ⟨f1, f2, f3, f4, es, f5, f6⟩ := publish_fields c { st with queue := q }
      have g1 : GInv ((St.publish c { st with queue := q }).say (.ready d)) := by
        refine g.ends (d := d) (i := i) (es := es) (x := .ready d) ?_ (shown_not_over f6) (.inl rfl) n2 ?_ n4 f2
        · show (St.publish c { st with queue := q }).log ++ _ = _
          rw [f5]
        · show ∀ y ∈ jobs (St.publish c { st with queue := q }).queue, _
          rw [f3]; exact n3
      have t := complete_toks h
      refine g1.sub (es := []) (by rw [t.log]; simp) hno0 ?_ (by rw [t.sent]; exact Nat.le_refl _)
      intro d' i' hm
      rw [t.jobs] at hm
      exact .inl hm
    · rename_i q hq
      have t := runTask_toks h
      refine g.sub (es := []) (by rw [t.log]; simp) hno0 ?_ (by rw [t.sent]; exact Nat.le_refl _)
      intro d' i' hm
      rw [t.jobs] at hm
      left
      rw [hq]
      exact hm
  | loopRaise =>
    obtain ⟨x, q, d, o, hq, hx, _, _, rfl⟩ := loopRaise_some h
    obtain ⟨f1, f2, f3, f4, es, f5, f6⟩ := publish_fields c { st with queue := q }
    have hmem : x ∈ st.queue := by rw [hq]; exact List.mem_cons_self
    have hxx : ∃ i, x.job = some (d, i) ∧ ∃ m a m' e, SEv.reduced d m a m' e ∈ st.log ∧
        ((o = some e ∧ e.isEmpty = false) ∨ (o = none ∧ e.isEmpty = true)) := by
      rcases hx with ⟨e, i, rfl, rfl⟩ | ⟨i, rfl, rfl⟩
      · obtain ⟨⟨m, a, m', h1⟩, h2⟩ := k.q.eff d e i hmem
        exact ⟨i, rfl, m, a, m', e, h1, .inl ⟨rfl, h2⟩⟩
      · obtain ⟨m, a, m', e, h1, h2⟩ := k.q.pub d i hmem
        exact ⟨i, rfl, m, a, m', e, h1, .inr ⟨rfl, h2⟩⟩
    obtain ⟨i, hj, hr⟩ := hxx
    obtain ⟨n1, n2, n3, n4⟩ := hnd hq hj
    refine g.ends (d := d) (i := i) (es := es) (x := .lost d o) ?_ (shown_not_over f6)
      (.inr ⟨o, rfl, hr⟩) n2 ?_ n4 f2
    · show (St.publish c { st with queue := q }).log ++ _ = _
      rw [f5]
    · show ∀ y ∈ jobs (St.publish c { st with queue := q }).queue, _
      rw [f3]; exact n3
  | _ =>
    obtain ⟨es, h1, h2⟩ := step_log h (by simp) (by simp)
    obtain ⟨h3, h4⟩ := step_jobs h (by simp) (by simp) (by simp)
    refine g.sub h1 ?_ ?_ (by rw [h4]; exact Nat.le_refl _)
    · rintro d (h | ⟨o, h⟩)
      · have := (h2 _ h).1; cases this
      · have := (h2 _ h).1; cases this
    · intro d i hm
      rw [h3] at hm
      exact .inl hm

theorem Reach.ginv {c : Cfg A Mo} (hF : c.hasF = true) {st : St A Mo} (r : Reach c st)
    (hu : st.fu.ub = false) : GInv st := by
  induction r with
  | start =>
    refine ⟨?_, ?_, ?_, ?_⟩ <;> simp [Verif.Store.start, Over]
  | step op r h ih =>
    have hu' := step_ub h hu
    exact ginv_step (r.pi hF hu') (ih hu') h

end Verif.Store
