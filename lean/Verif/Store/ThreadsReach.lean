import Verif.Store.ThreadsSim

/-!
With one thread in tasks at a time, every run is one where tasks are single steps, up to the order between
events of tasks and others.
-/

namespace Verif.Store

variable {A Mo : Type}

theorem complete_quiet (c : Cfg A Mo) (i : Nat) (s t : St A Mo) (h : s.complete c i = some t) : Quiet s t :=
  .of_eq (complete_toks h).log

theorem pushDown_say (c : Cfg A Mo) (s : St A Mo) (v : Mo) (e : SEv A Mo) :
    (s.pushDown c v).say e = (s.say e).pushDown c v := by
  unfold St.pushDown
  show _ = (if c.changed v s.cur = true then _ else _)
  split <;> rfl

theorem loop_reduced (c : Cfg A Mo) {s : St A Mo} {d : Nat} {a : A} {i : Nat} {q : List (Item A)}
    (hq : s.queue = .reduce d a i :: q) (ht : c.throws s.cur a = false) :
    s.loop c = (St.reduced c { s with queue := q } d a i).map (·.pushDown c (c.reducer s.cur a).1) := by
  unfold St.loop St.reduced
  rw [hq]
  dsimp only
  rw [ht]
  simp only [Bool.false_eq_true, if_false, Option.map_map, Function.comp_def, pushDown_say]

/-- The log does not matter. -/
theorem reduced_log (c : Cfg A Mo) {t t' : St A Mo} {d : Nat} {a : A} {i : Nat}
    (h : St.reduced c t d a i = some t') {L : List (SEv A Mo)} (hL : SameLog L t.log) :
    ∃ L', St.reduced c { t with log := L } d a i = some { t' with log := L' } ∧ SameLog L' t'.log ∧
      t'.node = t.node := by
  unfold St.reduced at h ⊢
  dsimp only at h ⊢
  simp only [Option.map_eq_some_iff] at h
  obtain ⟨t1, h1, rfl⟩ := h
  split at h1
  · rename_i he
    rw [if_pos he]
    split at h1
    · rename_i ht
      rw [if_pos ht]
      obtain ⟨q, l, _, n1, n2, n3, n4, hq, hlog, hp⟩ :=
        uni_frame (complete_uni c i) (complete_quiet c i) h1
      have e := hp t.cur t.last t.dirty t.ntf t.queue L
      rw [show { t with log := L } = t.patch t.cur t.last t.dirty t.ntf t.queue L from rfl, e]
      refine ⟨L ++ l ++ [.reduced d t.cur a (c.reducer t.cur a).1 (c.reducer t.cur a).2], ?_, ?_, ?_⟩
      · simp only [Option.map_some, St.say, St.patch]
        rw [n1, n2, n3, n4, hq]
      · show SameLog _ (t1.log ++ _)
        rw [hlog]
        exact (hL.append (.refl l)).snoc _
      · show (t1.cur, t1.last, t1.dirty, t1.ntf) = _
        rw [n1, n2, n3, n4]; rfl
    · rename_i ht
      rw [if_neg ht]
      cases h1
      exact ⟨L ++ [.reduced d t.cur a (c.reducer t.cur a).1 (c.reducer t.cur a).2], rfl, hL.snoc _, rfl⟩
  · rename_i he
    rw [if_neg he]
    cases h1
    exact ⟨L ++ [.reduced d t.cur a (c.reducer t.cur a).1 (c.reducer t.cur a).2], rfl, hL.snoc _, rfl⟩

/-- A task that publishes, when tasks are steps. -/
theorem loop_pubs (c : Cfg A Mo) {s : St A Mo} {it : Item A} {q : List (Item A)} (hq : s.queue = it :: q)
    (hp : Pubs c (some it)) :
    s.loop c = St.after c (pubIf c (some it) { s with queue := q }) (some it) := by
  unfold St.loop
  rw [hq]
  cases it with
  | reduce d a i => exact hp.elim
  | tok => exact hp.elim
  | effect d e i =>
    have h : { s with queue := q }.publish c = pubIf c (some (.effect d e i)) { s with queue := q } := by
      unfold St.publish pubIf sends
      cases c.trans <;> rfl
    dsimp only
    rw [h]
    unfold St.after
    have hn : (pubIf c (some (.effect d e i)) { s with queue := q }).nx = s.nx := by
      unfold pubIf St.sendDown St.notify
      split
      · split <;> split <;> rfl
      · rfl
    rw [hn]
  | publish d i =>
    have h : { s with queue := q }.publish c = pubIf c (some (.publish d i)) { s with queue := q } := by
      unfold St.publish pubIf sends
      cases c.trans <;> rfl
    dsimp only
    rw [h]
    rfl

/-- The log does not matter for what follows. -/
theorem after_log (c : Cfg A Mo) {t t' : St A Mo} {it : Option (Item A)} (h : St.after c t it = some t')
    {L : List (SEv A Mo)} (hL : SameLog L t.log) :
    ∃ L', St.after c { t with log := L } it = some { t' with log := L' } ∧ SameLog L' t'.log := by
  match it, h with
  | none, h => cases h; exact ⟨L, rfl, hL⟩
  | some (.effect d e i), h => cases h; exact ⟨L ++ [.ready d] ++ [.effStart d t.nx e], rfl, (hL.snoc _).snoc _⟩
  | some (.publish d i), h =>
    obtain ⟨q, l, _, n1, n2, n3, n4, hq, hlog, hp⟩ := uni_frame (complete_uni c i) (complete_quiet c i) h
    have e := hp t.cur t.last t.dirty t.ntf t.queue (L ++ [.ready d])
    refine ⟨L ++ [.ready d] ++ l, ?_, ?_⟩
    · refine e.trans ?_
      simp only [St.patch]
      rw [n1, n2, n3, n4, hq]
      rfl
    · rw [hlog]
      exact (hL.snoc _).append (.refl _)

/-- What a task that publishes does to the members and the log, if no notification is pending. -/
theorem pubIf_eq (c : Cfg A Mo) (it : Option (Item A)) {s : St A Mo} (hn : s.ntf = false) :
    pubIf c it s = { s with
      last := (pubIf c it s).last, dirty := (pubIf c it s).dirty, ntf := (pubIf c it s).ntf,
      log := s.log ++ pubLog c it s } := by
  obtain ⟨fu, cur, last, dirty, ntf, queue, ev, sent, tag, nx, log⟩ := s
  dsimp only at hn
  subst hn
  unfold pubIf pubLog St.sendDown St.notify
  cases sends c it <;> cases dirty <;> simp

theorem pubIf_log (c : Cfg A Mo) (it : Option (Item A)) {s : St A Mo} (hn : s.ntf = false) :
    (pubIf c it s).log = s.log ++ pubLog c it s := by rw [pubIf_eq c it hn]

/-- The state after a step of a job with what it does to the one where tasks are steps. -/
theorem PRel.eq_nil {c : Cfg A Mo} {t s : St A Mo} {n : Nat} (h : PRel c ⟨t, [], n⟩ s) : s = { t with log := s.log } := by
  have e := h.patch
  obtain ⟨h1, h2, _⟩ := h.here
  simp only [St.node, Prod.mk.injEq] at h1
  obtain ⟨n1, n2, n3, n4⟩ := h1
  rw [n1, n2, n3, n4, h2] at e
  exact e

theorem PRel.of_log {c : Cfg A Mo} {t : St A Mo} {n : Nat} {L : List (SEv A Mo)} (h : SameLog L t.log) :
    PRel c ⟨t, [], n⟩ { t with log := L } := ⟨rfl, rfl, rfl, rfl, rfl, rfl, rfl, h⟩

theorem PRel.go {c : Cfg A Mo} {t s : St A Mo} {j : Job A Mo} {n : Nat} (hn : s.ntf = false)
    (h : PRel c ⟨t, [j], n⟩ s) {t' : St A Mo} {o : Option (Job A Mo)} (hg : j.go c t = some (t', o)) :
    PRel c ⟨t', o.toList, n⟩ s ∨ ∃ op s', step c s op = some s' ∧ PRel c ⟨t', o.toList, n⟩ s' := by
  have hpat := h.patch
  obtain ⟨f1, f2, f3, f4, f5, hh⟩ := h
  dsimp only at f1 f2 f3 f4 f5
  cases j with
  | reducing d a i =>
    obtain ⟨h1, h2, h3⟩ := hh
    have hh1 := h1
    simp only [St.node, Prod.mk.injEq] at h1
    obtain ⟨n1, n2, n3, n4⟩ := h1
    have hs0 : { s with queue := t.queue } = { t with log := s.log } := by
      rw [n1, n2, n3, n4] at hpat
      rw [hpat]; rfl
    right
    refine ⟨.loop, ?_⟩
    simp only [Job.go] at hg
    by_cases ht : c.throws t.cur a = true
    · rw [if_pos ht] at hg
      cases hg
      refine ⟨{ t with log := s.log }.say (.reduceThrew d t.cur a), ?_, PRel.of_log (h3.snoc _)⟩
      show s.loop c = _
      unfold St.loop
      rw [h2]
      dsimp only
      rw [if_pos (show c.throws s.cur a = true by rw [n1]; exact ht)]
      refine (congrArg (fun x : St A Mo => some (x.say (.reduceThrew d s.cur a))) hs0).trans ?_
      rw [n1]
    · rw [if_neg ht] at hg
      simp only [Option.map_eq_some_iff, Prod.mk.injEq] at hg
      obtain ⟨t1, h4, rfl, rfl⟩ := hg
      obtain ⟨L', h5, h6, h7⟩ := reduced_log c h4 h3
      refine ⟨St.pushDown c { t1 with log := L' } (c.reducer t.cur a).1, ?_, ?_⟩
      · show s.loop c = _
        rw [loop_reduced c h2 (by rw [n1]; simpa using ht), hs0, h5, n1]
        rfl
      · refine ⟨?_, ?_, ?_, ?_, ?_, pushDown_node c (s := { t1 with log := L' }) (t := t1) rfl _, ?_, ?_⟩
        all_goals first
          | (unfold St.pushDown; split <;> rfl)
          | (unfold St.pushDown; split <;> exact h6)
  | pushing v =>
    cases hg
    left
    obtain ⟨h1, h2, h3⟩ := hh
    have e : ∀ x : St A Mo, (x.pushDown c v).fu = x.fu ∧ (x.pushDown c v).ev = x.ev ∧
        (x.pushDown c v).sent = x.sent ∧ (x.pushDown c v).tag = x.tag ∧ (x.pushDown c v).nx = x.nx ∧
        (x.pushDown c v).queue = x.queue ∧ (x.pushDown c v).log = x.log := by
      intro x; unfold St.pushDown; split <;> exact ⟨rfl, rfl, rfl, rfl, rfl, rfl, rfl⟩
    obtain ⟨e1, e2, e3, e4, e5, e6, e7⟩ := e t
    exact ⟨by rw [f1, e1], by rw [f2, e2], by rw [f3, e3], by rw [f4, e4], by rw [f5, e5], h1, by rw [h2, e6],
      by rw [e7]; exact h3⟩
  | sending it =>
    cases hg
    left
    obtain ⟨h1, h2, h3, h4⟩ := hh
    have e : ∀ x : St A Mo, (sendIf c it x).fu = x.fu ∧ (sendIf c it x).ev = x.ev ∧
        (sendIf c it x).sent = x.sent ∧ (sendIf c it x).tag = x.tag ∧ (sendIf c it x).nx = x.nx ∧
        (sendIf c it x).queue = x.queue ∧ (sendIf c it x).log = x.log := by
      intro x; unfold sendIf St.sendDown
      split
      · split <;> exact ⟨rfl, rfl, rfl, rfl, rfl, rfl, rfl⟩
      · exact ⟨rfl, rfl, rfl, rfl, rfl, rfl, rfl⟩
    obtain ⟨e1, e2, e3, e4, e5, e6, e7⟩ := e t
    show PRel c ⟨sendIf c it t, _, n⟩ s
    exact ⟨by rw [f1, e1], by rw [f2, e2], by rw [f3, e3], by rw [f4, e4], by rw [f5, e5], sendIf_node c it h1,
      by rw [h2, e6], by rw [e7]; exact h3, h4⟩
  | notifying it =>
    cases hg
    left
    obtain ⟨h1, h2, h3, h4⟩ := hh
    have e : ∀ x : St A Mo, x.notify.fu = x.fu ∧ x.notify.ev = x.ev ∧
        x.notify.sent = x.sent ∧ x.notify.tag = x.tag ∧ x.notify.nx = x.nx ∧
        x.notify.queue = x.queue := by
      intro x; unfold St.notify
      split <;> exact ⟨rfl, rfl, rfl, rfl, rfl, rfl⟩
    obtain ⟨e1, e2, e3, e4, e5, e6⟩ := e t
    by_cases hs : sends c it = true
    · rw [if_pos hs]
      unfold sendIf at h1
      rw [if_pos hs] at h1
      refine ⟨by rw [f1, e1], by rw [f2, e2], by rw [f3, e3], by rw [f4, e4], by rw [f5, e5], ?_,
        by rw [h2, e6], ?_, h4, ?_⟩
      · unfold pubIf; rw [if_pos hs]; exact notify_node h1
      · have hl : t.notify.log = t.log ++ pubLog c it s := by
          unfold pubLog
          simp only [St.node, Prod.mk.injEq] at h1
          obtain ⟨n1, n2, n3, n4⟩ := h1
          unfold St.notify
          rw [← n2, ← n3, ← n4, hs]
          unfold St.sendDown
          cases hd : s.dirty <;> simp [hn, hd]
        rw [hl]
        exact h3.append (.refl _)
      · simp only [St.node, Prod.mk.injEq] at h1
        obtain ⟨n1, n2, n3, n4⟩ := h1
        rw [← n3, ← n4, hs]
        unfold St.sendDown
        cases hd : s.dirty <;> simp [hn, hd]
    · rw [if_neg hs]
      unfold sendIf at h1
      rw [if_neg hs] at h1
      have hs' : sends c it = false := by simpa using hs
      refine ⟨f1, f2, f3, f4, f5, ?_, h2, ?_, h4, by rw [hs']; rfl⟩
      · unfold pubIf; rw [if_neg hs]; exact h1
      · unfold pubLog; rw [hs']; simpa using h3
  | watching it b =>
    simp only [Job.go, Option.map_eq_some_iff, Prod.mk.injEq] at hg
    obtain ⟨t1, h4, rfl, rfl⟩ := hg
    obtain ⟨h1, h2, h3, h5, h6⟩ := hh
    right
    have key : pubIf c it { s with queue := t.queue } = { t with log := s.log ++ pubLog c it s } := by
      have hn' : { s with queue := t.queue }.ntf = false := hn
      have hnode : (pubIf c it { s with queue := t.queue }).node = t.node :=
        (pubIf_node c it (s := { s with queue := t.queue }) (t := s) rfl).trans h1
      have e := pubIf_eq c it hn'
      simp only [St.node, Prod.mk.injEq] at hnode
      obtain ⟨n1, n2, n3, n4⟩ := hnode
      have e2 : (pubIf c it { s with queue := t.queue }).cur = s.cur := by rw [e]
      rw [e2] at n1
      rw [e, n2, n3, n4, ← f1, ← f2, ← f3, ← f4, ← f5, ← n1] 
      rfl
    obtain ⟨L', h7, h8⟩ := after_log c h4 h3
    match it, h5 with
    | none, h5 =>
      refine ⟨.commit, { t1 with log := L' }, ?_, PRel.of_log h8⟩
      show (if c.trans = true then some s.sendDown.notify else none) = _
      have e1 : { s with queue := t.queue } = s := by rw [show t.queue = s.queue from h2.symm]
      rw [e1] at key
      have e2 : s.sendDown.notify = { t with log := s.log ++ pubLog c none s } := key
      rw [if_pos (show c.trans = true from h5), ← h7, e2]
      rfl
    | some it, h5 =>
      refine ⟨.loop, { t1 with log := L' }, ?_, PRel.of_log h8⟩
      show s.loop c = _
      rw [loop_pubs c (q := t.queue) h2 h5, key, h7]

theorem PRel.raise {c : Cfg A Mo} {t s : St A Mo} {j : Job A Mo} {n : Nat} (hn : s.ntf = false)
    (h : PRel c ⟨t, [j], n⟩ s) {t' : St A Mo} (hg : j.raise t = some t') :
    ∃ s', step c s .loopRaise = some s' ∧ PRel c ⟨t', [], n⟩ s' := by
  obtain ⟨f1, f2, f3, f4, f5, hh⟩ := h
  dsimp only at f1 f2 f3 f4 f5
  have key : ∀ it : Item A, (pubIf c (some it) s).node = t.node →
      pubIf c (some it) { s with queue := t.queue } = { t with log := s.log ++ pubLog c (some it) s } := by
    intro it h1
    have hn' : { s with queue := t.queue }.ntf = false := hn
    have hnode : (pubIf c (some it) { s with queue := t.queue }).node = t.node :=
      (pubIf_node c (some it) (s := { s with queue := t.queue }) (t := s) rfl).trans h1
    have e := pubIf_eq c (some it) hn'
    simp only [St.node, Prod.mk.injEq] at hnode
    obtain ⟨n1, n2, n3, n4⟩ := hnode
    have e2 : (pubIf c (some it) { s with queue := t.queue }).cur = s.cur := by rw [e]
    rw [e2] at n1
    rw [e, n2, n3, n4, ← f1, ← f2, ← f3, ← f4, ← f5, ← n1]
    rfl
  match j, hg, hh with
  | .watching (some (.effect d e i)) true, hg, ⟨h1, h2, h3, _, h6⟩ =>
    cases hg
    have h6 := h6.symm
    simp only [sends, Bool.and_eq_true, Bool.not_eq_true'] at h6
    refine ⟨{ t with log := s.log ++ pubLog c (some (.effect d e i)) s ++ [.lost d (some e)] }, ?_,
      PRel.of_log (h3.snoc _)⟩
    show s.loopRaise c = _
    unfold St.loopRaise
    rw [show s.queue = .effect d e i :: t.queue from h2]
    dsimp only
    rw [if_pos h6]
    have e1 : { s with queue := t.queue }.publish c = pubIf c (some (.effect d e i)) { s with queue := t.queue } := by
      unfold St.publish pubIf sends
      rw [h6.1]; rfl
    rw [e1, key _ h1]
    rfl
  | .watching (some (.publish d i)) true, hg, ⟨h1, h2, h3, _, h6⟩ =>
    cases hg
    have h6 := h6.symm
    simp only [sends, Bool.and_eq_true, Bool.not_eq_true'] at h6
    refine ⟨{ t with log := s.log ++ pubLog c (some (.publish d i)) s ++ [.lost d none] }, ?_,
      PRel.of_log (h3.snoc _)⟩
    show s.loopRaise c = _
    unfold St.loopRaise
    rw [show s.queue = .publish d i :: t.queue from h2]
    dsimp only
    rw [if_pos h6]
    have e1 : { s with queue := t.queue }.publish c = pubIf c (some (.publish d i)) { s with queue := t.queue } := by
      unfold St.publish pubIf sends
      rw [h6.1]; rfl
    rw [e1, key _ h1]
    rfl

theorem PRel.begin {c : Cfg A Mo} {t s : St A Mo} {n : Nat} (h : PRel c ⟨t, [], n⟩ s) {p' : Par A Mo}
    (hb : Par.begin ⟨t, [], n⟩ = some p') :
    PRel c p' s ∨ ∃ s', step c s .loop = some s' ∧ PRel c p' s' := by
  obtain ⟨f1, f2, f3, f4, f5, h1, h2, h3⟩ := h
  have hs := PRel.eq_nil (c := c) (n := n) ⟨f1, f2, f3, f4, f5, h1, h2, h3⟩
  dsimp only at f1 f2 f3 f4 f5 h2
  unfold Par.begin at hb
  dsimp only at hb
  cases hq : t.queue with
  | nil => rw [hq] at hb; cases hb
  | cons it q =>
    rw [hq] at hb
    rw [hq] at h2
    cases it with
    | reduce d a i => cases hb; exact .inl ⟨f1, f2, f3, f4, f5, h1, h2, h3⟩
    | effect d e i => cases hb; exact .inl ⟨f1, f2, f3, f4, f5, h1, h2, h3, trivial⟩
    | publish d i => cases hb; exact .inl ⟨f1, f2, f3, f4, f5, h1, h2, h3, trivial⟩
    | tok =>
      right
      simp only [Option.map_eq_some_iff] at hb
      obtain ⟨t', ht, rfl⟩ := hb
      obtain ⟨q', l, _, n1, n2, n3, n4, hq', hlog, hp⟩ :=
        uni_frame (runTask_uni 0) (fun _ _ h => Quiet.of_eq (runTask_toks h).log) ht
      have e := hp t.cur t.last t.dirty t.ntf q s.log
      refine ⟨{ t' with log := s.log ++ l }, ?_, ?_⟩
      · show s.loop c = _
        unfold St.loop
        rw [h2]
        dsimp only
        have e1 : { s with queue := q } = St.patch { t with queue := q } t.cur t.last t.dirty t.ntf q s.log := by
          rw [hs]; rfl
        rw [e1]
        refine e.trans ?_
        simp only [St.patch]
        rw [show t.cur = t'.cur from n1.symm, show t.last = t'.last from n2.symm,
          show t.dirty = t'.dirty from n3.symm, show t.ntf = t'.ntf from n4.symm, hq']
      · refine PRel.of_log ?_
        rw [hlog]
        exact h3.append (.refl _)

/-- With one thread in tasks, the same can be reached when tasks are steps. -/
theorem Par.Reach.rel {c : Cfg A Mo} (hc : c.sound) {p : Par A Mo} (r : Par.Reach c 1 p) :
    ∃ s, Store.Reach c s ∧ PRel c p s := by
  induction r with
  | start => exact ⟨_, .start, rfl, rfl, rfl, rfl, rfl, rfl, rfl, .refl _⟩
  | @step p p' op _ hs ih =>
    obtain ⟨s, hr, h⟩ := ih
    have hn := (hr.core hc).ntf
    obtain ⟨t, js, n⟩ := p
    cases op with
    | begin =>
      simp only [Par.step] at hs
      split at hs
      · rename_i hl
        have hj : js = [] := List.length_eq_zero_iff.1 (by simpa using hl)
        subst hj
        rcases h.begin hs with h' | ⟨s', h1, h2⟩
        · exact ⟨s, hr, h'⟩
        · exact ⟨s', hr.step _ h1, h2⟩
      · cases hs
    | commit =>
      simp only [Par.step] at hs
      split at hs
      · rename_i hl
        have hj : js = [] := List.length_eq_zero_iff.1 (by have := hl.1; simpa using this)
        subst hj
        cases hs
        obtain ⟨f1, f2, f3, f4, f5, h1, h2, h3⟩ := h
        exact ⟨s, hr, f1, f2, f3, f4, f5, h1, h2, h3, hl.2⟩
      · cases hs
    | go k =>
      simp only [Par.step] at hs
      split at hs
      · cases hs
      · rename_i j hj
        simp only [Option.map_eq_some_iff] at hs
        obtain ⟨⟨t', o⟩, hg, rfl⟩ := hs
        match js, k, hj, h with
        | [x], 0, hj, h =>
          cases hj
          rcases h.go hn hg with h' | ⟨op, s', h1, h2⟩
          · cases o <;> exact ⟨s, hr, h'⟩
          · cases o <;> exact ⟨s', hr.step op h1, h2⟩
        | [], k, hj, _ => simp at hj
        | [x], k + 1, hj, _ => simp at hj
        | x :: y :: l, _, _, h => exact (by cases x <;> exact h.here.elim)
    | raise k =>
      simp only [Par.step] at hs
      split at hs
      · cases hs
      · rename_i j hj
        simp only [Option.map_eq_some_iff] at hs
        obtain ⟨t', hg, rfl⟩ := hs
        match js, k, hj, h with
        | [x], 0, hj, h =>
          cases hj
          obtain ⟨s', h1, h2⟩ := h.raise hn hg
          exact ⟨s', hr.step _ h1, h2⟩
        | [], k, hj, _ => simp at hj
        | [x], k + 1, hj, _ => simp at hj
        | x :: y :: l, _, _, h => exact (by cases x <;> exact h.here.elim)
    | user op =>
      simp only [Par.step] at hs
      split at hs
      · rename_i hu
        simp only [Option.map_eq_some_iff] at hs
        obtain ⟨t', h1, rfl⟩ := hs
        obtain ⟨s', h2, h3⟩ := h.user hu h1
        exact ⟨s', hr.step op h2, h3⟩
      · cases hs
    | peek =>
      cases hs
      exact ⟨s, hr, h.fu, h.ev, h.sent, h.tag, h.nx, h.here⟩
    | peeked =>
      simp only [Par.step] at hs
      split at hs
      · cases hs
      · cases hs
        exact ⟨s, hr, h.fu, h.ev, h.sent, h.tag, h.nx, h.here⟩

/-- At most as many threads are in tasks as there are. -/
theorem Par.Reach.jobs {c : Cfg A Mo} {w : Nat} {p : Par A Mo} (r : Par.Reach c w p) : p.jobs.length ≤ w := by
  induction r with
  | start => exact Nat.zero_le _
  | @step p p' op _ hs ih =>
    cases op with
    | begin =>
      simp only [Par.step] at hs
      split at hs
      · rename_i hl
        unfold Par.begin at hs
        split at hs
        · cases hs
        · cases hs; simp only [List.length_append, List.length_singleton]; omega
        · simp only [Option.map_eq_some_iff] at hs
          obtain ⟨_, _, rfl⟩ := hs
          exact ih
        · cases hs; simp only [List.length_append, List.length_singleton]; omega
      · cases hs
    | commit =>
      simp only [Par.step] at hs
      split at hs
      · rename_i hl
        cases hs; simp only [List.length_append, List.length_singleton]; omega
      · cases hs
    | go k =>
      simp only [Par.step] at hs
      split at hs
      · cases hs
      · simp only [Option.map_eq_some_iff] at hs
        obtain ⟨⟨t', o⟩, _, rfl⟩ := hs
        cases o with
        | some j => simpa using ih
        | none =>
          show (p.jobs.eraseIdx k).length ≤ w
          have := List.length_eraseIdx_le p.jobs k
          omega
    | raise k =>
      simp only [Par.step] at hs
      split at hs
      · cases hs
      · simp only [Option.map_eq_some_iff] at hs
        obtain ⟨t', _, rfl⟩ := hs
        show (p.jobs.eraseIdx k).length ≤ w
        have := List.length_eraseIdx_le p.jobs k
        omega
    | user op =>
      simp only [Par.step] at hs
      split at hs
      · simp only [Option.map_eq_some_iff] at hs
        obtain ⟨t', _, rfl⟩ := hs
        exact ih
      · cases hs
    | peek => cases hs; exact ih
    | peeked =>
      simp only [Par.step] at hs
      split at hs
      · cases hs
      · cases hs; exact ih

end Verif.Store
