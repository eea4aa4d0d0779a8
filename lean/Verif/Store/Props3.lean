import Verif.Store.Props2
import Verif.Store.PromiseReach

/-!
Property C52: the future that `dispatch` returns.

`Promised st d s` says that `s` is the promise state of the future that dispatch number `d` has returned;
`C52_returns` shows that it is what it says.
-/

namespace Verif.Store

open Verif.Future (Fulfilled CanFulfil)

variable {A Mo : Type}

theorem mem_disp {d : Nat} {a : A} {l : List (SEv A Mo)} :
    SEv.dispatched d a ∈ l ↔ (d, a) ∈ disp l := by
  induction l with
  | nil => simp [disp]
  | cons x l ih => cases x <;> simp [disp, ih]

theorem mem_red {d : Nat} {a : A} {l : List (SEv A Mo)} :
    (d, a) ∈ red l ↔ (∃ m m' e, SEv.reduced d m a m' e ∈ l) ∨ ∃ m, SEv.reduceThrew d m a ∈ l := by
  induction l with
  | nil => simp [red]
  | cons x l ih =>
    cases x with
    | reduced d' m0 a' m1 e' =>
      simp only [red, List.mem_cons, Prod.mk.injEq, ih, SEv.reduced.injEq, reduceCtorEq, false_or]
      constructor
      · rintro (⟨rfl, rfl⟩ | ⟨m, m', e, h⟩ | h)
        · exact Or.inl ⟨m0, m1, e', Or.inl ⟨rfl, rfl, rfl, rfl, rfl⟩⟩
        · exact Or.inl ⟨m, m', e, Or.inr h⟩
        · exact Or.inr h
      · rintro (⟨m, m', e, ⟨h1, _, h2, _⟩ | h⟩ | h)
        · exact Or.inl ⟨h1, h2⟩
        · exact Or.inr (Or.inl ⟨m, m', e, h⟩)
        · exact Or.inr (Or.inr h)
    | reduceThrew d' m0 a' =>
      simp only [red, List.mem_cons, Prod.mk.injEq, ih, SEv.reduceThrew.injEq, reduceCtorEq, false_or]
      constructor
      · rintro (⟨rfl, rfl⟩ | h | ⟨m, h⟩)
        · exact Or.inr ⟨m0, Or.inl ⟨rfl, rfl, rfl⟩⟩
        · exact Or.inl h
        · exact Or.inr ⟨m, Or.inr h⟩
      · rintro (h | ⟨m, ⟨h1, _, h2⟩ | h⟩)
        · exact Or.inr (Or.inl h)
        · exact Or.inl ⟨h1, h2⟩
        · exact Or.inr (Or.inr ⟨m, h⟩)
    | _ => simp [red, ih]

theorem nodup_keys {l : List (Nat × A)} (h : (l.map (·.1)).Nodup) {d : Nat} {a b : A} (ha : (d, a) ∈ l)
    (hb : (d, b) ∈ l) : a = b := by
  induction l with
  | nil => cases ha
  | cons x l ih =>
    rw [List.map_cons, List.nodup_cons] at h
    rcases List.mem_cons.1 ha with rfl | ha'
    · rcases List.mem_cons.1 hb with hb' | hb'
      · cases hb'; rfl
      · exact absurd (List.mem_map.2 ⟨_, hb', rfl⟩) h.1
    · rcases List.mem_cons.1 hb with rfl | hb'
      · exact absurd (List.mem_map.2 ⟨_, ha', rfl⟩) h.1
      · exact ih h.2 ha' hb'

/-- What is reduced is what was dispatched. -/
theorem reduced_action {c : Cfg A Mo} (hc : c.sound) {st : St A Mo} (r : Reach c st) {d : Nat} {a b : A}
    {m m' : Mo} {e : Eff} (h : SEv.dispatched d a ∈ st.log) (h' : SEv.reduced d m b m' e ∈ st.log) :
    b = a := by
  have k := r.core hc
  have h1 : (d, b) ∈ disp st.log := by
    rw [k.order]
    exact List.mem_append_left _ (mem_red.2 (Or.inl ⟨m, m', e, h'⟩))
  refine nodup_keys ?_ h1 (mem_disp.1 h)
  rw [k.nums]
  exact List.nodup_range

/-- What becomes of the call of the reducer for a dispatch is unique. -/
theorem callred_unique {c : Cfg A Mo} (hc : c.sound) {st : St A Mo} (r : Reach c st) {d : Nat}
    {u v : SEv A Mo} (hu : u ∈ st.log) (hv : v ∈ st.log)
    (h : (∃ m a m' e, u = .reduced d m a m' e) ∨ ∃ m a, u = .reduceThrew d m a)
    (h' : (∃ m a m' e, v = .reduced d m a m' e) ∨ ∃ m a, v = .reduceThrew d m a) : u = v := by
  have k := r.core hc
  have h1 := k.red_count d
  let p : SEv A Mo → Bool := fun v => match v with
    | .reduced d' _ _ _ _ => d' == d
    | .reduceThrew d' _ _ => d' == d
    | _ => false
  have h2 : ((red st.log).map (·.1)).count d = st.log.countP p := by
    generalize st.log = l
    induction l with
    | nil => rfl
    | cons v l ih => cases v <;> simp [red, List.countP_cons, List.count_cons, ih, p]
  rw [h2] at h1
  have hp : ∀ {u : SEv A Mo}, ((∃ m a m' e, u = .reduced d m a m' e) ∨ ∃ m a, u = .reduceThrew d m a) →
      p u = true := by
    rintro u (⟨_, _, _, _, rfl⟩ | ⟨_, _, rfl⟩) <;> simp [p]
  exact countP_unique h1 hu hv (hp h) (hp h')

/-- What the reducer has returned for a dispatch is unique. -/
theorem reduced_unique {c : Cfg A Mo} (hc : c.sound) {st : St A Mo} (r : Reach c st) {d : Nat} {a b : A}
    {m m' n n' : Mo} {e f : Eff} (h : SEv.reduced d m a m' e ∈ st.log)
    (h' : SEv.reduced d n b n' f ∈ st.log) : SEv.reduced d m a m' e = SEv.reduced d n b n' f := by
  exact callred_unique hc r h h' (Or.inl ⟨_, _, _, _, rfl⟩) (Or.inl ⟨_, _, _, _, rfl⟩)

/-- The reducer does not both return and throw. -/
theorem reduced_not_threw {c : Cfg A Mo} (hc : c.sound) {st : St A Mo} (r : Reach c st) {d : Nat} {a : A}
    {m m' : Mo} {e : Eff} (h : SEv.reduced d m a m' e ∈ st.log) : ¬ ReducerThrew st d := by
  rintro ⟨n, b, h'⟩
  have := callred_unique hc r h h' (Or.inl ⟨_, _, _, _, rfl⟩) (Or.inr ⟨_, _, rfl⟩)
  cases this

/-- C52: `dispatch` returns a future with a new promise, that of this dispatch, which is not fulfilled
yet. -/
theorem C52_returns {c : Cfg A Mo} (hc : c.sound) (hF : c.hasF = true) {st st' : St A Mo}
    (r : Reach c st) {a : A} (h : step c st (.dispatch a) = some st') :
    ∃ d s, st'.fu.futs = st.fu.futs ++ [some s] ∧ s = st.fu.size ∧ Promised st' d s ∧
      SEv.dispatched d a ∈ st'.log ∧ (∀ b, SEv.dispatched d b ∉ st.log) ∧ ¬ Fulfilled st'.fu s := by
  have k := r.core hc
  simp only [step, St.dispatch, Option.map_eq_some_iff, hF, if_true] at h
  obtain ⟨s0, h, rfl⟩ := h
  have h1 := (fstep_fu h).1
  have h2 : s0.fu = { st.fu with
      size := st.fu.size + 1
      cell := Future.upd st.fu.cell st.fu.size ⟨0, false, none, none⟩
      proms := st.fu.proms ++ [some st.fu.size]
      futs := st.fu.futs ++ [some st.fu.size] } := by
    generalize s0.fu = fu1 at h1
    cases Future.step_out h1; rfl
  refine ⟨st.sent.length, st.fu.size, ?_, rfl, ⟨st.fu.proms.length, ?_⟩, ?_, ?_, ?_⟩
  · show s0.fu.futs = _
    rw [h2]
  · show (st.sent ++ [_])[st.sent.length]? = _
    simp
  · exact List.mem_append_right _ (List.mem_singleton.2 rfl)
  · intro b hb
    have h3 : st.sent.length ∈ (disp st.log).map (·.1) := List.mem_map.2 ⟨_, mem_disp.1 hb, rfl⟩
    rw [k.nums] at h3
    simp at h3
  · show ¬ (s0.fu.cell st.fu.size).done = true
    rw [h2]
    simp [Future.upd]

/-- C52: when the future of a dispatch is fulfilled, the reducer has been called with its action; in stores
that are not transactional the watchers have been called since with a model that includes it; if there is
an effect, it has been called and has returned; all its user code, whatever it was sequenced of, has been
called and has returned; and if it has returned futures, they are fulfilled. -/
theorem C52_after {c : Cfg A Mo} (hc : c.sound) (hb : c.built) (hF : c.hasF = true) {st : St A Mo}
    (r : Reach c st) (hu : st.fu.ub = false) {d s : Nat} {a : A} (ha : SEv.dispatched d a ∈ st.log)
    (hp : Promised st d s) (hd : Fulfilled st.fu s) :
    ∃ m m' e, SEv.reduced d m a m' e ∈ st.log ∧
      (c.trans = false → ∃ l1 l2, st.log = l1 ++ .ready d :: l2 ∧ SEv.reduced d m a m' e ∈ l1 ∧
        lastShown c.init l1 = fold c (reductions l1)) ∧
      (e.isEmpty = false → ∃ x o, SEv.effStart d x e ∈ st.log ∧ SEv.effEnd d o ∈ st.log ∧
        (∀ g, o = some g → Fulfilled st.fu g) ∧ ran x st.log = e.acts ∧ Settled st x) := by
  obtain ⟨i, hs⟩ := hp
  have k := r.pi hF hu
  have kc := r.core hc
  have hready : SEv.ready d ∈ st.log → ∀ {m m' e}, SEv.reduced d m a m' e ∈ st.log →
      c.trans = false → ∃ l1 l2, st.log = l1 ++ .ready d :: l2 ∧ SEv.reduced d m a m' e ∈ l1 ∧
        lastShown c.init l1 = fold c (reductions l1) := by
    intro h m m' e hr ht
    obtain ⟨l1, l2, hl⟩ := List.append_of_mem h
    obtain ⟨m0, a0, m1, e0, h1⟩ := k.q.rdy l1 d l2 hl
    have h2 : SEv.reduced d m0 a0 m1 e0 ∈ st.log := by rw [hl]; exact List.mem_append_left _ h1
    rw [← reduced_unique hc r hr h2] at h1
    exact ⟨l1, l2, hl, h1, kc.log l1 _ l2 hl ht⟩
  rcases k.p.done d i s hs hd with ⟨m, a', m', e, h1, h2, h3⟩ | ⟨x, o, ⟨m, a', m', e, h1, h2, h3, h4⟩, h5, h6⟩
  · have := reduced_action hc r ha h1
    subst this
    exact ⟨m, m', e, h1, fun ht => hready (h3 ht) h1 ht, fun h => by rw [h2] at h; cases h⟩
  · have := reduced_action hc r ha h1
    subst this
    refine ⟨m, m', e, h1, hready h3 h1, fun _ => ⟨x, o, h4, h5, fun g hg => (h6 g hg).2, ?_⟩⟩
    exact (C53_effect hc hb r hu h4).2.2 o h5 (fun g hg => (h6 g hg).2)

/-- C52: the future of a dispatch is fulfilled at most once.  When it is, nothing holds its promise any more,
and the store never calls it in vain. -/
theorem C52_once {c : Cfg A Mo} (hF : c.hasF = true) {st : St A Mo}
    (r : Reach c st) (hu : st.fu.ub = false) {d i s : Nat} (hs : st.sent[d]? = some (i, s)) :
    (Fulfilled st.fu s → ¬ CanFulfil st.fu s) ∧ Future.Ev.threw i ∉ st.fu.log := by
  have k := r.pi hF hu
  refine ⟨fun hd hcf => ?_, k.p.thr d i s hs⟩
  have hsrc : ∀ {g : Nat} {t : Future.Task}, Future.TaskOK st.fu g t → t.p = s → False := by
    intro g t h1 h2
    have h3 := (k.fi.att _ _ _ _ h1).2.2.2.1
    rw [h2, (k.p.made _ _ _ hs).2.2] at h3
    cases h3
  have hone : ∀ {g : Nat} {t : Future.Task}, Future.TaskOK st.fu g t → t.fn = .prom s →
      st.fu.here g t.c = 0 ∧ st.fu.queued (st.fu.cell g).loop t.c = 0 := by
    intro g t h1 h2
    unfold Future.TaskOK at h1
    rw [h2] at h1
    have h3 := k.fi.one _ _ _ _ h1
    have h4 : 0 < st.fu.starts t.c := List.count_pos_iff.2 (k.p.stt _ _ _ _ _ _ hs hd h1)
    omega
  rcases hcf with h | ⟨g, t, h, hp⟩ | ⟨l, t, h, hp⟩ | ⟨f, hf, ⟨t, rfl⟩ | ⟨t, hp, h⟩⟩
  · obtain ⟨j, hj⟩ := List.mem_iff_getElem?.1 h
    have := (k.p.held _ _ _ _ hs hj).1
    rw [show (st.fu.cell s).done = true from hd] at this
    cases this
  · have h1 := (k.fi.stored _ _ h).2.2
    rcases hp with hp | hp
    · have := (hone h1 hp).1
      simp [Future.M.here, h] at this
    · exact hsrc h1 hp
  · obtain ⟨g, h1, _, h3⟩ := k.fi.queued _ _ h
    rcases hp with hp | hp
    · have h4 := (hone h1 hp).2
      rw [h3] at h4
      have : 0 < st.fu.queued l t.c := List.countP_pos_iff.2 ⟨t, h, by simp⟩
      omega
    · exact hsrc h1 hp
  · have := k.p.sat _ _ _ _ hs hf
    rw [show (st.fu.cell s).done = true from hd] at this
    cases this
  · have h1 := k.fi.frames f hf
    rcases h with rfl | ⟨r, rfl⟩ | ⟨q, rfl⟩
    · obtain ⟨g, h2, _⟩ := h1; exact hsrc h2 hp
    · obtain ⟨⟨g, h2, _⟩, _⟩ := h1; exact hsrc h2 hp
    · obtain ⟨⟨g, h2, _⟩, _⟩ := h1; exact hsrc h2 hp

/-- Only what holds a promise fulfils it. -/
theorem fulfil_can {m m' : Future.M} {op : Future.Op} (i : Future.Inv m) (h : Future.step m op = some m')
    (hu : m'.ub = false) {s : Nat} (h1 : ¬ Fulfilled m s) (h2 : Fulfilled m' s) : CanFulfil m s := by
  rcases Future.out_done i hu (Future.step_out h) h2 with h | h
  · exact absurd h h1
  · cases h with
    | obj hp => exact Or.inl (List.mem_of_getElem? hp)
    | «then» _ hp => exact Or.inl (List.mem_of_getElem? hp)
    | ret hk _ => exact Or.inr (Or.inr (Or.inr ⟨_, List.mem_of_getElem? hk, Or.inr ⟨_, rfl, Or.inr (Or.inl ⟨_, rfl⟩)⟩⟩))
    | sat hk => exact Or.inr (Or.inr (Or.inr ⟨_, List.mem_of_getElem? hk, Or.inl ⟨_, rfl⟩⟩))

/-- C52: a future that is fulfilled stays so. -/
theorem C52_stays {c : Cfg A Mo} {st st' : St A Mo} {op : SOp A} (r : Reach c st)
    (h : step c st op = some st') (hu : st'.fu.ub = false) (hF : c.hasF = true) {d s : Nat}
    (hp : Promised st d s) : Promised st' d s ∧ (Fulfilled st.fu s → Fulfilled st'.fu s) := by
  obtain ⟨i, hs⟩ := hp
  have hu0 := step_ub h hu
  have k := r.pi hF hu0
  have k' := (r.step op h).pi hF hu
  have hlt := (k.p.made d i s hs).2.1
  refine ⟨⟨i, ?_⟩, ?_⟩
  · have : st'.sent = st.sent ∨ ∃ y, st'.sent = st.sent ++ [y] := by
      have ft : ∀ {s s1 : St A Mo} {o : Future.Op}, s.fstep o = some s1 → s1.sent = s.sent :=
        fun h => (fstep_toks h).sent
      cases op with
      | dispatch a =>
        simp only [step, St.dispatch, Option.map_eq_some_iff] at h
        obtain ⟨s0, h, rfl⟩ := h
        exact Or.inr ⟨_, rfl⟩
      | loop =>
        left
        simp only [step] at h
        unfold St.loop at h
        split at h
        · cases h
        · dsimp only at h
          split at h
          · cases h; rfl
          simp only [Option.map_eq_some_iff] at h
          obtain ⟨s0, h, rfl⟩ := h
          show (s0.pushDown c _).sent = _
          rw [show (s0.pushDown c (c.reducer st.cur _).1).sent = s0.sent by unfold St.pushDown; split <;> rfl]
          split at h
          · split at h
            · exact (complete_toks h).sent
            · cases h; rfl
          · cases h; rfl
        · cases h
          exact (publish_fields c _).2.1
        · exact (complete_toks h).sent.trans (publish_fields c _).2.1
        · exact (runTask_toks h).sent
      | loopRaise =>
        left
        obtain ⟨x, q, d', o, _, _, _, _, rfl⟩ := loopRaise_some h
        exact (publish_fields c _).2.1
      | other l =>
        left
        simp only [step] at h
        split at h
        · cases h
        · exact (runTask_toks h).sent
      | fut op =>
        left
        simp only [step] at h
        split at h
        · exact ft h
        · cases h
      | go n =>
        left
        simp only [step] at h
        split at h
        · cases h
        · unfold St.go at h
          dsimp only at h
          split at h
          · cases h
          · cases h; rfl
          · cases h; rfl
          · cases h; rfl
          · cases h
          · split at h
            · split at h
              · simp only [Option.map_eq_some_iff] at h
                obtain ⟨_, h, rfl⟩ := h
                have := ft h; exact this
              · cases h; rfl
            · split at h
              · simp only [hF, if_true] at h
                split at h
                · have := ft h; exact this
                · have := ft h; exact this
              · simp only [Option.bind_eq_some_iff] at h
                obtain ⟨w, _, h⟩ := h
                split at h
                · have := ft h; exact this
                · simp only [Option.bind_eq_some_iff] at h
                  obtain ⟨s1, h, h2⟩ := h
                  have h := ft h
                  exact (ft h2).trans h
      | prim n o =>
        left
        simp only [step] at h
        split at h
        · split at h
          · cases h; rfl
          · cases h
        · cases h
      | raise n =>
        left
        simp only [step] at h
        split at h
        · cases h; rfl
        · simp only [Option.bind_eq_some_iff] at h
          obtain ⟨_, _, h⟩ := h
          have := ft h; exact this
        · cases h
      | commit =>
        left
        simp only [step] at h
        split at h
        · cases h; exact (send_fields st).2.1
        · cases h
    rcases this with e | ⟨y, e⟩
    · rw [e]; exact hs
    · rw [e, List.getElem?_append_left (List.getElem?_eq_some_iff.1 hs).1]; exact hs
  · intro hd
    obtain ⟨ops, h⟩ := step_fu h
    clear k' hs
    have : ∀ {ops : List Future.Op} {m m' : Future.M}, Future.Inv m → Future.exec m ops = some m' →
        m'.ub = false → s < m.size → Fulfilled m s → Fulfilled m' s := by
      intro ops
      induction ops with
      | nil => intro m m' _ h _ _ hd; cases h; exact hd
      | cons op ops ih =>
        intro m m' i h hu hlt hd
        simp only [Future.exec, Option.bind_eq_some_iff] at h
        obtain ⟨m1, h1, h2⟩ := h
        have hu1 : m1.ub = false := by
          cases ops with
          | nil => cases h2; exact hu
          | cons op' ops =>
            simp only [Future.exec, Option.bind_eq_some_iff] at h2
            obtain ⟨_, h, _⟩ := h2
            exact Future.step_ub h
        have l := Future.step_le i h1 hu1
        exact ih (Future.inv_step i h1 hu1) h2 hu (Nat.lt_of_lt_of_le hlt l.size) (l.done s hlt hd)
    exact this k.fi h hu hlt hd

/-- C52: the future of every dispatch is fulfilled in the end.  When nothing is left to do, it is, unless the
reducer, a watcher or the effect of the dispatch has thrown, or the effect has returned a future that is not
fulfilled. -/
theorem C52_completes {c : Cfg A Mo} (hc : c.sound) (hF : c.hasF = true) {st : St A Mo}
    (r : Reach c st) (hu : st.fu.ub = false) (hi : st.idle) (hq : st.quiet) {d s : Nat}
    (hp : Promised st d s) (hr : ¬ ReducerThrew st d) (hl : ¬ Lost st d)
    (ht : ∀ x e, SEv.effStart d x e ∈ st.log → ¬ Threw st x)
    (hf : ∀ g, SEv.effEnd d (some g) ∈ st.log → Fulfilled st.fu g) : Fulfilled st.fu s := by
  obtain ⟨i, hs⟩ := hp
  have k := r.pi hF hu
  have kc := r.core hc
  have hi : st.queue = [] := hi
  have h1 : d ∈ (red st.log).map (·.1) := by
    have h2 : red st.log = disp st.log := by
      rw [kc.order, hi]; simp [pend]
    rw [h2, kc.nums]
    exact List.mem_range.2 (List.getElem?_eq_some_iff.1 hs).1
  obtain ⟨⟨d', a⟩, h2, h3⟩ := List.mem_map.1 h1
  have h3 : d' = d := h3
  subst h3
  obtain ⟨m, m', e, h4⟩ := (mem_red.1 h2).resolve_right fun ⟨m, h⟩ => hr ⟨m, a, h⟩
  cases he : e.isEmpty with
  | true =>
    rcases k.q.empty d' i s m a m' e hs h4 he with h | h | h
    · exact h
    · rw [hi] at h; cases h
    · exact absurd h hl
  | false =>
    have h5 : 0 < redEff d' st.log := redEff_pos.2 ⟨m, a, m', e, h4, he⟩
    have h6 := kc.effs d'
    rw [hi] at h6
    have h0 : lostEff d' st.log = 0 := by
      rcases Nat.eq_zero_or_pos (lostEff d' st.log) with h | h
      · exact h
      · obtain ⟨e, h⟩ := lostEff_pos h
        exact absurd ⟨_, h⟩ hl
    have h7 : 0 < effRuns d' st.log := by simp only [qEff] at h6; omega
    have h8 : ∀ {l : List (SEv A Mo)}, 0 < effRuns d' l → ∃ x e, SEv.effStart d' x e ∈ l := by
      intro l
      induction l with
      | nil => intro h; cases h
      | cons v l ih =>
        intro h
        cases v with
        | effStart d'' x e =>
          by_cases hdd : d'' = d'
          · subst hdd; exact ⟨x, e, List.mem_cons_self⟩
          · simp only [effRuns, if_neg hdd, Nat.zero_add] at h
            obtain ⟨x, e, h⟩ := ih h
            exact ⟨x, e, List.mem_cons_of_mem _ h⟩
        | _ =>
          obtain ⟨x, e, h⟩ := ih h
          exact ⟨x, e, List.mem_cons_of_mem _ h⟩
    obtain ⟨x, e', h9⟩ := h8 h7
    rcases k.q.run d' x e' h9 with ⟨f, h, _⟩ | ⟨o, h⟩ | ⟨pos, h⟩
    · rw [hq.2.2] at h; cases h
    · cases o with
      | none => exact k.p.cnone d' i s hs h
      | some g =>
        obtain ⟨cl, p, h10⟩ := k.p.csome d' i s g hs h
        exact Future.quiet_prom r.fut hu hq.1 hq.2.1 h10 (hf g h)
    · exact absurd ⟨pos, h⟩ (ht x e' h9)

/-! The example of C53 with futures: the promise of the first part of the effect is promise object 1. -/

def exFutOps : List (SOp Nat) :=
  [.dispatch 5, .loop, .loop, .go 0, .go 0, .go 0, .fut (.newPair 0), .prim 0 (some 1), .go 0, .go 0, .go 0,
   .fut (.fulfil 1), .loop, .go 0, .prim 0 none, .go 0, .fut (.lib 0), .loop, .go 0, .prim 0 none, .go 0,
   .fut (.lib 0), .loop, .fut (.lib 0), .fut (.lib 0)]

theorem exSeqCfg_sound (f : Bool) : (exSeqCfg f).sound := by
  intro v w h
  simpa [exSeqCfg] using h

theorem exFut_reach : Reach (exSeqCfg true) (exSt (exSeqCfg true) exFutOps) := exSt_reach (by decide +kernel)

theorem exFut_quiet : (exSt (exSeqCfg true) exFutOps).quiet :=
  quiet_of (exFut_reach.seq (exSeqCfg_built true) (by decide +kernel)).fi (by decide +kernel)
    (by decide +kernel) (by decide +kernel) (by decide +kernel)

/-- It is fulfilled at the end … -/
example : (exSt (exSeqCfg true) exFutOps).sent[0]? = some (0, 0) ∧
    ((exSt (exSeqCfg true) exFutOps).fu.cell 0).done = true ∧
    (exSt (exSeqCfg true) exFutOps).queue.isEmpty = true ∧
    SEv.dispatched 0 5 ∈ (exSt (exSeqCfg true) exFutOps).log ∧
    (exSt (exSeqCfg true) exFutOps).fu.ub = false := by decide +kernel

/-- … and not one step before. -/
example : ((exSt (exSeqCfg true) (exFutOps.take 23)).fu.cell 0).done = false ∧
    (exec (exSeqCfg true) (start (exSeqCfg true)) (exFutOps.take 23)).isSome = true := by decide +kernel

/-! ### C54 -/

/-- C54: a null effect that the reducer returns, alone or in a sequence, is not skipped: the future of the dispatch
is never fulfilled. -/
theorem C54_null {c : Cfg A Mo} (hc : c.sound) (hb : c.built) (hF : c.hasF = true) {st : St A Mo} (r : Reach c st)
    (hu : st.fu.ub = false) {d s : Nat} {a : A} {e : Eff} (ha : Returned st d a e) {id : Nat} (he : id ∈ e.acts)
    (hn : c.null id = true) (hp : Promised st d s) : ¬ Fulfilled st.fu s := by
  intro hd
  obtain ⟨m0, m1, h0⟩ := ha
  have hd' : SEv.dispatched d a ∈ st.log := by
    rw [mem_disp, (r.core hc).order]
    exact List.mem_append_left _ (mem_red.2 (Or.inl ⟨_, _, _, h0⟩))
  obtain ⟨m, m', e', h1, _, h2⟩ := C52_after hc hb hF r hu hd' hp hd
  cases reduced_unique hc r h0 h1
  have h3 : e.isEmpty = false := by
    cases e <;> first | rfl | cases he
  obtain ⟨x, o, _, _, _, h4, h5⟩ := h2 h3
  have := not_null hb r hu h5 (id := id) (by rw [h4]; exact he)
  rw [hn] at this
  cases this

/-- A store with futures whose reducer returns a null effect. -/
def exNullFut : Cfg Nat Nat :=
  { exSeqCfg true with reducer := fun m a => (m + a, .prim 7), null := (· == 7) }

/-- It throws when it is called, and nothing is left to do then. -/
example : Returned (exSt exNullFut [.dispatch 1, .loop, .loop, .go 0, .raise 0]) 0 1 (.prim 7) ∧
    Threw (exSt exNullFut [.dispatch 1, .loop, .loop, .go 0, .raise 0]) 0 ∧
    Promised (exSt exNullFut [.dispatch 1, .loop, .loop, .go 0, .raise 0]) 0 0 ∧
    (exSt exNullFut [.dispatch 1, .loop, .loop, .go 0, .raise 0]).queue.isEmpty = true ∧
    (exSt exNullFut [.dispatch 1, .loop, .loop, .go 0, .raise 0]).ev = [] ∧
    (exSt exNullFut [.dispatch 1, .loop, .loop, .go 0, .raise 0]).fu.ub = false :=
  ⟨⟨10, 11, by decide +kernel⟩, ⟨0, by decide +kernel⟩, ⟨0, by decide +kernel⟩, by decide +kernel, by decide +kernel,
    by decide +kernel⟩

end Verif.Store
