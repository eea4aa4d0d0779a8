import Verif.Store.Props13

/-!
Stores on the SDL loop, `lager/event_loop/sdl.hpp`.  Tasks wait in the queue of SDL, together with all other events, and that
queue has room for so many events only.
-/

namespace Verif.Store

variable {A Mo : Type}

/-! ### Model -/

/-- A store on the SDL loop.  See `Verif.Loop.Sdl` for the loop alone. -/
structure SdlQ (A Mo : Type) where
  /-- its queue has the tasks among the events that wait -/
  p : Par A Mo
  /-- SDL's queue: is it a task of the store (`post_event_type_`), or any other event? -/
  events : List Bool
  /-- ghost: all actions that were dispatched, in order -/
  posted : List A
  /-- ghost: those for which SDL did not take the event -/
  refused : List A
  /-- ghost: how many of the tasks that follow evaluations SDL did not take -/
  dropped : Nat

/-- What happens. -/
inductive LOp (A : Type) where
  /-- any thread, or user code in a task or in the handler, dispatches -/
  | dispatch (a : A)
  /-- any other event arrives -/
  | event
  /-- the loop gets the next event -/
  | take
  /-- the running task goes on -/
  | go
  /-- a watcher that it has called throws -/
  | raise
  /-- the `n`-th effect that was called goes on -/
  | effect (n : Nat)
  /-- user code in it returns -/
  | prim (n : Nat)
  /-- or throws -/
  | primRaise (n : Nat)

/-- The running task, or an effect, goes on, `post`, `sdl.hpp:163-171`: a task for which SDL has no room is not pushed; the
result of `SDL_PushEvent` is not looked at. -/
def SdlQ.own (c : Cfg A Mo) (cap : Nat) (s : SdlQ A Mo) (op : POp A) : Option (SdlQ A Mo) :=
  (Par.step c 1 s.p op).map fun p =>
    if p.st.queue.length = s.p.st.queue.length then { s with p := p }
    else if s.events.length < cap then { s with p := p, events := s.events ++ [true] }
    else { s with p := { p with st := { p.st with queue := s.p.st.queue } }, dropped := s.dropped + 1 }

/-- The steps, when SDL's queue has room for `cap` events (`SDL_MAX_QUEUED_EVENTS`, 65535).  Simplified: the store has no
futures; when the loop gets its next event, and when it calls its handler, `Verif.Loop.Sdl`, is left open. -/
def SdlQ.step (c : Cfg A Mo) (cap : Nat) (s : SdlQ A Mo) : LOp A → Option (SdlQ A Mo)
  -- `sdl.hpp:163-171`
  | .dispatch a =>
    if s.events.length < cap then
      (Par.step c 1 s.p (.user (.dispatch a))).map fun p =>
        { s with p := p, events := s.events ++ [true], posted := s.posted ++ [a] }
    else some { s with posted := s.posted ++ [a], refused := s.refused ++ [a] }
  | .event => some (if s.events.length < cap then { s with events := s.events ++ [false] } else s)
  -- `sdl.hpp:128-136`, `:148-156`
  | .take =>
    match s.events with
    | [] => none
    | true :: es => (Par.step c 1 s.p .begin).map fun p => { s with p := p, events := es }
    | false :: es => if s.p.jobs.isEmpty then some { s with events := es } else none
  | .go => s.own c cap (.go 0)
  | .raise => s.own c cap (.raise 0)
  | .effect n => s.own c cap (.user (.go n))
  | .prim n => s.own c cap (.user (.prim n none))
  | .primRaise n => s.own c cap (.user (.raise n))

/-- The state at the beginning. -/
def SdlQ.start (c : Cfg A Mo) : SdlQ A Mo := ⟨Par.start c, [], [], [], 0⟩

/-- The states that can be reached. -/
inductive SdlQ.Reach (c : Cfg A Mo) (cap : Nat) : SdlQ A Mo → Prop where
  | start : Reach c cap (SdlQ.start c)
  | step {s s'} (op : LOp A) : Reach c cap s → SdlQ.step c cap s op = some s' → Reach c cap s'

/-- Several steps, one after the other. -/
def SdlQ.exec (c : Cfg A Mo) (cap : Nat) (s : SdlQ A Mo) : List (LOp A) → Option (SdlQ A Mo)
  | [] => some s
  | op :: ops => (SdlQ.step c cap s op).bind fun s' => SdlQ.exec c cap s' ops

theorem sdlExec_reach {c : Cfg A Mo} {cap : Nat} {s s' : SdlQ A Mo} {ops : List (LOp A)} (r : SdlQ.Reach c cap s)
    (h : SdlQ.exec c cap s ops = some s') : SdlQ.Reach c cap s' := by
  induction ops generalizing s with
  | nil => cases h; exact r
  | cons op ops ih =>
    simp only [SdlQ.exec, Option.bind_eq_some_iff] at h
    obtain ⟨s1, h1, h2⟩ := h
    exact ih (r.step op h1) h2

/-! ### What steps of the store do -/

/-- Events that are not about the model. -/
def SEv.aside : SEv A Mo → Bool
  | .dispatched _ _ => false
  | .reduced _ _ _ _ _ => false
  | .reduceThrew _ _ _ => false
  | .shown _ => false
  | _ => true

/-- Nothing about the model or the queue has happened. -/
structure Aside (s t : St A Mo) : Prop where
  queue : t.queue = s.queue
  cur : t.cur = s.cur
  last : t.last = s.last
  dirty : t.dirty = s.dirty
  log : ∃ es, t.log = s.log ++ es ∧ ∀ e ∈ es, e.aside = true

theorem Aside.same {s t : St A Mo} (h1 : t.queue = s.queue) (h2 : t.cur = s.cur) (h3 : t.last = s.last)
    (h4 : t.dirty = s.dirty) (h5 : t.log = s.log) : Aside s t := ⟨h1, h2, h3, h4, [], by rw [h5]; simp, nofun⟩

theorem Aside.one {s t : St A Mo} (e : SEv A Mo) (h1 : t.queue = s.queue) (h2 : t.cur = s.cur) (h3 : t.last = s.last)
    (h4 : t.dirty = s.dirty) (h5 : t.log = s.log ++ [e]) (he : e.aside = true) : Aside s t :=
  ⟨h1, h2, h3, h4, [e], h5, by simp [he]⟩

theorem go_aside {c : Cfg A Mo} (hF : c.hasF = false) {s t : St A Mo} {f : EF} (hf : f.plain)
    (h : s.go c f = some t) : Aside s t := by
  obtain ⟨x, pos, mode, ks, k⟩ := f
  obtain ⟨hm, d, i, hk⟩ := hf
  dsimp only at hm hk
  subst hk
  unfold St.go at h
  cases mode with
  | prim _ => cases h
  | call e =>
    cases e with
    | empty => cases h
    | noop => cases h; exact .same rfl rfl rfl rfl rfl
    | prim id => cases h; exact .one _ rfl rfl rfl rfl rfl rfl
    | seq a b => cases h; exact .same rfl rfl rfl rfl rfl
  | got o =>
    cases o with
    | some i => exact absurd rfl (hm i)
    | none =>
      cases ks with
      | cons b ks => cases h; exact .same rfl rfl rfl rfl rfl
      | nil =>
        simp only [hF, Bool.false_eq_true, if_false] at h
        cases h
        exact .one _ rfl rfl rfl rfl rfl rfl

/-- Effects. -/
theorem user_aside {c : Cfg A Mo} (hF : c.hasF = false) {s t : St A Mo} {op : SOp A} (ho : (POp.user op).plain)
    (hd : ∀ a, op ≠ .dispatch a) (hp : ∀ f ∈ s.ev, f.plain) (h : Store.step c s op = some t) : Aside s t := by
  cases op with
  | dispatch a => exact absurd rfl (hd a)
  | go n =>
    simp only [Store.step] at h
    split at h
    · cases h
    · rename_i f hf
      have := go_aside hF (s := { s with ev := s.ev.eraseIdx n }) (hp f (List.mem_of_getElem? hf)) h
      exact ⟨this.queue, this.cur, this.last, this.dirty, this.log⟩
  | prim n o =>
    cases o with
    | some i => exact ho.elim
    | none =>
      simp only [Store.step] at h
      split at h
      · split at h
        · cases h; exact .one _ rfl rfl rfl rfl rfl rfl
        · cases h
      · cases h
  | raise n =>
    simp only [Store.step] at h
    split at h
    · cases h; exact .one _ rfl rfl rfl rfl rfl rfl
    · rename_i hf
      obtain ⟨-, d, i, hk⟩ := hp _ (List.mem_of_getElem? hf)
      cases hk
    · cases h
  | loop => exact ho.elim
  | loopRaise => exact ho.elim
  | other l => exact ho.elim
  | fut op => exact ho.elim
  | commit => exact ho.elim

theorem reductions_aside {es : List (SEv A Mo)} (h : ∀ e ∈ es, e.aside = true) : reductions es = [] := by
  induction es with
  | nil => rfl
  | cons e es ih =>
    have h1 := h e (List.mem_cons_self ..)
    have h2 := ih fun e he => h e (List.mem_cons_of_mem _ he)
    cases e <;> first | exact h2 | cases h1

theorem dispatches_aside {es : List (SEv A Mo)} (h : ∀ e ∈ es, e.aside = true) : dispatches es = [] := by
  induction es with
  | nil => rfl
  | cons e es ih =>
    have h1 := h e (List.mem_cons_self ..)
    have h2 := ih fun e he => h e (List.mem_cons_of_mem _ he)
    cases e <;> first | exact h2 | cases h1

/-! ### Invariant -/

/-- The action that is being evaluated. -/
def evaluating : List (Job A Mo) → List A
  | .reducing _ a _ :: _ => [a]
  | _ => []

/-- The model that the store is about to have. -/
def pushes (cur : Mo) : List (Job A Mo) → Mo
  | .pushing v :: _ => v
  | _ => cur

/-- Whether or not SDL took all tasks. -/
structure Lossy (c : Cfg A Mo) (p : Par A Mo) : Prop where
  jobs : p.jobs.length ≤ 1
  plain : ∀ f ∈ p.st.ev, f.plain
  tok : Item.tok ∉ p.st.queue
  order : dispatches p.st.log = reductions p.st.log ++ evaluating p.jobs ++ (pend p.st.queue).map (·.2)
  model : pushes p.st.cur p.jobs = fold c (reductions p.st.log)
  clean : p.st.dirty = false → p.st.last = p.st.cur
  get : ∃ as, as <+: reductions p.st.log ∧ p.st.last = fold c as
  cur : ∃ as, as <+: reductions p.st.log ∧ p.st.cur = fold c as
  shown : ∀ l1 v l2, p.st.log = l1 ++ .shown v :: l2 → v = fold c (reductions l1)

theorem shown_aside {c : Cfg A Mo} {l es : List (SEv A Mo)} (h : ∀ e ∈ es, ∀ v, e ≠ .shown v)
    (hs : ∀ l1 v l2, l = l1 ++ .shown v :: l2 → v = fold c (reductions l1)) (l1 : List (SEv A Mo)) (v : Mo)
    (l2 : List (SEv A Mo)) (hl : l ++ es = l1 ++ .shown v :: l2) : v = fold c (reductions l1) := by
  rcases List.append_eq_append_iff.1 hl with ⟨a, h1, h2⟩ | ⟨a, h1, h2⟩
  · exact absurd rfl (h (.shown v) (by rw [h2]; simp) v)
  · cases a with
    | nil =>
      simp only [List.nil_append] at h2
      exact absurd rfl (h (.shown v) (by rw [← h2]; simp) v)
    | cons e a =>
      simp only [List.cons_append, List.cons.injEq] at h2
      rw [← h2.1] at h1
      exact hs l1 v a h1

/-- The step of an effect. -/
theorem Lossy.aside {c : Cfg A Mo} {p : Par A Mo} (k : Lossy c p) {st : St A Mo} (h : Aside p.st st)
    (he : ∀ f ∈ st.ev, f.plain) : Lossy c { p with st := st } := by
  obtain ⟨es, h1, h2⟩ := h.log
  have hr : reductions st.log = reductions p.st.log := by
    rw [h1, reductions_append, reductions_aside h2, List.append_nil]
  have hd : dispatches st.log = dispatches p.st.log := by
    rw [h1, dispatches_append, dispatches_aside h2, List.append_nil]
  refine ⟨k.jobs, he, by rw [h.queue]; exact k.tok, ?_, ?_, ?_, ?_, ?_, ?_⟩
  · rw [hr, hd, h.queue]; exact k.order
  · rw [hr, h.cur]; exact k.model
  · rw [h.last, h.cur, h.dirty]; exact k.clean
  · rw [hr, h.last]; exact k.get
  · rw [hr, h.cur]; exact k.cur
  · rw [h1]
    refine shown_aside (fun e he v h => ?_) k.shown
    have := h2 e he
    rw [h] at this; cases this

theorem fold_snoc (c : Cfg A Mo) (as : List A) (a : A) : fold c (as ++ [a]) = c.next (fold c as) a := by
  simp [fold]

theorem Lossy.longer {c : Cfg A Mo} {v : Mo} {l es : List (SEv A Mo)} (h : ∃ as, as <+: reductions l ∧ v = fold c as) :
    ∃ as, as <+: reductions (l ++ es) ∧ v = fold c as := by
  obtain ⟨as, h1, h2⟩ := h
  exact ⟨as, by rw [reductions_append]; exact h1.trans (List.prefix_append ..), h2⟩

/-- What a running task does. -/
theorem Lossy.go {c : Cfg A Mo} (hc : c.sound) (hF : c.hasF = false) {p : Par A Mo} (k : Lossy c p) {j : Job A Mo}
    (hj : p.jobs = [j]) {t : St A Mo} {o : Option (Job A Mo)} (h : j.go c p.st = some (t, o)) :
    Lossy c { p with st := t, jobs := o.toList } ∧
    (∃ r, t.queue = p.st.queue ++ r ∧ pend r = [] ∧ r.length ≤ 1) ∧
    ((∃ d a i, j = .reducing d a i) ∨ t.queue = p.st.queue) := by
  have hg := jobGo_grows hF k.plain h
  obtain ⟨hjobs, hplain, htok, horder, hmodel, hclean, hget, hcur, hshown⟩ := k
  rw [hj] at horder hmodel
  have tok : Item.tok ∉ t.queue := by
    obtain ⟨r, h1, h2⟩ := hg.queue
    rw [h1]; simp [htok, h2]
  have one : ∀ {l : List (SEv A Mo)} {e : SEv A Mo}, l = p.st.log ++ [e] → (∀ v, e ≠ .shown v) →
      ∀ l1 v l2, l = l1 ++ .shown v :: l2 → v = fold c (reductions l1) := by
    intro l e hl he l1 v l2 h
    rw [hl] at h
    exact shown_aside (fun x hx v h => he v (by rw [List.mem_singleton] at hx; rw [← hx]; exact h)) hshown l1 v l2 h
  cases j with
  | reducing d a i =>
    dsimp only [evaluating, pushes] at horder hmodel
    simp only [Job.go] at h
    split at h
    · rename_i ht
      cases h
      refine ⟨⟨Nat.zero_le _, hg.ev, tok, ?_, ?_, hclean, Lossy.longer hget, Lossy.longer hcur, one rfl nofun⟩,
        ⟨[], by simp [St.say], rfl, by simp⟩, .inl ⟨d, a, i, rfl⟩⟩
      · show dispatches (p.st.log ++ [_]) = reductions (p.st.log ++ [_]) ++ [] ++ (pend p.st.queue).map (·.2)
        rw [dispatches_append, reductions_append, horder]; simp [dispatches, reductions]
      · show p.st.cur = fold c (reductions (p.st.log ++ [_]))
        rw [reductions_append]
        show p.st.cur = fold c (reductions p.st.log ++ [a])
        rw [fold_snoc, ← hmodel, Cfg.next, if_pos ht]
    · rename_i ht
      simp only [Option.map_eq_some_iff] at h
      obtain ⟨s1, h1, h2⟩ := h
      cases h2
      simp only [St.reduced, Option.map_eq_some_iff] at h1
      obtain ⟨s2, h2, rfl⟩ := h1
      have key : ∃ r, s2 = { p.st with queue := p.st.queue ++ r } ∧ pend r = [] ∧ r.length ≤ 1 := by
        split at h2
        · split at h2
          · rw [complete_plain hF h2]; exact ⟨[], by simp, rfl, by simp⟩
          · cases h2; exact ⟨[_], rfl, rfl, by simp⟩
        · cases h2; exact ⟨[_], rfl, rfl, by simp⟩
      obtain ⟨r, rfl, hr, hr'⟩ := key
      refine ⟨⟨Nat.le_refl _, hg.ev, tok, ?_, ?_, hclean, Lossy.longer hget, Lossy.longer hcur, one rfl nofun⟩,
        ⟨r, rfl, hr, hr'⟩, .inl ⟨d, a, i, rfl⟩⟩
      · show dispatches (p.st.log ++ [_]) = reductions (p.st.log ++ [_]) ++ [] ++ (pend (p.st.queue ++ r)).map (·.2)
        rw [dispatches_append, reductions_append, horder, pend_append, hr]; simp [dispatches, reductions]
      · show (c.reducer p.st.cur a).1 = fold c (reductions (p.st.log ++ [_]))
        rw [reductions_append]
        show _ = fold c (reductions p.st.log ++ [a])
        rw [fold_snoc, ← hmodel, Cfg.next, if_neg ht]
  | pushing v =>
    dsimp only [evaluating, pushes] at horder hmodel
    simp only [Job.go, St.pushDown] at h
    split at h
    · cases h
      refine ⟨⟨Nat.zero_le _, hg.ev, tok, horder, hmodel, nofun, hget, ⟨_, List.prefix_refl _, hmodel⟩, hshown⟩,
        ⟨[], by simp, rfl, by simp⟩, .inr rfl⟩
    · rename_i hch
      cases h
      have hv : v = p.st.cur := hc _ _ (by simpa using hch)
      refine ⟨⟨Nat.zero_le _, hg.ev, tok, horder, ?_, hclean, hget, hcur, hshown⟩, ⟨[], by simp, rfl, by simp⟩, .inr rfl⟩
      rw [← hmodel, hv]; rfl
  | sending it =>
    dsimp only [evaluating, pushes] at horder hmodel
    simp only [Job.go, St.sendDown] at h
    split at h
    · split at h
      · cases h
        exact ⟨⟨Nat.le_refl _, hg.ev, tok, horder, hmodel, fun _ => rfl, hcur, hcur, hshown⟩,
          ⟨[], by simp, rfl, by simp⟩, .inr rfl⟩
      · cases h
        exact ⟨⟨Nat.le_refl _, hg.ev, tok, horder, hmodel, hclean, hget, hcur, hshown⟩,
          ⟨[], by simp, rfl, by simp⟩, .inr rfl⟩
    · cases h
      exact ⟨⟨Nat.le_refl _, hg.ev, tok, horder, hmodel, hclean, hget, hcur, hshown⟩,
        ⟨[], by simp, rfl, by simp⟩, .inr rfl⟩
  | notifying it =>
    dsimp only [evaluating, pushes] at horder hmodel
    simp only [Job.go, St.notify] at h
    split at h
    · split at h
      · rename_i hn
        cases h
        have hd : p.st.dirty = false := by
          cases hd : p.st.dirty with
          | false => rfl
          | true => rw [hd] at hn; simp at hn
        refine ⟨⟨Nat.le_refl _, hg.ev, tok, ?_, ?_, hclean, Lossy.longer hget, Lossy.longer hcur, ?_⟩,
          ⟨[], by simp, rfl, by simp⟩, .inr rfl⟩
        · show dispatches (p.st.log ++ [_]) = reductions (p.st.log ++ [_]) ++ [] ++ (pend p.st.queue).map (·.2)
          rw [dispatches_append, reductions_append, horder]; simp [dispatches, reductions]
        · show p.st.cur = fold c (reductions (p.st.log ++ [_]))
          rw [reductions_append, hmodel]; simp [reductions]
        · intro l1 v l2 hl
          dsimp only at hl
          rcases List.append_eq_append_iff.1 hl with ⟨a, h1, h2⟩ | ⟨a, h1, h2⟩
          · have ha : a = [] := by
              cases a with
              | nil => rfl
              | cons x a => simp at h2
            subst ha
            simp only [List.nil_append, List.cons.injEq, SEv.shown.injEq] at h2
            rw [List.append_nil] at h1
            rw [← h2.1, h1, hclean hd, hmodel]
          · cases a with
            | nil =>
              simp only [List.nil_append, List.cons.injEq, SEv.shown.injEq] at h2
              rw [List.append_nil] at h1
              rw [h2.1, ← h1, hclean hd, hmodel]
            | cons e a =>
              simp only [List.cons_append, List.cons.injEq] at h2
              rw [← h2.1] at h1
              exact hshown l1 v a h1
      · cases h
        exact ⟨⟨Nat.le_refl _, hg.ev, tok, horder, hmodel, hclean, hget, hcur, hshown⟩,
          ⟨[], by simp, rfl, by simp⟩, .inr rfl⟩
    · cases h
      exact ⟨⟨Nat.le_refl _, hg.ev, tok, horder, hmodel, hclean, hget, hcur, hshown⟩,
        ⟨[], by simp, rfl, by simp⟩, .inr rfl⟩
  | watching it w =>
    dsimp only [evaluating, pushes] at horder hmodel
    simp only [Job.go, Option.map_eq_some_iff] at h
    obtain ⟨s1, h1, h2⟩ := h
    cases h2
    have k0 : Lossy c { p with jobs := [] } :=
      ⟨Nat.zero_le _, hplain, htok, horder, hmodel, hclean, hget, hcur, hshown⟩
    have key : Aside p.st t := by
      unfold St.after at h1
      split at h1
      · rename_i d e i
        cases h1
        refine ⟨rfl, rfl, rfl, rfl, [.ready d, .effStart d p.st.nx e], List.append_assoc .., ?_⟩
        intro x hx
        rcases List.mem_cons.1 hx with rfl | hx
        · rfl
        · rw [List.mem_singleton] at hx; rw [hx]; rfl
      · rw [complete_plain hF h1]; exact .one _ rfl rfl rfl rfl rfl rfl
      · cases h1; exact .same rfl rfl rfl rfl rfl
      · cases h1
    exact ⟨k0.aside key hg.ev, ⟨[], by rw [key.queue]; simp, rfl, by simp⟩, .inr key.queue⟩

theorem Lossy.clip {c : Cfg A Mo} {p : Par A Mo} (k : Lossy c p) {q r : List (Item A)} (h : p.st.queue = q ++ r)
    (hr : pend r = []) : Lossy c { p with st := { p.st with queue := q } } := by
  refine ⟨k.jobs, k.plain, ?_, ?_, k.model, k.clean, k.get, k.cur, k.shown⟩
  · have := k.tok
    rw [h] at this
    exact fun h => this (List.mem_append_left _ h)
  · have := k.order
    rw [h, pend_append, hr, List.append_nil] at this
    exact this

/-- What `SdlQ.own` is used for. -/
def POp.inside : POp A → Prop
  | .go n => n = 0
  | .raise n => n = 0
  | .user (.go _) => True
  | .user (.prim _ none) => True
  | .user (.raise _) => True
  | _ => False

theorem POp.inside.plain {op : POp A} (h : op.inside) : op.plain := by
  cases op with
  | user op =>
    cases op with
    | prim n o => cases o <;> simp_all [POp.inside, POp.plain]
    | _ => simp_all [POp.inside, POp.plain]
  | _ => simp_all [POp.inside, POp.plain]

theorem Lossy.own {c : Cfg A Mo} (hc : c.sound) (hF : c.hasF = false) {p q : Par A Mo} (k : Lossy c p) {op : POp A}
    (ho : op.inside) (h : Par.step c 1 p op = some q) :
    Lossy c q ∧ (∃ r, q.st.queue = p.st.queue ++ r ∧ pend r = [] ∧ r.length ≤ 1) ∧
    (q.st.queue ≠ p.st.queue → evaluating p.jobs ≠ [] ∧ evaluating q.jobs = []) := by
  have hg := par_grows hF ho.plain k.plain h
  cases op with
  | go n =>
    cases (show n = 0 from ho)
    simp only [Par.step] at h
    match hj : p.jobs with
    | [] => rw [hj] at h; cases h
    | j :: js =>
      have hjs : js = [] := by
        have := k.jobs; rw [hj] at this
        exact List.length_eq_zero_iff.1 (by simpa using this)
      subst hjs
      rw [hj] at h
      simp only [List.getElem?_cons_zero, Option.map_eq_some_iff] at h
      obtain ⟨⟨t, o⟩, h1, rfl⟩ := h
      obtain ⟨k1, k2, k3⟩ := k.go hc hF hj h1
      refine ⟨?_, k2, ?_⟩
      · cases o <;> exact k1
      · intro hq
        rcases k3 with ⟨d, a, i, rfl⟩ | k3
        · refine ⟨by simp [evaluating], ?_⟩
          cases o with
          | none => rfl
          | some j' =>
            simp only [Job.go] at h1
            split at h1
            · cases h1
            · simp only [Option.map_eq_some_iff] at h1
              obtain ⟨_, _, h2⟩ := h1
              cases h2; rfl
        · exact absurd k3 hq
  | raise n =>
    cases (show n = 0 from ho)
    simp only [Par.step] at h
    match hj : p.jobs with
    | [] => rw [hj] at h; cases h
    | j :: js =>
      have hjs : js = [] := by
        have := k.jobs; rw [hj] at this
        exact List.length_eq_zero_iff.1 (by simpa using this)
      subst hjs
      rw [hj] at h
      simp only [List.getElem?_cons_zero, Option.map_eq_some_iff] at h
      obtain ⟨t, h1, rfl⟩ := h
      unfold Job.raise at h1
      split at h1
      · cases h1
        have k0 : Lossy c { p with jobs := [] } := by
          have h1 := k.order
          have h2 := k.model
          rw [hj] at h1 h2
          exact ⟨Nat.zero_le _, k.plain, k.tok, h1, h2, k.clean, k.get, k.cur, k.shown⟩
        exact ⟨k0.aside (.one _ rfl rfl rfl rfl rfl rfl) k.plain, ⟨[], by simp [St.say], rfl, by simp⟩,
          fun hq => absurd rfl hq⟩
      · cases h1
        have k0 : Lossy c { p with jobs := [] } := by
          have h1 := k.order
          have h2 := k.model
          rw [hj] at h1 h2
          exact ⟨Nat.zero_le _, k.plain, k.tok, h1, h2, k.clean, k.get, k.cur, k.shown⟩
        exact ⟨k0.aside (.one _ rfl rfl rfl rfl rfl rfl) k.plain, ⟨[], by simp [St.say], rfl, by simp⟩,
          fun hq => absurd rfl hq⟩
      · cases h1
  | user op =>
    simp only [Par.step] at h
    split at h
    · simp only [Option.map_eq_some_iff] at h
      obtain ⟨t, h1, rfl⟩ := h
      have ha := user_aside hF ho.plain (by rintro a rfl; exact ho.elim) k.plain h1
      exact ⟨k.aside ha hg.ev, ⟨[], by rw [ha.queue]; simp, rfl, by simp⟩, fun hq => absurd ha.queue hq⟩
    · cases h
  | begin => exact ho.elim
  | commit => exact ho.elim
  | peek => exact ho.elim
  | peeked => exact ho.elim

theorem Lossy.dispatch {c : Cfg A Mo} (hF : c.hasF = false) {p q : Par A Mo} (k : Lossy c p) {a : A}
    (h : Par.step c 1 p (.user (.dispatch a)) = some q) :
    Lossy c q ∧ q.st.queue.length = p.st.queue.length + 1 ∧ dispatches q.st.log = dispatches p.st.log ++ [a] ∧
      q.jobs = p.jobs := by
  have hg := par_grows hF (op := .user (.dispatch a)) trivial k.plain h
  simp only [Par.step, SOp.isUser, if_true, Option.map_eq_some_iff] at h
  obtain ⟨t, h1, rfl⟩ := h
  have h2 := h1
  simp only [Store.step] at h2
  unfold St.dispatch at h2
  simp only [hF, St.fstep, Future.step, Bool.false_eq_true, if_false] at h2
  obtain ⟨e1, e2, e3, e4, e5⟩ := dispatch_grows hF h1
  have e6 : t.dirty = p.st.dirty := by
    split at h2 <;> cases h2 <;> rfl
  have hr : reductions t.log = reductions p.st.log := by
    rw [e3, reductions_append]; simp [reductions]
  have hd : dispatches t.log = dispatches p.st.log ++ [a] := by
    rw [e3, dispatches_append]; simp [dispatches]
  refine ⟨⟨k.jobs, hg.ev, ?_, ?_, ?_, ?_, ?_, ?_, ?_⟩, by rw [e1]; simp, hd, rfl⟩
  · dsimp only
    rw [e1]; simp [k.tok]
  · dsimp only
    rw [hr, hd, k.order, e1, pend_append]; simp [pend]
  · dsimp only
    rw [hr, e5]; exact k.model
  · dsimp only
    rw [e4, e5, e6]; exact k.clean
  · dsimp only
    rw [hr, e4]; exact k.get
  · dsimp only
    rw [hr, e5]; exact k.cur
  · dsimp only
    rw [e3]
    exact shown_aside (fun e he v h => by rw [List.mem_singleton] at he; rw [he] at h; cases h) k.shown

theorem Lossy.begin {c : Cfg A Mo} {p q : Par A Mo} (k : Lossy c p) (h : Par.step c 1 p .begin = some q) :
    Lossy c q ∧ p.st.queue.length = q.st.queue.length + 1 ∧ q.st.log = p.st.log ∧ p.jobs = [] := by
  simp only [Par.step] at h
  split at h
  · rename_i hl
    have hj : p.jobs = [] := List.length_eq_zero_iff.1 (by omega)
    have ho := k.order
    have hm := k.model
    have ht := k.tok
    rw [hj] at ho hm
    unfold Par.begin at h
    split at h
    · cases h
    · rename_i d a i qs hq
      cases h
      rw [hq] at ho ht
      refine ⟨⟨by simp [hj], k.plain, fun h => ht (List.mem_cons_of_mem _ h), ?_, ?_, k.clean, k.get, k.cur, k.shown⟩,
        by rw [hq]; rfl, rfl, hj⟩
      · rw [hj]
        dsimp only
        rw [ho]; simp [evaluating, pend]
      · rw [hj]; exact hm
    · rename_i hq
      rw [hq] at ht; simp at ht
    · rename_i it qs h1 h2 hq
      cases h
      rw [hq] at ho ht
      refine ⟨⟨by simp [hj], k.plain, fun h => ht (List.mem_cons_of_mem _ h), ?_, ?_, k.clean, k.get, k.cur, k.shown⟩,
        by rw [hq]; rfl, rfl, hj⟩
      · rw [hj]
        dsimp only
        rw [ho]
        cases it with
        | reduce d a i => exact absurd rfl (h1 d a i)
        | tok => exact absurd rfl h2
        | _ => simp [evaluating, pend]
      · rw [hj]; exact hm
  · cases h

/-- What holds at any time. -/
structure SdlQ.Inv (c : Cfg A Mo) (cap : Nat) (s : SdlQ A Mo) : Prop where
  lossy : Lossy c s.p
  count : s.events.count true = s.p.st.queue.length
  room : s.events.length ≤ cap
  taken : (dispatches s.p.st.log).Sublist s.posted
  refused : s.refused.Sublist s.posted
  perm : (dispatches s.p.st.log ++ s.refused).Perm s.posted
  par : s.dropped = 0 → Par.Reach c 1 s.p

theorem sdlOwn_inv {c : Cfg A Mo} (hc : c.sound) (hF : c.hasF = false) {cap : Nat} {s s' : SdlQ A Mo}
    (k : SdlQ.Inv c cap s) {op : POp A} (ho : op.inside) (h : s.own c cap op = some s') : SdlQ.Inv c cap s' := by
  simp only [SdlQ.own, Option.map_eq_some_iff] at h
  obtain ⟨q, h1, h2⟩ := h
  obtain ⟨k1, ⟨r, k2, k3, k4⟩, -⟩ := k.lossy.own hc hF ho h1
  have hd : dispatches q.st.log = dispatches s.p.st.log := by
    have := par_disp h1
    rw [this]
    have : op.sent = [] := by
      cases op with
      | user op => cases op <;> first | rfl | exact ho.elim
      | _ => rfl
    rw [this]; simp
  split at h2
  · rename_i hl
    cases h2
    exact ⟨k1, by rw [k.count, hl], k.room, by rw [hd]; exact k.taken, k.refused, by rw [hd]; exact k.perm,
      fun h => (k.par h).step _ h1⟩
  · rename_i hl
    split at h2
    · rename_i hr
      cases h2
      refine ⟨k1, ?_, by simp; omega, by rw [hd]; exact k.taken, k.refused, by rw [hd]; exact k.perm,
        fun h => (k.par h).step _ h1⟩
      have hl1 : q.st.queue.length = s.p.st.queue.length + r.length := by rw [k2]; simp
      have : r.length = 1 := by omega
      simp [List.count_append, k.count, hl1, this]
    · cases h2
      exact ⟨k1.clip k2 k3, k.count, k.room, by dsimp only; rw [hd]; exact k.taken, k.refused,
        by dsimp only; rw [hd]; exact k.perm, fun h => by simp at h⟩

theorem SdlQ.Reach.inv {c : Cfg A Mo} (hc : c.sound) (hF : c.hasF = false) {cap : Nat} {s : SdlQ A Mo}
    (r : SdlQ.Reach c cap s) : SdlQ.Inv c cap s := by
  induction r with
  | start =>
    exact ⟨⟨Nat.zero_le _, nofun, nofun, rfl, rfl, fun _ => rfl, ⟨[], List.prefix_refl _, rfl⟩,
      ⟨[], List.prefix_refl _, rfl⟩, fun l1 v l2 h => by cases l1 <;> cases h⟩, rfl, Nat.zero_le _, .refl _, .refl _,
      .refl _, fun _ => .start⟩
  | @step s s' op r h k =>
    cases op with
    | dispatch a =>
      simp only [SdlQ.step] at h
      split at h
      · rename_i hr
        simp only [Option.map_eq_some_iff] at h
        obtain ⟨q, h1, rfl⟩ := h
        obtain ⟨k1, k2, k3, -⟩ := k.lossy.dispatch hF h1
        refine ⟨k1, by simp [List.count_append, k.count, k2], by simp; omega, ?_, ?_, ?_, fun h => (k.par h).step _ h1⟩
        · dsimp only; rw [k3]; exact k.taken.append (.refl _)
        · exact k.refused.trans (List.sublist_append_left ..)
        · dsimp only
          rw [k3, List.append_assoc]
          refine List.Perm.trans (List.Perm.append_left _ List.perm_append_comm) ?_
          rw [← List.append_assoc]; exact k.perm.append_right _
      · cases h
        refine ⟨k.lossy, k.count, k.room, k.taken.trans (List.sublist_append_left ..), k.refused.append (.refl _), ?_, k.par⟩
        dsimp only
        rw [← List.append_assoc]; exact k.perm.append_right _
    | event =>
      simp only [SdlQ.step] at h
      cases h
      split
      · rename_i hr
        exact ⟨k.lossy, by simp [List.count_append, k.count], by simp; omega, k.taken, k.refused, k.perm, k.par⟩
      · exact k
    | take =>
      simp only [SdlQ.step] at h
      have hn := k.count
      have hr := k.room
      split at h
      · cases h
      · rename_i es he
        simp only [Option.map_eq_some_iff] at h
        obtain ⟨q, h1, rfl⟩ := h
        obtain ⟨k1, k2, k3, -⟩ := k.lossy.begin h1
        rw [he] at hn hr
        simp only [List.count_cons_self, List.length_cons] at hn hr
        exact ⟨k1, by dsimp only; omega, by dsimp only; omega, by dsimp only; rw [k3]; exact k.taken, k.refused,
          by dsimp only; rw [k3]; exact k.perm, fun h => (k.par h).step _ h1⟩
      · rename_i es he
        rw [he] at hn hr
        split at h
        · cases h
          simp only [List.length_cons] at hr
          exact ⟨k.lossy, by simpa using hn, by dsimp only; omega, k.taken, k.refused, k.perm, k.par⟩
        · cases h
    | go => exact sdlOwn_inv hc hF k (op := .go 0) rfl h
    | raise => exact sdlOwn_inv hc hF k (op := .raise 0) rfl h
    | effect n => exact sdlOwn_inv hc hF k (op := .user (.go n)) trivial h
    | prim n => exact sdlOwn_inv hc hF k (op := .user (.prim n none)) trivial h
    | primRaise n => exact sdlOwn_inv hc hF k (op := .user (.raise n)) trivial h

end Verif.Store
