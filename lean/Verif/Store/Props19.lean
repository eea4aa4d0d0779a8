import Verif.Store.Pump
import Verif.Store.MultiReach

/-!
C140: programs on the SDL loop that make actions of events.
-/

namespace Verif.Store

variable {E A Mo : Type}

/-! ### Spec -/

/-- The reducer has no effects. -/
def Cfg.plain (c : Cfg A Mo) : Prop := ∀ m a, (c.reducer m a).2 = .empty

/-- What the program can become, if `tick` never dispatches more than SDL has room for. -/
inductive Pump.Reach (c : Cfg A Mo) (cap : Nat) (h : Handler E A) : Pump E A Mo → Prop where
  | start : Pump.Reach c cap h (.start c)
  | arrive {w w'} (e : E) : Pump.Reach c cap h w → w.step c cap h (.arrive e) = some w' → Pump.Reach c cap h w'
  | next {w w'} : Pump.Reach c cap h w → w.step c cap h .next = some w' → Pump.Reach c cap h w'
  | tick {w w'} (as : List A) (hn : as.length ≤ cap) : Pump.Reach c cap h w → w.step c cap h (.tick as) = some w' →
      Pump.Reach c cap h w'

/-- The events that the handler was called with. -/
def heard : List (Call E A) → List E
  | [] => []
  | .handler e :: l => e :: heard l
  | .tick _ :: l => heard l

/-- The actions that were dispatched by the handler and by `tick`. -/
def made (intent : E → Option A) : List (Call E A) → List A
  | [] => []
  | .handler e :: l => (intent e).toList ++ made intent l
  | .tick as :: l => as ++ made intent l

/-- The events for the handler that wait. -/
def users : List (SdlEv E) → List E
  | [] => []
  | .user e :: l => e :: users l
  | .task :: l => users l

/-- The number of tasks that wait. -/
def nTasks : List (SdlEv E) → Nat
  | [] => 0
  | .user _ :: l => nTasks l
  | .task :: l => nTasks l + 1

/-- How many events come, or are made by `tick`. -/
def PumpOp.news : PumpOp E A → Nat
  | .arrive _ => 1
  | .next => 0
  | .tick as => as.length

/-! ### Proofs -/

theorem heard_append (l r : List (Call E A)) : heard (l ++ r) = heard l ++ heard r := by
  induction l with
  | nil => rfl
  | cons x l ih => cases x <;> simp [heard, ih]

theorem made_append (f : E → Option A) (l r : List (Call E A)) : made f (l ++ r) = made f l ++ made f r := by
  induction l with
  | nil => rfl
  | cons x l ih => cases x <;> simp [made, ih]

theorem users_append (l r : List (SdlEv E)) : users (l ++ r) = users l ++ users r := by
  induction l with
  | nil => rfl
  | cons x l ih => cases x <;> simp [users, ih]

theorem mem_users {e : E} {l : List (SdlEv E)} (h : .user e ∈ l) : e ∈ users l := by
  induction l with
  | nil => cases h
  | cons y l ih =>
    cases y with
    | user x =>
      rcases List.mem_cons.1 h with h | h
      · cases h; exact List.mem_cons_self ..
      · exact List.mem_cons_of_mem _ (ih h)
    | task =>
      rcases List.mem_cons.1 h with h | h
      · cases h
      · exact ih h

theorem nTasks_append (l r : List (SdlEv E)) : nTasks (l ++ r) = nTasks l + nTasks r := by
  induction l with
  | nil => simp [nTasks]
  | cons x l ih => cases x <;> simp [nTasks, ih] <;> omega

theorem nTasks_zero {l : List (SdlEv E)} (h : .task ∉ l) : nTasks l = 0 := by
  induction l with
  | nil => rfl
  | cons x l ih =>
    cases x with
    | user e => exact ih fun h' => h (List.mem_cons_of_mem _ h')
    | task => exact absurd (List.mem_cons_self ..) h

/-- Tasks without effects and futures. -/
def Item.bare : Item A → Prop
  | .reduce _ _ _ => True
  | .publish _ _ => True
  | _ => False

/-- How many tasks are left of a task. -/
def Item.left : Item A → Nat
  | .reduce _ _ _ => 2
  | _ => 1

def sumLeft (q : List (Item A)) : Nat := (q.map Item.left).sum

theorem sumLeft_append (l r : List (Item A)) : sumLeft (l ++ r) = sumLeft l + sumLeft r := by
  simp [sumLeft]

theorem pushDown_rest (c : Cfg A Mo) (s : St A Mo) (v : Mo) :
    (s.pushDown c v).fu = s.fu ∧ (s.pushDown c v).queue = s.queue ∧ (s.pushDown c v).log = s.log := by
  unfold St.pushDown
  split <;> exact ⟨rfl, rfl, rfl⟩

/-- A task. -/
theorem loop_bare {c : Cfg A Mo} (hp : c.plain) (hF : c.hasF = false) (ht : c.trans = false) {s : St A Mo}
    {x : Item A} {q : List (Item A)} (hq : s.queue = x :: q) (hb : ∀ y ∈ s.queue, y.bare) :
    ∃ s', s.loop c = some s' ∧ s'.fu = s.fu ∧ (∀ y ∈ s'.queue, y.bare) ∧ dispatches s'.log = dispatches s.log ∧
      ((s'.queue = q ∧ ((∃ d i, x = .publish d i) ∨ ∃ m a, c.throws m a = true)) ∨
        ∃ d a i, x = .reduce d a i ∧ s'.queue = q ++ [.publish d i]) := by
  have hx := hb x (by rw [hq]; exact List.mem_cons_self ..)
  have hb' : ∀ y ∈ q, y.bare := fun y hy => hb y (by rw [hq]; exact List.mem_cons_of_mem _ hy)
  cases x with
  | effect d e i => exact hx.elim
  | tok => exact hx.elim
  | reduce d a i =>
    unfold St.loop
    rw [hq]
    by_cases hth : c.throws s.cur a = true
    · simp only [hth, if_true]
      refine ⟨_, rfl, rfl, hb', ?_, .inl ⟨rfl, .inr ⟨_, _, hth⟩⟩⟩
      simp [St.say, dispatches_append, dispatches]
    · simp only [hth, Bool.false_eq_true, if_false, hp s.cur a, Eff.isEmpty, if_true, ht, Option.map_some]
      refine ⟨_, rfl, ?_, ?_, ?_, .inr ⟨d, a, i, rfl, ?_⟩⟩
      · exact (pushDown_rest c _ _).1
      · intro y hy
        have hy' : y ∈ q ++ [Item.publish d i] := by
          have : y ∈ (St.pushDown c (St.post { s with queue := q } (.publish d i)) (c.reducer s.cur a).1).queue := hy
          rwa [(pushDown_rest c _ _).2.1] at this
        rcases List.mem_append.1 hy' with h | h
        · exact hb' y h
        · cases List.mem_singleton.1 h; exact trivial
      · simp only [St.say, (pushDown_rest c _ _).2.2, dispatches_append]
        simp [dispatches, St.post]
      · exact (pushDown_rest c _ _).2.1
  | publish d i =>
    obtain ⟨es, h1, _, h3⟩ := publish_adds c { s with queue := q }
    have hfu : (St.publish c { s with queue := q }).fu = s.fu ∧ (St.publish c { s with queue := q }).queue = q := by
      simp only [St.publish, ht, Bool.false_eq_true, if_false, St.notify, St.sendDown]
      split <;> split <;> exact ⟨rfl, rfl⟩
    unfold St.loop
    rw [hq]
    simp only [St.complete, hF, Bool.false_eq_true, if_false]
    refine ⟨_, rfl, hfu.1, ?_, ?_, .inl ⟨hfu.2, .inl ⟨_, _, rfl⟩⟩⟩
    · show ∀ y ∈ (St.publish c { s with queue := q }).queue, y.bare
      rw [hfu.2]; exact hb'
    · show dispatches ((St.publish c { s with queue := q }).log ++ [.ready d]) = _
      rw [h1]
      simp only [dispatches_disp, disp_append, h3]
      simp [disp]

/-- The store and SDL's queue. -/
structure Pump.Fits (c : Cfg A Mo) (w : Pump E A Mo) : Prop where
  store : Store.Reach c w.st
  count : w.st.queue.length = nTasks w.events
  bare : ∀ y ∈ w.st.queue, y.bare
  ub : w.st.fu.ub = false

/-- The work that is left for an event. -/
def Pump.work' (w : Pump E A Mo) : Nat := 3 * (users w.events).length + sumLeft w.st.queue

theorem Pump.dispatch_fits {c : Cfg A Mo} (hF : c.hasF = false) {cap : Nat} {w : Pump E A Mo} (f : w.Fits c)
    (hn : w.events.length < cap) (a : A) :
    ∃ s, w.dispatch c cap a = some { w with st := s, events := w.events ++ [.task] } ∧
      Pump.Fits c { w with st := s, events := w.events ++ [.task] } ∧ dispatches s.log = dispatches w.st.log ++ [a] ∧
      sumLeft s.queue = sumLeft w.st.queue + 2 := by
  have hs : ∃ s, w.st.dispatch c a = some s ∧ s.fu.ub = false := by
    simp [St.dispatch, hF, St.fstep, Future.step, f.ub, St.post, St.say]
  obtain ⟨s, h1, h2⟩ := hs
  obtain ⟨g1, _, g3, _, _⟩ := dispatch_grows hF h1
  refine ⟨s, ?_, ⟨.step (.dispatch a) f.store h1, ?_, ?_, h2⟩, ?_, ?_⟩
  · unfold Pump.dispatch
    rw [if_pos hn, h1]
    rfl
  · show s.queue.length = nTasks (w.events ++ [.task])
    rw [g1, nTasks_append, List.length_append, f.count]
    rfl
  · intro y hy
    have hy' : y ∈ s.queue := hy
    rw [g1] at hy'
    rcases List.mem_append.1 hy' with h | h
    · exact f.bare y h
    · cases List.mem_singleton.1 h; exact trivial
  · rw [g3, dispatches_append]
    rfl
  · rw [g1, sumLeft_append]
    rfl

theorem Pump.send_fits {c : Cfg A Mo} (hF : c.hasF = false) {cap : Nat} (as : List A) {w : Pump E A Mo} (f : w.Fits c)
    (hn : w.events.length + as.length ≤ cap) :
    ∃ s, w.send c cap as = some { w with st := s, events := w.events ++ List.replicate as.length .task } ∧
      Pump.Fits c { w with st := s, events := w.events ++ List.replicate as.length .task } ∧
      dispatches s.log = dispatches w.st.log ++ as := by
  induction as generalizing w with
  | nil =>
    refine ⟨w.st, ?_, ?_, by simp⟩
    · simp [Pump.send]
    · simpa using f
  | cons a as ih =>
    simp only [List.length_cons] at hn
    obtain ⟨s, h1, h2, h3, _⟩ := dispatch_fits hF f (show w.events.length < cap by omega) a
    obtain ⟨s', h4, h5, h6⟩ := ih h2 (by simp only [List.length_append, List.length_singleton]; omega)
    have he : w.events ++ [SdlEv.task] ++ List.replicate as.length .task = w.events ++ List.replicate (as.length + 1) .task := by
      rw [List.append_assoc, List.replicate_succ]; rfl
    simp only [he] at h4 h5
    refine ⟨s', ?_, h5, ?_⟩
    · show (w.dispatch c cap a).bind _ = _
      rw [h1]
      exact h4
    · rw [h6, h3]; simp

theorem Pump.work_fits {c : Cfg A Mo} (hp : c.plain) (hF : c.hasF = false) (ht : c.trans = false) {cap : Nat}
    {w : Pump E A Mo} {es : List (SdlEv E)} (he : w.events = .task :: es) (hn : w.events.length ≤ cap) (f : w.Fits c) :
    ∃ s l, Pump.work c cap { w with events := es } = some { w with st := s, events := es ++ l } ∧
      Pump.Fits c { w with st := s, events := es ++ l } ∧ dispatches s.log = dispatches w.st.log ∧
      l.length ≤ 1 ∧ users l = [] ∧ sumLeft s.queue + 1 ≤ sumLeft w.st.queue ∧
      ((∀ m a, c.throws m a = false) → sumLeft s.queue + 1 = sumLeft w.st.queue) := by
  have hc : w.st.queue.length = nTasks es + 1 := by rw [f.count, he]; rfl
  rw [he, List.length_cons] at hn
  cases hq : w.st.queue with
  | nil => rw [hq] at hc; cases hc
  | cons x q =>
    rw [hq, List.length_cons] at hc
    obtain ⟨s, h1, h2, h3, h4, h5⟩ := loop_bare hp hF ht hq f.bare
    have r' : Store.Reach c s := .step .loop f.store h1
    have hub : s.fu.ub = false := by rw [h2]; exact f.ub
    rcases h5 with ⟨h5, h6⟩ | ⟨d, a, i, hx, h5⟩
    · refine ⟨s, [], ?_, ⟨r', ?_, h3, hub⟩, h4, Nat.zero_le _, rfl, ?_, ?_⟩
      · unfold Pump.work
        simp only [h1, Option.map_some, hq, h5, List.length_cons, Nat.lt_succ_self, if_true, List.append_nil]
      · show s.queue.length = nTasks (es ++ [])
        rw [h5, List.append_nil]; omega
      · rw [h5]
        cases x <;> simp [sumLeft, Item.left] <;> omega
      · intro hth
        rcases h6 with ⟨d, i, rfl⟩ | ⟨m, a, h⟩
        · rw [h5]; simp [sumLeft, Item.left]; omega
        · rw [hth] at h; cases h
    · have hl : ¬ (s.queue.length < (x :: q).length) := by rw [h5]; simp
      subst hx
      refine ⟨s, [.task], ?_, ⟨r', ?_, h3, hub⟩, h4, Nat.le_refl _, rfl, ?_, ?_⟩
      · unfold Pump.work
        simp only [h1, Option.map_some, hq, hl, if_false]
        rw [if_pos (by omega)]
      · show s.queue.length = nTasks (es ++ [.task])
        rw [h5, nTasks_append, List.length_append]
        simp only [nTasks, List.length_singleton]
        omega
      · rw [h5, sumLeft_append]; simp [sumLeft, Item.left]; omega
      · intro _
        rw [h5, sumLeft_append]; simp [sumLeft, Item.left]; omega

/-- The invariant. -/
structure Pump.Inv (c : Cfg A Mo) (cap : Nat) (h : Handler E A) (w : Pump E A Mo) : Prop where
  fits : w.Fits c
  room : w.events.length ≤ cap
  lost : w.lost = 0
  disp : dispatches w.st.log = made h.intent w.calls
  came : w.arrived = heard w.calls ++ users w.events
  going : w.running = true → ∀ e ∈ heard w.calls, h.stops e = false
  gone : w.running = false → ∃ l e, heard w.calls = l ++ [e] ∧ h.stops e = true ∧ ∀ x ∈ l, h.stops x = false

theorem Pump.Inv.handle {c : Cfg A Mo} (hF : c.hasF = false) {cap : Nat} {h : Handler E A} {w : Pump E A Mo}
    (i : w.Inv c cap h) (hr : w.running = true) {e : E} {es : List (SdlEv E)} (he : w.events = .user e :: es) :
    ∃ w', Pump.handle c cap h { w with events := es } e = some w' ∧ w'.Inv c cap h ∧ w'.refused = w.refused ∧
      w'.events.length ≤ w.events.length ∧ w'.work' + 1 ≤ w.work' ∧
      ((h.intent e).isSome → w'.work' + 1 = w.work') ∧ w'.calls = w.calls ++ [.handler e] ∧
      w'.running = !h.stops e := by
  have hl : heard (w.calls ++ [.handler e]) = heard w.calls ++ [e] := by rw [heard_append]; rfl
  have hgo : (!h.stops e) = true → ∀ x ∈ heard (w.calls ++ [.handler e]), h.stops x = false := by
    intro hs x hx
    rw [hl] at hx
    rcases List.mem_append.1 hx with hx | hx
    · exact i.going hr x hx
    · cases List.mem_singleton.1 hx
      simpa using hs
  have hgn : (!h.stops e) = false → ∃ l x, heard (w.calls ++ [.handler e]) = l ++ [x] ∧ h.stops x = true ∧
      ∀ y ∈ l, h.stops y = false := fun hs => ⟨_, e, hl, by simpa using hs, i.going hr⟩
  have hcm : w.arrived = heard (w.calls ++ [.handler e]) ++ users es := by
    rw [i.came, hl, he]; simp [users]
  have hwk : w.work' = 3 * (users es).length + sumLeft w.st.queue + 3 := by
    simp only [Pump.work', he, users, List.length_cons]; omega
  have f1 : Pump.Fits c { w with events := es, calls := w.calls ++ [.handler e], running := !h.stops e } :=
    ⟨i.fits.store, by rw [i.fits.count, he]; rfl, i.fits.bare, i.fits.ub⟩
  have hroom := i.room
  rw [he, List.length_cons] at hroom
  cases ha : h.intent e with
  | none =>
    refine ⟨{ w with events := es, calls := w.calls ++ [.handler e], running := !h.stops e }, ?_,
      ⟨f1, by simp only; omega, i.lost, ?_, hcm, hgo, hgn⟩, rfl, ?_, ?_, nofun, rfl, rfl⟩
    · simp only [Pump.handle, ha]
    · simp only [made_append, i.disp, made, ha]; simp
    · simp only [he, List.length_cons]; omega
    · rw [hwk]; simp only [Pump.work']; omega
  | some a =>
    obtain ⟨s, h1, h2, h3, h4⟩ := dispatch_fits hF f1 (show es.length < cap by omega) a
    refine ⟨_, ?_, ⟨h2, ?_, i.lost, ?_, ?_, hgo, hgn⟩, rfl, ?_, ?_, fun _ => ?_, rfl, rfl⟩
    · simp only [Pump.handle, ha]; exact h1
    · simp only [List.length_append, List.length_singleton]; omega
    · simp only [made_append, made, ha, h3, i.disp]; simp
    · simp only [users_append, users, List.append_nil]; exact hcm
    · simp only [he, List.length_append, List.length_cons, List.length_nil]; omega
    · rw [hwk]; simp only [Pump.work', users_append, users, List.append_nil, h4]; omega
    · rw [hwk]; simp only [Pump.work', users_append, users, List.append_nil, h4]; omega

theorem Pump.Inv.next {c : Cfg A Mo} (hp : c.plain) (hF : c.hasF = false) (ht : c.trans = false) {cap : Nat}
    {h : Handler E A} {w : Pump E A Mo} (i : w.Inv c cap h) (hr : w.running = true) (hne : w.events ≠ []) :
    ∃ w', w.step c cap h .next = some w' ∧ w'.Inv c cap h ∧ w'.refused = w.refused ∧
      w'.events.length ≤ w.events.length ∧ w'.work' + 1 ≤ w.work' ∧
      ((∀ m a, c.throws m a = false) → (∀ e, .user e ∈ w.events → (h.intent e).isSome) → w'.work' + 1 = w.work') ∧
      (∀ e, .user e ∈ w'.events → .user e ∈ w.events) ∧
      (w'.running = true ∨ ∃ e, .user e ∈ w.events ∧ h.stops e = true) ∧ w'.arrived = w.arrived ∧
      (∀ as, .tick as ∈ w'.calls → .tick as ∈ w.calls) := by
  unfold Pump.step
  rw [if_pos hr]
  simp only [Pump.next]
  cases he : w.events with
  | nil => exact absurd he hne
  | cons x es =>
    cases x with
    | user e =>
      obtain ⟨w', h1, h2, h3, h4, h5, h6, h7, h8⟩ := i.handle hF hr he
      rw [he] at h4
      have hsub : (∀ x, .user x ∈ w'.events → .user x ∈ SdlEv.user e :: es) ∧ w'.arrived = w.arrived := by
        unfold Pump.handle at h1
        simp only at h1
        split at h1
        · cases h1
          exact ⟨fun x hx => List.mem_cons_of_mem _ hx, rfl⟩
        · unfold Pump.dispatch at h1
          split at h1
          · simp only [Option.map_eq_some_iff] at h1
            obtain ⟨s, _, rfl⟩ := h1
            refine ⟨fun x hx => ?_, rfl⟩
            rcases List.mem_append.1 hx with hx | hx
            · exact List.mem_cons_of_mem _ hx
            · cases List.mem_singleton.1 hx
          · cases h1
            exact ⟨fun x hx => List.mem_cons_of_mem _ hx, rfl⟩
      refine ⟨w', h1, h2, h3, h4, h5, fun _ hs => h6 (hs e (List.mem_cons_self ..)), hsub.1, ?_, hsub.2, ?_⟩
      · cases hs : h.stops e with
        | false => left; rw [h8, hs]; rfl
        | true => exact .inr ⟨e, List.mem_cons_self .., hs⟩
      · intro as has
        rw [h7] at has
        rcases List.mem_append.1 has with h | h
        · exact h
        · cases List.mem_singleton.1 h
    | task =>
      obtain ⟨s, l, h1, h2, h3, h4, h5, h6, h7⟩ := work_fits hp hF ht he i.room i.fits
      have hroom := i.room
      rw [he, List.length_cons] at hroom
      have hu : users (es ++ l) = users es := by rw [users_append, h5, List.append_nil]
      have hwk : w.work' = 3 * (users es).length + sumLeft w.st.queue := by simp only [Pump.work', he, users]
      refine ⟨_, h1, ⟨h2, ?_, i.lost, h3.trans i.disp, ?_, i.going, i.gone⟩, rfl, ?_, ?_, fun hth _ => ?_, ?_, .inl hr, rfl,
        fun _ h => h⟩
      · simp only [List.length_append]; omega
      · rw [i.came, he]; simp only [hu, users]
      · simp only [List.length_append, List.length_cons]; omega
      · rw [hwk]; simp only [Pump.work', hu]; omega
      · rw [hwk]; simp only [Pump.work', hu]; have := h7 hth; omega
      · intro e hx
        rcases List.mem_append.1 hx with hx | hx
        · exact List.mem_cons_of_mem _ hx
        · have : e ∈ users l := mem_users hx
          rw [h5] at this
          cases this

theorem Pump.step_running {c : Cfg A Mo} {cap : Nat} {h : Handler E A} {w w' : Pump E A Mo} {o : PumpOp E A}
    (hs : w.step c cap h o = some w') : w.running = true := by
  unfold Pump.step at hs
  split at hs
  · assumption
  · cases hs

theorem Pump.Inv.arrive {c : Cfg A Mo} {cap : Nat} {h : Handler E A} {w w' : Pump E A Mo} (i : w.Inv c cap h) {e : E}
    (hs : w.step c cap h (.arrive e) = some w') : w'.Inv c cap h ∧ w'.events.length ≤ w.events.length + 1 ∧
      (w.events.length < cap → w' = { w with events := w.events ++ [.user e], arrived := w.arrived ++ [e] }) := by
  have hr := step_running hs
  unfold Pump.step at hs
  rw [if_pos hr] at hs
  simp only at hs
  split at hs
  · rename_i hn
    cases hs
    refine ⟨⟨⟨i.fits.store, ?_, i.fits.bare, i.fits.ub⟩, ?_, i.lost, i.disp, ?_, i.going, i.gone⟩, ?_, fun _ => rfl⟩
    · simp only [nTasks_append, nTasks, Nat.add_zero]; exact i.fits.count
    · simp only [List.length_append, List.length_singleton]; omega
    · simp only [users_append, users, i.came, List.append_assoc]
    · simp
  · rename_i hn
    cases hs
    exact ⟨⟨⟨i.fits.store, i.fits.count, i.fits.bare, i.fits.ub⟩, i.room, i.lost, i.disp, i.came, i.going, i.gone⟩,
      Nat.le_succ _, fun h => absurd h hn⟩

theorem Pump.Inv.tick {c : Cfg A Mo} (hF : c.hasF = false) {cap : Nat} {h : Handler E A} {w w' : Pump E A Mo}
    (i : w.Inv c cap h) {as : List A} (hn : as.length ≤ cap) (hs : w.step c cap h (.tick as) = some w') :
    w'.Inv c cap h ∧ w'.events.length ≤ w.events.length + as.length ∧ w'.refused = w.refused ∧ w.events = [] := by
  have hr := step_running hs
  unfold Pump.step at hs
  rw [if_pos hr] at hs
  simp only at hs
  split at hs
  · rename_i he
    have he : w.events = [] := by simpa using he
    have f1 : Pump.Fits c { w with calls := w.calls ++ [.tick as] } :=
      ⟨i.fits.store, i.fits.count, i.fits.bare, i.fits.ub⟩
    obtain ⟨s, h1, h2, h3⟩ := send_fits hF as f1 (show w.events.length + as.length ≤ cap by rw [he]; simpa using hn)
    rw [h1] at hs
    cases hs
    have hu : ∀ n, users (List.replicate n (SdlEv.task (E := E))) = [] := by
      intro n
      induction n with
      | zero => rfl
      | succ n ih => rw [List.replicate_succ]; exact ih
    have hh : heard (w.calls ++ [Call.tick as]) = heard w.calls := by rw [heard_append]; simp [heard]
    refine ⟨⟨h2, ?_, i.lost, ?_, ?_, ?_, ?_⟩, ?_, rfl, he⟩
    · simp only [List.length_append, List.length_replicate, he, List.length_nil]; omega
    · simp only [made_append, made, List.append_nil, h3, i.disp]
    · simp only [hh, users_append, hu, List.append_nil]; exact i.came
    · simp only [hh]; exact i.going
    · simp only [hh]; exact i.gone
    · simp
  · cases hs

theorem Pump.Inv.begin (c : Cfg A Mo) (cap : Nat) (h : Handler E A) : Pump.Inv c cap h (.start c) :=
  ⟨⟨.start, rfl, nofun, rfl⟩, Nat.zero_le _, rfl, rfl, rfl, (fun _ => nofun), nofun⟩

theorem Pump.next_events {c : Cfg A Mo} {cap : Nat} {h : Handler E A} {w w' : Pump E A Mo}
    (hs : w.step c cap h .next = some w') : w.events ≠ [] := by
  have hr := step_running hs
  unfold Pump.step at hs
  rw [if_pos hr] at hs
  intro he
  simp only [Pump.next, he] at hs
  cases hs

theorem Pump.Reach.inv {c : Cfg A Mo} (hp : c.plain) (hF : c.hasF = false) (ht : c.trans = false) {cap : Nat}
    {h : Handler E A} {w : Pump E A Mo} (r : Pump.Reach c cap h w) : w.Inv c cap h := by
  induction r with
  | start => exact .begin c cap h
  | arrive e _ hs ih => exact (ih.arrive hs).1
  | next _ hs ih =>
    obtain ⟨w', h1, h2, _⟩ := ih.next hp hF ht (step_running hs) (next_events hs)
    rw [hs] at h1
    cases h1
    exact h2
  | tick as hn _ hs ih => exact (ih.tick hF hn hs).1

/-! ### C140 -/

/-- C140: no action is lost, however many events come and wait: SDL has room for all tasks. -/
theorem C140_room {c : Cfg A Mo} (hp : c.plain) (hF : c.hasF = false) (ht : c.trans = false) {cap : Nat}
    {h : Handler E A} {w : Pump E A Mo} (r : Pump.Reach c cap h w) : w.lost = 0 := (r.inv hp hF ht).lost

/-- C140: the handler is called with the events in the order in which they came, once with each; and what it and `tick` make of
them is dispatched in this order. -/
theorem C140_order {c : Cfg A Mo} (hp : c.plain) (hF : c.hasF = false) (ht : c.trans = false) {cap : Nat}
    {h : Handler E A} {w : Pump E A Mo} (r : Pump.Reach c cap h w) :
    w.arrived = heard w.calls ++ users w.events ∧ dispatches w.st.log = made h.intent w.calls :=
  ⟨(r.inv hp hF ht).came, (r.inv hp hF ht).disp⟩

/-- C140: whenever no task waits, the watchers have been called with the fold over everything that was dispatched. -/
theorem C140_drawn {c : Cfg A Mo} (hc : c.sound) (hp : c.plain) (hF : c.hasF = false) (ht : c.trans = false) {cap : Nat}
    {h : Handler E A} {w : Pump E A Mo} (r : Pump.Reach c cap h w) (hn : .task ∉ w.events) :
    w.st.get = fold c (made h.intent w.calls) ∧ lastShown c.init w.st.log = w.st.get := by
  have i := r.inv hp hF ht
  have hi : w.st.idle := List.length_eq_zero_iff.1 (by rw [i.fits.count, nTasks_zero hn])
  exact ⟨by rw [C48_fold hc ht i.fits.store hi, i.disp], (C50_last hc i.fits.store).1⟩

/-- C140: when `tick` is called, the handler has been called with everything that has come, and all that has been drawn. -/
theorem C140_tick {c : Cfg A Mo} (hc : c.sound) (hp : c.plain) (hF : c.hasF = false) (ht : c.trans = false) {cap : Nat}
    {h : Handler E A} {w w' : Pump E A Mo} (r : Pump.Reach c cap h w) {as : List A}
    (hs : w.step c cap h (.tick as) = some w') :
    heard w.calls = w.arrived ∧ lastShown c.init w.st.log = fold c (made h.intent w.calls) := by
  have he : w.events = [] := by
    have hr := Pump.step_running hs
    unfold Pump.step at hs
    rw [if_pos hr] at hs
    simp only at hs
    split at hs
    · rename_i he; simpa using he
    · cases hs
  have i := r.inv hp hF ht
  have hd := C140_drawn hc hp hF ht r (by rw [he]; nofun)
  refine ⟨?_, hd.2.trans hd.1⟩
  rw [i.came, he]
  simp [users]

theorem sumLeft_le (q : List (Item A)) : sumLeft q ≤ 2 * q.length := by
  induction q with
  | nil => exact Nat.le_refl _
  | cons x q ih =>
    have : sumLeft (x :: q) = x.left + sumLeft q := rfl
    have hx : x.left ≤ 2 := by cases x <;> simp [Item.left]
    rw [this, List.length_cons]; omega

theorem users_nTasks (l : List (SdlEv E)) : (users l).length + nTasks l = l.length := by
  induction l with
  | nil => rfl
  | cons x l ih => cases x <;> simp [users, nTasks] <;> omega

/-- C140: the loop can go on whenever an event waits; and unless more come, none waits after at most three times as many steps as
events were waiting. -/
theorem C140_soon {c : Cfg A Mo} (hp : c.plain) (hF : c.hasF = false) (ht : c.trans = false) {cap : Nat}
    {h : Handler E A} {w : Pump E A Mo} (r : Pump.Reach c cap h w) :
    (w.running = true → w.events ≠ [] → ∃ w', w.step c cap h .next = some w') ∧
    ∀ n w', w.exec c cap h (List.replicate n .next) = some w' → n ≤ 3 * w.events.length := by
  have i := r.inv hp hF ht
  refine ⟨fun hr hne => (i.next hp hF ht hr hne).imp fun _ h => h.1, fun n w' hx => ?_⟩
  suffices n ≤ w.work' by
    have h1 := sumLeft_le w.st.queue
    have h2 := users_nTasks w.events
    have h3 := i.fits.count
    unfold Pump.work' at this
    omega
  clear r
  induction n generalizing w with
  | zero => exact Nat.zero_le _
  | succ n ih =>
    simp only [List.replicate_succ, Pump.exec, Option.bind_eq_some_iff] at hx
    obtain ⟨w1, h1, h2⟩ := hx
    obtain ⟨w2, h3, h4, _, _, h5, _⟩ := i.next hp hF ht (Pump.step_running h1) (Pump.next_events h1)
    rw [h1] at h3
    cases h3
    have := ih h4 h2
    omega

/-- C140: no event is refused as long as not more of them come, and are made by `tick`, than SDL has room for, with those that
wait already: handling them takes no more room than they have taken. -/
theorem C140_burst {c : Cfg A Mo} (hp : c.plain) (hF : c.hasF = false) (ht : c.trans = false) {cap : Nat}
    {h : Handler E A} {w w' : Pump E A Mo} (r : Pump.Reach c cap h w) {os : List (PumpOp E A)}
    (hx : w.exec c cap h os = some w') (hn : w.events.length + (os.map PumpOp.news).sum ≤ cap) :
    w'.refused = w.refused := by
  have i := r.inv hp hF ht
  clear r
  induction os generalizing w with
  | nil => cases hx; rfl
  | cons o os ih =>
    simp only [Pump.exec, Option.bind_eq_some_iff] at hx
    obtain ⟨w1, h1, h2⟩ := hx
    simp only [List.map_cons, List.sum_cons] at hn
    cases o with
    | arrive e =>
      simp only [PumpOp.news] at hn
      obtain ⟨h3, h4, h5⟩ := i.arrive h1
      rw [ih h2 (by omega) h3, h5 (by omega)]
    | next =>
      obtain ⟨w2, h3, h4, h5, h6, _⟩ := i.next hp hF ht (Pump.step_running h1) (Pump.next_events h1)
      rw [h1] at h3
      cases h3
      simp only [PumpOp.news] at hn
      rw [ih h2 (by omega) h4, h5]
    | tick as =>
      simp only [PumpOp.news] at hn
      obtain ⟨h3, h4, h5, _⟩ := i.tick hF (show as.length ≤ cap by omega) h1
      rw [ih h2 (by omega) h3, h5]

/-- C140: `run` returns after the first event for which the handler returns `false`. -/
theorem C140_stop {c : Cfg A Mo} (hp : c.plain) (hF : c.hasF = false) (ht : c.trans = false) {cap : Nat}
    {h : Handler E A} {w : Pump E A Mo} (r : Pump.Reach c cap h w) :
    (w.running = true → ∀ e ∈ heard w.calls, h.stops e = false) ∧
    (w.running = false → (∃ l e, heard w.calls = l ++ [e] ∧ h.stops e = true ∧ ∀ x ∈ l, h.stops x = false) ∧
      ∀ o, w.step c cap h o = none) := by
  have i := r.inv hp hF ht
  refine ⟨i.going, fun hr => ⟨i.gone hr, fun o => ?_⟩⟩
  unfold Pump.step
  rw [hr]
  rfl

theorem Pump.Reach.nexts {c : Cfg A Mo} {cap : Nat} {h : Handler E A} {w w' : Pump E A Mo} (r : Pump.Reach c cap h w)
    {os : List (PumpOp E A)} (ho : ∀ as, .tick as ∉ os) (hx : w.exec c cap h os = some w') : Pump.Reach c cap h w' := by
  induction os generalizing w with
  | nil => cases hx; exact r
  | cons o os ih =>
    simp only [Pump.exec, Option.bind_eq_some_iff] at hx
    obtain ⟨w1, h1, h2⟩ := hx
    have ho' : ∀ as, .tick as ∉ os := fun as h => ho as (List.mem_cons_of_mem _ h)
    cases o with
    | arrive e => exact ih (.arrive e r h1) ho' h2
    | next => exact ih (.next r h1) ho' h2
    | tick as => exact absurd (List.mem_cons_self ..) (ho as)

/-- While the events `e` come. -/
structure Pump.Busy (c : Cfg A Mo) (cap : Nat) (h : Handler E A) (e : E) (w : Pump E A Mo) : Prop where
  inv : w.Inv c cap h
  running : w.running = true
  only : ∀ x, .user x ∈ w.events → x = e
  refused : w.refused = []
  ticks : ∀ as, .tick as ∉ w.calls

theorem Pump.Busy.arrive {c : Cfg A Mo} {cap : Nat} {h : Handler E A} {e : E} {w : Pump E A Mo} (b : w.Busy c cap h e)
    (hn : w.events.length < cap) : ∃ w', w.step c cap h (.arrive e) = some w' ∧ w'.Busy c cap h e ∧
      w'.work' = w.work' + 3 ∧ w'.arrived = w.arrived ++ [e] ∧ w'.events ≠ [] := by
  have hs : w.step c cap h (.arrive e) = some { w with events := w.events ++ [.user e], arrived := w.arrived ++ [e] } := by
    unfold Pump.step
    rw [if_pos b.running]
    simp only [hn, if_true]
  refine ⟨_, hs, ⟨(b.inv.arrive hs).1, b.running, ?_, b.refused, b.ticks⟩, ?_, rfl, by simp⟩
  · intro x hx
    rcases List.mem_append.1 hx with hx | hx
    · exact b.only x hx
    · cases List.mem_singleton.1 hx; rfl
  · simp only [Pump.work', users_append, users, List.length_append, List.length_cons, List.length_nil]; omega

theorem Pump.Busy.next {c : Cfg A Mo} (hp : c.plain) (hF : c.hasF = false) (ht : c.trans = false)
    (hth : ∀ m a, c.throws m a = false) {cap : Nat} {h : Handler E A} {e : E} (hi : (h.intent e).isSome)
    (hst : h.stops e = false) {w : Pump E A Mo} (b : w.Busy c cap h e) (hw : 0 < w.work') :
    ∃ w', w.step c cap h .next = some w' ∧ w'.Busy c cap h e ∧ w'.work' + 1 = w.work' ∧ w'.arrived = w.arrived := by
  have hne : w.events ≠ [] := by
    intro he
    have := b.inv.fits.count
    rw [he] at this
    have hq : w.st.queue = [] := List.length_eq_zero_iff.1 this
    simp [Pump.work', he, hq, users, sumLeft] at hw
  obtain ⟨w', h1, h2, h3, _, _, h6, h7, h8, h9, h10⟩ := b.inv.next hp hF ht b.running hne
  refine ⟨w', h1, ⟨h2, ?_, fun x hx => b.only x (h7 x hx), h3.trans b.refused, fun as ha => b.ticks as (h10 as ha)⟩,
    h6 hth fun x hx => by rw [b.only x hx]; exact hi, h9⟩
  rcases h8 with h8 | ⟨x, hx, h8⟩
  · exact h8
  · rw [b.only x hx, hst] at h8; cases h8

theorem Pump.Inv.length_le {c : Cfg A Mo} {cap : Nat} {h : Handler E A} {w : Pump E A Mo} (i : w.Inv c cap h) :
    w.events.length ≤ w.work' := by
  have h1 := users_nTasks w.events
  have h2 := i.fits.count
  have h3 : ∀ q : List (Item A), q.length ≤ sumLeft q := by
    intro q
    induction q with
    | nil => exact Nat.le_refl _
    | cons x q ih =>
      have : sumLeft (x :: q) = x.left + sumLeft q := rfl
      have hx : 1 ≤ x.left := by cases x <;> simp [Item.left]
      rw [this, List.length_cons]; omega
  have := h3 w.st.queue
  unfold Pump.work'
  omega

theorem Pump.Inv.waiting {c : Cfg A Mo} {cap : Nat} {h : Handler E A} {w : Pump E A Mo} (i : w.Inv c cap h)
    (hw : 0 < w.work') : w.events ≠ [] := by
  intro he
  have := i.fits.count
  rw [he] at this
  have hq : w.st.queue = [] := List.length_eq_zero_iff.1 this
  simp [Pump.work', he, hq, users, sumLeft] at hw

/-- C140 is FALSE for frames: if an event comes for each three steps of the loop, just as many as it can handle, `tick` is never
called, however many come, and all are handled. -/
theorem C140_frames_false {c : Cfg A Mo} (hp : c.plain) (hF : c.hasF = false) (ht : c.trans = false)
    (hth : ∀ m a, c.throws m a = false) {cap : Nat} (hcap : 6 ≤ cap) {h : Handler E A} {e : E}
    (hi : (h.intent e).isSome) (hst : h.stops e = false) (n : Nat) :
    let os := PumpOp.arrive e :: (List.replicate n [PumpOp.arrive e, .next, .next, .next]).flatten
    (∃ w, Pump.exec c cap h (.start c) os = some w ∧ w.refused = [] ∧ n ≤ (heard w.calls).length) ∧
    ∀ os1 os2, os = os1 ++ os2 → os1 ≠ [] → ∃ w, Pump.exec c cap h (.start c) os1 = some w ∧
      ∀ as, w.step c cap h (.tick as) = none := by
  have no : ∀ {w : Pump E A Mo}, w.Inv c cap h → 0 < w.work' → ∀ as, w.step c cap h (.tick as) = none := by
    intro w i hw as
    have := i.waiting hw
    unfold Pump.step
    split
    · simp [this]
    · rfl
  have main : ∀ n (w : Pump E A Mo), w.Busy c cap h e → w.work' = 3 →
      (∃ w', w.exec c cap h (List.replicate n [PumpOp.arrive e, .next, .next, .next]).flatten = some w' ∧
        w'.Busy c cap h e ∧ w'.work' = 3 ∧ w'.arrived.length = w.arrived.length + n) ∧
      ∀ os1 os2, (List.replicate n [PumpOp.arrive e, .next, .next, .next]).flatten = os1 ++ os2 →
        ∃ w', w.exec c cap h os1 = some w' ∧ w'.Inv c cap h ∧ 0 < w'.work' := by
    intro n
    induction n with
    | zero =>
      intro w b hw
      refine ⟨⟨w, rfl, b, hw, rfl⟩, fun os1 os2 ho => ?_⟩
      simp only [List.replicate_zero, List.flatten_nil] at ho
      have := (List.append_eq_nil_iff.1 ho.symm).1
      subst this
      exact ⟨w, rfl, b.inv, by omega⟩
    | succ n ih =>
      intro w b hw
      have hl := b.inv.length_le
      obtain ⟨w1, s1, b1, k1, a1, _⟩ := b.arrive (by omega)
      obtain ⟨w2, s2, b2, k2, a2⟩ := b1.next hp hF ht hth hi hst (by omega)
      obtain ⟨w3, s3, b3, k3, a3⟩ := b2.next hp hF ht hth hi hst (by omega)
      obtain ⟨w4, s4, b4, k4, a4⟩ := b3.next hp hF ht hth hi hst (by omega)
      obtain ⟨⟨w5, e5, b5, k5, a5⟩, pre⟩ := ih w4 b4 (by omega)
      have ha : w4.arrived.length = w.arrived.length + 1 := by rw [a4, a3, a2, a1]; simp
      simp only [List.replicate_succ, List.flatten_cons, List.cons_append, List.nil_append]
      refine ⟨⟨w5, ?_, b5, k5, by omega⟩, ?_⟩
      · simp only [Pump.exec, s1, s2, s3, s4, Option.bind_some]; exact e5
      · intro os1 os2 ho
        match os1, ho with
        | [], _ => exact ⟨w, rfl, b.inv, by omega⟩
        | [o], ho =>
          simp only [List.cons_append, List.cons.injEq] at ho
          obtain ⟨rfl, _⟩ := ho
          exact ⟨w1, by simp only [Pump.exec, s1, Option.bind_some], b1.inv, by omega⟩
        | [o, p], ho =>
          simp only [List.cons_append, List.cons.injEq] at ho
          obtain ⟨rfl, rfl, _⟩ := ho
          exact ⟨w2, by simp only [Pump.exec, s1, s2, Option.bind_some], b2.inv, by omega⟩
        | [o, p, q], ho =>
          simp only [List.cons_append, List.cons.injEq] at ho
          obtain ⟨rfl, rfl, rfl, _⟩ := ho
          exact ⟨w3, by simp only [Pump.exec, s1, s2, s3, Option.bind_some], b3.inv, by omega⟩
        | o :: p :: q :: t :: os1, ho =>
          simp only [List.cons_append, List.cons.injEq] at ho
          obtain ⟨rfl, rfl, rfl, rfl, ho⟩ := ho
          obtain ⟨w', e', i', k'⟩ := pre os1 os2 ho
          refine ⟨w', ?_, i', k'⟩
          simp only [Pump.exec, s1, s2, s3, s4, Option.bind_some]; exact e'
  have b0 : Pump.Busy c cap h e (.start c) := ⟨.begin c cap h, rfl, nofun, rfl, nofun⟩
  obtain ⟨w1, s1, b1, k1, a1, _⟩ := b0.arrive (show 0 < cap by omega)
  have hk : w1.work' = 3 := k1
  obtain ⟨⟨w2, e2, b2, k2, a2⟩, pre⟩ := main n w1 b1 hk
  refine ⟨⟨w2, ?_, b2.refused, ?_⟩, ?_⟩
  · simp only [Pump.exec, s1, Option.bind_some]; exact e2
  · have := congrArg List.length b2.inv.came
    rw [List.length_append, a2, a1] at this
    have h3 : 3 * (users w2.events).length ≤ w2.work' := Nat.le_add_right _ _
    simp only [List.length_append, List.length_cons, List.length_nil] at this
    omega
  · intro os1 os2 ho hne
    cases os1 with
    | nil => exact absurd rfl hne
    | cons o os1 =>
      simp only [List.cons_append, List.cons.injEq] at ho
      obtain ⟨rfl, ho⟩ := ho
      obtain ⟨w', e', i', k'⟩ := pre os1 os2 ho
      refine ⟨w', ?_, no i' k'⟩
      simp only [Pump.exec, s1, Option.bind_some]; exact e'

end Verif.Store
