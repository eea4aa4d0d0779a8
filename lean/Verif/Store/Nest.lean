import Verif.Store.Props12

/-!
Stores and nested event loops.  A watcher, or an effect, may run the event loop in which its task runs, as with `QDialog::exec`
or `QEventLoop::exec` and `with_qt_event_loop`, or with `io_context::poll` and `with_boost_asio_event_loop`.  Then tasks are run
within tasks.
-/

namespace Verif.Store

variable {A Mo : Type}

/-- A task, `store.hpp:163-182` or `:186-192`, that has called `send_down` and is in `notify`, if there is somebody to notify: it
has called the first `next` watchers, and is in the last one of these. -/
structure Level (A : Type) where
  it : Item A
  next : Nat
  called : Bool

/-- A store for which `stack` are the tasks that have begun, the last one first; each of them was begun by a watcher that is
called in the one behind it.  `calls` are the calls of watchers so far: which one, and with what. -/
structure Nest (A Mo : Type) where
  st : St A Mo
  stack : List (Level A)
  calls : List (Nat × Mo)

/-- What happens. -/
inductive NOp (A : Type) where
  /-- any user code or thread dispatches, or uses futures, or an effect goes on -/
  | user (op : SOp A)
  /-- the event loop, or a nested one, takes the next task -/
  | loop
  /-- the next watcher is called (the one before has returned) -/
  | call
  /-- all watchers have returned, and the task goes on to its end -/
  | fin

/-- Is it in a watcher? -/
def Level.inside (l : Level A) : Bool := l.called && decide (0 < l.next)

/-- May a task begin?  If none has, or from a watcher.  (Effects are called at the end of tasks; as in the model of stores, they
may run while the event loop goes on, so also if they call it.) -/
def Nest.ready (n : Nest A Mo) : Bool :=
  match n.stack with
  | [] => true
  | l :: _ => l.inside

/-- The next task: the reducer is called, `store.hpp:156-162`, or a promise has posted it, as in the model of stores; or
`send_down` and the beginning of `notify`, `store.hpp:166-169`, `:186-188`. -/
def Nest.begin (c : Cfg A Mo) (n : Nest A Mo) : Option (Nest A Mo) :=
  match n.st.queue with
  | [] => none
  | .reduce _ _ _ :: _ => (n.st.loop c).map fun s => { n with st := s }
  | .tok :: _ => (n.st.loop c).map fun s => { n with st := s }
  | it :: q =>
    let s := { n.st with queue := q }.sendDown
    some { n with st := s.notify, stack := ⟨it, 0, s.ntf && !s.dirty⟩ :: n.stack }

/-- Steps of a store with `automatic_tag` and `k` watchers.  Watchers are called with a reference to what `get()` returns,
`detail/nodes.hpp:228-253`.  They do not throw. -/
def Nest.step (c : Cfg A Mo) (k : Nat) (n : Nest A Mo) : NOp A → Option (Nest A Mo)
  | .user op => if op.isUser then (Store.step c n.st op).map fun s => { n with st := s } else none
  | .loop => if n.ready then n.begin c else none
  | .call =>
    match n.stack with
    | [] => none
    | l :: r =>
      if l.called = true ∧ l.next < k then
        some { n with stack := { l with next := l.next + 1 } :: r, calls := n.calls ++ [(l.next, n.st.last)] }
      else none
  | .fin =>
    match n.stack with
    | [] => none
    | l :: r =>
      if l.called = true ∧ l.next < k then none
      else (n.st.after c (some l.it)).map fun s => { n with st := s, stack := r }

/-- The state at the beginning. -/
def Nest.start (c : Cfg A Mo) : Nest A Mo := ⟨Store.start c, [], []⟩

/-- Several steps, one after the other. -/
def Nest.exec (c : Cfg A Mo) (k : Nat) (n : Nest A Mo) : List (NOp A) → Option (Nest A Mo)
  | [] => some n
  | op :: ops => (Nest.step c k n op).bind fun n' => Nest.exec c k n' ops

/-- The states that can be reached. -/
inductive Nest.Reach (c : Cfg A Mo) (k : Nat) : Nest A Mo → Prop where
  | start : Reach c k (Nest.start c)
  | step {n n'} (op : NOp A) : Reach c k n → Nest.step c k n op = some n' → Reach c k n'

/-! ### Steps of user code -/

/-- Nothing happens to models and actions. -/
structure Mute (st s : St A Mo) : Prop where
  cur : s.cur = st.cur
  last : s.last = st.last
  dirty : s.dirty = st.dirty
  ntf : s.ntf = st.ntf
  sent : s.sent = st.sent
  log : ∃ l, s.log = st.log ++ l ∧ ∀ e ∈ l, e.minor = true
  queue : ∃ n, s.queue = st.queue ++ List.replicate n .tok

theorem Toks.mute {st s : St A Mo} (h : Toks st s) : Mute st s :=
  ⟨h.cur, h.last, h.dirty, h.ntf, h.sent, ⟨[], by rw [h.log, List.append_nil], nofun⟩, h.queue⟩

theorem Mute.refl (st : St A Mo) : Mute st st := (Toks.refl st).mute

theorem Mute.trans {a b d : St A Mo} (h : Mute a b) (k : Mute b d) : Mute a d := by
  obtain ⟨n, hn⟩ := h.queue
  obtain ⟨o, ho⟩ := k.queue
  obtain ⟨l, hl, hm⟩ := h.log
  obtain ⟨r, hr, hs⟩ := k.log
  refine ⟨k.cur.trans h.cur, k.last.trans h.last, k.dirty.trans h.dirty, k.ntf.trans h.ntf, k.sent.trans h.sent,
    ⟨l ++ r, by rw [hr, hl, List.append_assoc], fun e he => ?_⟩, n + o, ?_⟩
  · rcases List.mem_append.1 he with he | he
    · exact hm e he
    · exact hs e he
  · rw [ho, hn, List.append_assoc, List.replicate_append_replicate]

theorem Mute.say (st : St A Mo) {e : SEv A Mo} (he : e.minor = true) : Mute st (st.say e) :=
  ⟨rfl, rfl, rfl, rfl, rfl, ⟨[e], rfl, fun x hx => by rw [List.mem_singleton.1 hx]; exact he⟩, 0, by simp [St.say]⟩

theorem Mute.of_eq {st s s1 : St A Mo} (k : Mute st s) (h1 : s1.cur = s.cur)
    (h2 : s1.last = s.last) (h3 : s1.dirty = s.dirty) (h4 : s1.ntf = s.ntf) (h5 : s1.log = s.log)
    (h6 : s1.sent = s.sent) (h7 : s1.queue = s.queue) : Mute st s1 :=
  k.trans (Toks.mute ⟨h1, h2, h3, h4, h5, h6, 0, by simp [h7]⟩)

theorem go_mute {c : Cfg A Mo} {st st' : St A Mo} {f : EF} (h : st.go c f = some st') : Mute st st' := by
  have k := Mute.refl st
  unfold St.go at h
  dsimp only at h
  split at h
  · cases h
  · cases h; exact k.of_eq rfl rfl rfl rfl rfl rfl rfl
  · cases h; exact (Mute.say st (e := .prim f.x f.pos _) rfl).of_eq rfl rfl rfl rfl rfl rfl rfl
  · cases h; exact k.of_eq rfl rfl rfl rfl rfl rfl rfl
  · cases h
  · split at h
    · split at h
      · simp only [Option.map_eq_some_iff] at h
        obtain ⟨s1, h1, rfl⟩ := h
        exact (fstep_toks h1).mute.of_eq rfl rfl rfl rfl rfl rfl rfl
      · cases h; exact k.of_eq rfl rfl rfl rfl rfl rfl rfl
    · split at h
      · rename_i d i _
        have k1 := fun r => Mute.say st (e := .effEnd d r) rfl
        split at h
        · split at h
          · exact (k1 _).trans (fstep_toks h).mute
          · exact (k1 _).trans (fstep_toks h).mute
        · cases h; exact k1 _
      · simp only [Option.bind_eq_some_iff] at h
        obtain ⟨n, _, h⟩ := h
        split at h
        · exact (fstep_toks h).mute
        · simp only [Option.bind_eq_some_iff] at h
          obtain ⟨s1, h1, h2⟩ := h
          exact ((fstep_toks h1).trans (fstep_toks h2)).mute

theorem user_mute {c : Cfg A Mo} {st st' : St A Mo} {op : SOp A} (hu : op.isUser = true)
    (hd : ∀ a, op ≠ .dispatch a) (h : Store.step c st op = some st') : Mute st st' := by
  cases op with
  | loop => cases hu
  | loopRaise => cases hu
  | commit => cases hu
  | dispatch a => exact absurd rfl (hd a)
  | other l =>
    simp only [Store.step] at h
    split at h
    · cases h
    · exact (runTask_toks h).mute
  | fut op =>
    simp only [Store.step] at h
    split at h
    · exact (fstep_toks h).mute
    · cases h
  | go n =>
    simp only [Store.step] at h
    split at h
    · cases h
    · exact ((Mute.refl st).of_eq (s1 := { st with ev := st.ev.eraseIdx n }) rfl rfl rfl rfl rfl rfl rfl).trans (go_mute h)
  | prim n o =>
    simp only [Store.step] at h
    split at h
    · split at h
      · cases h
        exact (Mute.say st (e := .primRet _ _ _) rfl).of_eq rfl rfl rfl rfl rfl rfl rfl
      · cases h
    · cases h
  | raise n =>
    have k1 : ∀ x pos, Mute st { st.say (.primThrew x pos) with ev := st.ev.eraseIdx n } := fun x pos =>
      (Mute.say st (e := .primThrew x pos) rfl).of_eq rfl rfl rfl rfl rfl rfl rfl
    simp only [Store.step] at h
    split at h
    · cases h; exact k1 _ _
    · simp only [Option.bind_eq_some_iff] at h
      obtain ⟨m, _, h⟩ := h
      exact (k1 _ _).trans (fstep_toks h).mute
    · cases h

/-! ### Invariants -/

/-- What a new event about models has to be. -/
def EvN (c : Cfg A Mo) (l : List (SEv A Mo)) : SEv A Mo → Prop
  | .shown v => v = fold c (reductions l)
  | .reduced _ m a m' e => m = fold c (reductions l) ∧ (m', e) = c.reducer m a ∧ c.throws m a = false
  | .reduceThrew _ m a => m = fold c (reductions l) ∧ c.throws m a = true
  | _ => True

/-- Of the proof: all events in a record are as they have to be. -/
def LogN (c : Cfg A Mo) (l : List (SEv A Mo)) : Prop := ∀ l1 e l2, l = l1 ++ e :: l2 → EvN c l1 e

theorem LogN.snoc {c : Cfg A Mo} {l : List (SEv A Mo)} {e : SEv A Mo} (h : LogN c l) (he : EvN c l e) :
    LogN c (l ++ [e]) := by
  intro l1 x l2 hx
  rcases List.eq_nil_or_concat l2 with rfl | ⟨l3, y, rfl⟩
  · have := List.append_inj' hx rfl
    obtain ⟨rfl, h2⟩ := this
    cases h2
    exact he
  · refine h l1 x l3 ?_
    have h' : l ++ [e] = (l1 ++ x :: l3) ++ [y] := by rw [hx]; simp
    exact (List.append_inj' h' rfl).1

theorem LogN.minors {c : Cfg A Mo} {l r : List (SEv A Mo)} (h : LogN c l) (hr : ∀ e ∈ r, e.minor = true) :
    LogN c (l ++ r) := by
  induction r generalizing l with
  | nil => rw [List.append_nil]; exact h
  | cons e r ih =>
    have := ih (h.snoc (e := e) (by
      have he := hr e List.mem_cons_self
      cases e <;> first | trivial | cases he)) (fun x hx => hr x (List.mem_cons_of_mem _ hx))
    rwa [List.append_assoc] at this

theorem minors_red {l : List (SEv A Mo)} (h : ∀ e ∈ l, e.minor = true) : red l = [] := by
  induction l with
  | nil => rfl
  | cons e l ih =>
    have he := h e List.mem_cons_self
    have := ih fun x hx => h x (List.mem_cons_of_mem _ hx)
    cases e <;> first | exact this | cases he

theorem minors_disp {l : List (SEv A Mo)} (h : ∀ e ∈ l, e.minor = true) : disp l = [] := by
  induction l with
  | nil => rfl
  | cons e l ih =>
    have he := h e List.mem_cons_self
    have := ih fun x hx => h x (List.mem_cons_of_mem _ hx)
    cases e <;> first | exact this | cases he

theorem minors_redEff {l : List (SEv A Mo)} (h : ∀ e ∈ l, e.minor = true) (d : Nat) : redEff d l = 0 := by
  induction l with
  | nil => rfl
  | cons e l ih =>
    have he := h e List.mem_cons_self
    have := ih fun x hx => h x (List.mem_cons_of_mem _ hx)
    cases e <;> first | exact this | cases he

theorem minors_effRuns {l : List (SEv A Mo)} (h : ∀ e ∈ l, e.minor = true) (d : Nat) : effRuns d l = 0 := by
  induction l with
  | nil => rfl
  | cons e l ih =>
    have he := h e List.mem_cons_self
    have := ih fun x hx => h x (List.mem_cons_of_mem _ hx)
    cases e <;> first | exact this | cases he

/-- What watcher `w` was called with last. -/
def lastCall (init : Mo) (w : Nat) (calls : List (Nat × Mo)) : Mo := ((calls.filter (·.1 = w)).getLast?.map (·.2)).getD init

theorem lastCall_snoc (init : Mo) (w i : Nat) (v : Mo) (calls : List (Nat × Mo)) :
    lastCall init w (calls ++ [(i, v)]) = if i = w then v else lastCall init w calls := by
  unfold lastCall
  rw [List.filter_append]
  by_cases h : i = w
  · simp [h]
  · simp [h]

/-- The calls, and what is shown, are folds over the first ones of the actions `as`, over more and more of them. -/
def CallsOK (c : Cfg A Mo) (calls : List (Nat × Mo)) (last : Mo) (as : List A) : Prop :=
  ∃ (ns : List Nat) (m : Nat), ns.length = calls.length ∧ (ns ++ [m]).Pairwise (· ≤ ·) ∧
    m ≤ as.length ∧ last = fold c (as.take m) ∧
    ∀ (j i : Nat) (v : Mo) (x : Nat), calls[j]? = some (i, v) → ns[j]? = some x → v = fold c (as.take x)

theorem CallsOK.more {c : Cfg A Mo} {calls : List (Nat × Mo)} {last : Mo} {as : List A} (h : CallsOK c calls last as)
    (bs : List A) : CallsOK c calls last (as ++ bs) := by
  obtain ⟨ns, m, h1, h2, h3, h4, h5⟩ := h
  refine ⟨ns, m, h1, h2, by rw [List.length_append]; omega, ?_, ?_⟩
  · rw [List.take_append_of_le_length h3]; exact h4
  · intro j i v x hj hx
    have hx' : x ≤ m := by
      rw [List.pairwise_append] at h2
      exact h2.2.2 x (List.mem_of_getElem? hx) m List.mem_cons_self
    rw [List.take_append_of_le_length (by omega)]
    exact h5 j i v x hj hx

/-- Of the proof: the invariant. -/
structure NInv (c : Cfg A Mo) (k : Nat) (n : Nest A Mo) : Prop where
  order : disp n.st.log = red n.st.log ++ pend n.st.queue
  nums : (disp n.st.log).map (·.1) = List.range n.st.sent.length
  cur : n.st.cur = fold c (reductions n.st.log)
  ntf : n.st.ntf = false
  clean : n.st.dirty = false → n.st.last = n.st.cur
  wake : n.st.dirty = true → ∃ i ∈ n.st.queue, i.pubs = true
  log : LogN c n.st.log
  effs : ∀ d, redEff d n.st.log = qEff d n.st.queue + qEff d (n.stack.map (·.it)) + effRuns d n.st.log
  calls : CallsOK c n.calls n.st.last (reductions n.st.log)
  told : ∀ w, w < k → lastCall c.init w n.calls = n.st.last ∨ ∃ l ∈ n.stack, l.called = true ∧ l.next ≤ w

/-- Only these matter. -/
theorem NInv.mute {c : Cfg A Mo} {k : Nat} {n : Nest A Mo} (h : NInv c k n) {s : St A Mo} (m : Mute n.st s) :
    NInv c k { n with st := s } := by
  obtain ⟨l, hl, hm⟩ := m.log
  obtain ⟨t, hq⟩ := m.queue
  have hr : red s.log = red n.st.log := by rw [hl, red_append, minors_red hm, List.append_nil]
  have hr' : reductions s.log = reductions n.st.log := by rw [reductions_red, reductions_red, hr]
  have hd : disp s.log = disp n.st.log := by rw [hl, disp_append, minors_disp hm, List.append_nil]
  have hp : pend s.queue = pend n.st.queue := by rw [hq, pend_append, pend_toks, List.append_nil]
  constructor
  · rw [hd, hr, hp]; exact h.order
  · rw [hd, m.sent]; exact h.nums
  · rw [hr', m.cur]; exact h.cur
  · rw [m.ntf]; exact h.ntf
  · rw [m.dirty, m.last, m.cur]; exact h.clean
  · intro hd
    obtain ⟨i, hi, hp⟩ := h.wake (by rw [← m.dirty]; exact hd)
    exact ⟨i, by show i ∈ s.queue; rw [hq]; exact List.mem_append_left _ hi, hp⟩
  · rw [hl]; exact h.log.minors hm
  · intro d
    rw [hl, redEff_append, effRuns_append, minors_redEff hm, minors_effRuns hm, hq, qEff_append, qEff_toks]
    exact h.effs d
  · rw [hr', m.last]; exact h.calls
  · rw [m.last]; exact h.told

theorem NInv.dispatch {c : Cfg A Mo} {k : Nat} {n : Nest A Mo} (h : NInv c k n) {a : A} {s : St A Mo}
    (hs : n.st.dispatch c a = some s) : NInv c k { n with st := s } := by
  simp only [St.dispatch, Option.map_eq_some_iff] at hs
  obtain ⟨s1, h1, rfl⟩ := hs
  have ht := fstep_toks h1
  have k1 := h.mute ht.mute
  have hr : reductions (s1.log ++ [.dispatched n.st.sent.length a]) = reductions s1.log := by
    rw [reductions_append]; simp [reductions]
  constructor
  · show disp (s1.log ++ [_]) = red (s1.log ++ [_]) ++ pend (s1.queue ++ [_])
    have := k1.order
    dsimp only at this
    rw [disp_append, red_append, pend_append, this]
    simp [disp, red, pend]
  · show (disp (s1.log ++ [_])).map _ = List.range (n.st.sent ++ [_]).length
    have := k1.nums
    dsimp only at this
    rw [disp_append, List.map_append, this, ht.sent]
    simp [disp, List.range_succ]
  · show s1.cur = fold c (reductions (s1.log ++ [_]))
    rw [hr]
    exact k1.cur
  · exact k1.ntf
  · exact k1.clean
  · intro h3
    obtain ⟨i, hi, hp⟩ := k1.wake h3
    exact ⟨i, List.mem_append_left _ hi, hp⟩
  · exact k1.log.snoc trivial
  · intro d
    show redEff d (s1.log ++ [_]) = qEff d (s1.queue ++ [_]) + _ + effRuns d (s1.log ++ [_])
    rw [redEff_append, qEff_append, effRuns_append]
    simp only [redEff, qEff, effRuns]
    exact k1.effs d
  · show CallsOK c n.calls s1.last (reductions (s1.log ++ [_]))
    rw [hr]
    exact k1.calls
  · exact k1.told

/-- The reducer is called. -/
theorem NInv.reduce {c : Cfg A Mo} (hc : c.sound) (ht : c.trans = false) {k : Nat} {n : Nest A Mo} (h : NInv c k n)
    {d i : Nat} {a : A} {q : List (Item A)} (hq : n.st.queue = .reduce d a i :: q) {s : St A Mo}
    (hs : n.st.loop c = some s) : NInv c k { n with st := s } := by
  have order : disp n.st.log = red n.st.log ++ (d, a) :: pend q := by
    have := h.order
    rw [hq] at this
    exact this
  unfold St.loop at hs
  rw [hq] at hs
  dsimp only at hs
  split at hs
  · rename_i hth
    cases hs
    have hr : reductions (n.st.log ++ [.reduceThrew d n.st.cur a]) = reductions n.st.log ++ [a] := by
      rw [reductions_append]; rfl
    constructor
    · show disp (n.st.log ++ [_]) = red (n.st.log ++ [_]) ++ pend q
      rw [disp_append, red_append, order]
      simp [disp, red]
    · show (disp (n.st.log ++ [_])).map _ = _
      rw [disp_append]
      simp only [disp, List.append_nil]
      exact h.nums
    · show n.st.cur = fold c (reductions (n.st.log ++ [_]))
      rw [hr, fold_append, ← h.cur]
      simp [Cfg.next, hth]
    · exact h.ntf
    · exact h.clean
    · intro h3
      obtain ⟨i, hi, hp⟩ := h.wake h3
      rw [hq] at hi
      rcases List.mem_cons.1 hi with rfl | hi
      · cases hp
      · exact ⟨i, hi, hp⟩
    · exact h.log.snoc ⟨h.cur, hth⟩
    · intro d'
      show redEff d' (n.st.log ++ [_]) = qEff d' q + _ + effRuns d' (n.st.log ++ [_])
      have := h.effs d'
      rw [hq] at this
      rw [redEff_append, effRuns_append]
      simp only [redEff, effRuns, qEff] at this ⊢
      exact this
    · show CallsOK c n.calls n.st.last (reductions (n.st.log ++ [_]))
      rw [hr]
      exact h.calls.more [a]
    · exact h.told
  · rename_i hth
    have hth : c.throws n.st.cur a = false := by simpa using hth
    rw [ht] at hs
    simp only [Option.map_eq_some_iff] at hs
    obtain ⟨s1, h1, rfl⟩ := hs
    have hs1 : ∃ x : Item A, s1 = { n.st with queue := q ++ [x] } ∧ pend [x] = [] ∧ x.pubs = true ∧
        ∀ d', qEff d' [x] = if d = d' ∧ (c.reducer n.st.cur a).2.isEmpty = false then 1 else 0 := by
      by_cases he : (c.reducer n.st.cur a).2.isEmpty = true
      · simp only [he, if_true, Bool.false_eq_true, if_false] at h1
        cases h1
        refine ⟨.publish d i, rfl, rfl, rfl, fun d' => by simp [qEff, he]⟩
      · simp only [he, Bool.false_eq_true, if_false] at h1
        cases h1
        refine ⟨.effect d _ i, rfl, rfl, rfl, fun d' => ?_⟩
        have : (c.reducer n.st.cur a).2.isEmpty = false := by simpa using he
        simp [qEff, this]
    obtain ⟨x, rfl, hx1, hx2, hx3⟩ := hs1
    generalize hv : (c.reducer n.st.cur a).1 = v at *
    generalize he : (c.reducer n.st.cur a).2 = e at *
    have hpd : ∀ y : St A Mo, y = ({ n.st with queue := q ++ [x] } : St A Mo).pushDown c v →
        y.cur = v ∧ y.last = n.st.last ∧ y.ntf = n.st.ntf ∧ y.log = n.st.log ∧
        y.sent = n.st.sent ∧ y.queue = q ++ [x] ∧ (y.dirty = false → n.st.dirty = false ∧ y.cur = n.st.cur) := by
      rintro y rfl
      unfold St.pushDown
      split
      · exact ⟨rfl, rfl, rfl, rfl, rfl, rfl, fun h => by cases h⟩
      · rename_i hch
        have := hc _ _ (by simpa using hch)
        exact ⟨this.symm, rfl, rfl, rfl, rfl, rfl, fun h => ⟨h, rfl⟩⟩
    generalize ({ n.st with queue := q ++ [x] } : St A Mo).pushDown c v = y at hpd ⊢
    obtain ⟨e1, e2, e3, e4, e5, e6, e7⟩ := hpd y rfl
    have hlog : (y.say (.reduced d n.st.cur a v e)).log = n.st.log ++ [.reduced d n.st.cur a v e] := by simp [St.say, e4]
    have hr : reductions (n.st.log ++ [.reduced d n.st.cur a v e]) = reductions n.st.log ++ [a] := by
      rw [reductions_append]; rfl
    constructor
    · dsimp only
      rw [hlog, disp_append, red_append]
      show _ = _ ++ pend y.queue
      rw [e6, pend_append, hx1, order]
      simp [disp, red]
    · dsimp only
      rw [hlog, disp_append]
      show _ = List.range y.sent.length
      rw [e5]
      simp only [disp, List.append_nil]
      exact h.nums
    · dsimp only
      rw [hlog, hr, fold_append, ← h.cur]
      show y.cur = _
      simp [Cfg.next, hth, e1, hv]
    · show y.ntf = false
      rw [e3]; exact h.ntf
    · intro hd
      show y.last = y.cur
      obtain ⟨h8, h9⟩ := e7 hd
      rw [e2, h9]
      exact h.clean h8
    · intro _
      exact ⟨x, by show x ∈ y.queue; rw [e6]; exact List.mem_append_right _ List.mem_cons_self, hx2⟩
    · dsimp only
      rw [hlog]
      exact h.log.snoc ⟨h.cur, by rw [← hv, ← he], hth⟩
    · intro d'
      dsimp only
      rw [hlog, redEff_append, effRuns_append]
      show _ = qEff d' y.queue + _ + _
      rw [e6, qEff_append, hx3]
      have := h.effs d'
      rw [hq] at this
      simp only [redEff, effRuns, qEff] at this ⊢
      omega
    · dsimp only
      rw [hlog, hr]
      show CallsOK c n.calls y.last _
      rw [e2]
      exact h.calls.more [a]
    · show ∀ w, w < k → lastCall c.init w n.calls = y.last ∨ _
      rw [e2]
      exact h.told

/-- `send_down` and the beginning of `notify`. -/
theorem NInv.publish {c : Cfg A Mo} {k : Nat} {n : Nest A Mo} (h : NInv c k n) {it : Item A} {q : List (Item A)}
    (hq : n.st.queue = it :: q) (hp : it.pubs = true) :
    NInv c k { n with
      st := ({ n.st with queue := q } : St A Mo).sendDown.notify
      stack := ⟨it, 0, ({ n.st with queue := q } : St A Mo).sendDown.ntf &&
        !({ n.st with queue := q } : St A Mo).sendDown.dirty⟩ :: n.stack } := by
  have hpe : pend n.st.queue = pend q := by rw [hq]; cases it <;> first | rfl | cases hp
  have hqe : ∀ d, qEff d n.st.queue = qEff d [it] + qEff d q := by
    intro d
    rw [hq, show it :: q = [it] ++ q from rfl, qEff_append]
  have heff : ∀ d, redEff d n.st.log = qEff d q + qEff d (it :: n.stack.map (·.it)) + effRuns d n.st.log := by
    intro d
    have := h.effs d
    rw [hqe] at this
    rw [show it :: n.stack.map (·.it) = [it] ++ n.stack.map (·.it) from rfl, qEff_append]
    omega
  by_cases hd : n.st.dirty = true
  · have e1 : ({ n.st with queue := q } : St A Mo).sendDown =
        { n.st with queue := q, last := n.st.cur, dirty := false, ntf := true } := by
      unfold St.sendDown; simp [hd]
    rw [e1]
    have e2 : ({ n.st with queue := q, last := n.st.cur, dirty := false, ntf := true } : St A Mo).notify =
        { n.st with
          queue := q
          last := n.st.cur
          dirty := false
          ntf := false
          log := n.st.log ++ [.shown n.st.cur] } := by
      unfold St.notify; simp
    rw [e2]
    have hr : reductions (n.st.log ++ [.shown n.st.cur]) = reductions n.st.log := by
      rw [reductions_append]; simp [reductions]
    constructor
    · show disp (n.st.log ++ [_]) = red (n.st.log ++ [_]) ++ pend q
      rw [disp_append, red_append, ← hpe, h.order]
      simp [disp, red]
    · show (disp (n.st.log ++ [_])).map _ = _
      rw [disp_append]
      simp only [disp, List.append_nil]
      exact h.nums
    · show n.st.cur = fold c (reductions (n.st.log ++ [_]))
      rw [hr]
      exact h.cur
    · rfl
    · exact fun _ => rfl
    · exact nofun
    · exact h.log.snoc h.cur
    · intro d
      show redEff d (n.st.log ++ [_]) = qEff d q + qEff d (it :: n.stack.map (·.it)) + effRuns d (n.st.log ++ [_])
      rw [redEff_append, effRuns_append]
      simp only [redEff, effRuns, Nat.add_zero]
      exact heff d
    · obtain ⟨ns, m, h1, h2, h3, h4, h5⟩ := h.calls
      show CallsOK c n.calls n.st.cur (reductions (n.st.log ++ [_]))
      rw [hr]
      refine ⟨ns, (reductions n.st.log).length, h1, ?_, Nat.le_refl _, ?_, h5⟩
      · rw [List.pairwise_append] at h2 ⊢
        refine ⟨h2.1, List.pairwise_singleton _ _, ?_⟩
        intro x hx y hy
        rw [List.mem_singleton] at hy
        have := h2.2.2 x hx m List.mem_cons_self
        omega
      · rw [List.take_length]
        exact h.cur
    · exact fun w _ => .inr ⟨_, List.mem_cons_self, rfl, Nat.zero_le _⟩
  · have hd : n.st.dirty = false := by simpa using hd
    have e1 : ({ n.st with queue := q } : St A Mo).sendDown = { n.st with queue := q } := by
      unfold St.sendDown; simp [hd]
    rw [e1]
    have e2 : ({ n.st with queue := q } : St A Mo).notify = { n.st with queue := q } := by
      unfold St.notify; simp [h.ntf]
    rw [e2]
    constructor
    · show disp n.st.log = red n.st.log ++ pend q
      rw [← hpe]; exact h.order
    · exact h.nums
    · exact h.cur
    · exact h.ntf
    · exact h.clean
    · intro h3; exact absurd (hd.symm.trans h3) nofun
    · exact h.log
    · exact heff
    · exact h.calls
    · intro w hw
      rcases h.told w hw with h1 | ⟨l, h1, h2⟩
      · exact .inl h1
      · exact .inr ⟨l, List.mem_cons_of_mem _ h1, h2⟩

theorem NInv.call {c : Cfg A Mo} {k : Nat} {n : Nest A Mo} (h : NInv c k n) {l : Level A} {r : List (Level A)}
    (hl : n.stack = l :: r) :
    NInv c k { n with stack := { l with next := l.next + 1 } :: r, calls := n.calls ++ [(l.next, n.st.last)] } := by
  refine ⟨h.order, h.nums, h.cur, h.ntf, h.clean, h.wake, h.log, ?_, ?_, ?_⟩
  · have := h.effs
    rw [hl] at this
    exact this
  · obtain ⟨ns, m, h1, h2, h3, h4, h5⟩ := h.calls
    refine ⟨ns ++ [m], m, by simp [h1], ?_, h3, h4, ?_⟩
    · rw [List.pairwise_append]
      refine ⟨h2, List.pairwise_singleton _ _, ?_⟩
      intro x hx y hy
      rw [List.mem_singleton] at hy
      rw [hy]
      rcases List.mem_append.1 hx with hx | hx
      · rw [List.pairwise_append] at h2
        exact h2.2.2 x hx m List.mem_cons_self
      · rw [List.mem_singleton.1 hx]; exact Nat.le_refl _
    · intro j i v x hj hx
      dsimp only at hj hx ⊢
      by_cases hlt : j < n.calls.length
      · rw [List.getElem?_append_left hlt] at hj
        rw [List.getElem?_append_left (by omega)] at hx
        exact h5 j i v x hj hx
      · rw [List.getElem?_append_right (by omega)] at hj
        rw [List.getElem?_append_right (by omega), h1] at hx
        rcases Nat.eq_zero_or_pos (j - n.calls.length) with h0 | h0
        · rw [h0] at hj hx
          cases hj; cases hx
          exact h4
        · obtain ⟨p, hp⟩ : ∃ p, j - n.calls.length = p + 1 := ⟨j - n.calls.length - 1, by omega⟩
          rw [hp] at hj
          cases hj
  · intro w hw
    dsimp only
    rw [lastCall_snoc]
    by_cases hi : l.next = w
    · rw [if_pos hi]; exact .inl rfl
    · rw [if_neg hi]
      rcases h.told w hw with h1 | ⟨x, h1, h2, h3⟩
      · exact .inl h1
      · rw [hl] at h1
        rcases List.mem_cons.1 h1 with rfl | h1
        · exact .inr ⟨_, List.mem_cons_self, h2, by show x.next + 1 ≤ w; omega⟩
        · exact .inr ⟨x, List.mem_cons_of_mem _ h1, h2, h3⟩

/-- The end of a task. -/
theorem NInv.fin {c : Cfg A Mo} {k : Nat} {n : Nest A Mo} (h : NInv c k n) {l : Level A} {r : List (Level A)}
    (hl : n.stack = l :: r) (hk : ¬ (l.called = true ∧ l.next < k)) {s : St A Mo} (hs : n.st.after c (some l.it) = some s) :
    NInv c k { n with st := s, stack := r } := by
  have told : ∀ w, w < k → lastCall c.init w n.calls = n.st.last ∨ ∃ l ∈ r, l.called = true ∧ l.next ≤ w := by
    intro w hw
    rcases h.told w hw with h1 | ⟨x, h1, h2, h3⟩
    · exact .inl h1
    · rw [hl] at h1
      rcases List.mem_cons.1 h1 with rfl | h1
      · exact absurd ⟨h2, by omega⟩ hk
      · exact .inr ⟨x, h1, h2, h3⟩
  have effs := h.effs
  rw [hl] at effs
  unfold St.after at hs
  split at hs
  · rename_i d e i hit
    injection hit with hit
    cases hs
    have hr : reductions (n.st.log ++ [.ready d] ++ [.effStart d n.st.nx e]) = reductions n.st.log := by
      rw [reductions_append, reductions_append]; simp [reductions]
    constructor
    · show disp (n.st.log ++ [_] ++ [_]) = red (n.st.log ++ [_] ++ [_]) ++ pend n.st.queue
      simp only [disp_append, red_append, disp, red, List.append_nil]
      exact h.order
    · show (disp (n.st.log ++ [_] ++ [_])).map _ = _
      simp only [disp_append, disp, List.append_nil]
      exact h.nums
    · show n.st.cur = fold c (reductions (n.st.log ++ [_] ++ [_]))
      rw [hr]
      exact h.cur
    · exact h.ntf
    · exact h.clean
    · exact h.wake
    · exact (h.log.snoc (e := .ready d) trivial).snoc (e := .effStart d n.st.nx e) trivial
    · intro d'
      show redEff d' (n.st.log ++ [_] ++ [_]) = qEff d' n.st.queue + _ + effRuns d' (n.st.log ++ [_] ++ [_])
      have := effs d'
      simp only [List.map_cons, hit, qEff] at this
      simp only [redEff_append, effRuns_append, redEff, effRuns]
      omega
    · show CallsOK c n.calls n.st.last (reductions (n.st.log ++ [_] ++ [_]))
      rw [hr]
      exact h.calls
    · exact told
  · rename_i d i hit
    injection hit with hit
    have hr : reductions (n.st.say (.ready d)).log = reductions n.st.log := by
      show reductions (n.st.log ++ [_]) = _
      rw [reductions_append]; simp [reductions]
    have h1 : NInv c k { n with st := n.st.say (.ready d), stack := r } := by
      constructor
      · show disp (n.st.log ++ [_]) = red (n.st.log ++ [_]) ++ pend n.st.queue
        simp only [disp_append, red_append, disp, red, List.append_nil]
        exact h.order
      · show (disp (n.st.log ++ [_])).map _ = _
        simp only [disp_append, disp, List.append_nil]
        exact h.nums
      · show n.st.cur = fold c (reductions (n.st.say (.ready d)).log)
        rw [hr]
        exact h.cur
      · exact h.ntf
      · exact h.clean
      · exact h.wake
      · exact h.log.snoc (e := .ready d) trivial
      · intro d'
        show redEff d' (n.st.log ++ [_]) = qEff d' n.st.queue + _ + effRuns d' (n.st.log ++ [_])
        have := effs d'
        simp only [List.map_cons, hit, qEff] at this
        simp only [redEff_append, effRuns_append, redEff, effRuns]
        omega
      · show CallsOK c n.calls n.st.last (reductions (n.st.say (.ready d)).log)
        rw [hr]
        exact h.calls
      · exact told
    exact h1.mute (complete_toks hs).mute
  · rename_i hit
    cases hit
  · cases hs

theorem NInv.step {c : Cfg A Mo} (hc : c.sound) (ht : c.trans = false) {k : Nat} {n n' : Nest A Mo} (h : NInv c k n)
    {op : NOp A} (hs : Nest.step c k n op = some n') : NInv c k n' := by
  cases op with
  | user op =>
    simp only [Nest.step] at hs
    split at hs
    · rename_i hu
      simp only [Option.map_eq_some_iff] at hs
      obtain ⟨s, hs, rfl⟩ := hs
      cases op with
      | dispatch a => exact h.dispatch hs
      | loop => cases hu
      | loopRaise => cases hu
      | commit => cases hu
      | other l => exact h.mute (user_mute hu nofun hs)
      | fut op => exact h.mute (user_mute hu nofun hs)
      | go n => exact h.mute (user_mute hu nofun hs)
      | prim n o => exact h.mute (user_mute hu nofun hs)
      | raise n => exact h.mute (user_mute hu nofun hs)
    · cases hs
  | loop =>
    simp only [Nest.step] at hs
    split at hs
    · unfold Nest.begin at hs
      split at hs
      · cases hs
      · rename_i d a i q hq
        simp only [Option.map_eq_some_iff] at hs
        obtain ⟨s, hs, rfl⟩ := hs
        exact h.reduce hc ht hq hs
      · rename_i q hq
        simp only [Option.map_eq_some_iff] at hs
        obtain ⟨s, hs, rfl⟩ := hs
        simp only [St.loop, hq] at hs
        have hd : NInv c k { n with st := { n.st with queue := q } } := by
          refine ⟨?_, h.nums, h.cur, h.ntf, h.clean, ?_, h.log, ?_, h.calls, h.told⟩
          · have := h.order
            rw [hq] at this
            exact this
          · intro hd
            obtain ⟨i, hi, hp⟩ := h.wake hd
            rw [hq] at hi
            rcases List.mem_cons.1 hi with rfl | hi
            · cases hp
            · exact ⟨i, hi, hp⟩
          · have := h.effs
            rw [hq] at this
            exact this
        exact hd.mute (runTask_toks hs).mute
      · rename_i it q hn1 hn2 hq
        cases hs
        refine h.publish hq ?_
        cases it with
        | reduce d a i => exact absurd rfl (hn1 d a i)
        | tok => exact absurd rfl hn2
        | effect _ _ _ => rfl
        | publish _ _ => rfl
    · cases hs
  | call =>
    simp only [Nest.step] at hs
    split at hs
    · cases hs
    · rename_i l r hl
      split at hs
      · cases hs
        exact h.call hl
      · cases hs
  | fin =>
    simp only [Nest.step] at hs
    split at hs
    · cases hs
    · rename_i l r hl
      split at hs
      · cases hs
      · rename_i hk
        simp only [Option.map_eq_some_iff] at hs
        obtain ⟨s, hs, rfl⟩ := hs
        exact h.fin hl hk hs

theorem Nest.Reach.inv {c : Cfg A Mo} (hc : c.sound) (ht : c.trans = false) {k : Nat} {n : Nest A Mo}
    (r : Nest.Reach c k n) : NInv c k n := by
  induction r with
  | start =>
    refine ⟨rfl, rfl, rfl, rfl, fun _ => rfl, nofun, ?_, fun _ => rfl, ⟨[], 0, rfl, ?_, Nat.zero_le _, rfl, nofun⟩, ?_⟩
    · intro l1 e l2 h
      simp [Nest.start, Store.start] at h
    · exact List.pairwise_singleton _ _
    · exact fun _ _ => .inl rfl
  | step op _ h ih => exact ih.step hc ht h

end Verif.Store
