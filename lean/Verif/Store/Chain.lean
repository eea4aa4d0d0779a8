import Verif.Store.SeqLive

/-!
How many actions a store processes when effects and watchers dispatch: vocabulary and the invariant for
chain reactions.
-/

namespace Verif.Store

variable {A Mo : Type}

/-! ### Vocabulary -/

/-- The sum of `f` over a list. -/
def sumOf {α : Type} (f : α → Nat) (l : List α) : Nat := (l.map f).sum

/-- What the user code in an effect may dispatch in all, if user code number `id` may dispatch actions that
weigh `B id` in all. -/
def Eff.budget (B : Nat → Nat) (e : Eff) : Nat := sumOf B e.acts

/-- What user code may dispatch because of an event: an effect when it is called, and all watchers together
when they are called with `v`. -/
def SEv.grants (B : Nat → Nat) (W : Mo → Nat) : SEv A Mo → Nat
  | .prim _ _ id => B id
  | .shown v => W v
  | _ => 0

/-- One if the event is that the loop has run a task of the store: called the reducer, or published the
model, and begun to call the effect if there is one. -/
def SEv.asTask : SEv A Mo → Nat
  | .reduced _ _ _ _ _ => 1
  | .reduceThrew _ _ _ => 1
  | .ready _ => 1
  | .lost _ _ => 1
  | _ => 0

/-- The number of tasks of the store that the loop has run. -/
def tasks (l : List (SEv A Mo)) : Nat := sumOf SEv.asTask l

/-- Every action weighs more than everything that it causes: what the effect may dispatch that the reducer
returns for it, and what watchers may dispatch for the new model. -/
def Decreasing (c : Cfg A Mo) (w : A → Nat) (B : Nat → Nat) (W : Mo → Nat) : Prop :=
  ∀ m a, (if c.throws m a then 0 else (c.reducer m a).2.budget B +
    (if c.changed (c.reducer m a).1 m then W (c.reducer m a).1 else 0)) < w a

/-! ### Sums -/

theorem sumOf_append {α : Type} (f : α → Nat) (l r : List α) : sumOf f (l ++ r) = sumOf f l + sumOf f r := by
  simp [sumOf]

theorem sumOf_one {α : Type} (f : α → Nat) (x : α) : sumOf f [x] = f x := by simp [sumOf]

theorem sumOf_cons {α : Type} (f : α → Nat) (x : α) (l : List α) : sumOf f (x :: l) = f x + sumOf f l := by
  simp [sumOf]

theorem sumOf_nil {α : Type} (f : α → Nat) : sumOf f [] = 0 := rfl

theorem sumOf_zero {α : Type} {f : α → Nat} {l : List α} (h : ∀ x ∈ l, f x = 0) : sumOf f l = 0 := by
  induction l with
  | nil => rfl
  | cons x l ih =>
    rw [sumOf_cons, h x List.mem_cons_self, ih fun y hy => h y (List.mem_cons_of_mem _ hy)]

theorem sumOf_le {α : Type} {f g : α → Nat} {l : List α} (h : ∀ x ∈ l, f x ≤ g x) : sumOf f l ≤ sumOf g l := by
  induction l with
  | nil => exact Nat.le_refl _
  | cons x l ih =>
    rw [sumOf_cons, sumOf_cons]
    have h1 := h x List.mem_cons_self
    have h2 := ih fun y hy => h y (List.mem_cons_of_mem _ hy)
    omega

theorem sumOf_add {α : Type} (f g : α → Nat) (l : List α) :
    sumOf (fun x => f x + g x) l = sumOf f l + sumOf g l := by
  induction l with
  | nil => rfl
  | cons x l ih => rw [sumOf_cons, sumOf_cons, sumOf_cons, ih]; omega

theorem sumOf_prefix {α : Type} (f : α → Nat) {l r : List α} (h : l <+: r) : sumOf f l ≤ sumOf f r := by
  obtain ⟨s, rfl⟩ := h
  rw [sumOf_append]; omega

/-! ### The invariant -/

/-- Budgets of effects that have been called. -/
def SEv.started (B : Nat → Nat) : SEv A Mo → Nat
  | .effStart _ _ e => e.budget B
  | _ => 0

/-- Budgets of watchers. -/
def SEv.watched (W : Mo → Nat) : SEv A Mo → Nat
  | .shown v => W v
  | _ => 0

/-- What a reduction causes. -/
def SEv.causes (c : Cfg A Mo) (B : Nat → Nat) (W : Mo → Nat) : SEv A Mo → Nat
  | .reduced _ m _ m' e => e.budget B + (if c.changed m' m then W m' else 0)
  | _ => 0

/-- Budgets of effects that wait. -/
def Item.due (B : Nat → Nat) : Item A → Nat
  | .effect _ e _ => e.budget B
  | _ => 0

/-- The number of tasks that a task leads to. -/
def Item.load : Item A → Nat
  | .reduce _ _ _ => 2
  | .effect _ _ _ => 1
  | .publish _ _ => 1
  | .tok => 0

/-- The calls of effects. -/
def starts : List (SEv A Mo) → List (Nat × Eff)
  | [] => []
  | .effStart _ x e :: l => (x, e) :: starts l
  | _ :: l => starts l

theorem starts_append (l r : List (SEv A Mo)) : starts (l ++ r) = starts l ++ starts r := by
  induction l with
  | nil => rfl
  | cons e l ih => cases e <;> simp [starts, ih]

/-- A budget that counts if the flag is set. -/
def owed (b : Bool) (n : Nat) : Nat := if b then n else 0

/-- Of the proof: the invariant. -/
structure Chain (c : Cfg A Mo) (B : Nat → Nat) (W : Mo → Nat) (st : St A Mo) : Prop where
  money : sumOf (SEv.started B) st.log + sumOf (SEv.watched W) st.log + sumOf (Item.due B) st.queue +
    owed st.dirty (W st.cur) + owed st.ntf (W st.last) ≤ sumOf (SEv.causes c B W) st.log
  load : tasks st.log + sumOf Item.load st.queue ≤ 2 * (dispatches st.log).length
  nums : (starts st.log).map (·.1) = List.range st.nx
  red : ∀ d m a m' e, SEv.reduced d m a m' e ∈ st.log → (m', e) = c.reducer m a ∧ c.throws m a = false

/-- Nothing changes that matters here. -/
structure Still (st s1 : St A Mo) : Prop where
  cur : s1.cur = st.cur
  last : s1.last = st.last
  dirty : s1.dirty = st.dirty
  ntf : s1.ntf = st.ntf
  nx : s1.nx = st.nx
  log : ∃ es, s1.log = st.log ++ es ∧ ∀ e ∈ es, e.minor = true
  queue : ∃ n, s1.queue = st.queue ++ List.replicate n .tok

theorem Still.refl (st : St A Mo) : Still st st :=
  ⟨rfl, rfl, rfl, rfl, rfl, ⟨[], by simp, by simp⟩, 0, by simp⟩

theorem Still.trans {a b d : St A Mo} (h : Still a b) (k : Still b d) : Still a d := by
  obtain ⟨n, hn⟩ := h.queue
  obtain ⟨o, ho⟩ := k.queue
  obtain ⟨es, h1, h2⟩ := h.log
  obtain ⟨fs, h3, h4⟩ := k.log
  refine ⟨k.cur.trans h.cur, k.last.trans h.last, k.dirty.trans h.dirty, k.ntf.trans h.ntf,
    k.nx.trans h.nx, ⟨es ++ fs, by rw [h3, h1, List.append_assoc], ?_⟩, n + o, ?_⟩
  · intro e he
    rcases List.mem_append.1 he with he | he
    · exact h2 e he
    · exact h4 e he
  · rw [ho, hn, List.append_assoc, List.replicate_append_replicate]

theorem Still.of (st : St A Mo) (ev : List EF) (tag : Nat → Option (Nat × Nat × Eff)) :
    Still st { st with ev := ev, tag := tag } := ⟨rfl, rfl, rfl, rfl, rfl, ⟨[], by simp, by simp⟩, 0, by simp⟩

theorem Still.say (st : St A Mo) {e : SEv A Mo} (he : e.minor = true) : Still st (st.say e) :=
  ⟨rfl, rfl, rfl, rfl, rfl, ⟨[e], rfl, by simpa using he⟩, 0, by simp [St.say]⟩

theorem fstep_calm {st s1 : St A Mo} {op : Future.Op} (h : st.fstep op = some s1) : Still st s1 := by
  simp only [St.fstep, Option.map_eq_some_iff] at h
  obtain ⟨fu, _, rfl⟩ := h
  exact ⟨rfl, rfl, rfl, rfl, rfl, ⟨[], by simp, by simp⟩, _, rfl⟩

theorem complete_calm {c : Cfg A Mo} {st s1 : St A Mo} {i : Nat} (h : st.complete c i = some s1) :
    Still st s1 := by
  unfold St.complete at h
  split at h
  · exact fstep_calm h
  · cases h; exact Still.refl _

theorem runTask_calm {st s1 : St A Mo} {l : Nat} (h : st.runTask l = some s1) : Still st s1 := by
  unfold St.runTask at h
  split at h
  · cases h
  · simp only [Option.map_eq_some_iff] at h
    obtain ⟨s2, h2, rfl⟩ := h
    have k := fstep_calm h2
    split
    · exact k
    · exact k.trans (Still.of _ _ s2.tag)

theorem go_calm {c : Cfg A Mo} {st st' : St A Mo} {f : EF} (h : st.go c f = some st') : Still st st' := by
  unfold St.go at h
  dsimp only at h
  split at h
  · cases h
  · cases h; exact Still.of st _ st.tag
  · cases h; exact (Still.say st (e := .prim f.x f.pos _) rfl).trans (Still.of _ _ st.tag)
  · cases h; exact Still.of st _ st.tag
  · cases h
  · split at h
    · split at h
      · simp only [Option.map_eq_some_iff] at h
        obtain ⟨s1, h1, rfl⟩ := h
        exact (fstep_calm h1).trans (Still.of s1 _ _)
      · cases h; exact Still.of st _ st.tag
    · split at h
      · rename_i d i _
        have k1 := fun r => Still.say st (e := .effEnd d r) rfl
        split at h
        · split at h
          · exact (k1 _).trans (fstep_calm h)
          · exact (k1 _).trans (fstep_calm h)
        · cases h; exact k1 _
      · simp only [Option.bind_eq_some_iff] at h
        obtain ⟨n, _, h⟩ := h
        split at h
        · exact fstep_calm h
        · simp only [Option.bind_eq_some_iff] at h
          obtain ⟨s1, h1, h2⟩ := h
          exact (fstep_calm h1).trans (fstep_calm h2)

theorem sumOf_toks (f : Item A → Nat) (h : f .tok = 0) (n : Nat) : sumOf f (List.replicate n .tok) = 0 :=
  sumOf_zero fun x hx => by rw [(List.mem_replicate.1 hx).2, h]

theorem Chain.calm {c : Cfg A Mo} {B : Nat → Nat} {W : Mo → Nat} {st s1 : St A Mo} (k : Chain c B W st)
    (h : Still st s1) : Chain c B W s1 := by
  obtain ⟨n, hn⟩ := h.queue
  obtain ⟨es, h1, h2⟩ := h.log
  have z : ∀ f : SEv A Mo → Nat, (∀ e : SEv A Mo, e.minor = true → f e = 0) → sumOf f es = 0 :=
    fun f hf => sumOf_zero fun e he => hf e (h2 e he)
  have d1 : ∀ es : List (SEv A Mo), (∀ e ∈ es, e.minor = true) → dispatches es = [] ∧ starts es = [] := by
    intro es
    induction es with
    | nil => intro _; exact ⟨rfl, rfl⟩
    | cons e es ih =>
      intro he
      have := ih fun x hx => he x (List.mem_cons_of_mem _ hx)
      have he := he e List.mem_cons_self
      cases e <;> first | exact this | cases he
  have dd : dispatches s1.log = dispatches st.log := by
    rw [h1, dispatches_disp, dispatches_disp, disp_append, List.map_append, ← dispatches_disp, ← dispatches_disp,
      (d1 es h2).1, List.append_nil]
  constructor
  · rw [h1, hn, h.cur, h.last, h.dirty, h.ntf, sumOf_append, sumOf_append, sumOf_append, sumOf_append,
      sumOf_toks _ rfl, z, z, z]
    · exact k.money
    all_goals intro e he; cases e <;> first | rfl | cases he
  · rw [dd, hn, sumOf_append, sumOf_toks _ rfl, h1, tasks, sumOf_append, z]
    · exact k.load
    · intro e he; cases e <;> first | rfl | cases he
  · rw [h1, h.nx, starts_append, (d1 es h2).2, List.append_nil]; exact k.nums
  · intro d m a m' e he
    rw [h1] at he
    rcases List.mem_append.1 he with he | he
    · exact k.red d m a m' e he
    · cases h2 _ he

/-- `send_down` and `notify`. -/
theorem Chain.send {c : Cfg A Mo} {B : Nat → Nat} {W : Mo → Nat} {st : St A Mo} (k : Chain c B W st) :
    Chain c B W st.sendDown.notify := by
  have k1 : Chain c B W st.sendDown := by
    unfold St.sendDown
    split
    · rename_i hd
      refine ⟨?_, k.load, k.nums, k.red⟩
      have := k.money
      rw [hd] at this
      dsimp only
      simp only [owed, if_true, Bool.false_eq_true, if_false] at this ⊢
      omega
    · exact k
  generalize st.sendDown = s at k1
  unfold St.notify
  split
  · rename_i hh
    simp only [Bool.and_eq_true, Bool.not_eq_true'] at hh
    refine ⟨?_, ?_, ?_, ?_⟩
    · have := k1.money
      rw [hh.1, hh.2] at this
      dsimp only
      rw [sumOf_append, sumOf_append, sumOf_append, sumOf_one, sumOf_one, sumOf_one, hh.2]
      simp only [SEv.started, SEv.watched, SEv.causes, owed, if_true, Bool.false_eq_true, if_false] at this ⊢
      omega
    · have := k1.load
      dsimp only
      rw [tasks, sumOf_append, sumOf_one, dispatches_disp, disp_append]
      simpa [SEv.asTask, disp, dispatches_disp, tasks] using this
    · dsimp only
      rw [starts_append]
      simpa [starts] using k1.nums
    · intro d m a m' e he
      rcases List.mem_append.1 he with he | he
      · exact k1.red d m a m' e he
      · rw [List.mem_singleton] at he; cases he
  · exact k1

/-- Taking a task from the queue. -/
theorem Chain.pop {c : Cfg A Mo} {B : Nat → Nat} {W : Mo → Nat} {st : St A Mo} (k : Chain c B W st)
    {i : Item A} {q : List (Item A)} (hq : st.queue = i :: q) :
    Chain c B W { st with queue := q } := by
  have h1 := k.money
  have h2 := k.load
  rw [hq, sumOf_cons] at h1 h2
  exact ⟨by dsimp only; omega, by dsimp only; omega, k.nums, k.red⟩

theorem Chain.publish {c : Cfg A Mo} {B : Nat → Nat} {W : Mo → Nat} {st : St A Mo} (k : Chain c B W st) :
    Chain c B W (st.publish c) := by
  unfold St.publish
  split
  · exact k
  · exact k.send

theorem publish_queue (c : Cfg A Mo) (st : St A Mo) (q r : List (Item A)) :
    { { st with queue := q }.publish c with queue := r } = { st with queue := r }.publish c ∧
    ({ st with queue := q }.publish c).queue = q := by
  have h1 : ∀ s : St A Mo, { { s with queue := q }.sendDown with queue := r } = { s with queue := r }.sendDown ∧
      { s with queue := q }.sendDown.queue = q := by
    intro s; unfold St.sendDown; dsimp only; split <;> exact ⟨rfl, rfl⟩
  have h2 : ∀ s : St A Mo, { s.notify with queue := r } = { s with queue := r }.notify ∧
      s.notify.queue = s.queue := by
    intro s; unfold St.notify; dsimp only; split <;> exact ⟨rfl, rfl⟩
  unfold St.publish
  split
  · exact ⟨rfl, rfl⟩
  · exact ⟨by rw [(h2 _).1, (h1 st).1], by rw [(h2 _).2, (h1 st).2]⟩

/-- An event that takes up some of the load, and perhaps of the budgets. -/
theorem Chain.did {c : Cfg A Mo} {B : Nat → Nat} {W : Mo → Nat} {s1 : St A Mo} {x : Item A}
    (k : Chain c B W { s1 with queue := x :: s1.queue }) (hx : x.load = 1) {e : SEv A Mo}
    {d : Nat} {o : Option Eff} (he : e = .ready d ∨ e = .lost d o) :
    Chain c B W { s1.say e with queue := s1.queue } ∧
    sumOf (SEv.started B) (s1.say e).log + sumOf (SEv.watched W) (s1.say e).log + sumOf (Item.due B) s1.queue +
      x.due B + owed s1.dirty (W s1.cur) + owed s1.ntf (W s1.last) ≤
        sumOf (SEv.causes c B W) (s1.say e).log := by
  have h1 := k.money
  have h2 := k.load
  dsimp only at h1 h2
  rw [sumOf_cons] at h1 h2
  have e1 : (SEv.started B e : Nat) = 0 ∧ e.watched W = 0 ∧ e.causes c B W = 0 ∧ e.asTask = 1 ∧
      disp [e] = [] ∧ starts [e] = [] := by
    rcases he with rfl | rfl <;> exact ⟨rfl, rfl, rfl, rfl, rfl, rfl⟩
  obtain ⟨e1, e2, e3, e4, e5, e6⟩ := e1
  have money : sumOf (SEv.started B) (s1.say e).log + sumOf (SEv.watched W) (s1.say e).log +
      sumOf (Item.due B) s1.queue + x.due B + owed s1.dirty (W s1.cur) +
      owed s1.ntf (W s1.last) ≤ sumOf (SEv.causes c B W) (s1.say e).log := by
    simp only [St.say]
    rw [sumOf_append, sumOf_append, sumOf_append, sumOf_one, sumOf_one, sumOf_one, e1, e2, e3]
    omega
  refine ⟨⟨?_, ?_, ?_, ?_⟩, money⟩
  · exact Nat.le_trans (Nat.add_le_add_right (Nat.add_le_add_right (Nat.le_add_right _ _) _) _) money
  · simp only [St.say]
    rw [tasks, sumOf_append, sumOf_one, e4, dispatches_disp, disp_append, e5, List.append_nil, ← dispatches_disp]
    simp only [tasks] at h2
    omega
  · simp only [St.say]
    rw [starts_append, e6, List.append_nil]; exact k.nums
  · intro d' m a m' e' h
    rcases List.mem_append.1 h with h | h
    · exact k.red d' m a m' e' h
    · rw [List.mem_singleton] at h; subst h; rcases he with he | he <;> cases he

theorem disp_length (l : List (SEv A Mo)) : (dispatches l).length = (disp l).length := by
  rw [dispatches_disp, List.length_map]

theorem Chain.loop {c : Cfg A Mo} {B : Nat → Nat} {W : Mo → Nat} {st st' : St A Mo} (k : Chain c B W st)
    (h : st.loop c = some st') : Chain c B W st' := by
  unfold St.loop at h
  split at h
  · cases h
  · -- an action
    rename_i d a i q hq
    have hm := k.money
    have hl := k.load
    rw [hq, sumOf_cons] at hm hl
    simp only [Item.due, Item.load] at hm hl
    generalize hy : c.reducer st.cur a = y at h
    dsimp only at h
    split at h
    · rename_i hth
      cases h
      refine ⟨?_, ?_, ?_, ?_⟩
      · simp only [St.say]
        rw [sumOf_append, sumOf_append, sumOf_append, sumOf_one, sumOf_one, sumOf_one]
        simp only [SEv.started, SEv.watched, SEv.causes]
        omega
      · simp only [St.say]
        rw [tasks, sumOf_append, sumOf_one, disp_length, disp_append]
        simp only [SEv.asTask, disp, List.append_nil, ← disp_length]
        simp only [tasks] at hl
        omega
      · simp only [St.say]
        rw [starts_append]; simpa [starts] using k.nums
      · intro d m a m' e he
        rcases List.mem_append.1 he with he | he
        · exact k.red d m a m' e he
        · rw [List.mem_singleton] at he; cases he
    rename_i hth
    simp only [Option.map_eq_some_iff] at h
    obtain ⟨s1, h1, rfl⟩ := h
    -- what is posted
    have hs1 : s1.cur = st.cur ∧ s1.last = st.last ∧ s1.dirty = st.dirty ∧ s1.ntf = st.ntf ∧ s1.nx = st.nx ∧
        s1.log = st.log ∧ sumOf (Item.due B) s1.queue ≤ sumOf (Item.due B) q + y.2.budget B ∧
        sumOf Item.load s1.queue ≤ sumOf Item.load q + 1 := by
      split at h1
      · split at h1
        · have tk := complete_toks h1
          have cm := complete_calm h1
          obtain ⟨n, hn⟩ := tk.queue
          refine ⟨tk.cur, tk.last, tk.dirty, tk.ntf, cm.nx, tk.log, ?_, ?_⟩
          · rw [hn, sumOf_append, sumOf_toks _ rfl]; exact Nat.le_add_right _ _
          · rw [hn, sumOf_append, sumOf_toks _ rfl]; exact Nat.le_add_right _ _
        · cases h1
          refine ⟨rfl, rfl, rfl, rfl, rfl, rfl, ?_, ?_⟩
          · simp only [St.post]; rw [sumOf_append, sumOf_one]; exact Nat.le_add_right _ _
          · simp only [St.post]; rw [sumOf_append, sumOf_one]; exact Nat.le_refl _
      · cases h1
        refine ⟨rfl, rfl, rfl, rfl, rfl, rfl, ?_, ?_⟩
        · simp only [St.post]; rw [sumOf_append, sumOf_one]; exact Nat.le_refl _
        · simp only [St.post]; rw [sumOf_append, sumOf_one]; exact Nat.le_refl _
    obtain ⟨e1, e2, e3, e4, e5, e6, e7, e8⟩ := hs1
    refine ⟨?_, ?_, ?_, ?_⟩
    · unfold St.pushDown
      split
      · rename_i hch
        rw [e1] at hch
        simp only [St.say]
        rw [sumOf_append, sumOf_append, sumOf_append, sumOf_one, sumOf_one, sumOf_one]
        simp only [SEv.started, SEv.watched, SEv.causes, e4, e6, e2, hch, if_true]
        have : owed true (W y.1) = W y.1 := rfl
        omega
      · rename_i hch
        rw [e1] at hch
        simp only [St.say]
        rw [sumOf_append, sumOf_append, sumOf_append, sumOf_one, sumOf_one, sumOf_one]
        simp only [SEv.started, SEv.watched, SEv.causes, e4, e6, e2, e1, e3, hch]
        omega
    · have p := pushDown_fields c s1 y.1
      have pl : (s1.pushDown c y.1).log = st.log := by
        unfold St.pushDown; split <;> exact e6
      have pq : (s1.pushDown c y.1).queue = s1.queue := by
        unfold St.pushDown; split <;> rfl
      simp only [St.say]
      rw [pl, pq, tasks, sumOf_append, sumOf_one, disp_length, disp_append]
      simp only [SEv.asTask, disp, List.append_nil, ← disp_length]
      simp only [tasks] at hl
      omega
    · have pl : (s1.pushDown c y.1).log = st.log := by
        unfold St.pushDown; split <;> exact e6
      have pn : (s1.pushDown c y.1).nx = st.nx := by
        unfold St.pushDown; split <;> exact e5
      simp only [St.say]
      rw [pl, pn, starts_append]; simpa [starts] using k.nums
    · have pl : (s1.pushDown c y.1).log = st.log := by
        unfold St.pushDown; split <;> exact e6
      intro d m a m' e he
      simp only [St.say] at he
      rw [pl] at he
      rcases List.mem_append.1 he with he | he
      · exact k.red d m a m' e he
      · rw [List.mem_singleton] at he; cases he; exact ⟨hy.symm, by simpa using hth⟩
  · -- an effect
    rename_i d e i q hq
    dsimp only at h
    cases h
    obtain ⟨p1, p2⟩ := publish_queue c st q (.effect d e i :: q)
    have pn := publish_nx c { st with queue := q }
    have k1 : Chain c B W (st.publish c) := k.publish
    have hst : { st with queue := .effect d e i :: q } = st := by rw [← hq]
    rw [hst] at p1
    rw [← p1] at k1
    generalize { st with queue := q }.publish c = s1 at *
    subst p2
    obtain ⟨k2, m2⟩ := Chain.did (B := B) k1 rfl (e := .ready d) (.inl rfl) (o := none)
    have hl := k2.load
    have hn := k2.nums
    simp only [Item.due] at m2
    refine ⟨?_, ?_, ?_, ?_⟩
    · show sumOf _ ((s1.say (.ready d)).log ++ [_]) + sumOf _ ((s1.say (.ready d)).log ++ [_]) +
        sumOf _ s1.queue + owed s1.dirty (W s1.cur) + owed s1.ntf (W s1.last) ≤
        sumOf _ ((s1.say (.ready d)).log ++ [_])
      rw [sumOf_append, sumOf_append, sumOf_append, sumOf_one, sumOf_one, sumOf_one]
      simp only [SEv.started, SEv.watched, SEv.causes]
      omega
    · show sumOf _ ((s1.say (.ready d)).log ++ [_]) + sumOf _ s1.queue ≤
        2 * (dispatches ((s1.say (.ready d)).log ++ [_])).length
      rw [sumOf_append, sumOf_one, disp_length, disp_append]
      simp only [SEv.asTask, disp, List.append_nil, ← disp_length]
      exact hl
    · show (starts ((s1.say (.ready d)).log ++ [_])).map _ = List.range (st.nx + 1)
      rw [starts_append, List.map_append, List.range_succ]
      have hn : (starts (s1.say (.ready d)).log).map (·.1) = List.range s1.nx := hn
      rw [hn, pn]
      rfl
    · intro d' m a m' e' he
      have he : SEv.reduced d' m a m' e' ∈ (s1.say (.ready d)).log ++ [_] := he
      rcases List.mem_append.1 he with he | he
      · exact k2.red d' m a m' e' he
      · rw [List.mem_singleton] at he; cases he
  · -- publishing
    rename_i d i q hq
    obtain ⟨p1, p2⟩ := publish_queue c st q (.publish d i :: q)
    have k1 : Chain c B W (st.publish c) := k.publish
    have hst : { st with queue := .publish d i :: q } = st := by rw [← hq]
    rw [hst] at p1
    rw [← p1] at k1
    generalize { st with queue := q }.publish c = s1 at *
    subst p2
    exact (Chain.did (B := B) k1 rfl (e := .ready d) (.inl rfl) (o := none)).1.calm (complete_calm h)
  · -- a closure of a promise
    rename_i q hq
    exact (k.pop hq).calm (runTask_calm h)

theorem Chain.dispatch {c : Cfg A Mo} {B : Nat → Nat} {W : Mo → Nat} {st st' : St A Mo} (k : Chain c B W st)
    {a : A} (h : st.dispatch c a = some st') : Chain c B W st' := by
  simp only [St.dispatch, Option.map_eq_some_iff] at h
  obtain ⟨s1, h1, rfl⟩ := h
  have k1 := k.calm (fstep_calm h1)
  have hm := k1.money
  have hl := k1.load
  refine ⟨?_, ?_, ?_, ?_⟩
  · simp only [St.say, St.post]
    rw [sumOf_append, sumOf_append, sumOf_append, sumOf_append, sumOf_one, sumOf_one, sumOf_one, sumOf_one]
    simp only [SEv.started, SEv.watched, SEv.causes, Item.due]
    omega
  · simp only [St.say, St.post]
    rw [tasks, sumOf_append, sumOf_append, sumOf_one, sumOf_one, disp_length, disp_append, List.length_append]
    simp only [SEv.asTask, disp, Item.load, ← disp_length, List.length_singleton]
    simp only [tasks] at hl
    omega
  · simp only [St.say, St.post]
    rw [starts_append]; simpa [starts] using k1.nums
  · intro d m a m' e he
    rcases List.mem_append.1 he with he | he
    · exact k1.red d m a m' e he
    · rw [List.mem_singleton] at he; cases he

theorem Chain.step {c : Cfg A Mo} {B : Nat → Nat} {W : Mo → Nat} {st st' : St A Mo} (k : Chain c B W st)
    {op : SOp A} (h : step c st op = some st') : Chain c B W st' := by
  cases op with
  | dispatch a => exact k.dispatch h
  | loop => exact k.loop h
  | loopRaise =>
    obtain ⟨x, q, d, o, hq, hx, _, _, rfl⟩ := loopRaise_some h
    obtain ⟨p1, p2⟩ := publish_queue c st q (x :: q)
    have k1 : Chain c B W (st.publish c) := k.publish
    have hst : { st with queue := x :: q } = st := by rw [← hq]
    rw [hst] at p1
    rw [← p1] at k1
    generalize { st with queue := q }.publish c = s1 at *
    subst p2
    refine (Chain.did (B := B) k1 ?_ (e := .lost d o) (.inr rfl)).1
    rcases hx with ⟨e, i, rfl, _⟩ | ⟨i, rfl, _⟩ <;> rfl
  | other l =>
    simp only [Store.step] at h
    split at h
    · cases h
    · exact k.calm (runTask_calm h)
  | fut op =>
    simp only [Store.step] at h
    split at h
    · exact k.calm (fstep_calm h)
    · cases h
  | go n =>
    simp only [Store.step] at h
    split at h
    · cases h
    · exact (k.calm (Still.of st _ st.tag)).calm (go_calm h)
  | prim n o =>
    simp only [Store.step] at h
    split at h
    · split at h
      · cases h
        exact (k.calm (Still.say st (e := .primRet _ _ _) rfl)).calm (Still.of _ _ st.tag)
      · cases h
    · cases h
  | raise n =>
    have k1 : ∀ x pos, Chain c B W { st.say (.primThrew x pos) with ev := st.ev.eraseIdx n } := fun x pos =>
      (k.calm (Still.say st (e := .primThrew x pos) rfl)).calm (Still.of _ _ st.tag)
    simp only [Store.step] at h
    split at h
    · cases h; exact k1 _ _
    · simp only [Option.bind_eq_some_iff] at h
      obtain ⟨m, _, h⟩ := h
      exact (k1 _ _).calm (fstep_calm h)
    · cases h
  | commit =>
    simp only [Store.step] at h
    split at h
    · cases h
      exact k.send
    · cases h

theorem Reach.chain {c : Cfg A Mo} (B : Nat → Nat) (W : Mo → Nat) {st : St A Mo} (r : Reach c st) :
    Chain c B W st := by
  induction r with
  | start => exact ⟨Nat.le_refl _, Nat.le_refl _, rfl, fun _ _ _ _ _ h => nomatch h⟩
  | step op _ h ih => exact ih.step h

/-! ### The effects that have been called -/

theorem sumOf_range_one (n x v : Nat) (h : x < n) :
    sumOf (fun y => if x = y then v else 0) (List.range n) = v := by
  induction n with
  | zero => omega
  | succ n ih =>
    rw [List.range_succ, sumOf_append, sumOf_one]
    by_cases hx : x = n
    · subst hx
      rw [if_pos rfl, sumOf_zero, Nat.zero_add]
      intro y hy
      rw [List.mem_range] at hy
      exact if_neg (by omega)
    · rw [if_neg hx, ih (by omega), Nat.add_zero]

/-- Budgets of user code in effects that has been called. -/
def SEv.primed (B : Nat → Nat) : SEv A Mo → Nat
  | .prim _ _ id => B id
  | _ => 0

theorem sumOf_primed (B : Nat → Nat) (n : Nat) : ∀ l : List (SEv A Mo),
    (∀ x q id, SEv.prim x q id ∈ l → x < n) →
    sumOf (SEv.primed B) l = sumOf (fun x => sumOf B (ran x l)) (List.range n)
  | [], _ => (sumOf_zero fun _ _ => rfl).symm
  | e :: l, h => by
    have ih := sumOf_primed B n l fun x q id hh => h x q id (List.mem_cons_of_mem _ hh)
    rw [sumOf_cons, ih]
    by_cases hp : ∃ x q id, e = .prim x q id
    · obtain ⟨x, q, id, rfl⟩ := hp
      have hx := h x q id List.mem_cons_self
      have key : (fun y => sumOf B (ran y (SEv.prim x q id :: l))) =
          fun y => (if x = y then B id else 0) + sumOf B (ran y l) := by
        funext y
        simp only [ran]
        by_cases hxy : x = y
        · rw [if_pos hxy, if_pos hxy, sumOf_cons]
        · rw [if_neg hxy, if_neg hxy, Nat.zero_add]
      rw [key, sumOf_add, sumOf_range_one n x (B id) hx]
      rfl
    · have h0 : SEv.primed B e = 0 := by
        cases e <;> first | rfl | exact absurd ⟨_, _, _, rfl⟩ hp
      have h1 : ∀ y, ran y (e :: l) = ran y l := by
        intro y
        cases e <;> first | rfl | exact absurd ⟨_, _, _, rfl⟩ hp
      rw [h0, Nat.zero_add]
      simp only [h1]

theorem mem_starts {l : List (SEv A Mo)} {x : Nat} {e : Eff} (h : (x, e) ∈ starts l) :
    ∃ d, SEv.effStart d x e ∈ l := by
  induction l with
  | nil => cases h
  | cons y l ih =>
    cases y <;> simp only [starts, List.mem_cons] at h
    case effStart d x' e' =>
      rcases h with h | h
      · cases h; exact ⟨d, List.mem_cons_self⟩
      · obtain ⟨d, hd⟩ := ih h; exact ⟨d, List.mem_cons_of_mem _ hd⟩
    all_goals obtain ⟨d, hd⟩ := ih h; exact ⟨d, List.mem_cons_of_mem _ hd⟩

theorem sumOf_starts (B : Nat → Nat) (l : List (SEv A Mo)) :
    sumOf (SEv.started B) l = sumOf (fun p => p.2.budget B) (starts l) := by
  induction l with
  | nil => rfl
  | cons y l ih => rw [sumOf_cons, ih]; cases y <;> simp [starts, sumOf_cons, SEv.started]

theorem sumOf_map {α β : Type} (f : β → Nat) (g : α → β) (l : List α) :
    sumOf f (l.map g) = sumOf (fun x => f (g x)) l := by
  induction l with
  | nil => rfl
  | cons x l ih => rw [List.map_cons, sumOf_cons, sumOf_cons, ih]

/-- User code in effects dispatches no more than the budgets of the effects. -/
theorem primed_le {c : Cfg A Mo} (hb : c.built) (B : Nat → Nat) {st : St A Mo} (r : Reach c st)
    (hu : st.fu.ub = false) : sumOf (SEv.primed B) st.log ≤ sumOf (SEv.started B) st.log := by
  have k := r.seq hb hu
  have hn := (r.chain B (fun _ => 0)).nums
  rw [sumOf_primed B st.nx st.log, sumOf_starts, ← hn, sumOf_map]
  · refine sumOf_le fun p hp => ?_
    obtain ⟨d, hd⟩ := mem_starts (x := p.1) (e := p.2) hp
    exact sumOf_prefix B (k.s.prefix hd)
  · intro x q id h
    obtain ⟨d, e, h1, _⟩ := k.s.prims x q id h
    exact (k.s.tg.xs d x e h1).1

/-- What a reduction causes weighs less than its action. -/
theorem causes_le {c : Cfg A Mo} {w : A → Nat} {B : Nat → Nat} {W : Mo → Nat} (hd : Decreasing c w B W) :
    ∀ l : List (SEv A Mo), (∀ d m a m' e, SEv.reduced d m a m' e ∈ l → (m', e) = c.reducer m a ∧
      c.throws m a = false) →
    sumOf (SEv.causes c B W) l + (reductions l).length ≤ sumOf w (reductions l)
  | [], _ => Nat.le_refl _
  | e :: l, h => by
    have ih := causes_le hd l fun d m a m' e hh => h d m a m' e (List.mem_cons_of_mem _ hh)
    rw [sumOf_cons]
    cases e with
    | reduced d m a m' e =>
      obtain ⟨h1, h2⟩ := h d m a m' e List.mem_cons_self
      have hw := hd m a
      rw [h2, if_neg (by simp), ← h1] at hw
      simp only [SEv.causes, reductions, sumOf_cons, List.length_cons]
      dsimp only at hw
      omega
    | reduceThrew d m a =>
      have hw := hd m a
      simp only [SEv.causes, reductions, sumOf_cons, List.length_cons]
      omega
    | _ => simpa [SEv.causes, reductions] using ih

end Verif.Store
