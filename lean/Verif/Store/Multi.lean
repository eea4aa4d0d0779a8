import Verif.Store.Props3

/-!
Several stores that share an event loop, `store.hpp:149-198`: `make_store` takes any event loop, and the tasks
of all stores made with the same one go to the same queue.  Each store has its own actions, models, reducer
and options.  Promises and futures of all of them live side by side, so that the effects of one store may
dispatch to another and wait for it.
-/

namespace Verif.Store

section Parts

variable {A Mo : Type}

/-- What a store does not share with others. -/
structure Part (A Mo : Type) where
  cur : Mo
  last : Mo
  dirty : Bool
  ntf : Bool
  ev : List EF
  sent : List (Nat × Nat)
  tag : Nat → Option (Nat × Nat × Eff)
  nx : Nat
  log : List (SEv A Mo)

/-- What a store does not share with others. -/
def St.part (st : St A Mo) : Part A Mo where
  cur := st.cur
  last := st.last
  dirty := st.dirty
  ntf := st.ntf
  ev := st.ev
  sent := st.sent
  tag := st.tag
  nx := st.nx
  log := st.log

/-- A store with a queue and futures. -/
def Part.join (p : Part A Mo) (fu : Future.M) (queue : List (Item A)) : St A Mo where
  fu := fu
  cur := p.cur
  last := p.last
  dirty := p.dirty
  ntf := p.ntf
  queue := queue
  ev := p.ev
  sent := p.sent
  tag := p.tag
  nx := p.nx
  log := p.log

end Parts

variable {K : Type} [DecidableEq K] {A Mo : K → Type}

/-! ### Model -/

/-- A task in the queue of the loop: one that a promise has posted, or one of a store. -/
inductive MItem (A : K → Type) where
  | tok
  | of (k : K) (x : Item (A k))

/-- Several stores, named by `K`, on one loop. -/
structure Multi (A Mo : K → Type) where
  fu : Future.M
  queue : List (MItem A)
  part : (k : K) → Part (A k) (Mo k)
  /-- ghost: the events of all stores, in the order in which they happened -/
  hist : List (Sigma fun k => SEv (A k) (Mo k))

/-- A task that store `k` posts. -/
def mark (k : K) : Item (A k) → MItem A
  | .tok => .tok
  | .reduce d a i => .of k (.reduce d a i)
  | .effect d e i => .of k (.effect d e i)
  | .publish d i => .of k (.publish d i)

/-- A task from the point of view of store `k`. -/
def MItem.for (k : K) : MItem A → Option (Item (A k))
  | .tok => some .tok
  | .of j x => if h : j = k then some (h ▸ x) else none

/-- What store `k` works with when it is called: tasks that it posts go to a queue that is empty at first; when
the loop calls a task of the store, it is in there. -/
def Multi.enter (m : Multi A Mo) (k : K) : SOp (A k) → St (A k) (Mo k)
  | .loop => (m.part k).join m.fu ((m.queue.take 1).filterMap (MItem.for k))
  | .loopRaise => (m.part k).join m.fu ((m.queue.take 1).filterMap (MItem.for k))
  | _ => (m.part k).join m.fu []

/-- The queue without the task that is called. -/
def Multi.rest (m : Multi A Mo) (k : K) : SOp (A k) → List (MItem A)
  | .loop => m.queue.drop 1
  | .loopRaise => m.queue.drop 1
  | _ => m.queue

/-- Afterwards: what it has posted is appended to the queue of the loop. -/
def Multi.leave (m : Multi A Mo) (k : K) (op : SOp (A k)) (s : St (A k) (Mo k)) : Multi A Mo where
  fu := s.fu
  queue := m.rest k op ++ s.queue.map (mark k)
  part := fun j => if h : j = k then h ▸ s.part else m.part j
  hist := m.hist ++ (s.log.drop (m.part k).log.length).map (Sigma.mk k)

/-- The next task that a promise has posted to loop `l` is not one that `sequence` has made for an effect of
another store than `k`. -/
def Multi.mine (m : Multi A Mo) (k : K) (l : Nat) : Prop :=
  ∀ t q, m.fu.queue l = t :: q → ∀ j, j ≠ k → (m.part j).tag t.c = none

/-- When may store `k` do this?  The first task in the queue is the one to be called, and user code does not use
the promises and futures that belong to any of the stores. -/
def Multi.guard (m : Multi A Mo) (k : K) : SOp (A k) → Prop
  | .loop => ∃ x q, m.queue = x :: q ∧
      match x with
      | .tok => m.mine k 0
      | .of j _ => j = k
  | .loopRaise => ∃ x q, m.queue = .of k x :: q
  | .other l => m.mine k l
  | .fut op => ∀ j, ((m.part j).join m.fu []).allowed op
  | .prim _ o => ∀ i, o = some i → ∀ j, ¬ ((m.part j).join m.fu []).held i
  | _ => True

/-- A step of store `k`. -/
def Multi.Step (c : (k : K) → Cfg (A k) (Mo k)) (m : Multi A Mo) (k : K) (op : SOp (A k)) (m' : Multi A Mo) : Prop :=
  m.guard k op ∧ ∃ s, Store.step (c k) (m.enter k op) op = some s ∧ m' = m.leave k op s

/-- The state at the beginning. -/
def Multi.start (c : (k : K) → Cfg (A k) (Mo k)) : Multi A Mo where
  fu := Future.start
  queue := []
  part := fun k => (Store.start (c k)).part
  hist := []

/-- The states that can be reached. -/
inductive Multi.Reach (c : (k : K) → Cfg (A k) (Mo k)) : Multi A Mo → Prop where
  | start : Reach c (Multi.start c)
  | step {m m'} (k : K) (op : SOp (A k)) : Reach c m → Multi.Step c m k op m' → Reach c m'

/-! ### Vocabulary -/

/-- What store `k` sees: its own part, and its own tasks and those of promises in the queue. -/
def Multi.view (m : Multi A Mo) (k : K) : St (A k) (Mo k) :=
  (m.part k).join m.fu (m.queue.filterMap (MItem.for k))

/-- Dispatches, as the store and the number of the dispatch. -/
def mdisp : List (Sigma fun k => SEv (A k) (Mo k)) → List (K × Nat)
  | [] => []
  | ⟨k, .dispatched d _⟩ :: l => (k, d) :: mdisp l
  | _ :: l => mdisp l

/-- Calls of reducers. -/
def mred : List (Sigma fun k => SEv (A k) (Mo k)) → List (K × Nat)
  | [] => []
  | ⟨k, .reduced d _ _ _ _⟩ :: l => (k, d) :: mred l
  | ⟨k, .reduceThrew d _ _⟩ :: l => (k, d) :: mred l
  | _ :: l => mred l

/-- Actions in the queue. -/
def mpend : List (MItem A) → List (K × Nat)
  | [] => []
  | .of k (.reduce d _ _) :: q => (k, d) :: mpend q
  | _ :: q => mpend q

/-! ### The queue is only appended to -/

section Local

variable {A Mo : Type}

/-- Put tasks in front. -/
def St.pre (q : List (Item A)) (s : St A Mo) : St A Mo := { s with queue := q ++ s.queue }

theorem pre_fstep (q : List (Item A)) (s : St A Mo) (op : Future.Op) :
    (s.pre q).fstep op = (s.fstep op).map (St.pre q) := by
  unfold St.fstep
  show (Future.step s.fu op).map _ = ((Future.step s.fu op).map _).map _
  cases Future.step s.fu op with
  | none => rfl
  | some fu =>
    show some _ = some _
    simp only [St.pre, List.append_assoc]

theorem pre_complete (c : Cfg A Mo) (q : List (Item A)) (s : St A Mo) (i : Nat) :
    (s.pre q).complete c i = (s.complete c i).map (St.pre q) := by
  unfold St.complete
  split
  · exact pre_fstep q s _
  · rfl

theorem pre_runTask (q : List (Item A)) (s : St A Mo) (l : Nat) :
    (s.pre q).runTask l = (s.runTask l).map (St.pre q) := by
  unfold St.runTask
  show (match s.fu.queue l with | [] => none | t :: _ => _) = _
  cases s.fu.queue l with
  | nil => rfl
  | cons t r =>
    dsimp only
    rw [pre_fstep]
    cases s.fstep (.run l) with
    | none => rfl
    | some s1 =>
      show some _ = some _
      congr 1
      dsimp only
      rw [show (s.pre q).tag = s.tag from rfl]
      cases s.tag t.c with
      | none => rfl
      | some p => rfl

theorem pre_notify (q : List (Item A)) (s : St A Mo) : (s.pre q).sendDown.notify = s.sendDown.notify.pre q := by
  unfold St.sendDown St.notify
  show (if (if s.dirty then _ else _ : St A Mo).ntf && _ then _ else _) = _
  cases h : s.dirty <;> cases h' : s.ntf <;> simp [St.pre, h, h']

theorem pre_publish (c : Cfg A Mo) (q : List (Item A)) (s : St A Mo) : (s.pre q).publish c = (s.publish c).pre q := by
  unfold St.publish
  split
  · rfl
  · exact pre_notify q s

theorem pre_pushDown (c : Cfg A Mo) (q : List (Item A)) (s : St A Mo) (v : Mo) :
    (s.pre q).pushDown c v = (s.pushDown c v).pre q := by
  unfold St.pushDown
  show (if c.changed v s.cur then _ else _) = _
  split <;> rfl

theorem pre_say (q : List (Item A)) (s : St A Mo) (e : SEv A Mo) : (s.pre q).say e = (s.say e).pre q := rfl

theorem pre_post (q : List (Item A)) (s : St A Mo) (x : Item A) : (s.pre q).post x = (s.post x).pre q := by
  simp [St.pre, St.post, List.append_assoc]

theorem pre_go (c : Cfg A Mo) (q : List (Item A)) (s : St A Mo) (f : EF) :
    (s.pre q).go c f = (s.go c f).map (St.pre q) := by
  unfold St.go
  dsimp only
  cases hm : f.mode with
  | call e => cases e <;> rfl
  | prim id => rfl
  | got o =>
    dsimp only
    show (match f.ks with | b :: ks => _ | [] => _) = _
    cases f.ks with
    | cons b ks =>
      dsimp only
      cases o with
      | none => rfl
      | some i =>
        show (match some i, (((some i).bind fun i => s.fu.futs[i]?).join : Option Nat) with | some i, some _ => _ | _, _ => _) = _
        cases (((some i).bind fun i => s.fu.futs[i]?).join : Option Nat) with
        | none => rfl
        | some g =>
          dsimp only
          rw [pre_fstep]
          cases s.fstep (.then i true) <;> rfl
    | nil =>
      dsimp only
      cases f.k with
      | store d i =>
        dsimp only
        rw [pre_say]
        split
        · cases o with
          | some j => exact pre_fstep q _ _
          | none => exact pre_fstep q _ _
        · rfl
      | clo t =>
        dsimp only
        show (findRun t s.fu.active).bind _ = _
        cases findRun t s.fu.active with
        | none => rfl
        | some k =>
          cases o with
          | some i => exact pre_fstep q _ _
          | none =>
            show ((s.pre q).fstep .invalid).bind _ = _
            rw [pre_fstep]
            show _ = ((s.fstep .invalid).bind _).map _
            cases s.fstep .invalid with
            | none => rfl
            | some s1 => exact pre_fstep q _ _

/-- Steps that are not of the loop do the same whatever is in the queue. -/
theorem pre_step (c : Cfg A Mo) (q : List (Item A)) (s : St A Mo) (op : SOp A) (h1 : op ≠ .loop) (h2 : op ≠ .loopRaise) :
    Store.step c (s.pre q) op = (Store.step c s op).map (St.pre q) := by
  cases op with
  | dispatch a =>
    show (s.pre q).dispatch c a = (s.dispatch c a).map _
    unfold St.dispatch
    dsimp only
    rw [pre_fstep]
    show _ = ((s.fstep _).map _).map _
    cases s.fstep (if c.hasF then .newPair 0 else .invalid) with
    | none => rfl
    | some s1 =>
      show some _ = some _
      dsimp only
      rw [pre_post]
      rfl
  | loop => exact absurd rfl h1
  | loopRaise => exact absurd rfl h2
  | other l =>
    show (if l = 0 then none else (s.pre q).runTask l) = (if l = 0 then none else s.runTask l : Option _).map _
    split
    · rfl
    · exact pre_runTask q s l
  | fut op =>
    show (if s.allowed op then (s.pre q).fstep op else none) = (if s.allowed op then s.fstep op else none : Option _).map _
    split
    · exact pre_fstep q s op
    · rfl
  | go n =>
    simp only [Store.step, show (s.pre q).ev = s.ev from rfl]
    cases s.ev[n]? with
    | none => rfl
    | some f => exact pre_go c q { s with ev := s.ev.eraseIdx n } f
  | prim n o =>
    simp only [Store.step, show (s.pre q).ev = s.ev from rfl, show (s.pre q).fu = s.fu from rfl]
    cases s.ev[n]? with
    | none => rfl
    | some f =>
      obtain ⟨x, pos, mode, ks, k⟩ := f
      cases mode with
      | prim id =>
        show (if c.null id = false ∧ (∀ i, o = some i → ¬ s.held i ∧ i < s.fu.futs.length) then _ else _) = _
        dsimp only
        split <;> rfl
      | call e => rfl
      | got o => rfl
  | raise n =>
    simp only [Store.step, show (s.pre q).ev = s.ev from rfl, show (s.pre q).fu = s.fu from rfl]
    cases s.ev[n]? with
    | none => rfl
    | some f =>
      obtain ⟨x, pos, mode, ks, k⟩ := f
      cases mode with
      | prim id =>
        cases k with
        | store d i => rfl
        | clo t =>
          show (findRun t s.fu.active).bind _ = _
          dsimp only
          cases findRun t s.fu.active with
          | none => rfl
          | some k => exact pre_fstep q { s.say (.primThrew x pos) with ev := s.ev.eraseIdx n } _
      | call e => rfl
      | got o => rfl
  | commit =>
    show (if c.trans then some (s.pre q).sendDown.notify else none) = (if c.trans then some s.sendDown.notify else none : Option _).map _
    split
    · rw [pre_notify]; rfl
    · rfl

/-- A task does the same whatever comes after it in the queue. -/
theorem pre_loop (c : Cfg A Mo) (x : Item A) (q : List (Item A)) (s : St A Mo) :
    { s with queue := x :: q }.loop c = ({ s with queue := [x] }.loop c).map (St.pre q) := by
  have e : ∀ s : St A Mo, ({ s with queue := q } : St A Mo) = St.pre q { s with queue := [] } := by
    intro s; simp [St.pre]
  cases x with
  | reduce d a i =>
    unfold St.loop
    dsimp only
    show (if c.throws s.cur a then _ else _) = (if c.throws s.cur a then _ else _ : Option _).map _
    split
    · rw [show ({ s with queue := q } : St A Mo) = _ from e s]; rfl
    · rw [show ({ s with queue := q } : St A Mo) = _ from e s]
      by_cases he : (c.reducer s.cur a).2.isEmpty = true
      · rw [if_pos he, if_pos he]
        by_cases ht : c.trans = true
        · rw [if_pos ht, if_pos ht, pre_complete]
          cases { s with queue := [] }.complete c i with
          | none => rfl
          | some s1 => show some _ = some _; dsimp only; rw [pre_pushDown]; rfl
        · rw [if_neg ht, if_neg ht]
          show some _ = some _
          dsimp only; rw [pre_post, pre_pushDown]; rfl
      · rw [if_neg he, if_neg he]
        show some _ = some _
        dsimp only; rw [pre_post, pre_pushDown]; rfl
  | effect d e' i =>
    unfold St.loop
    dsimp only
    rw [show ({ s with queue := q } : St A Mo) = _ from e s, pre_publish]
    rfl
  | publish d i =>
    unfold St.loop
    dsimp only
    rw [show ({ s with queue := q } : St A Mo) = _ from e s, pre_publish, pre_say, pre_complete]
  | tok =>
    unfold St.loop
    dsimp only
    rw [show ({ s with queue := q } : St A Mo) = _ from e s, pre_runTask]

theorem pre_loopRaise (c : Cfg A Mo) (x : Item A) (q : List (Item A)) (s : St A Mo) :
    { s with queue := x :: q }.loopRaise c = ({ s with queue := [x] }.loopRaise c).map (St.pre q) := by
  have e : ∀ s : St A Mo, ({ s with queue := q } : St A Mo) = St.pre q { s with queue := [] } := by
    intro s; simp [St.pre]
  cases x with
  | reduce d a i => rfl
  | tok => rfl
  | effect d e' i =>
    unfold St.loopRaise
    dsimp only
    rw [show ({ s with queue := q } : St A Mo) = _ from e s, pre_publish]
    split <;> rfl
  | publish d i =>
    unfold St.loopRaise
    dsimp only
    rw [show ({ s with queue := q } : St A Mo) = _ from e s, pre_publish]
    split <;> rfl

end Local

end Verif.Store
