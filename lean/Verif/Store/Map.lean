import Verif.Store.Spec

/-!
The type of actions of a store does not matter beyond what the reducer does with them: a store whose
reducer treats `g a` as another store's reducer treats `a` behaves in the same way.
-/

namespace Verif.Store

variable {A B Mo : Type}

/-- Replace actions. -/
def Item.map (g : A → B) : Item A → Item B
  | .reduce d a i => .reduce d (g a) i
  | .effect d e i => .effect d e i
  | .publish d i => .publish d i
  | .tok => .tok

/-- Replace actions in an event. -/
def SEv.map (g : A → B) : SEv A Mo → SEv B Mo
  | .dispatched d a => .dispatched d (g a)
  | .reduced d m a m' e => .reduced d m (g a) m' e
  | .shown v => .shown v
  | .ready d => .ready d
  | .effStart d x e => .effStart d x e
  | .effEnd d r => .effEnd d r
  | .prim x pos id => .prim x pos id
  | .primRet x pos r => .primRet x pos r
  | .primThrew x pos => .primThrew x pos
  | .reduceThrew d m a => .reduceThrew d m (g a)
  | .lost d e => .lost d e

/-- Replace actions in an operation. -/
def SOp.map (g : A → B) : SOp A → SOp B
  | .dispatch a => .dispatch (g a)
  | .loop => .loop
  | .loopRaise => .loopRaise
  | .other l => .other l
  | .fut op => .fut op
  | .go n => .go n
  | .prim n o => .prim n o
  | .raise n => .raise n
  | .commit => .commit

/-- Replace actions in a store. -/
def St.map (g : A → B) (st : St A Mo) : St B Mo where
  fu := st.fu
  cur := st.cur
  last := st.last
  dirty := st.dirty
  ntf := st.ntf
  queue := st.queue.map (Item.map g)
  ev := st.ev
  sent := st.sent
  tag := st.tag
  nx := st.nx
  log := st.log.map (SEv.map g)

variable (g : A → B)

theorem map_say (st : St A Mo) (e : SEv A Mo) : (st.map g).say (e.map g) = (st.say e).map g := by
  simp [St.say, St.map]

theorem map_post (st : St A Mo) (i : Item A) : (st.map g).post (i.map g) = (st.post i).map g := by
  simp [St.post, St.map]

theorem map_fstep (st : St A Mo) (op : Future.Op) :
    (st.map g).fstep op = (st.fstep op).map (St.map g) := by
  unfold St.fstep
  show (Future.step st.fu op).map _ = _
  cases Future.step st.fu op with
  | none => rfl
  | some fu => simp [St.map, Item.map]

theorem map_notify (st : St A Mo) : (st.map g).sendDown.notify = st.sendDown.notify.map g := by
  obtain ⟨fu, cur, last, dirty, ntf, queue, ev, sent, tag, nx, log⟩ := st
  unfold St.notify St.sendDown St.map
  cases dirty <;> cases ntf <;> simp [SEv.map]

theorem map_held (st : St A Mo) (i : Nat) : (st.map g).held i ↔ st.held i := Iff.rfl

theorem map_allowed (st : St A Mo) (op : Future.Op) : (st.map g).allowed op ↔ st.allowed op := by
  cases op <;> exact Iff.rfl

variable {c : Cfg A Mo} {c' : Cfg B Mo}

/-- `c'` is the store `c` with other actions. -/
structure Same (g : A → B) (c : Cfg A Mo) (c' : Cfg B Mo) : Prop where
  reducer : ∀ m a, c'.reducer m (g a) = c.reducer m a
  throws : ∀ m a, c'.throws m (g a) = c.throws m a
  changed : c'.changed = c.changed
  trans : c'.trans = c.trans
  hasF : c'.hasF = c.hasF
  init : c'.init = c.init
  null : c'.null = c.null

variable {g}

theorem map_pushDown (h : Same g c c') (st : St A Mo) (v : Mo) :
    (st.map g).pushDown c' v = (st.pushDown c v).map g := by
  unfold St.pushDown
  rw [h.changed]
  show (if c.changed v st.cur = true then _ else _) = _
  split <;> rfl

theorem map_dispatch (h : Same g c c') (st : St A Mo) (a : A) :
    (st.map g).dispatch c' (g a) = (st.dispatch c a).map (St.map g) := by
  unfold St.dispatch
  rw [map_fstep, h.hasF]
  cases st.fstep (if c.hasF = true then .newPair 0 else .invalid) with
  | none => rfl
  | some s1 => simp [St.map, St.post, St.say, Item.map, SEv.map]

theorem map_complete (h : Same g c c') (st : St A Mo) (i : Nat) :
    (st.map g).complete c' i = (st.complete c i).map (St.map g) := by
  unfold St.complete
  rw [h.hasF, map_fstep]
  split <;> rfl

theorem map_publish (h : Same g c c') (st : St A Mo) : (st.map g).publish c' = (st.publish c).map g := by
  unfold St.publish
  rw [h.trans, map_notify]
  split <;> rfl

theorem map_runTask (st : St A Mo) (l : Nat) :
    (st.map g).runTask l = (st.runTask l).map (St.map g) := by
  unfold St.runTask
  rw [map_fstep]
  show (match st.fu.queue l with | [] => _ | t :: _ => _) = _
  cases st.fu.queue l with
  | nil => rfl
  | cons t q =>
    dsimp only
    cases st.fstep (.run l) with
    | none => rfl
    | some s1 =>
      have e1 : (st.map g).tag = st.tag := rfl
      simp only [Option.map_some, e1]
      cases st.tag t.c with
      | none => rfl
      | some x => rfl

theorem loop_reduce {st : St A Mo} {d : Nat} {a : A} {i : Nat} {q : List (Item A)}
    (hq : st.queue = .reduce d a i :: q) :
    st.loop c = if c.throws st.cur a then some (St.say { st with queue := q } (.reduceThrew d st.cur a)) else
      (if (c.reducer st.cur a).2.isEmpty then
        (if c.trans then St.complete c { st with queue := q } i
          else some (St.post { st with queue := q } (.publish d i)))
      else some (St.post { st with queue := q } (.effect d (c.reducer st.cur a).2 i))).map fun s1 =>
        (s1.pushDown c (c.reducer st.cur a).1).say
          (.reduced d st.cur a (c.reducer st.cur a).1 (c.reducer st.cur a).2) := by
  simp only [St.loop, hq]

theorem map_loop (h : Same g c c') (st : St A Mo) :
    (st.map g).loop c' = (st.loop c).map (St.map g) := by
  cases hq : st.queue with
  | nil =>
    have : (st.map g).queue = [] := by simp [St.map, hq]
    simp only [St.loop, hq, this]; rfl
  | cons x q =>
    have h1 : (st.map g).queue = x.map g :: q.map (Item.map g) := by simp [St.map, hq]
    have h0 : ({ st.map g with queue := q.map (Item.map g) } : St B Mo) = St.map g { st with queue := q } := rfl
    cases x with
    | reduce d a i =>
      rw [loop_reduce hq, loop_reduce h1]
      have h2 : c'.reducer (st.map g).cur (g a) = c.reducer st.cur a := h.reducer st.cur a
      have h2' : c'.throws (st.map g).cur (g a) = c.throws st.cur a := h.throws st.cur a
      rw [h2, h2', h0, h.trans]
      cases hth : c.throws st.cur a with
      | true =>
        simp only [if_true, Option.map_some]
        rw [← map_say]; rfl
      | false =>
      simp only [Bool.false_eq_true, if_false]
      generalize c.reducer st.cur a = y
      obtain ⟨m', e⟩ := y
      dsimp only
      have h3 : ∀ o : Option (St A Mo), (o.map (St.map g)).map
          (fun s1 => (s1.pushDown c' m').say (SEv.reduced d (st.map g).cur (g a) m' e)) =
          (o.map (fun s1 => (s1.pushDown c m').say (SEv.reduced d st.cur a m' e))).map (St.map g) := by
        intro o
        cases o with
        | none => rfl
        | some s1 =>
          simp only [Option.map_some]
          rw [map_pushDown h, ← map_say]; rfl
      rw [← h3]
      congr 1
      rw [map_complete h]
      split
      · split
        · rfl
        · rw [show (Item.publish d i : Item B) = (Item.publish d i : Item A).map g from rfl, map_post]; rfl
      · rw [show (Item.effect d e i : Item B) = (Item.effect d e i : Item A).map g from rfl, map_post]; rfl
    | effect d e i =>
      simp only [St.loop, hq, h1, Item.map]
      rw [h0, map_publish h]
      simp only [Option.map_some]
      generalize St.publish c { st with queue := q } = s1
      simp [St.map, St.say, SEv.map]
    | publish d i =>
      simp only [St.loop, hq, h1, Item.map]
      rw [h0, map_publish h, show (SEv.ready d : SEv B Mo) = (SEv.ready d : SEv A Mo).map g from rfl,
        map_say, map_complete h]
    | tok =>
      simp only [St.loop, hq, h1, Item.map]
      rw [h0, map_runTask]

theorem map_loopRaise (h : Same g c c') (st : St A Mo) :
    (st.map g).loopRaise c' = (st.loopRaise c).map (St.map g) := by
  have key : ∀ (d : Nat) (e : Option Eff) (q : List (Item A)),
      (if c'.trans = false ∧ (st.map g).dirty = true then
        some ((St.publish c' { st.map g with queue := q.map (Item.map g) }).say (.lost d e)) else none) =
      (if c.trans = false ∧ st.dirty = true then
        some ((St.publish c { st with queue := q }).say (.lost d e)) else none).map (St.map g) := by
    intro d e q
    have h0 : ({ st.map g with queue := q.map (Item.map g) } : St B Mo) = St.map g { st with queue := q } := rfl
    have h1 : (st.map g).dirty = st.dirty := rfl
    rw [h0, h1, h.trans, map_publish h, show (SEv.lost d e : SEv B Mo) = (SEv.lost d e : SEv A Mo).map g from rfl,
      map_say]
    split <;> rfl
  cases hq : st.queue with
  | nil =>
    have : (st.map g).queue = [] := by simp [St.map, hq]
    simp only [St.loopRaise, hq, this]; rfl
  | cons x q =>
    have h1 : (st.map g).queue = x.map g :: q.map (Item.map g) := by simp [St.map, hq]
    cases x with
    | reduce d a i => simp only [St.loopRaise, hq, h1, Item.map]; rfl
    | effect d e i => simp only [St.loopRaise, hq, h1, Item.map]; exact key _ _ _
    | publish d i => simp only [St.loopRaise, hq, h1, Item.map]; exact key _ _ _
    | tok => simp only [St.loopRaise, hq, h1, Item.map]; rfl

theorem map_go (h : Same g c c') (st : St A Mo) (f : EF) :
    (st.map g).go c' f = (st.go c f).map (St.map g) := by
  unfold St.go
  dsimp only
  cases hm : f.mode with
  | call e =>
    cases e with
    | empty => rfl
    | noop => rfl
    | prim id => simp [St.say, St.map, SEv.map]
    | seq a b => rfl
  | prim id => rfl
  | got o =>
    dsimp only
    show (match f.ks with | b :: ks => _ | [] => _) = _
    cases f.ks with
    | cons b ks =>
      dsimp only
      have e1 : (st.map g).fu = st.fu := rfl
      rw [e1]
      cases hr : (o.bind fun i => st.fu.futs[i]?).join with
      | none => cases o <;> rfl
      | some r =>
        cases o with
        | none => rfl
        | some i =>
          dsimp only
          rw [map_fstep]
          cases st.fstep (.then i true) with
          | none => rfl
          | some s1 => rfl
    | nil =>
      dsimp only
      cases f.k with
      | store d i =>
        dsimp only
        have e1 : (st.map g).fu = st.fu := rfl
        rw [e1, h.hasF, show ∀ r, (st.map g).say (SEv.effEnd d r) = (st.say (SEv.effEnd d r)).map g from
          fun r => by simp [St.map, St.say, SEv.map]]
        split
        · cases o with
          | none => exact map_fstep _ _ _
          | some j => exact map_fstep _ _ _
        · rfl
      | clo t =>
        dsimp only
        have e1 : (st.map g).fu = st.fu := rfl
        rw [e1]
        cases findRun t st.fu.active with
        | none => rfl
        | some k =>
          simp only [Option.bind_some]
          cases o with
          | some i => exact map_fstep _ _ _
          | none =>
            dsimp only
            rw [map_fstep]
            cases st.fstep .invalid with
            | none => rfl
            | some s1 =>
              simp only [Option.map_some, Option.bind_some]
              rw [map_fstep]; rfl

/-- The stores take the same steps. -/
theorem step_map (h : Same g c c') (st : St A Mo) (op : SOp A) :
    step c' (st.map g) (op.map g) = (step c st op).map (St.map g) := by
  cases op with
  | dispatch a => exact map_dispatch h st a
  | loop => exact map_loop h st
  | loopRaise => exact map_loopRaise h st
  | other l =>
    simp only [step, SOp.map]
    rw [map_runTask]
    split <;> rfl
  | fut op =>
    simp only [step, SOp.map]
    rw [map_fstep]
    by_cases ha : st.allowed op
    · rw [if_pos ha, if_pos ((map_allowed g st op).2 ha)]
    · rw [if_neg ha, if_neg (fun h => ha ((map_allowed g st op).1 h))]; rfl
  | go n =>
    simp only [step, SOp.map]
    show (match st.ev[n]? with | none => _ | some f => _) = _
    cases st.ev[n]? with
    | none => rfl
    | some f => exact map_go h { st with ev := st.ev.eraseIdx n } f
  | prim n o =>
    simp only [step, SOp.map]
    have e1 : (st.map g).ev = st.ev := rfl
    rw [e1]
    cases hn : st.ev[n]? with
    | none => rfl
    | some f =>
      obtain ⟨x, pos, mode, ks, k⟩ := f
      cases mode with
      | call _ => rfl
      | got _ => rfl
      | prim id =>
        dsimp only
        have e2 : (st.map g).fu = st.fu := rfl
        rw [e2]
        rw [h.null]
        by_cases hh : c.null id = false ∧ ∀ i, o = some i → ¬ st.held i ∧ i < st.fu.futs.length
        · rw [if_pos hh, if_pos (show c.null id = false ∧ ∀ i, o = some i → ¬ (st.map g).held i ∧
            i < st.fu.futs.length from hh)]
          simp [St.map, St.say, SEv.map]
        · rw [if_neg hh, if_neg (show ¬ (c.null id = false ∧ ∀ i, o = some i → ¬ (st.map g).held i ∧
            i < st.fu.futs.length) from hh)]
          rfl
  | raise n =>
    simp only [step, SOp.map]
    have e1 : (st.map g).ev = st.ev := rfl
    rw [e1]
    cases hn : st.ev[n]? with
    | none => rfl
    | some f =>
      obtain ⟨x, pos, mode, ks, k⟩ := f
      cases mode with
      | call _ => rfl
      | got _ => rfl
      | prim id =>
        cases k with
        | store d i => simp [St.map, St.say, SEv.map]
        | clo t =>
          dsimp only
          have e2 : (st.map g).fu = st.fu := rfl
          rw [e2]
          cases findRun t st.fu.active with
          | none => rfl
          | some k =>
            simp only [Option.bind_some]
            rw [← map_fstep]
            congr 1
            simp [St.map, St.say, SEv.map]
  | commit =>
    simp only [step, SOp.map]
    rw [h.trans, map_notify]
    split <;> rfl

theorem start_map (h : Same g c c') : (start c).map g = start c' := by
  simp [start, St.map, h.init]

/-- … and the same runs. -/
theorem exec_map (h : Same g c c') (st : St A Mo) (ops : List (SOp A)) :
    exec c' (st.map g) (ops.map (SOp.map g)) = (exec c st ops).map (St.map g) := by
  induction ops generalizing st with
  | nil => rfl
  | cons op ops ih =>
    simp only [exec, List.map_cons]
    rw [step_map h]
    cases step c st op with
    | none => rfl
    | some s1 => exact ih s1

end Verif.Store
