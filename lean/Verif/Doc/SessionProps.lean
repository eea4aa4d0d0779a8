import Verif.Doc.Session

/-!
C131: programs that read events one by one and dispatch them to a store with the manual event loop.
-/

namespace Verif.Doc

open Verif Verif.Store

variable {A Mo E : Type}

/-! ### Vocabulary -/

/-- A store whose reducer has no effects and does not throw; it is not transactional and has no futures. -/
structure Simple (c : Cfg A Mo) : Prop where
  sound : c.sound
  effects : ∀ m a, (c.reducer m a).2.isEmpty = true
  throws : ∀ m a, c.throws m a = false
  trans : c.trans = false
  hasF : c.hasF = false

/-- The changes: the models before and after each of the actions, where these differ. -/
def moves (c : Cfg A Mo) (v : Mo) : List A → List (Mo × Mo)
  | [] => []
  | a :: as =>
    let w := (c.reducer v a).1
    if c.changed w v then (v, w) :: moves c w as else moves c w as

/-- The model after actions. -/
def result (c : Cfg A Mo) (v : Mo) (as : List A) : Mo := as.foldl (fun v a => (c.reducer v a).1) v

/-! ### Proofs -/

theorem result_snoc (c : Cfg A Mo) (v : Mo) (as : List A) (a : A) :
    result c v (as ++ [a]) = (c.reducer (result c v as) a).1 := by
  simp [result]

theorem moves_snoc (c : Cfg A Mo) (v : Mo) (as : List A) (a : A) :
    moves c v (as ++ [a]) = moves c v as ++
      if c.changed (result c v (as ++ [a])) (result c v as) then [(result c v as, result c v (as ++ [a]))] else [] := by
  induction as generalizing v with
  | nil =>
    simp [moves, result]
    rfl
  | cons b as ih =>
    have := ih (c.reducer v b).1
    simp only [List.cons_append, moves]
    rw [this]
    split <;> simp [result]

theorem shows_append (l l' : List (SEv A Mo)) : shows (l ++ l') = shows l ++ shows l' := by
  induction l with
  | nil => rfl
  | cons e l ih => cases e <;> simp [shows, ih]

theorem dispatches_append (l l' : List (SEv A Mo)) : dispatches (l ++ l') = dispatches l ++ dispatches l' := by
  induction l with
  | nil => rfl
  | cons e l ih => cases e <;> simp [dispatches, ih]

/-- What the state of the program is at some point. -/
structure At (m : ManQ A Mo) (busy : Bool) (waits : Nat) (jobs : List (Job A Mo)) (queue : List (Item A))
    (dirty ntf : Bool) (cur last : Mo) (sh : List Mo) (ds : List A) : Prop where
  foreign : m.foreign = []
  thrown : m.thrown = false
  ev : m.p.st.ev = []
  ub : m.p.st.fu.ub = false
  idle : busy = false → m.l.ctl = .idle ∧ m.l.i = 0
  task : busy = true → ∃ n, m.l.ctl = .task n ∧ 0 < m.l.i
  rest : ∃ r, r.length = waits ∧ Rest m.l r
  jobs : m.p.jobs = jobs
  queue : m.p.st.queue = queue
  dirty : m.p.st.dirty = dirty
  ntf : m.p.st.ntf = ntf
  cur : m.p.st.cur = cur
  last : m.p.st.last = last
  sh : shows m.p.st.log = sh
  ds : dispatches m.p.st.log = ds

/-- What `dispatch` of the last action is doing when `n` steps are left. -/
def Phase (c : Cfg A Mo) (as : List A) (n : Nat) (m : ManQ A Mo) : Prop :=
  let V := result c c.init
  let T := fun as => (moves c c.init as).map Prod.snd
  match n with
  | 0 => At m false 0 [] [] false false (V as) (V as) (T as) as
  | 1 => At m true 0 [] [] false false (V as) (V as) (T as) as
  | 2 => ∃ d i b, At m true 0 [.watching (some (.publish d i)) b] [] false false (V as) (V as) (T as) as
  | 3 => ∃ bs a d i, as = bs ++ [a] ∧ At m true 0 [.notifying (some (.publish d i))] [] false (c.changed (V as) (V bs))
      (V as) (V as) (T bs) as
  | 4 => ∃ bs a d i, as = bs ++ [a] ∧ At m true 0 [.sending (some (.publish d i))] [] (c.changed (V as) (V bs)) false
      (V as) (V bs) (T bs) as
  | 5 => ∃ bs a d i, as = bs ++ [a] ∧ At m true 1 [] [.publish d i] (c.changed (V as) (V bs)) false (V as) (V bs) (T bs) as
  | 6 => ∃ bs a d i, as = bs ++ [a] ∧ At m true 1 [.pushing (V as)] [.publish d i] false false (V bs) (V bs) (T bs) as
  | 7 => ∃ bs a d i, as = bs ++ [a] ∧ At m true 0 [.reducing d a i] [] false false (V bs) (V bs) (T bs) as
  | _ => False

theorem phase_idle {c : Cfg A Mo} {as : List A} {n : Nat} {m : ManQ A Mo} (h : Phase c as n m) :
    m.l.ctl = .idle ↔ n = 0 := by
  match n, h with
  | 0, h => simp [(h.idle rfl).1]
  | 1, h => obtain ⟨_, h, -⟩ := h.task rfl; simp [h]
  | 2, ⟨_, _, _, h⟩ => obtain ⟨_, h, -⟩ := h.task rfl; simp [h]
  | 3, ⟨_, _, _, _, _, h⟩ => obtain ⟨_, h, -⟩ := h.task rfl; simp [h]
  | 4, ⟨_, _, _, _, _, h⟩ => obtain ⟨_, h, -⟩ := h.task rfl; simp [h]
  | 5, ⟨_, _, _, _, _, h⟩ => obtain ⟨_, h, -⟩ := h.task rfl; simp [h]
  | 6, ⟨_, _, _, _, _, h⟩ => obtain ⟨_, h, -⟩ := h.task rfl; simp [h]
  | 7, ⟨_, _, _, _, _, h⟩ => obtain ⟨_, h, -⟩ := h.task rfl; simp [h]
  | _ + 8, h => exact h.elim

theorem own_go {c : Cfg A Mo} {m : ManQ A Mo} {j : Job A Mo} (hj : m.p.jobs = [j]) {s : St A Mo} {o : Option (Job A Mo)}
    (h : j.go c m.p.st = some (s, o)) : ManQ.step c m .go = some { m with
      p := { m.p with st := s, jobs := o.toList }
      l := posts (s.queue.length - m.p.st.queue.length) m.l
      thrown := m.thrown || (s.log.drop m.p.st.log.length).any SEv.isThrow } := by
  simp only [ManQ.step, ManQ.own, Par.step, hj, List.getElem?_cons_zero, h, Option.map_some]
  cases o <;> rfl

theorem go_none {c : Cfg A Mo} {m : ManQ A Mo} (hj : m.p.jobs = []) : ManQ.step c m .go = none := by
  simp [ManQ.step, ManQ.own, Par.step, hj]

theorem ret_none {c : Cfg A Mo} {m : ManQ A Mo} {j : Job A Mo} (hj : m.p.jobs = [j]) : ManQ.step c m .ret = none := by
  simp [ManQ.step, ManQ.free, hj]

/-- One step of `dispatch`. -/
theorem phase_step {c : Cfg A Mo} (hc : Simple c) {as : List A} {n : Nat} {m : ManQ A Mo} (h : Phase c as (n + 1) m) :
    ∃ m', Phase c as n m' ∧ (ManQ.step c m .go = some m' ∧ ManQ.step c m .ret = none ∨
      ManQ.step c m .go = none ∧ ManQ.step c m .ret = some m') := by
  match n, h with
  | 0, h =>
    obtain ⟨k, hk, hi⟩ := h.task rfl
    obtain ⟨r, hr, hR⟩ := h.rest
    obtain rfl : r = [] := List.length_eq_zero_iff.1 hr
    have hR' : Rest { m.l with log := m.l.log ++ [.done k] } [] := hR
    have hs : ManQ.step c m .ret = some { m with
        l := { m.l with queue := [], i := 0, ctl := .idle, log := m.l.log ++ [.done k] ++ [.ret] } } := by
      have hl : Loop.Manual.step m.l .ret = some (Loop.Manual.advance { m.l with log := m.l.log ++ [.done k] }) := by
        simp only [Loop.Manual.step]
        rw [hk]
      simp only [ManQ.step, ManQ.free, h.jobs, h.ev, h.thrown, List.isEmpty_nil, Bool.and_self, and_self, if_true, hl,
        Option.bind_some, ManQ.begin]
      rw [advance_nil hR']
    refine ⟨_, ?_, .inr ⟨go_none h.jobs, hs⟩⟩
    exact ⟨h.foreign, h.thrown, h.ev, h.ub, fun _ => ⟨rfl, rfl⟩, nofun, ⟨[], rfl, rfl⟩, h.jobs, h.queue, h.dirty, h.ntf, h.cur, h.last,
      h.sh, h.ds⟩
  | 1, ⟨d, i, b, h⟩ =>
    have hg : (Job.watching (some (Item.publish d i)) b).go c m.p.st = some (m.p.st.say (.ready d), none) := by
      simp [Job.go, St.after, St.complete, hc.hasF]
    refine ⟨_, ?_, .inl ⟨own_go h.jobs hg, ret_none h.jobs⟩⟩
    refine ⟨h.foreign, ?_, h.ev, h.ub, nofun, ?_, ?_, rfl, h.queue, h.dirty, h.ntf, h.cur, h.last, ?_, ?_⟩
    · simp [h.thrown, St.say, SEv.isThrow]
    · intro _
      simpa [St.say, posts] using h.task rfl
    · simpa [St.say, posts] using h.rest
    · simp [St.say, shows_append, shows, h.sh]
    · simp [St.say, dispatches_append, dispatches, h.ds]
  | 2, ⟨bs, a, d, i, ha, h⟩ =>
    have hg : (Job.notifying (some (Item.publish d i))).go c m.p.st =
        some (m.p.st.notify, some (.watching (some (.publish d i)) (m.p.st.ntf && !m.p.st.dirty))) := by
      simp [Job.go, sends, hc.trans]
    refine ⟨_, ⟨d, i, m.p.st.ntf && !m.p.st.dirty, ?_⟩, .inl ⟨own_go h.jobs hg, ret_none h.jobs⟩⟩
    have hm := moves_snoc c c.init bs a
    rw [← ha] at hm
    cases hch : c.changed (result c c.init as) (result c c.init bs) with
    | true =>
      have hn : m.p.st.notify = { m.p.st with ntf := false, log := m.p.st.log ++ [.shown m.p.st.last] } := by
        simp [St.notify, h.ntf, h.dirty, hch]
      simp only [hn]
      refine ⟨h.foreign, ?_, h.ev, h.ub, nofun, ?_, ?_, rfl, h.queue, h.dirty, rfl, h.cur, h.last, ?_, ?_⟩
      · simp [h.thrown, SEv.isThrow]
      · intro _
        simpa [posts] using h.task rfl
      · simpa [posts] using h.rest
      · simp [shows_append, shows, h.sh, hm, hch, h.last]
      · simp [dispatches_append, dispatches, h.ds]
    | false =>
      have hn : m.p.st.notify = m.p.st := by
        simp [St.notify, h.ntf, hch]
      simp only [hn]
      refine ⟨h.foreign, ?_, h.ev, h.ub, nofun, ?_, ?_, rfl, h.queue, h.dirty, ?_, h.cur, h.last, ?_, h.ds⟩
      · simp [h.thrown]
      · intro _
        simpa [posts] using h.task rfl
      · simpa [posts] using h.rest
      · rw [h.ntf]; exact hch
      · simp [h.sh, hm, hch]
  | 3, ⟨bs, a, d, i, ha, h⟩ =>
    have hg : (Job.sending (some (Item.publish d i))).go c m.p.st = some (m.p.st.sendDown, some (.notifying (some (.publish d i)))) := by
      simp [Job.go, sends, hc.trans]
    refine ⟨_, ⟨bs, a, d, i, ha, ?_⟩, .inl ⟨own_go h.jobs hg, ret_none h.jobs⟩⟩
    cases hch : c.changed (result c c.init as) (result c c.init bs) with
    | true =>
      have hn : m.p.st.sendDown = { m.p.st with last := m.p.st.cur, dirty := false, ntf := true } := by
        simp [St.sendDown, h.dirty, hch]
      simp only [hn]
      refine ⟨h.foreign, ?_, h.ev, h.ub, nofun, ?_, ?_, rfl, h.queue, rfl, rfl, h.cur, h.cur, h.sh, h.ds⟩
      · simp [h.thrown]
      · intro _
        simpa [posts] using h.task rfl
      · simpa [posts] using h.rest
    | false =>
      have hn : m.p.st.sendDown = m.p.st := by
        simp [St.sendDown, h.dirty, hch]
      simp only [hn]
      refine ⟨h.foreign, ?_, h.ev, h.ub, nofun, ?_, ?_, rfl, h.queue, ?_, h.ntf, h.cur, ?_, h.sh, h.ds⟩
      · simp [h.thrown]
      · intro _
        simpa [posts] using h.task rfl
      · simpa [posts] using h.rest
      · rw [h.dirty]; exact hch
      · rw [h.last]; exact (hc.sound _ _ hch).symm
  | 4, ⟨bs, a, d, i, ha, h⟩ =>
    obtain ⟨k, hk, hi⟩ := h.task rfl
    obtain ⟨r, hr, hR⟩ := h.rest
    obtain ⟨x, rfl⟩ : ∃ x, r = [x] := List.length_eq_one_iff.1 hr
    have hR' : Rest { m.l with log := m.l.log ++ [.done k] } [x] := hR
    obtain ⟨a1, a2, a3, a4⟩ := advance_cons hR'
    have hi' : 0 < (Loop.Manual.advance { m.l with log := m.l.log ++ [.done k] }).i := by
      have : m.l.queue[m.l.i]? = some (some x) := by
        rw [hR, List.getElem?_append_right (by simp)]; simp
      simp [Loop.Manual.advance, this]
    have hs : ManQ.step c m .ret = some { m with
        p := { m.p with st := { m.p.st with queue := [] }, jobs := [.sending (some (.publish d i))] }
        l := Loop.Manual.advance { m.l with log := m.l.log ++ [.done k] } } := by
      have hl : Loop.Manual.step m.l .ret = some (Loop.Manual.advance { m.l with log := m.l.log ++ [.done k] }) := by
        simp only [Loop.Manual.step]
        rw [hk]
      simp only [ManQ.step, ManQ.free, h.jobs, h.ev, h.thrown, List.isEmpty_nil, Bool.and_self, and_self, if_true, hl,
        Option.bind_some, ManQ.begin, a1, h.foreign, List.not_mem_nil, if_false, Par.step,
        List.length_nil, Nat.lt_one_iff, Par.begin, h.queue, Option.map_some, List.nil_append]
    refine ⟨_, ⟨bs, a, d, i, ha, ?_⟩, .inr ⟨go_none h.jobs, hs⟩⟩
    exact ⟨h.foreign, h.thrown, h.ev, h.ub, nofun, fun _ => ⟨x, a1, hi'⟩, ⟨[], rfl, a4⟩, rfl, rfl, h.dirty, h.ntf, h.cur, h.last,
      h.sh, h.ds⟩
  | 5, ⟨bs, a, d, i, ha, h⟩ =>
    have hg : (Job.pushing (result c c.init as)).go c m.p.st = some (m.p.st.pushDown c (result c c.init as), none) := rfl
    refine ⟨_, ⟨bs, a, d, i, ha, ?_⟩, .inl ⟨own_go h.jobs hg, ret_none h.jobs⟩⟩
    cases hch : c.changed (result c c.init as) (result c c.init bs) with
    | true =>
      have hn : m.p.st.pushDown c (result c c.init as) = { m.p.st with cur := result c c.init as, dirty := true } := by
        simp [St.pushDown, h.cur, hch]
      simp only [hn]
      refine ⟨h.foreign, ?_, h.ev, h.ub, nofun, ?_, ?_, rfl, h.queue, rfl, h.ntf, rfl, h.last, h.sh, h.ds⟩
      · simp [h.thrown]
      · intro _
        simpa [posts] using h.task rfl
      · simpa [posts] using h.rest
    | false =>
      have hn : m.p.st.pushDown c (result c c.init as) = m.p.st := by
        simp [St.pushDown, h.cur, hch]
      simp only [hn]
      refine ⟨h.foreign, ?_, h.ev, h.ub, nofun, ?_, ?_, rfl, h.queue, h.dirty, h.ntf, ?_, h.last, h.sh, h.ds⟩
      · simp [h.thrown]
      · intro _
        simpa [posts] using h.task rfl
      · simpa [posts] using h.rest
      · rw [h.cur]; exact (hc.sound _ _ hch).symm
  | 6, ⟨bs, a, d, i, ha, h⟩ =>
    have hv : (c.reducer m.p.st.cur a).1 = result c c.init as := by rw [h.cur, ha, result_snoc]
    have hg : (Job.reducing d a i).go c m.p.st = some ((m.p.st.post (.publish d i)).say
        (.reduced d m.p.st.cur a (result c c.init as) (c.reducer m.p.st.cur a).2), some (.pushing (result c c.init as))) := by
      simp [Job.go, hc.throws, St.reduced, hc.effects, hc.trans, hv]
    refine ⟨_, ⟨bs, a, d, i, ha, ?_⟩, .inl ⟨own_go h.jobs hg, ret_none h.jobs⟩⟩
    obtain ⟨k, hk, hi⟩ := h.task rfl
    obtain ⟨r, hr, hR⟩ := h.rest
    have hlen : ((m.p.st.post (Item.publish d i)).say
        (.reduced d m.p.st.cur a (result c c.init as) (c.reducer m.p.st.cur a).2)).queue.length - m.p.st.queue.length = 1 := by
      simp [St.say, St.post]
    obtain ⟨new, e1, e2, e3, e4, e5, -⟩ := posts_task hR hi hk 1
    refine ⟨h.foreign, ?_, h.ev, h.ub, nofun, ?_, ?_, rfl, ?_, h.dirty, h.ntf, h.cur, h.last, ?_, ?_⟩
    · simp [h.thrown, St.say, St.post, SEv.isThrow]
    · intro _
      simp only [hlen]
      exact ⟨k, e4, e5⟩
    · simp only [hlen]
      exact ⟨_, by simp [hr, e1], e3⟩
    · simp [St.say, St.post, h.queue]
    · simp [St.say, St.post, shows_append, shows, h.sh]
    · simp [St.say, St.post, dispatches_append, dispatches, h.ds]
  | _ + 7, h => exact h.elim

/-- Outside of `dispatch` nothing goes on. -/
theorem phase_stops {c : Cfg A Mo} {as : List A} {m : ManQ A Mo} (h : Phase c as 0 m) :
    ManQ.step c m .go = none ∧ ManQ.step c m .ret = none := by
  refine ⟨go_none h.jobs, ?_⟩
  simp [ManQ.step, Loop.Manual.step, (h.idle rfl).1]

/-- `dispatch` begins. -/
theorem phase_dispatch {c : Cfg A Mo} (hc : Simple c) {as : List A} {m : ManQ A Mo} (h : Phase c as 0 m) (a : A) :
    ∃ m', Phase c (as ++ [a]) 7 m' ∧ ManQ.step c m (.dispatch a) = some m' := by
  obtain ⟨s, hs⟩ : ∃ s, m.p.st.dispatch c a = some s := by
    unfold St.dispatch
    simp [hc.hasF, St.fstep, Future.step, h.ub]
  obtain ⟨e1, e2, e3, e4, e5⟩ := dispatch_grows hc.hasF hs
  have e67 : s.dirty = m.p.st.dirty ∧ s.ntf = m.p.st.ntf ∧ s.fu.ub = false := by
    unfold St.dispatch at hs
    simp only [hc.hasF, St.fstep, Future.step, Bool.false_eq_true, if_false] at hs
    split at hs
    all_goals first
      | (cases hs; simp [St.post, St.say, h.ub])
      | cases hs
  obtain ⟨r, hr, hR⟩ := h.rest
  obtain rfl : r = [] := List.length_eq_zero_iff.1 hr
  obtain ⟨n, rest', g1, g2, g3, g4⟩ := posts_idle hR (h.idle rfl).2
  have hi : 0 < (posts 1 m.l).i := by
    have hq : m.l.queue = [] := by rw [hR, (h.idle rfl).2]; rfl
    simp [posts, Loop.Manual.step, (h.idle rfl).2, Loop.Manual.advance, hq]
  simp only [List.nil_append, List.cons.injEq] at g1
  obtain ⟨rfl, rfl⟩ := g1
  have hq : s.queue = [.reduce m.p.st.sent.length a m.p.st.fu.proms.length] := by rw [e1, h.queue]; rfl
  have hlen : s.queue.length - m.p.st.queue.length = 1 := by rw [hq, h.queue]; rfl
  have hst : ManQ.step c m (.dispatch a) = some { m with
      p := { m.p with st := { s with queue := [] }, jobs := [.reducing m.p.st.sent.length a m.p.st.fu.proms.length] }
      l := posts 1 m.l
      thrown := m.thrown || (s.log.drop m.p.st.log.length).any SEv.isThrow } := by
    simp only [ManQ.step, h.thrown, Bool.false_eq_true, if_false, (h.idle rfl).1, ManQ.own, Par.step, SOp.isUser, if_true,
      Store.step, hs, Option.map_some, Option.bind_some, ManQ.begin, hlen, g2]
    simp only [h.foreign, List.not_mem_nil, if_false, h.jobs, List.length_nil, Nat.lt_one_iff, if_true, Par.begin, hq,
      Option.map_some, List.nil_append]
  refine ⟨_, ⟨as, a, m.p.st.sent.length, m.p.st.fu.proms.length, rfl, ?_⟩, hst⟩
  refine ⟨h.foreign, ?_, ?_, e67.2.2, nofun, fun _ => ⟨_, g2, hi⟩, ⟨[], rfl, g3⟩, rfl, rfl, ?_, ?_, ?_, ?_, ?_, ?_⟩
  · simp [e3, SEv.isThrow, h.thrown]
  · simp [e2, h.ev]
  · exact e67.1.trans h.dirty
  · exact e67.2.1.trans h.ntf
  · exact e5.trans h.cur
  · exact e4.trans h.last
  · simp [e3, shows_append, shows, h.sh]
  · simp [e3, dispatches_append, dispatches, h.ds]

theorem main_phase {intent : E → Option A} {c : Cfg A Mo} (hc : Simple c) {s : List E} {m : ManQ A Mo}
    (h : Main intent c s m) : ∃ n, n ≤ 7 ∧ Phase c (s.filterMap intent) n m := by
  have step1 : ∀ {as : List A} {n : Nat} {m m' : ManQ A Mo}, n ≤ 7 → Phase c as n m →
      (ManQ.step c m .go = some m' ∨ ManQ.step c m .ret = some m') → ∃ n, n ≤ 7 ∧ Phase c as n m' := by
    intro as n m m' hn hp hs
    cases n with
    | zero =>
      obtain ⟨h1, h2⟩ := phase_stops hp
      rcases hs with hs | hs
      · rw [h1] at hs; cases hs
      · rw [h2] at hs; cases hs
    | succ n =>
      obtain ⟨m1, h1, h2⟩ := phase_step hc hp
      have : m1 = m' := by
        rcases h2 with ⟨h2, h3⟩ | ⟨h2, h3⟩ <;> rcases hs with hs | hs <;> simp_all
      exact ⟨n, by omega, this ▸ h1⟩
  induction h with
  | start =>
    refine ⟨0, by omega, rfl, rfl, rfl, rfl, fun _ => ⟨rfl, rfl⟩, nofun, ⟨[], rfl, rfl⟩, rfl, rfl, rfl, rfl, rfl, rfl, rfl, rfl⟩
  | skip e h hi he ih =>
    obtain ⟨n, hn, hp⟩ := ih
    exact ⟨n, hn, by simpa [he] using hp⟩
  | event e a h hi he hs ih =>
    obtain ⟨n, hn, hp⟩ := ih
    obtain rfl := (phase_idle hp).1 hi
    obtain ⟨m1, h1, h2⟩ := phase_dispatch hc hp a
    rw [h2] at hs
    cases hs
    exact ⟨7, by omega, by simpa [he] using h1⟩
  | go h hs ih =>
    obtain ⟨n, hn, hp⟩ := ih
    exact step1 hn hp (.inl hs)
  | ret h hs ih =>
    obtain ⟨n, hn, hp⟩ := ih
    exact step1 hn hp (.inr hs)

theorem draws_moves {c : Cfg A Mo} (hc : c.sound) (v : Mo) (as : List A) :
    draws v ((moves c v as).map Prod.snd) = moves c v as := by
  induction as generalizing v with
  | nil => rfl
  | cons a as ih =>
    simp only [moves]
    split
    · simp only [List.map_cons, draws, ih]
    · next h =>
      have := hc _ _ (by simpa using h : c.changed (c.reducer v a).1 v = false)
      rw [this, ih]

/-! ### Properties -/

/-- C131: whenever the program waits for the next event, all events so far have been evaluated, one after the other; the
watcher has been called with the new model for each that changed it, in order, and for no other. -/
theorem C131_session {intent : E → Option A} {c : Cfg A Mo} (hc : Simple c) {s : List E} {m : ManQ A Mo}
    (h : Main intent c s m) (hi : m.l.ctl = .idle) :
    m.p.st.get = result c c.init (s.filterMap intent) ∧
    shows m.p.st.log = (moves c c.init (s.filterMap intent)).map Prod.snd ∧
    dispatches m.p.st.log = s.filterMap intent := by
  obtain ⟨n, -, hp⟩ := main_phase hc h
  obtain rfl := (phase_idle hp).1 hi
  exact ⟨hp.last, hp.sh, hp.ds⟩

/-- C131: a view that remembers the model that it was called with last, beginning with the one when it was attached, gets the
models before and after each change. -/
theorem C131_previous {intent : E → Option A} {c : Cfg A Mo} (hc : Simple c) {s : List E} {m : ManQ A Mo}
    (h : Main intent c s m) (hi : m.l.ctl = .idle) :
    draws (ManQ.start c).p.st.get (shows m.p.st.log) = moves c c.init (s.filterMap intent) := by
  rw [(C131_session hc h hi).2.1]
  exact draws_moves hc.sound _ _

/-- The steps of `dispatch`. -/
def Inner (op : MOp A) : Prop := op = .go ∨ op = .ret

/-- C131: the program is never stuck, and never waits for long: from wherever it is, it reads the next event after at most
seven more steps, and there is no other way that it could go on. -/
theorem C131_returns {intent : E → Option A} {c : Cfg A Mo} (hc : Simple c) {s : List E} {m : ManQ A Mo}
    (h : Main intent c s m) :
    ∃ n, n ≤ 7 ∧ (∃ ops m', (∀ op ∈ ops, Inner op) ∧ ManQ.exec c m ops = some m' ∧ m'.l.ctl = .idle) ∧
      ∀ ops m', (∀ op ∈ ops, Inner op) → ManQ.exec c m ops = some m' →
        ops.length ≤ n ∧ (m'.l.ctl = .idle ↔ ops.length = n) := by
  obtain ⟨n, hn, hp⟩ := main_phase hc h
  clear h
  refine ⟨n, hn, ?_, ?_⟩
  · clear hn
    induction n generalizing m with
    | zero => exact ⟨[], m, nofun, rfl, (phase_idle hp).2 rfl⟩
    | succ n ih =>
      obtain ⟨m1, h1, h2⟩ := phase_step hc hp
      obtain ⟨ops, m', k1, k2, k3⟩ := ih h1
      rcases h2 with ⟨h2, -⟩ | ⟨-, h2⟩
      · exact ⟨.go :: ops, m', List.forall_mem_cons.2 ⟨.inl rfl, k1⟩, by simp [ManQ.exec, h2, k2], k3⟩
      · exact ⟨.ret :: ops, m', List.forall_mem_cons.2 ⟨.inr rfl, k1⟩, by simp [ManQ.exec, h2, k2], k3⟩
  · clear hn
    intro ops m' ho hx
    induction ops generalizing m n with
    | nil =>
      cases hx
      refine ⟨Nat.zero_le _, ?_⟩
      rw [phase_idle hp]
      exact ⟨fun h => by simp [h], fun h => by simpa using h.symm⟩
    | cons op ops ih =>
      simp only [ManQ.exec, Option.bind_eq_some_iff] at hx
      obtain ⟨m1, hs, hx⟩ := hx
      obtain ⟨ho1, ho2⟩ := List.forall_mem_cons.1 ho
      cases n with
      | zero =>
        obtain ⟨h1, h2⟩ := phase_stops hp
        rcases ho1 with rfl | rfl
        · rw [h1] at hs; cases hs
        · rw [h2] at hs; cases hs
      | succ n =>
        obtain ⟨m2, h1, h2⟩ := phase_step hc hp
        have : m2 = m1 := by
          rcases h2 with ⟨h2, h3⟩ | ⟨h2, h3⟩ <;> rcases ho1 with rfl | rfl <;> simp_all
        subst this
        obtain ⟨k1, k2⟩ := ih (n := n) h1 ho2 hx
        exact ⟨by simp; omega, by rw [k2]; simp⟩

theorem main_exec {intent : E → Option A} {c : Cfg A Mo} {s : List E} {m m' : ManQ A Mo} {ops : List (MOp A)}
    (h : Main intent c s m) (ho : ∀ op ∈ ops, Inner op) (hx : ManQ.exec c m ops = some m') : Main intent c s m' := by
  induction ops generalizing m with
  | nil => cases hx; exact h
  | cons op ops ih =>
    simp only [ManQ.exec, Option.bind_eq_some_iff] at hx
    obtain ⟨m1, hs, hx⟩ := hx
    obtain ⟨ho1, ho2⟩ := List.forall_mem_cons.1 ho
    rcases ho1 with rfl | rfl
    · exact ih (h.go hs) ho2 hx
    · exact ih (h.ret hs) ho2 hx

/-- C131: whatever is typed, the program gets through with it. -/
theorem C131_reads (intent : E → Option A) {c : Cfg A Mo} (hc : Simple c) (s : List E) :
    ∃ m, Main intent c s m ∧ m.l.ctl = .idle := by
  suffices h : ∀ t : List E, ∃ m, Main intent c t.reverse m ∧ m.l.ctl = .idle by
    simpa using h s.reverse
  intro t
  induction t with
  | nil => exact ⟨_, .start, rfl⟩
  | cons e t ih =>
    rw [List.reverse_cons]
    obtain ⟨m, h, hi⟩ := ih
    cases he : intent e with
    | none => exact ⟨m, .skip e h hi he, hi⟩
    | some a =>
      obtain ⟨n, -, hp⟩ := main_phase hc h
      obtain rfl := (phase_idle hp).1 hi
      obtain ⟨m1, -, h2⟩ := phase_dispatch hc hp a
      have hm := Main.event e a h hi he h2
      obtain ⟨n, -, ⟨ops, m', k1, k2, k3⟩, -⟩ := C131_returns hc hm
      exact ⟨m', main_exec hm k1 k2, k3⟩

theorem counter_simple (eq : Bool) : Simple (counterStore eq) where
  sound v w h := by
    simp only [counterStore, Bool.or_eq_false_iff, decide_eq_false_iff_not, Decidable.not_not] at h
    exact h.2
  effects _ _ := rfl
  throws _ _ := rfl
  trans := rfl
  hasF := rfl

/-- Specification: what is printed.  Without `==`, a reset is printed even if the counter is zero. -/
def printed (eq : Bool) (v : Int) : List Char → List Int
  | [] => []
  | '+' :: s => (v + 1) :: printed eq (v + 1) s
  | '-' :: s => (v - 1) :: printed eq (v - 1) s
  | '.' :: s => (if eq = true ∧ v = 0 then [] else [0]) ++ printed eq 0 s
  | _ :: s => printed eq v s

theorem moves_printed (eq : Bool) (v : Int) (s : List Char) {w : Int} (h : Counter.run v (s.filterMap key) = some w) :
    (moves (counterStore eq) (some v) (s.filterMap key)).map Prod.snd = (printed eq v s).map some := by
  have fits : ∀ {n x : Int}, Counter.toInt n = some x → x = n := by
    intro n x h
    unfold Counter.toInt at h
    split at h
    · exact (Option.some.inj h).symm
    · cases h
  induction s generalizing v with
  | nil => rfl
  | cons ch s ih =>
    unfold printed
    split
    · rename_i heq; cases heq
    · rename_i s' heq
      cases heq
      simp only [key, List.filterMap_cons, Counter.run, Counter.update, Option.bind_eq_some_iff] at h
      obtain ⟨x, h1, h2⟩ := h
      have := fits h1
      subst this
      simp only [key, List.filterMap_cons, moves, counterStore, Option.bind_some, Counter.update, h1, List.map_cons]
      rw [if_pos (by simp; omega)]
      simp only [List.map_cons, List.cons.injEq, true_and]
      exact ih _ h2
    · rename_i s' heq
      cases heq
      simp only [key, List.filterMap_cons, Counter.run, Counter.update, Option.bind_eq_some_iff] at h
      obtain ⟨x, h1, h2⟩ := h
      have := fits h1
      subst this
      simp only [key, List.filterMap_cons, moves, counterStore, Option.bind_some, Counter.update, h1, List.map_cons]
      rw [if_pos (by simp; omega)]
      simp only [List.map_cons, List.cons.injEq, true_and]
      exact ih _ h2
    · rename_i s' heq
      cases heq
      simp only [key, List.filterMap_cons, Counter.run, Counter.update, Option.bind_some] at h
      have := ih 0 h
      simp only [key, List.filterMap_cons, moves, counterStore, Option.bind_some, Counter.update]
      by_cases hv : eq = true ∧ v = 0
      · obtain ⟨rfl, rfl⟩ := hv
        rw [if_neg (by simp), if_pos ⟨rfl, rfl⟩]
        exact this
      · rw [if_neg hv, if_pos]
        · simp only [List.map_cons, List.cons_append, List.nil_append, List.cons.injEq, true_and]
          exact this
        · cases eq with
          | false => rfl
          | true =>
            simp only [true_and] at hv
            simp only [Bool.not_true, Bool.false_or, decide_eq_true_eq, ne_eq, Option.some.injEq]
            omega
    · rename_i s' n1 n2 n3 heq
      cases heq
      have hk : key ch = none := by
        unfold key
        split
        · exact (n1 rfl).elim
        · exact (n2 rfl).elim
        · exact (n3 rfl).elim
        · rfl
      simp only [List.filterMap_cons, hk] at h ⊢
      exact ih v h

/-- C131: the counter prints its value for each `+` and `-`, and for each `.` unless it is zero, and nothing else, as long as it
does not overflow; without `==` for every `.`. -/
theorem C131_counter (eq : Bool) {s : List Char} {m : ManQ Counter.Act (Option Int)} (h : Main key (counterStore eq) s m)
    (hi : m.l.ctl = .idle) {w : Int} (hw : Counter.run 0 (s.filterMap key) = some w) :
    shows m.p.st.log = (printed eq 0 s).map some ∧ m.p.st.get = some w := by
  obtain ⟨h1, h2, -⟩ := C131_session (counter_simple eq) h hi
  refine ⟨h2.trans (moves_printed eq 0 s hw), h1.trans ?_⟩
  have : ∀ (as : List Counter.Act) (v : Int), Counter.run v as = some w → result (counterStore eq) (some v) as = some w := by
    intro as
    induction as with
    | nil => intro v h; exact h
    | cons a as ih =>
      intro v h
      simp only [Counter.run, Option.bind_eq_some_iff] at h
      obtain ⟨x, h3, h4⟩ := h
      simp only [result, List.foldl_cons, counterStore, Option.bind_some, h3]
      exact ih x h4
  exact this _ _ hw

/-- The session of the documentation, without its first line. -/
example : ∃ m, Main key (counterStore true) "+++-.".toList m ∧ m.l.ctl = .idle ∧
    shows m.p.st.log = [some 1, some 2, some 3, some 2, some 0] := by
  obtain ⟨m, h, hi⟩ := C131_reads key (counter_simple true) "+++-.".toList
  refine ⟨m, h, hi, ?_⟩
  rw [(C131_counter true h hi (w := 0) (by decide +kernel)).1]
  decide +kernel

/-- C131: the session of the documentation begins with the line for zero; but nothing is printed before the first change. -/
theorem C131_first_line_false : ¬ ∃ s m, Main key (counterStore true) s m ∧ m.l.ctl = .idle ∧ s = "+++-.".toList ∧
    shows m.p.st.log = [some 0, some 1, some 2, some 3, some 2, some 0] := by
  rintro ⟨s, m, h, hi, rfl, hs⟩
  rw [(C131_counter true h hi (w := 0) (by decide +kernel)).1] at hs
  revert hs
  decide +kernel

/-- C131: and if the model has no `==`, as in the documentation, it is also printed when it has not changed. -/
theorem C131_unchanged_false : ∃ s m, Main key (counterStore false) s m ∧ m.l.ctl = .idle ∧ s = "..".toList ∧
    shows m.p.st.log = [some 0, some 0] := by
  obtain ⟨m, h, hi⟩ := C131_reads key (counter_simple false) "..".toList
  refine ⟨_, m, h, hi, rfl, ?_⟩
  rw [(C131_counter false h hi (w := 0) (by decide +kernel)).1]
  decide +kernel

end Verif.Doc
