import Verif.Store.Spec

/-! Invariants about models, actions and effects. -/

namespace Verif.Store

variable {A Mo : Type}

/-- The actions in the queue. -/
def pend : List (Item A) → List (Nat × A)
  | [] => []
  | .reduce d a _ :: q => (d, a) :: pend q
  | _ :: q => pend q

/-- The dispatches in a record. -/
def disp : List (SEv A Mo) → List (Nat × A)
  | [] => []
  | .dispatched d a :: l => (d, a) :: disp l
  | _ :: l => disp l

/-- The actions that the reducer was called with in a record. -/
def red : List (SEv A Mo) → List (Nat × A)
  | [] => []
  | .reduced d _ a _ _ :: l => (d, a) :: red l
  | .reduceThrew d _ a :: l => (d, a) :: red l
  | _ :: l => red l

/-- Reductions with effects. -/
def redEff (d : Nat) : List (SEv A Mo) → Nat
  | [] => 0
  | .reduced d' _ _ _ e :: l => (if d' = d ∧ e.isEmpty = false then 1 else 0) + redEff d l
  | _ :: l => redEff d l

/-- Effects that were not called because a watcher has thrown. -/
def lostEff (d : Nat) : List (SEv A Mo) → Nat
  | [] => 0
  | .lost d' (some _) :: l => (if d' = d then 1 else 0) + lostEff d l
  | _ :: l => lostEff d l

/-- How many tasks with an effect dispatch `d` has in the queue. -/
def qEff (d : Nat) : List (Item A) → Nat
  | [] => 0
  | .effect d' _ _ :: q => (if d' = d then 1 else 0) + qEff d q
  | _ :: q => qEff d q

theorem pend_append (q r : List (Item A)) : pend (q ++ r) = pend q ++ pend r := by
  induction q with
  | nil => rfl
  | cons x q ih => cases x <;> simp [pend, ih]

theorem pend_toks (n : Nat) : pend (List.replicate n (Item.tok : Item A)) = [] := by
  induction n with
  | zero => rfl
  | succ n ih => simp [List.replicate_succ, pend, ih]

theorem qEff_append (d : Nat) (q r : List (Item A)) : qEff d (q ++ r) = qEff d q + qEff d r := by
  induction q with
  | nil => simp [qEff]
  | cons x q ih => cases x <;> simp [qEff, ih]; omega

theorem qEff_toks (d n : Nat) : qEff d (List.replicate n (Item.tok : Item A)) = 0 := by
  induction n with
  | zero => rfl
  | succ n ih => simp [List.replicate_succ, qEff, ih]

theorem disp_append (l r : List (SEv A Mo)) : disp (l ++ r) = disp l ++ disp r := by
  induction l with
  | nil => rfl
  | cons x l ih => cases x <;> simp [disp, ih]

theorem red_append (l r : List (SEv A Mo)) : red (l ++ r) = red l ++ red r := by
  induction l with
  | nil => rfl
  | cons x l ih => cases x <;> simp [red, ih]

theorem redEff_append (d : Nat) (l r : List (SEv A Mo)) : redEff d (l ++ r) = redEff d l + redEff d r := by
  induction l with
  | nil => simp [redEff]
  | cons x l ih => cases x <;> simp [redEff, ih]; omega

theorem lostEff_append (d : Nat) (l r : List (SEv A Mo)) :
    lostEff d (l ++ r) = lostEff d l + lostEff d r := by
  induction l with
  | nil => simp [lostEff]
  | cons x l ih =>
    cases x with
    | lost d' e => cases e <;> simp [lostEff, ih]; omega
    | _ => simp [lostEff, ih]

theorem effRuns_append (d : Nat) (l r : List (SEv A Mo)) :
    effRuns d (l ++ r) = effRuns d l + effRuns d r := by
  induction l with
  | nil => simp [effRuns]
  | cons x l ih => cases x <;> simp [effRuns, ih]; omega

theorem lastShown_append (v : Mo) (l r : List (SEv A Mo)) :
    lastShown v (l ++ r) = lastShown (lastShown v l) r := by
  induction l generalizing v with
  | nil => rfl
  | cons x l ih => cases x <;> simp [lastShown, ih]

theorem shows_append (l r : List (SEv A Mo)) : shows (l ++ r) = shows l ++ shows r := by
  induction l with
  | nil => rfl
  | cons x l ih => cases x <;> simp [shows, ih]

theorem dispatches_disp (l : List (SEv A Mo)) : dispatches l = (disp l).map (·.2) := by
  induction l with
  | nil => rfl
  | cons x l ih => cases x <;> simp [dispatches, disp, ih]

theorem reductions_red (l : List (SEv A Mo)) : reductions l = (red l).map (·.2) := by
  induction l with
  | nil => rfl
  | cons x l ih => cases x <;> simp [reductions, red, ih]

theorem reductions_append (l r : List (SEv A Mo)) : reductions (l ++ r) = reductions l ++ reductions r := by
  simp [reductions_red, red_append]

theorem fold_append (c : Cfg A Mo) (as bs : List A) :
    fold c (as ++ bs) = bs.foldl c.next (fold c as) := by
  unfold fold; rw [List.foldl_append]

/-- Does the task publish the model? -/
def Item.pubs : Item A → Bool
  | .effect _ _ _ => true
  | .publish _ _ => true
  | _ => false

/-- A new event is as it should be. -/
def EvOK (c : Cfg A Mo) (l : List (SEv A Mo)) : SEv A Mo → Prop
  | .shown v => v = fold c (reductions l)
  | .reduced _ m a m' e => m = fold c (reductions l) ∧ (m', e) = c.reducer m a ∧ c.throws m a = false
  | .reduceThrew _ m a => m = fold c (reductions l) ∧ c.throws m a = true
  | .effStart d _ e => (∃ m a m', SEv.reduced d m a m' e ∈ l) ∧
      (c.trans = false → lastShown c.init l = fold c (reductions l))
  | .lost _ _ => c.trans = false ∧ lastShown c.init l = fold c (reductions l)
  | .ready _ => c.trans = false → lastShown c.init l = fold c (reductions l)
  | _ => True

/-- All events are. -/
def LogOK (c : Cfg A Mo) (l : List (SEv A Mo)) : Prop :=
  ∀ l1 e l2, l = l1 ++ e :: l2 → EvOK c l1 e

theorem LogOK.snoc {c : Cfg A Mo} {l : List (SEv A Mo)} {e : SEv A Mo} (h : LogOK c l)
    (he : EvOK c l e) : LogOK c (l ++ [e]) := by
  intro l1 x l2 hx
  rcases List.eq_nil_or_concat l2 with rfl | ⟨l3, y, rfl⟩
  · have := List.append_inj' hx rfl
    obtain ⟨rfl, h2⟩ := this
    cases h2
    exact he
  · refine h l1 x l3 ?_
    have h' : l ++ [e] = (l1 ++ x :: l3) ++ [y] := by rw [hx]; simp
    exact (List.append_inj' h' rfl).1

/-- Of the proof: the invariant. -/
structure Core (c : Cfg A Mo) (st : St A Mo) : Prop where
  order : disp st.log = red st.log ++ pend st.queue
  nums : (disp st.log).map (·.1) = List.range st.sent.length
  cur : st.cur = fold c (reductions st.log)
  ntf : st.ntf = false
  clean : st.dirty = false → st.last = st.cur
  seen : lastShown c.init st.log = st.last
  wake : c.trans = false → st.dirty = true → ∃ i ∈ st.queue, i.pubs = true
  log : LogOK c st.log
  effs : ∀ d, redEff d st.log = qEff d st.queue + effRuns d st.log + lostEff d st.log
  qeff : ∀ d e i, Item.effect d e i ∈ st.queue → ∃ m a m', SEv.reduced d m a m' e ∈ st.log

/-- Only futures change, and marks are added to the queue. -/
structure Toks (st s1 : St A Mo) : Prop where
  cur : s1.cur = st.cur
  last : s1.last = st.last
  dirty : s1.dirty = st.dirty
  ntf : s1.ntf = st.ntf
  log : s1.log = st.log
  sent : s1.sent = st.sent
  queue : ∃ n, s1.queue = st.queue ++ List.replicate n .tok

theorem Toks.refl (st : St A Mo) : Toks st st := ⟨rfl, rfl, rfl, rfl, rfl, rfl, 0, by simp⟩

theorem Toks.trans {a b d : St A Mo} (h : Toks a b) (k : Toks b d) : Toks a d := by
  obtain ⟨n, hn⟩ := h.queue
  obtain ⟨o, ho⟩ := k.queue
  refine ⟨k.cur.trans h.cur, k.last.trans h.last, k.dirty.trans h.dirty, k.ntf.trans h.ntf,
    k.log.trans h.log, k.sent.trans h.sent, n + o, ?_⟩
  rw [ho, hn, List.append_assoc, List.replicate_append_replicate]

theorem fstep_toks {st s1 : St A Mo} {op : Future.Op} (h : st.fstep op = some s1) : Toks st s1 := by
  simp only [St.fstep, Option.map_eq_some_iff] at h
  obtain ⟨fu, _, rfl⟩ := h
  exact ⟨rfl, rfl, rfl, rfl, rfl, rfl, _, rfl⟩

theorem complete_toks {c : Cfg A Mo} {st s1 : St A Mo} {i : Nat} (h : st.complete c i = some s1) :
    Toks st s1 := by
  unfold St.complete at h
  split at h
  · exact fstep_toks h
  · cases h; exact Toks.refl _

theorem runTask_toks {st s1 : St A Mo} {l : Nat} (h : st.runTask l = some s1) : Toks st s1 := by
  unfold St.runTask at h
  split at h
  · cases h
  · simp only [Option.map_eq_some_iff] at h
    obtain ⟨s2, h2, rfl⟩ := h
    have k := fstep_toks h2
    split
    · exact k
    · exact ⟨k.cur, k.last, k.dirty, k.ntf, k.log, k.sent, k.queue⟩

theorem Core.toks {c : Cfg A Mo} {st s1 : St A Mo} (k : Core c st) (h : Toks st s1) : Core c s1 := by
  obtain ⟨n, hn⟩ := h.queue
  constructor
  · rw [h.log, hn, pend_append, pend_toks, List.append_nil]; exact k.order
  · rw [h.log, h.sent]; exact k.nums
  · rw [h.cur, h.log]; exact k.cur
  · rw [h.ntf]; exact k.ntf
  · rw [h.dirty, h.last, h.cur]; exact k.clean
  · rw [h.log, h.last]; exact k.seen
  · intro h1 h2
    rw [h.dirty] at h2
    obtain ⟨i, hi, hp⟩ := k.wake h1 h2
    exact ⟨i, by rw [hn]; exact List.mem_append_left _ hi, hp⟩
  · rw [h.log]; exact k.log
  · intro d
    rw [h.log, hn, qEff_append, qEff_toks]
    exact k.effs d
  · intro d e i hi
    rw [hn, List.mem_append] at hi
    rcases hi with hi | hi
    · rw [h.log]; exact k.qeff d e i hi
    · rw [List.mem_replicate] at hi; cases hi.2

/-- An event that is not about models, actions or effects. -/
def SEv.minor : SEv A Mo → Bool
  | .effEnd _ _ => true
  | .prim _ _ _ => true
  | .primRet _ _ _ => true
  | .primThrew _ _ => true
  | _ => false

theorem Core.minor {c : Cfg A Mo} {st : St A Mo} (k : Core c st) {e : SEv A Mo} (he : e.minor = true) :
    Core c (st.say e) := by
  have hr : red (st.say e).log = red st.log := by
    simp only [St.say, red_append]
    cases e <;> simp_all [SEv.minor, red]
  have hred : reductions (st.say e).log = reductions st.log := by rw [reductions_red, reductions_red, hr]
  have hd : disp (st.say e).log = disp st.log := by
    simp only [St.say, disp_append]
    cases e <;> simp_all [SEv.minor, disp]
  have hs : lastShown c.init (st.say e).log = lastShown c.init st.log := by
    simp only [St.say, lastShown_append]
    cases e <;> simp_all [SEv.minor, lastShown]
  have h1 : ∀ d, redEff d (st.say e).log = redEff d st.log := by
    intro d
    simp only [St.say, redEff_append]
    cases e <;> simp_all [SEv.minor, redEff]
  have h2 : ∀ d, effRuns d (st.say e).log = effRuns d st.log := by
    intro d
    simp only [St.say, effRuns_append]
    cases e <;> simp_all [SEv.minor, effRuns]
  have h3 : ∀ d, lostEff d (st.say e).log = lostEff d st.log := by
    intro d
    simp only [St.say, lostEff_append]
    cases e <;> simp_all [SEv.minor, lostEff]
  constructor
  · rw [hd, hr]; exact k.order
  · rw [hd]; exact k.nums
  · rw [hred]; exact k.cur
  · exact k.ntf
  · exact k.clean
  · rw [hs]; exact k.seen
  · exact k.wake
  · refine k.log.snoc ?_
    cases e <;> first | trivial | cases he
  · intro d; rw [h1, h2, h3]; exact k.effs d
  · intro d e' i hi
    obtain ⟨m, a, m', h⟩ := k.qeff d e' i hi
    exact ⟨m, a, m', List.mem_append_left _ h⟩

/-- Fields that do not matter. -/
theorem Core.of_eq {c : Cfg A Mo} {st s1 : St A Mo} (k : Core c st) (h1 : s1.cur = st.cur)
    (h2 : s1.last = st.last) (h3 : s1.dirty = st.dirty) (h4 : s1.ntf = st.ntf) (h5 : s1.log = st.log)
    (h6 : s1.sent = st.sent) (h7 : s1.queue = st.queue) : Core c s1 :=
  k.toks ⟨h1, h2, h3, h4, h5, h6, 0, by simp [h7]⟩

/-- `send_down` and `notify`. -/
theorem core_send {c : Cfg A Mo} {st : St A Mo} (k : Core c st) : Core c st.sendDown.notify ∧
    st.sendDown.notify.last = st.cur ∧ st.sendDown.notify.dirty = false ∧
    st.sendDown.notify.cur = st.cur ∧ st.sendDown.notify.queue = st.queue ∧
    st.sendDown.notify.sent = st.sent ∧ st.sendDown.notify.nx = st.nx ∧
    st.sendDown.notify.ev = st.ev ∧ st.sendDown.notify.fu = st.fu ∧
    red st.sendDown.notify.log = red st.log ∧
    (∀ e, e ∈ st.log → e ∈ st.sendDown.notify.log) := by
  cases hd : st.dirty with
  | false =>
    have e1 : st.sendDown = st := by unfold St.sendDown; simp [hd]
    have e2 : st.notify = st := by unfold St.notify; simp [k.ntf]
    rw [e1, e2]
    exact ⟨k, k.clean hd, hd, rfl, rfl, rfl, rfl, rfl, rfl, rfl, fun _ h => h⟩
  | true =>
    have e1 : st.sendDown.notify =
        { st with last := st.cur, dirty := false, ntf := false, log := st.log ++ [.shown st.cur] } := by
      unfold St.sendDown St.notify; simp [hd]
    rw [e1]
    have hr : red (st.log ++ [.shown st.cur]) = red st.log := by simp [red_append, red]
    have hdis : disp (st.log ++ [.shown st.cur]) = disp st.log := by simp [disp_append, disp]
    refine ⟨?_, rfl, rfl, rfl, rfl, rfl, rfl, rfl, rfl, hr, fun e h => List.mem_append_left _ h⟩
    constructor
    · show disp (st.log ++ _) = red (st.log ++ _) ++ _
      rw [hdis, hr]; exact k.order
    · show (disp (st.log ++ _)).map _ = _
      rw [hdis]; exact k.nums
    · show st.cur = fold c (reductions (st.log ++ _))
      rw [reductions_red, hr, ← reductions_red]; exact k.cur
    · rfl
    · intro _; rfl
    · show lastShown c.init (st.log ++ _) = st.cur
      rw [lastShown_append]; rfl
    · intro _ h; cases h
    · exact k.log.snoc k.cur
    · intro d
      show redEff d (st.log ++ _) = _ + effRuns d (st.log ++ _) + lostEff d (st.log ++ _)
      rw [redEff_append, effRuns_append, lostEff_append]
      simp [redEff, effRuns, lostEff]
      exact k.effs d
    · intro d e i hi
      obtain ⟨m, a, m', h⟩ := k.qeff d e i hi
      exact ⟨m, a, m', List.mem_append_left _ h⟩

/-- Popping a task that is not an action. -/
theorem Core.drop {c : Cfg A Mo} {st : St A Mo} (k : Core c st) {i : Item A} {q : List (Item A)}
    (hq : st.queue = i :: q) (hp : i.pubs = false) (hr : ∀ d a j, i ≠ .reduce d a j) :
    Core c { st with queue := q } := by
  have hpend : pend st.queue = pend q := by
    rw [hq]; cases i <;> first | rfl | exact absurd rfl (hr _ _ _)
  have heff : ∀ d, qEff d st.queue = qEff d q := by
    intro d
    rw [hq]; cases i <;> first | rfl | cases hp
  constructor
  · show _ = _ ++ pend q; rw [← hpend]; exact k.order
  · exact k.nums
  · exact k.cur
  · exact k.ntf
  · exact k.clean
  · exact k.seen
  · intro h1 h2
    obtain ⟨x, hx, hxp⟩ := k.wake h1 h2
    rw [hq] at hx
    rcases List.mem_cons.1 hx with rfl | hx
    · rw [hp] at hxp; cases hxp
    · exact ⟨x, hx, hxp⟩
  · exact k.log
  · intro d; show _ = qEff d q + _ + _; rw [← heff d]; exact k.effs d
  · intro d e j hj
    exact k.qeff d e j (by rw [hq]; exact List.mem_cons_of_mem _ hj)

/-- An action is reduced: `r` is what is added to the queue. -/
theorem core_reduce {c : Cfg A Mo} (hc : c.sound) {st : St A Mo} (k : Core c st) {d i : Nat} {a : A}
    {q : List (Item A)} (hq : st.queue = .reduce d a i :: q) (hth : c.throws st.cur a = false) {s1 : St A Mo}
    (h1 : s1.cur = st.cur) (h2 : s1.last = st.last) (h3 : s1.dirty = st.dirty) (h4 : s1.ntf = st.ntf)
    (h5 : s1.log = st.log) (h6 : s1.sent = st.sent) {r : List (Item A)} (h7 : s1.queue = q ++ r)
    (hr : pend r = []) (he : ∀ d', qEff d' r = if d = d' ∧ (c.reducer st.cur a).2.isEmpty = false then 1 else 0)
    (hw : c.trans = false → ∃ x ∈ r, x.pubs = true)
    (hre : ∀ d' e' j, Item.effect d' e' j ∈ r → d' = d ∧ e' = (c.reducer st.cur a).2) :
    Core c ((s1.pushDown c (c.reducer st.cur a).1).say
      (.reduced d st.cur a (c.reducer st.cur a).1 (c.reducer st.cur a).2)) := by
  have hpd : ∀ x : St A Mo, x = s1.pushDown c (c.reducer st.cur a).1 →
      x.cur = (c.reducer st.cur a).1 ∧ x.last = st.last ∧ x.ntf = st.ntf ∧ x.log = st.log ∧
      x.sent = st.sent ∧ x.queue = q ++ r ∧ (x.dirty = false → st.dirty = false ∧ x.cur = st.cur) := by
    intro x hx
    subst hx
    unfold St.pushDown
    split
    · exact ⟨rfl, h2, h4, h5, h6, h7, fun h => by cases h⟩
    · rename_i hch
      have := hc _ _ (by simpa using hch)
      exact ⟨this.symm, h2, h4, h5, h6, h7, fun h => ⟨by rw [← h3]; exact h, h1⟩⟩
  generalize s1.pushDown c (c.reducer st.cur a).1 = x at hpd ⊢
  obtain ⟨e1, e2, e3, e4, e5, e6, e7⟩ := hpd x rfl
  have hlog : (x.say (.reduced d st.cur a (c.reducer st.cur a).1 (c.reducer st.cur a).2)).log =
      st.log ++ [.reduced d st.cur a (c.reducer st.cur a).1 (c.reducer st.cur a).2] := by
    simp [St.say, e4]
  constructor
  · rw [hlog, disp_append, red_append]
    show _ = _ ++ pend x.queue
    rw [e6, pend_append, hr]
    have := k.order
    rw [hq] at this
    simp [disp, red, pend] at this ⊢
    exact this
  · rw [hlog, disp_append]
    show _ = List.range x.sent.length
    rw [e5]
    simp [disp]
    exact k.nums
  · rw [hlog, reductions_append, fold_append]
    show x.cur = _
    rw [e1, ← k.cur]
    simp [reductions, Cfg.next, hth]
  · show x.ntf = false; rw [e3]; exact k.ntf
  · intro h
    show x.last = x.cur
    obtain ⟨h8, h9⟩ := e7 h
    rw [e2, h9]
    exact k.clean h8
  · rw [hlog, lastShown_append]
    show _ = x.last
    rw [e2]
    exact k.seen
  · intro ht _
    obtain ⟨y, hy, hp⟩ := hw ht
    exact ⟨y, by show y ∈ x.queue; rw [e6]; exact List.mem_append_right _ hy, hp⟩
  · rw [hlog]
    exact k.log.snoc ⟨k.cur, rfl, hth⟩
  · intro d'
    rw [hlog, redEff_append, effRuns_append, lostEff_append]
    show _ = qEff d' x.queue + _ + _
    rw [e6, qEff_append, he]
    have := k.effs d'
    rw [hq] at this
    simp [redEff, effRuns, lostEff, qEff] at this ⊢
    omega
  · intro d' e' j hj
    rw [hlog]
    have hj : Item.effect d' e' j ∈ x.queue := hj
    rw [e6, List.mem_append] at hj
    rcases hj with hj | hj
    · obtain ⟨m, a', m', h⟩ := k.qeff d' e' j (by rw [hq]; exact List.mem_cons_of_mem _ hj)
      exact ⟨m, a', m', List.mem_append_left _ h⟩
    · obtain ⟨rfl, rfl⟩ := hre d' e' j hj
      exact ⟨_, _, _, List.mem_append_right _ (List.mem_singleton.2 rfl)⟩

/-- The reducer throws. -/
theorem core_threw {c : Cfg A Mo} {st : St A Mo} (k : Core c st) {d i : Nat} {a : A}
    {q : List (Item A)} (hq : st.queue = .reduce d a i :: q) (hth : c.throws st.cur a = true) :
    Core c ({ st with queue := q }.say (.reduceThrew d st.cur a)) := by
  constructor
  · show disp (st.log ++ [_]) = red (st.log ++ [_]) ++ pend q
    have := k.order
    rw [hq] at this
    simpa [disp, red, pend, disp_append, red_append] using this
  · show (disp (st.log ++ [_])).map _ = _
    rw [disp_append]
    simp [disp]
    exact k.nums
  · show st.cur = fold c (reductions (st.log ++ [_]))
    rw [reductions_append, fold_append, ← k.cur]
    simp [reductions, Cfg.next, hth]
  · exact k.ntf
  · exact k.clean
  · show lastShown c.init (st.log ++ [_]) = _
    rw [lastShown_append]
    exact k.seen
  · intro h1 h2
    obtain ⟨x, hx, hp⟩ := k.wake h1 h2
    rw [hq] at hx
    rcases List.mem_cons.1 hx with rfl | hx
    · cases hp
    · exact ⟨x, hx, hp⟩
  · exact k.log.snoc ⟨k.cur, hth⟩
  · intro d'
    show redEff d' (st.log ++ [_]) = qEff d' q + effRuns d' (st.log ++ [_]) + lostEff d' (st.log ++ [_])
    have := k.effs d'
    rw [hq] at this
    simpa [redEff_append, effRuns_append, lostEff_append, redEff, effRuns, lostEff, qEff] using this
  · intro d' e j hj
    obtain ⟨m, a', m', h⟩ := k.qeff d' e j (by rw [hq]; exact List.mem_cons_of_mem _ hj)
    exact ⟨m, a', m', List.mem_append_left _ h⟩

theorem core_dispatch {c : Cfg A Mo} {st st' : St A Mo} (k : Core c st) {a : A}
    (h : st.dispatch c a = some st') : Core c st' := by
  simp only [St.dispatch, Option.map_eq_some_iff] at h
  obtain ⟨s1, h1, rfl⟩ := h
  have ht := fstep_toks h1
  have k1 := k.toks ht
  have hlog : s1.log = st.log := ht.log
  constructor
  · show disp (s1.log ++ [_]) = red (s1.log ++ [_]) ++ pend (s1.queue ++ [_])
    rw [disp_append, red_append, pend_append, k1.order]
    simp [disp, red, pend]
  · show (disp (s1.log ++ [_])).map _ = List.range (st.sent ++ [_]).length
    rw [disp_append, List.map_append, k1.nums, ht.sent]
    simp [disp, List.range_succ]
  · show s1.cur = fold c (reductions (s1.log ++ [_]))
    rw [reductions_append]
    simp [reductions]
    exact k1.cur
  · exact k1.ntf
  · exact k1.clean
  · show lastShown c.init (s1.log ++ [_]) = _
    rw [lastShown_append]
    exact k1.seen
  · intro h2 h3
    obtain ⟨i, hi, hp⟩ := k1.wake h2 h3
    exact ⟨i, List.mem_append_left _ hi, hp⟩
  · exact k1.log.snoc trivial
  · intro d
    show redEff d (s1.log ++ [_]) = qEff d (s1.queue ++ [_]) + effRuns d (s1.log ++ [_]) +
      lostEff d (s1.log ++ [_])
    rw [redEff_append, qEff_append, effRuns_append, lostEff_append]
    simp [redEff, qEff, effRuns, lostEff]
    exact k1.effs d
  · intro d e i hi
    have hi : Item.effect d e i ∈ s1.queue ++ [_] := hi
    rw [List.mem_append] at hi
    rcases hi with hi | hi
    · obtain ⟨m, a', m', h⟩ := k1.qeff d e i hi
      exact ⟨m, a', m', List.mem_append_left _ h⟩
    · simp at hi

/-- The publishing part of a task: `k` for the state with the task, which is popped. -/
theorem core_pub {c : Cfg A Mo} {st : St A Mo} (k : Core c st) (q : List (Item A)) :
    let s1 := { st with queue := q }.publish c
    s1.cur = st.cur ∧ s1.ntf = false ∧ (s1.dirty = false → s1.last = st.cur) ∧
    (c.trans = false → s1.dirty = false ∧ s1.last = st.cur) ∧
    s1.queue = q ∧ s1.sent = st.sent ∧ s1.nx = st.nx ∧ s1.ev = st.ev ∧ s1.fu = st.fu ∧
    red s1.log = red st.log ∧ disp s1.log = disp st.log ∧ LogOK c s1.log ∧
    lastShown c.init s1.log = s1.last ∧
    (∀ d, redEff d s1.log = redEff d st.log) ∧ (∀ d, effRuns d s1.log = effRuns d st.log) ∧
    (∀ e, e ∈ st.log → e ∈ s1.log) ∧ (∀ d, lostEff d s1.log = lostEff d st.log) := by
  dsimp only
  by_cases ht : c.trans = true
  · have e1 : { st with queue := q }.publish c = { st with queue := q } := by
      unfold St.publish; simp [ht]
    rw [e1]
    exact ⟨rfl, k.ntf, k.clean, fun h => absurd (ht.symm.trans h) (by simp), rfl, rfl, rfl, rfl, rfl,
      rfl, rfl, k.log, k.seen, fun _ => rfl, fun _ => rfl, fun _ h => h, fun _ => rfl⟩
  · by_cases hd : st.dirty = true
    · have e1 : { st with queue := q }.publish c =
          { st with
            queue := q
            last := st.cur
            dirty := false
            ntf := false
            log := st.log ++ [.shown st.cur] } := by
        unfold St.publish St.sendDown St.notify; simp [hd, ht]
      rw [e1]
      refine ⟨rfl, rfl, fun _ => rfl, fun _ => ⟨rfl, rfl⟩, rfl, rfl, rfl, rfl, rfl,
        by simp [red_append, red], by simp [disp_append, disp], k.log.snoc k.cur,
        by simp [lastShown_append, lastShown], ?_, ?_, fun e h => List.mem_append_left _ h, ?_⟩
      · intro d; simp [redEff_append, redEff]
      · intro d; simp [effRuns_append, effRuns]
      · intro d; simp [lostEff_append, lostEff]
    · have hd : st.dirty = false := by simpa using hd
      have e1 : { st with queue := q }.publish c = { st with queue := q } := by
        unfold St.publish St.sendDown St.notify; simp [hd, k.ntf]
      rw [e1]
      exact ⟨rfl, k.ntf, fun _ => k.clean hd, fun _ => ⟨hd, k.clean hd⟩, rfl, rfl, rfl, rfl, rfl, rfl,
        rfl, k.log, k.seen, fun _ => rfl, fun _ => rfl, fun _ h => h, fun _ => rfl⟩

theorem core_loop {c : Cfg A Mo} (hc : c.sound) {st st' : St A Mo} (k : Core c st)
    (h : st.loop c = some st') : Core c st' := by
  unfold St.loop at h
  split at h
  · cases h
  · -- an action
    rename_i d a i q hq
    dsimp only at h
    split at h
    · rename_i hth
      cases h
      exact core_threw k hq hth
    rename_i hth
    have hth : c.throws st.cur a = false := by simpa using hth
    simp only [Option.map_eq_some_iff] at h
    obtain ⟨s1, h1, rfl⟩ := h
    split at h1
    · rename_i hemp
      split at h1
      · rename_i ht
        have tk := complete_toks h1
        obtain ⟨n, hn⟩ := tk.queue
        refine core_reduce hc k hq hth tk.cur tk.last tk.dirty tk.ntf tk.log tk.sent hn (pend_toks n) ?_ ?_ ?_
        · intro d'; rw [qEff_toks]; simp [hemp]
        · intro h; rw [ht] at h; cases h
        · intro d' e' j hj; rw [List.mem_replicate] at hj; cases hj.2
      · cases h1
        refine core_reduce (r := [.publish d i]) hc k hq hth rfl rfl rfl rfl rfl rfl rfl rfl ?_ ?_ ?_
        · intro d'; simp [qEff, hemp]
        · intro _; exact ⟨_, List.mem_singleton.2 rfl, rfl⟩
        · intro d' e' j hj; simp at hj
    · rename_i hemp
      cases h1
      refine core_reduce (r := [.effect d (c.reducer st.cur a).2 i]) hc k hq hth rfl rfl rfl rfl rfl rfl rfl rfl ?_ ?_ ?_
      · intro d'; simp [qEff, hemp]
      · intro _; exact ⟨_, List.mem_singleton.2 rfl, rfl⟩
      · intro d' e' j hj; simp at hj; exact ⟨hj.1, hj.2.1⟩
  · -- an effect
    rename_i d e i q hq
    dsimp only at h
    cases h
    obtain ⟨h1, h2, h3, h4, h5, h6, h7, h8, h9, h10, h11, h12, h13, h14, h15, h16, h17⟩ :=
      core_pub k q
    generalize { st with queue := q }.publish c = s1 at *
    have hready : EvOK c s1.log (.ready d) := by
      intro ht
      rw [h13, (h4 ht).2, k.cur, reductions_red, reductions_red, h10]
    have hred : reductions (s1.log ++ [.ready d]) = reductions st.log := by
      simp [reductions_red, red_append, red, h10]
    have hlast : c.trans = false → lastShown c.init (s1.log ++ [.ready d]) =
        fold c (reductions (s1.log ++ [.ready d])) := by
      intro ht
      rw [lastShown_append, hred, ← k.cur]
      simp only [lastShown]
      rw [h13, (h4 ht).2]
    have hr2 : red ((s1.log ++ [.ready d]) ++ [.effStart d st.nx e]) = red st.log := by
      simp [red_append, red, h10]
    have hd2 : disp ((s1.log ++ [.ready d]) ++ [.effStart d st.nx e]) = disp st.log := by
      simp [disp_append, disp, h11]
    have hreturned := k.qeff d e i (by rw [hq]; exact List.mem_cons_self)
    constructor
    · show disp ((s1.log ++ [.ready d]) ++ [.effStart d st.nx e]) = red _ ++ pend s1.queue
      simp only [St.say]
      rw [hd2, hr2, h5, k.order, hq]
      rfl
    · show (disp ((s1.log ++ [.ready d]) ++ [.effStart d st.nx e])).map _ = List.range s1.sent.length
      rw [hd2, h6]; exact k.nums
    · show s1.cur = fold c (reductions ((s1.log ++ [.ready d]) ++ [.effStart d st.nx e]))
      rw [reductions_red, hr2, ← reductions_red, h1]; exact k.cur
    · exact h2
    · intro hd; show s1.last = s1.cur; rw [h1]; exact h3 hd
    · show lastShown c.init ((s1.log ++ [.ready d]) ++ [.effStart d st.nx e]) = s1.last
      rw [lastShown_append, lastShown_append]
      exact h13
    · intro ht hd
      have hd : s1.dirty = true := hd
      rw [(h4 ht).1] at hd
      cases hd
    · show LogOK c ((s1.log ++ [.ready d]) ++ [.effStart d st.nx e])
      refine (h12.snoc (e := .ready d) hready).snoc ⟨?_, hlast⟩
      obtain ⟨m, a, m', hm⟩ := hreturned
      exact ⟨m, a, m', List.mem_append_left _ (h16 _ hm)⟩
    · intro d'
      show redEff d' ((s1.log ++ [.ready d]) ++ [.effStart d st.nx e]) =
        qEff d' s1.queue + effRuns d' ((s1.log ++ [.ready d]) ++ [.effStart d st.nx e]) +
          lostEff d' ((s1.log ++ [.ready d]) ++ [.effStart d st.nx e])
      have := k.effs d'
      rw [hq] at this
      simp [redEff_append, effRuns_append, lostEff_append, redEff, effRuns, lostEff, qEff, h5, h14, h15, h17]
        at this ⊢
      omega
    · intro d' e' j hj
      have hj : Item.effect d' e' j ∈ s1.queue := hj
      rw [h5] at hj
      obtain ⟨m, a, m', hm⟩ := k.qeff d' e' j (by rw [hq]; exact List.mem_cons_of_mem _ hj)
      exact ⟨m, a, m', List.mem_append_left _ (List.mem_append_left _ (h16 _ hm))⟩
  · -- publishing
    rename_i d i q hq
    obtain ⟨h1, h2, h3, h4, h5, h6, h7, h8, h9, h10, h11, h12, h13, h14, h15, h16, h17⟩ :=
      core_pub k q
    generalize { st with queue := q }.publish c = s1 at *
    have hready : EvOK c s1.log (.ready d) := by
      intro ht
      rw [h13, (h4 ht).2, k.cur, reductions_red, reductions_red, h10]
    have k1 : Core c (s1.say (.ready d)) := by
      have hr2 : red (s1.log ++ [.ready d]) = red st.log := by simp [red_append, red, h10]
      have hd2 : disp (s1.log ++ [.ready d]) = disp st.log := by simp [disp_append, disp, h11]
      constructor
      · show disp (s1.log ++ [.ready d]) = red (s1.log ++ [.ready d]) ++ pend s1.queue
        rw [hd2, hr2, h5, k.order, hq]
        rfl
      · show (disp (s1.log ++ [.ready d])).map _ = List.range s1.sent.length
        rw [hd2, h6]; exact k.nums
      · show s1.cur = fold c (reductions (s1.log ++ [.ready d]))
        rw [reductions_red, hr2, ← reductions_red, h1]; exact k.cur
      · exact h2
      · intro hd; show s1.last = s1.cur; rw [h1]; exact h3 hd
      · show lastShown c.init (s1.log ++ [.ready d]) = s1.last
        rw [lastShown_append]
        exact h13
      · intro ht hd
        have hd : s1.dirty = true := hd
        rw [(h4 ht).1] at hd
        cases hd
      · exact h12.snoc hready
      · intro d'
        show redEff d' (s1.log ++ [.ready d]) = qEff d' s1.queue + effRuns d' (s1.log ++ [.ready d]) +
          lostEff d' (s1.log ++ [.ready d])
        have := k.effs d'
        rw [hq] at this
        simp [redEff_append, effRuns_append, lostEff_append, redEff, effRuns, lostEff, qEff, h5, h14, h15, h17]
        at this ⊢
        omega
      · intro d' e' j hj
        have hj : Item.effect d' e' j ∈ s1.queue := hj
        rw [h5] at hj
        obtain ⟨m, a, m', hm⟩ := k.qeff d' e' j (by rw [hq]; exact List.mem_cons_of_mem _ hj)
        exact ⟨m, a, m', List.mem_append_left _ (h16 _ hm)⟩
    exact k1.toks (complete_toks h)
  · -- a closure of a promise
    rename_i q hq
    exact (k.drop hq rfl (by simp)).toks (runTask_toks h)

/-- A watcher throws. -/
theorem core_lost {c : Cfg A Mo} {st : St A Mo} (k : Core c st) {x : Item A} {q : List (Item A)} {d : Nat}
    {o : Option Eff} (hq : st.queue = x :: q)
    (hx : (∃ e i, x = .effect d e i ∧ o = some e) ∨ (∃ i, x = .publish d i ∧ o = none))
    (ht : c.trans = false) : Core c (({ st with queue := q }.publish c).say (.lost d o)) := by
  obtain ⟨h1, h2, h3, h4, h5, h6, h7, h8, h9, h10, h11, h12, h13, h14, h15, h16, h17⟩ := core_pub k q
  generalize { st with queue := q }.publish c = s1 at *
  have hlost : EvOK c s1.log (.lost d o) := by
    refine ⟨ht, ?_⟩
    rw [h13, (h4 ht).2, k.cur, reductions_red, reductions_red, h10]
  have hr2 : red (s1.log ++ [.lost d o]) = red st.log := by simp [red_append, red, h10]
  have hd2 : disp (s1.log ++ [.lost d o]) = disp st.log := by simp [disp_append, disp, h11]
  have hpend : pend st.queue = pend q := by
    rw [hq]; rcases hx with ⟨e, i, rfl, _⟩ | ⟨i, rfl, _⟩ <;> rfl
  constructor
  · show disp (s1.log ++ [.lost d o]) = red (s1.log ++ [.lost d o]) ++ pend s1.queue
    rw [hd2, hr2, h5, k.order, hpend]
  · show (disp (s1.log ++ [.lost d o])).map _ = List.range s1.sent.length
    rw [hd2, h6]; exact k.nums
  · show s1.cur = fold c (reductions (s1.log ++ [.lost d o]))
    rw [reductions_red, hr2, ← reductions_red, h1]; exact k.cur
  · exact h2
  · intro hd; show s1.last = s1.cur; rw [h1]; exact h3 hd
  · show lastShown c.init (s1.log ++ [.lost d o]) = s1.last
    rw [lastShown_append]
    exact h13
  · intro ht hd
    have hd : s1.dirty = true := hd
    rw [(h4 ht).1] at hd
    cases hd
  · exact h12.snoc hlost
  · intro d'
    show redEff d' (s1.log ++ [.lost d o]) = qEff d' s1.queue + effRuns d' (s1.log ++ [.lost d o]) +
      lostEff d' (s1.log ++ [.lost d o])
    have := k.effs d'
    rw [hq] at this
    rcases hx with ⟨e, i, rfl, rfl⟩ | ⟨i, rfl, rfl⟩ <;>
      simp [redEff_append, effRuns_append, lostEff_append, redEff, effRuns, lostEff, qEff, h5, h14, h15, h17]
        at this ⊢ <;> omega
  · intro d' e' j hj
    have hj : Item.effect d' e' j ∈ s1.queue := hj
    rw [h5] at hj
    obtain ⟨m, a, m', hm⟩ := k.qeff d' e' j (by rw [hq]; exact List.mem_cons_of_mem _ hj)
    exact ⟨m, a, m', List.mem_append_left _ (h16 _ hm)⟩

/-- What `loopRaise` does. -/
theorem loopRaise_some {c : Cfg A Mo} {st st' : St A Mo} (h : st.loopRaise c = some st') :
    ∃ x q d o, st.queue = x :: q ∧
      ((∃ e i, x = .effect d e i ∧ o = some e) ∨ (∃ i, x = .publish d i ∧ o = none)) ∧
      c.trans = false ∧ st.dirty = true ∧ st' = ({ st with queue := q }.publish c).say (.lost d o) := by
  unfold St.loopRaise at h
  dsimp only at h
  split at h
  · rename_i d e i q hq
    split at h
    · rename_i hh
      exact ⟨_, q, d, some e, hq, .inl ⟨e, i, rfl, rfl⟩, hh.1, hh.2, (Option.some.inj h).symm⟩
    · cases h
  · rename_i d i q hq
    split at h
    · rename_i hh
      exact ⟨_, q, d, none, hq, .inr ⟨i, rfl, rfl⟩, hh.1, hh.2, (Option.some.inj h).symm⟩
    · cases h
  · cases h

theorem core_go {c : Cfg A Mo} {st st' : St A Mo} (k : Core c st) {f : EF}
    (h : st.go c f = some st') : Core c st' := by
  unfold St.go at h
  dsimp only at h
  split at h
  · cases h
  · cases h; exact k.of_eq rfl rfl rfl rfl rfl rfl rfl
  · cases h; exact (k.minor (e := .prim f.x f.pos _) rfl).of_eq rfl rfl rfl rfl rfl rfl rfl
  · cases h; exact k.of_eq rfl rfl rfl rfl rfl rfl rfl
  · cases h
  · split at h
    · split at h
      · simp only [Option.map_eq_some_iff] at h
        obtain ⟨s1, h1, rfl⟩ := h
        exact (k.toks (fstep_toks h1)).of_eq rfl rfl rfl rfl rfl rfl rfl
      · cases h; exact k.of_eq rfl rfl rfl rfl rfl rfl rfl
    · split at h
      · rename_i d i _
        have k1 := fun r => k.minor (e := .effEnd d r) rfl
        split at h
        · split at h
          · exact (k1 _).toks (fstep_toks h)
          · exact (k1 _).toks (fstep_toks h)
        · cases h; exact k1 _
      · simp only [Option.bind_eq_some_iff] at h
        obtain ⟨n, _, h⟩ := h
        split at h
        · exact k.toks (fstep_toks h)
        · simp only [Option.bind_eq_some_iff] at h
          obtain ⟨s1, h1, h2⟩ := h
          exact k.toks ((fstep_toks h1).trans (fstep_toks h2))

theorem core_step {c : Cfg A Mo} (hc : c.sound) {st st' : St A Mo} (k : Core c st) {op : SOp A}
    (h : step c st op = some st') : Core c st' := by
  cases op with
  | dispatch a => exact core_dispatch k h
  | loop => exact core_loop hc k h
  | loopRaise =>
    obtain ⟨x, q, d, o, hq, hx, ht, _, rfl⟩ := loopRaise_some h
    exact core_lost k hq hx ht
  | other l =>
    simp only [step] at h
    split at h
    · cases h
    · exact k.toks (runTask_toks h)
  | fut op =>
    simp only [step] at h
    split at h
    · exact k.toks (fstep_toks h)
    · cases h
  | go n =>
    simp only [step] at h
    split at h
    · cases h
    · exact core_go (k.of_eq (s1 := { st with ev := st.ev.eraseIdx n }) rfl rfl rfl rfl rfl rfl rfl) h
  | prim n o =>
    simp only [step] at h
    split at h
    · split at h
      · cases h
        exact (k.minor (e := .primRet _ _ _) rfl).of_eq rfl rfl rfl rfl rfl rfl rfl
      · cases h
    · cases h
  | raise n =>
    have k1 : ∀ x pos, Core c { st.say (.primThrew x pos) with ev := st.ev.eraseIdx n } := fun x pos =>
      (k.minor (e := .primThrew x pos) rfl).of_eq rfl rfl rfl rfl rfl rfl rfl
    simp only [step] at h
    split at h
    · cases h; exact k1 _ _
    · simp only [Option.bind_eq_some_iff] at h
      obtain ⟨m, _, h⟩ := h
      exact (k1 _ _).toks (fstep_toks h)
    · cases h
  | commit =>
    simp only [step] at h
    split at h
    · cases h
      exact (core_send k).1
    · cases h

theorem Reach.core {c : Cfg A Mo} (hc : c.sound) {st : St A Mo} (r : Reach c st) : Core c st := by
  induction r with
  | start =>
    constructor
    · rfl
    · rfl
    · rfl
    · rfl
    · intro _; rfl
    · rfl
    · intro _ h; cases h
    · intro l1 e l2 h
      simp [Verif.Store.start] at h
    · intro d; rfl
    · intro d e i h; cases h
  | step op _ h ih => exact core_step hc ih h

/-! ### Consequences -/

theorem range_count (n d : Nat) : (List.range n).count d ≤ 1 := by
  rcases Nat.lt_or_ge d n with h | h
  · have := List.nodup_range (n := n)
    exact List.nodup_iff_count.1 this d
  · have : d ∉ List.range n := by simp; omega
    rw [List.count_eq_zero.2 this]; omega

theorem redEff_le (d : Nat) (l : List (SEv A Mo)) : redEff d l ≤ ((red l).map (·.1)).count d := by
  induction l with
  | nil => simp [redEff]
  | cons x l ih =>
    cases x with
    | reduced d' m a m' e =>
      simp only [redEff, red, List.map_cons]
      rw [List.count_cons]
      by_cases h : d' = d
      · subst h; simp; split <;> omega
      · simp [h]; exact ih
    | reduceThrew d' m a =>
      simp only [redEff, red, List.map_cons]
      rw [List.count_cons]
      omega
    | _ => exact ih

theorem Core.red_count {c : Cfg A Mo} {st : St A Mo} (k : Core c st) (d : Nat) :
    ((red st.log).map (·.1)).count d ≤ 1 := by
  have h1 := k.nums
  rw [k.order, List.map_append] at h1
  have h2 := range_count st.sent.length d
  rw [← h1, List.count_append] at h2
  omega

theorem Core.redEff_one {c : Cfg A Mo} {st : St A Mo} (k : Core c st) (d : Nat) :
    redEff d st.log ≤ 1 := Nat.le_trans (redEff_le d st.log) (k.red_count d)

theorem redEff_pos {d : Nat} {l : List (SEv A Mo)} :
    0 < redEff d l ↔ ∃ m a m' e, SEv.reduced d m a m' e ∈ l ∧ e.isEmpty = false := by
  induction l with
  | nil => simp [redEff]
  | cons x l ih =>
    cases x with
    | reduced d' m a m' e =>
      simp only [redEff, List.mem_cons]
      constructor
      · intro h
        by_cases hh : d' = d ∧ e.isEmpty = false
        · obtain ⟨rfl, he⟩ := hh
          exact ⟨m, a, m', e, Or.inl rfl, he⟩
        · rw [if_neg hh] at h
          obtain ⟨m1, a1, m1', e1, h1, h2⟩ := ih.1 (by omega)
          exact ⟨m1, a1, m1', e1, Or.inr h1, h2⟩
      · rintro ⟨m1, a1, m1', e1, h1 | h1, h2⟩
        · cases h1
          simp [h2]
          omega
        · have := ih.2 ⟨m1, a1, m1', e1, h1, h2⟩
          omega
    | _ =>
      simp only [redEff, List.mem_cons]
      rw [ih]
      simp

theorem lostEff_pos {d : Nat} {l : List (SEv A Mo)} (h : 0 < lostEff d l) :
    ∃ e, SEv.lost d (some e) ∈ l := by
  induction l with
  | nil => simp [lostEff] at h
  | cons x l ih =>
    cases x with
    | lost d' o =>
      cases o with
      | none =>
        obtain ⟨e, he⟩ := ih h
        exact ⟨e, List.mem_cons_of_mem _ he⟩
      | some e =>
        by_cases hd : d' = d
        · subst hd; exact ⟨e, List.mem_cons_self⟩
        · simp only [lostEff, hd, if_false, Nat.zero_add] at h
          obtain ⟨e', he⟩ := ih h
          exact ⟨e', List.mem_cons_of_mem _ he⟩
    | _ =>
      obtain ⟨e, he⟩ := ih h
      exact ⟨e, List.mem_cons_of_mem _ he⟩

/-- Watchers are not called in the tasks of transactional stores. -/
theorem Core.not_lost {c : Cfg A Mo} {st : St A Mo} (k : Core c st) (ht : c.trans = true) (d : Nat) :
    ¬ Lost st d := by
  rintro ⟨e, he⟩
  obtain ⟨l1, l2, hl⟩ := List.append_of_mem he
  have := (k.log l1 _ l2 hl).1
  rw [ht] at this
  cases this

/-- Events that only the loop makes. -/
def SEv.byLoop : SEv A Mo → Bool
  | .reduced _ _ _ _ _ => true
  | .effStart _ _ _ => true
  | .ready _ => true
  | .reduceThrew _ _ _ => true
  | .lost _ _ => true
  | _ => false

theorem notify_log (st : St A Mo) : ∃ es, st.sendDown.notify.log = st.log ++ es ∧
    ∀ e ∈ es, ∃ v, e = .shown v := by
  have h1 : st.sendDown.log = st.log := by unfold St.sendDown; split <;> rfl
  unfold St.notify
  split
  · refine ⟨[.shown st.sendDown.last], by simp [h1], ?_⟩
    intro e he
    exact ⟨_, List.mem_singleton.1 he⟩
  · exact ⟨[], by simp [h1], by simp⟩

theorem step_log {c : Cfg A Mo} {st st' : St A Mo} {op : SOp A} (h : step c st op = some st')
    (hop : op ≠ .loop) (hop' : op ≠ .loopRaise) : ∃ es, st'.log = st.log ++ es ∧ ∀ e ∈ es, e.byLoop = false ∧
      ((∃ v, e = .shown v) → op = .commit) := by
  cases op with
  | dispatch a =>
    simp only [step, St.dispatch, Option.map_eq_some_iff] at h
    obtain ⟨s1, h1, rfl⟩ := h
    refine ⟨[.dispatched st.sent.length a], ?_, ?_⟩
    · show s1.log ++ _ = _
      rw [(fstep_toks h1).log]
    · intro e he
      rw [List.mem_singleton] at he
      subst he
      exact ⟨rfl, fun ⟨v, hv⟩ => by cases hv⟩
  | loop => exact absurd rfl hop
  | loopRaise => exact absurd rfl hop'
  | other l =>
    simp only [step] at h
    split at h
    · cases h
    · exact ⟨[], by rw [(runTask_toks h).log]; simp, by simp⟩
  | fut op =>
    simp only [step] at h
    split at h
    · exact ⟨[], by rw [(fstep_toks h).log]; simp, by simp⟩
    · cases h
  | go n =>
    simp only [step] at h
    split at h
    · cases h
    · rename_i f hf
      unfold St.go at h
      dsimp only at h
      split at h
      · cases h
      · cases h; exact ⟨[], by simp, by simp⟩
      · cases h
        refine ⟨[.prim f.x f.pos _], rfl, ?_⟩
        intro e he
        rw [List.mem_singleton] at he
        subst he
        exact ⟨rfl, fun ⟨v, hv⟩ => by cases hv⟩
      · cases h; exact ⟨[], by simp, by simp⟩
      · cases h
      · split at h
        · split at h
          · simp only [Option.map_eq_some_iff] at h
            obtain ⟨s1, h1, rfl⟩ := h
            exact ⟨[], by dsimp only; rw [(fstep_toks h1).log]; simp, by simp⟩
          · cases h; exact ⟨[], by simp, by simp⟩
        · split at h
          · rename_i d i _
            have key : ∀ r, ∀ e ∈ [SEv.effEnd (A := A) (Mo := Mo) d r], e.byLoop = false ∧
                ((∃ v, e = .shown v) → SOp.go n = (.commit : SOp A)) := by
              intro r e he
              rw [List.mem_singleton] at he
              subst he
              exact ⟨rfl, fun ⟨v, hv⟩ => by cases hv⟩
            split at h
            · split at h
              · exact ⟨_, (fstep_toks h).log, key _⟩
              · exact ⟨_, (fstep_toks h).log, key _⟩
            · cases h; exact ⟨_, rfl, key _⟩
          · simp only [Option.bind_eq_some_iff] at h
            obtain ⟨n, _, h⟩ := h
            split at h
            · exact ⟨[], by rw [(fstep_toks h).log]; simp, by simp⟩
            · simp only [Option.bind_eq_some_iff] at h
              obtain ⟨s1, h1, h2⟩ := h
              exact ⟨[], by rw [(fstep_toks h2).log, (fstep_toks h1).log]; simp, by simp⟩
  | prim n o =>
    simp only [step] at h
    split at h
    · split at h
      · cases h
        refine ⟨[.primRet _ _ _], rfl, ?_⟩
        intro e he
        rw [List.mem_singleton] at he
        subst he
        exact ⟨rfl, fun ⟨v, hv⟩ => by cases hv⟩
      · cases h
    · cases h
  | raise n =>
    simp only [step] at h
    split at h
    · cases h
      refine ⟨[.primThrew _ _], rfl, ?_⟩
      intro e he
      rw [List.mem_singleton] at he
      subst he
      exact ⟨rfl, fun ⟨v, hv⟩ => by cases hv⟩
    · simp only [Option.bind_eq_some_iff] at h
      obtain ⟨m, _, h⟩ := h
      refine ⟨[.primThrew _ _], (fstep_toks h).log, ?_⟩
      intro e he
      rw [List.mem_singleton] at he
      subst he
      exact ⟨rfl, fun ⟨v, hv⟩ => by cases hv⟩
    · cases h
  | commit =>
    simp only [step] at h
    split at h
    · cases h
      obtain ⟨es, h1, h2⟩ := notify_log st
      refine ⟨es, h1, ?_⟩
      intro e he
      obtain ⟨v, rfl⟩ := h2 e he
      exact ⟨rfl, fun _ => rfl⟩
    · cases h

theorem effRuns_nil {d : Nat} {es : List (SEv A Mo)} (h : ∀ e ∈ es, e.byLoop = false) :
    effRuns d es = 0 := by
  induction es with
  | nil => rfl
  | cons x es ih =>
    have hx := h x List.mem_cons_self
    have := ih (fun e he => h e (List.mem_cons_of_mem _ he))
    cases x <;> simp_all [effRuns, SEv.byLoop]

theorem shows_nil {es : List (SEv A Mo)} (h : ∀ e ∈ es, ∀ v, e ≠ .shown v) : shows es = [] := by
  induction es with
  | nil => rfl
  | cons x es ih =>
    have := ih (fun e he => h e (List.mem_cons_of_mem _ he))
    cases x with
    | shown v => exact absurd rfl (h _ List.mem_cons_self v)
    | _ => simpa [shows] using this

/-- When does a step call an effect? -/
theorem step_effRuns {c : Cfg A Mo} {st st' : St A Mo} (k : Core c st) {op : SOp A}
    (h : step c st op = some st') {d : Nat} (hd : effRuns d st'.log ≠ effRuns d st.log) :
    op = .loop ∧ ∃ e i q, st.queue = .effect d e i :: q := by
  by_cases hop : op = .loop
  · subst hop
    refine ⟨rfl, ?_⟩
    simp only [step] at h
    unfold St.loop at h
    split at h
    · cases h
    · exfalso
      dsimp only at h
      split at h
      · cases h
        apply hd
        simp [St.say, effRuns_append, effRuns]
      simp only [Option.map_eq_some_iff] at h
      obtain ⟨s1, h1, rfl⟩ := h
      apply hd
      have hl : s1.log = st.log := by
        split at h1
        · split at h1
          · exact (complete_toks h1).log
          · cases h1; rfl
        · cases h1; rfl
      have hl2 : ∀ v, (s1.pushDown c v).log = st.log := by
        intro v; unfold St.pushDown; split <;> exact hl
      simp only [St.say]
      rw [hl2, effRuns_append]
      rfl
    · rename_i d' e i q hq
      by_cases e1 : d' = d
      · subst e1; exact ⟨e, i, q, hq⟩
      · exfalso
        dsimp only at h
        cases h
        apply hd
        obtain ⟨_, _, _, _, _, _, _, _, _, _, _, _, _, _, h15, _, _⟩ := core_pub k q
        simp [St.say, effRuns_append, effRuns, h15, e1]
    · rename_i d' i q hq
      exfalso
      apply hd
      obtain ⟨_, _, _, _, _, _, _, _, _, _, _, _, _, _, h15, _, _⟩ := core_pub k q
      rw [(complete_toks h).log]
      simp [St.say, effRuns_append, effRuns, h15]
    · exfalso
      apply hd
      rw [(runTask_toks h).log]
  · exfalso
    by_cases hop' : op = .loopRaise
    · subst hop'
      obtain ⟨x, q, d', o, hq, hx, ht, _, rfl⟩ := loopRaise_some h
      obtain ⟨_, _, _, _, _, _, _, _, _, _, _, _, _, _, h15, _, _⟩ := core_pub k q
      apply hd
      simp [St.say, effRuns_append, effRuns, h15]
    obtain ⟨es, h1, h2⟩ := step_log h hop hop'
    apply hd
    rw [h1, effRuns_append, effRuns_nil (fun e he => (h2 e he).1)]
    rfl

end Verif.Store
