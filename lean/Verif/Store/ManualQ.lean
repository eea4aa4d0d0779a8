import Verif.Store.SafeQ
import Verif.Loop.Manual

/-!
Stores on the manual event loop, `event_loop/manual.hpp`, which runs tasks inside of `post`: the model of stores with
tasks in several steps, and the model of the loop, side by side.
-/

namespace Verif.Store

open Verif

variable {A Mo : Type}

/-! ### Model -/

/-- A store on a manual event loop.  The tasks of the store wait in the queue of `p` and, together with the functions
that the program itself posts, in the queue of `l`. -/
structure ManQ (A Mo : Type) where
  p : Par A Mo
  l : Loop.Manual.St
  /-- the functions that the program has posted -/
  foreign : List Nat
  /-- an exception is leaving the running task -/
  thrown : Bool

/-- What happens. -/
inductive MOp (A : Type) where
  /-- user code dispatches -/
  | dispatch (a : A)
  /-- user code posts a function -/
  | post
  /-- the running task of the store goes on -/
  | go
  /-- a watcher that it has called throws -/
  | raise
  /-- the effect that it has called goes on -/
  | effect
  /-- user code in the effect returns -/
  | prim
  /-- or throws -/
  | primRaise
  /-- a function that the program has posted throws -/
  | fail
  /-- the running task is done: the loop goes on, `manual.hpp:39-52` -/
  | ret
  /-- the exception leaves it -/
  | throw

/-- Events of user code that throws. -/
def SEv.isThrow : SEv A Mo → Bool
  | .primThrew _ _ => true
  | .reduceThrew _ _ _ => true
  | .lost _ _ => true
  | _ => false

/-- `post`, so many times. -/
def posts : Nat → Loop.Manual.St → Loop.Manual.St
  | 0, l => l
  | k + 1, l => posts k ((Loop.Manual.step l .post).getD l)

/-- The store does something; the tasks that it adds to its queue are posted to the loop. -/
def ManQ.own (c : Cfg A Mo) (m : ManQ A Mo) (op : POp A) : Option (ManQ A Mo) :=
  (Par.step c 1 m.p op).map fun p =>
    { m with
      p := p
      l := posts (p.st.queue.length - m.p.st.queue.length) m.l
      thrown := m.thrown || (p.st.log.drop m.p.st.log.length).any SEv.isThrow }

/-- If the loop has just started a task of the store, it begins. -/
def ManQ.begin (c : Cfg A Mo) (m : ManQ A Mo) : Option (ManQ A Mo) :=
  match m.l.ctl with
  | .idle => some m
  | .task n => if n ∈ m.foreign then some m else (Par.step c 1 m.p .begin).map fun p => { m with p := p }

/-- Is the running task done? -/
def ManQ.free (m : ManQ A Mo) : Bool := m.p.jobs.isEmpty && m.p.st.ev.isEmpty

/-- The steps.  Simplified: the store has no futures (for futures on loops like this one see `Future/InlineProps.lean`) and is
not transactional. -/
def ManQ.step (c : Cfg A Mo) (m : ManQ A Mo) : MOp A → Option (ManQ A Mo)
  | .dispatch a =>
    if m.thrown then none else
    match m.l.ctl with
    | .idle => (m.own c (.user (.dispatch a))).bind (ManQ.begin c)
    | .task _ => m.own c (.user (.dispatch a))
  | .post =>
    if m.thrown then none else
    match m.l.ctl with
    | .idle => ({ m with l := posts 1 m.l, foreign := m.l.next :: m.foreign } : ManQ A Mo).begin c
    | .task _ => some { m with l := posts 1 m.l, foreign := m.l.next :: m.foreign }
  | .go => m.own c (.go 0)
  | .raise => m.own c (.raise 0)
  | .effect => if m.thrown then none else m.own c (.user (.go 0))
  | .prim => m.own c (.user (.prim 0 none))
  | .primRaise => m.own c (.user (.raise 0))
  | .fail =>
    match m.l.ctl with
    | .task n => if n ∈ m.foreign ∧ m.free = true then some { m with thrown := true } else none
    | .idle => none
  | .ret =>
    if m.free = true ∧ m.thrown = false then
      (Loop.Manual.step m.l .ret).bind fun l => ({ m with l := l } : ManQ A Mo).begin c
    else none
  | .throw =>
    if m.free = true ∧ m.thrown = true then
      (Loop.Manual.step m.l .throw).map fun l => { m with l := l, thrown := false }
    else none

/-- The state at the beginning. -/
def ManQ.start (c : Cfg A Mo) : ManQ A Mo := ⟨Par.start c, Loop.Manual.init, [], false⟩

/-- The states that can be reached. -/
inductive ManQ.Reach (c : Cfg A Mo) : ManQ A Mo → Prop where
  | start : Reach c (ManQ.start c)
  | step {m m'} (op : MOp A) : Reach c m → ManQ.step c m op = some m' → Reach c m'

/-- Several steps, one after the other. -/
def ManQ.exec (c : Cfg A Mo) (m : ManQ A Mo) : List (MOp A) → Option (ManQ A Mo)
  | [] => some m
  | op :: ops => (ManQ.step c m op).bind fun m' => ManQ.exec c m' ops

theorem manExec_reach {c : Cfg A Mo} {m m' : ManQ A Mo} {ops : List (MOp A)} (r : ManQ.Reach c m)
    (h : ManQ.exec c m ops = some m') : ManQ.Reach c m' := by
  induction ops generalizing m with
  | nil => cases h; exact r
  | cons op ops ih =>
    simp only [ManQ.exec, Option.bind_eq_some_iff] at h
    obtain ⟨s1, h1, h2⟩ := h
    exact ih (r.step op h1) h2

/-! ### The loop -/

/-- The tasks that the loop has not started. -/
def Rest (l : Loop.Manual.St) (rest : List Nat) : Prop := l.queue = List.replicate l.i none ++ rest.map some

theorem advance_nil {l : Loop.Manual.St} (h : Rest l []) :
    Loop.Manual.advance l = { l with queue := [], i := 0, ctl := .idle, log := l.log ++ [.ret] } := by
  have : l.queue[l.i]? = none := by rw [h]; simp
  unfold Loop.Manual.advance
  rw [this]

theorem advance_cons {l : Loop.Manual.St} {n : Nat} {rest : List Nat} (h : Rest l (n :: rest)) :
    (Loop.Manual.advance l).ctl = .task n ∧ (Loop.Manual.advance l).next = l.next ∧
    (Loop.Manual.advance l).log = l.log ++ [.start n] ∧ Rest (Loop.Manual.advance l) rest := by
  have : l.queue[l.i]? = some (some n) := by
    rw [h, List.getElem?_append_right (by simp)]; simp
  unfold Loop.Manual.advance
  rw [this]
  refine ⟨rfl, rfl, rfl, ?_⟩
  show l.queue.set l.i none = _
  rw [h, List.set_append_right _ _ (by simp)]
  simp [List.replicate_succ']

/-- `post` in a task. -/
theorem posts_task {l : Loop.Manual.St} {rest : List Nat} {n : Nat} (h : Rest l rest) (hi : 0 < l.i)
    (hc : l.ctl = .task n) (k : Nat) :
    ∃ new : List Nat, new.length = k ∧ (∀ x ∈ new, l.next ≤ x) ∧ Rest (posts k l) (rest ++ new) ∧
      (posts k l).ctl = .task n ∧ 0 < (posts k l).i ∧ (posts k l).next = l.next + k ∧
      (∃ es, (posts k l).log = l.log ++ es ∧ ∀ e ∈ es, ∃ x, e = .post 0 x) := by
  induction k generalizing l rest with
  | zero =>
    refine ⟨[], rfl, nofun, ?_, hc, hi, rfl, [], by simp [posts], nofun⟩
    rw [List.append_nil]; exact h
  | succ k ih =>
    have hs : (Loop.Manual.step l .post).getD l =
        { l with queue := l.queue ++ [some l.next], next := l.next + 1, log := l.log ++ [.post 0 l.next] } := by
      simp only [Loop.Manual.step]
      rw [if_neg (by omega)]
      rfl
    simp only [posts, hs]
    obtain ⟨new, h1, h2, h3, h4, h5, h6, es, h7, h8⟩ := ih (l := { l with queue := l.queue ++ [some l.next], next := l.next + 1, log := l.log ++ [.post 0 l.next] })
      (rest := rest ++ [l.next]) (by unfold Rest at h ⊢; simp [h]) hi hc
    refine ⟨l.next :: new, by simp [h1], ?_, by simpa using h3, h4, h5, ?_, .post 0 l.next :: es, ?_, ?_⟩
    · intro x hx
      rcases List.mem_cons.1 hx with rfl | hx
      · exact Nat.le_refl _
      · have := h2 x hx; dsimp only at this; omega
    · rw [h6]; dsimp only; omega
    · rw [h7]; simp
    · intro e he
      rcases List.mem_cons.1 he with rfl | he
      · exact ⟨_, rfl⟩
      · exact h8 e he

/-- `post` outside of tasks starts the first one. -/
theorem posts_idle {l : Loop.Manual.St} {rest : List Nat} (h : Rest l rest) (hi : l.i = 0) :
    ∃ n rest', rest ++ [l.next] = n :: rest' ∧ (posts 1 l).ctl = .task n ∧ Rest (posts 1 l) rest' ∧
      (posts 1 l).next = l.next + 1 := by
  have hs : (Loop.Manual.step l .post).getD l = Loop.Manual.advance
      { l with queue := l.queue ++ [some l.next], next := l.next + 1,
               log := l.log ++ [.post 0 l.next] ++ [.enter] } := by
    simp only [Loop.Manual.step]
    rw [if_pos hi]
    rfl
  have hr : Rest { l with queue := l.queue ++ [some l.next], next := l.next + 1,
                          log := l.log ++ [.post 0 l.next] ++ [.enter] } (rest ++ [l.next]) := by
    unfold Rest at h ⊢; simp [h]
  cases hl : rest ++ [l.next] with
  | nil => simp at hl
  | cons n rest' =>
    rw [hl] at hr
    obtain ⟨h1, h2, h3, h4⟩ := advance_cons hr
    refine ⟨n, rest', rfl, ?_, ?_, ?_⟩
    · simp only [posts, hs]; exact h1
    · simp only [posts, hs]; exact h4
    · simp only [posts, hs]; exact h2

/-! ### The store -/

/-- A call of an effect that has nothing to do with futures. -/
def EF.plain (f : EF) : Prop := (∀ i, f.mode ≠ .got (some i)) ∧ ∃ d i, f.k = .store d i

/-- What the store does apart from beginning tasks: it only adds to its queue. -/
structure Grows (s t : St A Mo) : Prop where
  queue : ∃ r, t.queue = s.queue ++ r ∧ Item.tok ∉ r
  ev : ∀ f ∈ t.ev, f.plain

theorem Grows.same {s t : St A Mo} (hq : t.queue = s.queue) (he : ∀ f ∈ t.ev, f.plain) : Grows s t :=
  ⟨⟨[], by rw [hq, List.append_nil], nofun⟩, he⟩

theorem dispatch_grows {c : Cfg A Mo} (hF : c.hasF = false) {s t : St A Mo} {a : A}
    (h : s.dispatch c a = some t) : t.queue = s.queue ++ [.reduce s.sent.length a s.fu.proms.length] ∧
      t.ev = s.ev ∧ t.log = s.log ++ [.dispatched s.sent.length a] ∧ t.last = s.last ∧ t.cur = s.cur := by
  unfold St.dispatch at h
  simp only [hF, St.fstep, Future.step, Bool.false_eq_true, if_false] at h
  split at h
  all_goals first
    | (cases h; simp [St.post, St.say])
    | cases h

theorem complete_plain {c : Cfg A Mo} (hF : c.hasF = false) {s t : St A Mo} {i : Nat}
    (h : s.complete c i = some t) : t = s := by
  unfold St.complete at h
  rw [hF] at h
  cases h; rfl

theorem reduced_grows {c : Cfg A Mo} (hF : c.hasF = false) {s t : St A Mo} {d i : Nat} {a : A}
    (hp : ∀ f ∈ s.ev, f.plain) (h : s.reduced c d a i = some t) : Grows s t := by
  simp only [St.reduced, Option.map_eq_some_iff] at h
  obtain ⟨s1, h1, rfl⟩ := h
  have key : Grows s s1 → Grows s (s1.say (.reduced d s.cur a (c.reducer s.cur a).1 (c.reducer s.cur a).2)) :=
    fun h => ⟨h.queue, h.ev⟩
  apply key
  split at h1
  · split at h1
    · rw [complete_plain hF h1]; exact .same rfl hp
    · cases h1
      exact ⟨⟨[_], rfl, by simp⟩, hp⟩
  · cases h1
    exact ⟨⟨[_], rfl, by simp⟩, hp⟩

theorem sendDown_queue (s : St A Mo) : s.sendDown.queue = s.queue ∧ s.sendDown.ev = s.ev := by
  unfold St.sendDown; split <;> exact ⟨rfl, rfl⟩

theorem notify_queue (s : St A Mo) : s.notify.queue = s.queue ∧ s.notify.ev = s.ev := by
  unfold St.notify; split <;> exact ⟨rfl, rfl⟩

theorem pushDown_queue (c : Cfg A Mo) (s : St A Mo) (v : Mo) :
    (s.pushDown c v).queue = s.queue ∧ (s.pushDown c v).ev = s.ev := by
  unfold St.pushDown; split <;> exact ⟨rfl, rfl⟩

theorem jobGo_grows {c : Cfg A Mo} (hF : c.hasF = false) {s t : St A Mo} {j : Job A Mo} {o : Option (Job A Mo)}
    (hp : ∀ f ∈ s.ev, f.plain) (h : j.go c s = some (t, o)) : Grows s t := by
  cases j with
  | reducing d a i =>
    simp only [Job.go] at h
    split at h
    · cases h; exact .same rfl hp
    · simp only [Option.map_eq_some_iff] at h
      obtain ⟨s1, h1, h2⟩ := h
      cases h2
      exact reduced_grows hF hp h1
  | pushing v =>
    cases h
    exact .same (pushDown_queue c s v).1 (by rw [(pushDown_queue c s v).2]; exact hp)
  | sending it =>
    cases h
    split
    · exact .same (sendDown_queue s).1 (by rw [(sendDown_queue s).2]; exact hp)
    · exact .same rfl hp
  | notifying it =>
    cases h
    split
    · exact .same (notify_queue s).1 (by rw [(notify_queue s).2]; exact hp)
    · exact .same rfl hp
  | watching it w =>
    simp only [Job.go, Option.map_eq_some_iff] at h
    obtain ⟨s1, h1, h2⟩ := h
    cases h2
    unfold St.after at h1
    split at h1
    · cases h1
      refine .same rfl ?_
      intro f hf
      rcases List.mem_cons.1 hf with rfl | hf
      · exact ⟨nofun, _, _, rfl⟩
      · exact hp f hf
    · rw [complete_plain hF h1]; exact .same rfl hp
    · cases h1; exact .same rfl hp
    · cases h1

theorem jobRaise_grows {s t : St A Mo} {j : Job A Mo} (hp : ∀ f ∈ s.ev, f.plain) (h : j.raise s = some t) :
    Grows s t := by
  unfold Job.raise at h
  split at h
  · cases h; exact .same rfl hp
  · cases h; exact .same rfl hp
  · cases h

theorem go_grows {c : Cfg A Mo} (hF : c.hasF = false) {s t : St A Mo} {f : EF} (hp : ∀ f ∈ s.ev, f.plain)
    (hf : f.plain) (h : s.go c f = some t) : Grows s t := by
  obtain ⟨x, pos, mode, ks, k⟩ := f
  obtain ⟨hm, d, i, hk⟩ := hf
  dsimp only at hm hk
  subst hk
  have add : ∀ {u : St A Mo} {f : EF}, u.queue = s.queue → u.ev = f :: s.ev → f.plain → Grows s u := by
    intro u f h1 h2 h3
    refine .same h1 ?_
    intro g hg
    rw [h2] at hg
    rcases List.mem_cons.1 hg with rfl | hg
    · exact h3
    · exact hp g hg
  unfold St.go at h
  cases mode with
  | prim _ => cases h
  | call e =>
    cases e with
    | empty => cases h
    | noop => cases h; exact add rfl rfl ⟨nofun, _, _, rfl⟩
    | prim id => cases h; exact add rfl rfl ⟨nofun, _, _, rfl⟩
    | seq a b => cases h; exact add rfl rfl ⟨nofun, _, _, rfl⟩
  | got o =>
    cases o with
    | some j => exact absurd rfl (hm j)
    | none =>
      cases ks with
      | cons e ks => cases h; exact add rfl rfl ⟨nofun, _, _, rfl⟩
      | nil =>
        simp only [hF, Bool.false_eq_true, if_false] at h
        cases h
        exact .same rfl hp

theorem mem_erase_plain {s : St A Mo} (hp : ∀ f ∈ s.ev, f.plain) (n : Nat) : ∀ f ∈ s.ev.eraseIdx n, f.plain :=
  fun f hf => hp f (List.mem_of_mem_eraseIdx hf)

/-- The operations that `ManQ.own` is used for. -/
def POp.plain : POp A → Prop
  | .go _ => True
  | .raise _ => True
  | .user (.dispatch _) => True
  | .user (.go _) => True
  | .user (.prim _ none) => True
  | .user (.raise _) => True
  | _ => False

theorem par_grows {c : Cfg A Mo} (hF : c.hasF = false) {p q : Par A Mo} {op : POp A} (ho : op.plain)
    (hp : ∀ f ∈ p.st.ev, f.plain) (h : Par.step c 1 p op = some q) : Grows p.st q.st := by
  cases op with
  | begin => exact ho.elim
  | commit => exact ho.elim
  | peek => exact ho.elim
  | peeked => exact ho.elim
  | go n =>
    simp only [Par.step] at h
    split at h
    · cases h
    · simp only [Option.map_eq_some_iff] at h
      obtain ⟨⟨s, o⟩, h1, rfl⟩ := h
      exact jobGo_grows hF hp h1
  | raise n =>
    simp only [Par.step] at h
    split at h
    · cases h
    · simp only [Option.map_eq_some_iff] at h
      obtain ⟨s, h1, rfl⟩ := h
      exact jobRaise_grows hp h1
  | user op =>
    simp only [Par.step] at h
    split at h
    · simp only [Option.map_eq_some_iff] at h
      obtain ⟨s, h1, rfl⟩ := h
      show Grows p.st s
      cases op with
      | dispatch a =>
        obtain ⟨h2, h3, -⟩ := dispatch_grows hF h1
        exact ⟨⟨_, h2, by simp⟩, by rw [h3]; exact hp⟩
      | go n =>
        simp only [step] at h1
        split at h1
        · cases h1
        · rename_i f hf
          have := go_grows hF (s := { p.st with ev := p.st.ev.eraseIdx n }) (mem_erase_plain hp n)
            (hp f (List.mem_of_getElem? hf)) h1
          exact ⟨this.queue, this.ev⟩
      | prim n o =>
        cases o with
        | some i => exact ho.elim
        | none =>
          simp only [step] at h1
          split at h1
          · rename_i x pos id ks k hf
            split at h1
            · cases h1
              refine .same rfl ?_
              intro f hg
              rcases List.mem_cons.1 hg with rfl | hg
              · exact ⟨nofun, (hp _ (List.mem_of_getElem? hf)).2⟩
              · exact mem_erase_plain hp n f hg
            · cases h1
          · cases h1
      | raise n =>
        simp only [step] at h1
        split at h1
        · cases h1
          exact .same rfl (mem_erase_plain hp n)
        · rename_i hf
          obtain ⟨-, d, i, hk⟩ := hp _ (List.mem_of_getElem? hf)
          cases hk
        · cases h1
      | loop => exact ho.elim
      | loopRaise => exact ho.elim
      | other l => exact ho.elim
      | fut op => exact ho.elim
      | commit => exact ho.elim
    · cases h

/-! ### Both -/

/-- The tasks of the store among those that wait. -/
def ours (foreign rest : List Nat) : List Nat := rest.filter fun n => !decide (n ∈ foreign)

theorem ours_append (f a b : List Nat) : ours f (a ++ b) = ours f a ++ ours f b := List.filter_append ..

theorem ours_new {f new : List Nat} {k : Nat} (hf : ∀ n ∈ f, n < k) (hn : ∀ n ∈ new, k ≤ n) : ours f new = new := by
  unfold ours
  rw [List.filter_eq_self]
  intro n h
  have : n ∉ f := fun h' => by have := hf n h'; have := hn n h; omega
  simp [this]

/-- Posting another function does not change which of the others are of the store. -/
theorem ours_cons {f rest : List Nat} {k : Nat} (h : ∀ n ∈ rest, n < k) : ours (k :: f) rest = ours f rest := by
  unfold ours
  apply List.filter_congr
  intro n hn
  have : n ≠ k := by have := h n hn; omega
  simp [this]

/-- Of the proof: the invariant. -/
structure ManQ.Inv (c : Cfg A Mo) (m : ManQ A Mo) : Prop where
  par : Par.Reach c 1 m.p
  man : Loop.Manual.Reach m.l
  rest : ∃ rest, Rest m.l rest ∧ (ours m.foreign rest).length = m.p.st.queue.length ∧ ∀ n ∈ rest, n < m.l.next
  known : ∀ n ∈ m.foreign, n < m.l.next
  idle : m.l.ctl = .idle → m.l.i = 0 ∧ m.p.jobs = [] ∧ m.p.st.ev = [] ∧ m.thrown = false
  task : ∀ n, m.l.ctl = .task n → 0 < m.l.i
  plain : ∀ f ∈ m.p.st.ev, f.plain
  tok : Item.tok ∉ m.p.st.queue

theorem posts_reach {l : Loop.Manual.St} (h : Loop.Manual.Reach l) (k : Nat) : Loop.Manual.Reach (posts k l) := by
  induction k generalizing l with
  | zero => exact h
  | succ k ih =>
    simp only [posts]
    apply ih
    cases hs : Loop.Manual.step l .post with
    | none => exact h
    | some l' => exact h.step _ hs

/-- In a task. -/
theorem own_inv {c : Cfg A Mo} (hF : c.hasF = false) {m m' : ManQ A Mo} (k : ManQ.Inv c m) {op : POp A}
    (ho : op.plain) {n : Nat} (hc : m.l.ctl = .task n) (h : m.own c op = some m') :
    ManQ.Inv c m' ∧ m'.l.ctl = .task n := by
  simp only [ManQ.own, Option.map_eq_some_iff] at h
  obtain ⟨p, h1, rfl⟩ := h
  obtain ⟨⟨r, hr, htok⟩, hev⟩ := par_grows hF ho k.plain h1
  obtain ⟨rest, g1, g2, g3⟩ := k.rest
  have hlen : p.st.queue.length - m.p.st.queue.length = r.length := by rw [hr]; simp
  obtain ⟨new, e1, e2, e3, e4, e5, e6, -⟩ := posts_task g1 (k.task n hc) hc r.length
  refine ⟨⟨k.par.step _ h1, posts_reach k.man _, ⟨rest ++ new, ?_, ?_, ?_⟩, ?_, ?_, ?_, hev, ?_⟩, ?_⟩
  · dsimp only; rw [hlen]; exact e3
  · dsimp only
    rw [ours_append, ours_new k.known e2, List.length_append, g2, e1, hr, List.length_append]
  · dsimp only
    rw [hlen, e6]
    intro x hx
    rcases List.mem_append.1 hx with hx | hx
    · have := g3 x hx; omega
    · have hman := Loop.Manual.reach_inv (posts_reach k.man r.length)
      obtain ⟨rest', q1, q2⟩ := hman.split
      have : rest' = rest ++ new := by
        have := e3
        unfold Rest at this
        rw [this] at q1
        have := List.append_cancel_left q1
        exact (List.map_inj_right (fun _ _ => Option.some.inj)).1 this.symm
      have hx' : x ∈ Loop.posted (posts r.length m.l).log := by
        rw [← q2, this]; simp [hx]
      rw [hman.ids, e6] at hx'
      exact List.mem_range.1 hx'
  · dsimp only
    rw [hlen, e6]
    intro x hx
    have := k.known x hx
    omega
  · dsimp only
    rw [hlen, e4]
    exact nofun
  · dsimp only
    rw [hlen]
    exact fun _ _ => e5
  · dsimp only
    rw [hr]
    intro hmem
    rcases List.mem_append.1 hmem with h | h
    · exact k.tok h
    · exact htok h
  · dsimp only
    rw [hlen]
    exact e4

theorem parBegin_queue {c : Cfg A Mo} {p q : Par A Mo} (ht : Item.tok ∉ p.st.queue) (h : Par.step c 1 p .begin = some q) :
    (∃ it, p.st.queue = it :: q.st.queue) ∧ q.st.ev = p.st.ev ∧ q.st.log = p.st.log ∧ q.jobs ≠ [] := by
  simp only [Par.step] at h
  split at h
  · unfold Par.begin at h
    split at h
    · cases h
    · rename_i hq; cases h; exact ⟨⟨_, hq⟩, rfl, rfl, by simp⟩
    · rename_i hq; rw [hq] at ht; simp at ht
    · rename_i hq; cases h; exact ⟨⟨_, hq⟩, rfl, rfl, by simp⟩
  · cases h

/-- A task begins. -/
theorem begin_inv {c : Cfg A Mo} {m m' : ManQ A Mo} (par : Par.Reach c 1 m.p) (man : Loop.Manual.Reach m.l)
    {n : Nat} {rest : List Nat} (hr : Rest m.l rest) (hl : (ours m.foreign (n :: rest)).length = m.p.st.queue.length)
    (hb : ∀ x ∈ rest, x < m.l.next) (known : ∀ x ∈ m.foreign, x < m.l.next) (hc : m.l.ctl = .task n)
    (plain : ∀ f ∈ m.p.st.ev, f.plain) (tok : Item.tok ∉ m.p.st.queue) (h : m.begin c = some m') :
    ManQ.Inv c m' ∧ m'.l = m.l ∧ m'.foreign = m.foreign ∧ m'.p.st.log = m.p.st.log := by
  have hi : 0 < m.l.i := ((Loop.Manual.reach_inv man).task n hc).1
  unfold ManQ.begin at h
  rw [hc] at h
  dsimp only at h
  split at h
  · rename_i hn
    cases h
    refine ⟨⟨par, man, ⟨rest, hr, ?_, hb⟩, known, ?_, fun _ _ => hi, plain, tok⟩, rfl, rfl, rfl⟩
    · rw [← hl]; simp [ours, hn]
    · rw [hc]; exact nofun
  · rename_i hn
    simp only [Option.map_eq_some_iff] at h
    obtain ⟨p, h1, rfl⟩ := h
    obtain ⟨⟨it, hq⟩, hev, hlog, -⟩ := parBegin_queue tok h1
    refine ⟨⟨par.step _ h1, man, ⟨rest, hr, ?_, hb⟩, known, ?_, fun _ _ => hi, ?_, ?_⟩, rfl, rfl, hlog⟩
    · dsimp only
      have : (ours m.foreign (n :: rest)).length = (ours m.foreign rest).length + 1 := by simp [ours, hn]
      rw [this, hq, List.length_cons] at hl
      omega
    · dsimp only; rw [hc]; exact nofun
    · dsimp only; rw [hev]; exact plain
    · dsimp only
      intro h'
      exact tok (by rw [hq]; exact List.mem_cons_of_mem _ h')

theorem rest_bound {l : Loop.Manual.St} (h : Loop.Manual.Reach l) {rest : List Nat} (hr : Rest l rest) :
    ∀ n ∈ rest, n < l.next := by
  obtain ⟨rest', q1, q2⟩ := (Loop.Manual.reach_inv h).split
  have he : rest' = rest := by
    unfold Rest at hr
    rw [hr] at q1
    have := List.append_cancel_left q1
    exact (List.map_inj_right (fun _ _ => Option.some.inj)).1 this.symm
  intro n hn
  have : n ∈ Loop.posted l.log := by rw [← q2, he]; simp [hn]
  rw [(Loop.Manual.reach_inv h).ids] at this
  exact List.mem_range.1 this

theorem ManQ.inv_step {c : Cfg A Mo} (hF : c.hasF = false) {m m' : ManQ A Mo} (k : ManQ.Inv c m) {op : MOp A}
    (h : ManQ.step c m op = some m') : ManQ.Inv c m' := by
  obtain ⟨rest, g1, g2, g3⟩ := k.rest
  -- a step of the store when no task runs is possible only for `dispatch`
  have noTask : ∀ {op : POp A} {m' : ManQ A Mo}, op.plain → (∀ a, op ≠ .user (.dispatch a)) → m.l.ctl = .idle →
      m.own c op = some m' → False := by
    intro op m' ho hd hc h
    obtain ⟨-, hj, he, -⟩ := k.idle hc
    simp only [ManQ.own, Option.map_eq_some_iff] at h
    obtain ⟨p, h1, -⟩ := h
    cases op with
    | begin => exact ho
    | commit => exact ho
    | peek => exact ho
    | peeked => exact ho
    | go n => simp [Par.step, hj] at h1
    | raise n => simp [Par.step, hj] at h1
    | user op =>
      cases op with
      | dispatch a => exact hd a rfl
      | go n => simp [Par.step, Store.step, he] at h1
      | prim n o =>
        cases o with
        | some i => exact ho
        | none => simp [Par.step, Store.step, he] at h1
      | raise n => simp [Par.step, Store.step, he] at h1
      | loop => exact ho
      | loopRaise => exact ho
      | other l => exact ho
      | fut op => exact ho
      | commit => exact ho
  have inTask : ∀ {op : POp A} {m' : ManQ A Mo}, op.plain → (∀ a, op ≠ .user (.dispatch a)) →
      m.own c op = some m' → ManQ.Inv c m' := by
    intro op m' ho hd h
    cases hc : m.l.ctl with
    | idle => exact (noTask ho hd hc h).elim
    | task n => exact (own_inv hF k ho hc h).1
  cases op with
  | dispatch a =>
    simp only [ManQ.step] at h
    split at h
    · cases h
    · cases hc : m.l.ctl with
      | task n =>
        rw [hc] at h
        exact (own_inv hF k (by trivial) hc h).1
      | idle =>
        rw [hc] at h
        simp only [Option.bind_eq_some_iff] at h
        obtain ⟨m1, h1, h2⟩ := h
        simp only [ManQ.own, Option.map_eq_some_iff] at h1
        obtain ⟨p, h1, rfl⟩ := h1
        obtain ⟨hi, -, -, -⟩ := k.idle hc
        have hp := h1
        simp only [Par.step] at h1
        split at h1
        · simp only [Option.map_eq_some_iff] at h1
          obtain ⟨s, h3, rfl⟩ := h1
          obtain ⟨e1, e2, -⟩ := dispatch_grows hF h3
          have hlen : s.queue.length - m.p.st.queue.length = 1 := by rw [e1]; simp
          obtain ⟨n, rest', f1, f2, f3, f4⟩ := posts_idle g1 hi
          dsimp only at h2
          rw [hlen] at h2
          have hreach := posts_reach k.man 1
          refine (begin_inv (k.par.step _ hp) hreach (n := n) f3 ?_ (rest_bound hreach f3) ?_ f2 ?_ ?_ h2).1
          · dsimp only
            rw [← f1, ours_append, List.length_append, g2, e1, List.length_append,
              ours_new k.known (new := [m.l.next]) (by simp)]
            rfl
          · dsimp only
            rw [f4]
            intro x hx
            have := k.known x hx
            omega
          · dsimp only; rw [e2]; exact k.plain
          · dsimp only
            rw [e1]
            simp [k.tok]
        · cases h1
  | post =>
    simp only [ManQ.step] at h
    split at h
    · cases h
    · cases hc : m.l.ctl with
      | task n =>
        rw [hc] at h
        cases h
        obtain ⟨new, e1, e2, e3, e4, e5, e6, -⟩ := posts_task g1 (k.task n hc) hc 1
        have hreach := posts_reach k.man 1
        obtain ⟨x, hx⟩ : ∃ x, new = [x] := by
          cases new with
          | nil => cases e1
          | cons x l => cases l with
            | nil => exact ⟨x, rfl⟩
            | cons => cases e1
        subst hx
        have hxe : x = m.l.next := by
          have h1 := e2 x (by simp)
          have h2 := rest_bound hreach e3 x (by simp)
          rw [e6] at h2
          omega
        subst hxe
        refine ⟨k.par, hreach, ⟨_, e3, ?_, rest_bound hreach e3⟩, ?_, ?_, fun _ _ => e5, k.plain, k.tok⟩
        · dsimp only
          rw [ours_append, ours_cons g3, List.length_append, g2]
          simp [ours]
        · dsimp only
          rw [e6]
          intro y hy
          rcases List.mem_cons.1 hy with rfl | hy
          · omega
          · have := k.known y hy; omega
        · dsimp only; rw [e4]; exact nofun
      | idle =>
        rw [hc] at h
        dsimp only at h
        obtain ⟨hi, -, -, -⟩ := k.idle hc
        obtain ⟨n, rest', f1, f2, f3, f4⟩ := posts_idle g1 hi
        have hreach := posts_reach k.man 1
        refine (begin_inv (m := { m with l := posts 1 m.l, foreign := m.l.next :: m.foreign }) k.par hreach (n := n) f3
          ?_ (rest_bound hreach f3) ?_ f2 k.plain k.tok h).1
        · dsimp only
          rw [← f1, ours_append, ours_cons g3, List.length_append, g2]
          simp [ours]
        · dsimp only
          rw [f4]
          intro y hy
          rcases List.mem_cons.1 hy with rfl | hy
          · omega
          · have := k.known y hy; omega
  | go => exact inTask (by trivial) (by intro a h; cases h) h
  | raise => exact inTask (by trivial) (by intro a h; cases h) h
  | effect =>
    simp only [ManQ.step] at h
    split at h
    · cases h
    · exact inTask (by trivial) (by intro a h; cases h) h
  | prim => exact inTask (by trivial) (by intro a h; cases h) h
  | primRaise => exact inTask (by trivial) (by intro a h; cases h) h
  | fail =>
    simp only [ManQ.step] at h
    split at h
    · rename_i n hc
      split at h
      · cases h
        exact ⟨k.par, k.man, k.rest, k.known, (fun h' => by dsimp only at h'; rw [hc] at h'; cases h'), k.task, k.plain,
          k.tok⟩
      · cases h
    · cases h
  | ret =>
    simp only [ManQ.step] at h
    split at h
    · rename_i hf
      simp only [Option.bind_eq_some_iff] at h
      obtain ⟨l, h1, h2⟩ := h
      have hreach := k.man.step _ h1
      simp only [Loop.Manual.step] at h1
      split at h1
      · cases h1
      · rename_i n hc
        simp only [Option.some.injEq] at h1
        have g1' : Rest { m.l with log := m.l.log ++ [.done n] } rest := g1
        cases rest with
        | nil =>
          rw [advance_nil g1'] at h1
          subst h1
          unfold ManQ.begin at h2
          dsimp only at h2
          cases h2
          refine ⟨k.par, hreach, ⟨[], by simp [Rest], ?_, nofun⟩, k.known, fun _ => ⟨rfl, ?_, ?_, hf.2⟩, nofun, k.plain, k.tok⟩
          · exact g2
          · have := hf.1
            simp only [ManQ.free, Bool.and_eq_true, List.isEmpty_iff] at this
            exact this.1
          · have := hf.1
            simp only [ManQ.free, Bool.and_eq_true, List.isEmpty_iff] at this
            exact this.2
        | cons x rest =>
          obtain ⟨f1, f2, f3, f4⟩ := advance_cons g1'
          rw [h1] at f1 f2 f3 f4
          refine (begin_inv (m := { m with l := l }) k.par hreach (n := x) f4 g2 (rest_bound hreach f4) ?_ f1 k.plain k.tok h2).1
          dsimp only
          rw [f2]
          exact k.known
    · cases h
  | throw =>
    simp only [ManQ.step] at h
    split at h
    · rename_i hf
      simp only [Option.map_eq_some_iff] at h
      obtain ⟨l, h1, rfl⟩ := h
      have hreach := k.man.step _ h1
      simp only [Loop.Manual.step] at h1
      split at h1
      · cases h1
      · rename_i n hc
        simp only [Option.some.injEq] at h1
        subst h1
        have hfree := hf.1
        simp only [ManQ.free, Bool.and_eq_true, List.isEmpty_iff] at hfree
        refine ⟨k.par, hreach, ⟨rest, ?_, g2, g3⟩, k.known, fun _ => ⟨rfl, hfree.1, hfree.2, rfl⟩, nofun, k.plain, k.tok⟩
        unfold Rest at g1 ⊢
        simp only [Loop.Manual.caught, g1]
        rw [List.drop_append_of_le_length (by simp)]
        simp
    · cases h

theorem ManQ.Reach.inv {c : Cfg A Mo} (hF : c.hasF = false) {m : ManQ A Mo} (r : ManQ.Reach c m) : ManQ.Inv c m := by
  induction r with
  | start =>
    exact ⟨.start, .init, ⟨[], by simp [Rest, ManQ.start, Loop.Manual.init], rfl, nofun⟩, nofun,
      fun _ => ⟨rfl, rfl, rfl, rfl⟩, nofun, nofun, nofun⟩
  | step op _ h ih => exact ManQ.inv_step hF ih h

end Verif.Store
