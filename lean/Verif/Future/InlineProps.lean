import Verif.Future.InlineSim
import Verif.Future.InlineRest
import Verif.Future.InlineFlat
import Verif.Future.InlineNest
import Verif.Future.Props

/-!
Property C87: futures and promises over the manual event loop, which runs functions inside of `post`;
and without copies.
-/

namespace Verif.Future

/-- The promise has been called: it is marked as fulfilled, or the callback that was attached to its future
has been taken from it. -/
def Called (m : M) (s : Nat) : Prop :=
  Fulfilled m s ∨ ((∃ c p, Attached m c s p) ∧ (m.cell s).cb = none)

/-- A callback of the user runs inside of a call of `then`. -/
def InsideThen (k : K) : Prop := ∃ t st s, k.stack = .code (.run t) :: st ∧ KF.attached s ∈ st

/-- A callback of the user runs inside of the call of a promise. -/
def InsideCall (k : K) : Prop := ∃ t st s i, k.stack = .code (.run t) :: st ∧ KF.called s i ∈ st

/-- A sequence of operations. -/
def kexec (inl : Nat → Bool) (k : K) : List KOp → Option K
  | [] => some k
  | op :: ops => (kstep inl k op).bind fun k' => kexec inl k' ops

theorem kexec_reach {inl : Nat → Bool} {k k' : K} {ops : List KOp} (r : KReach inl k)
    (h : kexec inl k ops = some k') : KReach inl k' := by
  induction ops generalizing k with
  | nil => cases h; exact r
  | cons op ops ih =>
    simp only [kexec, Option.bind_eq_some_iff] at h
    obtain ⟨k1, h1, h2⟩ := h
    exact ih (.step op r h1) h2

theorem kexec_reachQ {inl : Nat → Bool} {k k' : K} {ops : List KOp} (r : KReachQ inl k)
    (ho : ∀ op ∈ ops, op.copies = false ∧ op.raises = false) (h : kexec inl k ops = some k') :
    KReachQ inl k' := by
  induction ops generalizing k with
  | nil => cases h; exact r
  | cons op ops ih =>
    simp only [kexec, Option.bind_eq_some_iff] at h
    obtain ⟨k1, h1, h2⟩ := h
    have := ho op List.mem_cons_self
    exact ih (.step op r this.1 this.2 h1) (fun o hx => ho o (List.mem_cons_of_mem _ hx)) h2

theorem kexec_reachM {inl : Nat → Bool} {k k' : K} {ops : List KOp} (r : KReachM inl k)
    (ho : ∀ op ∈ ops, op.copies = false) (h : kexec inl k ops = some k') : KReachM inl k' := by
  induction ops generalizing k with
  | nil => cases h; exact r
  | cons op ops ih =>
    simp only [kexec, Option.bind_eq_some_iff] at h
    obtain ⟨k1, h1, h2⟩ := h
    exact ih (.step op r (ho op List.mem_cons_self) h1) (fun o hx => ho o (List.mem_cons_of_mem _ hx)) h2

/-! ### Without copies, any loops -/

/-- C87: programs that only move promises and futures never attach two callbacks to one future: the
assertion in `then` never fails, whatever they do, in any number of threads, with loops that queue. -/
theorem C87_no_assert {m : M} (r : ReachM m) : m.ub = false := r.lin.1

/-- C87: … and every promise is fulfilled at most once: whatever still holds it is not fulfilled. -/
theorem C87_promise_once {m : M} (r : ReachM m) {i s : Nat} (h : m.proms[i]? = some (some s)) :
    ¬ Fulfilled m s ∧ ∀ j : Nat, m.proms[j]? = some (some s) → j = i := by
  obtain ⟨_, _, lp⟩ := r.lin
  refine ⟨?_, fun j hj => lp.objs _ _ _ hj h⟩
  intro hd
  rw [Fulfilled, (lp.obj i s h).2] at hd
  cases hd

/-- Two pairs; one callback, whose result is the other future. -/
example : ∃ m, ReachM m ∧ m.proms[1]? = some (some 1) ∧ Fulfilled m 0 ∧ ¬ Fulfilled m 1 := by
  refine ⟨(exec start [.newPair 0, .newPair 0, .then 0 true, .fulfil 0, .run 0, .retF 0 1, .lib 0]).getD start,
    ?_, ?_, ?_, ?_⟩
  · exact .step (.lib 0) (.step (.retF 0 1) (.step (.run 0) (.step (.fulfil 0) (.step (.then 0 true)
      (.step (.newPair 0) (.step (.newPair 0) .start rfl rfl) rfl rfl) rfl rfl) rfl rfl) rfl rfl) rfl rfl)
      rfl rfl
  · decide +kernel
  · unfold Fulfilled; decide +kernel
  · unfold Fulfilled; decide +kernel

/-! ### Manual loops -/

def allManual : Nat → Bool := fun _ => true

/-- `p(); f.then(g)` with a manual loop. -/
def opsThen : List KOp := [.user (.newPair 0), .user (.fulfil 0), .user (.then 0 false), .lib]

/-- `f.then(g); p()` with a manual loop. -/
def opsCall : List KOp := [.user (.newPair 0), .user (.then 0 false), .user (.fulfil 0), .lib]

def kThen : K := (kexec allManual kstart opsThen).getD kstart
def kCall : K := (kexec allManual kstart opsCall).getD kstart

theorem getD_some {o : Option K} (h : o.isSome = true) : o = some (o.getD kstart) := by
  cases o with
  | none => cases h
  | some x => rfl

theorem kThen_exec : kexec allManual kstart opsThen = some kThen := getD_some (by decide +kernel)
theorem kCall_exec : kexec allManual kstart opsCall = some kCall := getD_some (by decide +kernel)

/-- C87: with the manual loop it is FALSE that callbacks never run inside of `then` or of the call of a
promise, even without copies and exceptions. -/
theorem C87_inside_false :
    ¬ (∀ (inl : Nat → Bool) (k : K), KReachQ inl k → ¬ InsideThen k) ∧
    ¬ (∀ (inl : Nat → Bool) (k : K), KReachQ inl k → ¬ InsideCall k) := by
  constructor
  · intro h
    refine h allManual kThen (kexec_reachQ .start (by decide +kernel) kThen_exec) ?_
    refine ⟨⟨0, 1, .void⟩, [.drain 0, .attached 0], 0, ?_, ?_⟩ <;> decide +kernel
  · intro h
    refine h allManual kCall (kexec_reachQ .start (by decide +kernel) kCall_exec) ?_
    refine ⟨⟨0, 1, .void⟩, [.drain 0, .called 0 (some 0)], 0, some 0, ?_, ?_⟩ <;> decide +kernel

/-- C87: with loops that only queue it is true, copies and exceptions or not. -/
theorem C87_queued_outside {inl : Nat → Bool} (h0 : ∀ l, inl l = false) {k : K} (r : KReach inl k) :
    ¬ InsideThen k ∧ ¬ InsideCall k := by
  have h := (r.flat h0).1
  constructor
  · rintro ⟨t, st, s, h1, h2⟩
    rw [h1] at h
    obtain ⟨c, e⟩ := h _ h2
    cases e
  · rintro ⟨t, st, s, i, h1, h2⟩
    rw [h1] at h
    obtain ⟨c, e⟩ := h _ h2
    cases e

/-- A callback that runs in a loop that queues. -/
example : ∃ k, KReach (fun _ => false) k ∧ runs k.m 0 = 1 ∧ k.stack = [.code (.run ⟨0, 1, .void⟩)] :=
  ⟨_, kexec_reach (ops := [.user (.newPair 0), .user (.fulfil 0), .user (.then 0 false), .lib, .user (.run 0)])
    .start (getD_some (by decide +kernel)), by decide +kernel, by decide +kernel⟩

/-- The callback uses a copy of the future: `auto f2 = f; p(); f.then([&] { f2.then(h); })`. -/
def opsDeadF : List KOp :=
  [.user (.newPair 0), .user (.copyF 0), .user (.fulfil 0), .user (.then 0 false), .lib,
   .user (.then 1 false)]

/-- The callback calls a copy of the promise: `auto p2 = p; f.then([&] { p2(); }); p();`. -/
def opsDeadP : List KOp :=
  [.user (.newPair 0), .user (.copyP 0), .user (.then 0 false), .user (.fulfil 0), .lib,
   .user (.fulfil 1)]

/-- C87: with the manual loop, copies of futures or promises are FALSE friends: a callback that uses a copy
of its future, or calls a copy of its promise, locks a mutex that its own thread holds. -/
theorem C87_copies_false :
    ¬ (∀ (inl : Nat → Bool) (k : K), KReach inl k → k.bad ≠ some .deadlock) ∧
    (∃ k, kexec allManual kstart opsDeadF = some k ∧ k.bad = some .deadlock) ∧
    (∃ k, kexec allManual kstart opsDeadP = some k ∧ k.bad = some .deadlock) := by
  have h1 : ∃ k, kexec allManual kstart opsDeadF = some k ∧ k.bad = some .deadlock :=
    ⟨_, getD_some (by decide +kernel), by decide +kernel⟩
  refine ⟨?_, h1, ⟨_, getD_some (by decide +kernel), by decide +kernel⟩⟩
  intro h
  obtain ⟨k, h2, h3⟩ := h1
  exact h _ k (kexec_reach .start h2) h3

/-- With loops that only queue, the same programs run (`lib` is the return of the call, `run` the loop). -/
example : ((kexec (fun _ => false) kstart [.user (.newPair 0), .user (.copyF 0), .user (.fulfil 0),
      .user (.then 0 false), .lib, .user (.run 0), .user (.then 1 false), .lib]).map (·.bad)) = some none ∧
    ((kexec (fun _ => false) kstart [.user (.newPair 0), .user (.copyP 0), .user (.then 0 false),
      .user (.fulfil 0), .lib, .user (.run 0), .user (.fulfil 1)]).map (·.bad)) = some none := by
  decide +kernel

theorem free_fulfil {inl : Nat → Bool} {k : K} (h : ∀ s, k.locked s = false) (hb : k.bad ≠ some .deadlock)
    (h0 : ∀ l, inl l = false) (s : Nat) (i : Option Nat) : (k.fulfil inl s i).bad ≠ some .deadlock := by
  unfold K.fulfil
  rw [if_neg (by simp [h s])]
  dsimp only
  split
  · unfold K.post
    simpa [h0] using hb
  · exact hb

theorem free_attach {inl : Nat → Bool} {k : K} (h : ∀ s, k.locked s = false) (hb : k.bad ≠ some .deadlock)
    (h0 : ∀ l, inl l = false) (s : Nat) (fn : Fn) : (k.attach inl s fn).bad ≠ some .deadlock := by
  unfold K.attach
  dsimp only
  split
  · simp
  · rw [if_neg (by simp [h s])]
    split
    · unfold K.post
      simpa [h0] using hb
    · exact hb

theorem free_thenF {inl : Nat → Bool} {k : K} (h : ∀ s, k.locked s = false) (hb : k.bad ≠ some .deadlock)
    (h0 : ∀ l, inl l = false) (s : Option Nat) (fn : Fn) (j : Option Nat) :
    (k.thenF inl s fn j).bad ≠ some .deadlock := by
  unfold K.thenF
  cases s with
  | some s => exact free_attach h hb h0 s fn
  | none =>
    cases fn with
    | void => exact hb
    | fut => exact hb
    | prom q => exact free_fulfil h hb h0 q j
    | give g => exact hb

/-- Nothing is locked if there is only code on the stack. -/
theorem free_plain {k : K} (hh : Held k) (h : Plain k.stack) (s : Nat) : k.locked s = false := by
  cases e : k.locked s with
  | false => rfl
  | true =>
    rcases hh.lock s e with ⟨i, h1⟩ | h1
    · obtain ⟨c, e⟩ := h _ h1
      cases e
    · obtain ⟨c, e⟩ := h _ h1
      cases e

/-- C87: with loops that only queue, copies do no harm: there is no deadlock. -/
theorem C87_queued_no_deadlock {inl : Nat → Bool} (h0 : ∀ l, inl l = false) {k : K} (r : KReach inl k) :
    k.bad ≠ some .deadlock := by
  induction r with
  | start => nofun
  | @step k k' op r he ih =>
    have hh := r.held
    have hf := r.flat h0
    unfold kstep at he
    split at he
    · cases he
    rename_i hb
    cases op with
    | user op =>
      dsimp only at he
      split at he
      · rename_i hc
        simp only [Bool.and_eq_true] at hc
        have hl := free_plain hh (plain_user hc.2 hf)
        cases op <;> simp only [K.user] at he
        case newPair => cases he; exact ih
        case invalid => cases he; exact ih
        case copyP =>
          split at he
          · cases he; simp
          · rw [Option.map_eq_some_iff] at he
            obtain ⟨_, _, rfl⟩ := he
            exact ih
        case copyF =>
          rw [Option.map_eq_some_iff] at he
          obtain ⟨_, _, rfl⟩ := he
          exact ih
        case fulfil =>
          split at he
          · cases he; simp
          · split at he
            · cases he
            · cases he; exact ih
            · cases he
              refine free_fulfil ?_ ?_ h0 _ _
              · exact hl
              · exact ih
        case «then» =>
          split at he
          · cases he
          · cases he
            refine free_thenF ?_ ?_ h0 _ _ _
            · exact hl
            · exact ih
        case thenP =>
          split at he
          · cases he; simp
          · split at he
            · cases he
              refine free_thenF ?_ ?_ h0 _ _ _
              · exact hl
              · exact ih
            · cases he
        case also =>
          split at he
          · split at he
            · cases he
            · cases he
              refine free_thenF ?_ ?_ h0 _ _ _
              · exact hl
              · exact ih
          · cases he
        case run =>
          split at he
          · cases he
          · split at he
            · cases he
            · cases he; exact ih
        case retV =>
          split at he
          · split at he
            · cases he; exact ih
            · cases he
          · cases he; exact ih
          · cases he
        case retF =>
          split at he
          · split at he
            · cases he; exact ih
            · cases he
          · cases he; exact ih
          · cases he
        case raise =>
          split at he
          · cases he; exact ih
          · cases he
      · cases he
    | lib =>
      dsimp only at he
      split at he
      · have hp : ∀ {f st}, k.stack = .code f :: st → ∀ s, k.locked s = false := by
          intro f st hst
          refine free_plain hh ?_
          rw [hst] at hf ⊢
          intro g hg
          rcases List.mem_cons.1 hg with rfl | hg
          · exact ⟨_, rfl⟩
          · exact hf.1 g hg
        unfold K.lib at he
        split at he
        · rename_i hst
          cases he
          refine free_fulfil ?_ ?_ h0 _ _
          · exact hp hst
          · exact ih
        · rename_i hst
          cases he
          refine free_fulfil ?_ ?_ h0 _ _
          · exact hp hst
          · exact ih
        · rename_i hst
          cases he
          refine free_attach ?_ ?_ h0 _ _
          · exact hp hst
          · exact ih
        · rename_i hst
          cases he
          refine free_fulfil ?_ ?_ h0 _ _
          · exact hp hst
          · exact ih
        · split at he <;> (cases he; exact ih)
        · cases he; exact ih
        · cases he; exact ih
        · cases he
      · cases he
    | unwind =>
      dsimp only at he
      split at he
      · unfold K.unwind at he
        split at he
        · cases he
        all_goals (cases he; exact ih)
      · cases he
    | «catch» =>
      dsimp only at he
      split at he
      · cases he; exact ih
      · cases he

/-- C87: without copies there is no deadlock and no failed assertion, for any mix of manual loops and loops
that queue, for all programs, however calls are nested and whatever throws.  The only thing left that can
go wrong is to use a promise object inside of its own call (or after an exception has left it). -/
theorem C87_no_deadlock {inl : Nat → Bool} {k : K} (r : KReachM inl k) :
    k.bad ≠ some .deadlock ∧ k.bad ≠ some .twice := by
  rcases r.sim with h | ⟨h, _⟩ <;> rw [h] <;> simp

/-- C87: everything that is observable with manual loops can happen with loops that queue, in the same
order: this is a refinement. -/
theorem C87_refines {inl : Nat → Bool} {k : K} (r : KReachM inl k) (hb : k.bad = none) :
    ∃ m, Reach m ∧ m.ub = false ∧ m.log = k.m.log ∧ m.queue = k.m.queue ∧ m.proms = k.m.proms ∧
      m.futs = k.m.futs ∧ (∀ s, Fulfilled m s ↔ Called k.m s) ∧
      ∀ s, (m.cell s).loop = (k.m.cell s).loop := by
  rcases r.sim with h | ⟨_, m, rm, h⟩
  · rw [hb] at h; cases h
  · obtain ⟨hu, lf, lp⟩ := rm.lin
    have i := rm.reach.inv hu
    refine ⟨m, rm.reach, hu, h.log.symm, h.queue.symm, h.proms.symm, h.futs.symm,
      fun s => ⟨?_, ?_⟩, fun s => (h.loop s).symm⟩
    · intro hd
      cases hk : (k.m.cell s).done with
      | true => exact Or.inl hk
      | false =>
        obtain ⟨c, p, fn, ha⟩ := h.limbo s hd hk
        refine Or.inr ⟨⟨c, p, fn, by rw [h.log]; exact ha⟩, ?_⟩
        rw [h.cb]
        cases hc : (m.cell s).cb with
        | none => rfl
        | some t =>
          have := (i.stored s t hc).2.1
          rw [show (m.cell s).done = true from hd] at this
          cases this
    · rintro (hd | ⟨⟨c, p, fn, ha⟩, hc⟩)
      · exact h.done s hd
      · rw [h.log] at ha
        rw [h.cb] at hc
        have h1 := i.one _ _ _ _ ha
        have h2 : m.here s c = 0 := by unfold M.here; rw [hc]
        have hA : Attached m c s p := ⟨fn, ha⟩
        by_cases h3 : m.starts c = 0
        · have h4 : 0 < m.queued (m.cell s).loop c := by omega
          obtain ⟨t, ht, e⟩ := List.countP_pos_iff.1 h4
          exact i.started_fulfilled hA (Or.inr ⟨_, t, ht, by simpa using e⟩)
        · exact i.started_fulfilled hA (Or.inl (List.count_pos_iff.1 (Nat.pos_of_ne_zero h3)))

theorem attached_log {m m' : M} (h : m.log = m'.log) {c s p : Nat} : Attached m c s p ↔ Attached m' c s p := by
  unfold Attached
  rw [h]

theorem chain_log {m m' : M} (h : m.log = m'.log) {a b : Nat} (hc : Chain m a b) : Chain m' a b := by
  induction hc with
  | next h1 h2 => exact .next ((attached_log h).1 h1) ((attached_log h).1 h2)
  | more _ h2 h3 ih =>
    exact .more ih (h2.imp fun _ x => (attached_log h).1 x) ((attached_log h).1 h3)

/-- C87: with manual loops a callback is run at most once, not before its promise is called, and then it
has been run or waits exactly once in the loop of the promise. -/
theorem C87_once {inl : Nat → Bool} {k : K} (r : KReachM inl k) (hb : k.bad = none) {c s p : Nat}
    (h : Attached k.m c s p) :
    (¬ Called k.m s → runs k.m c = 0 ∧ ∀ l, ¬ Waits k.m l c) ∧
    (Called k.m s → (runs k.m c = 1 ∧ ∀ l, ¬ Waits k.m l c) ∨
      (runs k.m c = 0 ∧ ((k.m.queue (k.m.cell s).loop).filter (fun t => t.c = c)).length = 1)) := by
  obtain ⟨m, rm, hu, h1, h2, _, _, h3, h4⟩ := C87_refines r hb
  have := C44_once rm hu ((attached_log h1).2 h)
  rw [h3] at this
  unfold runs Waits at this ⊢
  rw [h1, h2, h4] at this
  exact ⟨this.1, fun hc => this.2 hc⟩

/-- C87: with manual loops, callbacks in a chain of `then`s start only when all previous ones have finished
and the promises of the futures that they have returned have been called. -/
theorem C87_order {inl : Nat → Bool} {k : K} (r : KReachM inl k) (hb : k.bad = none) {a b : Nat}
    (hab : Chain k.m a b) (hr : runs k.m b ≠ 0) :
    ∃ res, Finished k.m a res ∧ ∀ g, res = some (some g) → Called k.m g := by
  obtain ⟨m, rm, hu, h1, h2, _, _, h3, h4⟩ := C87_refines r hb
  have i := rm.inv hu
  have hs : Ev.start b ∈ m.log := by
    rw [h1]
    exact List.count_pos_iff.1 (Nat.pos_of_ne_zero hr)
  obtain ⟨res, h4, h5⟩ := i.chain (chain_log h1.symm hab) (Or.inl hs)
  refine ⟨res, ?_, fun g hg => (h3 g).1 (h5 g hg)⟩
  unfold Finished at h4 ⊢
  rw [← h1]
  exact h4

/-- C87: with manual loops, when a callback has returned nothing or an empty future, the promise of the
future that `then` has returned for it is called; if it has returned a future, a callback that calls that
promise is attached to it. -/
theorem C87_completes {inl : Nat → Bool} {k : K} (r : KReachM inl k) (hb : k.bad = none) {c s p : Nat}
    {res : Option (Option Nat)} (h : Attached k.m c s p) (hf : Finished k.m c res) :
    ((∀ g, res ≠ some (some g)) → Called k.m p) ∧
    (∀ g, res = some (some g) → ∃ d q, Attached k.m d g q ∧ ∀ x, Finished k.m d x → Called k.m p) := by
  obtain ⟨m, rm, hu, h1, h2, _, _, h3, h4⟩ := C87_refines r hb
  have hF : ∀ d x, Finished m d x ↔ Finished k.m d x := fun d x => by unfold Finished; rw [h1]
  obtain ⟨k1, k2⟩ := C45_completes rm hu ((attached_log h1).2 h) ((hF c res).2 hf)
  refine ⟨fun hg => (h3 p).1 (k1 hg), fun g hg => ?_⟩
  obtain ⟨d, q, k3, k4⟩ := k2 g hg
  exact ⟨d, q, (attached_log h1).1 k3, fun x hx => (h3 p).1 (k4 x ((hF d x).2 hx))⟩

theorem kpost_log (inl : Nat → Bool) (k : K) (l : Nat) (t : Task) : (k.post inl l t).m.log = k.m.log := by
  unfold K.post
  dsimp only
  split <;> rfl

theorem kattach_log (inl : Nat → Bool) (k : K) (s : Nat) (fn : Fn) :
    (k.attach inl s fn).m.log = k.m.log ++ [.attach k.m.nextC s k.m.size fn] := by
  unfold K.attach
  dsimp only
  split
  · rfl
  · split
    · rfl
    · split
      · rw [kpost_log]
      · rfl

theorem kattach_futs (inl : Nat → Bool) (k : K) (s : Nat) (fn : Fn) :
    (k.attach inl s fn).m.futs = k.m.futs := by
  unfold K.attach K.post
  dsimp only
  split
  · rfl
  · split
    · rfl
    · split
      · split <;> rfl
      · rfl

/-- C87: `then` on a future with a promise attaches the callback to it, and returns a future with a new
promise. -/
theorem C87_then {inl : Nat → Bool} {k k1 : K} {a s : Nat} {isF : Bool}
    (hf : k.m.futs[a]? = some (some s)) (h : kstep inl k (.user (.then a isF)) = some k1) :
    ∃ p, Attached k1.m k.m.nextC s p ∧ k1.m.futs = k.m.futs.set a none ++ [some p] := by
  unfold kstep at h
  split at h
  · cases h
  · dsimp only at h
    split at h
    · simp only [K.user, hf, Option.some.injEq] at h
      subst h
      simp only [K.thenF, Attached]
      rw [kattach_log, kattach_futs]
      exact ⟨_, ⟨_, List.mem_append_right _ List.mem_cons_self⟩, rfl⟩
    · cases h

example : kThen.m.futs = [none, some 1] ∧
    (kstep allManual kThen (.user (.then 1 true))).isSome = true := by decide +kernel

/-- Events are not forgotten. -/
theorem kstep_log {inl : Nat → Bool} {k k' : K} {op : KOp} (h : kstep inl k op = some k') :
    ∀ e ∈ k.m.log, e ∈ k'.m.log := by
  have hF : ∀ (k : K) s i, (k.fulfil inl s i).m.log = k.m.log := by
    intro k s i
    unfold K.fulfil
    split
    · rfl
    · dsimp only
      split
      · rw [kpost_log]
      · rfl
  have hA : ∀ (k : K) s fn, ∀ e ∈ k.m.log, e ∈ (k.attach inl s fn).m.log := by
    intro k s fn e he
    rw [kattach_log]
    exact List.mem_append_left _ he
  have hT : ∀ (k : K) s fn j, ∀ e ∈ k.m.log, e ∈ (k.thenF inl s fn j).m.log := by
    intro k s fn j e he
    unfold K.thenF
    cases s with
    | some s => exact hA k s fn e he
    | none =>
      cases fn with
      | void => exact List.mem_append_left _ he
      | fut => exact List.mem_append_left _ he
      | prom q => show e ∈ (k.fulfil inl q j).m.log; rw [hF]; exact he
      | give g => exact he
  intro e hm
  unfold kstep at h
  split at h
  · cases h
  cases op with
  | user op =>
    dsimp only at h
    split at h
    · cases op <;> simp only [K.user] at h
      case newPair => cases h; exact hm
      case invalid => cases h; exact hm
      case copyP =>
        split at h
        · cases h; exact hm
        · rw [Option.map_eq_some_iff] at h
          obtain ⟨_, _, rfl⟩ := h
          exact hm
      case copyF =>
        rw [Option.map_eq_some_iff] at h
        obtain ⟨_, _, rfl⟩ := h
        exact hm
      case fulfil =>
        split at h
        · cases h; exact hm
        · split at h
          · cases h
          · cases h; exact List.mem_append_left _ hm
          · cases h; rw [hF]; exact hm
      case «then» =>
        split at h
        · cases h
        · cases h; exact hT _ _ _ _ e hm
      case thenP =>
        split at h
        · cases h; exact hm
        · split at h
          · cases h; exact hT _ _ _ _ e hm
          · cases h
      case also =>
        split at h
        · split at h
          · cases h
          · cases h; exact hT _ _ _ _ e hm
        · cases h
      case run =>
        split at h
        · cases h
        · split at h
          · cases h
          · cases h; exact List.mem_append_left _ hm
      case retV =>
        split at h
        · split at h
          · cases h; exact hm
          · cases h
        · cases h; exact hm
        · cases h
      case retF =>
        split at h
        · split at h
          · cases h; exact hm
          · cases h
        · cases h; exact hm
        · cases h
      case raise =>
        split at h
        · cases h; exact hm
        · cases h
    · cases h
  | lib =>
    dsimp only at h
    split at h
    · unfold K.lib at h
      split at h
      · cases h; rw [hF]; exact List.mem_append_left _ hm
      · cases h; rw [hF]; exact List.mem_append_left _ hm
      · cases h; exact hA _ _ _ e (List.mem_append_left _ hm)
      · cases h; rw [hF]; exact hm
      · split at h
        · cases h; exact hm
        · cases h; exact List.mem_append_left _ hm
      · cases h; exact hm
      · cases h; exact hm
      · cases h
    · cases h
  | unwind =>
    dsimp only at h
    split at h
    · unfold K.unwind at h
      split at h
      · cases h
      all_goals (cases h; exact hm)
    · cases h
  | «catch» =>
    dsimp only at h
    split at h
    · cases h; exact hm
    · cases h

theorem kexec_log {inl : Nat → Bool} {k k' : K} {ops : List KOp} (h : kexec inl k ops = some k') :
    ∀ e ∈ k.m.log, e ∈ k'.m.log := by
  induction ops generalizing k with
  | nil => cases h; exact fun _ x => x
  | cons op ops ih =>
    simp only [kexec, Option.bind_eq_some_iff] at h
    obtain ⟨k1, h1, h2⟩ := h
    exact fun e he => ih h2 e (kstep_log h1 e he)

/-- C87: with manual loops, a callback on the future that `f.also(g)` returns is run only when the promises
of both have been called. -/
theorem C87_also {inl : Nat → Bool} {k k1 k2 : K} (r : KReachM inl k) {a b s : Nat} {g : Option Nat}
    (hf : k.m.futs[a]? = some (some s)) (hg : k.m.futs[b]? = some g)
    (h : kstep inl k (.user (.also a b)) = some k1) {ops : List KOp} (ho : ∀ op ∈ ops, op.copies = false)
    (he : kexec inl k1 ops = some k2) (hb : k2.bad = none) :
    ∃ p, k1.m.futs = (k.m.futs.set b none).set a none ++ [some p] ∧
      ∀ c q, Attached k2.m c p q → runs k2.m c ≠ 0 → Called k2.m s ∧ ∀ x, g = some x → Called k2.m x := by
  have r1 := KReachM.step _ r rfl h
  have hlog : Ev.attach k.m.nextC s k.m.size (.give g) ∈ k1.m.log ∧
      k1.m.futs = (k.m.futs.set b none).set a none ++ [some k.m.size] := by
    unfold kstep at h
    split at h
    · cases h
    · dsimp only at h
      split at h
      · simp only [K.user, hf, hg] at h
        split at h
        · cases h
        · simp only [Option.some.injEq] at h
          subst h
          simp only [K.thenF]
          rw [kattach_log, kattach_futs]
          simp
      · cases h
  refine ⟨k.m.size, hlog.2, ?_⟩
  intro c q hc hr
  have r2 := kexec_reachM r1 ho he
  obtain ⟨m, rm, hu, h1, h2, _, _, h3, h4⟩ := C87_refines r2 hb
  have i := rm.inv hu
  have hm : Ev.attach k.m.nextC s k.m.size (.give g) ∈ m.log := by rw [h1]; exact kexec_log he _ hlog.1
  have hs : Ev.start c ∈ m.log := by
    rw [h1]
    exact List.count_pos_iff.1 (Nat.pos_of_ne_zero hr)
  obtain ⟨res, h5, h6⟩ := i.chain (.next ⟨_, hm⟩ ((attached_log h1).2 hc)) (Or.inl hs)
  have h7 := i.gives _ _ _ _ _ hm h5
  refine ⟨(h3 s).1 (i.started_fulfilled ⟨_, hm⟩ (Or.inl (i.finish_start h5))), ?_⟩
  intro x hx
  exact (h3 x).1 (h6 x (by rw [h7, hx]))

/-- C87: a manual loop does not run its tasks inside of its own tasks: it is on the stack at most once, and
it is if it is marked as running. -/
theorem C87_not_nested {inl : Nat → Bool} {k : K} (r : KReach inl k) (l : Nat) :
    k.stack.count (.drain l) ≤ 1 ∧ (k.busy l = true ↔ KF.drain l ∈ k.stack) := by
  have h := r.once l
  rw [← List.count_pos_iff]
  cases hb : k.busy l with
  | true => rw [hb, if_pos rfl] at h; simp [h]
  | false => rw [hb] at h; simp at h; simp [h]

/-- C87: the library is never stuck: in every state without an error the code on top of the stack is the
user's, or it can go on, or an exception is leaving it. -/
theorem C87_progress (inl : Nat → Bool) (k : K) (hb : k.bad = none) :
    (k.throwing = false ∧ userTop k.stack = true) ∨
    (k.throwing = false ∧ ∃ k', kstep inl k .lib = some k') ∨
    (k.throwing = true ∧ ∃ k', kstep inl k .unwind = some k') ∨
    (k.throwing = true ∧ ∃ k', kstep inl k .catch = some k') := by
  cases ht : k.throwing with
  | true =>
    cases hs : k.stack with
    | nil => exact Or.inr (Or.inr (Or.inr ⟨rfl, by simp [kstep, hb, ht, hs, userTop]⟩))
    | cons f st =>
      refine Or.inr (Or.inr (Or.inl ⟨rfl, ?_⟩))
      cases f <;> simp [kstep, hb, ht, K.unwind, hs]
  | false =>
    cases hu : userTop k.stack with
    | true => exact Or.inl ⟨rfl, rfl⟩
    | false =>
      refine Or.inr (Or.inl ⟨rfl, ?_⟩)
      simp only [kstep, hb, ht, Option.isSome_none, Bool.false_eq_true, if_false, Bool.not_false, if_true]
      unfold K.lib
      split
      · exact ⟨_, rfl⟩
      · exact ⟨_, rfl⟩
      · exact ⟨_, rfl⟩
      · exact ⟨_, rfl⟩
      · split <;> exact ⟨_, rfl⟩
      · exact ⟨_, rfl⟩
      · exact ⟨_, rfl⟩
      · rename_i h1 h2 h3 h4 h5 h6 h7
        cases hs : k.stack with
        | nil => rw [hs] at hu; cases hu
        | cons f st =>
          rw [hs] at hu
          cases f with
          | drain l => exact absurd hs (h5 l st)
          | called s i => exact absurd hs (h6 s i st)
          | attached s => exact absurd hs (h7 s st)
          | code g =>
            cases g with
            | run t => cases hu
            | imm c f => cases hu
            | satisfy q t => exact absurd hs (h4 q t st)
            | ret t x =>
              cases x with
              | none => exact absurd hs (h1 t st)
              | some x =>
                cases x with
                | none => exact absurd hs (h2 t st)
                | some x => exact absurd hs (h3 t x st)

/-- `f.then(a).then(b); p()` with a manual loop, where `a` returns a future whose promise has been called
before. -/
def opsChain : List KOp :=
  [.user (.newPair 0), .user (.newPair 0), .user (.then 0 true), .user (.then 2 false),
   .user (.fulfil 1), .user (.fulfil 0), .lib, .user (.retF 1)] ++ List.replicate 7 .lib ++
  [.user .retV] ++ List.replicate 3 .lib

def kChain : K := (kexec allManual kstart opsChain).getD kstart

theorem kChain_reach : KReachQ allManual kChain :=
  kexec_reachQ (ops := opsChain) .start (by decide +kernel) (getD_some (by decide +kernel))

/-- All has run when `p()` returns. -/
example : kChain.bad = none ∧ kChain.stack = [] ∧ Attached kChain.m 1 2 3 ∧ Called kChain.m 2 ∧
    runs kChain.m 1 = 1 ∧ Chain kChain.m 0 1 ∧ Finished kChain.m 0 (some (some 1)) ∧
    Finished kChain.m 1 none :=
  ⟨by decide +kernel, by decide +kernel, ⟨.void, by decide +kernel⟩,
   Or.inl (by unfold Fulfilled; decide +kernel), by decide +kernel,
   .next (s := 0) (p := 2) (q := 3) ⟨.fut, by decide +kernel⟩ ⟨.void, by decide +kernel⟩,
   by unfold Finished; decide +kernel, by unfold Finished; decide +kernel⟩

/-- `f.also(g).then(c)`; the promise of `g` is called, and then that of `f`, inside of which `c` runs. -/
def opsAlso : List KOp :=
  [.user (.then 2 false), .user (.fulfil 1), .user (.fulfil 0)] ++ List.replicate 8 .lib

def kAlso0 : K := (kexec allManual kstart [.user (.newPair 0), .user (.newPair 0)]).getD kstart
def kAlso1 : K := (kstep allManual kAlso0 (.user (.also 0 1))).getD kstart
def kAlso : K := (kexec allManual kAlso1 opsAlso).getD kstart

example : KReachM allManual kAlso0 :=
  kexec_reachM (ops := [.user (.newPair 0), .user (.newPair 0)]) .start (by decide +kernel)
    (getD_some (by decide +kernel))

example : kAlso0.m.futs[0]? = some (some 0) ∧ kAlso0.m.futs[1]? = some (some 1) ∧
    kstep allManual kAlso0 (.user (.also 0 1)) = some kAlso1 ∧
    kexec allManual kAlso1 opsAlso = some kAlso ∧
    kAlso.bad = none ∧ Attached kAlso.m 1 2 3 ∧ runs kAlso.m 1 = 1 ∧ InsideCall kAlso :=
  ⟨by decide +kernel, by decide +kernel, getD_some (by decide +kernel), getD_some (by decide +kernel),
   by decide +kernel, ⟨.void, by decide +kernel⟩, by decide +kernel,
   ⟨1, 3, .void⟩, [.drain 0, .called 0 (some 0)], 0, some 0, by decide +kernel, by decide +kernel⟩

/-- A callback calls another promise and throws; the main program catches the exception.  The callback of
the other promise is left over. -/
def opsThrow : List KOp :=
  [.user (.newPair 0), .user (.newPair 0), .user (.then 0 true), .user (.then 1 false),
   .user (.fulfil 0), .lib, .user (.fulfil 1), .lib, .user .raise, .unwind, .unwind, .catch]

def kThrow : K := (kexec allManual kstart opsThrow).getD kstart

theorem kThrow_reach : KReachM allManual kThrow :=
  kexec_reachM (ops := opsThrow) .start (by decide +kernel) (getD_some (by decide +kernel))

example : kThrow.bad = none ∧ kThrow.stack = [] ∧ Attached kThrow.m 1 1 3 ∧ Called kThrow.m 1 ∧
    runs kThrow.m 0 = 1 ∧ runs kThrow.m 1 = 0 ∧ (kThrow.m.queue 0).map (·.c) = [1] :=
  ⟨by decide +kernel, by decide +kernel, ⟨.void, by decide +kernel⟩,
   Or.inl (by unfold Fulfilled; decide +kernel), by decide +kernel, by decide +kernel, by decide +kernel⟩

/-- C87: with manual loops, when the calls have returned and nothing has thrown, nothing waits in a manual
loop, and no loop runs. -/
theorem C87_drained {inl : Nat → Bool} {k : K} (r : KReachQ inl k) (hs : k.stack = []) {l : Nat}
    (hl : inl l = true) : k.m.queue l = [] ∧ k.busy l = false := by
  have hb : k.busy l = false := by
    cases h : k.busy l with
    | false => rfl
    | true =>
      have := r.reach.reach.held.busy l h
      rw [hs] at this
      cases this
  refine ⟨?_, hb⟩
  apply Decidable.byContradiction
  intro hq
  rw [r.dry.2 l hl hq] at hb
  cases hb

/-- C87: so all callbacks whose promises have been called have been run exactly once. -/
theorem C87_all_run {inl : Nat → Bool} {k : K} (r : KReachQ inl k) (hb : k.bad = none) (hs : k.stack = [])
    {c s p : Nat} (h : Attached k.m c s p) (hc : Called k.m s)
    (hl : inl (k.m.cell s).loop = true) : runs k.m c = 1 := by
  rcases (C87_once r.reach hb h).2 hc with h1 | h1
  · exact h1.1
  · rw [(C87_drained r hs hl).1] at h1
    simp at h1

/-- C87: mutexes are held only while a call of `then` or of a promise is under way, and loops run only
inside of calls, also if callbacks throw: when all calls have returned, none is held and no loop runs. -/
theorem C87_unlocked {inl : Nat → Bool} {k : K} (r : KReach inl k) (hs : k.stack = []) :
    (∀ s, k.locked s = false) ∧ ∀ l, k.busy l = false := by
  have h := r.held
  constructor
  · intro s
    cases e : k.locked s with
    | false => rfl
    | true =>
      have := h.lock s e
      rw [hs] at this
      simp at this
  · intro l
    cases e : k.busy l with
    | false => rfl
    | true =>
      have := h.busy l e
      rw [hs] at this
      cases this

end Verif.Future
