import Verif.Loop.SafeQueue

/-!
The thread-safe queue, access by access.

`Loop/SafeQueue.lean` takes a post for one step.  Here it is several: reading `thread_id_`, locking, changing the
queue, unlocking; so are `adopt`, the beginning of `step` and the swap of the queues.  The steps of any number of
threads are interleaved in any way.
-/

namespace Verif.Loop.Safe

/-- What a thread that is in a call is about to do. -/
inductive Pc where
  /-- `id == thread_id_`, `safe_queue.hpp:32-33` -/
  | check
  /-- `safe_queue.hpp:34` -/
  | own
  /-- `safe_queue.hpp:36` -/
  | lock
  /-- `safe_queue.hpp:37` -/
  | push
  /-- `safe_queue.hpp:71` -/
  | swapLock
  /-- `safe_queue.hpp:72` -/
  | swap
  /-- the end of the scope of the guard, `safe_queue.hpp:38`, `:73` -/
  | unlock
  /-- `assert(thread_id_ == …)`, `safe_queue.hpp:54` -/
  | stepCheck
  /-- `assert(local_queue_.size() == 0)`, `safe_queue.hpp:62` -/
  | adoptCheck
  /-- `safe_queue.hpp:63` -/
  | adoptWrite
deriving DecidableEq

/-- The state of the loop and of the threads that use it. -/
structure R where
  st : St
  /-- which threads are in calls, and where (of the code of `step`, what is not here is in `st.ctl`) -/
  pc : Nat → Option Pc
  /-- who holds the mutex -/
  held : Option Nat

/-- Thread `t` goes on to `p`. -/
def setPc (f : Nat → Option Pc) (t : Nat) (p : Option Pc) : Nat → Option Pc := fun u => if u = t then p else f u

/-- `local_queue_.emplace_back`, `safe_queue.hpp:34`. -/
def St.pushLocal (s : St) (t : Nat) : St :=
  { s with loc := s.loc ++ [some s.next], next := s.next + 1, log := s.log ++ [.post t s.next] }

/-- `shared_queue_.push_back`, `safe_queue.hpp:37`. -/
def St.pushShared (s : St) (t : Nat) : St :=
  { s with shared := s.shared ++ [some s.next], next := s.next + 1, log := s.log ++ [.post t s.next] }

/-- Is thread `t` in user code?  The owner may be in the code of `step`. -/
def R.free (r : R) (t : Nat) : Bool :=
  (r.pc t).isNone && (decide (t ≠ r.st.owner) || match r.st.ctl with | .idle => true | .task _ _ _ => true | _ => false)

/-- What happens. -/
inductive ROp where
  /-- thread `t` calls `post` -/
  | post (t : Nat)
  /-- the owner calls `step` -/
  | step
  /-- thread `t` calls `adopt`, while the owner is not in `step` -/
  | adopt (t : Nat)
  /-- thread `t` goes on with its call -/
  | go (t : Nat)
  /-- the owner goes on with the code of `step` -/
  | tick
  /-- the task that the owner runs returns, or throws -/
  | ret
  | throw
deriving DecidableEq

/-- `dbg`: assertions are compiled. -/
def R.step (dbg : Bool) (r : R) : ROp → Option R
  | .post t => if r.free t then some { r with pc := setPc r.pc t (some .check) } else none
  | .step =>
    if r.st.ctl = .idle ∧ r.pc r.st.owner = none then
      if dbg then some { r with pc := setPc r.pc r.st.owner (some .stepCheck) }
      else (Safe.step r.st .step).map fun s => { r with st := s }
    else none
  | .adopt t =>
    if r.st.ctl = .idle ∧ r.pc t = none then
      some { r with pc := setPc r.pc t (some (if dbg then .adoptCheck else .adoptWrite)) }
    else none
  | .go t =>
    match r.pc t with
    | none => none
    | some .check => some { r with pc := setPc r.pc t (some (if t = r.st.owner then .own else .lock)) }
    | some .own => some { r with st := r.st.pushLocal t, pc := setPc r.pc t none }
    | some .lock =>
      if r.held = none then some { r with held := some t, pc := setPc r.pc t (some .push) } else none
    | some .swapLock =>
      if r.held = none then some { r with held := some t, pc := setPc r.pc t (some .swap) } else none
    | some .push => some { r with st := r.st.pushShared t, pc := setPc r.pc t (some .unlock) }
    | some .swap => (Safe.step r.st .tick).map fun s => { r with st := s, pc := setPc r.pc t (some .unlock) }
    | some .unlock => some { r with held := none, pc := setPc r.pc t none }
    | some .stepCheck => (Safe.step r.st .step).map fun s => { r with st := s, pc := setPc r.pc t none }
    | some .adoptCheck => some { r with
        st := { r.st with assertion := r.st.assertion || !r.st.loc.isEmpty }
        pc := setPc r.pc t (some .adoptWrite) }
    | some .adoptWrite => some { r with st := { r.st with owner := t }, pc := setPc r.pc t none }
  | .tick =>
    if r.pc r.st.owner = none then
      match r.st.ctl with
      | .loop _ _ => (Safe.step r.st .tick).map fun s => { r with st := s }
      | .swap => some { r with pc := setPc r.pc r.st.owner (some .swapLock) }
      | _ => none
    else none
  | .ret =>
    if r.pc r.st.owner = none then (Safe.step r.st .ret).map fun s => { r with st := s } else none
  | .throw =>
    if r.pc r.st.owner = none then (Safe.step r.st .throw).map fun s => { r with st := s } else none

/-- The state at the beginning. -/
def R.init (o : Nat) : R := ⟨Safe.init o, fun _ => none, none⟩

/-- The states that can be reached. -/
inductive R.Reach (dbg : Bool) : R → Prop where
  | init (o : Nat) : Reach dbg (R.init o)
  | step {r r'} (op : ROp) : Reach dbg r → r.step dbg op = some r' → Reach dbg r'

/-! ### Vocabulary -/

/-- The members that are not atomic, `safe_queue.hpp:90-93`. -/
inductive Field where
  | id | loc | shared
deriving DecidableEq

/-- What a call reads next. -/
def Pc.reads : Pc → List Field
  | .check => [.id]
  | .stepCheck => [.id]
  | .adoptCheck => [.loc]
  | _ => []

/-- What a call writes next. -/
def Pc.writes : Pc → List Field
  | .own => [.loc]
  | .push => [.shared]
  | .swap => [.loc, .shared]
  | .adoptWrite => [.id]
  | _ => []

/-- What the next access of thread `t` reads or writes.  In `run_local_queue_`, `safe_queue.hpp:75-88`, the owner
reads and changes the local queue, between and after tasks. -/
def R.reads (r : R) (t : Nat) : List Field :=
  match r.pc t with
  | some p => p.reads
  | none => if t = r.st.owner then match r.st.ctl with | .loop _ _ => [.loc] | _ => [] else []

/-- What the next access of thread `t` writes. -/
def R.writes (r : R) (t : Nat) : List Field :=
  match r.pc t with
  | some p => p.writes
  | none => if t = r.st.owner then match r.st.ctl with | .loop _ _ => [.loc] | _ => [] else []

/-- A data race. -/
def R.racy (r : R) : Prop := ∃ t u f, t ≠ u ∧ f ∈ r.writes t ∧ (f ∈ r.writes u ∨ f ∈ r.reads u)

/-- Is a call of `adopt` under way? -/
def Pc.adopts : Pc → Bool
  | .adoptCheck => true
  | .adoptWrite => true
  | _ => false

/-- Nobody else uses the loop while a thread adopts it, and its local queue is empty then. -/
def R.Calm (r : R) : ROp → Prop
  | .adopt t => (∀ u, u ≠ t → r.pc u = none) ∧ r.st.loc = []
  | .post t => ∀ u p, u ≠ t → r.pc u = some p → p.adopts = false
  | .step => ∀ u p, u ≠ r.st.owner → r.pc u = some p → p.adopts = false
  | _ => True

/-- The states that can be reached if nobody else uses the loop while a thread adopts it. -/
inductive R.ReachCalm (dbg : Bool) : R → Prop where
  | init (o : Nat) : ReachCalm dbg (R.init o)
  | step {r r'} (op : ROp) : ReachCalm dbg r → r.Calm op → r.step dbg op = some r' → ReachCalm dbg r'

/-- The same, where no one adopts the loop. -/
inductive R.ReachNone (dbg : Bool) : R → Prop where
  | init (o : Nat) : ReachNone dbg (R.init o)
  | step {r r'} (op : ROp) : ReachNone dbg r → (∀ t, op ≠ .adopt t) → r.step dbg op = some r' → ReachNone dbg r'

/-! ### The invariant -/

/-- The owner is in user code. -/
def Ctl.user : Ctl → Bool
  | .idle => true
  | .task _ _ _ => true
  | _ => false

/-- Of the proof: the invariant. -/
structure RInv (r : R) : Prop where
  check : r.pc r.st.owner = some .check → r.st.ctl.user = true
  own : ∀ t, r.pc t = some .own → t = r.st.owner ∧ r.st.ctl.user = true
  lock : ∀ t, r.pc t = some .lock → t ≠ r.st.owner
  push : ∀ t, r.pc t = some .push → t ≠ r.st.owner
  swapLock : ∀ t, r.pc t = some .swapLock → t = r.st.owner ∧ r.st.ctl = .swap
  swap : ∀ t, r.pc t = some .swap → t = r.st.owner ∧ r.st.ctl = .swap
  stepCheck : ∀ t, r.pc t = some .stepCheck → t = r.st.owner ∧ r.st.ctl = .idle
  adopts : ∀ t p, r.pc t = some p → p.adopts = true → r.st.ctl = .idle ∧ r.st.loc = [] ∧ ∀ u, u ≠ t → r.pc u = none
  held : ∀ t p, r.pc t = some p → p = .push ∨ p = .swap ∨ p = .unlock → r.held = some t

theorem rinv_init (o : Nat) : RInv (R.init o) := by
  constructor <;> simp [R.init]

/-- Nothing of the loop changes. -/
theorem rinv_pc {r : R} (v : RInv r) {t : Nat} {p : Option Pc} {h : Option Nat}
    (hh : h = r.held ∨ (h = some t ∧ r.held = none) ∨ (h = none ∧ r.held = some t))
    (hcheck : p = some .check → t = r.st.owner → r.st.ctl.user = true)
    (hown : p = some .own → t = r.st.owner ∧ r.st.ctl.user = true)
    (hlock : p = some .lock → t ≠ r.st.owner)
    (hpush : p = some .push → t ≠ r.st.owner)
    (hsl : p = some .swapLock → t = r.st.owner ∧ r.st.ctl = .swap)
    (hsw : p = some .swap → t = r.st.owner ∧ r.st.ctl = .swap)
    (hsc : p = some .stepCheck → t = r.st.owner ∧ r.st.ctl = .idle)
    (had : ∀ q, p = some q → q.adopts = true → r.st.ctl = .idle ∧ r.st.loc = [] ∧ ∀ u, u ≠ t → r.pc u = none)
    (hno : ∀ q, p = some q → ∀ u q', u ≠ t → r.pc u = some q' → q'.adopts = false)
    (hheld : ∀ q, p = some q → q = .push ∨ q = .swap ∨ q = .unlock → h = some t) :
    RInv { r with pc := setPc r.pc t p, held := h } := by
  have hp : ∀ {u q}, setPc r.pc t p u = some q → (u = t ∧ p = some q) ∨ (u ≠ t ∧ r.pc u = some q) := by
    intro u q h
    unfold setPc at h
    by_cases e : u = t
    · rw [if_pos e] at h; exact Or.inl ⟨e, h⟩
    · rw [if_neg e] at h; exact Or.inr ⟨e, h⟩
  constructor
  · intro h
    rcases hp h with ⟨e, h⟩ | ⟨_, h⟩
    · exact hcheck h e.symm
    · exact v.check h
  · intro u h
    rcases hp h with ⟨rfl, h'⟩ | ⟨_, h⟩
    · exact hown h'
    · exact v.own u h
  · intro u h
    rcases hp h with ⟨rfl, h'⟩ | ⟨_, h⟩
    · exact hlock h'
    · exact v.lock u h
  · intro u h
    rcases hp h with ⟨rfl, h'⟩ | ⟨_, h⟩
    · exact hpush h'
    · exact v.push u h
  · intro u h
    rcases hp h with ⟨rfl, h'⟩ | ⟨_, h⟩
    · exact hsl h'
    · exact v.swapLock u h
  · intro u h
    rcases hp h with ⟨rfl, h'⟩ | ⟨_, h⟩
    · exact hsw h'
    · exact v.swap u h
  · intro u h
    rcases hp h with ⟨rfl, h'⟩ | ⟨_, h⟩
    · exact hsc h'
    · exact v.stepCheck u h
  · intro u q h ha
    rcases hp h with ⟨rfl, h'⟩ | ⟨hu, h⟩
    · obtain ⟨h1, h2, h3⟩ := had q h' ha
      refine ⟨h1, h2, fun u' hu' => ?_⟩
      dsimp only [setPc]
      rw [if_neg hu']
      exact h3 u' hu'
    · obtain ⟨h1, h2, h3⟩ := v.adopts u q h ha
      refine ⟨h1, h2, fun u' hu' => ?_⟩
      dsimp only [setPc]
      by_cases e : u' = t
      · rw [if_pos e]
        cases hpp : p with
        | none => rfl
        | some q' =>
          have := hno q' hpp u q hu h
          rw [ha] at this; cases this
      · rw [if_neg e]; exact h3 u' hu'
  · intro u q hq ho
    rcases hp hq with ⟨rfl, h'⟩ | ⟨hu, h'⟩
    · exact hheld q h' ho
    · have h1 := v.held u q h' ho
      rcases hh with rfl | ⟨_, h2⟩ | ⟨_, h2⟩
      · exact h1
      · rw [h2] at h1; cases h1
      · rw [h2] at h1; exact (hu (Option.some.inj h1).symm).elim

/-- The owner, or the loop, changes in a step of `Loop/SafeQueue.lean`. -/
theorem rinv_st {r : R} (v : RInv r) {s : St} (ho : s.owner = r.st.owner)
    (hu : r.st.ctl.user = true → s.ctl.user = true ∨ (r.pc r.st.owner ≠ some .check ∧ r.pc r.st.owner ≠ some .own))
    (hs : r.st.ctl = .swap → s.ctl = .swap ∨ (r.pc r.st.owner ≠ some .swapLock ∧ r.pc r.st.owner ≠ some .swap))
    (hi : r.st.ctl = .idle → s.ctl = .idle ∨ (r.pc r.st.owner ≠ some .stepCheck ∧ ∀ u q, r.pc u = some q → q.adopts = false))
    (hl : r.st.loc = [] → s.loc = [] ∨ ∀ u q, r.pc u = some q → q.adopts = false) :
    RInv { r with st := s } := by
  constructor
  · intro h
    dsimp only at h ⊢
    rw [ho] at h
    rcases hu (v.check h) with h1 | h1
    · exact h1
    · exact (h1.1 h).elim
  · intro t h
    obtain ⟨h1, h2⟩ := v.own t h
    refine ⟨h1.trans ho.symm, ?_⟩
    rcases hu h2 with h3 | h3
    · exact h3
    · rw [h1] at h; exact (h3.2 h).elim
  · intro t h; dsimp only; rw [ho]; exact v.lock t h
  · intro t h; dsimp only; rw [ho]; exact v.push t h
  · intro t h
    obtain ⟨h1, h2⟩ := v.swapLock t h
    refine ⟨h1.trans ho.symm, ?_⟩
    rcases hs h2 with h3 | h3
    · exact h3
    · rw [h1] at h; exact (h3.1 h).elim
  · intro t h
    obtain ⟨h1, h2⟩ := v.swap t h
    refine ⟨h1.trans ho.symm, ?_⟩
    rcases hs h2 with h3 | h3
    · exact h3
    · rw [h1] at h; exact (h3.2 h).elim
  · intro t h
    obtain ⟨h1, h2⟩ := v.stepCheck t h
    refine ⟨h1.trans ho.symm, ?_⟩
    rcases hi h2 with h3 | h3
    · exact h3
    · rw [h1] at h; exact (h3.1 h).elim
  · intro t p h ha
    obtain ⟨h1, h2, h3⟩ := v.adopts t p h ha
    refine ⟨?_, ?_, h3⟩
    · rcases hi h1 with h4 | h4
      · exact h4
      · have := h4.2 t p h; rw [ha] at this; cases this
    · rcases hl h2 with h4 | h4
      · exact h4
      · have := h4 t p h; rw [ha] at this; cases this
  · exact v.held

/-- While some thread is in another call than `adopt`, or the owner is in `step`, nobody adopts the loop. -/
theorem no_adopt {r : R} (v : RInv r) {t : Nat} {p : Pc} (h : r.pc t = some p) (hp : p.adopts = false) :
    ∀ u q, r.pc u = some q → q.adopts = false := by
  intro u q hu
  cases ha : q.adopts with
  | false => rfl
  | true =>
    by_cases e : t = u
    · subst e; rw [h] at hu; cases hu; rw [ha] at hp; cases hp
    · have := (v.adopts u q hu ha).2.2 t e
      rw [h] at this; cases this

theorem no_adopt_ctl {r : R} (v : RInv r) (h : r.st.ctl ≠ .idle) :
    ∀ u q, r.pc u = some q → q.adopts = false := by
  intro u q hu
  cases ha : q.adopts with
  | false => rfl
  | true => exact (h (v.adopts u q hu ha).1).elim

/-- What a step does to the loop. -/
def Sim (r : R) (s' : St) : Prop :=
  s' = r.st ∨ ∃ op, Safe.step r.st op = some s' ∧ (∀ t, op = .adopt t → r.st.loc = [] ∧ r.pc t = some .adoptWrite)

theorem tick_owner {s s' : St} (h : Safe.step s .tick = some s') : s'.owner = s.owner := by
  simp only [Safe.step] at h
  repeat' split at h
  all_goals first | (cases h; rfl) | cases h

theorem step_free {dbg : Bool} {r r' : R} {op : ROp} (v : RInv r) (hc : r.Calm op)
    (h : r.step dbg op = some r') : RInv r' ∧ Sim r r'.st := by
  cases op with
  | post t =>
    simp only [R.step] at h
    split at h
    · rename_i hf
      cases h
      simp only [R.free, Bool.and_eq_true, Bool.or_eq_true, decide_eq_true_eq] at hf
      refine ⟨rinv_pc v (Or.inl rfl) ?_ ?_ ?_ ?_ ?_ ?_ ?_ ?_ ?_ ?_, Or.inl rfl⟩ <;> try (intro h; cases h; done)
      · intro _ e
        rcases hf.2 with h | h
        · exact (h e).elim
        · exact h
      · intro q h ha; cases h; cases ha
      · intro q _ u q' hu hq; exact hc u q' hu hq
      · intro q h ho; cases h; simp at ho
    · cases h
  | step =>
    simp only [R.step] at h
    split at h
    · rename_i hi
      split at h
      · cases h
        refine ⟨rinv_pc v (Or.inl rfl) ?_ ?_ ?_ ?_ ?_ ?_ ?_ ?_ ?_ ?_, Or.inl rfl⟩ <;> try (intro h; cases h; done)
        · intro _; exact ⟨rfl, hi.1⟩
        · intro q h ha; cases h; cases ha
        · intro q _ u q' hu hq; exact hc u q' hu hq
        · intro q h ho; cases h; simp at ho
      · simp only [Safe.step, hi.1, Option.map_some, Option.some.injEq] at h
        cases h
        have hna : ∀ u q, r.pc u = some q → q.adopts = false := by
          intro u q hq
          by_cases e : u = r.st.owner
          · rw [e, hi.2] at hq; cases hq
          · exact hc u q e hq
        refine ⟨rinv_st v rfl ?_ ?_ ?_ ?_, Or.inr ⟨.step, by simp only [Safe.step, hi.1], fun t e => by cases e⟩⟩
        · intro _; exact Or.inr (by rw [hi.2]; simp)
        · intro e; rw [hi.1] at e; cases e
        · intro _; exact Or.inr ⟨by rw [hi.2]; simp, hna⟩
        · intro _; exact Or.inr hna
    · cases h
  | adopt t =>
    simp only [R.step] at h
    split at h
    · rename_i hi
      cases h
      refine ⟨rinv_pc v (Or.inl rfl) ?_ ?_ ?_ ?_ ?_ ?_ ?_ ?_ ?_ ?_, Or.inl rfl⟩ <;>
        try (intro h; cases dbg <;> cases h; done)
      · intro q _ _; exact ⟨hi.1, hc.2, hc.1⟩
      · intro q _ u q' hu hq; rw [hc.1 u hu] at hq; cases hq
      · intro q h ho; cases dbg <;> cases h <;> simp at ho
    · cases h
  | go t =>
    simp only [R.step] at h
    cases hp : r.pc t with
    | none => simp [hp] at h
    | some p =>
      simp only [hp] at h
      cases p with
      | check =>
        dsimp only at h
        cases h
        have hna := no_adopt v hp rfl
        by_cases e : t = r.st.owner
        · simp only [e, if_true]
          rw [e] at hp
          refine ⟨rinv_pc v (Or.inl rfl) ?_ ?_ ?_ ?_ ?_ ?_ ?_ ?_ ?_ ?_, Or.inl rfl⟩ <;> try (intro h; cases h; done)
          · intro _; exact ⟨rfl, v.check hp⟩
          · intro q h ha; cases h; cases ha
          · intro q _ u q' _ hq; exact hna u q' hq
          · intro q h ho; cases h; simp at ho
        · simp only [e, if_false]
          refine ⟨rinv_pc v (Or.inl rfl) ?_ ?_ ?_ ?_ ?_ ?_ ?_ ?_ ?_ ?_, Or.inl rfl⟩ <;> try (intro h; cases h; done)
          · intro _; exact e
          · intro q h ha; cases h; cases ha
          · intro q _ u q' _ hq; exact hna u q' hq
          · intro q h ho; cases h; simp at ho
      | own =>
        dsimp only at h
        cases h
        obtain ⟨e, hu⟩ := v.own t hp
        have hna := no_adopt v hp rfl
        have hsim : Sim r (r.st.pushLocal t) := by
          refine Or.inr ⟨.post t, ?_, fun t e => by cases e⟩
          simp only [Safe.step, e, if_true]
          cases hcl : r.st.ctl with
          | idle => simp only [St.pushLocal, hcl]
          | task p i n => simp only [St.pushLocal, hcl]
          | loop p i => rw [hcl] at hu; cases hu
          | swap => rw [hcl] at hu; cases hu
        have v1 : RInv { r with st := r.st.pushLocal t } :=
          rinv_st v rfl (fun h => Or.inl h) (fun h => Or.inl h) (fun h => Or.inl h) (fun _ => Or.inr hna)
        refine ⟨rinv_pc v1 (Or.inl rfl) ?_ ?_ ?_ ?_ ?_ ?_ ?_ ?_ ?_ ?_, hsim⟩ <;> try (intro h; cases h; done)
        · intro q h; cases h
        · intro q h; cases h
        · intro q h; cases h
      | lock =>
        dsimp only at h
        split at h
        · rename_i hh
          cases h
          have hna := no_adopt v hp rfl
          refine ⟨rinv_pc v (Or.inr (Or.inl ⟨rfl, hh⟩)) ?_ ?_ ?_ ?_ ?_ ?_ ?_ ?_ ?_ ?_, Or.inl rfl⟩ <;> try (intro h; cases h; done)
          · intro _; exact v.lock t hp
          · intro q h ha; cases h; cases ha
          · intro q _ u q' _ hq; exact hna u q' hq
          · intro q _ _; rfl
        · cases h
      | push =>
        dsimp only at h
        cases h
        have e := v.push t hp
        have hna := no_adopt v hp rfl
        have hsim : Sim r (r.st.pushShared t) := by
          refine Or.inr ⟨.post t, ?_, fun t e => by cases e⟩
          simp only [Safe.step, e, if_false]
          rfl
        have v1 : RInv { r with st := r.st.pushShared t } :=
          rinv_st v rfl (fun h => Or.inl h) (fun h => Or.inl h) (fun h => Or.inl h) (fun h => Or.inl h)
        refine ⟨rinv_pc v1 (Or.inl rfl) ?_ ?_ ?_ ?_ ?_ ?_ ?_ ?_ ?_ ?_, hsim⟩ <;> try (intro h; cases h; done)
        · intro q h ha; cases h; cases ha
        · intro q _ u q' _ hq; exact hna u q' hq
        · intro q _ _; exact v.held t .push hp (Or.inl rfl)
      | swapLock =>
        dsimp only at h
        split at h
        · rename_i hh
          cases h
          have hna := no_adopt v hp rfl
          refine ⟨rinv_pc v (Or.inr (Or.inl ⟨rfl, hh⟩)) ?_ ?_ ?_ ?_ ?_ ?_ ?_ ?_ ?_ ?_, Or.inl rfl⟩ <;> try (intro h; cases h; done)
          · intro _; exact v.swapLock t hp
          · intro q h ha; cases h; cases ha
          · intro q _ u q' _ hq; exact hna u q' hq
          · intro q _ _; rfl
        · cases h
      | swap =>
        dsimp only at h
        obtain ⟨e, hsw⟩ := v.swap t hp
        have hna := no_adopt v hp rfl
        subst e
        simp only [Safe.step, hsw, Option.map_some, Option.some.injEq] at h
        cases h
        have hheld := v.held _ .swap hp (Or.inr (Or.inl rfl))
        have v1 : RInv { r with pc := setPc r.pc r.st.owner (some .unlock) } := by
          refine rinv_pc v (Or.inl rfl) ?_ ?_ ?_ ?_ ?_ ?_ ?_ ?_ ?_ ?_ <;> try (intro h; cases h; done)
          · intro q h ha; cases h; cases ha
          · intro q _ u q' _ hq; exact hna u q' hq
          · intro q _ _; exact hheld
        have hna1 : ∀ u q, setPc r.pc r.st.owner (some .unlock) u = some q → q.adopts = false := by
          intro u q hq
          unfold setPc at hq
          split at hq
          · cases hq; rfl
          · exact hna u q hq
        have hpc : setPc r.pc r.st.owner (some .unlock) r.st.owner = some .unlock := by simp [setPc]
        refine ⟨rinv_st v1 rfl ?_ ?_ ?_ ?_, Or.inr ⟨.tick, by simp only [Safe.step, hsw], fun t e => by cases e⟩⟩
        · intro _; exact Or.inr (by dsimp only; rw [hpc]; simp)
        · intro _; exact Or.inr (by dsimp only; rw [hpc]; simp)
        · intro e; dsimp only at e; rw [hsw] at e; cases e
        · intro _; exact Or.inr hna1
      | unlock =>
        dsimp only at h
        cases h
        refine ⟨rinv_pc v (Or.inr (Or.inr ⟨rfl, v.held t .unlock hp (Or.inr (Or.inr rfl))⟩))
          ?_ ?_ ?_ ?_ ?_ ?_ ?_ ?_ ?_ ?_, Or.inl rfl⟩ <;> try (intro h; cases h; done)
        · intro q h; cases h
        · intro q h; cases h
        · intro q h; cases h
      | stepCheck =>
        dsimp only at h
        obtain ⟨e, hi⟩ := v.stepCheck t hp
        have hna := no_adopt v hp rfl
        subst e
        simp only [Safe.step, hi, Option.map_some, Option.some.injEq] at h
        cases h
        have v1 : RInv { r with pc := setPc r.pc r.st.owner none } := by
          refine rinv_pc v (Or.inl rfl) ?_ ?_ ?_ ?_ ?_ ?_ ?_ ?_ ?_ ?_ <;> try (intro h; cases h; done)
          · intro q h; cases h
          · intro q h; cases h
          · intro q h; cases h
        have hna1 : ∀ u q, setPc r.pc r.st.owner none u = some q → q.adopts = false := by
          intro u q hq
          unfold setPc at hq
          split at hq
          · cases hq
          · exact hna u q hq
        have hpc : setPc r.pc r.st.owner none r.st.owner = none := by simp [setPc]
        refine ⟨rinv_st v1 rfl ?_ ?_ ?_ ?_, Or.inr ⟨.step, by simp only [Safe.step, hi], fun t e => by cases e⟩⟩
        · intro _; exact Or.inr (by dsimp only; rw [hpc]; simp)
        · intro e; dsimp only at e; rw [hi] at e; cases e
        · intro _; exact Or.inr ⟨by dsimp only; rw [hpc]; simp, hna1⟩
        · intro _; exact Or.inr hna1
      | adoptCheck =>
        dsimp only at h
        cases h
        obtain ⟨h1, h2, h3⟩ := v.adopts t _ hp rfl
        have hst : ({ r.st with assertion := r.st.assertion || !r.st.loc.isEmpty } : St) = r.st := by
          rw [h2]; simp
        rw [hst]
        refine ⟨rinv_pc v (Or.inl rfl) ?_ ?_ ?_ ?_ ?_ ?_ ?_ ?_ ?_ ?_, Or.inl rfl⟩ <;> try (intro h; cases h; done)
        · intro q _ _; exact ⟨h1, h2, h3⟩
        · intro q _ u q' hu hq; rw [h3 u hu] at hq; cases hq
        · intro q h ho; cases h; simp at ho
      | adoptWrite =>
        dsimp only at h
        cases h
        obtain ⟨h1, h2, h3⟩ := v.adopts t _ hp rfl
        have hnone : ∀ u, setPc r.pc t none u = none := by
          intro u
          unfold setPc
          split
          · rfl
          · rename_i e; exact h3 u e
        constructor
        · constructor
          · intro h; dsimp only at h; rw [hnone] at h; cases h
          · intro u h; dsimp only at h; rw [hnone] at h; cases h
          · intro u h; dsimp only at h; rw [hnone] at h; cases h
          · intro u h; dsimp only at h; rw [hnone] at h; cases h
          · intro u h; dsimp only at h; rw [hnone] at h; cases h
          · intro u h; dsimp only at h; rw [hnone] at h; cases h
          · intro u h; dsimp only at h; rw [hnone] at h; cases h
          · intro u q h; dsimp only at h; rw [hnone] at h; cases h
          · intro u q h; dsimp only at h; rw [hnone] at h; cases h
        · refine Or.inr ⟨.adopt t, ?_, fun t' e => by cases e; exact ⟨h2, hp⟩⟩
          simp [Safe.step, h1, h2]
  | tick =>
    simp only [R.step] at h
    split at h
    · rename_i hn
      cases hcl : r.st.ctl with
      | idle => simp [hcl] at h
      | task p i n => simp [hcl] at h
      | swap =>
        simp only [hcl] at h
        cases h
        have hna := no_adopt_ctl v (by rw [hcl]; simp)
        refine ⟨rinv_pc v (Or.inl rfl) ?_ ?_ ?_ ?_ ?_ ?_ ?_ ?_ ?_ ?_, Or.inl rfl⟩ <;> try (intro h; cases h; done)
        · intro _; exact ⟨rfl, hcl⟩
        · intro q h ha; cases h; cases ha
        · intro q _ u q' _ hq; exact hna u q' hq
        · intro q h ho; cases h; simp at ho
      | loop p i =>
        simp only [hcl] at h
        have hna := no_adopt_ctl v (by rw [hcl]; simp)
        cases hs : Safe.step r.st .tick with
        | none => simp [hs] at h
        | some s =>
          simp only [hs, Option.map_some, Option.some.injEq] at h
          cases h
          refine ⟨rinv_st v (tick_owner hs) ?_ ?_ ?_ ?_, Or.inr ⟨.tick, hs, fun t e => by cases e⟩⟩
          · intro _; exact Or.inr (by rw [hn]; simp)
          · intro _; exact Or.inr (by rw [hn]; simp)
          · intro _; exact Or.inr ⟨by rw [hn]; simp, hna⟩
          · intro _; exact Or.inr hna
    · cases h
  | ret =>
    simp only [R.step] at h
    split at h
    · rename_i hn
      cases hcl : r.st.ctl with
      | task p i n =>
        simp only [Safe.step, hcl, Option.map_some, Option.some.injEq] at h
        cases h
        have hna := no_adopt_ctl v (by rw [hcl]; simp)
        refine ⟨rinv_st v rfl ?_ ?_ ?_ ?_, Or.inr ⟨.ret, by simp only [Safe.step, hcl], fun t e => by cases e⟩⟩
        · intro _; exact Or.inr (by rw [hn]; simp)
        · intro _; exact Or.inr (by rw [hn]; simp)
        · intro _; exact Or.inr ⟨by rw [hn]; simp, hna⟩
        · intro _; exact Or.inr hna
      | _ => simp [Safe.step, hcl] at h
    · cases h
  | throw =>
    simp only [R.step] at h
    split at h
    · rename_i hn
      cases hcl : r.st.ctl with
      | task p i n =>
        simp only [Safe.step, hcl, Option.map_some, Option.some.injEq] at h
        cases h
        have hna := no_adopt_ctl v (by rw [hcl]; simp)
        refine ⟨rinv_st v rfl ?_ ?_ ?_ ?_, Or.inr ⟨.throw, by simp only [Safe.step, hcl], fun t e => by cases e⟩⟩
        · intro _; exact Or.inr (by rw [hn]; simp)
        · intro _; exact Or.inr (by rw [hn]; simp)
        · intro _; exact Or.inr ⟨by rw [hn]; simp, hna⟩
        · intro _; exact Or.inr hna
      | _ => simp [Safe.step, hcl] at h
    · cases h

theorem rinv_calm {dbg : Bool} {r : R} (h : R.ReachCalm dbg r) : RInv r ∧ ReachAdopt r.st := by
  induction h with
  | init o => exact ⟨rinv_init o, .init o⟩
  | step op _ hc he ih =>
    obtain ⟨v, ra⟩ := ih
    obtain ⟨v', hs⟩ := step_free v hc he
    refine ⟨v', ?_⟩
    rcases hs with e | ⟨op', h1, h2⟩
    · rw [e]; exact ra
    · exact .step op' ra (fun t e => (h2 t e).1) h1

end Verif.Loop.Safe
