import Verif.Store.Props12

/-!
Stores on the QML loop, `lager/event_loop/qml.hpp`: a queue that belongs to the thread of the item, and events of Qt that bring
the dispatches of other threads there.
-/

namespace Verif.Store

variable {A Mo : Type}

/-! ### Model -/

/-- An event posted to the item: a request to polish it, `qml.hpp:45`, or a dispatch of another thread on its way,
`qml.hpp:73-79`. -/
inductive QtEv (A : Type) where
  | polish
  | invoke (t : Nat) (a : A)

/-- A store on the QML loop.  The queue of the store in `p` is `queue_`; the thread of the item is thread 0.  See
`Verif.Loop.Qml` for the loop alone, and for what is assumed about Qt. -/
structure QmlQ (A Mo : Type) where
  p : Par A Mo
  /-- events not yet delivered -/
  events : List (QtEv A)
  /-- Qt will polish the item before the next frame -/
  scheduled : Bool
  /-- `polished_` -/
  polished : Bool
  /-- `timer_` was started -/
  timer : Bool
  /-- is `step()` running, and was it called by `updatePolish`? -/
  round : Option Bool
  /-- ghost: all dispatches, in the order in which they were done -/
  posted : List (Nat × A)

/-- What happens. -/
inductive GOp (A : Type) where
  /-- thread `t`, not that of the item, dispatches -/
  | away (t : Nat) (a : A)
  /-- the thread of the item, or user code that it calls, does something -/
  | own (op : POp A)
  /-- Qt delivers the oldest event -/
  | deliver
  /-- Qt polishes the item -/
  | frame
  /-- Qt paints the item -/
  | paint
  /-- the timer fires -/
  | tick
  /-- `step()` returns -/
  | leave
  /-- an exception leaves `step()` -/
  | abort

/-- The steps.  Simplified as for the thread-safe queue (`SafeQ.step`): no store with futures is dispatched to by other
threads; and user code does not run nested event loops of Qt, so that Qt has control between the rounds of tasks only. -/
def QmlQ.step (c : Cfg A Mo) (s : QmlQ A Mo) : GOp A → Option (QmlQ A Mo)
  -- `post`, `qml.hpp:72-80`
  | .away t a =>
    if t ≠ 0 ∧ c.hasF = false then
      some { s with events := s.events ++ [.invoke t a], posted := s.posted ++ [(t, a)] } else none
  -- tasks run in `step()` only; what posts calls `polish()`, `qml.hpp:69-71`
  | .own op =>
    if op.isBegin = true ∧ s.round = none then none
    else (Par.step c 1 s.p op).map fun p =>
      { s with p := p, posted := s.posted ++ op.sent,
               scheduled := s.scheduled || decide (s.p.st.queue.length < p.st.queue.length) }
  -- `event`, `qml.hpp:54-63`, and the function of `post`, `qml.hpp:75-78`
  | .deliver =>
    if s.round = none then
      match s.events with
      | [] => none
      | .polish :: es => some { s with events := es, scheduled := true }
      | .invoke _ a :: es =>
        (Par.step c 1 s.p (.user (.dispatch a))).map fun p => { s with p := p, events := es, scheduled := true }
    else none
  -- `updatePolish`, `qml.hpp:32-46`
  | .frame =>
    if s.round = none ∧ s.scheduled = true then
      if s.polished then some { s with scheduled := false, events := s.events ++ [.polish] }
      else some { s with scheduled := false, polished := true, timer := true, round := some true }
    else none
  -- `updatePaintNode`, `qml.hpp:48-52`
  | .paint => some { s with polished := false }
  -- `qml.hpp:27`, `:30`
  | .tick => if s.round = none ∧ s.timer = true then some { s with round := some false } else none
  -- `step()` runs until the queue is empty, `queue.hpp:40-52`; then the rest of `updatePolish`, `qml.hpp:43-45`
  | .leave =>
    match s.round with
    | none => none
    | some b =>
      if s.p.jobs.isEmpty = true ∧ s.p.st.queue.isEmpty = true then
        some { s with round := none, events := if b then s.events ++ [.polish] else s.events }
      else none
  | .abort => if s.round ≠ none ∧ s.p.jobs.isEmpty = true then some { s with round := none } else none

/-- The state at the beginning. -/
def QmlQ.start (c : Cfg A Mo) : QmlQ A Mo := ⟨Par.start c, [], false, false, false, none, []⟩

/-- The states that can be reached. -/
inductive QmlQ.Reach (c : Cfg A Mo) : QmlQ A Mo → Prop where
  | start : Reach c (QmlQ.start c)
  | step {s s'} (op : GOp A) : Reach c s → QmlQ.step c s op = some s' → Reach c s'

/-- The dispatches on their way. -/
def travelling : List (QtEv A) → List (Nat × A)
  | [] => []
  | .polish :: l => travelling l
  | .invoke t a :: l => (t, a) :: travelling l

theorem travelling_append (l r : List (QtEv A)) : travelling (l ++ r) = travelling l ++ travelling r := by
  induction l with
  | nil => rfl
  | cons e l ih => cases e <;> simp [travelling, ih]

/-! ### Invariant -/

/-- `ord` has the dispatches that have got to the queue, in that order. -/
structure QmlQ.Inv (c : Cfg A Mo) (s : QmlQ A Mo) (ord : List (Nat × A)) : Prop where
  par : Par.Reach c 1 s.p
  tags : ord.map (·.2) = dispatches s.p.st.log
  own : ord.filter mine = s.posted.filter mine
  away : ord.filter far ++ travelling s.events = s.posted.filter far
  isFar : ∀ x ∈ travelling s.events, far x = true
  perm : (ord ++ travelling s.events).Perm s.posted
  early : ∀ o1 a o2, ord = o1 ++ (0, a) :: o2 → ∃ p1 p2, s.posted = p1 ++ (0, a) :: p2 ∧
    p1.filter mine = o1.filter mine ∧ o1.filter far <+: p1.filter far

theorem QmlQ.Reach.inv {c : Cfg A Mo} {s : QmlQ A Mo} (r : QmlQ.Reach c s) : ∃ ord, QmlQ.Inv c s ord := by
  induction r with
  | start =>
    exact ⟨[], .start, rfl, rfl, rfl, (by intro x h; cases h), .refl _, (by intro o1 a o2 h; cases o1 <;> cases h)⟩
  | @step s s' op r h ih =>
    obtain ⟨ord, k⟩ := ih
    have again : ∀ s1 : QmlQ A Mo, s1.p = s.p → s1.posted = s.posted → travelling s1.events = travelling s.events →
        ∃ ord, QmlQ.Inv c s1 ord := by
      intro s1 h1 h2 h3
      exact ⟨ord, by rw [h1]; exact k.par, by rw [h1]; exact k.tags, by rw [h2]; exact k.own, by rw [h2, h3]; exact k.away,
        by rw [h3]; exact k.isFar, by rw [h2, h3]; exact k.perm, by rw [h2]; exact k.early⟩
    have polishes : travelling (s.events ++ [.polish]) = travelling s.events := by
      rw [travelling_append]; simp [travelling]
    cases op with
    | away t a =>
      simp only [QmlQ.step] at h
      split at h
      · rename_i ht
        cases h
        have hf : far (t, a) = true := by simp [far, ht.1]
        have hm : mine (t, a) = false := by simp [mine, ht.1]
        have ht' : travelling (s.events ++ [.invoke t a]) = travelling s.events ++ [(t, a)] := by
          rw [travelling_append]; rfl
        refine ⟨ord, k.par, k.tags, ?_, ?_, ?_, ?_, ?_⟩
        · simp [List.filter_append, hm, k.own]
        · simp [List.filter_append, hf, ← k.away, ht']
        · intro x hx
          dsimp only at hx
          rw [ht'] at hx
          rcases List.mem_append.1 hx with hx | hx
          · exact k.isFar x hx
          · rw [List.mem_singleton] at hx; subst hx; exact hf
        · dsimp only
          rw [ht', ← List.append_assoc]; exact k.perm.append_right _
        · intro o1 b o2 ho
          obtain ⟨p1, p2, h1, h2, h3⟩ := k.early o1 b o2 ho
          exact ⟨p1, p2 ++ [(t, a)], by rw [h1]; simp, h2, h3⟩
      · cases h
    | own op =>
      simp only [QmlQ.step] at h
      split at h
      · cases h
      · simp only [Option.map_eq_some_iff] at h
        obtain ⟨p, h1, rfl⟩ := h
        have hd := par_disp h1
        have hp := k.par.step op h1
        by_cases ho : op.sent = []
        · rw [ho] at hd
          simp only [List.map_nil, List.append_nil] at hd
          refine ⟨ord, hp, by rw [k.tags, hd], ?_, ?_, k.isFar, ?_, ?_⟩
          all_goals simp only [ho, List.append_nil]
          · exact k.own
          · exact k.away
          · exact k.perm
          · exact k.early
        · have : ∃ a, op.sent = [(0, a)] := by
            unfold POp.sent at ho ⊢
            split at ho
            · exact ⟨_, rfl⟩
            · exact absurd rfl ho
          obtain ⟨a, ho⟩ := this
          rw [ho] at hd
          have hf : far (0, a) = false := rfl
          have hm : mine (0, a) = true := rfl
          refine ⟨ord ++ [(0, a)], hp, ?_, ?_, ?_, k.isFar, ?_, ?_⟩
          all_goals simp only [ho]
          · rw [List.map_append, k.tags, hd]
          · simp [List.filter_append, hm, k.own]
          · simp [List.filter_append, hf, k.away]
          · refine List.Perm.trans ?_ (k.perm.append_right [(0, a)])
            rw [List.append_assoc, List.append_assoc]
            exact List.Perm.append_left _ List.perm_append_comm
          · intro o1 b o2 h
            rcases snoc_split h with ⟨-, rfl, hx⟩ | ⟨o3, rfl, ho3⟩
            · refine ⟨s.posted, [], by rw [hx], k.own.symm, ⟨travelling s.events, k.away⟩⟩
            · obtain ⟨p1, p2, h1, h2, h3⟩ := k.early o1 b o3 ho3
              exact ⟨p1, p2 ++ [(0, a)], by rw [h1]; simp, h2, h3⟩
    | deliver =>
      simp only [QmlQ.step] at h
      split at h
      · split at h
        · cases h
        · rename_i es hes
          cases h
          exact again _ rfl rfl (by rw [hes]; rfl)
        · rename_i t a es hes
          simp only [Option.map_eq_some_iff] at h
          obtain ⟨p, h1, rfl⟩ := h
          have hd := par_disp h1
          have he : travelling s.events = (t, a) :: travelling es := by rw [hes]; rfl
          have hf : far (t, a) = true := k.isFar _ (by rw [he]; exact List.mem_cons_self ..)
          have hm : mine (t, a) = false := by
            simp only [far, mine, bne_iff_ne, ne_eq, beq_eq_false_iff_ne] at hf ⊢
            exact hf
          refine ⟨ord ++ [(t, a)], k.par.step _ h1, ?_, ?_, ?_, ?_, ?_, ?_⟩
          · rw [List.map_append, k.tags, hd]; rfl
          · rw [List.filter_append]; simp [hm, k.own]
          · have := k.away
            rw [he] at this
            rw [List.filter_append]
            simp only [List.filter_cons, hf, if_true, List.filter_nil, List.append_assoc, List.cons_append, List.nil_append]
            exact this
          · intro x hx
            exact k.isFar x (by rw [he]; exact List.mem_cons_of_mem _ hx)
          · have := k.perm
            rw [he] at this
            simpa using this
          · intro o1 b o2 ho
            rcases snoc_split ho with ⟨-, rfl, hx⟩ | ⟨o3, rfl, ho3⟩
            · cases hx; cases hf
            · exact k.early o1 b o3 ho3
      · cases h
    | frame =>
      simp only [QmlQ.step] at h
      split at h
      · split at h
        · cases h; exact again _ rfl rfl polishes
        · cases h; exact again _ rfl rfl rfl
      · cases h
    | paint => simp only [QmlQ.step] at h; cases h; exact again _ rfl rfl rfl
    | tick =>
      simp only [QmlQ.step] at h
      split at h
      · cases h; exact again _ rfl rfl rfl
      · cases h
    | leave =>
      simp only [QmlQ.step] at h
      split at h
      · cases h
      · split at h
        · cases h
          refine again _ rfl rfl ?_
          dsimp only
          split
          · exact polishes
          · rfl
        · cases h
    | abort =>
      simp only [QmlQ.step] at h
      split at h
      · cases h; exact again _ rfl rfl rfl
      · cases h

end Verif.Store
