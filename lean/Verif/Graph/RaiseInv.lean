import Verif.Graph.Raise
import Verif.Graph.Exec
import Verif.Graph.Log

/-
The invariant of the graph when callbacks may throw.

An exception leaves notifications behind that nobody is going to make.  `lift E σ m` pretends that they
are still to be made: there is a frame at the very bottom of the stack that will notify `E`, and `σ` says
what callbacks have seen.  Then the old invariant holds, and steps of `m` are steps of `lift E σ m`.
-/

set_option linter.unusedSectionVars false

namespace Verif.Graph

variable {V S : Type} [DecidableEq V]

/-- Of the proof: the machine with more frames below, and with other values seen. -/
def lift (E : List Nat) (σ : Nat → Option V) (m : M V S) : M V S :=
  { m with
    stack := m.stack ++ [.roots E, .user]
    seen := σ }

/-! ### The frame at the bottom -/

theorem active_bottom (n : Nat) (st : List (Frame V)) (E : List Nat) :
    active n (st ++ [.roots E, .user]) = active n st := by
  unfold active
  rw [List.any_append]
  simp [Frame.inNotify]

theorem guards_bottom (st : List (Frame V)) (E : List Nat) :
    Guards (st ++ [.roots E, .user]) ↔ Guards st := by
  induction st with
  | nil => simp [Guards]
  | cons f st ih =>
    cases f <;> simp [Guards, ih, active_bottom]

theorem stack_bottom {g : Graph V S} {st : List (Frame V)} {E : List Nat}
    (hE : ∀ n ∈ E, (g.node n).alive = true) (h : StackOK g st) :
    StackOK g (st ++ [.roots E, .user]) := by
  have mem : ∀ f : Frame V, f ∈ st ++ [.roots E, .user] → f ∈ st ∨ f = .roots E ∨ f = .user := by
    intro f hf
    rcases List.mem_append.1 hf with h1 | h1
    · exact .inl h1
    · simpa using Or.inr h1
  refine ⟨?_, ?_, (guards_bottom st E).2 h.guards, ?_, ?_, ?_⟩
  · intro f hf n hn
    rcases mem f hf with h1 | rfl | rfl
    · exact h.holds f h1 n hn
    · exact hE n hn
    · cases hn
  · intro n i size prev garbage hf
    rcases mem _ hf with h1 | h1 | h1
    · exact h.kids n i size prev garbage h1
    · cases h1
    · cases h1
  · intro n; rw [active_bottom]; exact h.notifying n
  · intro n v hf
    rcases mem _ hf with h1 | h1 | h1
    · exact h.setters n v h1
    · cases h1
    · cases h1
  · rw [List.getLast?_append]; rfl

theorem stack_top {g : Graph V S} {st : List (Frame V)} {E : List Nat}
    (hb : st.getLast? = some .user) (h : StackOK g (st ++ [.roots E, .user])) : StackOK g st := by
  refine ⟨fun f hf => h.holds f (List.mem_append_left _ hf),
    fun n i size prev garbage hf => h.kids n i size prev garbage (List.mem_append_left _ hf),
    (guards_bottom st E).1 h.guards, fun n => ?_,
    fun n v hf => h.setters n v (List.mem_append_left _ hf), hb⟩
  rw [h.notifying, active_bottom]

theorem pending_bottom {g : Graph V S} {st : List (Frame V)} {E : List Nat} {n : Nat} :
    pending g (st ++ [.roots E, .user]) n ↔ pending g st n ∨ n ∈ E := by
  unfold pending
  constructor
  · rintro ⟨f, hf, hp⟩
    rcases List.mem_append.1 hf with h1 | h1
    · exact .inl ⟨f, h1, hp⟩
    · rcases List.mem_cons.1 h1 with rfl | h1
      · exact .inr hp
      · rw [List.mem_singleton.1 h1] at hp; cases hp
  · rintro (⟨f, hf, hp⟩ | h)
    · exact ⟨f, List.mem_append_left _ hf, hp⟩
    · exact ⟨.roots E, by simp, h⟩

theorem obs_bottom {st : List (Frame V)} {E : List Nat} {n : Nat} {cur prev} :
    Frame.obs n cur prev ∈ st ++ [.roots E, .user] ↔ Frame.obs n cur prev ∈ st := by
  simp

/-- The invariant when callbacks may throw. -/
structure XInv (E : List Nat) (σ : Nat → Option V) (m : M V S) : Prop where
  inv : Inv (lift E σ m)
  base : m.stack.getLast? = some .user

/-- The parts that do not depend on what is still to be notified. -/
theorem XInv.of {m : M V S} {E : List Nat} {σ : Nat → Option V} (wf : WF m.g) (fresh : Fresh m.g)
    (just : Justified [] m.g) (hst : StackOK m.g m.stack) (hE : ∀ n ∈ E, (m.g.node n).alive = true)
    (nodup : ∀ n, (m.g.node n).obs.Nodup) (lt : ∀ n w, w ∈ (m.g.node n).obs → w < m.nextW)
    (uniq : ∀ n n' w, w ∈ (m.g.node n).obs → w ∈ (m.g.node n').obs → n = n')
    (cov : Covered (fun n => pending m.g m.stack n ∨ n ∈ E) m.g)
    (seen : ∀ n w, w ∈ (m.g.node n).obs →
      σ w = some (m.g.node n).last ∨ (m.g.node n).needsNotify = true ∨
      ∃ cur prev, Frame.obs n cur prev ∈ m.stack ∧ (∀ c, cur = some c → c < m.nextW) ∧
        ∀ rest, remaining cur (m.g.node n).obs = some rest → w ∈ rest) : XInv E σ m := by
  refine ⟨⟨wf, fresh, just, ?_, stack_bottom hE hst, nodup, lt, uniq, ?_⟩, hst.base⟩
  · intro n ha hn
    rcases cov n ha hn with h | h | h
    · exact .inl (pending_bottom.2 h)
    · exact .inr (.inl h)
    · exact .inr (.inr h)
  · intro n w hw
    rcases seen n w hw with h | h | ⟨cur, prev, h1, h2⟩
    · exact .inl h
    · exact .inr (.inl h)
    · exact .inr (.inr ⟨cur, prev, obs_bottom.2 h1, h2⟩)

theorem XInv.wf {m : M V S} {E : List Nat} {σ : Nat → Option V} (h : XInv E σ m) : WF m.g := h.inv.wf

theorem XInv.stackOK {m : M V S} {E : List Nat} {σ : Nat → Option V} (h : XInv E σ m) :
    StackOK m.g m.stack := stack_top h.base h.inv.stack

theorem XInv.cov {m : M V S} {E : List Nat} {σ : Nat → Option V} (h : XInv E σ m) :
    Covered (fun n => pending m.g m.stack n ∨ n ∈ E) m.g := by
  intro n ha hn
  rcases h.inv.cov n ha hn with h1 | h1 | h1
  · exact .inl (pending_bottom.1 h1)
  · exact .inr (.inl h1)
  · exact .inr (.inr h1)

theorem XInv.heldAlive {m : M V S} {E : List Nat} {σ : Nat → Option V} (h : XInv E σ m) :
    ∀ n ∈ E, (m.g.node n).alive = true := fun n hn =>
  h.inv.stack.holds (.roots E) (by simp [lift]) n hn

theorem XInv.seen {m : M V S} {E : List Nat} {σ : Nat → Option V} (h : XInv E σ m) :
    ∀ n w, w ∈ (m.g.node n).obs →
      σ w = some (m.g.node n).last ∨ (m.g.node n).needsNotify = true ∨
      ∃ cur prev, Frame.obs n cur prev ∈ m.stack ∧ (∀ c, cur = some c → c < m.nextW) ∧
        ∀ rest, remaining cur (m.g.node n).obs = some rest → w ∈ rest := by
  intro n w hw
  rcases h.inv.obs.seen n w hw with h1 | h1 | ⟨cur, prev, h1, h2⟩
  · exact .inl h1
  · exact .inr (.inl h1)
  · exact .inr (.inr ⟨cur, prev, obs_bottom.1 h1, h2⟩)

/-- What is left to be notified, and what callbacks have seen, can be chosen anew. -/
theorem XInv.again {m : M V S} {E E' : List Nat} {σ σ' : Nat → Option V} (h : XInv E σ m)
    (hE : ∀ n ∈ E', (m.g.node n).alive = true)
    (cov : Covered (fun n => pending m.g m.stack n ∨ n ∈ E') m.g)
    (seen : ∀ n w, w ∈ (m.g.node n).obs →
      σ' w = some (m.g.node n).last ∨ (m.g.node n).needsNotify = true ∨
      ∃ cur prev, Frame.obs n cur prev ∈ m.stack ∧ (∀ c, cur = some c → c < m.nextW) ∧
        ∀ rest, remaining cur (m.g.node n).obs = some rest → w ∈ rest) : XInv E' σ' m :=
  .of h.inv.wf h.inv.fresh h.inv.just h.stackOK hE h.inv.obs.nodup h.inv.obs.lt h.inv.obs.uniq cov
    seen

theorem Inv.xinv {m : M V S} (h : Inv m) : XInv [] m.seen m :=
  .of h.wf h.fresh h.just h.stack (by simp) h.obs.nodup h.obs.lt h.obs.uniq
    (h.cov.mono fun _ hn => .inl hn) h.obs.seen

/-! ### Steps -/

theorem istep_lift {m m' : M V S} (E : List Nat) (σ : Nat → Option V) (he : istep m = some m') :
    ∃ σ', istep (lift E σ m) = some (lift E σ' m') ∧ ∀ w, σ w = m.seen w → σ' w = m'.seen w := by
  obtain ⟨g, stack, nextW, seen, log, ub⟩ := m
  have hub : ub = false := by cases ub <;> simp_all [istep]
  cases hub
  cases stack with
  | nil => simp [istep] at he
  | cons f st =>
    cases f with
    | user => simp [istep] at he
    | notify n =>
      simp only [istep, Bool.false_eq_true, if_false] at he
      simp only [lift, List.cons_append]
      simp only [istep, Bool.false_eq_true, if_false]
      split at he
      · rename_i hc
        cases he
        exact ⟨σ, by rw [if_pos hc]; rfl, fun w h => h⟩
      · rename_i hc
        cases he
        exact ⟨σ, by rw [if_neg hc], fun w h => h⟩
    | obs n cur prev =>
      simp only [istep, Bool.false_eq_true, if_false] at he
      simp only [lift, List.cons_append]
      simp only [istep, Bool.false_eq_true, if_false]
      split at he
      · rename_i hc
        cases he
        exact ⟨σ, rfl, fun w h => h⟩
      · rename_i hc
        cases he
        exact ⟨σ, rfl, fun w h => h⟩
      · rename_i x rest hc
        cases he
        refine ⟨fun w' => if w' = x then some (g.node n).last else σ w', rfl,
          fun w h => ?_⟩
        show (if w = x then _ else σ w) = if w = x then _ else seen w
        rw [h]
    | kids n i size prev garbage =>
      simp only [istep, Bool.false_eq_true, if_false] at he
      simp only [lift, List.cons_append]
      simp only [istep, Bool.false_eq_true, if_false]
      split at he
      · rename_i hi
        rw [if_pos hi]
        split at he
        · rename_i hc
          cases he
          exact ⟨σ, rfl, fun w h => h⟩
        · rename_i c hc
          split at he
          · rename_i ha
            cases he
            exact ⟨σ, by rw [if_pos ha]; rfl, fun w h => h⟩
          · rename_i ha
            cases he
            exact ⟨σ, by rw [if_neg ha]; rfl, fun w h => h⟩
      · rename_i hi
        cases he
        exact ⟨σ, by rw [if_neg hi], fun w h => h⟩
    | roots rs =>
      cases rs <;>
      · simp only [istep, Bool.false_eq_true, if_false] at he
        simp only [lift, List.cons_append]
        simp only [istep, Bool.false_eq_true, if_false]
        cases he
        exact ⟨σ, rfl, fun w h => h⟩
    | up n v =>
      simp only [istep, Bool.false_eq_true, if_false] at he
      simp only [lift, List.cons_append]
      simp only [istep, Bool.false_eq_true, if_false]
      split at he
      · rename_i auto hk
        split at he
        · rename_i ha
          cases he
          exact ⟨σ, by rw [if_pos ha]; rfl, fun w h => h⟩
        · rename_i ha
          cases he
          exact ⟨σ, by rw [if_neg ha], fun w h => h⟩
      all_goals
        rename_i hk
        cases he
        exact ⟨σ, rfl, fun w h => h⟩
    | ups l =>
      cases l <;>
      · simp only [istep, Bool.false_eq_true, if_false] at he
        simp only [lift, List.cons_append]
        simp only [istep, Bool.false_eq_true, if_false]
        cases he
        exact ⟨σ, rfl, fun w h => h⟩
    | setterRest n v =>
      simp only [istep, Bool.false_eq_true, if_false] at he
      simp only [lift, List.cons_append]
      simp only [istep, Bool.false_eq_true, if_false]
      split at he
      · rename_i hk
        cases he
        exact ⟨σ, rfl, fun w h => h⟩
      · rename_i hk
        cases he
        exact ⟨σ, rfl, fun w h => h⟩

theorem ustep_lift [Inhabited S] {m m' : M V S} {op : Op V S} (E : List Nat) (σ : Nat → Option V)
    (hop : ∀ n, op ≠ .kill n) (he : ustep m op = some m') :
    ∃ σ', ustep (lift E σ m) op = some (lift E σ' m') ∧ ∀ w, σ w = m.seen w → σ' w = m'.seen w := by
  obtain ⟨g, stack, nextW, seen, log, ub⟩ := m
  have hub : ub = false := (ustep_ub he).1
  cases hub
  cases stack with
  | nil => simp [ustep] at he
  | cons f st =>
    cases f with
    | user =>
      cases op with
      | kill n => exact absurd rfl (hop n)
      | attach n i =>
        simp only [ustep, Bool.false_eq_true, if_false] at he
        simp only [lift, List.cons_append]
        simp only [ustep, Bool.false_eq_true, if_false]
        split at he
        · rename_i hc
          cases he
          refine ⟨fun w => if w = nextW then some (g.node n).last else σ w,
            by rw [if_pos hc]; rfl, fun w h => ?_⟩
          show (if w = nextW then _ else σ w) = if w = nextW then _ else seen w
          rw [h]
        · cases he
      | ret =>
        simp only [ustep, Bool.false_eq_true, if_false] at he
        simp only [lift, List.cons_append]
        simp only [ustep, Bool.false_eq_true, if_false]
        cases st with
        | nil => cases he
        | cons f' st' => cases he; exact ⟨σ, rfl, fun w h => h⟩
      | newState | newSensor | newConstant | detach =>
        simp only [ustep, Bool.false_eq_true, if_false] at he
        simp only [lift, List.cons_append]
        simp only [ustep, Bool.false_eq_true, if_false]
        cases he; exact ⟨σ, rfl, fun w h => h⟩
      | newCalc | newXform | newSetter | set | update | commit =>
        simp only [ustep, Bool.false_eq_true, if_false] at he
        simp only [lift, List.cons_append]
        simp only [ustep, Bool.false_eq_true, if_false]
        split at he
        · rename_i hc
          cases he
          exact ⟨σ, by rw [if_pos hc]; rfl, fun w h => h⟩
        · cases he
    | obs | kids | notify | roots | up | ups | setterRest => simp [ustep] at he

/-- The base of the stack stays. -/
theorem step_base [Inhabited S] {m m' : M V S} (h : Step m m')
    (hb : m.stack.getLast? = some .user) : m'.stack.getLast? = some .user := by
  obtain ⟨g, stack, nextW, seen, log, ub⟩ := m
  have hub : ub = false := step_ub h
  cases hub
  cases stack with
  | nil => cases hb
  | cons f st =>
    have tl : f ≠ .user → ∀ fs, (fs ++ st).getLast? = some .user := fun hf fs => base_tail hb hf fs
    have tl0 : f ≠ .user → st.getLast? = some .user := fun hf => by simpa using tl hf []
    cases h with
    | user op he =>
      cases f with
      | user =>
        have push : ∀ f', (f' :: Frame.user :: st).getLast? = some (Frame.user : Frame V) := by
          intro f'; rw [List.getLast?_cons_cons]; exact hb
        cases op with
        | ret =>
          simp only [ustep, Bool.false_eq_true, if_false] at he
          cases st with
          | nil => cases he
          | cons f' st' =>
            cases he
            simpa using hb
        | newState | newSensor | newConstant | detach =>
          simp only [ustep, Bool.false_eq_true, if_false] at he
          cases he; exact hb
        | newCalc | newXform | newSetter | attach | kill =>
          simp only [ustep, Bool.false_eq_true, if_false] at he
          split at he
          · cases he; exact hb
          · cases he
        | set | update | commit =>
          simp only [ustep, Bool.false_eq_true, if_false] at he
          split at he
          · cases he; exact push _
          · cases he
      | obs | kids | notify | roots | up | ups | setterRest => simp [ustep] at he
    | lib he =>
      cases f with
      | user => simp [istep] at he
      | notify n =>
        simp only [istep, Bool.false_eq_true, if_false] at he
        split at he
        · cases he; exact tl (by simp) [_]
        · cases he; exact tl0 (by simp)
      | obs n cur prev =>
        simp only [istep, Bool.false_eq_true, if_false] at he
        split at he
        · cases he; exact hb
        · cases he; exact tl (by simp) [_]
        · cases he; exact tl (by simp) [_, _]
      | kids n i size prev garbage =>
        simp only [istep, Bool.false_eq_true, if_false] at he
        split at he
        · split at he
          · cases he; exact hb
          · split at he
            · cases he; exact tl (by simp) [_, _]
            · cases he; exact tl (by simp) [_]
        · cases he; exact tl0 (by simp)
      | roots rs =>
        cases rs with
        | nil =>
          simp only [istep, Bool.false_eq_true, if_false] at he
          cases he; exact tl0 (by simp)
        | cons r rs =>
          simp only [istep, Bool.false_eq_true, if_false] at he
          cases he; exact tl (by simp) [_, _]
      | up n v =>
        simp only [istep, Bool.false_eq_true, if_false] at he
        split at he
        · split at he
          · cases he; exact tl (by simp) [_]
          · cases he; exact tl0 (by simp)
        · cases he; exact tl (by simp) [_]
        · cases he; exact tl (by simp) [_]
        · cases he; exact tl (by simp) [_, _]
        · cases he; exact tl0 (by simp)
      | ups l =>
        cases l with
        | nil =>
          simp only [istep, Bool.false_eq_true, if_false] at he
          cases he; exact tl0 (by simp)
        | cons x l =>
          obtain ⟨p, v⟩ := x
          simp only [istep, Bool.false_eq_true, if_false] at he
          cases he; exact tl (by simp) [_, _]
      | setterRest n v =>
        simp only [istep, Bool.false_eq_true, if_false] at he
        split at he
        · cases he; exact tl (by simp) [_]
        · cases he; exact tl0 (by simp)

/-- A step without exception keeps the invariant, and leaves no new notification behind. -/
theorem XInv.step [Inhabited S] {m m' : M V S} {E : List Nat} {σ : Nat → Option V} (h : XInv E σ m)
    (hs : Step m m') (hub : m'.ub = false) :
    ∃ E' σ' l, XInv E' σ' m' ∧ (∀ n ∈ E', n ∈ E) ∧ m.nextW ≤ m'.nextW ∧ m'.log = m.log ++ l ∧
      ∀ w d, w < m.nextW → σ w = some d → σ' w = some (given d w l) := by
  have hb := step_base hs h.base
  cases hs with
  | lib he =>
    obtain ⟨σ', h1, _⟩ := istep_lift E σ he
    obtain ⟨hw, l, h2, h3⟩ := step_given (.lib h1)
    exact ⟨E, σ', l, ⟨istep_inv h.inv h1 hub, hb⟩, fun _ hn => hn, hw, h2, h3⟩
  | user op he =>
    by_cases hop : ∀ n, op ≠ .kill n
    · obtain ⟨σ', h1, _⟩ := ustep_lift E σ hop he
      obtain ⟨hw, l, h2, h3⟩ := step_given (.user op h1)
      exact ⟨E, σ', l, ⟨ustep_inv h.inv op h1, hb⟩, fun _ hn => hn, hw, h2, h3⟩
    · have : ∃ n, op = .kill n := Classical.byContradiction fun hne =>
        hop fun n e => hne ⟨n, e⟩
      obtain ⟨n, rfl⟩ := this
      have hu := (ustep_ub he).1
      unfold ustep at he
      rw [if_neg (by simp [hu])] at he
      split at he
      case h_2 => cases he
      simp only at he
      split at he
      case isFalse => cases he
      rename_i hc
      cases he
      refine ⟨E.filter (· ≠ n), σ, [], ⟨?_, hb⟩, fun k hk => (List.mem_filter.1 hk).1, Nat.le_refl _,
        (List.append_nil _).symm, fun w d _ h => h⟩
      refine h.inv.killTo n (m.stack ++ [.roots (E.filter (· ≠ n)), .user]) hc.2.1 ?_ ?_ ?_ ?_
      · exact stack_bottom (fun k hk => h.heldAlive k (List.mem_filter.1 hk).1) h.stackOK
      · intro f hf hn
        rcases List.mem_append.1 hf with h1 | h1
        · exact hc.2.2 f h1 hn
        · rcases List.mem_cons.1 h1 with rfl | h1
          · have := (List.mem_filter.1 hn).2
            simp at this
          · rw [List.mem_singleton.1 h1] at hn; cases hn
      · intro k hk hp
        rcases pending_bottom.1 hp with h1 | h1
        · exact pending_bottom.2 (.inl h1)
        · exact pending_bottom.2 (.inr (List.mem_filter.2 ⟨h1, by simpa using hk⟩))
      · intro k cur prev hm
        exact obs_bottom.2 (obs_bottom.1 hm)

theorem XInv.runs [Inhabited S] {m m' : M V S} {E : List Nat} {σ : Nat → Option V} (h : XInv E σ m)
    (hr : Runs m m') (hub : m'.ub = false) :
    ∃ E' σ' l, XInv E' σ' m' ∧ (∀ n ∈ E', n ∈ E) ∧ m.nextW ≤ m'.nextW ∧ m'.log = m.log ++ l ∧
      ∀ w d, w < m.nextW → σ w = some d → σ' w = some (given d w l) := by
  induction hr generalizing E σ with
  | refl => exact ⟨E, σ, [], h, fun _ hn => hn, Nat.le_refl _, (List.append_nil _).symm,
      fun _ _ _ hw => hw⟩
  | step hs hr ih =>
    obtain ⟨E1, σ1, l1, h1, h2, h3, h4, h5⟩ := h.step hs (hr.ub hub)
    obtain ⟨E2, σ2, l2, k1, k2, k3, k4, k5⟩ := ih h1 hub
    refine ⟨E2, σ2, l1 ++ l2, k1, fun n hn => h2 n (k2 n hn), by omega,
      by rw [k4, h4, List.append_assoc], fun w d hw hd => ?_⟩
    rw [given_append]
    exact k5 w _ (by omega) (h5 w d hw hd)

/-! ### Exceptions -/

/-- The nodes that wait for a notification. -/
def Graph.waiting (g : Graph V S) : List Nat :=
  (List.range g.size).filter fun n => (g.node n).alive && (g.node n).needsNotify

theorem mem_waiting {g : Graph V S} (w : WF g) {n : Nat} :
    n ∈ g.waiting ↔ (g.node n).alive = true ∧ (g.node n).needsNotify = true := by
  unfold Graph.waiting
  rw [List.mem_filter, List.mem_range, Bool.and_eq_true]
  exact ⟨fun h => h.2, fun h => ⟨w.alive_lt h.1, h⟩⟩

/-- What unwinding keeps. -/
theorem raise_spec {m m' : M V S} (h : raise m = some m') (hb : m.stack.getLast? = some .user) :
    (∀ k, ∃ b, m'.g.node k = { m.g.node k with notifying := b }) ∧ m'.g.size = m.g.size ∧
    (∃ pre st', m.stack = .user :: pre ++ .user :: st' ∧ m'.stack = .user :: st' ∧ .user ∉ pre) ∧
    m'.nextW = m.nextW ∧ m'.seen = m.seen ∧ m'.log = m.log ∧ m.ub = false ∧ m'.ub = false := by
  unfold raise at h
  split at h
  · cases h
  · rename_i hu
    split at h
    case h_2 => cases h
    rename_i f st hst
    cases h
    rw [hst, List.getLast?_cons_cons] at hb
    obtain ⟨pre, st', h1, h2, h3⟩ := unwind_suffix (f :: st) m.g hb
    have hu' : m.ub = false := by simpa using hu
    exact ⟨unwind_node (f :: st) m.g, (unwind_size (f :: st) m.g).1,
      ⟨pre, st', by rw [hst, h1]; rfl, h2, h3⟩, rfl, rfl, rfl, hu', hu'⟩

/-- What any callback that is attached to `n` has seen, if `n` is up to date. -/
theorem exists_seen {g : Graph V S}
    (uniq : ∀ n n' w, w ∈ (g.node n).obs → w ∈ (g.node n').obs → n = n') :
    ∃ σ : Nat → Option V, ∀ n w, w ∈ (g.node n).obs → σ w = some (g.node n).last := by
  refine ⟨fun w => open Classical in
    if h : ∃ n, w ∈ (g.node n).obs then some (g.node h.choose).last else none, fun n w hw => ?_⟩
  have h : ∃ n, w ∈ (g.node n).obs := ⟨n, hw⟩
  simp only [dif_pos h]
  rw [uniq _ _ w h.choose_spec hw]

theorem XInv.raise {m m' : M V S} {E : List Nat} {σ : Nat → Option V} (h : XInv E σ m)
    (hr : Verif.Graph.raise m = some m') : ∃ E' σ', XInv E' σ' m' := by
  obtain ⟨hn, hs, _, hw, _, _, hu, _⟩ := raise_spec hr h.base
  have hst' : StackOK m'.g m'.stack := by
    have h0 := h.stackOK
    unfold Verif.Graph.raise at hr
    rw [if_neg (by simp [hu])] at hr
    split at hr
    case h_2 => cases hr
    rename_i f st hst
    cases hr
    apply StackOK.unwind
    rw [hst] at h0
    refine ⟨fun x hx => h0.holds x (List.mem_cons_of_mem _ hx),
      fun k i size pr garbage hx => h0.kids k i size pr garbage (List.mem_cons_of_mem _ hx),
      (guards_light rfl _).1 h0.guards, fun k => ?_,
      fun k v hx => h0.setters k v (List.mem_cons_of_mem _ hx), ?_⟩
    · rw [h0.notifying, active_cons]; rfl
    · have := h0.base
      rw [List.getLast?_cons_cons] at this
      exact this
  have q : Quiet m.g m'.g := by
    refine ⟨hs, ?_, ?_, ?_, ?_, ?_, ?_, ?_, ?_, ?_⟩ <;>
    · intro k; obtain ⟨b, hb⟩ := hn k; rw [hb]
  have hch : ∀ k, (m'.g.node k).children = (m.g.node k).children := by
    intro k; obtain ⟨b, hb⟩ := hn k; rw [hb]
  have hob : ∀ k, (m'.g.node k).obs = (m.g.node k).obs := by
    intro k; obtain ⟨b, hb⟩ := hn k; rw [hb]
  have wf : WF m'.g := q.wf h.wf (fun n c hc => by rw [hch] at hc; exact hc)
    (fun n c _ hc => by rw [hch]; exact hc)
  have uniq : ∀ n n' w, w ∈ (m'.g.node n).obs → w ∈ (m'.g.node n').obs → n = n' := by
    intro n n' w h1 h2
    rw [hob] at h1 h2
    exact h.inv.obs.uniq n n' w h1 h2
  obtain ⟨σ', hσ⟩ := exists_seen uniq
  refine ⟨m'.g.waiting, σ', .of wf (q.fresh h.inv.fresh) (q.justified h.inv.just) hst'
    (fun n hn => ((mem_waiting wf).1 hn).1) (fun n => by rw [hob]; exact h.inv.obs.nodup n)
    (fun n w hwm => by rw [hob] at hwm; rw [hw]; exact h.inv.obs.lt n w hwm) uniq ?_
    (fun n w hwm => .inl (hσ n w hwm))⟩
  exact fun n ha hn => .inl (.inr ((mem_waiting wf).2 ⟨ha, hn⟩))

theorem xreach_inv [Inhabited S] {m : M V S} (h : XReach m) : m.ub = false → ∃ E σ, XInv E σ m := by
  induction h with
  | start ltr dummy hd => intro _; exact ⟨_, _, (start_inv ltr hd).xinv⟩
  | @step m1 m2 _ hs ih =>
    intro hub
    cases hs with
    | step hs =>
      obtain ⟨E, σ, hx⟩ := ih (step_ub hs)
      obtain ⟨E', σ', _, h1, _⟩ := hx.step hs hub
      exact ⟨E', σ', h1⟩
    | raise hr =>
      have hu : m1.ub = false := by
        unfold Verif.Graph.raise at hr
        split at hr
        · cases hr
        · rename_i hu; simpa using hu
      obtain ⟨E, σ, hx⟩ := ih hu
      exact hx.raise hr

/-! ### Consequences -/

theorem lift_above {m : M V S} {E : List Nat} {σ : Nat → Option V} {a n : Nat} :
    (lift E σ m).Above a n ↔ m.Above a n := by
  constructor
  · intro h
    induction h with
    | refl => exact .refl
    | step hp _ ih => exact .step hp ih
  · intro h
    induction h with
    | refl => exact .refl
    | step hp _ ih => exact .step hp ih

theorem M.Above.up {m : M V S} {p k n : Nat} (h : m.Above k n) (hp : p ∈ (m.g.node k).parents) :
    m.Above p n := by
  induction h with
  | refl => exact .step hp .refl
  | step hq _ ih => exact .step hq ih

theorem XInv.consistent {m : M V S} {E : List Nat} {σ : Nat → Option V} (h : XInv E σ m) {n : Nat}
    (ha : m.Live n) (hc : ∀ a, m.Above a n → ¬ m.Uncommitted a) {view put r}
    (hk : (m.g.node n).kind = .calc view put r) {v : V}
    (hv : view ((m.g.node n).parents.map m.get) = some v) : m.get n = v :=
  h.inv.consistent (m := lift E σ m) ha (fun a hab => hc a (lift_above.1 hab)) hk hv

/-- At rest, what waits for a notification is what was left behind, or below that. -/
theorem XInv.waiting {m : M V S} {E : List Nat} {σ : Nat → Option V} (h : XInv E σ m)
    (hr : m.stack = [.user]) (n : Nat) (ha : m.Live n)
    (hc : ∀ a, m.Above a n → ¬ m.Uncommitted a)
    (he : ∀ a, m.Above a n → ¬ m.Source a → (m.g.node a).cmp = true) (hn : m.Waiting n) :
    ∃ a, m.Above a n ∧ a ∈ E := by
  have nd : ∀ n, m.Live n → (∀ a, m.Above a n → ¬ m.Uncommitted a) →
      (∀ a, m.Above a n → ¬ m.Source a → (m.g.node a).cmp = true) →
      (m.g.node n).dirty = false := fun n ha hc he =>
    h.inv.notDirty (m := lift E σ m) ha (fun a hab => hc a (lift_above.1 hab))
      (fun a hab => he a (lift_above.1 hab))
  induction n using Nat.strongRecOn with
  | ind n ih =>
    rcases h.cov n ha hn with (⟨f, hf, hp⟩ | h1) | h1 | ⟨p, hp, h1⟩
    · rw [hr] at hf
      rw [List.mem_singleton.1 hf] at hp
      cases hp
    · exact ⟨n, .refl, h1⟩
    · rw [nd n ha hc he] at h1; cases h1
    · have hpa : m.Live p := h.wf.parentAlive n ha p hp
      have hpc : ∀ a, m.Above a p → ¬ m.Uncommitted a := fun a hab => hc a (.step hp hab)
      have hpe : ∀ a, m.Above a p → ¬ m.Source a → (m.g.node a).cmp = true :=
        fun a hab => he a (.step hp hab)
      rcases h1 with h1 | h1
      · obtain ⟨a, h2, h3⟩ := ih p (h.wf.lt n p hp) hpa hpc hpe h1
        exact ⟨a, .step hp h2, h3⟩
      · rw [nd p hpa hpc hpe] at h1; cases h1

theorem XInv.step_const [Inhabited S] {m m' : M V S} {E : List Nat} {σ : Nat → Option V}
    (h : XInv E σ m) (hs : Step m m') {n : Nat} (hn : n < m.g.size) :
    (m'.g.node n).kind = (m.g.node n).kind ∧ (m'.g.node n).parents = (m.g.node n).parents ∧
    n < m'.g.size := by
  have hle := step_size_le hs
  have hev : Evolves (m.g.node n) (m'.g.node n) := by
    cases hs with
    | lib he =>
      obtain ⟨σ', h1, _⟩ := istep_lift E σ he
      exact istep_evolves h.inv h1 n
    | user op he => exact ustep_evolves op he hn
  exact ⟨hev.const.1, hev.const.2.1, by omega⟩

theorem XInv.runs_const [Inhabited S] {m m' : M V S} {E : List Nat} {σ : Nat → Option V}
    (h : XInv E σ m) (hr : Runs m m') (hub : m'.ub = false) {n : Nat} (hn : n < m.g.size) :
    (m'.g.node n).kind = (m.g.node n).kind ∧ (m'.g.node n).parents = (m.g.node n).parents ∧
    n < m'.g.size := by
  induction hr generalizing E σ with
  | refl => exact ⟨rfl, rfl, hn⟩
  | step hs hr ih =>
    obtain ⟨h1, h2, h3⟩ := h.step_const hs hn
    obtain ⟨E', σ', _, h4, _⟩ := h.step hs (hr.ub hub)
    obtain ⟨k1, k2, k3⟩ := ih h4 hub h3
    exact ⟨k1.trans h1, k2.trans h2, k3⟩

theorem XInv.above_back [Inhabited S] {m m' : M V S} {E : List Nat} {σ : Nat → Option V}
    (h : XInv E σ m) (hr : Runs m m') (hub : m'.ub = false) {a n : Nat} (hn : n < m.g.size)
    (ha : m'.Above a n) : m.Above a n := by
  induction ha with
  | refl => exact .refl
  | step hp _ ih =>
    rw [(h.runs_const hr hub hn).2.1] at hp
    exact .step hp (ih (by have := h.wf.lt _ _ hp; omega))

/-- If nothing that concerns `n` was left behind, callbacks on `n` end up with its value. -/
theorem XInv.final [Inhabited S] {m m' : M V S} {E : List Nat} {σ : Nat → Option V}
    (h : XInv E σ m) (hr : Runs m m') (hrest : m'.AtRest) {n w : Nat} {d : V}
    (hE : ∀ a, m.Above a n → a ∉ E) (hn : n < m.g.size) (hw : w < m.nextW) (hd : σ w = some d)
    (hatt : w ∈ (m'.g.node n).obs) (hlive : m'.Live n)
    (hc : ∀ a, m'.Above a n → ¬ m'.Uncommitted a)
    (hcmp : ∀ a, m'.Above a n → ¬ m'.Source a → (m'.g.node a).cmp = true) :
    ∃ l, m'.log = m.log ++ l ∧ given d w l = m'.get n := by
  obtain ⟨E', σ', l, h1, h2, _, h4, h5⟩ := h.runs hr hrest.2
  refine ⟨l, h4, ?_⟩
  have h6 := h5 w d hw hd
  rcases h1.seen n w hatt with h7 | h7 | ⟨cur, prev, hm, _⟩
  · rw [h6] at h7
    exact Option.some.inj h7
  · obtain ⟨a, h8, h9⟩ := h1.waiting hrest.1 n hlive hc hcmp h7
    exact absurd (h2 a h9) (hE a (h.above_back hr hrest.2 hn h8))
  · rw [hrest.1] at hm
    cases List.mem_singleton.1 hm

/-! ### Examples -/

/-- What user code does in the examples: a call, or throwing an exception. -/
def xexec [Inhabited S] (ops : List (Option (Op V S))) (m : M V S) : M V S :=
  ops.foldl (fun m op => match op with
    | some op => exec [op] m
    | none => (Verif.Graph.raise m).getD m) m

theorem XReach.runs [Inhabited S] {a b : M V S} (h : XReach a) (hr : Runs a b) : XReach b := by
  induction hr with
  | refl => exact h
  | step hs _ ih => exact ih (.step h (.step hs))

theorem Reach.x [Inhabited S] {m : M V S} (h : Reach m) : XReach m := by
  induction h with
  | start ltr dummy hd => exact .start ltr dummy hd
  | step _ hs ih => exact .step ih (.step hs)

theorem XReach.xexec [Inhabited S] {m : M V S} (h : XReach m) (ops : List (Option (Op V S))) :
    XReach (xexec ops m) := by
  induction ops generalizing m with
  | nil => exact h
  | cons op ops ih =>
    cases op with
    | some op => exact ih (h.runs (exec_runs [op] m))
    | none =>
      refine ih (m := (Verif.Graph.raise m).getD m) ?_
      cases hr : Verif.Graph.raise m with
      | none => exact h
      | some m' => exact .step h (.raise hr)

theorem xexec_reach (ops : List (Option (Op Nat Nat))) : XReach (xexec ops boot) :=
  (exec_reach []).x.xexec ops

end Verif.Graph
