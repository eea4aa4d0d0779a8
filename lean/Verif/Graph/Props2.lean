import Verif.Graph.Exec
import Verif.Graph.Silent

/-
Properties C08, C15, C16, C17 and C24 of the node graph.  `Verif.Graph.Spec` has the vocabulary.
-/

set_option linter.unusedSectionVars false

namespace Verif.Graph

variable {V S : Type} [DecidableEq V]

/-! ### C08: commit without changes is silent -/

/-- A commit of roots without uncommitted writes, of which the sensors return again what they returned
last, calls nothing and changes no value. -/
theorem C08_silent [Inhabited S] {m : M V S} (h : Reach m) (hrest : m.AtRest) (rs : List Nat)
    (hr : ∀ r ∈ rs, m.Live r ∧ m.Root r) (hc : ∀ r ∈ rs, ¬ m.Uncommitted r)
    (hs : ∀ r ∈ rs, ∀ ext, (m.g.node r).kind = .sensor ext → (m.g.node r).cmp = true ∧
      ∀ i, m.sampled r ≤ i → i < m.sampled r + rs.count r → ext i = m.get r) :
    (∃ m', Call m (.commit rs) m') ∧
    ∀ m', Call m (.commit rs) m' → m'.log = m.log ∧ ∀ k, m'.get k = m.get k := by
  have hi := reach_inv h hrest.2
  have hlt : ∀ r ∈ rs, r < m.g.size := fun r hrm => hi.wf.alive_lt (hr r hrm).1
  have hpar : ∀ r ∈ rs, (m.g.node r).parents = [] := fun r hrm =>
    roots_no_parents h hrest.2 (hlt r hrm) (hr r hrm).2
  have hsrc : ∀ r ∈ rs, m.Source r := by
    intro r hrm view put rf hk
    rcases (hr r hrm).2 with ⟨a, h1⟩ | ⟨e, h1⟩ | h1 <;> (rw [hk] at h1; cases h1)
  have hd : ∀ r ∈ rs, (m.g.node r).dirty = false := by
    intro r hrm
    cases hdd : (m.g.node r).dirty with
    | false => rfl
    | true => exact absurd ⟨hsrc r hrm, hdd⟩ (hc r hrm)
  have habove : ∀ r ∈ rs, ∀ a, m.Above a r → a = r := by
    intro r hrm a ha
    cases ha with
    | refl => rfl
    | step hp _ => rw [hpar r hrm] at hp; cases hp
  have hnn : ∀ r ∈ rs, (m.g.node r).needsNotify = false := fun r hrm =>
    hi.notified hrest.1 r (hr r hrm).1 (fun a ha => by rw [habove r hrm a ha]; exact hc r hrm)
      (fun a ha hn => by rw [habove r hrm a ha] at hn; exact absurd (hsrc r hrm) hn)
  have hidle : ∀ r ∈ rs, Idle m.g r (rs.count r) := by
    intro r hrm
    have hch : (m.g.node r).chg = false := by
      cases hcc : (m.g.node r).chg with
      | false => rfl
      | true => have := (hi.fresh r).1 hcc; rw [hd r hrm] at this; cases this
    refine ⟨hlt r hrm, hd r hrm, (hi.fresh r).2.2 hch, ?_⟩
    rcases (hr r hrm).2 with h1 | ⟨ext, h1⟩ | h1
    · exact .inl h1
    · exact .inr (.inr ⟨ext, h1, (hs r hrm ext h1).1, (hs r hrm ext h1).2⟩)
    · exact .inr (.inl h1)
  have hcnt := sendAll_idle rs m.g hidle
  let m1 : M V S :=
    { m with g := rs.foldl (fun g r => g.sendDown r) m.g, stack := .roots rs :: m.stack }
  have hu : ustep m (.commit rs) = some m1 := by
    unfold ustep
    simp only [hrest.2, hrest.1, m1]
    rw [if_neg (by simp), if_pos]
    · rw [Bool.and_eq_true]
      refine ⟨List.all_eq_true.2 fun r hrm => ?_, List.all_eq_true.2 fun r hrm => ?_⟩
      · unfold Graph.valid
        rw [show (m.g.node r).alive = true from (hr r hrm).1]
        simp [hlt r hrm]
      · rw [hpar r hrm]; rfl
  have hrun : LibRun m1 { m1 with stack := m.stack } := by
    refine roots_silent rs m1 m.stack hrest.2 rfl fun r hrm => ?_
    obtain ⟨s, hs⟩ := hcnt.2 r
    show ((rs.foldl (fun g r => g.sendDown r) m.g).node r).needsNotify = false
    rw [hs]
    exact hnn r hrm
  have hcall : Call m (.commit rs) { m1 with stack := m.stack } := ⟨m1, hu, hrun, rfl⟩
  refine ⟨⟨_, hcall⟩, fun m' hm' => ?_⟩
  cases hcall.det hm'
  refine ⟨rfl, fun k => ?_⟩
  obtain ⟨s, hs⟩ := hcnt.2 k
  show ((rs.foldl (fun g r => g.sendDown r) m.g).node k).last = (m.g.node k).last
  rw [hs]

/-- In particular, a second commit of the same roots, right after the first, does nothing. -/
theorem C08_twice [Inhabited S] {m m1 : M V S} (h : Reach m) (hrest : m.AtRest) (rs : List Nat)
    (hr : ∀ r ∈ rs, m.Live r ∧ m.Root r) (h1 : PCall m (.commit rs) m1)
    (hs : ∀ r ∈ rs, ∀ ext, (m1.g.node r).kind = .sensor ext → (m1.g.node r).cmp = true ∧
      ∀ i, m1.sampled r ≤ i → i < m1.sampled r + rs.count r → ext i = m1.get r) :
    (∃ m2, Call m1 (.commit rs) m2) ∧
    ∀ m2, Call m1 (.commit rs) m2 → m2.log = m1.log ∧ ∀ k, m2.get k = m1.get k := by
  have hi := reach_inv h hrest.2
  have hlt : ∀ r ∈ rs, r < m.g.size := fun r hrm => hi.wf.alive_lt (hr r hrm).1
  have hpar : ∀ r ∈ rs, (m.g.node r).parents = [] := fun r hrm =>
    roots_no_parents h hrest.2 (hlt r hrm) (hr r hrm).2
  have hval : ∀ r ∈ rs, m.g.valid r = true ∧ (m.g.node r).parents = [] := fun r hrm => by
    refine ⟨?_, hpar r hrm⟩
    unfold Graph.valid
    rw [show (m.g.node r).alive = true from (hr r hrm).1]
    simp [hlt r hrm]
  obtain ⟨m', k1, k2, k3⟩ := commit_call hi hrest.2 hrest.1 hval
  obtain rfl : m' = m1 := k1.det h1
  have hreach := h1.runs.reach h
  have hsm := sendAll_same rs m.g
  have hkind : ∀ r, (m'.g.node r).kind = (m.g.node r).kind := fun r =>
    (k3.quiet.kind r).trans (hsm.kind r)
  have hst : m'.AtRest := by
    obtain ⟨_, _, _, e⟩ := h1
    exact ⟨e.trans hrest.1, k2⟩
  have hroot : ∀ r ∈ rs, m'.Root r := fun r hrm => by
    have := (hr r hrm).2
    unfold M.Root at this ⊢
    rw [hkind]; exact this
  refine C08_silent hreach hst rs (fun r hrm => ⟨?_, hroot r hrm⟩) (fun r hrm hu => ?_) hs
  · exact (k3.quiet.alive r).trans ((hsm.alive r).trans (hr r hrm).1)
  · have hsz : r < m'.g.size := by rw [k3.quiet.size, hsm.size]; exact hlt r hrm
    have hd := hu.2
    rcases (hr r hrm).2 with ⟨a, hk⟩ | ⟨e, hk⟩ | hk
    · rw [k3.quiet.dirty, ((sendAll_state rs m.g hi.wf hi.fresh hlt hk (hpar r hrm)).2 hrm).2] at hd
      cases hd
    · rw [sensor_clean hreach k2 hsz ((hkind r).trans hk)] at hd
      cases hd
    · rw [(constant_inv hreach k2 hsz ((hkind r).trans hk)).1] at hd
      cases hd

/-- A state, a sensor that returns the same value from the second call on, a constant and a watched
reader of all three: the first commit publishes two changes, the second is silent. -/
def exSteady : List (Op Nat Nat) :=
  [.newState false true 1, .newSensor true (fun k => if k = 0 then 7 else 8), .newConstant true 3,
   .newCalc true [0, 1, 2] (fun l => some l.sum) none false 0, .attach 3 0, .set 0 4]

example : ∃ m m1 : M Nat Nat, Reach m ∧ m.AtRest ∧ (∀ r ∈ [0, 1, 2, 1], m.Live r ∧ m.Root r) ∧
    PCall m (.commit [0, 1, 2, 1]) m1 ∧ m.get 3 = 11 ∧ m1.get 3 = 15 ∧
    m1.log = m.log ++ [.call 0 3 15] ∧
    (∀ r ∈ [0, 1, 2, 1], ∀ ext, (m1.g.node r).kind = .sensor ext → (m1.g.node r).cmp = true ∧
      ∀ i, m1.sampled r ≤ i → i < m1.sampled r + [0, 1, 2, 1].count r → ext i = m1.get r) := by
  have hall : ∀ r ∈ [0, 1, 2, 1], ((exec exSteady boot).g.node r).alive = true ∧
    (exec exSteady boot).isRoot r = true := by decide +kernel
  have hst : ∀ r ∈ [0, 1, 2, 1],
    ((exec exSteady boot).pcall (.commit [0, 1, 2, 1])).steady r ([0, 1, 2, 1].count r) = true := by
    decide +kernel
  exact ⟨exec exSteady boot, (exec exSteady boot).pcall (.commit [0, 1, 2, 1]), exec_reach _,
    ⟨by decide +kernel, by decide +kernel⟩, fun r hr => ⟨(hall r hr).1, isRoot_root (hall r hr).2⟩,
    pcall_call (by decide +kernel) (by decide +kernel), by decide +kernel, by decide +kernel,
    by decide +kernel, fun r hr => steady_ext (hst r hr)⟩

/-! ### C15: constants -/

/-- A constant made in state `m` always shows the value it was given, and no callback on it is ever
called. -/
theorem C15_constant [Inhabited S] {m m1 m2 : M V S} (h : Reach m) {cmp : Bool} {v : V}
    (hnew : ustep m (.newConstant cmp v) = some m1) (hr : Runs m1 m2) (hub : m2.ub = false) :
    m2.get m.g.size = v ∧
      ∃ l, m2.log = m1.log ++ l ∧ ∀ w u, Ev.call w m.g.size u ∉ l := by
  have hi := reach_inv h (ustep_ub hnew).1
  have hr1 : Reach m1 := .step h (.user _ hnew)
  have hn : m1.g.size = m.g.size + 1 ∧ (m1.g.node m.g.size).kind = .constant ∧
      (m1.g.node m.g.size).init = v := by
    unfold ustep at hnew
    split at hnew
    · cases hnew
    · split at hnew
      case h_2 => cases hnew
      cases hnew
      have hp : ∀ p ∈ (freshNode (S := S) .constant [] v cmp default default).parents,
        p < m.g.size := fun p hp => absurd hp (by simp [freshNode])
      refine ⟨add_size _ _, ?_, ?_⟩
      · simp only; rw [add_new _ _ hp]; rfl
      · simp only; rw [add_new _ _ hp]; rfl
  have hlt : m.g.size < m1.g.size := by omega
  constructor
  · obtain ⟨he, hs⟩ := hr.evolves (ustep_inv hi _ hnew) hub hlt
    have hc := he.const
    have hk : (m2.g.node m.g.size).kind = .constant := hc.1.trans hn.2.1
    exact (constant_inv (hr.reach hr1) hub hs hk).2.2.2.trans (hc.2.2.2.1.trans hn.2.2)
  · have hk := hn.2.1
    clear hnew hn
    generalize m.g.size = n at *
    induction hr with
    | refl m => exact ⟨[], by simp, by simp⟩
    | step hs hr ih =>
      rename_i a b c
      have hubb := hr.ub hub
      have hia := reach_inv hr1 (step_ub hs)
      have hev := (step_evolves hia hs hlt).const
      obtain ⟨l, hl, hno⟩ := ih hub (.step hr1 hs) (Nat.lt_of_lt_of_le hlt (step_size_le hs))
        (hev.1.trans hk)
      cases hs with
      | user op he => exact ⟨l, by rw [hl, (ustep_log he).1], hno⟩
      | lib he =>
        rcases (istep_log he).2 with ⟨h1, _⟩ | ⟨n', w', prev, st, cur, rest, hst, hrem, rfl⟩ |
          ⟨n', v', st, a', _, _, rfl⟩
        · exact ⟨l, by rw [hl, h1], hno⟩
        · refine ⟨.call w' n' (a.g.node n').last :: l, by rw [hl]; simp, fun w u hmem => ?_⟩
          rcases List.mem_cons.1 hmem with e | hmem
          · cases e
            exact constant_no_obs hr1 (step_ub (.lib he)) hk hlt cur prev
              (by rw [hst]; exact List.mem_cons_self ..)
          · exact hno w u hmem
        · refine ⟨.setterCall n' v' :: l, by rw [hl]; simp, fun w u hmem => ?_⟩
          rcases List.mem_cons.1 hmem with e | hmem
          · cases e
          · exact hno w u hmem

/-- A watched constant, committed together with a watched state whose callback also commits it. -/
example : ∃ m m1 m2 : M Nat Nat, Reach m ∧ ustep m (.newConstant true 5) = some m1 ∧ Runs m1 m2 ∧
    m2.ub = false ∧ m2.get 1 = 5 ∧ m2.log = [.call 1 0 2] ∧ (m2.g.node 1).obs = [0] := by
  let m := exec [.newState false true 1] boot
  exact ⟨m, _, exec [.attach 1 0, .attach 0 0, .set 0 2, .commit [1, 0], .commit [1], .ret] _,
    exec_reach _, some_getD m (by decide +kernel), exec_runs _ _, by decide +kernel,
    by decide +kernel, by decide +kernel, by decide +kernel⟩

/-! ### C16: sensors -/

/-- The function of a sensor made in state `m` is called once at construction and once each time a
commit lists the sensor, and at no other time; and the sensor always shows what the last call
returned. -/
theorem C16_sampled_by_commits [Inhabited S] {m m1 m2 : M V S} (h : Reach m) {cmp : Bool}
    {ext : Nat → V} (hnew : ustep m (.newSensor cmp ext) = some m1) {ops : List (Op V S)}
    (ht : Trace m1 ops m2) (hub : m2.ub = false) :
    m2.sampled m.g.size = 1 + (ops.map (Op.samples m.g.size)).sum ∧
    m2.get m.g.size = ext (m2.sampled m.g.size - 1) := by
  have hi := reach_inv h (ustep_ub hnew).1
  have hr1 : Reach m1 := .step h (.user _ hnew)
  have hn : m1.g.size = m.g.size + 1 ∧ (m1.g.node m.g.size).kind = .sensor ext ∧
      (m1.g.node m.g.size).samples = 1 := by
    unfold ustep at hnew
    split at hnew
    · cases hnew
    · split at hnew
      case h_2 => cases hnew
      cases hnew
      refine ⟨add_size _ _, ?_, ?_⟩
      · simp only; rw [add_new]; · rfl
        intro p hp; simp [freshNode] at hp
      · simp only; rw [add_new]
        intro p hp; simp [freshNode] at hp
  obtain ⟨h1, h2, h3, h4⟩ := trace_sensor ht hr1 hub (by omega) hn.2.1
  refine ⟨by rw [h1]; unfold M.sampled; rw [hn.2.2], ?_⟩
  have hd := sensor_clean h4 hub h2 h3
  have hi2 := reach_inv h4 hub
  have hch : (m2.g.node m.g.size).chg = false := by
    cases hcc : (m2.g.node m.g.size).chg with
    | false => rfl
    | true => have := (hi2.fresh _).1 hcc; rw [hd] at this; cases this
  exact ((hi2.fresh _).2.2 hch).trans (sensor_value h4 hub h2 h3).2

/-- A watched counter sensor; its callback reads a derived reader and commits the sensor once more.
Four commits list it, one of them twice. -/
example : ∃ m m1 m2 : M Nat Nat, ∃ ops, Reach m ∧ ustep m (.newSensor true (· * 10)) = some m1 ∧
    Trace m1 ops m2 ∧ m2.ub = false ∧ (ops.map (Op.samples 0)).sum = 4 ∧ m2.get 0 = 40 ∧
    m2.get 1 = 41 := by
  let m := boot
  let ops : List (Op Nat Nat) := [.newCalc true [0] (on1 (· + 1)) none false 0, .attach 1 0,
    .newState true true 0, .set 2 7, .commit [0, 0], .commit [0], .commit [2], .ret, .ret,
    .commit [0], .ret]
  exact ⟨m, _, exec ops _, ops, .start _ _ ⟨rfl, rfl, rfl, rfl, rfl, rfl, rfl, rfl⟩,
    some_getD m (by decide +kernel), exec_trace _ _ (by decide +kernel), by decide +kernel,
    by decide +kernel, by decide +kernel, by decide +kernel⟩

/-! ### C17: destroyed readers -/

/-- A destroyed reader stays destroyed, its value does not change any more and none of the callbacks
on it is called. -/
theorem C17_dead_silent [Inhabited S] {m m' : M V S} (hr : Reach m) (hruns : Runs m m')
    (hub : m'.ub = false) {n : Nat} (hn : n < m.g.size) (hd : ¬ m.Live n) :
    ¬ m'.Live n ∧ m'.get n = m.get n ∧ m'.pending n = m.pending n ∧
      ∃ l, m'.log = m.log ++ l ∧ ∀ w u, Ev.call w n u ∉ l := by
  induction hruns with
  | refl m => exact ⟨hd, rfl, rfl, [], by simp, by simp⟩
  | step hs hrr ih =>
    rename_i a b c
    have hub1 := hrr.ub hub
    have hi := reach_inv hr (step_ub hs)
    have hdead : ¬ b.Live n := fun hl => hd ((step_evolves hi hs hn).alive hl)
    obtain ⟨k1, k2, k3, l, k4, k5⟩ := ih (.step hr hs) hub
      (Nat.lt_of_lt_of_le hn (step_size_le hs)) hdead
    have hfz : Frozen (a.g.node n) (b.g.node n) := by
      have hap : Apart a.g n := .inl (by
        cases hh : (a.g.node n).alive with
        | false => rfl
        | true => exact absurd hh hd)
      cases hs with
      | lib he => exact istep_frozen hi he hap
      | user op he =>
        refine ustep_frozen hi he hn (hap.imp id (·.1)) fun rs e hmem => ?_
        subst e
        exact hd (commit_alive he n hmem)
    refine ⟨k1, k2.trans hfz.last, k3.trans hfz.current, ?_⟩
    cases hs with
    | user op he => exact ⟨l, by rw [k4, (ustep_log he).1], k5⟩
    | lib he =>
      rcases (istep_log he).2 with ⟨h1, _⟩ | ⟨n', w', prev, st, cur, rest, hst, hrem, rfl⟩ |
        ⟨n', v', st, a', _, _, rfl⟩
      · exact ⟨l, by rw [k4, h1], k5⟩
      · refine ⟨.call w' n' (a.g.node n').last :: l, by rw [k4]; simp, fun w u hmem => ?_⟩
        rcases List.mem_cons.1 hmem with e | hmem
        · cases e
          exact hd (hi.stack.holds _ (by rw [hst]; exact List.mem_cons_self ..) n
            (List.mem_cons_self ..))
        · exact k5 w u hmem
      · refine ⟨.setterCall n' v' :: l, by rw [k4]; simp, fun w u hmem => ?_⟩
        rcases List.mem_cons.1 hmem with e | hmem
        · cases e
        · exact k5 w u hmem

/-- While a notification of `n` is going on (before and after the step), the list of readers derived
from `n` changes only by new ones being appended: the positions that a loop over the list is still
going to visit stay what they were. -/
theorem C17_positions [Inhabited S] {m m' : M V S} (hr : Reach m) (hs : Step m m') {n : Nat}
    (ha : active n m'.stack = true) : (m.g.node n).children <+: (m'.g.node n).children := by
  have hi := reach_inv hr (step_ub hs)
  cases hs with
  | lib he => rw [istep_children hi he ha]; exact List.prefix_refl _
  | user op he => exact ustep_children hi he n

/-- Such a loop never leaves the list: the only undefined behaviour of a notification is a callback
that has detached itself. -/
theorem C17_no_overrun [Inhabited S] {m m' : M V S} (hr : Reach m) (hs : istep m = some m')
    (hub : m'.ub = true) :
    ∃ n w prev st, m.stack = .obs n (some w) prev :: st ∧ w ∉ (m.g.node n).obs := by
  have hi := reach_inv hr (step_ub (.lib hs))
  unfold istep at hs
  split at hs
  · cases hs
  · rename_i hu
    have hu : m.ub = false := by simpa using hu
    split at hs
    · split at hs <;> (cases hs; simp only at hub; rw [hu] at hub; cases hub)
    · rename_i n cur prev st hst
      split at hs
      · rename_i hrem
        cases cur with
        | none => cases hrem
        | some w => exact ⟨n, w, prev, st, hst, after_none hrem⟩
      · cases hs; simp only at hub; rw [hu] at hub; cases hub
      · cases hs; simp only at hub; rw [hu] at hub; cases hub
    · rename_i n i size prev garbage st hst
      split at hs
      · rename_i hlt
        split at hs
        · rename_i hnone
          have := hi.stack.kids n i size prev garbage (by rw [hst]; exact List.mem_cons_self ..)
          rw [List.getElem?_eq_none_iff] at hnone
          omega
        · split at hs <;> (cases hs; simp only at hub; rw [hu] at hub; cases hub)
      · cases hs; simp only at hub; rw [hu] at hub; cases hub
    · cases hs; simp only at hub; rw [hu] at hub; cases hub
    · cases hs; simp only at hub; rw [hu] at hub; cases hub
    · split at hs
      · split at hs <;> (cases hs; simp only at hub; rw [hu] at hub; cases hub)
      · cases hs; simp only at hub; rw [hu] at hub; cases hub
      · cases hs; simp only at hub; rw [hu] at hub; cases hub
      · cases hs; simp only at hub; rw [hu] at hub; cases hub
      · cases hs; simp only at hub; rw [hu] at hub; cases hub
    · cases hs; simp only at hub; rw [hu] at hub; cases hub
    · cases hs; simp only at hub; rw [hu] at hub; cases hub
    · split at hs <;> (cases hs; simp only at hub; rw [hu] at hub; cases hub)
    · cases hs
    · cases hs

/-- A callback that detaches itself. -/
example : ∃ m m' : M Nat Nat, Reach m ∧ istep m = some m' ∧ m'.ub = true := by
  let a := exec [.newState true true 1, .attach 0 0, .set 0 2, .detach 0 0] boot
  have h : ustep a .ret = some ((ustep a .ret).getD a) := some_getD a (by decide +kernel)
  exact ⟨(ustep a .ret).getD a, _, .step (exec_reach _) (.user _ h),
    some_getD a (by decide +kernel), by decide +kernel⟩

/-- When the outermost notification of `n` is over (its callbacks do not interfere), `n` has forgotten
all the destroyed readers, and only these. -/
theorem C17_forgotten [Inhabited S] {m : M V S} (hr : Reach m) (hub : m.ub = false) {n : Nat}
    {st : List (Frame V)} (hst : m.stack = .notify n :: st)
    (hnn : (m.g.node n).needsNotify = true) (hd : (m.g.node n).dirty = false)
    (houter : active n m.stack = false) :
    (∃ m', PRun st.length m m' ∧ m'.stack = st) ∧
    ∀ m', PRun st.length m m' → m'.stack = st →
      (m'.g.node n).children = (m.g.node n).children.filter fun c => (m.g.node c).alive := by
  have hi := reach_inv hr hub
  have hal : (m.g.node n).alive = true :=
    hi.stack.holds (.notify n) (by rw [hst]; exact List.mem_cons_self ..) n (List.mem_cons_self ..)
  obtain ⟨m', h1, h2, _, _, _, h3⟩ := notify_prun' (d := st.length) _ m n st (Nat.le_refl _)
    (hi.wf.alive_lt hal) hi hub hst (Nat.le_refl _)
  refine ⟨⟨m', h1, h2⟩, fun m2 k1 k2 => ?_⟩
  obtain rfl : m' = m2 := h1.det (pstep_done (by rw [h2])) k1 (pstep_done (by rw [k2]))
  exact h3 (by rw [hnn, hd]; rfl) (by rw [hi.stack.notifying]; exact houter)

/-- Three readers of a state; the callback of the state destroys the second one and makes a fourth
one, the callback of the third one writes and commits again.  In the end the state has the readers
1, 3 and 4 only; the watcher of the destroyed one has not been called. -/
def exForget : List (Op Nat Nat) :=
  [.newState false true 1, .newCalc true [0] (on1 (· + 1)) none false 0,
   .newCalc true [0] (on1 (· + 2)) none false 0, .newCalc true [0] (on1 (· + 3)) none false 0,
   .attach 0 0, .attach 2 0, .attach 3 0, .set 0 5, .commit [0], .kill 2,
   .newCalc true [0] (on1 (· + 4)) none false 0, .ret, .set 0 6, .commit [0], .ret, .ret, .ret]

example : ∃ m m' : M Nat Nat, Reach m ∧ ¬ m.Live 2 ∧ 2 < m.g.size ∧ Runs m m' ∧ m'.ub = false ∧
    m'.get 2 = 7 ∧ m'.get 0 = 6 ∧ (m.g.node 0).children = [1, 2, 3] ∧
    (m'.g.node 0).children = [1, 3, 4] := by
  refine ⟨exec (exForget.take 10) boot, exec (exForget.drop 10) (exec (exForget.take 10) boot),
    exec_reach _, ?_, by decide +kernel, exec_runs _ _, by decide +kernel, by decide +kernel,
    by decide +kernel, by decide +kernel, by decide +kernel⟩
  unfold M.Live; decide +kernel

/-- The hypotheses of `C17_forgotten` and `C17_positions` are met, too. -/
example : ∃ m m1 : M Nat Nat, Reach m ∧ m.ub = false ∧ m.stack = [.notify 0, .roots [], .user] ∧
    (m.g.node 0).needsNotify = true ∧ (m.g.node 0).dirty = false ∧ active 0 m.stack = false ∧
    (m.g.node 0).children = [1, 2] ∧ (m.g.node 1).alive = false ∧
    Runs m m1 ∧ active 0 m1.stack = true := by
  let a := exec [.newState false true 1, .newCalc true [0] (on1 (· + 1)) none false 0,
    .newCalc true [0] (on1 (· + 2)) none false 0, .kill 1, .set 0 2] boot
  have hs : ustep a (.commit [0]) = some ((ustep a (.commit [0])).getD a) :=
    some_getD a (by decide +kernel)
  have hr := libN_run 1 ((ustep a (.commit [0])).getD a)
  exact ⟨libN 1 ((ustep a (.commit [0])).getD a), libN 1 (libN 1 ((ustep a (.commit [0])).getD a)),
    hr.runs.reach (.step (exec_reach _) (.user _ hs)), by decide +kernel, by decide +kernel,
    by decide +kernel, by decide +kernel, by decide +kernel, by decide +kernel, by decide +kernel,
    (libN_run 1 _).runs, by decide +kernel⟩

/-- A reader that is destroyed after the loop has gone past it is not noticed by this notification:
the link stays until the next one. -/
theorem C17_late_stays_false : ∃ m : M Nat Nat, Reach m ∧ m.AtRest ∧ ¬ m.Live 1 ∧
    (m.g.node 0).children = [1, 2] := by
  refine ⟨exec [.newState false true 1, .newCalc true [0] (on1 (· + 1)) none false 0,
    .newCalc true [0] (on1 (· + 2)) none false 0, .attach 2 0, .set 0 5, .commit [0], .kill 1,
    .ret] boot, exec_reach _, ⟨by decide +kernel, by decide +kernel⟩, ?_, by decide +kernel⟩
  unfold M.Live; decide +kernel

/-! ### C24: stateful transformations -/

/-- A reader is made with `xform` from a transducer, given as the state machine `down` with initial
state `s0`.  Its initial value is what the transducer emits last for the initial values of the sources
(`dflt` if nothing).  In every later state there is a list of inputs that the transducer was given,
and the reader's value is what the transducer emitted last, if anything; unless some source has an
uncommitted write, that is also what `get` returns, and the last input is the present value of the
sources. -/
theorem C24_latest_output [Inhabited S] {m m1 m2 : M V S} (h : Reach m) {cmp : Bool}
    {ps : List Nat} {s0 u0 : S} {down : S → List V → S × List V}
    {up : Option (S → V → S × List (List V))} {dflt : V}
    (hnew : ustep m (.newXform cmp ps s0 u0 down up dflt) = some m1) (hr : Runs m1 m2)
    (hub : m2.ub = false) :
    ∃ fed : List (List V), fed = m2.fed m.g.size ∧
      m2.pending m.g.size =
        lastOr (lastOr dflt (down s0 (ps.map m.pending)).2) (runX down s0 fed).2 ∧
      (m2.Live m.g.size → (∀ a, m2.Above a m.g.size → ¬ m2.Uncommitted a) →
        m2.get m.g.size = m2.pending m.g.size ∧
        fed.getLast?.getD (ps.map m.pending) = ps.map m2.get) := by
  have hi := reach_inv h (ustep_ub hnew).1
  have hr1 : Reach m1 := .step h (.user _ hnew)
  have hi1 := ustep_inv hi _ hnew
  obtain ⟨hsz, hkind, hpar, hinit, hstart, hfed, hinput⟩ : m1.g.size = m.g.size + 1 ∧
      (m1.g.node m.g.size).kind = .xform down up ∧ (m1.g.node m.g.size).parents = ps ∧
      (m1.g.node m.g.size).init = lastOr dflt (down s0 (ps.map m.pending)).2 ∧
      (m1.g.node m.g.size).start = s0 ∧ (m1.g.node m.g.size).fed = [] ∧
      (m1.g.node m.g.size).input = ps.map m.pending := by
    unfold ustep at hnew
    split at hnew
    · cases hnew
    · split at hnew
      case h_2 => cases hnew
      simp only at hnew
      split at hnew
      · rename_i hcnd
        cases hnew
        have hpl : ∀ p ∈ ps, p < m.g.size := fun p hp =>
          (valid_alive (List.all_eq_true.1 hcnd.2.1 p hp)).1
        refine ⟨add_size _ _, ?_⟩
        simp only
        rw [add_new]
        · exact ⟨rfl, rfl, rfl, rfl, rfl, rfl⟩
        · exact hpl
      · cases hnew
  obtain ⟨hev, hlt⟩ := hr.evolves hi1 hub (n := m.g.size) (by omega)
  obtain ⟨c1, c2, _, c4, c5⟩ := hev.const
  obtain ⟨x1, x2, x3⟩ := xform_inv (hr.reach hr1) hub hlt (c1.trans hkind)
  have hi2 := hr.inv hi1 hub
  refine ⟨_, rfl, ?_, fun hl hc => ⟨hi2.shows hl hc, ?_⟩⟩
  · rw [c4, c5, hinit, hstart] at x2
    exact x2
  · have hset := hi2.inputs hl hc (c1.trans hkind)
    rw [c2, hpar] at hset
    rw [← hset]
    show (m2.g.node m.g.size).fed.getLast?.getD (ps.map m.pending) = _
    by_cases hf : (m2.g.node m.g.size).fed = []
    · rw [hf, hev.fed.2 (by rw [hf, hfed]), hinput]; rfl
    · rw [x3 hf]; rfl

/-- The list of inputs only grows. -/
theorem C24_inputs_grow [Inhabited S] {m m' : M V S} (h : Reach m) (hr : Runs m m')
    (hub : m'.ub = false) {n : Nat} (hn : n < m.g.size) : m.fed n <+: m'.fed n :=
  (hr.evolves (reach_inv h (hr.ub hub)) hub hn).1.fed.1

/-- Hence `map(f)` shows `f` of its source. -/
theorem C24_map [Inhabited S] {m m1 m2 : M V S} (h : Reach m) {cmp : Bool}
    {ps : List Nat} {s0 u0 : S} {f : List V → V}
    {up : Option (S → V → S × List (List V))} {dflt : V}
    (hnew : ustep m (.newXform cmp ps s0 u0 (fun s i => (s, [f i])) up dflt) = some m1)
    (hr : Runs m1 m2) (hub : m2.ub = false) (hl : m2.Live m.g.size)
    (hc : ∀ a, m2.Above a m.g.size → ¬ m2.Uncommitted a) :
    m2.get m.g.size = f (ps.map m2.get) := by
  obtain ⟨fed, _, h1, h2⟩ := C24_latest_output h hnew hr hub
  obtain ⟨h3, h4⟩ := h2 hl hc
  rw [h3, h1, ← h4, runX_map]
  rcases List.eq_nil_or_concat fed with rfl | ⟨l, x, rfl⟩
  · rfl
  · rw [List.concat_eq_append, List.map_append, lastOr_append, List.getLast?_append]
    rfl

/-- And `filter(p)` shows the last input that satisfied the predicate: among those since its
construction, else the one at construction, else the default. -/
theorem C24_filter [Inhabited S] {m m1 m2 : M V S} (h : Reach m) {cmp : Bool}
    {src : Nat} {s0 u0 : S} {p : V → Bool} {dflt : V}
    (hnew : ustep m (.newXform cmp [src] s0 u0 (fun s i => (s, i.filter p)) none dflt) = some m1)
    (hr : Runs m1 m2) (hub : m2.ub = false) (hl : m2.Live m.g.size)
    (hc : ∀ a, m2.Above a m.g.size → ¬ m2.Uncommitted a) :
    m2.get m.g.size =
      (((m.pending src :: (m2.fed m.g.size).flatten).filter p).getLast?).getD dflt := by
  obtain ⟨fed, e, h1, h2⟩ := C24_latest_output h hnew hr hub
  obtain ⟨h3, _⟩ := h2 hl hc
  rw [h3, h1, ← e, runX_filter, ← lastOr_append, lastOr_getLast?]
  congr 2
  simp [List.filter_cons]
  split <;> rfl

/-- A counting transducer: emits the number of inputs so far when it is even. -/
def exCount : Nat → List Nat → Nat × List Nat := fun s _ => (s + 1, if s % 2 = 0 then [s] else [])

example : ∃ m m1 m2 : M Nat Nat, Reach m ∧
    ustep m (.newXform true [0] 5 0 exCount none 99) = some m1 ∧ Runs m1 m2 ∧ m2.ub = false ∧
    m1.get 1 = 99 ∧ m2.fed 1 = [[2], [3], [4]] ∧ m2.get 1 = 6 ∧ m2.Live 1 ∧
    (∀ a, m2.Above a 1 → ¬ m2.Uncommitted a) := by
  let m := exec [.newState true true 1] boot
  let m1 := (ustep m (.newXform true [0] 5 0 exCount none 99)).getD m
  have h1 : ustep m (.newXform true [0] 5 0 exCount none 99) = some m1 :=
    some_getD m (by decide +kernel)
  have hr : Runs m1 (exec [.set 0 2, .set 0 3, .set 0 3, .set 0 4] m1) := exec_runs _ _
  exact ⟨m, m1, _, exec_reach _, h1, hr, by decide +kernel, by decide +kernel, by decide +kernel,
    by decide +kernel, by unfold M.Live; decide +kernel,
    calm_clean (hr.reach (.step (exec_reach _) (.user _ h1))) (by decide +kernel)
      (by decide +kernel) (by decide +kernel)⟩

example : ∃ m m1 m2 : M Nat Nat, Reach m ∧
    ustep m (.newXform true [0] 0 0 (fun s i => (s, i.filter (· < 5))) none 99) = some m1 ∧
    Runs m1 m2 ∧ m2.ub = false ∧ m1.get 1 = 99 ∧ m2.fed 1 = [[2], [3], [8]] ∧ m2.get 1 = 3 ∧
    m2.Live 1 ∧ (∀ a, m2.Above a 1 → ¬ m2.Uncommitted a) := by
  let m := exec [.newState true true 7] boot
  let op : Op Nat Nat := .newXform true [0] 0 0 (fun s i => (s, i.filter (· < 5))) none 99
  let m1 := (ustep m op).getD m
  have h1 : ustep m op = some m1 := some_getD m (by decide +kernel)
  have hr : Runs m1 (exec [.set 0 2, .set 0 3, .set 0 3, .set 0 8] m1) := exec_runs _ _
  exact ⟨m, m1, _, exec_reach _, h1, hr, by decide +kernel, by decide +kernel, by decide +kernel,
    by decide +kernel, by unfold M.Live; decide +kernel,
    calm_clean (hr.reach (.step (exec_reach _) (.user _ h1))) (by decide +kernel)
      (by decide +kernel) (by decide +kernel)⟩

/-- The inputs are not only the propagated values: writing through a cursor that is zoomed from the
transformed one processes the present value of the source once more, so that a counting
transformation counts a change that has not happened.  Here the state's value is 1 throughout. -/
theorem C24_fed_again_false : ∃ m : M Nat Nat, Reach m ∧ m.AtRest ∧
    m.log = [] ∧ m.get 0 = 1 ∧ m.pending 0 = 1 ∧ m.get 1 = 0 ∧ m.fed 1 = [[1], [1]] ∧
    m.pending 1 = 1 := by
  exact ⟨exec [.newState false true 1,
    .newXform true [0] 0 0 (fun s _ => (s + 1, [s])) (some fun s v => (s, [[v]])) 0,
    .newCalc true [1] (on1 id) (some fun _ v => [v]) true 0, .set 2 1, .set 2 1] boot,
    exec_reach _, ⟨by decide +kernel, by decide +kernel⟩, by decide +kernel, by decide +kernel,
    by decide +kernel, by decide +kernel, by decide +kernel, by decide +kernel⟩

end Verif.Graph
