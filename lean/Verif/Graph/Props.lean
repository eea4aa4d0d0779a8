import Verif.Graph.Write

/-
Properties C01 - C07 of readers, cursors and commits.  `Verif.Graph.Spec` has the vocabulary.
-/

set_option linter.unusedSectionVars false

namespace Verif.Graph

variable {V S : Type} [DecidableEq V]

/-! ### C01: derived readers agree with their sources -/

/-- A reader that was derived by a call in state `m` (`zoom`, `map`, `with`) shows, in any later
state, the view of the values of its sources, unless a source above it has an uncommitted write.
(Not only at rest: also in callbacks and between any two steps.) -/
theorem C01_derived_reader [Inhabited S] {m m1 m2 : M V S} (h : Reach m)
    {cmp : Bool} {ps : List Nat} {view : List V → Option V} {put : Option (List V → V → List V)}
    {refreshes : Bool} {dflt : V}
    (hnew : ustep m (.newCalc cmp ps view put refreshes dflt) = some m1) (hr : Runs m1 m2)
    (hub : m2.ub = false) (hlive : m2.Live m.g.size)
    (hc : ∀ a, m2.Above a m.g.size → ¬ m2.Uncommitted a)
    {v : V} (hv : view (ps.map m2.get) = some v) : m2.get m.g.size = v := by
  have hi := reach_inv h (ustep_ub hnew).1
  have hi1 := ustep_inv hi _ hnew
  have hn : m1.g.size = m.g.size + 1 ∧ (m1.g.node m.g.size).kind = .calc view put refreshes ∧
      (m1.g.node m.g.size).parents = ps := by
    unfold ustep at hnew
    split at hnew
    · cases hnew
    · split at hnew
      case h_2 => cases hnew
      simp only at hnew
      split at hnew
      · rename_i hcnd
        cases hnew
        have hpl : ∀ p ∈ ps, p < m.g.size := fun p hp =>
          (valid_alive (List.all_eq_true.1 hcnd.2.1 p hp)).1
        refine ⟨add_size _ _, ?_, ?_⟩
        · simp only; rw [add_new]; · rfl
          exact hpl
        · simp only; rw [add_new]; · rfl
          exact hpl
      · cases hnew
  obtain ⟨h1, h2, _, _⟩ := hr.const hi1 hub (n := m.g.size) (by omega)
  have hi2 := hr.inv hi1 hub
  refine hi2.consistent hlive hc (h1.trans hn.2.1) ?_
  rw [h2, hn.2.2]; exact hv

/-- The same for all derived readers of a reachable state. -/
theorem C01_consistent [Inhabited S] {m : M V S} (h : Reach m) (hub : m.ub = false) {n : Nat}
    (hlive : m.Live n) {view put r} (hk : (m.g.node n).kind = .calc view put r)
    (hc : ∀ a, m.Above a n → ¬ m.Uncommitted a)
    {v : V} (hv : view ((m.g.node n).parents.map m.get) = some v) : m.get n = v :=
  (reach_inv h hub).consistent hlive hc hk hv

/-- A diamond over a transactional and an automatic state, written to and committed from the outside
and from inside a callback. -/
def exDiamond : List (Op Nat Nat) :=
  [.newState false true 1, .newState true true 2,
   .newCalc true [0] (on1 (· + 10)) none false 0,
   .newCalc true [0, 1] (on2 (· * ·)) none false 0,
   .newCalc true [2, 3] (on2 (· + ·)) none false 0,
   .attach 4 0, .set 0 5, .commit [0], .set 1 7, .ret]

example : ∃ m : M Nat Nat, Reach m ∧ m.ub = false ∧ m.Live 4 ∧ m.AtRest ∧
    (∃ view put r, (m.g.node 4).kind = .calc view put r ∧
      view ((m.g.node 4).parents.map m.get) = some 50) ∧
    (∀ a, m.Above a 4 → ¬ m.Uncommitted a) ∧ m.get 0 = 5 ∧ m.get 4 = 50 := by
  refine ⟨exec (exDiamond ++ [.ret]) boot, exec_reach _, by decide +kernel, ?_, ⟨?_, ?_⟩,
    gives_view (by decide +kernel),
    calm_clean (exec_reach _) (by decide +kernel) (by decide +kernel) (by decide +kernel), by decide +kernel, by decide +kernel⟩
  · unfold M.Live; decide +kernel
  · rfl
  · rfl

/-! ### C02: writes to transactional states stay invisible -/

/-- A write through a cursor of a transactional state, or one that is derived from such cursors only,
returns without having called user code; no reader shows another value than before. -/
theorem C02_invisible [Inhabited S] {m : M V S} (h : Reach m) (hub : m.ub = false)
    {st : List (Frame V)} (huser : m.stack = .user :: st) {n : Nat} (hlive : m.Live n)
    (hw : m.g.canWrite n = true) (hl : Lazy m.g n) (op : Op V S)
    (hop : (∃ v, op = .set n v) ∨ ∃ f, op = .update n f) :
    (∃ m', Call m op m') ∧
    ∀ m', Call m op m' → (∀ k, m'.get k = m.get k) ∧ m'.log = m.log := by
  have hi := reach_inv h hub
  have hv : m.g.valid n = true := by
    unfold Graph.valid
    rw [show (m.g.node n).alive = true from hlive]
    simp [hi.wf.alive_lt hlive]
  obtain ⟨v, hop'⟩ : ∃ v, op.writes m = some (n, v) := by
    rcases hop with ⟨v, rfl⟩ | ⟨f, rfl⟩
    · exact ⟨v, rfl⟩
    · exact ⟨_, rfl⟩
  have hc := lazy_call hi hub huser hop' hv hw hl
  refine ⟨⟨_, hc⟩, fun m' hm' => ?_⟩
  cases hc.det hm'
  exact ⟨fun k => (sendUpN_hidden (n + 1) m.g n v).last k, rfl⟩

/-- So does any sequence of such writes. -/
theorem C02_sequence [Inhabited S] (ops : List (Op V S)) : ∀ {m : M V S}, Reach m → m.ub = false →
    (∃ st, m.stack = .user :: st) →
    (∀ op ∈ ops, ∃ n, m.Live n ∧ m.g.canWrite n = true ∧ Lazy m.g n ∧
      ((∃ v, op = .set n v) ∨ ∃ f, op = .update n f)) →
    ∃ m', Calls m ops m' ∧ (∀ k, m'.get k = m.get k) ∧ m'.log = m.log := by
  induction ops with
  | nil => intro m _ _ _ _; exact ⟨m, .nil m, fun _ => rfl, rfl⟩
  | cons op ops ih =>
    intro m h hub ⟨st, huser⟩ hops
    obtain ⟨n, hlive, hw, hl, hop⟩ := hops op (List.mem_cons_self ..)
    have hi := reach_inv h hub
    have hv : m.g.valid n = true := by
      unfold Graph.valid
      rw [show (m.g.node n).alive = true from hlive]
      simp [hi.wf.alive_lt hlive]
    obtain ⟨v, hop'⟩ : ∃ v, op.writes m = some (n, v) := by
      rcases hop with ⟨v, rfl⟩ | ⟨f, rfl⟩
      · exact ⟨v, rfl⟩
      · exact ⟨_, rfl⟩
    have hc := lazy_call hi hub huser hop' hv hw hl
    have hs := sendUpN_hidden (n + 1) m.g n v
    obtain ⟨m', k1, k2, k3⟩ := ih (m := { m with g := m.g.sendUpN (n + 1) n v })
      (hc.runs.reach h) hub ⟨st, huser⟩ (fun op' hop' => by
        obtain ⟨n', a, b, c, d⟩ := hops op' (List.mem_cons_of_mem _ hop')
        refine ⟨n', (hs.same.alive n').trans a, ?_, c.same hs.same.kind hs.same.parents, d⟩
        unfold Graph.canWrite
        rw [hs.same.kind]
        exact b)
    exact ⟨m', .cons hc k1, fun k => (k2 k).trans (hs.last k), k3⟩

/-- Two transactional states, a cursor with both and a zoomed cursor. -/
def exLazy : List (Op Nat Nat) :=
  [.newState false true 1, .newState false true 2,
   .newCalc true [0, 1] (on2 (· + ·)) (some fun _ v => [v, v]) false 0,
   .newCalc true [2] (on1 (· + 1)) (some fun _ v => [v - 1]) true 0]

example : ∃ m : M Nat Nat, Reach m ∧ m.ub = false ∧ m.stack = [.user] ∧ m.Live 3 ∧
    m.g.canWrite 3 = true ∧ Lazy m.g 3 ∧ ∃ m', Call m (.set 3 7) m' ∧ m'.pending 1 = 6 ∧
      m'.get 1 = 2 := by
  have hl : Lazy (exec exLazy boot).g 3 := by
    refine .comp (view := on1 (· + 1)) (put := some fun _ v => [v - 1]) (r := true) rfl ?_
    intro p hp
    have hp : p ∈ [2] := hp
    obtain rfl : p = 2 := by simpa using hp
    refine .comp (view := on2 (· + ·)) (put := some fun _ v => [v, v]) (r := false) rfl ?_
    intro p hp
    have hp : p ∈ [0, 1] := hp
    rcases List.mem_cons.1 hp with rfl | hp
    · exact .state rfl
    · obtain rfl : p = 1 := by simpa using hp
      exact .state rfl
  have hi := reach_inv (exec_reach exLazy) (by decide +kernel)
  refine ⟨exec exLazy boot, exec_reach _, by decide +kernel, rfl, ?_, by decide +kernel, hl, _,
    lazy_call (op := .set 3 7) hi (by decide +kernel) (st := []) rfl rfl (by decide +kernel) (by decide +kernel) hl, ?_, ?_⟩
  · unfold M.Live; decide +kernel
  · unfold M.pending; decide +kernel
  · unfold M.get; decide +kernel

/-! ### C03: commit publishes the last written value -/

/-- After any number of writes to transactional states and a commit (whose callbacks do not
interfere), every state that the commit lists shows the value that was written to it last (its old
pending value if there was no write to it). -/
theorem C03_last_write [Inhabited S] {m : M V S} (h : Reach m) (hub : m.ub = false)
    {st : List (Frame V)} (huser : m.stack = .user :: st) (l : List (Nat × V)) (rs : List Nat)
    (hl : ∀ x ∈ l, m.Live x.1 ∧ (m.g.node x.1).kind = .state false)
    (hr : ∀ r ∈ rs, m.Live r ∧ (m.g.node r).kind = .state false) :
    (∃ m1 m2, Calls m (l.map fun x => .set x.1 x.2) m1 ∧ PCall m1 (.commit rs) m2) ∧
    ∀ m1 m2, Calls m (l.map fun x => .set x.1 x.2) m1 → PCall m1 (.commit rs) m2 →
      ∀ r ∈ rs, m2.get r = (lastWrite r l).getD (m.pending r) ∧ ¬ m2.Uncommitted r := by
  have hi := reach_inv h hub
  have hvalid : ∀ n, m.Live n → m.g.valid n = true := fun n hn => by
    unfold Graph.valid
    rw [show (m.g.node n).alive = true from hn]
    simp [hi.wf.alive_lt hn]
  obtain ⟨m1, h1, h2, h3, h4, _, h6, h7⟩ := writes_calls l hi hub ⟨st, huser⟩
    (fun x hx => ⟨hvalid _ (hl x hx).1, (hl x hx).2⟩)
  have hpar : ∀ r ∈ rs, (m.g.node r).parents = [] := fun r hrm =>
    roots_no_parents h hub (hi.wf.alive_lt (hr r hrm).1) (.inl ⟨false, (hr r hrm).2⟩)
  have hr1 : ∀ r ∈ rs, m1.g.valid r = true ∧ (m1.g.node r).parents = [] := fun r hrm => by
    refine ⟨?_, by rw [h6.same.parents]; exact hpar r hrm⟩
    have := hvalid r (hr r hrm).1
    unfold Graph.valid at this ⊢
    rw [h6.same.size, h6.same.alive]; exact this
  obtain ⟨m2, k1, k2, k3⟩ := commit_call h2 h3 (h4.trans huser) hr1
  refine ⟨⟨m1, m2, h1, k1⟩, fun m1' m2' h1' k1' r hrm => ?_⟩
  cases h1.det h1'
  cases k1.det k1'
  obtain ⟨_, q⟩ := sendAll_state rs m1.g h2.wf h2.fresh (fun r' hr' => (valid_alive (hr1 r' hr').1).1)
    (n := r) (auto := false) (by rw [h6.same.kind]; exact (hr r hrm).2) (hr1 r hrm).2
  obtain ⟨q1, q2⟩ := q hrm
  constructor
  · rw [← h7 r]
    exact (k3.quiet.last r).trans q1
  · intro hu
    have := hu.2
    rw [k3.quiet.dirty, q2] at this
    cases this

/-- Two states, an uncommitted write, then three writes and a commit of both, with a watcher. -/
example : ∃ m : M Nat Nat, Reach m ∧ m.ub = false ∧ m.stack = [.user] ∧
    (∀ r ∈ [0, 1], m.Live r ∧ (m.g.node r).kind = .state false) ∧ m.pending 0 = 9 ∧
    lastWrite 0 [(0, 3), (1, 4), (0, 5)] = some 5 ∧
    ((exec [.set 0 3, .set 1 4, .set 0 5, .commit [0, 1], .ret] m).get 0,
     (exec [.set 0 3, .set 1 4, .set 0 5, .commit [0, 1], .ret] m).get 1) = (5, 4) := by
  refine ⟨exec [.newState false true 1, .newState false true 2, .attach 0 0, .set 0 9] boot,
    exec_reach _, by decide +kernel, rfl, ?_, ?_, by decide +kernel, ?_⟩
  · intro r hr
    rcases List.mem_cons.1 hr with rfl | hr
    · exact ⟨by unfold M.Live; decide +kernel, rfl⟩
    · obtain rfl : r = 1 := by simpa using hr
      exact ⟨by unfold M.Live; decide +kernel, rfl⟩
  · unfold M.pending; decide +kernel
  · unfold M.get; decide +kernel

/-! ### C04: automatic states publish immediately -/

theorem C04_automatic [Inhabited S] {m : M V S} (h : Reach m) (hub : m.ub = false)
    {st : List (Frame V)} (huser : m.stack = .user :: st) {n : Nat} (hlive : m.Live n)
    (hk : (m.g.node n).kind = .state true) (v : V) :
    (∃ m', PCall m (.set n v) m') ∧
    ∀ m', PCall m (.set n v) m' → m'.get n = v ∧ ¬ m'.Uncommitted n ∧
      -- every reader whose other sources are committed, too, shows the view of the new values
      ∀ k view put r u, m'.Live k → (m'.g.node k).kind = .calc view put r →
        (∀ a, m'.Above a k → a ≠ n → ¬ m'.Uncommitted a) →
        view ((m'.g.node k).parents.map m'.get) = some u → m'.get k = u := by
  have hi := reach_inv h hub
  have hv : m.g.valid n = true := by
    unfold Graph.valid
    rw [show (m.g.node n).alive = true from hlive]
    simp [hi.wf.alive_lt hlive]
  obtain ⟨m2, h1, h2, h3⟩ := auto_call hi hub huser v hv hk
  refine ⟨⟨m2, h1⟩, fun m' hm' => ?_⟩
  cases h1.det hm'
  have ht := pushDown_touch m.g n v
  have hf : Fresh (m.g.pushDown n v) := (pushDown_touch m.g n v).fresh hi.fresh
  have hs := sendDown_state (m.g.pushDown n v) n (ht.same.wf hi.wf) hf
    (by rw [ht.same.size]; exact hi.wf.alive_lt hlive) (auto := true)
    (by rw [ht.same.kind]; exact hk)
  have hnd : ¬ m2.Uncommitted n := by
    intro hu
    have := hu.2
    rw [h3.quiet.dirty, hs.2.2] at this
    cases this
  refine ⟨?_, hnd, fun k view put r u ha hkk hab hvw => ?_⟩
  · exact (h3.quiet.last n).trans (hs.1.trans (pushDown_pending _ _ _))
  · refine (h1.runs.inv hi h2).consistent ha (fun a hak => ?_) hkk hvw
    by_cases hne : a = n
    · subst hne; exact hnd
    · exact hab a hak hne

example : ∃ m : M Nat Nat, Reach m ∧ m.ub = false ∧ m.stack = [.user] ∧ m.Live 1 ∧
    (m.g.node 1).kind = .state true ∧ (exec [.set 1 6, .ret] m).get 4 = 45 := by
  refine ⟨exec (exDiamond ++ [.ret]) boot, exec_reach _, by decide +kernel, rfl, ?_, rfl, ?_⟩
  · unfold M.Live; decide +kernel
  · unfold M.get; decide +kernel

/-! ### C05: everything is propagated before anything is notified -/

/-- When a callback is called (step to `m'`, which logs the call), the graph is consistent. -/
theorem C05_consistent_at_call [Inhabited S] {m m' : M V S} (h : Reach m)
    (hs : istep m = some m') {w k : Nat} {u : V} (hlog : m'.log = m.log ++ [.call w k u])
    {n : Nat} (hlive : m'.Live n) {view put r} (hk : (m'.g.node n).kind = .calc view put r)
    (hc : ∀ a, m'.Above a n → ¬ m'.Uncommitted a)
    {v : V} (hv : view ((m'.g.node n).parents.map m'.get) = some v) :
    m'.stack.head? = some .user ∧ m'.get n = v := by
  have hub := step_ub (.lib hs)
  obtain ⟨_, h1⟩ := istep_log hs
  rcases h1 with ⟨h1, _⟩ | ⟨n', w', prev, st, cur, rest, hst, hrem, rfl⟩ | ⟨n', v', st, a, _, _, rfl⟩
  · rw [h1] at hlog
    exact absurd hlog (by simp)
  · exact ⟨rfl, C01_consistent (.step h (.lib hs)) hub hlive hk hc hv⟩
  · simp at hlog

/-- A callback that runs in a commit made by another callback, in a diamond. -/
def exNested : List (Op Nat Nat) :=
  [.newState false true 1, .newState false true 2,
   .newCalc true [0] (on1 (· + 10)) none false 0,
   .newCalc true [0, 1] (on2 (· * ·)) none false 0,
   .newCalc true [2, 3] (on2 (· + ·)) none false 0,
   .attach 2 0, .attach 4 0, .set 0 5, .commit [0], .set 1 7, .commit [1]]

example : ∃ m m' : M Nat Nat, Reach m ∧ istep m = some m' ∧
    (∃ k u, m'.log = m.log ++ [.call 1 k u]) ∧ m'.Live 4 ∧
    (∃ view put r, (m'.g.node 4).kind = .calc view put r ∧
      view ((m'.g.node 4).parents.map m'.get) = some 50) ∧
    (∀ a, m'.Above a 4 → ¬ m'.Uncommitted a) ∧ m'.stack.length = 10 := by
  -- the last library step before the nested callback
  let a := exec (exNested.dropLast) boot
  let b := (ustep a (.commit [1])).getD a
  have hb : ustep a (.commit [1]) = some b := some_getD _ (by decide +kernel)
  have hrb : Reach (libN 8 b) :=
    (libN_run 8 b).runs.reach (.step (exec_reach _) (.user _ hb))
  let c := (istep (libN 8 b)).getD b
  have hs : istep (libN 8 b) = some c := some_getD _ (by decide +kernel)
  refine ⟨libN 8 b, c, hrb, hs, ⟨4, 50, ?_⟩, ?_, gives_view (by decide +kernel),
    calm_clean (.step hrb (.lib hs)) (by decide +kernel) (by decide +kernel) (by decide +kernel),
    by decide +kernel⟩
  · decide +kernel
  · unfold M.Live; decide +kernel

/-! ### C06: a callback receives the reader's own value -/

theorem C06_call_value [Inhabited S] {m m' : M V S} (h : Reach m) (hs : Step m m')
    {w n : Nat} {v : V} (hlog : m'.log = m.log ++ [.call w n v]) :
    v = m'.get n ∧ w ∈ (m'.g.node n).obs ∧ m'.Live n := by
  have hub := step_ub hs
  cases hs with
  | user op he =>
    rw [(ustep_log he).1] at hlog
    exact absurd hlog (by simp)
  | lib he =>
    have hi := reach_inv h hub
    obtain ⟨_, h1⟩ := istep_log he
    rcases h1 with ⟨h1, _⟩ | ⟨n', w', prev, st, cur, rest, hst, hrem, rfl⟩ |
      ⟨n', v', st, a, _, _, rfl⟩
    · rw [h1] at hlog
      exact absurd hlog (by simp)
    · simp only [List.append_cancel_left_eq, List.cons.injEq, Ev.call.injEq, and_true] at hlog
      obtain ⟨rfl, rfl, rfl⟩ := hlog
      refine ⟨rfl, ?_, ?_⟩
      · exact remaining_mem hrem (List.mem_cons_self ..)
      · exact hi.stack.holds _ (by rw [hst]; exact List.mem_cons_self ..) _
          (List.mem_cons_self ..)
    · simp at hlog

/-- Every step logs at most one event, so every logged call is covered by `C06_call_value`. -/
theorem C06_one_event [Inhabited S] {m m' : M V S} (hs : Step m m') :
    m'.log = m.log ∨ (∃ w n v, m'.log = m.log ++ [.call w n v]) ∨
      ∃ n v, m'.log = m.log ++ [.setterCall n v] := by
  cases hs with
  | user op he => exact .inl (ustep_log he).1
  | lib he =>
    obtain ⟨_, h1⟩ := istep_log he
    rcases h1 with ⟨h1, _⟩ | ⟨n', w', prev, st, cur, rest, hst, hrem, rfl⟩ |
      ⟨n', v', st, a, _, _, rfl⟩
    · exact .inl h1
    · exact .inr (.inl ⟨_, _, _, rfl⟩)
    · exact .inr (.inr ⟨_, _, rfl⟩)

example : ∃ m m' : M Nat Nat, Reach m ∧ Step m m' ∧ m'.log = m.log ++ [.call 1 4 50] ∧
    m'.get 4 = 50 := by
  let a := exec (exNested.dropLast) boot
  let b := (ustep a (.commit [1])).getD a
  have hb : ustep a (.commit [1]) = some b := some_getD _ (by decide +kernel)
  have hrb : Reach (libN 8 b) :=
    (libN_run 8 b).runs.reach (.step (exec_reach _) (.user _ hb))
  exact ⟨libN 8 b, _, hrb, .lib (some_getD b (by decide +kernel)), by decide +kernel,
    by decide +kernel⟩

/-! ### C07: watchers never miss the final value -/

/-- A callback is attached to `n` in state `m`.  Whenever later no library call is running and the
callback is still attached to a live reader that depends on no uncommitted write, the value that the
callback was given last (the value at attach time, if it was never called) is what the reader shows.
The derived readers involved must have comparable values. -/
theorem C07_final_value [Inhabited S] {m m1 m2 : M V S} (h : Reach m) {n i : Nat}
    (ha : ustep m (.attach n i) = some m1) (hr : Runs m1 m2) (hrest : m2.AtRest)
    (hatt : m.nextW ∈ (m2.g.node n).obs) (hlive : m2.Live n)
    (hc : ∀ a, m2.Above a n → ¬ m2.Uncommitted a)
    (hcmp : ∀ a, m2.Above a n → ¬ m2.Source a → (m2.g.node a).cmp = true) :
    ∃ l, m2.log = m1.log ++ l ∧ given (m.get n) m.nextW l = m2.get n := by
  have hi := reach_inv h (ustep_ub ha).1
  have hi1 := ustep_inv hi _ ha
  have hi2 := hr.inv hi1 hrest.2
  have hseen : m1.nextW = m.nextW + 1 ∧ m1.seen m.nextW = some (m.get n) := by
    unfold ustep at ha
    split at ha
    · cases ha
    · split at ha
      case h_2 => cases ha
      simp only at ha
      split at ha
      · cases ha; exact ⟨rfl, by simp [M.get]⟩
      · cases ha
  obtain ⟨_, l, hl, hg⟩ := runs_given hr
  refine ⟨l, hl, ?_⟩
  have h2 := hg m.nextW _ (by omega) hseen.2
  have hnn := hi2.notified hrest.1 n hlive hc hcmp
  rcases hi2.obs.seen n m.nextW hatt with h3 | h3 | ⟨cur, prev, hm, _⟩
  · rw [h2] at h3
    exact Option.some.inj h3
  · rw [hnn] at h3; cases h3
  · rw [hrest.1] at hm
    rcases List.mem_cons.1 hm with hm | hm
    · cases hm
    · cases hm

/-- Callback 1 on the bottom of the diamond is given its last value in a commit made by callback 0. -/
example : ∃ m m1 m2 : M Nat Nat, Reach m ∧ ustep m (.attach 4 0) = some m1 ∧ Runs m1 m2 ∧
    m2.AtRest ∧ m.nextW ∈ (m2.g.node 4).obs ∧ m2.Live 4 ∧
    (∀ a, m2.Above a 4 → ¬ m2.Uncommitted a) ∧ (∀ a, m2.Above a 4 → (m2.g.node a).cmp = true) ∧
    m.get 4 = 13 ∧ m2.get 4 = 50 := by
  let m := exec (exNested.take 6) boot
  let m1 := (ustep m (.attach 4 0)).getD m
  let ops : List (Op Nat Nat) := exNested.drop 7 ++ [.ret, .ret]
  have hm1 : ustep m (.attach 4 0) = some m1 := some_getD _ (by decide +kernel)
  have hr2 : Reach (exec ops m1) :=
    (exec_runs ops m1).reach (.step (exec_reach _) (.user _ hm1))
  refine ⟨m, m1, exec ops m1, exec_reach _, hm1, exec_runs _ _,
    ⟨by decide +kernel, by decide +kernel⟩, by decide +kernel, ?_,
    calm_clean hr2 (by decide +kernel) (by decide +kernel) (by decide +kernel),
    comparable_above hr2 (by decide +kernel) (by decide +kernel) (by decide +kernel), by decide +kernel, by decide +kernel⟩
  unfold M.Live; decide +kernel

/-- Without comparable values this fails: a cursor `1` zoomed from the automatic state `0` has values
without `operator==`.  A callback of the state updates the state through the cursor, with a value that
changes nothing.  That marks the cursor as having something to propagate, so it is left out of the
notification that is going on: its own callback is not called, neither now nor later. -/
theorem C07_not_comparable_false : ∃ m : M Nat Nat, Reach m ∧ m.AtRest ∧ 1 ∈ (m.g.node 1).obs ∧
    m.Live 1 ∧ (∀ a, m.Above a 1 → ¬ m.Uncommitted a) ∧
    m.get 1 = 6 ∧ given 2 1 m.log = 2 := by
  let ops : List (Op Nat Nat) :=
    [.newState true true 1, .newCalc false [0] (on1 (· + 1)) (some fun _ v => [v - 1]) true 0,
     .attach 0 0, .attach 1 0, .set 0 5, .update 1 id, .ret]
  have hr : Reach (exec ops boot) := exec_reach ops
  refine ⟨exec ops boot, hr, ⟨by decide +kernel, by decide +kernel⟩, by decide +kernel, by unfold M.Live; decide +kernel, ?_, by decide +kernel,
    by decide +kernel⟩
  intro a ha hu
  have hle : a ≤ 1 := Above.le (reach_inv hr (by decide +kernel)).wf ha
  rcases (by omega : a = 0 ∨ a = 1) with rfl | rfl
  · have := hu.2; revert this; decide +kernel
  · obtain ⟨view, put, r, hk, _⟩ := gives_view (m := exec ops boot) (n := 1) (v := 6)
      (by decide +kernel)
    exact hu.1 view put r hk

end Verif.Graph
