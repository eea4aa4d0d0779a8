import Verif.Graph.Line

/-
Properties C09 and C10 of the node graph.  `Verif.Graph.Spec` has the vocabulary.
-/

set_option linter.unusedSectionVars false

namespace Verif.Graph

variable {V S : Type} [DecidableEq V]

/-! ### C09: at most one call per callback -/

/-- One commit whose callbacks write nothing calls every callback at most once.  The graph, the list of
roots and the state from which the commit is made are arbitrary. -/
theorem C09_commit [Inhabited S] {m m' : M V S} (h : Reach m) {rs : List Nat}
    (hc : QCall m (.commit rs) m') (hub : m'.ub = false) :
    ∃ l, m'.log = m.log ++ l ∧ ∀ w, calls w l ≤ 1 := by
  obtain ⟨m1, h1, h2, h3⟩ := hc
  have hi := reach_inv h (ustep_ub h1).1
  have hi1 := step_inv hi (.user _ h1) (ustep_ub h1).2
  have hlog := (ustep_log h1).1
  have hst1 : m1.stack = [.roots rs] ++ m.stack := (commit_step h1).2
  have ho := once_start hst1 (by
    intro f hf; rw [List.mem_singleton] at hf; subst hf; exact ⟨rfl, fun _ => rfl⟩)
  obtain ⟨l, k1, k2, _⟩ := h2.once (ustep_user h1) hi1 ho hub h3
  exact ⟨l, by rw [k1, hlog], k2⟩

/-- The same for one write through a cursor of an automatic state, or one zoomed from it in any number
of steps. -/
theorem C09_set [Inhabited S] {m m' : M V S} (h : Reach m) {op : Op V S} {n r : Nat}
    (hop : op.target = some n) (hn : Chain m.g n r) (hc : QCall m op m') (hub : m'.ub = false) :
    ∃ l, m'.log = m.log ++ l ∧ ∀ w, calls w l ≤ 1 := by
  obtain ⟨m1, h1, h2, h3⟩ := hc
  have hi := reach_inv h (ustep_ub h1).1
  have hi1 := step_inv hi (.user _ h1) (ustep_ub h1).2
  obtain ⟨v, rfl⟩ := set_step h1 hop
  have hup : Upward m.stack { m with stack := .up n v :: m.stack } :=
    ⟨.up n v, [], rfl, by simp, .inl ⟨n, v, r, rfl, hn⟩⟩
  obtain ⟨_, _, _, _, l, k1, k2, _⟩ := h2.upward (ustep_user h1) hi1 hup hub h3
  exact ⟨l, k1, k2⟩

/-- A diamond with watchers on every corner: a transactional state, two readers, and their sum. -/
def exDiamond4 : List (Op Nat Nat) :=
  [.newState false true 1, .newCalc true [0] (on1 (· + 1)) none false 0,
   .newCalc true [0] (on1 (· * 2)) none false 0, .newCalc true [1, 2] (on2 (· + ·)) none false 0,
   .attach 0 0, .attach 1 0, .attach 2 0, .attach 3 0, .attach 3 1, .set 0 5]

example : ∃ m m' : M Nat Nat, Reach m ∧ QCall m (.commit [0, 0]) m' ∧ m'.ub = false ∧
    m'.log = m.log ++ [.call 0 0 5, .call 1 1 6, .call 3 3 16, .call 4 3 16, .call 2 2 10] :=
  ⟨exec exDiamond4 boot, (exec exDiamond4 boot).pcall (.commit [0, 0]), exec_reach _,
    (pcall_call (by decide +kernel) (by decide +kernel)).q, by decide +kernel, by decide +kernel⟩

/-- An automatic state, a cursor zoomed from it, another zoomed from that one, and a diamond. -/
def exZoomed : List (Op Nat Nat) :=
  [.newState true true 1, .newCalc true [0] (on1 (· + 10)) (some fun _ v => [v - 10]) true 0,
   .newCalc true [1] (on1 (· + 5)) (some fun _ v => [v - 5]) true 0,
   .newCalc true [0, 2] (on2 (· + ·)) none false 0, .attach 2 0, .attach 3 0]

example : ∃ m m' : M Nat Nat, Reach m ∧ (Op.set 2 20 : Op Nat Nat).target = some 2 ∧
    Chain m.g 2 0 ∧ QCall m (.set 2 20) m' ∧ m'.ub = false ∧
    m'.log = m.log ++ [.call 0 2 20, .call 1 3 25] :=
  ⟨exec exZoomed boot, (exec exZoomed boot).pcall (.set 2 20), exec_reach _, rfl,
    isChain_chain (k := 5) (by decide +kernel),
    (pcall_call (by decide +kernel) (by decide +kernel)).q, by decide +kernel, by decide +kernel⟩

/-- A cursor for two automatic states, seen as a number of two digits. -/
def exMerged : List (Op Nat Nat) :=
  [.newState true true 0, .newState true true 0,
   .newCalc true [0, 1] (on2 fun x y => 10 * x + y) (some fun _ v => [v / 10, v % 10]) false 0,
   .attach 2 0]

/-- It is not true of every cursor: writing to one that merges two automatic states propagates twice,
and calls a callback on it twice. -/
theorem C09_merged_false : ∃ m m' : M Nat Nat, Reach m ∧ m.AtRest ∧ PCall m (.set 2 12) m' ∧
    m'.ub = false ∧ m'.log = m.log ++ [.call 0 2 10, .call 0 2 12] :=
  ⟨exec exMerged boot, (exec exMerged boot).pcall (.set 2 12), exec_reach _,
    ⟨by decide +kernel, by decide +kernel⟩, pcall_call (by decide +kernel) (by decide +kernel),
    by decide +kernel, by decide +kernel⟩

/-! ### C10: callbacks are called only if the value changed -/

/-- A reader derived from a state by a single path, of comparable types: after any writes to
transactional states, a commit calls its callbacks only if its value is another one than before, and
with that value.  For the state itself, the writes must not have restored the old value. -/
theorem C10_commit [Inhabited S] {m m1 m2 : M V S} (h : Reach m) (hrest : m.AtRest) {n r : Nat}
    (hl : m.Live n) (hline : Line m.g n r) (hclean : ∀ a, m.Above a n → ¬ m.Uncommitted a)
    (hcmp : ∀ a, m.Above a n → (m.g.node a).cmp = true)
    {ops : List (Op V S)} (hw : Calls m ops m1)
    (hops : ∀ op ∈ ops, ∃ s, op.target = some s ∧ (m.g.node s).kind = .state false)
    {rs : List Nat} (hc : QCall m1 (.commit rs) m2) (hub : m2.ub = false)
    (hback : n = r → m1.Uncommitted r → m1.pending r ≠ m.get r) :
    ∃ l, m2.log = m.log ++ l ∧ ∀ w v, Ev.call w n v ∈ l → v = m2.get n ∧ v ≠ m.get n := by
  have hi := reach_inv h hrest.2
  have hst : ∃ a, (m.g.node r).kind = .state a := hline.isState
  have hlr : m.Live r := live_above hi.wf hl hline.rootAbove
  have hready : Ready m n r := ⟨hi, hrest.1, hl, hline,
    roots_no_parents h hrest.2 (hi.wf.alive_lt hlr) (.inl hst), hclean, hcmp⟩
  obtain ⟨hi1, hub1, hst1, hlog1, hhid, hoth⟩ := state_writes hw hi hrest.2 hops
  obtain ⟨m1', h1, h2, h3⟩ := hc
  have hi1' := step_inv hi1 (.user _ h1) (ustep_ub h1).2
  have hlog := (ustep_log h1).1
  obtain ⟨hg', hst1'⟩ := commit_step h1
  have ho := once_start (fs := [.roots rs]) hst1' (by
    intro f hf; rw [List.mem_singleton] at hf; subst hf; exact ⟨rfl, fun _ => rfl⟩)
  obtain ⟨l, k1, _, k3, k4⟩ := h2.once (ustep_user h1) hi1' ho hub h3
  refine ⟨l, by rw [k1, hlog, hlog1], fun w v hv => ?_⟩
  obtain ⟨k5, k6, k7⟩ := k4 w n v hv
  refine ⟨k7.trans (k3 n k5).symm, ?_⟩
  rw [k7]
  have hro := (hready.up hline.rootAbove).node
  refine hready.moves hhid.same (fun a ha hne => hoth a fun hk => ?_) (hhid.last r)
    ((hhid.needsNotify r).trans hro.2.2) (by rw [hg']; exact sendAll_moves rs m1.g) ?_ k6
  · have := (hready.up ha).line
    cases this with
    | state => exact hne rfl
    | comp h4 => rw [hk] at h4; cases h4
  · intro e hd
    refine hback e ⟨?_, hd⟩
    intro view put rf hk
    obtain ⟨a, ha⟩ := hst
    rw [hhid.same.kind, ha] at hk
    cases hk

/-- The same for one write to an automatic state, directly or through a zoomed cursor. -/
theorem C10_set [Inhabited S] {m m' : M V S} (h : Reach m) (hrest : m.AtRest) {n r : Nat}
    (hl : m.Live n) (hline : Line m.g n r) (hclean : ∀ a, m.Above a n → ¬ m.Uncommitted a)
    (hcmp : ∀ a, m.Above a n → (m.g.node a).cmp = true)
    {op : Op V S} {c s : Nat} (hop : op.target = some c) (hn : Chain m.g c s)
    (hc : QCall m op m') (hub : m'.ub = false) :
    ∃ l, m'.log = m.log ++ l ∧ ∀ w v, Ev.call w n v ∈ l → v = m'.get n ∧ v ≠ m.get n := by
  have hi := reach_inv h hrest.2
  have hst : ∃ a, (m.g.node r).kind = .state a := hline.isState
  have hlr : m.Live r := live_above hi.wf hl hline.rootAbove
  have hready : Ready m n r := ⟨hi, hrest.1, hl, hline,
    roots_no_parents h hrest.2 (hi.wf.alive_lt hlr) (.inl hst), hclean, hcmp⟩
  obtain ⟨m1, h1, h2, h3⟩ := hc
  have hi1 := step_inv hi (.user _ h1) (ustep_ub h1).2
  obtain ⟨v, rfl⟩ := set_step h1 hop
  have hup : Upward m.stack { m with stack := .up c v :: m.stack } :=
    ⟨.up c v, [], rfl, by simp, .inl ⟨c, v, s, rfl, hn⟩⟩
  obtain ⟨g1, g2, k1, k2, l, k3, _, k5, k6⟩ := h2.upward (ustep_user h1) hi1 hup hub h3
  refine ⟨l, k3, fun w x hx => ?_⟩
  obtain ⟨k7, k8, k9⟩ := k6 w n x hx
  refine ⟨k9.trans (k5 n k7).symm, ?_⟩
  rw [k9]
  have hro := (hready.up hline.rootAbove).node
  rcases k2 with k2 | ⟨t, u, hk, rfl⟩
  · have hsame := hready.refreshed (k1.trans k2) n .refl
    rw [hsame, hready.node.2.2] at k8
    cases k8
  · have hsame := hready.refreshed k1
    have ht := pushDown_touch g1 t u
    have hr1 := hsame r hline.rootAbove
    refine hready.moves (k1.same.trans ht.same) (fun a ha hne => ?_) ?_ ?_ (sendDown_moves _ t) ?_ k8
    · rw [← hsame a ha]
      by_cases hat : a = t
      · subst hat
        have := (hready.up ha).line
        cases this with
        | state => exact absurd rfl hne
        | comp h4 => rw [k1.same.kind] at hk; simp only at hk; rw [h4] at hk; cases hk
      · exact ht.other a hat
    · rw [(ht.last_all r).1, hr1]; rfl
    · rw [(ht.last_all r).2, hr1]; exact hro.2.2
    · intro e hd
      by_cases hrt : r = t
      · subst hrt
        rcases pushDown_cases g1 r u with ⟨h4, _, _⟩ | ⟨h4, h5⟩
        · rw [h4, hr1, hro.2.1] at hd; cases hd
        · rw [h4, Graph.mod_self]
          have := h5 (by rw [hr1]; exact hcmp r hline.rootAbove)
          rw [hr1, hro.1] at this
          exact this
      · rw [ht.other r hrt, hr1, hro.2.1] at hd; cases hd

/-- A transactional state, a reader of it, one that keeps the even values only; and a sibling. -/
def exLine : List (Op Nat Nat) :=
  [.newState false true 1, .newCalc true [0] (on1 (· / 2)) none false 0,
   .newCalc true [1] (fun l => (on1 id l).filter fun x => x % 2 = 0) none false 0,
   .newCalc true [0] (on1 (· % 2)) none false 0,
   .attach 0 0, .attach 1 0, .attach 2 0, .attach 3 0]

/-- One write is undone and followed by another; three readers are notified, the sibling is not. -/
example : ∃ m m1 m2 : M Nat Nat, Reach m ∧ m.AtRest ∧ m.Live 2 ∧ Line m.g 2 0 ∧
    (∀ a, m.Above a 2 → ¬ m.Uncommitted a) ∧ (∀ a, m.Above a 2 → (m.g.node a).cmp = true) ∧
    Calls m [.set 0 2, .set 0 1, .update 0 (· + 4)] m1 ∧
    (∀ op ∈ ([.set 0 2, .set 0 1, .update 0 (· + 4)] : List (Op Nat Nat)),
      ∃ s, op.target = some s ∧ (m.g.node s).kind = .state false) ∧
    QCall m1 (.commit [0]) m2 ∧ m2.ub = false ∧
    m2.log = m.log ++ [.call 0 0 5, .call 1 1 2, .call 2 2 2] := by
  have hs : ((exec exLine boot).g.node 0).kind = .state false := isState_state (by decide +kernel)
  have hr := exec_reach exLine
  have hub : (exec exLine boot).ub = false := by decide +kernel
  have hsz : 2 < (exec exLine boot).g.size := by decide +kernel
  refine ⟨exec exLine boot, _, _, hr, ⟨by decide +kernel, hub⟩, by unfold M.Live; decide +kernel,
    isLine_line (k := 5) (by decide +kernel), calm_clean hr hub (by decide +kernel) hsz,
    comparable_above hr hub (by decide +kernel) hsz,
    calls_exec [.set 0 2, .set 0 1, .update 0 (· + 4)] (by decide +kernel), ?_,
    (pcall_call (by decide +kernel) (by decide +kernel)).q, ?_, ?_⟩
  · intro op hop
    simp only [List.mem_cons, List.not_mem_nil, or_false] at hop
    rcases hop with rfl | rfl | rfl <;> exact ⟨0, rfl, hs⟩
  · decide +kernel
  · decide +kernel

/-- One write through the cursor that is zoomed twice: all three are notified. -/
example : ∃ m m' : M Nat Nat, Reach m ∧ m.AtRest ∧ m.Live 1 ∧ Line m.g 1 0 ∧
    (∀ a, m.Above a 1 → ¬ m.Uncommitted a) ∧ (∀ a, m.Above a 1 → (m.g.node a).cmp = true) ∧
    (Op.set 2 20 : Op Nat Nat).target = some 2 ∧ Chain m.g 2 0 ∧ QCall m (.set 2 20) m' ∧
    m'.ub = false ∧ Ev.call 2 1 15 ∈ m'.log ∧ m.get 1 = 11 := by
  have hr := exec_reach (exZoomed ++ [.attach 1 0])
  have hub : (exec (exZoomed ++ [.attach 1 0]) boot).ub = false := by decide +kernel
  have hsz : 1 < (exec (exZoomed ++ [.attach 1 0]) boot).g.size := by decide +kernel
  exact ⟨exec (exZoomed ++ [.attach 1 0]) boot, _, hr, ⟨by decide +kernel, hub⟩,
    by unfold M.Live; decide +kernel, isLine_line (k := 5) (by decide +kernel),
    calm_clean hr hub (by decide +kernel) hsz, comparable_above hr hub (by decide +kernel) hsz, rfl,
    isChain_chain (k := 5) (by decide +kernel),
    (pcall_call (by decide +kernel) (by decide +kernel)).q, by decide +kernel, by decide +kernel,
    by decide +kernel⟩

/-- `s`, `a = s + 1`, `b = s`, and their difference. -/
def exGlitch : List (Op Nat Nat) :=
  [.newState true true 1, .newCalc true [0] (on1 (· + 1)) none false 0,
   .newCalc true [0] (on1 id) none false 0, .newCalc true [1, 2] (on2 (· - ·)) none false 0,
   .attach 3 0]

/-- It is not true of readers with two paths to a state: the difference of two readers is computed a
first time when one of them is still the old one, so it changes and changes back, and its callback is
called although the value is what it was. -/
theorem C10_diamond_false : ∃ m m' : M Nat Nat, Reach m ∧ m.AtRest ∧ m.calm = true ∧
    m.comparable = true ∧ PCall m (.set 0 5) m' ∧ m'.ub = false ∧
    m.get 3 = 1 ∧ m'.log = m.log ++ [.call 0 3 1] :=
  ⟨exec exGlitch boot, (exec exGlitch boot).pcall (.set 0 5), exec_reach _,
    ⟨by decide +kernel, by decide +kernel⟩, by decide +kernel, by decide +kernel,
    pcall_call (by decide +kernel) (by decide +kernel),
    by decide +kernel, by decide +kernel, by decide +kernel⟩

/-- Nor is it true of a transactional state that is set to another value and back. -/
theorem C10_restored_false : ∃ m m1 m' : M Nat Nat, Reach m ∧ m.AtRest ∧ m.calm = true ∧
    m.comparable = true ∧ Calls m [.set 0 2, .set 0 1] m1 ∧ PCall m1 (.commit [0]) m' ∧
    m'.ub = false ∧ m.get 0 = 1 ∧ m'.log = m.log ++ [.call 0 0 1] :=
  ⟨exec exLine boot, _, (exec [.set 0 2, .set 0 1] (exec exLine boot)).pcall (.commit [0]),
    exec_reach _,
    ⟨by decide +kernel, by decide +kernel⟩, by decide +kernel, by decide +kernel,
    calls_exec [.set 0 2, .set 0 1] (by decide +kernel),
    pcall_call (by decide +kernel) (by decide +kernel),
    by decide +kernel, by decide +kernel, by decide +kernel⟩

end Verif.Graph
