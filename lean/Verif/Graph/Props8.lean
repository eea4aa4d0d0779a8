import Verif.Graph.StoreRoot

/-
C88: readers derived from a store show functions of its model.
-/

set_option linter.unusedSectionVars false

namespace Verif.Graph

variable {V S A : Type} [DecidableEq V]

/-- A store with initial model `v0` is created in state `m`; then anything happens that a program with
a store can do.  Whenever user code runs, the next action will be evaluated with the fold of the
reducer over all the actions evaluated so far, `get()` shows the fold over those evaluated before the
last publication, and the store has nothing to publish if no action was evaluated since then. -/
theorem C88_model [Inhabited S] {m m1 m2 : M V S} (h : Reach m) {cmp : Bool} {v0 : V}
    (hnew : ustep m (.newState false cmp v0) = some m1) (red : V → A → V)
    {ops : List (SOp A V S)} (hops : ∀ o ∈ ops, o.readsOnly m.g.size)
    (ht : Trace m1 (ops.map (SOp.op m.g.size red)) m2) (huser : m2.stack.head? = some .user) :
    m2.pending m.g.size = (evaluated ops).foldl red v0 ∧
    m2.get m.g.size = (published m.g.size ops).foldl red v0 ∧
    (evaluated ops = published m.g.size ops → ¬ m2.Uncommitted m.g.size) := by
  have hs : Stored m.g.size red v0 m2 ops := (strace_ind (P := Stored m.g.size red v0)
    (fun _ _ _ hr hp he => hp.lib hr he) (fun _ _ _ _ hr hp ho he => hp.user hr ho he) ht hops
    (pre := []) (.step h (.user _ hnew)) (Stored.new h hnew red)).1
  rcases hs.run with ⟨_, h2, h3⟩ | ⟨st, h1, _⟩
  · refine ⟨h2, hs.shown, fun e hu => ?_⟩
    have := h3 e
    rw [hu.2] at this
    cases this
  · rw [h1] at huser; cases huser

theorem held [Inhabited S] {m m1 ma mb : M V S} (h : Reach m) {cmp : Bool} {v0 : V}
    (hnew : ustep m (.newState false cmp v0) = some m1) (red : V → A → V)
    {ops ops' : List (SOp A V S)} (hops : ∀ o ∈ ops ++ ops', o.readsOnly m.g.size)
    (ht : Trace m1 (ops.map (SOp.op m.g.size red)) ma)
    (hclean : ¬ ma.Uncommitted m.g.size) {k : Nat} {F : V → V} (hk : ma.Shows m.g.size k F)
    (hub : ma.ub = false) (ht' : Trace ma (ops'.map (SOp.op m.g.size red)) mb) :
    Held m.g.size red v0 mb (ops ++ ops') k F ∧
      Genuine m.g.size red v0 k F ma.log mb (ops ++ ops') := by
  obtain ⟨hs, hr⟩ := strace_ind (P := Stored m.g.size red v0)
    (fun _ _ _ hr hp he => hp.lib hr he) (fun _ _ _ _ hr hp ho he => hp.user hr ho he) ht
    (fun o ho => hops o (List.mem_append_left _ ho))
    (pre := []) (.step h (.user _ hnew)) (Stored.new h hnew red)
  have hp := roots_no_parents hr hub hs.lt (.inl ⟨_, hs.kind⟩)
  have h0 : Held m.g.size red v0 ma ops k F :=
    ⟨hs, hk, fun a G _ hG hl => hG.get hr hub hp hclean hl⟩
  refine (strace_ind (P := fun x pre => Held m.g.size red v0 x pre k F ∧
    Genuine m.g.size red v0 k F ma.log x pre)
    (fun _ _ _ hr hp he => ⟨hp.1.lib hr he, hp.2.lib hr hp.1 he⟩)
    (fun _ _ _ _ hr hp ho he => ⟨hp.1.user hr ho he, hp.2.user he⟩) ht'
    (fun o ho => hops o (List.mem_append_right _ ho)) hr ⟨h0, [], [], ?_, rfl, .nil, ?_⟩).1
  · exact (List.append_nil _).symm
  · intro i hi; cases hi

/-- The readers derived from a store in state `ma`, in which everything evaluated had been published,
show at any later moment, also in callbacks and between any two steps, what their functions make of
the model that the store shows: the fold over the actions evaluated before the last publication. -/
theorem C88_readers [Inhabited S] {m m1 ma mb : M V S} (h : Reach m) {cmp : Bool} {v0 : V}
    (hnew : ustep m (.newState false cmp v0) = some m1) (red : V → A → V)
    {ops ops' : List (SOp A V S)} (hops : ∀ o ∈ ops ++ ops', o.readsOnly m.g.size)
    (ht : Trace m1 (ops.map (SOp.op m.g.size red)) ma) (hub : ma.ub = false)
    (hclean : ¬ ma.Uncommitted m.g.size) {k : Nat} {F : V → V} (hk : ma.Shows m.g.size k F)
    (ht' : Trace ma (ops'.map (SOp.op m.g.size red)) mb) (hl : mb.Live k) :
    mb.get m.g.size = (published m.g.size (ops ++ ops')).foldl red v0 ∧
    mb.get k = F ((published m.g.size (ops ++ ops')).foldl red v0) := by
  have hh := (held h hnew red hops ht hclean hk hub ht').1
  refine ⟨hh.sound.shown, ?_⟩
  rw [hh.all k F .refl hh.shows hl, hh.sound.shown]

/-- The callbacks of such a reader are only ever called with what its function makes of models that
the store had after the first so many actions, and these numbers never decrease. -/
theorem C88_genuine [Inhabited S] {m m1 ma mb : M V S} (h : Reach m) {cmp : Bool} {v0 : V}
    (hnew : ustep m (.newState false cmp v0) = some m1) (red : V → A → V)
    {ops ops' : List (SOp A V S)} (hops : ∀ o ∈ ops ++ ops', o.readsOnly m.g.size)
    (ht : Trace m1 (ops.map (SOp.op m.g.size red)) ma) (hub : ma.ub = false)
    (hclean : ¬ ma.Uncommitted m.g.size) {k : Nat} {F : V → V} (hk : ma.Shows m.g.size k F)
    (ht' : Trace ma (ops'.map (SOp.op m.g.size red)) mb) :
    ∃ (l : List (Ev V)) (is : List Nat), mb.log = ma.log ++ l ∧
      callValues k l = is.map (fun i => F (((evaluated (ops ++ ops')).take i).foldl red v0)) ∧
      is.Pairwise (· ≤ ·) ∧ ∀ i ∈ is, i ≤ (published m.g.size (ops ++ ops')).length :=
  (held h hnew red hops ht hclean hk hub ht').2

/-- A callback attached to such a reader was last given, when no library call is running and
everything evaluated has been published, what the function of the reader makes of the fold over all
the actions. -/
theorem C88_watched [Inhabited S] {m m1 ma mc mb : M V S} (h : Reach m) {cmp : Bool} {v0 : V}
    (hnew : ustep m (.newState false cmp v0) = some m1) (red : V → A → V)
    {ops ops' : List (SOp A V S)} {k i : Nat}
    (hops : ∀ o ∈ ops ++ .other (.attach k i) :: ops', o.readsOnly m.g.size)
    (ht : Trace m1 (ops.map (SOp.op m.g.size red)) ma)
    (hclean : ¬ ma.Uncommitted m.g.size) {F : V → V} (hk : ma.Shows m.g.size k F)
    (ha : ustep ma (.attach k i) = some mc)
    (ht' : Trace mc (ops'.map (SOp.op m.g.size red)) mb) (hrest : mb.AtRest)
    (hatt : ma.nextW ∈ (mb.g.node k).obs) (hl : mb.Live k)
    (hcmp : ∀ a, mb.Above a k → ¬ mb.Source a → (mb.g.node a).cmp = true)
    (hall : evaluated (ops ++ ops') = published m.g.size (ops ++ .other (.attach k i) :: ops')) :
    ∃ l, mb.log = mc.log ++ l ∧
      given (ma.get k) ma.nextW l = F ((evaluated (ops ++ ops')).foldl red v0) := by
  have hub := (ustep_ub ha).1
  have htt : Trace ma ((SOp.other (.attach k i) :: ops').map (SOp.op m.g.size red)) mb := .user ha ht'
  have hh := (held h hnew red hops ht hclean hk hub htt).1
  have hra : Reach ma := (strace_ind (P := Stored m.g.size red v0)
    (fun _ _ _ hr hp he => hp.lib hr he) (fun _ _ _ _ hr hp ho he => hp.user hr ho he) ht
    (fun o ho => hops o (List.mem_append_left _ ho))
    (pre := []) (.step h (.user _ hnew)) (Stored.new h hnew red)).2
  have runs : ∀ {x y : M V S} {l : List (Op V S)}, Trace x l y → Runs x y := by
    intro x y l ht
    induction ht with
    | refl => exact .refl _
    | lib he _ ih => exact .step (.lib he) ih
    | user he _ ih => exact .step (.user _ he) ih
  have hrb := (runs htt).reach hra
  have hp := roots_no_parents hrb hrest.2 hh.sound.lt (.inl ⟨_, hh.sound.kind⟩)
  have hev : evaluated (ops ++ .other (.attach k i) :: ops') = evaluated (ops ++ ops') := by
    rw [evaluated_append, evaluated_append]; rfl
  have hc : ¬ mb.Uncommitted m.g.size := by
    intro hu
    rcases hh.sound.run with ⟨_, _, h3⟩ | ⟨st, h1, _⟩
    · have := h3 (hev.trans hall)
      rw [hu.2] at this
      cases this
    · rw [hrest.1] at h1; cases h1
  obtain ⟨l, h1, h2⟩ := C07_final_value hra ha (runs ht') hrest hatt hl (hh.shows.clean hp hc) hcmp
  refine ⟨l, h1, ?_⟩
  rw [h2, hh.all k F .refl hh.shows hl, hh.sound.shown, hall]

/-! ### Readers of a store and something else -/

/-- A reader that combines a store with a state can show a model that was not published: an action is
evaluated, and the state is set before the store publishes.  The store shows 0, the state 7, and their
sum is shown as 12. -/
theorem C88_mixed_false : ∃ m m1 m2 : M Nat Nat, ∃ ops : List (SOp Nat Nat Nat), Reach m ∧
    ustep m (.newState false true 0) = some m1 ∧ (∀ o ∈ ops, o.readsOnly m.g.size) ∧
    Trace m1 (ops.map (SOp.op m.g.size (· + ·))) m2 ∧ m2.AtRest ∧ m2.Live 2 ∧
    (m2.g.node 2).parents = [0, 1] ∧ m2.get 0 = 0 ∧ m2.get 1 = 7 ∧ m2.get 2 = 12 := by
  let ops : List (SOp Nat Nat Nat) := [.other (.newState true true 3),
    .other (.newCalc true [0, 1] (fun l => some l.sum) none false 0), .evaluate 5,
    .other (.set 1 7)]
  refine ⟨boot, exec [.newState false true 0] boot,
    exec (ops.map (SOp.op 0 (· + ·))) (exec [.newState false true 0] boot), ops,
    exec_reach [], rfl, ?_, exec_trace _ _ (by decide +kernel), ⟨by decide +kernel, by decide +kernel⟩,
    by unfold M.Live; decide +kernel, by decide +kernel, by decide +kernel, by decide +kernel,
    by decide +kernel⟩
  intro o ho
  simp only [ops, List.mem_cons, List.not_mem_nil, or_false] at ho
  rcases ho with rfl | rfl | rfl | rfl
  · trivial
  · intro h; cases h
  · trivial
  · intro h; cases h

/-- A reader that is derived from a store between the evaluation of an action and its publication shows
the model that is not published: the store shows 0, and `x + 1` is shown as 6. -/
theorem C88_early_false : ∃ m m1 m2 : M Nat Nat, ∃ ops : List (SOp Nat Nat Nat), Reach m ∧
    ustep m (.newState false true 0) = some m1 ∧ (∀ o ∈ ops, o.readsOnly m.g.size) ∧
    Trace m1 (ops.map (SOp.op m.g.size (· + ·))) m2 ∧ m2.AtRest ∧ m2.Live 1 ∧
    m2.Shows 0 1 (· + 1) ∧ m2.get 0 = 0 ∧ m2.get 1 = 6 := by
  let ops : List (SOp Nat Nat Nat) := [.evaluate 5,
    .other (.newCalc true [0] (fun l => some (l.sum + 1)) none false 0)]
  let m2 := exec (ops.map (SOp.op 0 (· + ·))) (exec [.newState false true 0] boot)
  have hp : (m2.g.node 1).parents = [0] := by decide +kernel
  refine ⟨boot, exec [.newState false true 0] boot, m2, ops,
    exec_reach [], rfl, ?_, exec_trace _ _ (by decide +kernel), ⟨by decide +kernel, by decide +kernel⟩,
    by unfold M.Live; decide +kernel, ?_, by decide +kernel, by decide +kernel⟩
  · intro o ho
    simp only [ops, List.mem_cons, List.not_mem_nil, or_false] at ho
    rcases ho with rfl | rfl
    · trivial
    · intro h; cases h
  · refine .reader (view := fun l => some (l.sum + 1)) (put := none) (r := false)
      (fun _ x => x) _ rfl (by rw [hp]; simp) ?_ ?_
    · rw [hp]
      intro p hp
      cases List.mem_singleton.1 hp
      exact .store
    · rw [hp]
      intro x; rfl

/-! ### Examples -/

/-- The readers `x + 1` of a store and `10 * y` of that one, with a callback. -/
def exStoreOps : List (SOp Nat Nat Nat) :=
  [.other (.newCalc true [0] (fun l => some (l.sum + 1)) none false 0),
    .other (.newCalc true [1] (fun l => some (l.sum * 10)) none false 0)]

/-- Two actions are published together, the callback returns, the third is not published. -/
def exStoreOps' : List (SOp Nat Nat Nat) :=
  [.evaluate 5, .evaluate 7, .other (.commit [0]), .evaluate 2, .other .ret]

def exStore0 : M Nat Nat := exec [.newState false true 3] boot
def exStoreA : M Nat Nat := exec (exStoreOps.map (SOp.op 0 (· + ·))) exStore0
def exStoreC : M Nat Nat := exec [.attach 2 0] exStoreA
def exStoreB : M Nat Nat := exec (exStoreOps'.map (SOp.op 0 (· + ·))) exStoreC

theorem exStore_shows : exStoreA.Shows 0 2 (fun x => (x + 1) * 10) := by
  have h1 : exStoreA.Shows 0 1 (fun x => x + 1) := by
    refine .reader (view := fun l => some (l.sum + 1)) (put := none) (r := false)
      (fun _ x => x) _ rfl (by decide +kernel) ?_ ?_
    · have : (exStoreA.g.node 1).parents = [0] := by decide +kernel
      rw [this]
      intro p hp
      cases List.mem_singleton.1 hp
      exact .store
    · have : (exStoreA.g.node 1).parents = [0] := by decide +kernel
      rw [this]
      intro x; rfl
  refine .reader (view := fun l => some (l.sum * 10)) (put := none) (r := false)
    (fun _ x => x + 1) _ rfl (by decide +kernel) ?_ ?_
  · have : (exStoreA.g.node 2).parents = [1] := by decide +kernel
    rw [this]
    intro p hp
    cases List.mem_singleton.1 hp
    exact h1
  · have : (exStoreA.g.node 2).parents = [1] := by decide +kernel
    rw [this]
    intro x; rfl

/-- The hypotheses of the theorems above are met; the callback runs while the third action is
evaluated, and the readers go on to show what was published. -/
example : Reach boot ∧ ustep boot (.newState false true 3) = some exStore0 ∧
    Trace exStore0 (exStoreOps.map (SOp.op 0 (· + ·))) exStoreA ∧ exStoreA.ub = false ∧
    ¬ exStoreA.Uncommitted 0 ∧ exStoreA.Shows 0 2 (fun x => (x + 1) * 10) ∧
    ustep exStoreA (.attach 2 0) = some exStoreC ∧
    Trace exStoreC (exStoreOps'.map (SOp.op 0 (· + ·))) exStoreB ∧ exStoreB.AtRest ∧
    exStoreB.Live 2 ∧ exStoreA.nextW ∈ (exStoreB.g.node 2).obs ∧
    evaluated exStoreOps' = [5, 7, 2] ∧ published 0 exStoreOps' = [5, 7] ∧
    exStoreB.pending 0 = 17 ∧ exStoreB.get 0 = 15 ∧ exStoreB.get 2 = 160 ∧
    callValues 2 exStoreB.log = [160] := by
  refine ⟨exec_reach [], rfl, exec_trace _ _ (by decide +kernel), by decide +kernel, ?_, exStore_shows,
    rfl, exec_trace _ _ (by decide +kernel), ⟨by decide +kernel, by decide +kernel⟩,
    by unfold M.Live; decide +kernel, by decide +kernel, by decide +kernel, by decide +kernel,
    by decide +kernel, by decide +kernel, by decide +kernel, by decide +kernel⟩
  intro h
  have : (exStoreA.g.node 0).dirty = false := by decide +kernel
  rw [h.2] at this
  cases this

example : ∀ o ∈ exStoreOps ++ .other (.attach 2 0) :: exStoreOps', o.readsOnly 0 := by
  intro o ho
  simp only [exStoreOps, exStoreOps', List.mem_cons, List.not_mem_nil, or_false, List.cons_append,
    List.nil_append] at ho
  rcases ho with rfl | rfl | rfl | rfl | rfl | rfl | rfl | rfl
  · intro h; cases h
  · intro h; cases h
  all_goals trivial

/-- When the third action is published too, nothing is left to publish (`C88_watched`). -/
example : evaluated (exStoreOps' ++ [.other (.commit [0]), .other .ret]) =
    published 0 (exStoreOps' ++ [.other (.commit [0]), .other .ret]) ∧
    (exec [.commit [0], .ret] exStoreB).AtRest ∧
    given (exStoreA.get 2) 0 (exec [.commit [0], .ret] exStoreB).log = 180 := by
  refine ⟨by decide +kernel, ⟨by decide +kernel, by decide +kernel⟩, by decide +kernel⟩

end Verif.Graph
