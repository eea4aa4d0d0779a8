import Verif.Graph.Zoom

/-
Properties C11 to C14 and C25 of the node graph.  `Verif.Graph.Spec` has the vocabulary.
-/

set_option linter.unusedSectionVars false

namespace Verif.Graph

variable {V S : Type} [DecidableEq V]

/-! ### C11: writing through a zoomed cursor -/

/-- A write through a cursor zoomed from a transactional state: the pending value of the state becomes
what the composed lens' `set` makes of it; no other state changes. -/
theorem C11_set [Inhabited S] {m m1 : M V S} (h : Reach m) {n r : Nat} {gt st}
    (hl : LensLine m.g n r gt st) (hk : (m.g.node r).kind = .state false) {v : V}
    (hc : Call m (.set n v) m1) :
    m1.pending r = st (m.pending r) v ∧
    ∀ s a, (m.g.node s).kind = .state a → s ≠ r → m1.pending s = m.pending s := by
  obtain ⟨_, h1, _⟩ := id hc
  obtain ⟨v', h1, h2, h3, _⟩ := line_call (reach_inv h (ustep_ub h1).1) rfl hl hk hc
  cases h1
  exact ⟨h2, fun s a hs hne => by unfold M.pending; rw [h3 s a hs hne]⟩

/-- A sequence of writes, through any cursors zoomed from the same state: all of them are kept, in
order.  Every element of the list is a cursor, the value written, and the `set` of its lens. -/
theorem C11_sequence [Inhabited S] {m m1 : M V S} (h : Reach m) {r : Nat}
    (hk : (m.g.node r).kind = .state false) (hub : m.ub = false)
    (l : List (Nat × V × (V → V → V))) (hl : ∀ x ∈ l, ∃ gt, LensLine m.g x.1 r gt x.2.2)
    (hc : Calls m (l.map fun x => .set x.1 x.2.1) m1) :
    m1.pending r = l.foldl (fun w x => x.2.2 w x.2.1) (m.pending r) ∧
    ∀ s a, (m.g.node s).kind = .state a → s ≠ r → m1.pending s = m.pending s := by
  obtain ⟨h1, _, h2⟩ := line_calls l (reach_inv h hub) hk hl hc
  exact ⟨h1, fun s a hs hne => by unfold M.pending; rw [h2 s a hs hne]⟩

/-- Two writes through sibling cursors that show independent parts, and a commit: both cursors show
what was written to them, and the state has both changes. -/
theorem C11_siblings [Inhabited S] {m m1 m2 : M V S} (h : Reach m) {a b r : Nat}
    {gta sta gtb stb} (ha : LensLine m.g a r gta sta) (hb : LensLine m.g b r gtb stb)
    (hla : m.Live a) (hlb : m.Live b) (hk : (m.g.node r).kind = .state false)
    {va vb : V} (hputa : ∀ x, gta (sta x va) = va) (hputb : ∀ x, gtb (stb x vb) = vb)
    (hindep : ∀ x, gta (stb x vb) = gta x)
    (hw : Calls m [.set a va, .set b vb] m1) {rs : List Nat} (hr : r ∈ rs)
    (hc : PCall m1 (.commit rs) m2) :
    m2.get a = va ∧ m2.get b = vb ∧ m2.get r = stb (sta (m.pending r) va) vb := by
  have hu : m.ub = false := by
    cases hw with
    | cons h1 => obtain ⟨_, h2, _⟩ := h1; exact (ustep_ub h2).1
  have hi := reach_inv h hu
  obtain ⟨h1, hhid, _⟩ := line_calls [(a, va, sta), (b, vb, stb)] hi hk (by
    intro x hx
    rcases List.mem_cons.1 hx with rfl | hx
    · exact ⟨_, ha⟩
    · rw [List.mem_singleton] at hx; subst hx; exact ⟨_, hb⟩) hw
  have hr1 := hw.runs.reach h
  obtain ⟨k1, k2, k3, k4, k5, k6⟩ := commit_state hr1 hc hr ((hhid.same.kind r).trans hk)
  have hi2 := reach_inv (hc.reach hr1) k5
  have hget : m2.get r = stb (sta (m.pending r) va) vb := k1.trans h1
  have hruns : Runs m m2 := by
    obtain ⟨_, h2, h3, _⟩ := hc
    exact hw.runs.trans (.step (.user _ h2) h3.runs)
  have hga := ((hruns.lensLine hi k5 (hi.wf.alive_lt hla) ha).shows hi2 k4 k3
    ((k6 a).trans ((hhid.same.alive a).trans hla))).1
  have hgb := ((hruns.lensLine hi k5 (hi.wf.alive_lt hlb) hb).shows hi2 k4 k3
    ((k6 b).trans ((hhid.same.alive b).trans hlb))).1
  refine ⟨?_, ?_, hget⟩
  · rw [hga, hget, hindep, hputa]
  · rw [hgb, hget, hputb]

/-- A write through a cursor zoomed from an automatic state: the state has the new value as soon as
`set` returns, and the cursor shows its part of it. -/
theorem C11_automatic [Inhabited S] {m m1 : M V S} (h : Reach m) {n r : Nat} {gt st}
    (hl : LensLine m.g n r gt st) (hn : m.Live n) (hr : m.Live r)
    (hk : (m.g.node r).kind = .state true) {v : V} (hc : PCall m (.set n v) m1) :
    m1.get r = st (m.pending r) v ∧ m1.get n = gt (st (m.pending r) v) := by
  obtain ⟨_, h0, h00, _⟩ := id hc
  have hi := reach_inv h (ustep_ub h0).1
  obtain ⟨v', h1, h2, _, h4, h5⟩ := (auto_line hi rfl hl hk hr).2 m1 hc
  cases h1
  have hi1 := reach_inv (hc.reach h) h5
  have hruns : Runs m m1 := .step (.user _ h0) h00.runs
  have hc' := hruns.const hi h5 (hi.wf.alive_lt hr)
  have hp := roots_no_parents h (ustep_ub h0).1 (hi.wf.alive_lt hr) (.inl ⟨_, hk⟩)
  have := ((hruns.lensLine hi h5 (hi.wf.alive_lt hn) hl).shows hi1 (hc'.2.1.trans hp) h4
    ((PCall.alive rfl hc n).trans hn)).1
  exact ⟨h2, by rw [this, h2]⟩

/-- A state that is a number of two digits, with a cursor for each digit. -/
def exDigits (auto : Bool) : List (Op Nat Nat) :=
  [.newState auto true 57,
   .newCalc true [0] (fun l => some (l.headD 0 / 10))
     (some fun l v => [10 * v + l.headD 0 % 10]) true 0,
   .newCalc true [0] (fun l => some (l.headD 0 % 10))
     (some fun l v => [l.headD 0 / 10 * 10 + v % 10]) true 0,
   .newCalc true [1] (fun l => some (l.headD 0 + 1)) (some fun _ v => [v - 1]) true 0]

theorem exDigits_tens (auto : Bool) : LensLine (exec (exDigits auto) boot).g 1 0 (· / 10)
    (fun x v => 10 * v + x % 10) :=
  .zoom (p := 0) (view := fun l => some (l.headD 0 / 10))
    (put := fun l v => [10 * v + l.headD 0 % 10]) (gt := fun x => x) (st := fun _ v => v)
    (· / 10) (fun x v => 10 * v + x % 10) (by cases auto <;> rfl) (by cases auto <;> rfl)
    (fun _ => rfl) (fun _ _ => rfl) (.state (a := auto) (by cases auto <;> rfl))

theorem exDigits_units (auto : Bool) : LensLine (exec (exDigits auto) boot).g 2 0 (· % 10)
    (fun x v => x / 10 * 10 + v % 10) :=
  .zoom (p := 0) (view := fun l => some (l.headD 0 % 10))
    (put := fun l v => [l.headD 0 / 10 * 10 + v % 10]) (gt := fun x => x) (st := fun _ v => v)
    (· % 10) (fun x v => x / 10 * 10 + v % 10) (by cases auto <;> rfl) (by cases auto <;> rfl)
    (fun _ => rfl) (fun _ _ => rfl) (.state (a := auto) (by cases auto <;> rfl))

theorem exDigits_next (auto : Bool) : LensLine (exec (exDigits auto) boot).g 3 0 (· / 10 + 1)
    (fun x v => 10 * (v - 1) + x % 10) :=
  .zoom (p := 1) (view := fun l => some (l.headD 0 + 1)) (put := fun _ v => [v - 1])
    (· + 1) (fun _ v => v - 1) (by cases auto <;> rfl) (by cases auto <;> rfl)
    (fun _ => rfl) (fun _ _ => rfl) (exDigits_tens auto)

/-- Two zooms, one write each, and a write through a cursor of a cursor. -/
example : ∃ m m1 m2 : M Nat Nat, Reach m ∧ LensLine m.g 1 0 (· / 10) (fun x v => 10 * v + x % 10) ∧
    LensLine m.g 2 0 (· % 10) (fun x v => x / 10 * 10 + v % 10) ∧
    LensLine m.g 3 0 (· / 10 + 1) (fun x v => 10 * (v - 1) + x % 10) ∧
    m.Live 1 ∧ m.Live 2 ∧ m.Live 3 ∧ (m.g.node 0).kind = .state false ∧
    Calls m [.set 1 3, .set 2 4] m1 ∧ PCall m1 (.commit [0]) m2 ∧ m2.get 0 = 34 ∧
    m2.get 1 = 3 ∧ m2.get 2 = 4 ∧ m2.get 3 = 4 :=
  ⟨exec (exDigits false) boot, exec [.set 1 3, .set 2 4] (exec (exDigits false) boot),
    (exec [.set 1 3, .set 2 4] (exec (exDigits false) boot)).pcall (.commit [0]), exec_reach _,
    exDigits_tens _, exDigits_units _, exDigits_next _, by unfold M.Live; decide +kernel,
    by unfold M.Live; decide +kernel, by unfold M.Live; decide +kernel, rfl,
    calls_exec _ (by decide +kernel), pcall_call (by decide +kernel) (by decide +kernel),
    by decide +kernel, by decide +kernel, by decide +kernel, by decide +kernel⟩

/-- The laws that `C11_siblings` asks for, for these two digits. -/
example : (∀ x : Nat, (fun x => x / 10) ((fun x v => 10 * v + x % 10) x 3) = 3) ∧
    (∀ x : Nat, (fun x => x % 10) ((fun x v => x / 10 * 10 + v % 10) x 4) = 4) ∧
    ∀ x : Nat, (fun x => x / 10) ((fun x v => x / 10 * 10 + v % 10) x 4) = (fun x => x / 10) x :=
  ⟨fun x => by dsimp only; omega, fun x => by dsimp only; omega, fun x => by dsimp only; omega⟩

example : ∃ m m1 : M Nat Nat, Reach m ∧
    LensLine m.g 3 0 (· / 10 + 1) (fun x v => 10 * (v - 1) + x % 10) ∧ m.Live 3 ∧ m.Live 0 ∧
    (m.g.node 0).kind = .state true ∧ PCall m (.set 3 9) m1 ∧ m1.get 0 = 87 ∧ m1.get 3 = 9 :=
  ⟨exec (exDigits true) boot, (exec (exDigits true) boot).pcall (.set 3 9), exec_reach _,
    exDigits_next _, by unfold M.Live; decide +kernel, by unfold M.Live; decide +kernel, rfl,
    pcall_call (by decide +kernel) (by decide +kernel), by decide +kernel, by decide +kernel⟩

/-! ### C12: updates compose -/

/-- A sequence of updates of a transactional state: all the functions are applied, and a commit shows
the result. -/
theorem C12_state [Inhabited S] {m m1 m2 : M V S} (h : Reach m) {r : Nat}
    (hk : (m.g.node r).kind = .state false) (hub : m.ub = false) (fs : List (V → V))
    (hw : Calls m (fs.map (Op.update r)) m1) {rs : List Nat} (hr : r ∈ rs)
    (hc : PCall m1 (.commit rs) m2) :
    m2.get r = fs.foldl (fun x f => f x) (m.pending r) := by
  have main : ∀ (fs : List (V → V)) {m : M V S}, Inv m → m.ub = false →
      (m.g.node r).kind = .state false → Calls m (fs.map (Op.update r)) m1 →
      m1.pending r = fs.foldl (fun x f => f x) (m.pending r) ∧ (m1.g.node r).kind = .state false := by
    intro fs
    induction fs with
    | nil => intro m _ _ hk hw; cases hw; exact ⟨rfl, hk⟩
    | cons f fs ih =>
      intro m hi hub hk hw
      cases hw with
      | cons h1 h2 =>
        obtain ⟨v, k1, k2, _, k4, _, _, k5, k6⟩ := line_call hi rfl (.state hk) hk h1
        cases k1
        obtain ⟨j1, j2⟩ := ih k6 k5 ((k4.same.kind r).trans hk) h2
        exact ⟨by rw [j1, k2]; rfl, j2⟩
  obtain ⟨k1, k2⟩ := main fs (reach_inv h hub) hub hk hw
  rw [(commit_state (hw.runs.reach h) hc hr k2).1, k1]

/-- A sequence of updates through a cursor zoomed from an automatic state, by lenses that show what was
set: all the functions are applied. -/
theorem C12_automatic [Inhabited S] {m m1 : M V S} (h : Reach m) (hub : m.ub = false) {n r : Nat}
    {gt st} (hl : LensLine m.g n r gt st) (hput : ∀ x v, gt (st x v) = v) (hn : m.Live n)
    (hr : m.Live r) (hk : (m.g.node r).kind = .state true) (hclean : ¬ m.Uncommitted r)
    (fs : List (V → V)) (hw : PCalls m (fs.map (Op.update n)) m1) :
    m1.get n = fs.foldl (fun x f => f x) (m.get n) := by
  induction fs generalizing m with
  | nil => cases hw; rfl
  | cons f fs ih =>
    cases hw with
    | cons h1 h2 =>
      rename_i m'
      have hi := reach_inv h hub
      obtain ⟨v, k1, k2, k3, k4, k5⟩ := (auto_line hi rfl hl hk hr).2 _ h1
      cases k1
      have hd : (m.g.node r).dirty = false := by
        cases hd : (m.g.node r).dirty with
        | false => rfl
        | true => exact absurd ⟨fun _ _ _ h3 => (by rw [hk] at h3; cases h3), hd⟩ hclean
      have hp := roots_no_parents h hub (hi.wf.alive_lt hr) (.inl ⟨_, hk⟩)
      have hshow := hi.shows hn ((hl.shows hi hp hd hn).2)
      have hr' := h1.reach h
      have hi' := reach_inv hr' k5
      obtain ⟨_, h0, h00, _⟩ := id h1
      have hruns : Runs m m' := .step (.user _ h0) h00.runs
      have hc' := hruns.const hi k5 (hi.wf.alive_lt hr)
      have hl' := hruns.lensLine hi k5 (hi.wf.alive_lt hn) hl
      have hn' : m'.Live n := (PCall.alive rfl h1 n).trans hn
      have hget := (hl'.shows hi' (hc'.2.1.trans hp) k4 hn').1
      rw [ih hr' k5 hl' hn' ((PCall.alive rfl h1 r).trans hr) (hc'.1.trans hk)
        (fun h3 => by rw [h3.2] at k4; cases k4) h2]
      rw [hget, k2, hput, ← hshow]
      rfl

/-- A transactional state and a cursor that shows all of it. -/
def exWhole : List (Op Nat Nat) :=
  [.newState false true 0, .newCalc true [0] (on1 id) (some fun _ v => [v]) true 0]

/-- It is not true of cursors zoomed from a transactional state: the second update is applied to the
value from before the first one. -/
theorem C12_zoomed_false : ∃ m m1 m2 : M Nat Nat, Reach m ∧ m.AtRest ∧ m.get 1 = 0 ∧
    Calls m [.update 1 (· + 1), .update 1 (· + 1)] m1 ∧ PCall m1 (.commit [0]) m2 ∧ m2.ub = false ∧
    m2.get 1 = 1 :=
  ⟨exec exWhole boot, exec [.update 1 (· + 1), .update 1 (· + 1)] (exec exWhole boot),
    (exec [.update 1 (· + 1), .update 1 (· + 1)] (exec exWhole boot)).pcall (.commit [0]),
    exec_reach _, ⟨by decide +kernel, by decide +kernel⟩, by decide +kernel,
    calls_exec _ (by decide +kernel), pcall_call (by decide +kernel) (by decide +kernel),
    by decide +kernel, by decide +kernel⟩

example : ∃ m m1 m2 : M Nat Nat, Reach m ∧ (m.g.node 0).kind = .state false ∧
    Calls m ([(· + 1), (· * 10)].map (Op.update 0)) m1 ∧ PCall m1 (.commit [0]) m2 ∧
    m2.get 0 = 10 :=
  ⟨exec exWhole boot, exec [.update 0 (· + 1), .update 0 (· * 10)] (exec exWhole boot),
    (exec [.update 0 (· + 1), .update 0 (· * 10)] (exec exWhole boot)).pcall (.commit [0]),
    exec_reach _, rfl, calls_exec _ (by decide +kernel),
    pcall_call (by decide +kernel) (by decide +kernel), by decide +kernel⟩

/-- An automatic state and a cursor that shows all of it. -/
def exWholeAuto : List (Op Nat Nat) :=
  [.newState true true 0, .newCalc true [0] (fun l => some (l.headD 0)) (some fun _ v => [v]) true 0]

example : ∃ m m1 : M Nat Nat, Reach m ∧ LensLine m.g 1 0 (fun x => x) (fun _ v => v) ∧
    (∀ x v : Nat, (fun x : Nat => x) ((fun _ v => v : Nat → Nat → Nat) x v) = v) ∧ m.Live 1 ∧
    m.Live 0 ∧ (m.g.node 0).kind = .state true ∧ ¬ m.Uncommitted 0 ∧
    PCalls m ([(· + 1), (· * 10)].map (Op.update 1)) m1 ∧ m1.get 1 = 10 :=
  ⟨exec exWholeAuto boot,
    ((exec exWholeAuto boot).pcall (.update 1 (· + 1))).pcall (.update 1 (· * 10)), exec_reach _,
    .zoom (p := 0) (view := fun l => some (l.headD 0)) (put := fun _ v => [v]) (gt := fun x => x)
      (st := fun _ v => v) (fun x => x) (fun _ v => v) rfl rfl (fun _ => rfl) (fun _ _ => rfl)
      (.state (a := true) rfl), fun _ _ => rfl, by unfold M.Live; decide +kernel,
    by unfold M.Live; decide +kernel, rfl, fun h => absurd h.2 (by decide +kernel),
    .cons (pcall_call (by decide +kernel) (by decide +kernel))
      (.cons (pcall_call (by decide +kernel) (by decide +kernel)) (.nil _)), by decide +kernel⟩

/-! ### C13: merged readers -/

/-- A reader that merges others shows the tuple of what they show, whatever calls are running, if no
source it depends on has an uncommitted write. -/
theorem C13_merged [Inhabited S] {m : M V S} (h : Reach m) (hub : m.ub = false) {n : Nat}
    (hl : m.Live n) (tuple : List V → V) {put refr}
    (hk : (m.g.node n).kind = .calc (fun l => some (tuple l)) put refr)
    (hclean : ∀ a, m.Above a n → ¬ m.Uncommitted a) :
    m.get n = tuple ((m.g.node n).parents.map m.get) :=
  (reach_inv h hub).consistent hl hclean hk rfl

/-- Two transactional states and the reader that merges them, as a number of two digits. -/
def exPair : List (Op Nat Nat) :=
  [.newState false true 0, .newState false true 0,
   .newCalc true [0, 1] (fun l => some (10 * l.headD 0 + l.getLastD 0)) none false 0]

/-- Both states are written to. -/
def exPairWritten : List (Op Nat Nat) :=
  [.newState false true 0, .newState false true 0,
   .newCalc true [0, 1] (fun l => some (10 * l.headD 0 + l.getLastD 0)) none false 0,
   .set 0 1, .set 1 2]

/-- It is not true in general: if both states are written to and only one of them is committed, the
merged reader shows the uncommitted value of the other. -/
theorem C13_uncommitted_false : ∃ m m1 : M Nat Nat, Reach m ∧ m.AtRest ∧
    PCall m (.commit [0]) m1 ∧ m1.AtRest ∧ m1.get 0 = 1 ∧ m1.get 1 = 0 ∧
    (m1.g.node 2).parents = [0, 1] ∧ m1.get 2 = 12 :=
  ⟨exec exPairWritten boot,
    (exec exPairWritten boot).pcall (.commit [0]), exec_reach _,
    ⟨by decide +kernel, by decide +kernel⟩, pcall_call (by decide +kernel) (by decide +kernel),
    ⟨by decide +kernel, by decide +kernel⟩, by decide +kernel, by decide +kernel, by decide +kernel,
    by decide +kernel⟩

example : ∃ m : M Nat Nat, Reach m ∧ m.Live 2 ∧ (∀ a, m.Above a 2 → ¬ m.Uncommitted a) ∧
    (m.g.node 2).kind = .calc (fun l => some (10 * l.headD 0 + l.getLastD 0)) none false :=
  ⟨exec exPair boot, exec_reach _, by unfold M.Live; decide +kernel,
    calm_clean (exec_reach _) (by decide +kernel) (by decide +kernel) (by decide +kernel), rfl⟩

/-! ### C14: writing a merged cursor -/

/-- Writing a merged cursor of transactional states writes every component, and after a commit of all
the states, the merged cursor and its components show what was written. -/
theorem C14_commit [Inhabited S] {m m1 : M V S} (h : Reach m) {n : Nat} (hn : m.Live n)
    {ps : List Nat} {root : Nat → Nat} {gt : Nat → V → V} {st : Nat → V → V → V} {vs : List V} {v : V}
    (hm : Merges m n false ps root gt st vs v) (hw : Call m (.set n v) m1) :
    (∀ x ∈ ps.zip vs, m1.pending (root x.1) = st x.1 (m.pending (root x.1)) x.2) ∧
    (∀ s a, (m.g.node s).kind = .state a → s ∉ ps.map root → m1.pending s = m.pending s) ∧
    ∀ rs m2, (∀ c ∈ ps, root c ∈ rs) → PCall m1 (.commit rs) m2 →
      m2.get n = v ∧ ps.map m2.get = vs := by
  obtain ⟨_, h0, h00, _⟩ := id hw
  have hub := (ustep_ub h0).1
  have hi := reach_inv h hub
  obtain ⟨view, put, hk, hput, hv⟩ := hm.kind
  obtain ⟨v', k1, k2, k3, k4⟩ := merged_call root gt st hi rfl hk
    (by rw [hm.parents]; exact hm.comps) (by rw [hm.parents]; exact hm.distinct) hw
  cases k1
  rw [hput, hm.parents] at k2
  rw [hm.parents] at k4
  refine ⟨k2, fun s a hs hns => by unfold M.pending; rw [k4 s a hs hns], fun rs m2 hrs hc => ?_⟩
  have hr1 : Reach m1 := (Runs.step (.user _ h0) h00.runs).reach h
  have hr2 := hc.reach hr1
  obtain ⟨m1', j1, j2, _⟩ := id hc
  have hub1 := (ustep_ub j1).1
  have hruns : Runs m m2 := (Runs.step (.user _ h0) h00.runs).trans (.step (.user _ j1) j2.runs)
  have hlive1 : m1.Live n := (k3.same.alive n).trans hn
  have hlive2 : m2.Live n ∧ m2.ub = false := by
    cases ps with
    | nil =>
      have := commit_ub hr1 hc
      exact ⟨(this.2 n).trans hlive1, this.1⟩
    | cons c ps =>
      have := commit_state hr1 hc (hrs c (List.mem_cons_self ..))
        ((k3.same.kind _).trans (hm.comps c (List.mem_cons_self ..)).2)
      exact ⟨(this.2.2.2.2.2 n).trans hlive1, this.2.2.2.2.1⟩
  have hcn := hruns.const hi hlive2.2 (hi.wf.alive_lt hn)
  have hplt : ∀ c ∈ ps, c < m.g.size := fun c hcp => by
    have := hi.wf.lt n c (by rw [hm.parents]; exact hcp)
    have := hi.wf.alive_lt hn
    omega
  refine merged_shows hr2 hlive2.2 (hcn.1.trans hk) hv (hcn.2.1.trans hm.parents) hm.length
    (root := root) (gt := gt) (st := st)
    (fun c hcp => hruns.lensLine hi hlive2.2 (hplt c hcp) (hm.comps c hcp).1) hlive2.1
    (fun c hcp => ?_) (fun x hx => ?_)
  · exact (commit_state hr1 hc (hrs c hcp) ((k3.same.kind _).trans (hm.comps c hcp).2)).2.2.1
  · have hxp := (List.of_mem_zip (a := x.1) (b := x.2) hx).1
    rw [(commit_state hr1 hc (hrs _ hxp) ((k3.same.kind _).trans (hm.comps _ hxp).2)).1, k2 x hx]
    exact hm.laws x hx _

/-- The same for automatic states: as soon as `set` returns. -/
theorem C14_automatic [Inhabited S] {m m1 : M V S} (h : Reach m) {n : Nat} (hn : m.Live n)
    {ps : List Nat} {root : Nat → Nat} {gt : Nat → V → V} {st : Nat → V → V → V} {vs : List V} {v : V}
    (hm : Merges m n true ps root gt st vs v) (hlr : ∀ c ∈ ps, m.Live (root c))
    (hw : PCall m (.set n v) m1) :
    (∀ x ∈ ps.zip vs, m1.get (root x.1) = st x.1 (m.pending (root x.1)) x.2) ∧
    m1.get n = v ∧ ps.map m1.get = vs := by
  obtain ⟨_, h0, h00, _⟩ := id hw
  have hub := (ustep_ub h0).1
  have hi := reach_inv h hub
  obtain ⟨view, put, hk, hput, hv⟩ := hm.kind
  obtain ⟨v', k1, k2, k3⟩ := (merged_auto root gt st h rfl hk (by
    rw [hm.parents]
    exact fun c hc => ⟨(hm.comps c hc).1, (hm.comps c hc).2, hlr c hc⟩)
    (by rw [hm.parents]; exact hm.distinct)).2 m1 hw
  cases k1
  rw [hput, hm.parents] at k3
  have hruns : Runs m m1 := .step (.user _ h0) h00.runs
  have hcn := hruns.const hi k2 (hi.wf.alive_lt hn)
  have hplt : ∀ c ∈ ps, c < m.g.size := fun c hcp => by
    have := hi.wf.lt n c (by rw [hm.parents]; exact hcp)
    have := hi.wf.alive_lt hn
    omega
  have hzip : ∀ c ∈ ps, ∃ u, (c, u) ∈ ps.zip vs := by
    intro c hcp
    obtain ⟨i, hi, rfl⟩ := List.getElem_of_mem hcp
    have h2 : i < vs.length := by rw [hm.length]; exact hi
    refine ⟨vs[i], ?_⟩
    have h3 : i < (ps.zip vs).length := by rw [List.length_zip]; omega
    have := List.getElem_mem h3
    rwa [List.getElem_zip] at this
  refine ⟨fun x hx => (k3 x hx).1, ?_⟩
  refine merged_shows (hw.reach h) k2 (hcn.1.trans hk) hv (hcn.2.1.trans hm.parents) hm.length
    (root := root) (gt := gt) (st := st)
    (fun c hcp => hruns.lensLine hi k2 (hplt c hcp) (hm.comps c hcp).1)
    ((PCall.alive rfl hw n).trans hn) (fun c hcp => ?_) (fun x hx => ?_)
  · obtain ⟨u, hu⟩ := hzip c hcp
    exact (k3 _ hu).2
  · rw [(k3 x hx).1]
    exact hm.laws x hx _

/-- Two states, a cursor zoomed from the second, and a cursor that merges the first state and that
cursor, as a number of two digits. -/
def exMerge2 (auto : Bool) : List (Op Nat Nat) :=
  [.newState auto true 0, .newState auto true 0,
   .newCalc true [1] (fun l => some (l.headD 0)) (some fun _ v => [v]) true 0,
   .newCalc true [0, 2] (fun l => some (10 * l.headD 0 + l.getLastD 0))
     (some fun _ v => [v / 10, v % 10]) false 0]

theorem exMerge2_merges (auto : Bool) : Merges (exec (exMerge2 auto) boot) 3 auto [0, 2]
    (fun c => c / 2) (fun _ x => x) (fun _ _ v => v) [3, 4] 34 where
  kind := ⟨_, _, by cases auto <;> rfl, fun _ => rfl, rfl⟩
  parents := by cases auto <;> rfl
  length := rfl
  comps := by
    have h2 : LensLine (exec (exMerge2 auto) boot).g 2 1 (fun x => x) (fun _ v => v) :=
      .zoom (p := 1) (view := fun l => some (l.headD 0)) (put := fun _ v => [v]) (gt := fun x => x)
        (st := fun _ v => v) (fun x => x) (fun _ v => v) (by cases auto <;> rfl)
        (by cases auto <;> rfl) (fun _ => rfl) (fun _ _ => rfl)
        (.state (a := auto) (by cases auto <;> rfl))
    intro c hc
    rcases List.mem_cons.1 hc with rfl | hc
    · exact ⟨.state (a := auto) (by cases auto <;> rfl), by cases auto <;> rfl⟩
    · rw [List.mem_singleton] at hc
      subst hc
      exact ⟨h2, by cases auto <;> rfl⟩
  laws := fun _ _ _ => rfl
  distinct := by decide

example : ∃ m m1 m2 : M Nat Nat, Reach m ∧ m.Live 3 ∧
    Merges m 3 false [0, 2] (fun c => c / 2) (fun _ x => x) (fun _ _ v => v) [3, 4] 34 ∧
    Call m (.set 3 34) m1 ∧ (∀ c ∈ [0, 2], c / 2 ∈ [0, 1]) ∧ PCall m1 (.commit [0, 1]) m2 ∧
    m2.get 3 = 34 ∧ m2.get 2 = 4 := by
  have h : Calls (exec (exMerge2 false) boot) [.set 3 34]
      (exec [.set 3 34] (exec (exMerge2 false) boot)) := calls_exec _ (by decide +kernel)
  refine ⟨exec (exMerge2 false) boot, exec [.set 3 34] (exec (exMerge2 false) boot),
    (exec [.set 3 34] (exec (exMerge2 false) boot)).pcall (.commit [0, 1]), exec_reach _,
    by unfold M.Live; decide +kernel, exMerge2_merges _, ?_, by decide,
    pcall_call (by decide +kernel) (by decide +kernel), by decide +kernel, by decide +kernel⟩
  cases h with
  | cons h1 h2 => cases h2; exact h1

example : ∃ m m1 : M Nat Nat, Reach m ∧ m.Live 3 ∧
    Merges m 3 true [0, 2] (fun c => c / 2) (fun _ x => x) (fun _ _ v => v) [3, 4] 34 ∧
    (∀ c ∈ [0, 2], m.Live (c / 2)) ∧ PCall m (.set 3 34) m1 ∧ m1.get 3 = 34 ∧ m1.get 2 = 4 :=
  ⟨exec (exMerge2 true) boot, (exec (exMerge2 true) boot).pcall (.set 3 34), exec_reach _,
    by unfold M.Live; decide +kernel, exMerge2_merges _, by unfold M.Live; decide +kernel,
    pcall_call (by decide +kernel) (by decide +kernel), by decide +kernel, by decide +kernel⟩

/-! ### C25: filters -/

/-- An automatic state, two readers that both show its value, and a reader that merges them and is
filtered: it shows pairs of different values only. -/
def exLatch : List (Op Nat Nat) :=
  [.newState true true 0, .newCalc true [0] (on1 id) none false 0,
   .newCalc true [0] (on1 id) none false 0,
   .newCalc true [1, 2] (fun l => if l.headD 0 ≠ l.getLastD 0 then
     some (10 * l.headD 0 + l.getLastD 0) else none) none false 0]

/-- A filter of merged readers can show a pair of values that were never shown together: two readers
show the same value before and after a write, but the filtered pair shows the new value of one of them
and the old value of the other. -/
theorem C25_diamond_false : ∃ m m1 : M Nat Nat, Reach m ∧ m.AtRest ∧ PCall m (.set 0 1) m1 ∧
    m1.AtRest ∧ m.get 1 = 0 ∧ m.get 2 = 0 ∧ m1.get 1 = 1 ∧ m1.get 2 = 1 ∧
    (m1.g.node 3).parents = [1, 2] ∧ m1.get 3 = 10 * 1 + 0 :=
  ⟨exec exLatch boot, (exec exLatch boot).pcall (.set 0 1), exec_reach _,
    ⟨by decide +kernel, by decide +kernel⟩, pcall_call (by decide +kernel) (by decide +kernel),
    ⟨by decide +kernel, by decide +kernel⟩, by decide +kernel, by decide +kernel, by decide +kernel,
    by decide +kernel, by decide +kernel, by decide +kernel⟩

/-- A filter on a single path: after any writes to transactional states and a commit it shows what it
showed before, or what it makes of the value that its parent shows now. -/
theorem C25_single_path [Inhabited S] {m m1 m2 : M V S} (h : Reach m) (hrest : m.AtRest) {n p r : Nat}
    (hl : m.Live n) {view put refr} (hk : (m.g.node n).kind = .calc view put refr)
    (hp : (m.g.node n).parents = [p]) (hline : Line m.g p r)
    (hclean : ∀ a, m.Above a n → ¬ m.Uncommitted a)
    (hcmp : ∀ a, m.Above a n → (m.g.node a).cmp = true)
    {ops : List (Op V S)} (hw : Calls m ops m1)
    (hops : ∀ op ∈ ops, ∃ s, op.target = some s ∧ (m.g.node s).kind = .state false)
    {rs : List Nat} (hr : r ∈ rs) (hc : QCall m1 (.commit rs) m2) (hub : m2.ub = false) :
    m2.get n = m.get n ∨ view [m2.get p] = some (m2.get n) := by
  have hi := reach_inv h hrest.2
  have hline' : Line m.g n r := .comp hk hp hline
  obtain ⟨a, hst⟩ := hline'.isState
  have hlr : m.Live r := live_above hi.wf hl hline'.rootAbove
  have hpr := roots_no_parents h hrest.2 (hi.wf.alive_lt hlr) (.inl ⟨a, hst⟩)
  have hready : Ready m n r := ⟨hi, hrest.1, hl, hline', hpr, hclean, hcmp⟩
  obtain ⟨hi1, hub1, hst1, hlog1, hhid, hoth⟩ := state_writes hw hi hrest.2 hops
  obtain ⟨m1', h1, h2, h3⟩ := hc
  have hi1' := step_inv hi1 (.user _ h1) (ustep_ub h1).2
  obtain ⟨hg', hst1'⟩ := commit_step h1
  have ho := once_start (fs := [.roots rs]) hst1' (by
    intro f hf; rw [List.mem_singleton] at hf; subst hf; exact ⟨rfl, fun _ => rfl⟩)
  obtain ⟨l, k1, _, k3, k4⟩ := h2.once (ustep_user h1) hi1' ho hub h3
  have hro := (hready.up hline'.rootAbove).node
  have hv := hready.value hhid.same (fun a ha hne => hoth a fun hk => by
      have := (hready.up ha).line
      cases this with
      | state => exact hne rfl
      | comp h4 => rw [hk] at h4; cases h4) (hhid.last r)
    ((hhid.needsNotify r).trans hro.2.2) (sendAll_moves rs m1.g) hk hp
  have hs := (hhid.same.trans (sendAll_same rs m1.g))
  rw [← hg'] at hv hs
  have hsize : m1'.g.size = m.g.size := hs.size
  have hnlt := hi.wf.alive_lt hl
  have hplt : p < m.g.size := by
    have := hi.wf.lt n p (by rw [hp]; exact List.mem_cons_self ..)
    omega
  have hgn : m2.get n = (m1'.g.node n).last := k3 n (by omega)
  have hgp : m2.get p = (m1'.g.node p).last := k3 p (by omega)
  have hdirty : (m1'.g.node r).dirty = false := by
    rw [hg']
    refine ((sendAll_state rs m1.g hi1.wf hi1.fresh (fun s hs => ?_)
      ((hhid.same.kind r).trans hst) ((hhid.same.parents r).trans hpr)).2 hr).2
    exact hi1.wf.alive_lt (commit_alive h1 s hs)
  have hlinep : Line m1'.g p r := hline.same hs
  have hshow : m1'.get p = m1'.pending p := by
    refine hi1'.shows ((hs.alive p).trans (hi.wf.parentAlive n hl p (by rw [hp]; exact List.mem_cons_self ..))) ?_
    intro a ha hu
    have := hlinep.above ((hs.parents r).trans hpr) ha
    cases this with
    | state => rw [hu.2] at hdirty; cases hdirty
    | comp h4 => exact hu.1 _ _ _ h4
  rcases hv with hv | hv
  · exact .inl (hgn.trans hv)
  · right
    rw [hgp, hgn]
    rw [show (m1'.g.node p).last = (m1'.g.node p).current from hshow]
    exact hv

/-- A filter for even numbers on a path of two steps. -/
def exEven : List (Op Nat Nat) :=
  [.newState false true 4, .newCalc true [0] (on1 (· + 10)) none false 0,
   .newCalc true [1] (fun l => if l.headD 0 % 2 = 0 then some (l.headD 0) else none) none false 0]

example : ∃ m m1 m2 : M Nat Nat, Reach m ∧ m.AtRest ∧ m.Live 2 ∧
    (∃ view, (m.g.node 2).kind = .calc view none false) ∧ (m.g.node 2).parents = [1] ∧
    Line m.g 1 0 ∧ (∀ a, m.Above a 2 → ¬ m.Uncommitted a) ∧
    (∀ a, m.Above a 2 → (m.g.node a).cmp = true) ∧ Calls m [.set 0 5] m1 ∧
    QCall m1 (.commit [0]) m2 ∧ m2.ub = false ∧ m.get 2 = 14 ∧ m2.get 1 = 15 ∧ m2.get 2 = 14 :=
  ⟨exec exEven boot, exec [.set 0 5] (exec exEven boot),
    (exec [.set 0 5] (exec exEven boot)).pcall (.commit [0]), exec_reach _,
    ⟨by decide +kernel, by decide +kernel⟩, by unfold M.Live; decide +kernel, ⟨_, rfl⟩, rfl,
    isLine_line (k := 5) (by decide +kernel),
    calm_clean (exec_reach _) (by decide +kernel) (by decide +kernel) (by decide +kernel),
    comparable_above (exec_reach _) (by decide +kernel) (by decide +kernel) (by decide +kernel),
    calls_exec _ (by decide +kernel),
    (pcall_call (by decide +kernel) (by decide +kernel)).q, by decide +kernel, by decide +kernel,
    by decide +kernel, by decide +kernel⟩

end Verif.Graph
