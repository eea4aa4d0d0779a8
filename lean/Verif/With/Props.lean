import Verif.With.Write
import Verif.Graph.Exec

/-!
Properties of `with` expressions: C26, C27.
-/

set_option linter.unusedSectionVars false

namespace Verif.With

open Verif.Graph (exec boot exec_reach exec_runs callsOK calls_exec calm_clean comparable_above isState_state isLine_line pcall_call M Op Graph Runs Reach Line LensLine Lazy Call Calls QCall PCall)

variable {V S : Type} [DecidableEq V] [Tup V] [Inhabited S]

/-- For the examples: pairs of numbers below 100. -/
instance exTup : Tup Nat where
  tup l := match l with
    | [v] => v
    | [a, b] => a * 100 + b
    | _ => 0
  untup n v := match n with
    | 1 => [v]
    | 2 => [v / 100, v % 100]
    | _ => []
  tup_one _ := rfl
  untup_one _ := rfl

def exTy : Ty Nat := ⟨true, 0⟩

/-- Two two-way maps, a lens, and another map. -/
def exFused : List (Part Nat) :=
  [.xform2 exTy (fun x => some (x + 5)) (.pure fun x => some (x - 5)),
   .xform2 exTy (fun x => some (x * 2)) (.pure fun x => some (x / 2)),
   .zoom exTy (· % 100) (fun c v => c / 100 * 100 + v),
   .xform2 exTy (fun x => some (x + 3)) (.pure fun x => some (x - 3))]

/-- The same with cursors made in between. -/
def exNested : List (Part Nat) :=
  [.xform2 exTy (fun x => some (x + 5)) (.pure fun x => some (x - 5)), .make,
   .xform2 exTy (fun x => some (x * 2)) (.pure fun x => some (x / 2)), .make,
   .zoom exTy (· % 100) (fun c v => c / 100 * 100 + v), .make,
   .xform2 exTy (fun x => some (x + 3)) (.pure fun x => some (x - 3))]

/-- Both over two states. -/
def exStates (auto : Bool) : M Nat Nat := exec [.newState auto true 1, .newState auto true 2] boot

def exBuild (m : M Nat Nat) (ps : List Nat) (l : List (Part Nat)) : M Nat Nat × Nat :=
  (build m exTy true ps l).getD (m, 0)

theorem exBuild_eq {m : M Nat Nat} {ps : List Nat} {l : List (Part Nat)}
    (h : (build m exTy true ps l).isSome = true) : build m exTy true ps l = some (exBuild m ps l) :=
  Graph.some_getD _ h

def exOne (auto : Bool) : M Nat Nat × Nat := exBuild (exStates auto) [0, 1] exFused

def exTwo (auto : Bool) : M Nat Nat × Nat := exBuild (exOne auto).1 [0, 1] exNested

/-- C26: what a chain shows is what its steps, one after the other, show of the tuple of the values of its sources, no
matter how they are fused into nodes. -/
theorem C26_shows {m0 m1 m : M V S} (h : Reach m0) {t : Ty V} {rw : Bool} {ps : List Nat} {l : List (Part V)} {n : Nat}
    (hb : build m0 t rw ps l = some (m1, n)) (hr : Runs m1 m) (hub : m.ub = false) (hl : m.Live n)
    (hc : ∀ a, m.Above a n → ¬ m.Uncommitted a) {x : V} (hx : look l (tup (ps.map m.get)) = some x) :
    m.get n = x := by
  obtain ⟨b, hm, hrm⟩ := built h hb hr hub
  exact hm.shows (Graph.reach_inv hrm hub) hl hc (by rw [look_steps]; exact hx)

theorem exOne_eq (auto : Bool) : build (exStates auto) exTy true [0, 1] exFused = some ((exOne auto).1, (exOne auto).2) :=
  exBuild_eq (by cases auto <;> decide +kernel)

theorem exTwo_eq (auto : Bool) :
    build (exOne auto).1 exTy true [0, 1] exNested = some ((exTwo auto).1, (exTwo auto).2) := by
  have h : (build (exOne auto).1 exTy true [0, 1] exNested).isSome = true := by cases auto <;> decide +kernel
  rw [exBuild_eq h, exTwo]

theorem exOne_reach (auto : Bool) : Reach (exOne auto).1 := (build_runs (exec_reach _) (exOne_eq auto)).reach (exec_reach _)

theorem exTwo_reach (auto : Bool) : Reach (exTwo auto).1 :=
  (build_runs (exOne_reach auto) (exTwo_eq auto)).reach (exOne_reach auto)

theorem one_call {m : M Nat Nat} {op : Op Nat Nat} (h : callsOK [op] m = true) : Call m op (exec [op] m) := by
  cases calls_exec [op] h with
  | cons hc hn => cases hn; exact hc

/-- Both chains, after a write to one of them and a commit. -/
def exLater : M Nat Nat := exec [.set (exOne false).2 33, .commit [0, 1]] (exTwo false).1

example : ∃ m0 m1 m2 m3 m : M Nat Nat, ∃ n n', Reach m0 ∧ build m0 exTy true [0, 1] exFused = some (m1, n) ∧
    Runs m1 m2 ∧ build m2 exTy true [0, 1] exNested = some (m3, n') ∧ Runs m3 m ∧ m.ub = false ∧
    steps exFused = steps exNested ∧ m.Live n ∧ m.Live n' ∧ (∀ a, m.Above a n → ¬ m.Uncommitted a) ∧
    (∀ a, m.Above a n' → ¬ m.Uncommitted a) ∧ look exFused (tup ([0, 1].map m.get)) = some 33 ∧
    m.get n = 33 ∧ m.get n' = 33 ∧ m.get 1 = 10 := by
  have hr : Runs (exTwo false).1 exLater := exec_runs _ _
  have hreach := hr.reach (exTwo_reach false)
  have hub : exLater.ub = false := by decide +kernel
  exact ⟨_, _, _, _, exLater, _, _, exec_reach _, exOne_eq false, .refl _, exTwo_eq false, hr, hub, rfl,
    by unfold M.Live; decide +kernel, by unfold M.Live; decide +kernel,
    calm_clean hreach hub (by decide +kernel) (by decide +kernel),
    calm_clean hreach hub (by decide +kernel) (by decide +kernel), by decide +kernel, by decide +kernel,
    by decide +kernel, by decide +kernel⟩

/-- C26: two chains of the same steps over the same sources show the same, wherever intermediate cursors are made,
unless a filter drops the value. -/
theorem C26_same_value {m0 m1 m2 m3 m : M V S} (h : Reach m0) {t t' : Ty V} {rw rw' : Bool} {ps : List Nat}
    {l l' : List (Part V)} {n n' : Nat} (hb : build m0 t rw ps l = some (m1, n)) (hr : Runs m1 m2)
    (hb' : build m2 t' rw' ps l' = some (m3, n')) (hr' : Runs m3 m) (hub : m.ub = false) (hsteps : steps l = steps l')
    (hl : m.Live n) (hl' : m.Live n') (hc : ∀ a, m.Above a n → ¬ m.Uncommitted a)
    (hc' : ∀ a, m.Above a n' → ¬ m.Uncommitted a) (hx : (look l (tup (ps.map m.get))).isSome = true) :
    m.get n = m.get n' := by
  obtain ⟨x, hx⟩ := Option.isSome_iff_exists.mp hx
  have hm2 := hr.reach ((build_runs h hb).reach h)
  have hrun : Runs m1 m := hr.trans ((build_runs hm2 hb').trans hr')
  rw [C26_shows h hb hrun hub hl hc hx]
  refine (C26_shows hm2 hb' hr' hub hl' hc' ?_).symm
  rw [← hx, ← look_steps l, ← look_steps l', hsteps]

/-- C26: writing to a chain of cursors of transactional states has the effect on all states that it has to write the
components of what the steps make of the value to the sources, one after the other. -/
theorem C26_write {m0 m1 m m' : M V S} (h : Reach m0) {t : Ty V} {rw : Bool} {ps : List Nat} {l : List (Part V)}
    {n : Nat} (hb : build m0 t rw ps l = some (m1, n)) (hr : Runs m1 m) (hub : m.ub = false)
    (hs : separate false l = true) (hp : ∀ p ∈ ps, Lazy m.g p ∧ Plain m.g p)
    (hx : (look l (tup (ps.map (fresh m.g)))).isSome = true) {v : V} (hc : Call m (.set n v) m') :
    ∃ m2, Calls m ((sent m.g ps l v).map fun x => .set x.1 x.2) m2 ∧
      ∀ s a, (m.g.node s).kind = .state a → m'.g.node s = m2.g.node s := by
  obtain ⟨b, hm, hrm⟩ := built h hb hr hub
  rw [hs] at hm
  obtain ⟨m2, h1, h2, h3⟩ := write_lazy (Graph.reach_inv hrm hub) hm (by rw [look_steps]; exact hx) hp hc
  rw [sent_steps] at h1
  refine ⟨m2, h1, fun s a hk => h2.leaf s ?_⟩
  rw [h3.kind, hk]
  intros; intro h; cases h

example : ∃ m0 m1 m2 m ma mb : M Nat Nat, ∃ n n', Reach m0 ∧ build m0 exTy true [0, 1] exFused = some (m1, n) ∧
    Runs m1 m2 ∧ build m2 exTy true [0, 1] exNested = some (m, n') ∧ m.ub = false ∧
    separate false exFused = true ∧ separate false exNested = true ∧ steps exFused = steps exNested ∧
    (∀ p ∈ [0, 1], Lazy m.g p ∧ Plain m.g p) ∧ (look exFused (tup ([0, 1].map (fresh m.g)))).isSome = true ∧
    Call m (.set n 33) ma ∧ Call m (.set n' 33) mb ∧ sent m.g [0, 1] exFused 33 = [(0, 1), (1, 10)] ∧
    (ma.pending 0, ma.pending 1) = (1, 10) ∧ (mb.pending 0, mb.pending 1) = (1, 10) := by
  refine ⟨_, _, _, _, exec [.set (exOne false).2 33] (exTwo false).1, exec [.set (exTwo false).2 33] (exTwo false).1,
    _, _, exec_reach _, exOne_eq false, .refl _, exTwo_eq false, by decide +kernel, by decide +kernel,
    by decide +kernel, rfl, fun p hp => ?_, by decide +kernel, one_call (by decide +kernel),
    one_call (by decide +kernel), by decide +kernel, by decide +kernel, by decide +kernel⟩
  have : ((exTwo false).1.g.node p).kind = .state false := by
    simp only [List.mem_cons, List.not_mem_nil, or_false] at hp
    rcases hp with rfl | rfl <;> exact isState_state (by decide +kernel)
  exact ⟨.state this, .state this⟩

/-- C26: writing the same value to two chains of the same steps over the same cursors of transactional states has the
same effect on all states, wherever intermediate cursors are made. -/
theorem C26_same_write {m0 m1 m2 m3 m ma mb : M V S} (h : Reach m0) {t t' : Ty V} {rw rw' : Bool} {ps : List Nat}
    {l l' : List (Part V)} {n n' : Nat} (hb : build m0 t rw ps l = some (m1, n)) (hr : Runs m1 m2)
    (hb' : build m2 t' rw' ps l' = some (m3, n')) (hr' : Runs m3 m) (hub : m.ub = false) (hsteps : steps l = steps l')
    (hs : separate false l = true) (hs' : separate false l' = true) (hp : ∀ p ∈ ps, Lazy m.g p ∧ Plain m.g p)
    (hx : (look l (tup (ps.map (fresh m.g)))).isSome = true) {v : V} (ha : Call m (.set n v) ma)
    (hb2 : Call m (.set n' v) mb) :
    ∀ s a, (m.g.node s).kind = .state a → ma.g.node s = mb.g.node s := by
  have hm2 := hr.reach ((build_runs h hb).reach h)
  have hrun : Runs m1 m := hr.trans ((build_runs hm2 hb').trans hr')
  obtain ⟨mx, x1, x2⟩ := C26_write h hb hrun hub hs hp hx ha
  obtain ⟨my, y1, y2⟩ := C26_write hm2 hb' hr' hub hs' hp (by rw [← look_steps, ← hsteps, look_steps]; exact hx) hb2
  rw [← sent_steps, ← hsteps, sent_steps] at y1
  have := Calls.det x1 y1
  subst this
  exact fun s a hk => (x2 s a hk).trans (y2 s a hk).symm

/-- C26, for automatic states: if the sources are zoomed from different ones, writing to a chain publishes the
components of what the steps make of the value, and changes no other state. -/
theorem C26_write_auto {m0 m1 m m' : M V S} (h : Reach m0) {t : Ty V} {rw : Bool} {ps : List Nat} {l : List (Part V)}
    {n : Nat} (hb : build m0 t rw ps l = some (m1, n)) (hr : Runs m1 m) (hub : m.ub = false)
    (hs : separate false l = true) {root : Nat → Nat} {gt : Nat → V → V} {st : Nat → V → V → V}
    (hp : ∀ p ∈ ps, LensLine m.g p (root p) (gt p) (st p) ∧ (m.g.node (root p)).kind = .state true)
    (hd : (ps.map root).Nodup)
    (hx : (look l (tup (ps.map (fresh m.g)))).isSome = true) {v : V} (hc : PCall m (.set n v) m') :
    (∀ x ∈ sent m.g ps l v, m'.get (root x.1) = st x.1 (m.pending (root x.1)) x.2) ∧
    ∀ s a, m.Live s → (m.g.node s).kind = .state a → s ∉ (sent m.g ps l v).map (fun x => root x.1) →
      m'.get s = m.get s ∧ m'.pending s = m.pending s := by
  obtain ⟨b, hm, hrm⟩ := built h hb hr hub
  rw [hs] at hm
  obtain ⟨h1, h2, h3⟩ := write_auto hrm hm (by rw [look_steps]; exact hx) hp hd hc
  rw [sent_steps] at h1 h3
  exact ⟨fun x hx => (h1 x hx).1, h3⟩

example : ∃ m0 m m' : M Nat Nat, ∃ n, Reach m0 ∧ build m0 exTy true [0, 1] exFused = some (m, n) ∧
    m.ub = false ∧ separate false exFused = true ∧
    (∀ p ∈ [0, 1], LensLine m.g p p (fun x => x) (fun _ v => v) ∧ (m.g.node p).kind = .state true) ∧
    ([0, 1].map fun p => p).Nodup ∧ (look exFused (tup ([0, 1].map (fresh m.g)))).isSome = true ∧
    PCall m (.set n 33) m' ∧ sent m.g [0, 1] exFused 33 = [(0, 1), (1, 10)] ∧
    (m'.get 0, m'.get 1) = (1, 10) ∧ m'.get n = 33 := by
  refine ⟨_, _, (exOne true).1.pcall (.set (exOne true).2 33), _, exec_reach _, exOne_eq true, by decide +kernel,
    by decide +kernel, fun p hp => ?_, by decide +kernel, by decide +kernel,
    pcall_call (by decide +kernel) (by decide +kernel), by decide +kernel, by decide +kernel, by decide +kernel⟩
  have : ((exOne true).1.g.node p).kind = .state true := by
    simp only [List.mem_cons, List.not_mem_nil, or_false] at hp
    rcases hp with rfl | rfl <;> exact isState_state (by decide +kernel)
  exact ⟨.state this, this⟩

/-- The value that `C26_write` starts from is what the source shows, if nothing is uncommitted. -/
theorem C26_fresh {m : M V S} (h : Reach m) (hub : m.ub = false) {n : Nat} (hl : m.Live n)
    (hc : ∀ a, m.Above a n → ¬ m.Uncommitted a) : fresh m.g n = m.get n :=
  fresh_clean (Graph.reach_inv h hub) hl hc

/-- C26, with filters: after any writes to transactional states and a commit, a chain over a single path shows what its
steps show of the value of its source now; if they drop it, what the chain showed before.  So chains that show the
same go on to show the same. -/
theorem C26_latched {m0 m1 m ma mb : M V S} (h : Reach m0) {t : Ty V} {rw : Bool} {p r : Nat} {l : List (Part V)}
    {n : Nat} (hb : build m0 t rw [p] l = some (m1, n)) (hr : Runs m1 m) (hrest : m.AtRest)
    (hl : m.Live n) (hline : Line m.g p r) (hclean : ∀ a, m.Above a n → ¬ m.Uncommitted a)
    (hcmp : ∀ a, m.Above a n → (m.g.node a).cmp = true)
    {ops : List (Op V S)} (hw : Calls m ops ma)
    (hops : ∀ op ∈ ops, ∃ s, op.target = some s ∧ (m.g.node s).kind = .state false)
    {rs : List Nat} (hrs : r ∈ rs) (hc : QCall ma (.commit rs) mb) (hub : mb.ub = false) :
    mb.get n = (look l (mb.get p)).getD (m.get n) := by
  obtain ⟨b, hm, hrm⟩ := built h hb hr hrest.2
  rw [← look_steps l]
  exact latch hrm hrest hm hl hline hclean hcmp hw hops hrs hc hub

/-- A filter for even numbers, and then a map. -/
def exFilter : List (Part Nat) :=
  [.xform exTy (fun x => if x % 2 = 0 then some x else none), .xform exTy (fun x => some (x + 1))]

def exFilterNested : List (Part Nat) :=
  [.xform exTy (fun x => if x % 2 = 0 then some x else none), .make, .xform exTy (fun x => some (x + 1))]

def exFilters (v : Nat) : M Nat Nat × Nat := exBuild (exec [.newState false true v] boot) [0] exFilter

def exFilters2 (v : Nat) : M Nat Nat × Nat := exBuild (exFilters v).1 [0] exFilterNested

theorem exFilters_eq : build (exec [.newState false true 4] boot) exTy true [0] exFilter =
    some ((exFilters 4).1, (exFilters 4).2) := exBuild_eq (by decide +kernel)

theorem exFilters_odd : build (exec [.newState false true 3] boot) exTy true [0] exFilter =
    some ((exFilters 3).1, (exFilters 3).2) := exBuild_eq (by decide +kernel)

theorem exFilters2_odd : build (exFilters 3).1 exTy true [0] exFilterNested =
    some ((exFilters2 3).1, (exFilters2 3).2) := exBuild_eq (by decide +kernel)

example : ∃ m0 m ma mb : M Nat Nat, ∃ n, Reach m0 ∧ build m0 exTy true [0] exFilter = some (m, n) ∧ m.AtRest ∧
    m.Live n ∧ Line m.g 0 0 ∧ (∀ a, m.Above a n → ¬ m.Uncommitted a) ∧
    (∀ a, m.Above a n → (m.g.node a).cmp = true) ∧ Calls m [.set 0 7] ma ∧
    (∀ op ∈ ([.set 0 7] : List (Op Nat Nat)), ∃ s, op.target = some s ∧ (m.g.node s).kind = .state false) ∧
    QCall ma (.commit [0]) mb ∧ mb.ub = false ∧ m.get n = 5 ∧ mb.get 0 = 7 ∧ mb.get n = 5 := by
  have hreach := (build_runs (exec_reach _) exFilters_eq).reach (exec_reach _)
  have hub : (exFilters 4).1.ub = false := by decide +kernel
  have hs : ((exFilters 4).1.g.node 0).kind = .state false := isState_state (by decide +kernel)
  refine ⟨_, _, _, (exec [.set 0 7] (exFilters 4).1).pcall (.commit [0]), _, exec_reach _, exFilters_eq,
    ⟨by decide +kernel, hub⟩, by unfold M.Live; decide +kernel, isLine_line (k := 5) (by decide +kernel),
    calm_clean hreach hub (by decide +kernel) (by decide +kernel),
    comparable_above hreach hub (by decide +kernel) (by decide +kernel), calls_exec [.set 0 7] (by decide +kernel),
    fun op hop => ?_, (pcall_call (by decide +kernel) (by decide +kernel)).q, by decide +kernel, by decide +kernel,
    by decide +kernel, by decide +kernel⟩
  rw [List.mem_singleton] at hop
  subst hop
  exact ⟨0, rfl, hs⟩

/-- C26 fails for filters when the initial value is dropped: the fused chain shows the default value of the last type,
the nested one what the map makes of the default value of the type before. -/
theorem C26_initial_false : ∃ m0 m1 m : M Nat Nat, ∃ n n', Reach m0 ∧
    build m0 exTy true [0] exFilter = some (m1, n) ∧ build m1 exTy true [0] exFilterNested = some (m, n') ∧
    steps exFilter = steps exFilterNested ∧ m.AtRest ∧ m.Live n ∧ m.Live n' ∧ m.get n = 0 ∧ m.get n' = 1 :=
  ⟨_, _, _, _, _, exec_reach _, exFilters_odd, exFilters2_odd, rfl, ⟨by decide +kernel, by decide +kernel⟩,
    by unfold M.Live; decide +kernel, by unfold M.Live; decide +kernel, by decide +kernel, by decide +kernel⟩

/-- A map, and then a transformation that adds what is written to what there is. -/
def exAdd : List (Part Nat) :=
  [.xform2 exTy (fun x => some (x + 1)) (.pure fun x => some (x - 1)),
   .xform2 exTy (fun x => some x) (.update fun c v => c + v)]

def exAddNested : List (Part Nat) :=
  [.xform2 exTy (fun x => some (x + 1)) (.pure fun x => some (x - 1)), .make,
   .xform2 exTy (fun x => some x) (.update fun c v => c + v)]

def exAdds : M Nat Nat × Nat := exBuild (exec [.newState false true 10] boot) [0] exAdd

def exAdds2 : M Nat Nat × Nat := exBuild exAdds.1 [0] exAddNested

/-- C26 fails for `update` after another two-way transformation: fused, it gets the value of the source instead of
that of the step before. -/
theorem C26_update_false : ∃ m0 m1 m ma mb : M Nat Nat, ∃ n n', Reach m0 ∧
    build m0 exTy true [0] exAdd = some (m1, n) ∧ build m1 exTy true [0] exAddNested = some (m, n') ∧
    steps exAdd = steps exAddNested ∧ m.AtRest ∧ Call m (.set n 5) ma ∧ Call m (.set n' 5) mb ∧
    ma.pending 0 = 14 ∧ mb.pending 0 = 15 :=
  ⟨_, _, _, _, _, _, _, exec_reach [.newState false true 10], exBuild_eq (by decide +kernel), exBuild_eq (m := exAdds.1) (by decide +kernel), rfl,
    ⟨by decide +kernel, by decide +kernel⟩, one_call (m := exAdds2.1) (by decide +kernel), one_call (m := exAdds2.1) (by decide +kernel),
    by decide +kernel, by decide +kernel⟩

/-- The chain `with(p).xform(map(f1), map(g1)).xform(map(f2), map(g2))`. -/
def twoMaps (t1 t2 : Ty V) (f1 g1 f2 g2 : V → V) : List (Part V) :=
  [.xform2 t1 (fun x => some (f1 x)) (.pure fun x => some (g1 x)),
   .xform2 t2 (fun x => some (f2 x)) (.pure fun x => some (g2 x))]

/-- C27: reading goes through both functions. -/
theorem C27_reads {m0 m1 m : M V S} (h : Reach m0) {t t1 t2 : Ty V} {rw : Bool} {p : Nat} {f1 g1 f2 g2 : V → V}
    {n : Nat} (hb : build m0 t rw [p] (twoMaps t1 t2 f1 g1 f2 g2) = some (m1, n)) (hr : Runs m1 m)
    (hub : m.ub = false) (hl : m.Live n) (hc : ∀ a, m.Above a n → ¬ m.Uncommitted a) :
    m.get n = f2 (f1 (m.get p)) :=
  C26_shows h hb hr hub hl hc (by rw [List.map_cons, List.map_nil, Tup.tup_one]; rfl)

theorem sent_twoMaps (g : Graph V S) (p : Nat) (t1 t2 : Ty V) (f1 g1 f2 g2 : V → V) (v : V) :
    sent g [p] (twoMaps t1 t2 f1 g1 f2 g2) v = [(p, g1 (g2 v))] := by
  unfold sent
  simp only [twoMaps, put, Part.look, Part.put, Wr.run, Option.bind_some, parts, List.length_singleton,
    Tup.untup_one, List.zip_cons_cons, List.zip_nil_right]
  exact Graph.order_one g _

/-- C27: writing goes through the other two, in the opposite order; the effect is that of writing the result to the
source. -/
theorem C27_writes {m0 m1 m m' : M V S} (h : Reach m0) {t t1 t2 : Ty V} {rw : Bool} {p : Nat} {f1 g1 f2 g2 : V → V}
    {n : Nat} (hb : build m0 t rw [p] (twoMaps t1 t2 f1 g1 f2 g2) = some (m1, n)) (hr : Runs m1 m)
    (hub : m.ub = false) (hp : Lazy m.g p ∧ Plain m.g p) {v : V} (hc : Call m (.set n v) m') :
    ∃ m2, Call m (.set p (g1 (g2 v))) m2 ∧ ∀ s a, (m.g.node s).kind = .state a → m'.g.node s = m2.g.node s := by
  obtain ⟨m2, h1, h2⟩ := C26_write h hb hr hub rfl (fun q hq => by
    rw [List.mem_singleton] at hq; subst hq; exact hp) (by rw [List.map_cons, List.map_nil, Tup.tup_one]; rfl) hc
  rw [sent_twoMaps] at h1
  cases h1 with
  | cons hc hn => cases hn; exact ⟨_, hc, h2⟩

/-- C27: what is written to the state. -/
theorem C27_pending {m0 m1 m m' : M V S} (h : Reach m0) {t t1 t2 : Ty V} {rw : Bool} {p : Nat} {f1 g1 f2 g2 : V → V}
    {n : Nat} (hb : build m0 t rw [p] (twoMaps t1 t2 f1 g1 f2 g2) = some (m1, n)) (hr : Runs m1 m)
    (hub : m.ub = false) (hp : (m.g.node p).kind = .state false) {v : V} (hc : Call m (.set n v) m') :
    m'.pending p = g1 (g2 v) := by
  obtain ⟨m2, h1, h2⟩ := C27_writes h hb hr hub ⟨.state hp, .state hp⟩ hc
  have hrm := hr.reach ((build_runs h hb).reach h)
  obtain ⟨u, k1, k2⟩ := Graph.state_write (Graph.reach_inv hrm hub) hub rfl hp h1
  simp only [Graph.Op.writes, Option.some.injEq, Prod.mk.injEq, true_and] at k1
  subst k1 k2
  show (m'.g.node p).current = _
  rw [h2 p false hp]
  exact Graph.pushDown_pending _ _ _

/-- C27: what is written can be read back, if the functions are inverse to each other; on transactional states after a
commit. -/
theorem C27_round_trip {m0 m1 m m' m2 : M V S} (h : Reach m0) {t t1 t2 : Ty V} {rw : Bool} {p : Nat}
    {f1 g1 f2 g2 : V → V} {n : Nat} (hb : build m0 t rw [p] (twoMaps t1 t2 f1 g1 f2 g2) = some (m1, n))
    (hr : Runs m1 m) (hub : m.ub = false) (hp : (m.g.node p).kind = .state false)
    (h1 : ∀ x, f1 (g1 x) = x) (h2 : ∀ x, f2 (g2 x) = x) {v : V} (hc : Call m (.set n v) m')
    (hcm : PCall m' (.commit [p]) m2) : m2.get n = v := by
  have hpend := C27_pending h hb hr hub hp hc
  have hrm := hr.reach ((build_runs h hb).reach h)
  obtain ⟨mm, c1, c2, c3⟩ := id hc
  have hrun1 : Runs m m' := .step (.user _ c1) c2.runs
  have hr' := hrun1.reach hrm
  obtain ⟨mc, d1, d2, d3⟩ := id hcm
  have hrun2 : Runs m' m2 := .step (.user _ d1) d2.runs
  have hub' := (Graph.ustep_ub d1).1
  have hi := Graph.reach_inv hrm hub
  have hnv := Graph.valid_alive (Graph.target_valid c1 rfl)
  obtain ⟨b, hm, _⟩ := built h hb hr hub
  have hpa := Graph.live_above hi.wf hnv.2 (hm.sources.2 p (List.mem_singleton.mpr rfl))
  have hk' := ((hrun1.const hi hub' (hi.wf.alive_lt hpa)).1).trans hp
  obtain ⟨e1, e2, e3, e4, e5, e6⟩ := Graph.commit_state hr' hcm (List.mem_singleton.mpr rfl) hk'
  have hlive : m2.Live n := (e6 n).trans ((set_alive hc n).trans hnv.2)
  rw [C27_reads h hb (hr.trans (hrun1.trans hrun2)) e5 hlive fun a ha hu => ?_, e1, hpend, h1, h2]
  obtain ⟨b2, hm2, _⟩ := built h hb (hr.trans (hrun1.trans hrun2)) e5
  rcases hm2.above ha with ⟨q, hq, haq⟩ | hs
  · rw [List.mem_singleton] at hq
    subst hq
    cases haq with
    | refl => rw [hu.2] at e3; cases e3
    | step hx _ => rw [e4] at hx; cases hx
  · exact hs hu.1

/-- C27: on automatic states it can be read back at once. -/
theorem C27_round_trip_auto {m0 m1 m m' : M V S} (h : Reach m0) {t t1 t2 : Ty V} {rw : Bool} {p : Nat}
    {f1 g1 f2 g2 : V → V} {n : Nat} (hb : build m0 t rw [p] (twoMaps t1 t2 f1 g1 f2 g2) = some (m1, n))
    (hr : Runs m1 m) (hub : m.ub = false) (hp : (m.g.node p).kind = .state true)
    (h1 : ∀ x, f1 (g1 x) = x) (h2 : ∀ x, f2 (g2 x) = x) {v : V} (hc : PCall m (.set n v) m') :
    m'.get p = g1 (g2 v) ∧ m'.get n = v := by
  obtain ⟨b, hm, hrm⟩ := built h hb hr hub
  have hi := Graph.reach_inv hrm hub
  obtain ⟨k1, k2, k3⟩ := write_auto hrm hm (root := fun q => q) (gt := fun _ x => x) (st := fun _ _ x => x)
    (by rw [look_steps, List.map_cons, List.map_nil, Tup.tup_one]; rfl)
    (fun q hq => by rw [List.mem_singleton] at hq; subst hq; exact ⟨.state hp, hp⟩) (by simp) hc
  rw [sent_steps, sent_twoMaps] at k1
  obtain ⟨e1, e2⟩ := k1 _ (List.mem_singleton.mpr rfl)
  obtain ⟨mm, c1, c2, c3⟩ := id hc
  have hrun : Runs m m' := .step (.user _ c1) c2.runs
  have hnv := Graph.valid_alive (Graph.target_valid c1 rfl)
  have hpa := Graph.live_above hi.wf hnv.2 (hm.sources.2 p (List.mem_singleton.mpr rfl))
  have hpp := Graph.roots_no_parents hrm hub (hi.wf.alive_lt hpa) (.inl ⟨_, hp⟩)
  have hpp' := (hrun.const hi k2 (hi.wf.alive_lt hpa)).2.1.trans hpp
  refine ⟨e1, ?_⟩
  have hlive : m'.Live n := (Graph.PCall.alive rfl hc n).trans hnv.2
  rw [C27_reads h hb (hr.trans hrun) k2 hlive fun a ha hu => ?_, show m'.get p = _ from e1, h1, h2]
  obtain ⟨b2, hm2, _⟩ := built h hb (hr.trans hrun) k2
  rcases hm2.above ha with ⟨q, hq, haq⟩ | hs
  · rw [List.mem_singleton] at hq
    subst hq
    cases haq with
    | refl => rw [hu.2] at e2; cases e2
    | step hx _ => rw [hpp'] at hx; cases hx
  · exact hs hu.1

/-- Two maps over a state: `x + 1` and then `-x`, with integers. -/
instance exTupInt : Tup Int where
  tup l := l.headD 0
  untup _ v := [v]
  tup_one _ := rfl
  untup_one _ := rfl

def exMaps : List (Part Int) := twoMaps ⟨true, 0⟩ ⟨true, 0⟩ (· + 1) (· - 1) (fun x => -x) (fun x => -x)

def exMapsStart (auto : Bool) : M Int Nat :=
  exec [.newState auto true 7] (Graph.start true (Graph.freshNode .constant [] 0 true 0 0 |> fun x => { x with alive := false }))

theorem exMapsStart_reach (auto : Bool) : Reach (exMapsStart auto) :=
  (exec_runs _ _).reach (.start _ _ ⟨rfl, rfl, rfl, rfl, rfl, rfl, rfl, rfl⟩)

def exMapsBuilt (auto : Bool) : M Int Nat × Nat := (build (exMapsStart auto) ⟨true, 0⟩ true [0] exMaps).getD (exMapsStart auto, 0)

theorem exMaps_eq (auto : Bool) : build (exMapsStart auto) ⟨true, 0⟩ true [0] exMaps =
    some ((exMapsBuilt auto).1, (exMapsBuilt auto).2) := Graph.some_getD (exMapsStart auto, 0) (by cases auto <;> decide +kernel)

example : ∃ m0 m m' m2 : M Int Nat, ∃ n, Reach m0 ∧ build m0 ⟨true, 0⟩ true [0] exMaps = some (m, n) ∧
    m.ub = false ∧ (m.g.node 0).kind = .state false ∧ m.Live n ∧ (∀ a, m.Above a n → ¬ m.Uncommitted a) ∧
    (∀ x : Int, x - 1 + 1 = x) ∧ (∀ x : Int, - -x = x) ∧ Call m (.set n 3) m' ∧ PCall m' (.commit [0]) m2 ∧
    m.get n = -8 ∧ m'.pending 0 = -4 ∧ m2.get n = 3 := by
  have hreach := (build_runs (exMapsStart_reach false) (exMaps_eq false)).reach (exMapsStart_reach false)
  refine ⟨_, _, exec [.set (exMapsBuilt false).2 3] (exMapsBuilt false).1,
    (exec [.set (exMapsBuilt false).2 3] (exMapsBuilt false).1).pcall (.commit [0]), _, exMapsStart_reach false,
    exMaps_eq false, by decide +kernel, isState_state (by decide +kernel), by unfold M.Live; decide +kernel,
    calm_clean hreach (by decide +kernel) (by decide +kernel) (by decide +kernel), by omega, by omega, ?_,
    pcall_call (by decide +kernel) (by decide +kernel), by decide +kernel, by decide +kernel, by decide +kernel⟩
  cases calls_exec (m := (exMapsBuilt false).1) [.set (exMapsBuilt false).2 3] (by decide +kernel) with
  | cons hc hn => cases hn; exact hc

example : ∃ m0 m m' : M Int Nat, ∃ n, Reach m0 ∧ build m0 ⟨true, 0⟩ true [0] exMaps = some (m, n) ∧
    m.ub = false ∧ (m.g.node 0).kind = .state true ∧ PCall m (.set n 3) m' ∧ m'.get 0 = -4 ∧ m'.get n = 3 :=
  ⟨_, _, (exMapsBuilt true).1.pcall (.set (exMapsBuilt true).2 3), _, exMapsStart_reach true, exMaps_eq true,
    by decide +kernel, isState_state (by decide +kernel), pcall_call (by decide +kernel) (by decide +kernel),
    by decide +kernel, by decide +kernel⟩

end Verif.With
