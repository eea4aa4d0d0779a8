import Verif.Graph.SetterRun
import Verif.Graph.Props8
import Verif.Graph.Return

/-
C106: cursors made with `with_setter` from stores and other readers, over whole histories.
-/

set_option linter.unusedSectionVars false

namespace Verif.Graph

variable {V S A : Type} [DecidableEq V]

/-- `set` on the cursor `n` is not running: the setter function has not been called, or what follows it
has been done. -/
def M.NotSetting (m : M V S) (n : Nat) : Prop := ∀ v, Frame.setterRest n v ∉ m.stack

/-- `n` is a cursor made with `with_setter` from the reader `p`. -/
def M.SetterOf (m : M V S) (n p : Nat) (auto : Bool) : Prop :=
  (m.g.node n).kind = .setter auto ∧ (m.g.node n).parents = [p]

/-- From `m` on nothing is set through the cursor.  Then at any later moment the cursor shows what its
source shows, and what was set is forgotten, or both still show what they showed. -/
theorem C106_follows [Inhabited S] {m m1 : M V S} (h : Reach m) {n p : Nat} {auto : Bool}
    (hs : m.SetterOf n p auto) (hn : m.Live n) (hno : m.NotSetting n) (hr : Runs m m1) (hub : m1.ub = false)
    (hl : m1.Live n) {l : List (Ev V)} (hlog : m1.log = m.log ++ l) (hq : ∀ v, .setterCall n v ∉ l) :
    (m1.get n = m1.get p ∧ m1.pending n = m1.get p) ∨
    (m1.get p = m.get p ∧ m1.get n = m.get n ∧ m1.pending n = m.pending n) :=
  (hr.tracks h hub hs.1 hs.2 ((reach_inv h (hr.ub hub)).wf.alive_lt hn) hl hno hlog hq).symm

/-- A cursor through which nothing was ever set shows what its source shows, if the source had nothing
to publish when the cursor was made. -/
theorem C106_unset [Inhabited S] {m m1 m2 : M V S} (h : Reach m) {cmp auto : Bool} {p : Nat}
    (hnew : ustep m (.newSetter cmp p auto) = some m1) (hp : m.pending p = m.get p)
    (hr : Runs m1 m2) (hub : m2.ub = false) (hl : m2.Live m.g.size)
    {l : List (Ev V)} (hlog : m2.log = m.log ++ l) (hq : ∀ v, .setterCall m.g.size v ∉ l) :
    m2.get m.g.size = m2.get p ∧ m2.pending m.g.size = m2.get p := by
  have hub0 := (ustep_ub hnew).1
  have hi := reach_inv h hub0
  have hlog1 : m1.log = m.log := (ustep_log hnew).1
  obtain ⟨fs, hst⟩ := ustep_user hnew
  have hno : m1.NotSetting m.g.size := by
    have : m1.stack = m.stack := by
      unfold ustep at hnew
      rw [if_neg (by rw [hub0]; decide), hst] at hnew
      dsimp only at hnew
      split at hnew <;> cases hnew
      exact hst.symm
    intro v hv
    rw [this] at hv
    have := hi.wf.alive_lt (hi.stack.holds _ hv m.g.size (List.mem_singleton.2 rfl))
    omega
  obtain ⟨hv, hg⟩ : m.g.valid p = true ∧ m1.g = m.g.add
      (freshNode (.setter auto) [p] (m.g.node p).current cmp default default) := by
    unfold ustep at hnew
    rw [if_neg (by rw [hub0]; decide), hst] at hnew
    dsimp only at hnew
    split at hnew
    · rename_i hv; cases hnew; exact ⟨hv, rfl⟩
    · cases hnew
  have hplt := (valid_alive hv).1
  have hnode : m1.g.node m.g.size =
      freshNode (.setter auto) [p] (m.g.node p).current cmp default default := by
    rw [hg]; exact add_new m.g _ (by intro q hq; rw [List.mem_singleton.1 hq]; exact hplt)
  have hpn : (m1.g.node p).last = (m.g.node p).last := by
    rw [hg]
    obtain ⟨k, hk, _⟩ := add_old m.g
      (freshNode (.setter auto) [p] (m.g.node p).current cmp default default) (by omega : p ≠ m.g.size)
    rw [hk]
  have hset : m1.SetterOf m.g.size p auto := by constructor <;> rw [hnode] <;> rfl
  have ha : m1.Live m.g.size := by unfold M.Live; rw [hnode]; rfl
  have hp' : (m.g.node p).current = (m.g.node p).last := hp
  have e1 : m1.get m.g.size = m1.get p := by
    show (m1.g.node m.g.size).last = (m1.g.node p).last
    rw [hnode, hpn]; exact hp'
  have e2 : m1.pending m.g.size = m1.get p := by
    show (m1.g.node m.g.size).current = (m1.g.node p).last
    rw [hnode, hpn]; exact hp'
  rcases C106_follows (.step h (.user _ hnew)) hset ha hno hr hub hl (by rw [hlog1]; exact hlog) hq with
    h1 | ⟨h1, h2, h3⟩
  · exact h1
  · exact ⟨by rw [h1, h2, e1], by rw [h1, h3, e2]⟩

/-- A transactional cursor that shows what its source shows will always do so, whatever is set and
whenever. -/
theorem C106_transactional [Inhabited S] {m m1 : M V S} (h : Reach m) {n p : Nat}
    (hs : m.SetterOf n p false) (hn : m.Live n) (hsame : m.get n = m.get p) (hr : Runs m m1)
    (hub : m1.ub = false) (hl : m1.Live n) : m1.get n = m1.get p :=
  hr.shows h hub hs.1 hs.2 ((reach_inv h (hr.ub hub)).wf.alive_lt hn) hl hsame

/-- A cursor `n` over the reader `k` of a store, which shows `F` of the model.  From state `mc` on nothing
is set through it.  When the reader has changed, the cursor shows `F` of the fold over the actions that
were evaluated before the last publication, whatever was set. -/
theorem C106_store [Inhabited S] {m m1 ma mc mb : M V S} (h : Reach m) {cmp : Bool} {v0 : V}
    (hnew : ustep m (.newState false cmp v0) = some m1) (red : V → A → V)
    {ops ops' ops'' : List (SOp A V S)} (hops : ∀ o ∈ ops ++ (ops' ++ ops''), o.readsOnly m.g.size)
    (ht : Trace m1 (ops.map (SOp.op m.g.size red)) ma) (hclean : ¬ ma.Uncommitted m.g.size) {k : Nat}
    {F : V → V} (hk : ma.Shows m.g.size k F) (ht' : Trace ma (ops'.map (SOp.op m.g.size red)) mc)
    {n : Nat} {auto : Bool} (hs : mc.SetterOf n k auto) (hn : mc.Live n) (hno : mc.NotSetting n)
    (ht'' : Trace mc (ops''.map (SOp.op m.g.size red)) mb) (hub : mb.ub = false) (hl : mb.Live n)
    {l : List (Ev V)} (hlog : mb.log = mc.log ++ l) (hq : ∀ v, .setterCall n v ∉ l)
    (hchg : mb.get k ≠ mc.get k) :
    mb.get n = F ((published m.g.size (ops ++ (ops' ++ ops''))).foldl red v0) := by
  have htt : Trace ma ((ops' ++ ops'').map (SOp.op m.g.size red)) mb := by
    rw [List.map_append]
    exact ht'.append ht''
  have hra : Reach ma := (strace_ind (P := Stored m.g.size red v0)
    (fun _ _ _ hr hp he => hp.lib hr he) (fun _ _ _ _ hr hp ho he => hp.user hr ho he) ht
    (fun o ho => hops o (List.mem_append_left _ ho))
    (pre := []) (.step h (.user _ hnew)) (Stored.new h hnew red)).2
  have hrc := ht'.runs.reach hra
  have hrb := ht''.runs.reach hrc
  have hic := reach_inv hrc (ht''.runs.ub hub)
  have hconst := (ht''.runs.evolves hic hub (hic.wf.alive_lt hn)).1.const
  have hkl : mb.Live k := (reach_inv hrb hub).wf.parentAlive n hl k (by
    rw [hconst.2.1, hs.2]; exact List.mem_cons_self ..)
  have h1 := (C88_readers h hnew red hops ht (htt.runs.ub hub) hclean hk htt hkl).2
  rcases C106_follows hrc hs hn hno ht''.runs hub hl hlog hq with h2 | h2
  · rw [h2.1, h1]
  · exact absurd h2.1 hchg

/-! ### What does not hold -/

/-- A reducer that ignores large values. -/
def exReject (x a : Nat) : Nat := if a > 3 then x else a

/-- A reducer that limits values. -/
def exLimit (_ a : Nat) : Nat := min a 3

def exCursor (auto : Bool) : M Nat Nat :=
  exec [.newState false true 0, .newSetter true 0 auto, .attach 1 0] boot

theorem exCursor_reads {ops : List (SOp Nat Nat Nat)} (h : ops.all (fun o =>
    match o with
    | .other (.set k _) => k != 0
    | .other (.update k _) => k != 0
    | .other (.newCalc _ _ _ put _ _) => put.isNone
    | .other (.newXform _ _ _ _ _ _ _) => false
    | _ => true) = true) : ∀ o ∈ ops, o.readsOnly 0 := by
  intro o ho
  have := List.all_eq_true.1 h o ho
  cases o with
  | evaluate a => trivial
  | other op =>
    cases op <;> simp_all [SOp.readsOnly]

/-- An automatic cursor over a store: 5 is set, and dispatched, and the reducer ignores it.  Everything is
evaluated and published, and the store shows 0, but the cursor shows 5.  So it does when the store
evaluates the action while it is dispatched, as with the manual event loop, and the reducer makes 3 of it:
the store shows 3. -/
theorem C106_rejected_false :
    (∃ m : M Nat Nat, ∃ ops : List (SOp Nat Nat Nat), (∀ o ∈ ops, o.readsOnly 0) ∧
      Trace (exCursor true) (ops.map (SOp.op 0 exReject)) m ∧ m.AtRest ∧ m.SetterOf 1 0 true ∧
      evaluated ops = published 0 ops ∧ m.get 0 = 0 ∧ m.get 1 = 5) ∧
    ∃ m : M Nat Nat, ∃ ops : List (SOp Nat Nat Nat), (∀ o ∈ ops, o.readsOnly 0) ∧
      Trace (exCursor true) (ops.map (SOp.op 0 exLimit)) m ∧ m.AtRest ∧ m.SetterOf 1 0 true ∧
      evaluated ops = published 0 ops ∧ m.get 0 = 3 ∧ m.get 1 = 5 := by
  let ops : List (SOp Nat Nat Nat) := [.other (.set 1 5), .other .ret, .other .ret, .evaluate 5,
    .other (.commit [0])]
  let ops2 : List (SOp Nat Nat Nat) := [.other (.set 1 5), .evaluate 5, .other (.commit [0]),
    .other .ret, .other .ret, .other .ret]
  refine ⟨⟨exec (ops.map (SOp.op 0 exReject)) (exCursor true), ops, exCursor_reads (by decide +kernel),
    exec_trace _ _ (by decide +kernel), ⟨by decide +kernel, by decide +kernel⟩,
    ⟨isSetter_setter (by decide +kernel), by decide +kernel⟩, by decide +kernel, by decide +kernel,
    by decide +kernel⟩,
    ⟨exec (ops2.map (SOp.op 0 exLimit)) (exCursor true), ops2, exCursor_reads (by decide +kernel),
    exec_trace _ _ (by decide +kernel), ⟨by decide +kernel, by decide +kernel⟩,
    ⟨isSetter_setter (by decide +kernel), by decide +kernel⟩, by decide +kernel, by decide +kernel,
    by decide +kernel⟩⟩

/-- A transactional cursor shows 0, as the store does, after 5 was set and ignored.  But `update` with
`x + 1` sets 6, and a reader `x + 100` derived from the cursor shows 105. -/
theorem C106_update_false :
    (∃ m : M Nat Nat, ∃ ops : List (SOp Nat Nat Nat), (∀ o ∈ ops, o.readsOnly 0) ∧
      Trace (exCursor false) (ops.map (SOp.op 0 exReject)) m ∧ m.AtRest ∧ m.SetterOf 1 0 false ∧
      evaluated ops = published 0 ops ∧ m.get 0 = 0 ∧ m.get 1 = 0 ∧
      (exec [.update 1 (· + 1)] m).log = m.log ++ [.setterCall 1 6] ∧
      (exec [.newCalc true [1] (on1 (· + 100)) none false 0] m).get 2 = 105) := by
  let ops : List (SOp Nat Nat Nat) := [.other (.set 1 5), .other .ret, .evaluate 5,
    .other (.commit [0])]
  exact ⟨exec (ops.map (SOp.op 0 exReject)) (exCursor false), ops, exCursor_reads (by decide +kernel),
    exec_trace _ _ (by decide +kernel), ⟨by decide +kernel, by decide +kernel⟩,
    ⟨isSetter_setter (by decide +kernel), by decide +kernel⟩, by decide +kernel, by decide +kernel,
    by decide +kernel, by decide +kernel, by decide +kernel⟩

/-- An automatic cursor over a store that evaluates actions later: 1 and 2 are set; the callback of the
cursor sees 1, 2, 1 and 2. -/
theorem C106_again_false : ∃ m : M Nat Nat, ∃ ops : List (SOp Nat Nat Nat),
    (∀ o ∈ ops, o.readsOnly 0) ∧ Trace (exCursor true) (ops.map (SOp.op 0 exReject)) m ∧ m.AtRest ∧
    m.SetterOf 1 0 true ∧ evaluated ops = [1, 2] ∧ callValues 1 m.log = [1, 2, 1, 2] := by
  let ops : List (SOp Nat Nat Nat) := [.other (.set 1 1), .other .ret, .other .ret, .other (.set 1 2),
    .other .ret, .other .ret, .evaluate 1, .other (.commit [0]), .other .ret, .evaluate 2,
    .other (.commit [0]), .other .ret]
  exact ⟨exec (ops.map (SOp.op 0 exReject)) (exCursor true), ops, exCursor_reads (by decide +kernel),
    exec_trace _ _ (by decide +kernel), ⟨by decide +kernel, by decide +kernel⟩,
    ⟨isSetter_setter (by decide +kernel), by decide +kernel⟩, by decide +kernel, by decide +kernel⟩

/-! ### Examples -/

/-- 2 is set, and dispatched; before that is evaluated the cursor shows it already. -/
def exSet (auto : Bool) : M Nat Nat := exec ([.set 1 2, .ret] ++ if auto then [.ret] else []) (exCursor auto)

/-- Then an action 1 is evaluated that something else has dispatched. -/
def exOps : List (SOp Nat Nat Nat) := [.evaluate 1, .other (.commit [0]), .other .ret]

def exAfter (auto : Bool) : M Nat Nat := exec (exOps.map (SOp.op 0 exReject)) (exSet auto)

/-- `C106_follows` and `C106_transactional`: the cursors follow the store. -/
example : ∀ auto, Reach (exSet auto) ∧ (exSet auto).SetterOf 1 0 auto ∧ (exSet auto).Live 1 ∧
    (exSet auto).NotSetting 1 ∧ Runs (exSet auto) (exAfter auto) ∧ (exAfter auto).ub = false ∧
    (exAfter auto).Live 1 ∧ (exAfter auto).log = (exSet auto).log ++ [.call 0 1 1] ∧
    (exSet auto).get 1 = (if auto then 2 else 0) ∧ (exSet auto).pending 1 = 2 ∧
    (exAfter auto).get 1 = 1 ∧ (exAfter auto).pending 1 = 1 := by
  have hno : ∀ auto, (exSet auto).NotSetting 1 := by
    intro auto v hv
    have : (exSet auto).stack = [.user] := by cases auto <;> decide +kernel
    rw [this] at hv
    cases List.mem_singleton.1 hv
  intro auto
  refine ⟨(exec_runs _ _).reach (exec_reach _), ⟨isSetter_setter ?_, ?_⟩, ?_, hno auto, exec_runs _ _, ?_, ?_, ?_,
    ?_, ?_, ?_, ?_⟩
  all_goals first
    | (unfold M.Live; cases auto <;> decide +kernel)
    | (cases auto <;> decide +kernel)

/-- `C106_store`: a cursor over the store itself. -/
example : ∃ mc mb : M Nat Nat, ∃ ops' ops'' : List (SOp Nat Nat Nat),
    (∀ o ∈ ([] : List (SOp Nat Nat Nat)) ++ (ops' ++ ops''), o.readsOnly boot.g.size) ∧
    ustep boot (.newState false true 0) = some (exec [.newState false true 0] boot) ∧
    ¬ (exec [.newState false true 0] boot).Uncommitted 0 ∧
    Trace (exec [.newState false true 0] boot) (ops'.map (SOp.op 0 exReject)) mc ∧ mc.SetterOf 1 0 true ∧
    Trace mc (ops''.map (SOp.op 0 exReject)) mb ∧ mb.ub = false ∧ mc.stack = [.user] ∧
    mb.log = mc.log ∧ mc.get 1 = 2 ∧ mb.get 0 ≠ mc.get 0 ∧ mb.get 1 = 1 ∧
    published 0 (ops' ++ ops'') = [5, 1] := by
  let ops' : List (SOp Nat Nat Nat) := [.other (.newSetter true 0 true), .other (.set 1 2), .other .ret]
  let ops'' : List (SOp Nat Nat Nat) := [.evaluate 5, .evaluate 1, .other (.commit [0])]
  let m1 := exec [.newState false true 0] boot
  refine ⟨exec (ops'.map (SOp.op 0 exReject)) m1,
    exec (ops''.map (SOp.op 0 exReject)) (exec (ops'.map (SOp.op 0 exReject)) m1), ops', ops'',
    exCursor_reads (by decide +kernel), rfl, ?_, exec_trace _ _ (by decide +kernel),
    ⟨isSetter_setter (by decide +kernel), by decide +kernel⟩, exec_trace _ _ (by decide +kernel),
    by decide +kernel, by decide +kernel, by decide +kernel, by decide +kernel, by decide +kernel,
    by decide +kernel, by decide +kernel⟩
  intro h
  have : ((exec [.newState false true 0] boot).g.node 0).dirty = false := by decide +kernel
  rw [h.2] at this
  cases this

/-- `C106_unset`: nothing is set. -/
example : ∃ m m1 m2 : M Nat Nat, Reach m ∧ ustep m (.newSetter true 0 true) = some m1 ∧
    m.pending 0 = m.get 0 ∧ Runs m1 m2 ∧ m2.ub = false ∧ m2.log = m.log ∧ m2.get 1 = 9 :=
  ⟨exec [.newState true true 4] boot, exec [.newSetter true 0 true] (exec [.newState true true 4] boot),
    exec [.set 0 9] (exec [.newSetter true 0 true] (exec [.newState true true 4] boot)), exec_reach _, rfl,
    by decide +kernel, exec_runs _ _, by decide +kernel, by decide +kernel, by decide +kernel⟩

end Verif.Graph
