import Verif.Graph.Log
import Verif.Graph.Exec

/-
Lemmas about calls of `set`, `update` and `commit`.
-/

set_option linter.unusedSectionVars false

namespace Verif.Graph

variable {V S : Type} [DecidableEq V]

/-- The value that a write sends. -/
def Op.writes (m : M V S) : Op V S → Option (Nat × V)
  | .set n v => some (n, v)
  | .update n f => some (n, f (m.pending n))
  | _ => none

theorem write_step [Inhabited S] {m : M V S} {st : List (Frame V)} (hst : m.stack = .user :: st)
    (hub : m.ub = false) {op : Op V S} {n : Nat} {v : V} (hop : op.writes m = some (n, v))
    (hv : m.g.valid n = true) (hw : m.g.canWrite n = true) :
    ustep m op = some { m with stack := .up n v :: m.stack } := by
  unfold ustep
  rw [if_neg (by simp [hub]), hst]
  cases op with
  | set k u =>
    simp only [Op.writes, Option.some.injEq, Prod.mk.injEq] at hop
    obtain ⟨rfl, rfl⟩ := hop
    simp [hv, hw]
  | update k f =>
    simp only [Op.writes, Option.some.injEq, Prod.mk.injEq] at hop
    obtain ⟨rfl, rfl⟩ := hop
    simp [hv, hw, M.pending]
  | newState | newSensor | newConstant | newCalc | newXform | newSetter | commit | attach | detach
  | kill | ret => cases hop

theorem lazy_call [Inhabited S] {m : M V S} (h : Inv m) (hub : m.ub = false)
    {st : List (Frame V)} (hst : m.stack = .user :: st) {op : Op V S} {n : Nat} {v : V}
    (hop : op.writes m = some (n, v)) (hv : m.g.valid n = true) (hw : m.g.canWrite n = true)
    (hl : Lazy m.g n) : Call m op { m with g := m.g.sendUpN (n + 1) n v } := by
  refine ⟨_, write_step hst hub hop hv hw, ?_, rfl⟩
  exact up_run (n + 1) { m with stack := .up n v :: m.stack } n v m.stack (by omega) h.wf hub hl rfl

theorem state_call [Inhabited S] {m : M V S} (h : Inv m) (hub : m.ub = false)
    {st : List (Frame V)} (hst : m.stack = .user :: st) {n : Nat} (v : V)
    (hv : m.g.valid n = true) (hk : (m.g.node n).kind = .state false) :
    Call m (.set n v) { m with g := m.g.pushDown n v } := by
  have := lazy_call (op := .set n v) h hub hst rfl hv (by unfold Graph.canWrite; rw [hk])
    (.state hk)
  simpa [Graph.sendUpN, hk] using this

theorem pushDown_pending (g : Graph V S) (n : Nat) (v : V) :
    ((g.pushDown n v).node n).current = v := by
  rw [pushDown_node]
  unfold Node.push
  split
  · rfl
  · rename_i h
    exact (Classical.byContradiction fun hne => h (.inr fun e => hne e.symm))

theorem commit_call [Inhabited S] {m : M V S} (h : Inv m) (hub : m.ub = false)
    {st : List (Frame V)} (hst : m.stack = .user :: st) {rs : List Nat}
    (hr : ∀ r ∈ rs, m.g.valid r = true ∧ (m.g.node r).parents = []) :
    ∃ m', PCall m (.commit rs) m' ∧ m'.ub = false ∧
      Still (rs.foldl (fun g r => g.sendDown r) m.g) m'.g := by
  have he : ustep m (.commit rs) = some { m with
      g := rs.foldl (fun g r => g.sendDown r) m.g, stack := .roots rs :: m.stack } := by
    unfold ustep
    rw [if_neg (by simp [hub]), hst]
    simp only
    rw [if_pos]
    rw [Bool.and_eq_true]
    refine ⟨List.all_eq_true.2 fun r hr' => (hr r hr').1, List.all_eq_true.2 fun r hr' => ?_⟩
    rw [(hr r hr').2]; rfl
  have hi := ustep_inv h _ he
  obtain ⟨m', h1, h2, h3, h4⟩ := roots_prun (d := m.stack.length) rs _ m.stack hi hub rfl
    (Nat.le_refl _)
  exact ⟨m', ⟨_, he, h1, h2⟩, h3, h4⟩

/-- Calls of user code with callbacks that only return are always possible for automatic states. -/
theorem auto_call [Inhabited S] {m : M V S} (h : Inv m) (hub : m.ub = false)
    {st : List (Frame V)} (hst : m.stack = .user :: st) {n : Nat} (v : V)
    (hv : m.g.valid n = true) (hk : (m.g.node n).kind = .state true) :
    ∃ m', PCall m (.set n v) m' ∧ m'.ub = false ∧ Still ((m.g.pushDown n v).sendDown n) m'.g := by
  have he := write_step (op := .set n v) hst hub rfl hv (by unfold Graph.canWrite; rw [hk])
  have hi := ustep_inv h _ he
  have he2 : istep { m with stack := .up n v :: m.stack } =
      some { m with g := (m.g.pushDown n v).sendDown n, stack := .notify n :: m.stack } := by
    unfold istep
    simp [hub, hk]
  have hi2 := istep_inv hi he2 hub
  have hsz : n < ((m.g.pushDown n v).sendDown n).size := by
    rw [(sendDown_moves _ _).same.size, (pushDown_touch _ _ _).same.size]
    exact (valid_alive hv).1
  obtain ⟨m', h1, h2, h3, h4⟩ := notify_prun (d := m.stack.length) _ _ n m.stack (Nat.le_refl _) hsz
    hi2 hub rfl (Nat.le_refl _)
  exact ⟨m', ⟨_, he, .step (pstep_lib (st := m.stack) rfl (by simp) (Nat.le_refl _) he2) h1, h2⟩,
    h3, h4⟩

/-- The pending values after a sequence of writes to transactional states. -/
theorem writes_calls [Inhabited S] (l : List (Nat × V)) : ∀ {m : M V S}, Inv m → m.ub = false →
    (∃ st, m.stack = .user :: st) →
    (∀ x ∈ l, m.g.valid x.1 = true ∧ (m.g.node x.1).kind = .state false) →
    ∃ m', Calls m (l.map fun x => .set x.1 x.2) m' ∧ Inv m' ∧ m'.ub = false ∧
      m'.stack = m.stack ∧ m'.log = m.log ∧ Hidden m.g m'.g ∧
      ∀ r, m'.pending r = (lastWrite r l).getD (m.pending r) := by
  induction l with
  | nil =>
    intro m h hub hst _
    exact ⟨m, .nil m, h, hub, rfl, rfl, .refl _, fun r => rfl⟩
  | cons x l ih =>
    intro m h hub ⟨st, hst⟩ hl
    obtain ⟨hv, hk⟩ := hl x (List.mem_cons_self ..)
    have hc := state_call h hub hst x.2 hv hk
    have hs := (pushDown_touch m.g x.1 x.2)
    have h1 : Inv { m with g := m.g.pushDown x.1 x.2 } := hc.runs.inv h hub
    obtain ⟨m', k1, k2, k3, k4, k5, k6, k7⟩ := ih (m := { m with g := m.g.pushDown x.1 x.2 }) h1 hub
      ⟨st, hst⟩ (fun y hy => by
        obtain ⟨a, b⟩ := hl y (List.mem_cons_of_mem _ hy)
        refine ⟨?_, by rw [← b]; exact hs.same.kind _⟩
        unfold Graph.valid
        simp only [hs.same.size, hs.same.alive]
        exact a)
    refine ⟨m', .cons hc k1, k2, k3, k4, k5, hs.hidden.trans k6, fun r => ?_⟩
    rw [k7 r]
    obtain ⟨x1, x2⟩ := x
    simp only [lastWrite]
    cases hlw : lastWrite r l with
    | some v => simp
    | none =>
      simp only [Option.none_or, Option.getD_none]
      by_cases hr : x1 = r
      · subst hr
        simp only [M.pending, if_true, Option.getD_some]
        exact pushDown_pending _ _ _
      · rw [if_neg hr]
        simp only [M.pending, Option.getD_none]
        rw [hs.other r (fun e => hr e.symm)]

theorem Calls.det [Inhabited S] {m a b : M V S} {ops : List (Op V S)} (h : Calls m ops a)
    (k : Calls m ops b) : a = b := by
  induction h with
  | nil => cases k; rfl
  | cons hc _ ih =>
    cases k with
    | cons kc k => cases hc.det kc; exact ih k

end Verif.Graph
