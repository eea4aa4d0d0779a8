import Verif.Graph.Evolve

/-
Running concrete programs, for the examples and counterexamples.
-/

set_option linter.unusedSectionVars false

namespace Verif.Graph

variable {V S : Type} [DecidableEq V]

/-- Run library code until it calls user code. -/
def libN : Nat → M V S → M V S
  | 0, m => m
  | k + 1, m => match istep m with
    | some m' => libN k m'
    | none => m

/-- User code makes a sequence of calls (impossible ones are skipped); after each, library code runs
until it calls user code, which goes on with the rest of the sequence. -/
def exec [Inhabited S] (ops : List (Op V S)) (m : M V S) : M V S :=
  ops.foldl (fun m op => match ustep m op with
    | some m' => libN 200 m'
    | none => m) m

theorem libN_run (k : Nat) (m : M V S) : LibRun m (libN k m) := by
  induction k generalizing m with
  | zero => exact .refl m
  | succ k ih =>
    simp only [libN]
    split
    · rename_i m' he; exact .step he (ih m')
    · exact .refl m

theorem exec_runs [Inhabited S] (ops : List (Op V S)) (m : M V S) : Runs m (exec ops m) := by
  induction ops generalizing m with
  | nil => exact .refl m
  | cons op ops ih =>
    refine Runs.trans ?_ (ih _)
    simp only
    split
    · rename_i m' he
      exact .step (.user op he) (libN_run 200 m').runs
    · exact .refl m

/-- Is every call of the sequence possible? -/
def execOK [Inhabited S] : List (Op V S) → M V S → Bool
  | [], _ => true
  | op :: ops, m => (ustep m op).isSome && execOK ops (exec [op] m)

theorem LibRun.trace [Inhabited S] {a b c : M V S} {ops : List (Op V S)} (h : LibRun a b)
    (k : Trace b ops c) : Trace a ops c := by
  induction h with
  | refl => exact k
  | step he _ ih => exact .lib he (ih k)

theorem exec_trace [Inhabited S] (ops : List (Op V S)) (m : M V S) (h : execOK ops m = true) :
    Trace m ops (exec ops m) := by
  induction ops generalizing m with
  | nil => exact .refl m
  | cons op ops ih =>
    simp only [execOK, Bool.and_eq_true] at h
    have h2 := ih _ h.2
    cases he : ustep m op with
    | none => rw [he] at h; cases h.1
    | some m1 =>
      have e : exec [op] m = libN 200 m1 := by simp [exec, he]
      rw [e] at h2
      have e2 : exec (op :: ops) m = exec ops (libN 200 m1) := by simp [exec, he]
      rw [e2]
      exact .user he ((libN_run 200 m1).trace h2)

theorem some_getD {α : Type} {o : Option α} (d : α) (h : o.isSome = true) : o = some (o.getD d) := by
  cases o with
  | none => cases h
  | some x => rfl

/-- A placeholder node for the examples. -/
def exDummy : Node Nat Nat :=
  { freshNode .constant [] 0 true 0 0 with alive := false }

/-- An empty program. -/
def boot : M Nat Nat := start true exDummy

theorem exec_reach (ops : List (Op Nat Nat)) : Reach (exec ops boot) :=
  (exec_runs ops boot).reach (.start true exDummy ⟨rfl, rfl, rfl, rfl, rfl, rfl, rfl, rfl⟩)

/-- No node of the graph has anything to publish. -/
def M.calm (m : M V S) : Bool := (List.range m.g.size).all fun a => !(m.g.node a).dirty

theorem Above.le [Inhabited S] {m : M V S} (w : WF m.g) {a n : Nat} (h : m.Above a n) : a ≤ n := by
  induction h with
  | refl => exact Nat.le_refl _
  | step hp _ ih => have := w.lt _ _ hp; omega

theorem calm_clean [Inhabited S] {m : M V S} (h : Reach m) (hub : m.ub = false)
    (hc : m.calm = true) {n : Nat} (hn : n < m.g.size) : ∀ a, m.Above a n → ¬ m.Uncommitted a := by
  intro a ha hu
  have hlt : a < m.g.size := Nat.lt_of_le_of_lt (Above.le (reach_inv h hub).wf ha) hn
  have := List.all_eq_true.1 hc a (List.mem_range.2 hlt)
  rw [hu.2] at this
  cases this

/-- All nodes have comparable values. -/
def M.comparable (m : M V S) : Bool := (List.range m.g.size).all fun a => (m.g.node a).cmp

theorem comparable_above [Inhabited S] {m : M V S} (h : Reach m) (hub : m.ub = false)
    (hc : m.comparable = true) {n : Nat} (hn : n < m.g.size) :
    ∀ a, m.Above a n → (m.g.node a).cmp = true := by
  intro a ha
  have hlt : a < m.g.size := Nat.lt_of_le_of_lt (Above.le (reach_inv h hub).wf ha) hn
  exact List.all_eq_true.1 hc a (List.mem_range.2 hlt)

/-- The node computes a function whose value for the present values of the sources is `v`. -/
def M.gives (m : M V S) (n : Nat) (v : V) : Bool :=
  match (m.g.node n).kind with
  | .calc view _ _ => decide (view ((m.g.node n).parents.map m.get) = some v)
  | _ => false

theorem gives_view {m : M V S} {n : Nat} {v : V} (h : m.gives n v = true) :
    ∃ view put r, (m.g.node n).kind = .calc view put r ∧
      view ((m.g.node n).parents.map m.get) = some v := by
  unfold M.gives at h
  split at h
  · rename_i view put r hk; exact ⟨view, put, r, hk, of_decide_eq_true h⟩
  · cases h

/-- Run a call during which callbacks only return. -/
def prunN [Inhabited S] (d : Nat) : Nat → M V S → M V S
  | 0, m => m
  | k + 1, m => match pstep d m with
    | some m' => prunN d k m'
    | none => m

theorem prunN_run [Inhabited S] (d k : Nat) (m : M V S) : PRun d m (prunN d k m) := by
  induction k generalizing m with
  | zero => exact .refl m
  | succ k ih =>
    simp only [prunN]
    split
    · rename_i m' he; exact .step he (ih m')
    · exact .refl m

/-- Make a call during which callbacks only return. -/
def M.pcall [Inhabited S] (m : M V S) (op : Op V S) : M V S :=
  prunN m.stack.length 500 ((ustep m op).getD m)

theorem pcall_call [Inhabited S] {m : M V S} {op : Op V S} (h : (ustep m op).isSome = true)
    (hst : (m.pcall op).stack = m.stack) : PCall m op (m.pcall op) :=
  ⟨_, some_getD m h, prunN_run _ _ _, hst⟩

theorem PCall.reach [Inhabited S] {m m' : M V S} {op : Op V S} (h : PCall m op m') (hr : Reach m) :
    Reach m' := by
  obtain ⟨m1, h1, h2, _⟩ := h
  exact h2.runs.reach (.step hr (.user op h1))

/-- Can the node be given to `commit`? -/
def M.isRoot (m : M V S) (n : Nat) : Bool :=
  match (m.g.node n).kind with
  | .state _ => true
  | .sensor _ => true
  | .constant => true
  | _ => false

theorem isRoot_root {m : M V S} {n : Nat} (h : m.isRoot n = true) : m.Root n := by
  unfold M.isRoot at h
  split at h
  · rename_i a hk; exact .inl ⟨a, hk⟩
  · rename_i e hk; exact .inr (.inl ⟨e, hk⟩)
  · rename_i hk; exact .inr (.inr hk)
  · cases h

/-- The next `j` calls of the function of the sensor, if it is one, return its present value. -/
def M.steady (m : M V S) (n j : Nat) : Bool :=
  match (m.g.node n).kind with
  | .sensor ext => (m.g.node n).cmp && (List.range j).all fun i => decide (ext (m.sampled n + i) = m.get n)
  | _ => true

theorem steady_ext {m : M V S} {n j : Nat} (h : m.steady n j = true) (ext : Nat → V)
    (hk : (m.g.node n).kind = .sensor ext) : (m.g.node n).cmp = true ∧
      ∀ i, m.sampled n ≤ i → i < m.sampled n + j → ext i = m.get n := by
  unfold M.steady at h
  rw [hk] at h
  simp only [Bool.and_eq_true, List.all_eq_true, List.mem_range, decide_eq_true_eq] at h
  refine ⟨h.1, fun i h1 h2 => ?_⟩
  have := h.2 (i - m.sampled n) (by omega)
  rwa [show m.sampled n + (i - m.sampled n) = i by omega] at this

/-- A function of one parent. -/
def on1 (f : Nat → Nat) : List Nat → Option Nat
  | [x] => some (f x)
  | _ => none

/-- A function of two parents. -/
def on2 (f : Nat → Nat → Nat) : List Nat → Option Nat
  | [x, y] => some (f x y)
  | _ => none

end Verif.Graph
