import Verif.Graph.Visits
import Verif.Graph.Zoom
import Verif.Graph.Log
import Verif.Graph.Exec

/-!
# What a write costs

Library steps with a record of the calls of `send_up` and of the computations of values.
-/

set_option linter.unusedSectionVars false

namespace Verif.Graph

variable {V S : Type} [DecidableEq V]

/-- What is recorded: `send_up` is called on a cursor; a value is computed. -/
inductive Job where
  | sent (n : Nat)
  | computed (n : Nat)
deriving DecidableEq

/-- `inner_node::refresh`, `nodes.hpp:296-301`, like `refreshN`, with a record of the nodes that
compute their value, in order. -/
def Graph.refreshL : Nat → Graph V S → Nat → Graph V S × List Nat
  | 0, g, _ => (g, [])
  | k + 1, g, n =>
    match (g.node n).kind with
    | .calc _ _ _ | .xform _ _ =>
      let r := (g.order (g.node n).parents).foldl
        (fun r p => ((Graph.refreshL k r.1 p).1, r.2 ++ (Graph.refreshL k r.1 p).2)) (g, [])
      (r.1.recompute n, r.2 ++ [n])
    | _ => (g, [])

/-- What one step of library code does, as far as it is recorded. -/
def M.jobs (m : M V S) : List Job :=
  match m.stack with
  | .up n v :: _ =>
    .sent n ::
      match (m.g.node n).kind with
      | .state true => (Graph.sendDownL m.g.size (m.g.pushDown n v) n).2.map fun e => .computed e.1
      | .calc _ (some _) true => (Graph.refreshL (n + 1) m.g n).2.map .computed
      | _ => []
  | .setterRest n v :: _ =>
    match (m.g.node n).kind with
    | .setter true =>
      (Graph.sendDownL m.g.size
        ((m.g.pushDown n v).mod n fun x => { x with recomputed := true }) n).2.map
        fun e => .computed e.1
    | _ => []
  | _ => []

/-- Library code runs, with a record. -/
inductive LibRunL : M V S → List Job → M V S → Prop where
  | refl (m) : LibRunL m [] m
  | step {m m1 m2 l} : istep m = some m1 → LibRunL m1 l m2 → LibRunL m (m.jobs ++ l) m2

/-- `Call` with a record. -/
def CallL [Inhabited S] (m : M V S) (op : Op V S) (l : List Job) (m' : M V S) : Prop :=
  ∃ m1, ustep m op = some m1 ∧ LibRunL m1 l m' ∧ m'.stack = m.stack

theorem LibRunL.trans {a b c : M V S} {l k : List Job} (h : LibRunL a l b) (h2 : LibRunL b k c) :
    LibRunL a (l ++ k) c := by
  induction h with
  | refl => exact h2
  | step he _ ih => rw [List.append_assoc]; exact .step he (ih h2)

theorem LibRunL.forget {a b : M V S} {l : List Job} (h : LibRunL a l b) : LibRun a b := by
  induction h with
  | refl => exact .refl _
  | step he _ ih => exact .step he ih

theorem LibRun.record {a b : M V S} (h : LibRun a b) : ∃ l, LibRunL a l b := by
  induction h with
  | refl m => exact ⟨[], .refl m⟩
  | step he _ ih => obtain ⟨l, hl⟩ := ih; exact ⟨_, .step he hl⟩

/-- Until user code runs, there is one run. -/
theorem LibRunL.det {a b c : M V S} {l k : List Job} (h : LibRunL a l b) (h2 : LibRunL a k c)
    (hb : istep b = none) (hc : istep c = none) : l = k ∧ b = c := by
  induction h generalizing k with
  | refl m =>
    cases h2 with
    | refl => exact ⟨rfl, rfl⟩
    | step he _ => rw [hb] at he; cases he
  | step he h ih =>
    cases h2 with
    | refl => rw [hc] at he; cases he
    | step he2 h2 =>
      rw [he] at he2
      cases he2
      obtain ⟨rfl, rfl⟩ := ih h2 hb
      exact ⟨rfl, rfl⟩

/-! ### Refreshing -/

theorem refreshL_fst (k : Nat) : ∀ (g : Graph V S) (n : Nat),
    (Graph.refreshL k g n).1 = g.refreshN k n := by
  induction k with
  | zero => intro g n; rfl
  | succ k ih =>
    intro g n
    have hf : ∀ (l : List Nat) (r : Graph V S × List Nat),
        (l.foldl (fun r p => ((Graph.refreshL k r.1 p).1, r.2 ++ (Graph.refreshL k r.1 p).2)) r).1 =
        l.foldl (fun g p => Graph.refreshN k g p) r.1 := by
      intro l
      induction l with
      | nil => intro r; rfl
      | cons c l ihl =>
        intro r
        rw [List.foldl_cons, List.foldl_cons, ihl]
        congr 1
        exact ih _ _
    unfold Graph.refreshL Graph.refreshN
    cases (g.node n).kind with
    | «calc» => dsimp only; rw [hf]
    | xform => dsimp only; rw [hf]
    | _ => rfl

theorem refreshL_same (k : Nat) (g : Graph V S) (n : Nat) : Same g (Graph.refreshL k g n).1 := by
  rw [refreshL_fst]; exact (refreshN_recomputes k g n).same

theorem order_perm {α : Type} (g : Graph V S) (l : List α) : (g.order l).Perm l := by
  unfold Graph.order
  split
  · exact .refl _
  · exact List.reverse_perm l

/-- A cursor of a transactional state, or one derived from such cursors only by lenses and by merging;
writing produces a value for every source (the compiler checks that). -/
inductive Lensed (g : Graph V S) : Nat → Prop where
  | state {n : Nat} : (g.node n).kind = .state false → (g.node n).parents = [] → Lensed g n
  | comp {n : Nat} {view put r} : (g.node n).kind = .calc view (some put) r →
      (∀ old v, old.length = (g.node n).parents.length →
        (put old v).length = (g.node n).parents.length) →
      (∀ p ∈ (g.node n).parents, Lensed g p) → Lensed g n

theorem Same.lensed {g g' : Graph V S} (hs : Same g g') {n : Nat} (h : Lensed g n) : Lensed g' n := by
  induction h with
  | state hk hp => exact .state (by rw [hs.kind]; exact hk) (by rw [hs.parents]; exact hp)
  | comp hk hl _ ih =>
    refine .comp (by rw [hs.kind]; exact hk) (by rw [hs.parents]; exact hl) ?_
    rw [hs.parents]
    exact ih

theorem Same.waysN {g g' : Graph V S} (hs : Same g g') (t k n : Nat) :
    g'.waysN t k n = g.waysN t k n := by
  induction k generalizing n with
  | zero => rfl
  | succ k ih =>
    rw [Graph.waysN, Graph.waysN, hs.parents]
    congr 2
    exact List.map_congr_left fun p _ => ih p

/-- Refreshing computes a value once for every path. -/
theorem refreshL_count {t : Nat} (k : Nat) : ∀ (g : Graph V S) (n : Nat), Lensed g n →
    (∀ a, (g.node t).kind ≠ .state a) → (Graph.refreshL k g n).2.count t = g.waysN t k n := by
  induction k with
  | zero => intro g n _ _; rfl
  | succ k ih =>
    intro g n h ht
    cases h with
    | state hk hp =>
      have hne : n ≠ t := by rintro rfl; exact ht _ hk
      simp only [Graph.refreshL, hk, Graph.waysN, hp, if_neg hne]
      rfl
    | @comp _ view put r hk _ hps =>
      have hf : ∀ (l : List Nat) (q : Graph V S × List Nat), Same g q.1 → (∀ p ∈ l, Lensed g p) →
          (l.foldl (fun r p => ((Graph.refreshL k r.1 p).1, r.2 ++ (Graph.refreshL k r.1 p).2))
            q).2.count t = q.2.count t + (l.map (g.waysN t k)).sum := by
        intro l
        induction l with
        | nil => intro q _ _; rfl
        | cons p l ihl =>
          intro q hs hl
          rw [List.foldl_cons, ihl ((Graph.refreshL k q.1 p).1, q.2 ++ (Graph.refreshL k q.1 p).2)
            (hs.trans (refreshL_same k q.1 p)) fun p hp => hl p (List.mem_cons_of_mem _ hp)]
          dsimp only
          rw [List.count_append, ih q.1 p (hs.lensed (hl p List.mem_cons_self))
            (by rw [hs.kind]; exact ht), hs.waysN, List.map_cons, List.sum_cons]
          omega
      have hpm := order_perm g (g.node n).parents
      simp only [Graph.refreshL, hk, Graph.waysN]
      rw [List.count_append, hf _ (g, []) (Same.refl g) fun p hp => hps p (hpm.mem_iff.1 hp),
        (hpm.map (g.waysN t k)).sum_nat, List.count_singleton, List.count_nil]
      simp only [beq_iff_eq]
      omega

/-! ### Paths -/

theorem waysN_enough {g : Graph V S} (w : WF g) (t : Nat) : ∀ (k n : Nat), n < k →
    g.waysN t k n = g.ways t n := by
  have key : ∀ k j n, n < k → n < j → g.waysN t k n = g.waysN t j n := by
    intro k
    induction k with
    | zero => intro j n h; exact absurd h (Nat.not_lt_zero _)
    | succ k ih =>
      intro j n hk hj
      obtain ⟨j, rfl⟩ : ∃ j', j = j' + 1 := ⟨j - 1, by omega⟩
      rw [Graph.waysN, Graph.waysN]
      congr 2
      refine List.map_congr_left fun p hp => ih j p ?_ ?_ <;> have := w.lt n p hp <;> omega
  exact fun k n h => key k (n + 1) n h (Nat.lt_succ_self n)

/-- Paths to `n` other than the empty one end with a step from one of its sources. -/
theorem ways_rec {g : Graph V S} (w : WF g) (t n : Nat) :
    g.ways t n = (if n = t then 1 else 0) + ((g.node n).parents.map (g.ways t)).sum := by
  unfold Graph.ways
  rw [Graph.waysN]
  congr 2
  exact List.map_congr_left fun p hp => waysN_enough w t n p (w.lt n p hp)

/-- `send_up` of this node starts with `refresh()`. -/
def Graph.refreshes (g : Graph V S) (n : Nat) : Bool :=
  match (g.node n).kind with
  | .calc _ (some _) true => true
  | _ => false

/-- How often a write to `n` makes `t` compute its value, before anything is propagated: for every
path from a cursor zoomed by a lens to `n` (one call of `send_up`), once for every path from `t` to
that cursor. -/
def Graph.costN (g : Graph V S) (t : Nat) : Nat → Nat → Nat
  | 0, _ => 0
  | k + 1, n =>
    (if g.refreshes n then g.ways t n else 0) + ((g.node n).parents.map (g.costN t k)).sum

/-- `costN` with a bound that is always enough. -/
def Graph.cost (g : Graph V S) (t n : Nat) : Nat := g.costN t (n + 1) n

theorem Same.ways {g g' : Graph V S} (hs : Same g g') (t n : Nat) : g'.ways t n = g.ways t n :=
  hs.waysN t _ n

theorem Same.refreshes {g g' : Graph V S} (hs : Same g g') (n : Nat) :
    g'.refreshes n = g.refreshes n := by
  unfold Graph.refreshes; rw [hs.kind]

theorem Same.cost {g g' : Graph V S} (hs : Same g g') (t n : Nat) : g'.cost t n = g.cost t n := by
  have : ∀ k n, g'.costN t k n = g.costN t k n := by
    intro k
    induction k with
    | zero => intro n; rfl
    | succ k ih =>
      intro n
      rw [Graph.costN, Graph.costN, hs.parents, hs.refreshes, hs.ways]
      congr 2
      exact List.map_congr_left fun p _ => ih p
  exact this _ n

theorem cost_rec {g : Graph V S} (w : WF g) (t n : Nat) :
    g.cost t n = (if g.refreshes n then g.ways t n else 0) +
      ((g.node n).parents.map (g.cost t)).sum := by
  have key : ∀ k j n, n < k → n < j → g.costN t k n = g.costN t j n := by
    intro k
    induction k with
    | zero => intro j n h; exact absurd h (Nat.not_lt_zero _)
    | succ k ih =>
      intro j n hk hj
      obtain ⟨j, rfl⟩ : ∃ j', j = j' + 1 := ⟨j - 1, by omega⟩
      rw [Graph.costN, Graph.costN]
      congr 2
      refine List.map_congr_left fun p hp => ih j p ?_ ?_ <;> have := w.lt n p hp <;> omega
  unfold Graph.cost
  rw [Graph.costN]
  congr 2
  exact List.map_congr_left fun p hp => key _ _ p (w.lt n p hp) (Nat.lt_succ_self p)

/-! ### Writing -/

theorem count_computed (l : List Nat) (t : Nat) :
    (l.map Job.computed).count (.computed t) = l.count t := by
  induction l with
  | nil => rfl
  | cons a l ih =>
    rw [List.map_cons, List.count_cons, List.count_cons, ih]
    congr 1
    by_cases h : a = t
    · subst h; simp
    · have : Job.computed a ≠ Job.computed t := fun e => h (Job.computed.inj e)
      simp [h, this]

theorem count_sent_computed (l : List Nat) (t : Nat) :
    (l.map Job.computed).count (.sent t) = 0 := by
  rw [List.count_eq_zero]
  intro h
  obtain ⟨a, _, ha⟩ := List.mem_map.1 h
  cases ha

/-- The record of a write to `n`. -/
def Costs (g : Graph V S) (f : Nat → Nat) (c : Nat → Nat) (l : List Job) : Prop :=
  (∀ t, l.count (.sent t) = f t) ∧
  ∀ t, (∀ a, (g.node t).kind ≠ .state a) → l.count (.computed t) = c t

theorem up_costs (n : Nat) : ∀ (m : M V S) (v : V) (st : List (Frame V)), WF m.g → Lensed m.g n →
    m.ub = false → m.stack = .up n v :: st →
    ∃ l m', LibRunL m l m' ∧ m'.stack = st ∧ m'.ub = false ∧ Same m.g m'.g ∧
      Costs m.g (fun t => m.g.ways t n) (fun t => m.g.cost t n) l := by
  induction n using Nat.strongRecOn with
  | _ n ih =>
    intro m v st w h hub hst
    cases h with
    | state hk hp =>
      refine ⟨m.jobs ++ [], { m with g := m.g.pushDown n v, stack := st }, .step ?_ (.refl _), rfl,
        hub, (pushDown_touch m.g n v).same, ?_⟩
      · unfold istep
        rw [if_neg (by rw [hub]; exact Bool.false_ne_true), hst]
        simp [hk]
      · have hj : m.jobs = [.sent n] := by
          unfold M.jobs
          simp only [hst, hk]
        rw [hj]
        constructor
        · intro t
          dsimp only
          rw [ways_rec w, hp]
          by_cases e : n = t
          · subst e; simp
          · have : Job.sent n ≠ Job.sent t := fun e' => e (Job.sent.inj e')
            simp [e, this]
        · intro t _
          dsimp only
          rw [cost_rec w, hp]
          have hr : m.g.refreshes n = false := by unfold Graph.refreshes; rw [hk]
          simp [hr]
    | @comp _ view put r hk hlen hps =>
      -- the calls for the sources
      have hups : ∀ (x : List (Nat × V)) (m1 : M V S), Same m.g m1.g → m1.ub = false →
          (∀ e ∈ x, e.1 ∈ (m.g.node n).parents) → m1.stack = .ups x :: st →
          ∃ l m', LibRunL m1 l m' ∧ m'.stack = st ∧ m'.ub = false ∧ Same m.g m'.g ∧
            Costs m.g (fun t => (x.map fun e => m.g.ways t e.1).sum)
              (fun t => (x.map fun e => m.g.cost t e.1).sum) l := by
        intro x
        induction x with
        | nil =>
          intro m1 hs hub1 _ hst1
          refine ⟨m1.jobs ++ [], { m1 with stack := st }, .step ?_ (.refl _), rfl, hub1, hs, ?_⟩
          · unfold istep
            rw [if_neg (by rw [hub1]; exact Bool.false_ne_true), hst1]
          · have hj : m1.jobs = [] := by unfold M.jobs; simp only [hst1]
            rw [hj]
            exact ⟨fun _ => rfl, fun _ _ => rfl⟩
        | cons e x ihx =>
          intro m1 hs hub1 hx hst1
          obtain ⟨p, u⟩ := e
          have hpm : p ∈ (m.g.node n).parents := hx _ List.mem_cons_self
          have e1 : istep m1 = some { m1 with stack := .up p u :: .ups x :: st } := by
            unfold istep
            rw [if_neg (by rw [hub1]; exact Bool.false_ne_true), hst1]
          have hj : m1.jobs = [] := by unfold M.jobs; simp only [hst1]
          obtain ⟨l1, m2, r1, s1, u1, q1, c1⟩ := ih p (w.lt n p hpm)
            { m1 with stack := .up p u :: .ups x :: st } u (.ups x :: st) (hs.wf w)
            (hs.lensed (hps p hpm)) hub1 rfl
          obtain ⟨l2, m3, r2, s2, u2, q2, c2⟩ := ihx m2 (hs.trans q1) u1
            (fun e he => hx e (List.mem_cons_of_mem _ he)) s1
          refine ⟨m1.jobs ++ (l1 ++ l2), m3, .step e1 (r1.trans r2), s2, u2, q2, ?_⟩
          rw [hj, List.nil_append]
          constructor
          · intro t
            have := c1.1 t
            dsimp only at this
            rw [List.count_append, this, c2.1 t, hs.ways]
            rfl
          · intro t ht
            have := c1.2 t (by dsimp only; rw [hs.kind]; exact ht)
            dsimp only at this
            rw [List.count_append, this, c2.2 t ht, hs.cost]
            rfl
      have hlist : ∀ (g : Graph V S) (vs : List V), Same m.g g →
          vs.length = (m.g.node n).parents.length →
          (∀ e ∈ g.order ((g.node n).parents.zip vs), e.1 ∈ (m.g.node n).parents) ∧
          ∀ f : Nat → Nat, ((g.order ((g.node n).parents.zip vs)).map fun e => f e.1).sum =
            ((m.g.node n).parents.map f).sum := by
        intro g vs hs hv
        have hpm := order_perm g ((g.node n).parents.zip vs)
        rw [hs.parents] at hpm ⊢
        refine ⟨fun e he => ?_, fun f => ?_⟩
        · exact (List.of_mem_zip (hpm.mem_iff.1 he)).1
        · rw [(hpm.map _).sum_nat]
          have : (((m.g.node n).parents.zip vs).map fun e => f e.1) =
              (((m.g.node n).parents.zip vs).map Prod.fst).map f := by
            rw [List.map_map]; rfl
          rw [this, List.map_fst_zip (by omega)]
      cases r with
      | false =>
        obtain ⟨hmem, hsum⟩ := hlist m.g (put (m.g.currents (m.g.node n).parents) v) (Same.refl _)
          (hlen _ v (by unfold Graph.currents; rw [List.length_map]))
        have e1 : istep m = some { m with
            stack := .ups (m.g.order ((m.g.node n).parents.zip
              (put (m.g.currents (m.g.node n).parents) v))) :: st } := by
          unfold istep
          rw [if_neg (by rw [hub]; exact Bool.false_ne_true), hst]
          simp [hk]
        have hj : m.jobs = [.sent n] := by
          unfold M.jobs
          simp only [hst, hk]
        obtain ⟨l, m', r1, s1, u1, q1, c1⟩ := hups _ { m with
            stack := .ups (m.g.order ((m.g.node n).parents.zip
              (put (m.g.currents (m.g.node n).parents) v))) :: st } (Same.refl _) hub hmem rfl
        refine ⟨m.jobs ++ l, m', .step e1 r1, s1, u1, q1, ?_⟩
        rw [hj]
        constructor
        · intro t
          dsimp only
          rw [List.count_append, (c1.1 t).trans (hsum _), ways_rec w t n]
          by_cases e : n = t
          · subst e; simp
          · have : Job.sent n ≠ Job.sent t := fun e' => e (Job.sent.inj e')
            simp [e, this]
        · intro t ht
          dsimp only
          have hr : m.g.refreshes n = false := by unfold Graph.refreshes; rw [hk]
          rw [List.count_append, (c1.2 t ht).trans (hsum _), cost_rec w t n, hr]
          simp
      | true =>
        have hs0 : Same m.g (m.g.refresh n) := (refresh_recomputes m.g n).same
        obtain ⟨hmem, hsum⟩ := hlist (m.g.refresh n)
          (put ((m.g.refresh n).currents ((m.g.refresh n).node n).parents) v) hs0
          (hlen _ v (by unfold Graph.currents; rw [List.length_map, hs0.parents]))
        have e1 : istep m = some { m with
            g := m.g.refresh n
            stack := .ups ((m.g.refresh n).order (((m.g.refresh n).node n).parents.zip
              (put ((m.g.refresh n).currents ((m.g.refresh n).node n).parents) v))) :: st } := by
          unfold istep
          rw [if_neg (by rw [hub]; exact Bool.false_ne_true), hst]
          simp [hk]
        have hj : m.jobs = .sent n :: (Graph.refreshL (n + 1) m.g n).2.map .computed := by
          unfold M.jobs
          simp only [hst, hk]
        obtain ⟨l, m', r1, s1, u1, q1, c1⟩ := hups _ { m with
            g := m.g.refresh n
            stack := .ups ((m.g.refresh n).order (((m.g.refresh n).node n).parents.zip
              (put ((m.g.refresh n).currents ((m.g.refresh n).node n).parents) v))) :: st }
          hs0 hub hmem rfl
        refine ⟨m.jobs ++ l, m', .step e1 r1, s1, u1, q1, ?_⟩
        rw [hj]
        constructor
        · intro t
          dsimp only
          rw [List.count_append, (c1.1 t).trans (hsum _), ways_rec w t n, List.count_cons,
            count_sent_computed]
          by_cases e : n = t
          · subst e; simp
          · have : Job.sent n ≠ Job.sent t := fun e' => e (Job.sent.inj e')
            simp [e, this]
        · intro t ht
          dsimp only
          have hr : m.g.refreshes n = true := by unfold Graph.refreshes; rw [hk]
          rw [List.count_append, (c1.2 t ht).trans (hsum _), cost_rec w t n, hr, List.count_cons,
            count_computed, refreshL_count (n + 1) m.g n (.comp hk hlen hps) ht]
          simp [Graph.ways]

end Verif.Graph
