import Verif.Graph.Tower

/-!
# How often the functions of readers are called (C89)

The record of `commitL` and `sendDownL` has one entry for every time that a node computes its
value; for a reader, this is one call of its function.
-/

namespace Verif.Graph

variable {V S : Type} [DecidableEq V]

/-- C89: keeping a record changes nothing: what `commit` and `set` do to the graph is what the
functions with a record do. -/
theorem C89_record [Inhabited S] {m m' : M V S} :
    (∀ rs, ustep m (.commit rs) = some m' → m'.g = (Graph.commitL rs m.g).1) ∧
    (∀ n v st, m.stack = .up n v :: st → (m.g.node n).kind = .state true → istep m = some m' →
      m'.g = (Graph.sendDownL m.g.size (m.g.pushDown n v) n).1) := by
  constructor
  · intro rs he
    rw [commitL_fst]
    unfold ustep at he
    split at he
    · cases he
    · split at he
      · simp only at he
        split at he
        · cases he; rfl
        · cases he
      · cases he
  · intro n v st hst hk he
    rw [sendDownL_fst]
    unfold istep at he
    split at he
    · cases he
    · rw [hst] at he
      simp only [hk] at he
      cases he
      unfold Graph.sendDown
      rw [(pushDown_touch m.g n v).same.size]

/-- C89: in a commit, a value is computed at most once for every path that leads from a committed
state to it. -/
theorem C89_paths [Inhabited S] {m : M V S} (hr : Reach m) (hub : m.ub = false) (rs : List Nat)
    (t : Nat) : visits t (Graph.commitL rs m.g).2 ≤ (rs.map fun r => m.g.ways r t).sum :=
  commitL_ways (reach_inv hr hub).wf (reach_links hr hub) t rs

/-- C89: the same for a write to an automatic state. -/
theorem C89_paths_set [Inhabited S] {m : M V S} (hr : Reach m) (hub : m.ub = false) (n : Nat)
    (v : V) (t : Nat) :
    visits t (Graph.sendDownL m.g.size (m.g.pushDown n v) n).2 ≤ m.g.ways n t := by
  have hs := (pushDown_touch m.g n v).same
  have hl : Links (m.g.pushDown n v) :=
    links_of_sublist (reach_links hr hub) (fun k => by rw [hs.children]; exact List.Sublist.refl _)
      hs.parents
  refine Nat.le_trans (sendDownL_ways (hs.wf (reach_inv hr hub).wf) hl _ n t) (Nat.le_of_eq ?_)
  unfold Graph.ways
  generalize t + 1 = k
  induction k generalizing t with
  | zero => rfl
  | succ k ih =>
    rw [Graph.waysN, Graph.waysN, hs.parents]
    congr 2
    exact List.map_congr_left fun p _ => ih p

/-- C89: there is one path to a reader that is derived by one source at a time, and none from
other roots. -/
theorem line_ways [Inhabited S] {m : M V S} (hr : Reach m) (hub : m.ub = false) {t r : Nat}
    (ht : t < m.g.size) (h : Line m.g t r) (r' : Nat) (hr' : (m.g.node r').parents = []) (k : Nat) :
    m.g.waysN r' k t ≤ if r' = r then 1 else 0 := by
  have w := (reach_inv hr hub).wf
  induction h generalizing k with
  | @state r a hk =>
    match k with
    | 0 => exact Nat.zero_le _
    | k + 1 =>
      rw [Graph.waysN, roots_no_parents hr hub ht (.inl ⟨a, hk⟩)]
      by_cases e : r = r'
      · simp [e]
      · simp [e]
  | @comp n p r view put refr hk hp hl ih =>
    match k with
    | 0 => exact Nat.zero_le _
    | k + 1 =>
      have hne : n ≠ r' := by
        rintro rfl
        rw [hp] at hr'
        cases hr'
      rw [Graph.waysN, hp, if_neg hne]
      have h2 := ih (Nat.lt_trans (w.lt n p (by rw [hp]; exact List.mem_singleton.2 rfl)) ht) k
      simp only [List.map_cons, List.map_nil, List.sum_cons, List.sum_nil, Nat.zero_add,
        Nat.add_zero]
      exact h2

/-- C89: a reader that is derived from a state by a single path computes its value at most once in
a commit that lists every state once. -/
theorem C89_once [Inhabited S] {m m' : M V S} (hr : Reach m) {t r : Nat} (ht : t < m.g.size)
    (h : Line m.g t r) {rs : List Nat} (hd : rs.Nodup) (he : ustep m (.commit rs) = some m') :
    visits t (Graph.commitL rs m.g).2 ≤ 1 := by
  have hub := (ustep_ub he).1
  have hroot : ∀ r' ∈ rs, (m.g.node r').parents = [] := by
    unfold ustep at he
    split at he
    · cases he
    · split at he
      · simp only at he
        split at he
        · rename_i hc
          rw [Bool.and_eq_true] at hc
          intro r' hr'
          exact List.isEmpty_iff.1 (List.all_eq_true.1 hc.2 r' hr')
        · cases he
      · cases he
  refine Nat.le_trans (C89_paths hr hub rs t) ?_
  refine Nat.le_trans (sum_map_le _ _ (fun r' => if r' = r then 1 else 0)
    fun r' hr' => line_ways hr hub ht h r' (hroot r' hr') _) ?_
  clear he hroot
  induction rs with
  | nil => exact Nat.zero_le _
  | cons a rs ih =>
    rw [List.nodup_cons] at hd
    rw [List.map_cons, List.sum_cons]
    by_cases e : a = r
    · subst e
      have h0 : (rs.map fun r' => if r' = a then 1 else 0).sum = 0 := by
        have := hd.1
        clear hd ih
        induction rs with
        | nil => rfl
        | cons b rs ih =>
          rw [List.map_cons, List.sum_cons, ih (fun h => this (List.mem_cons_of_mem _ h)),
            if_neg (fun e : b = a => this (by rw [e]; exact List.mem_cons_self))]
      rw [h0, if_pos rfl]
      exact Nat.le_refl _
    · rw [if_neg e, Nat.zero_add]
      exact ih hd.2

/-- C89: the same for a write to an automatic state. -/
theorem C89_once_set [Inhabited S] {m : M V S} (hr : Reach m) (hub : m.ub = false) {t r : Nat}
    (ht : t < m.g.size) (h : Line m.g t r) (n : Nat) (hn : (m.g.node n).parents = []) (v : V) :
    visits t (Graph.sendDownL m.g.size (m.g.pushDown n v) n).2 ≤ if n = r then 1 else 0 :=
  Nat.le_trans (C89_paths_set hr hub n v t) (line_ways hr hub ht h n hn _)

/-- C89: a value other than the committed states is computed only after one of its direct sources
has been computed and published, in the same commit. -/
theorem C89_needed [Inhabited S] {m : M V S} (hr : Reach m) (hub : m.ub = false) {rs : List Nat}
    {a c : List (Nat × Bool)} {t : Nat} {b : Bool} (he : (Graph.commitL rs m.g).2 = a ++ (t, b) :: c)
    (ht : t ∉ rs) : ∃ p ∈ (m.g.node t).parents, (p, true) ∈ a := by
  rcases commitL_caused rs m.g a t b c he with h | ⟨p, h1, h2⟩
  · exact absurd h ht
  · exact ⟨p, ((reach_inv hr hub).wf.child p t h2).1, h1⟩

/-- C89: what the record says about publication is so: the values that watchers have to be told of after
a commit are those that the record says were published, and those that they had to be told of before. -/
theorem C89_published (rs : List Nat) (g : Graph V S) (t : Nat) :
    ((Graph.commitL rs g).1.node t).needsNotify = true ↔
      (g.node t).needsNotify = true ∨ (t, true) ∈ (Graph.commitL rs g).2 :=
  commitL_tells rs g t

/-- C89: that a value is computed once is false in general: with `k` diamonds on top of each other,
one commit of one changed state makes the last reader compute its value `2 ^ k` times. -/
theorem C89_exponential_false (k : Nat) : ∃ m0 m m' : M Nat Nat, Reach m0 ∧ m0.AtRest ∧
    m0.g.size = 3 * k + 1 ∧ (∀ n, n < m0.g.size → m0.Live n ∧ ¬ m0.Uncommitted n) ∧
    Trace m0 [.set 0 1] m ∧ m.AtRest ∧ ustep m (.commit [0]) = some m' ∧
    visits (3 * k) (Graph.commitL [0] m.g).2 = 2 ^ k := by
  obtain ⟨m, hr, hm, hs, hz, ht, hk, hc⟩ := tower_exists k
  have hal : (m.g.node 0).alive = true := hz.alive 0 (by omega)
  have hval : m.g.valid 0 = true := by
    unfold Graph.valid
    rw [hal, decide_eq_true (show 0 < m.g.size by omega)]
    rfl
  have e1 : ustep m (.set 0 1) = some { m with stack := .up 0 1 :: m.stack } := by
    unfold ustep
    rw [if_neg (by rw [hm.2]; exact Bool.false_ne_true)]
    simp only [hm.1]
    rw [if_pos]
    rw [hval]
    unfold Graph.canWrite
    rw [hk]
    rfl
  have e2 : istep { m with stack := .up 0 1 :: m.stack } =
      some { m with g := m.g.pushDown 0 1 } := by
    unfold istep
    rw [if_neg (by simp [hm.2])]
    simp only [hk]
    simp [hm.1]
  have hpd : m.g.pushDown 0 1 = m.g.mod 0 fun x =>
      { x with current := 1, dirty := true, chg := x.chg || decide (1 ≠ x.current) } := by
    unfold Graph.pushDown
    rw [if_pos (.inr (by rw [(hz.has 0 (by omega)).1]; decide))]
  have hsame : Same m.g (m.g.pushDown 0 1) := (pushDown_touch m.g 0 1).same
  have hno : (m.g.node 0).parents = [] := roots_no_parents hr hm.2 (by omega) (.inl ⟨_, hk⟩)
  have e3 : ustep { m with g := m.g.pushDown 0 1 } (.commit [0]) = some
      { m with
        g := [0].foldl (fun g r => g.sendDown r) (m.g.pushDown 0 1)
        stack := .roots [0] :: m.stack } := by
    unfold ustep
    rw [if_neg (by simp [hm.2])]
    simp only [hm.1]
    rw [if_pos]
    simp only [List.all_cons, List.all_nil, Bool.and_true, Bool.and_eq_true]
    refine ⟨?_, ?_⟩
    · unfold Graph.valid at hval ⊢
      rw [hsame.size, hsame.alive]
      exact hval
    · rw [hsame.parents, hno]; rfl
  have hrc : (m.g.pushDown 0 1).recompute 0 = m.g.pushDown 0 1 := by
    unfold Graph.recompute
    rw [hsame.kind, hk]
  refine ⟨m, _, _, hr, hm, hs, fun n hn => ⟨hz.alive n hn, fun hu => ?_⟩,
    .user e1 (.lib e2 (.refl _)), hm, e3, ?_⟩
  · have := (hz.has n hn).2
    rw [hu.2] at this
    cases this
  · simp only [Graph.commitL, List.append_nil]
    have := (tower_visits k k 0 (m.g.pushDown 0 1).size 0 1 (m.g.pushDown 0 1) (by omega)
      (hsame.tower ht)
      ((zero_follow hs hz k 0 (by omega)).congr fun n hn => by
        rw [hpd, Graph.mod_ne _ _ (by omega)])
      (by decide) (by rw [hsame.size, hs]; omega)
      (by rw [Nat.mul_zero, hrc, hpd, Graph.mod_self]) (by rw [Nat.mul_zero, hrc, hpd, Graph.mod_self])
      (fun n _ => by rw [Nat.mul_zero, hrc])).1
    rw [Nat.mul_zero] at this
    exact this

/-! ### Examples -/

/-- A state, two readers of it, their sum, a reader of the first reader, and a second state. -/
def exVisit : M Nat Nat := exec
  [.newState false true 3, .newCalc true [0] (fun l => some (l.sum + 1)) none false 0,
    .newCalc true [0] (fun l => some (l.sum % 2)) none false 0,
    .newCalc true [1, 2] (fun l => some l.sum) none false 0,
    .newCalc true [2] (fun l => some (l.sum * 10)) none false 0, .newState false true 7,
    .set 0 5, .set 5 8] boot

/-- The sum is reached by two paths but computed once, since the parity of the state does not
change; the reader of the parity is not computed at all. -/
example : Reach exVisit ∧ exVisit.AtRest ∧ (ustep exVisit (.commit [0, 5])).isSome = true ∧
    (Graph.commitL [0, 5] exVisit.g).2 = [(0, true), (1, true), (3, true), (2, false), (5, true)] ∧
    exVisit.g.ways 0 3 = 2 ∧ exVisit.g.ways 5 3 = 0 ∧ visits 3 (Graph.commitL [0, 5] exVisit.g).2 = 1 ∧
    visits 4 (Graph.commitL [0, 5] exVisit.g).2 = 0 ∧ exVisit.g.ways 0 4 = 1 := by
  refine ⟨exec_reach _, ⟨by decide +kernel, by decide +kernel⟩, by decide +kernel, by decide +kernel, by decide +kernel,
    by decide +kernel, by decide +kernel, by decide +kernel, by decide +kernel⟩

example : Line exVisit.g 4 0 :=
  .comp (p := 2) (view := fun l => some (l.sum * 10)) (put := none) (refr := false) rfl rfl
    (.comp (p := 0) (view := fun l => some (l.sum % 2)) (put := none) (refr := false) rfl rfl
      (.state (a := false) rfl))

/-- Three diamonds: eight computations, which is as many as there are paths. -/
example : (exec [.newState false true 0, .newCalc true [0] addUp none false 0,
    .newCalc true [0] addUp none false 0, .newCalc true [1, 2] addUp none false 0,
    .newCalc true [3] addUp none false 0, .newCalc true [3] addUp none false 0,
    .newCalc true [4, 5] addUp none false 0, .newCalc true [6] addUp none false 0,
    .newCalc true [6] addUp none false 0, .newCalc true [7, 8] addUp none false 0,
    .set 0 1] boot).g.ways 0 9 = 8 := by decide +kernel

/-- A write to an automatic state with a diamond. -/
example : visits 3 (Graph.sendDownL 4 ((exec [.newState true true 0,
    .newCalc true [0] addUp none false 0, .newCalc true [0] addUp none false 0,
    .newCalc true [1, 2] addUp none false 0] boot).g.pushDown 0 1) 0).2 = 2 := by decide +kernel

end Verif.Graph
