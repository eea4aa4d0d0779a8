import Verif.Graph.Props
import Verif.Graph.Silent

/-!
# How often values are computed

`sendDownL` is `sendDown` with a record of the nodes that were recomputed, in order, and of whether
their values changed.  The number of times that a node is visited is bounded by the number of
paths that lead to it.
-/

namespace Verif.Graph

variable {V S : Type} [DecidableEq V]

/-- `reader_node::send_down`, `nodes.hpp:213-226`, like `sendDownN`, with a record: for every call
of `recompute`, the node and the value of `needs_send_down_` after it. -/
def Graph.sendDownL : Nat → Graph V S → Nat → Graph V S × List (Nat × Bool)
  | 0, g, _ => (g, [])
  | k + 1, g, n =>
    let g1 := g.recompute n
    if (g1.node n).dirty then
      let g2 := g1.publish n
      let r := (g2.node n).children.foldl
        (fun r c =>
          if (r.1.node c).alive then
            ((Graph.sendDownL k r.1 c).1, r.2 ++ (Graph.sendDownL k r.1 c).2)
          else r) (g2, [])
      (r.1, (n, true) :: r.2)
    else (g1, [(n, false)])

/-- `commit`, `commit.hpp:40-45`, with the same record: `send_down` for one root after the other. -/
def Graph.commitL : List Nat → Graph V S → Graph V S × List (Nat × Bool)
  | [], g => (g, [])
  | r :: rs, g =>
    let a := Graph.sendDownL g.size g r
    let b := Graph.commitL rs a.1
    (b.1, a.2 ++ b.2)

/-- The number of paths from `r` to `t`, from sources to what is derived from them.  The first
argument is a bound for the length; sources have smaller numbers, so `t + 1` is always enough. -/
def Graph.waysN (g : Graph V S) (r : Nat) : Nat → Nat → Nat
  | 0, _ => 0
  | k + 1, t => (if t = r then 1 else 0) + ((g.node t).parents.map (g.waysN r k)).sum

/-- `waysN` with a bound that is always enough. -/
def Graph.ways (g : Graph V S) (r t : Nat) : Nat := g.waysN r (t + 1) t

/-- How often `t` occurs in a record. -/
def visits (t : Nat) (l : List (Nat × Bool)) : Nat := (l.map (·.1)).count t

theorem visits_append (t : Nat) (a b : List (Nat × Bool)) :
    visits t (a ++ b) = visits t a + visits t b := by
  unfold visits; rw [List.map_append, List.count_append]

theorem visits_cons (t : Nat) (x : Nat × Bool) (l : List (Nat × Bool)) :
    visits t (x :: l) = (if t = x.1 then 1 else 0) + visits t l := by
  unfold visits
  rw [List.map_cons, List.count_cons]
  by_cases h : t = x.1
  · subst h; simp; omega
  · have : ¬ (x.1 == t) = true := by simp; exact fun e => h e.symm
    rw [if_neg this, if_neg h]; omega

/-! ### The record does not change what is done -/

theorem sendDownL_fst (k : Nat) : ∀ (g : Graph V S) (n : Nat),
    (Graph.sendDownL k g n).1 = g.sendDownN k n := by
  induction k with
  | zero => intro g n; rfl
  | succ k ih =>
    intro g n
    have hf : ∀ (l : List Nat) (r : Graph V S × List (Nat × Bool)),
        (l.foldl (fun r c =>
          if (r.1.node c).alive then
            ((Graph.sendDownL k r.1 c).1, r.2 ++ (Graph.sendDownL k r.1 c).2)
          else r) r).1 =
        l.foldl (fun g c => if (g.node c).alive then Graph.sendDownN k g c else g) r.1 := by
      intro l
      induction l with
      | nil => intro r; rfl
      | cons c l ihl =>
        intro r
        rw [List.foldl_cons, List.foldl_cons, ihl]
        congr 1
        split
        · exact ih _ _
        · rfl
    simp only [Graph.sendDownL, Graph.sendDownN]
    split
    · exact hf _ _
    · rfl

theorem commitL_fst (rs : List Nat) : ∀ (g : Graph V S),
    (Graph.commitL rs g).1 = rs.foldl (fun g r => g.sendDown r) g := by
  induction rs with
  | nil => intro g; rfl
  | cons r rs ih =>
    intro g
    simp only [Graph.commitL, List.foldl_cons]
    rw [ih, sendDownL_fst]
    rfl

theorem sendDownL_same (k : Nat) (g : Graph V S) (n : Nat) : Same g (Graph.sendDownL k g n).1 := by
  rw [sendDownL_fst]; exact sendDownN_same k g n

/-! ### Every visit comes from a visit of a parent -/

/-- For every visit, the children of the visited node. -/
def spread (g : Graph V S) (t : Nat) (l : List (Nat × Bool)) : Nat :=
  (l.map fun e => (g.node e.1).children.count t).sum

omit [DecidableEq V] in
theorem spread_append (g : Graph V S) (t : Nat) (a b : List (Nat × Bool)) :
    spread g t (a ++ b) = spread g t a + spread g t b := by
  unfold spread; rw [List.map_append, List.sum_append]

omit [DecidableEq V] in
theorem spread_same {g g' : Graph V S} (h : Same g g') (t : Nat) (l : List (Nat × Bool)) :
    spread g' t l = spread g t l := by
  unfold spread
  congr 1
  apply List.map_congr_left
  intro e _
  rw [h.children]

theorem sendDownL_spread (t : Nat) (k : Nat) : ∀ (g : Graph V S) (n : Nat),
    visits t (Graph.sendDownL k g n).2 ≤
      (if t = n then 1 else 0) + spread g t (Graph.sendDownL k g n).2 := by
  induction k with
  | zero => intro g n; simp [Graph.sendDownL, visits]
  | succ k ih =>
    intro g n
    simp only [Graph.sendDownL]
    have h1 : Same g (g.recompute n) := (recompute_touch g n).same
    have hf : ∀ (l : List Nat) (r : Graph V S × List (Nat × Bool)), Same g r.1 →
        let q := l.foldl (fun r c =>
          if (r.1.node c).alive then
            ((Graph.sendDownL k r.1 c).1, r.2 ++ (Graph.sendDownL k r.1 c).2)
          else r) r
        visits t q.2 + spread g t r.2 ≤ visits t r.2 + l.count t + spread g t q.2 := by
      intro l
      induction l with
      | nil => intro r _; simp
      | cons c l ihl =>
        intro r hr
        rw [List.foldl_cons]
        by_cases hc : (r.1.node c).alive = true
        · rw [if_pos hc]
          have h2 := ihl (((Graph.sendDownL k r.1 c).1, r.2 ++ (Graph.sendDownL k r.1 c).2))
            (hr.trans (sendDownL_same k r.1 c))
          dsimp only at h2 ⊢
          have h3 := ih r.1 c
          rw [spread_same hr] at h3
          rw [visits_append, spread_append] at h2
          rw [List.count_cons]
          have h4 : (if t = c then 1 else 0) = (if (c == t) = true then 1 else 0) := by
            by_cases e : t = c
            · subst e; simp
            · have : ¬ c = t := fun h => e h.symm
              simp [e, this]
          omega
        · rw [if_neg hc]
          have h2 := ihl r hr
          dsimp only at h2 ⊢
          rw [List.count_cons]
          omega
    split
    · dsimp only
      rw [visits_cons]
      have h2 : Same g ((g.recompute n).publish n) := h1.trans (publish_same _ n)
      have h3 := hf (((g.recompute n).publish n).node n).children
        ((g.recompute n).publish n, []) h2
      dsimp only at h3
      rw [h2.children n] at h3
      have h5 : spread g t ([] : List (Nat × Bool)) = 0 := rfl
      have h6 : visits t ([] : List (Nat × Bool)) = 0 := rfl
      rw [h5, h6] at h3
      rw [h2.children n]
      simp only [spread, List.map_cons, List.sum_cons] at h3 ⊢
      omega
    · rw [visits_cons]
      have h6 : visits t ([] : List (Nat × Bool)) = 0 := rfl
      dsimp only
      omega

/-- A node is a child of another at most as often as that one is among its parents. -/
def Links (g : Graph V S) : Prop :=
  ∀ p c, (g.node p).children.count c ≤ (g.node c).parents.count p

theorem count_sum_swap (ps : List Nat) (l : List (Nat × Bool)) :
    (l.map fun e => ps.count e.1).sum = (ps.map fun p => visits p l).sum := by
  induction l with
  | nil =>
    rw [List.map_nil, List.sum_nil]
    induction ps with
    | nil => rfl
    | cons p ps ih => rw [List.map_cons, List.sum_cons, ← ih]; rfl
  | cons e l ih =>
    rw [List.map_cons, List.sum_cons, ih]
    clear ih
    induction ps with
    | nil => rfl
    | cons p ps ih =>
      rw [List.map_cons, List.map_cons, List.sum_cons, List.sum_cons, ← ih, visits_cons,
        List.count_cons]
      by_cases h : p = e.1
      · subst h; simp; omega
      · simp [h]; omega

omit [DecidableEq V] in
theorem spread_links {g : Graph V S} (h : Links g) (t : Nat) (l : List (Nat × Bool)) :
    spread g t l ≤ ((g.node t).parents.map fun p => visits p l).sum := by
  rw [← count_sum_swap]
  unfold spread
  induction l with
  | nil => exact Nat.le_refl _
  | cons e l ih =>
    rw [List.map_cons, List.map_cons, List.sum_cons, List.sum_cons]
    exact Nat.add_le_add (h e.1 t) ih

theorem sum_map_le {α : Type} (l : List α) (f f' : α → Nat) (h : ∀ a ∈ l, f a ≤ f' a) :
    (l.map f).sum ≤ (l.map f').sum := by
  induction l with
  | nil => exact Nat.le_refl _
  | cons a l ih =>
    rw [List.map_cons, List.map_cons, List.sum_cons, List.sum_cons]
    exact Nat.add_le_add (h a List.mem_cons_self) (ih fun b hb => h b (List.mem_cons_of_mem _ hb))

theorem sendDownL_ways {g : Graph V S} (w : WF g) (hl : Links g) (k n : Nat) : ∀ t,
    visits t (Graph.sendDownL k g n).2 ≤ g.ways n t := by
  intro t
  induction t using Nat.strongRecOn with
  | _ t ih =>
    refine Nat.le_trans (sendDownL_spread t k g n) ?_
    unfold Graph.ways
    rw [Graph.waysN]
    refine Nat.add_le_add_left (Nat.le_trans (spread_links hl t _) ?_) _
    refine sum_map_le _ _ _ fun p hp => ?_
    have hpt := w.lt t p hp
    refine Nat.le_trans (ih p hpt) ?_
    unfold Graph.ways
    -- more fuel does not make the number smaller
    have mono : ∀ k j q, k ≤ j → g.waysN n k q ≤ g.waysN n j q := by
      intro k
      induction k with
      | zero => intro j q _; exact Nat.zero_le _
      | succ k ihk =>
        intro j q hj
        match j, hj with
        | j + 1, hj =>
          rw [Graph.waysN, Graph.waysN]
          exact Nat.add_le_add_left
            (sum_map_le _ _ _ fun p _ => ihk j p (Nat.le_of_succ_le_succ hj)) _
    exact mono _ _ _ hpt

/-! ### Links in reachable states -/

theorem linkAll_count (ps : List Nat) (c : Nat) : ∀ (g : Graph V S) (n : Nat),
    (g.linkAll ps c).node n =
      { g.node n with children := (g.node n).children ++ List.replicate (ps.count n) c } := by
  unfold Graph.linkAll
  induction ps with
  | nil => intro g n; simp
  | cons p ps ih =>
    intro g n
    rw [List.foldl_cons, ih]
    by_cases hn : n = p
    · subst hn
      simp [List.replicate_succ]
    · have : ¬ p = n := fun e => hn e.symm
      rw [Graph.mod_ne _ _ hn, List.count_cons]
      simp [this]

theorem add_count (g : Graph V S) (x : Node V S) {n : Nat} (hn : n ≠ g.size) :
    (g.add x).node n = { g.node n with
      children := (g.node n).children ++ List.replicate (x.parents.count n) g.size } := by
  unfold Graph.add
  rw [linkAll_count]
  simp only [if_neg hn]

theorem add_links {g : Graph V S} (w : WF g) (h : Links g) (x : Node V S) (hx : x.children = [])
    (hp : ∀ p ∈ x.parents, p < g.size) : Links (g.add x) := by
  intro p c
  by_cases hpn : p = g.size
  · subst hpn
    rw [add_new g x hp, hx]
    exact Nat.zero_le _
  · rw [add_count g x hpn]
    dsimp only
    rw [List.count_append, List.count_replicate]
    by_cases hc : c = g.size
    · subst hc
      rw [add_new g x hp]
      have : (g.node p).children.count g.size = 0 :=
        List.count_eq_zero.2 fun hm => Nat.lt_irrefl _ (w.child_lt hm).2
      rw [this]
      simp
    · have hne : ¬ (g.size == c) = true := by simp; exact fun e => hc e.symm
      rw [if_neg hne, add_count g x hc]
      exact h p c

omit [DecidableEq V] in
theorem links_of_sublist {g g' : Graph V S} (h : Links g)
    (hc : ∀ n, (g'.node n).children.Sublist (g.node n).children)
    (hp : ∀ n, (g'.node n).parents = (g.node n).parents) : Links g' := by
  intro p c
  rw [hp]
  exact Nat.le_trans ((hc p).count_le c) (h p c)

theorem istep_sublist {m m' : M V S} (he : istep m = some m') (n : Nat) :
    (m'.g.node n).children.Sublist (m.g.node n).children := by
  have hm : ∀ (g : Graph V S) (k : Nat) (f : Node V S → Node V S),
      (f (g.node k)).children.Sublist (g.node k).children →
      ((g.mod k f).node n).children.Sublist (g.node n).children := by
    intro g k f hf
    by_cases hk : n = k
    · subst hk; rw [Graph.mod_self]; exact hf
    · rw [Graph.mod_ne _ _ hk]; exact List.Sublist.refl _
  have hs : ∀ {g : Graph V S}, Same m.g g →
      (g.node n).children.Sublist (m.g.node n).children := by
    intro g h; rw [h.children n]; exact List.Sublist.refl _
  unfold istep at he
  split at he
  · cases he
  · split at he
    · split at he
      · cases he; dsimp only; refine hm _ _ _ ?_; exact List.Sublist.refl _
      · cases he; exact List.Sublist.refl _
    · split at he <;> (cases he; exact List.Sublist.refl _)
    · rename_i k i size prev garbage st hst
      split at he
      · split at he
        · cases he; exact List.Sublist.refl _
        · split at he <;> (cases he; exact List.Sublist.refl _)
      · cases he
        dsimp only
        refine (hm _ _ _ ?_).trans ?_
        · exact List.Sublist.refl _
        · split
          · exact hm _ _ _ List.filter_sublist
          · exact List.Sublist.refl _
    · cases he; exact List.Sublist.refl _
    · cases he; exact List.Sublist.refl _
    · rename_i k v st hst
      split at he
      · split at he
        · cases he
          exact hs ((pushDown_touch m.g k v).same.trans (sendDown_moves _ k).same)
        · cases he; exact hs (pushDown_touch m.g k v).same
      · cases he
        simp only
        split
        · exact hs (refresh_recomputes m.g k).same
        · exact List.Sublist.refl _
      · cases he; dsimp only; refine hm _ _ _ ?_; exact List.Sublist.refl _
      · cases he; exact List.Sublist.refl _
      · cases he; exact List.Sublist.refl _
    · cases he; exact List.Sublist.refl _
    · cases he; exact List.Sublist.refl _
    · rename_i k v st hst
      split at he
      · cases he
        dsimp only
        rw [(sendDown_moves _ k).same.children n]
        refine (hm _ _ _ ?_).trans ?_
        · exact List.Sublist.refl _
        · exact hs (pushDown_touch m.g k v).same
      · cases he; exact hs (pushDown_touch m.g k v).same
    · cases he
    · cases he

theorem ustep_links [Inhabited S] {m m' : M V S} {op : Op V S} (h : Inv m) (hl : Links m.g)
    (he : ustep m op = some m') : Links m'.g := by
  have hall : ∀ {ps : List Nat}, ps.all m.g.valid = true → ∀ p ∈ ps, p < m.g.size := by
    intro ps hps p hp
    have := List.all_eq_true.1 hps p hp
    unfold Graph.valid at this
    rw [Bool.and_eq_true] at this
    exact of_decide_eq_true this.1
  have hm : ∀ (k : Nat) (f : Node V S → Node V S), (f (m.g.node k)).children =
      (m.g.node k).children → (f (m.g.node k)).parents = (m.g.node k).parents →
      Links (m.g.mod k f) := by
    intro k f hf hf'
    refine links_of_sublist hl (fun n => ?_) (fun n => ?_)
    · by_cases hk : n = k
      · subst hk; rw [Graph.mod_self, hf]; exact List.Sublist.refl _
      · rw [Graph.mod_ne _ _ hk]; exact List.Sublist.refl _
    · by_cases hk : n = k
      · subst hk; rw [Graph.mod_self, hf']
      · rw [Graph.mod_ne _ _ hk]
  unfold ustep at he
  split at he
  · cases he
  · split at he
    case h_2 => cases he
    cases op with
    | newState auto cmp v => cases he; exact add_links h.wf hl _ rfl (fun _ hp => nomatch hp)
    | newSensor cmp ext => cases he; exact add_links h.wf hl _ rfl (fun _ hp => nomatch hp)
    | newConstant cmp v => cases he; exact add_links h.wf hl _ rfl (fun _ hp => nomatch hp)
    | newCalc cmp ps view put refreshes dflt =>
      simp only at he
      split at he
      · rename_i hc; cases he; exact add_links h.wf hl _ rfl (hall hc.2.1)
      · cases he
    | newXform cmp ps s0 u0 down up dflt =>
      simp only at he
      split at he
      · rename_i hc; cases he; exact add_links h.wf hl _ rfl (hall hc.2.1)
      · cases he
    | newSetter cmp p auto =>
      simp only at he
      split at he
      · rename_i hc; cases he
        refine add_links h.wf hl _ rfl (hall (ps := [p]) ?_)
        rw [List.all_cons, hc]; rfl
      · cases he
    | set k v =>
      simp only at he
      split at he
      · cases he; exact hl
      · cases he
    | update k f =>
      simp only at he
      split at he
      · cases he; exact hl
      · cases he
    | commit rs =>
      simp only at he
      split at he
      · cases he
        refine links_of_sublist hl (fun n => ?_) (fun n => ?_)
        · dsimp only
          rw [(sendAll_same rs m.g).children n]
          exact List.Sublist.refl _
        · exact (sendAll_same rs m.g).parents n
      · cases he
    | attach k i =>
      simp only at he
      split at he
      · cases he; dsimp only; exact hm _ _ rfl rfl
      · cases he
    | detach k w => cases he; dsimp only; exact hm _ _ rfl rfl
    | kill k =>
      simp only at he
      split at he
      · cases he; dsimp only; exact hm _ _ rfl rfl
      · cases he
    | ret =>
      simp only at he
      split at he
      · cases he
      · cases he; exact hl

theorem reach_links [Inhabited S] {m : M V S} (hr : Reach m) (hub : m.ub = false) :
    Links m.g := by
  induction hr with
  | start ltr dummy hd =>
    intro p c
    simp [start, hd.2.1]
  | @step m m' hr hs ih =>
    have hub' := step_ub hs
    have hi := reach_inv hr hub'
    cases hs with
    | lib he =>
      exact links_of_sublist (ih hub') (istep_sublist he)
        (fun n => (istep_evolves hi he n).const.2.1)
    | user op he => exact ustep_links hi (ih hub') he

/-! ### Commits -/

theorem commitL_ways {g : Graph V S} (w : WF g) (hl : Links g) (t : Nat) (rs : List Nat) :
    visits t (Graph.commitL rs g).2 ≤ (rs.map fun r => g.ways r t).sum := by
  have hways : ∀ {g g' : Graph V S}, Same g g' → ∀ r k t, g'.waysN r k t = g.waysN r k t := by
    intro g g' h r k
    induction k with
    | zero => intro t; rfl
    | succ k ih =>
      intro t
      rw [Graph.waysN, Graph.waysN, h.parents]
      congr 2
      exact List.map_congr_left fun p _ => ih p
  induction rs generalizing g with
  | nil => exact Nat.le_refl _
  | cons r rs ih =>
    simp only [Graph.commitL]
    rw [visits_append, List.map_cons, List.sum_cons]
    have hs := sendDownL_same g.size g r
    refine Nat.add_le_add (sendDownL_ways w hl g.size r t) ?_
    refine Nat.le_trans (ih (g := (Graph.sendDownL g.size g r).1) (hs.wf w) ?_) ?_
    · refine links_of_sublist hl (fun n => ?_) hs.parents
      rw [hs.children n]
      exact List.Sublist.refl _
    · exact sum_map_le _ _ _ fun r' _ => Nat.le_of_eq (hways hs r' _ t)

/-! ### Reasons for visits -/

/-- In a record, a node is one of those that are given at first, or a node with that child was
recomputed and published before. -/
def Caused (g : Graph V S) (P : Nat → Prop) (l : List (Nat × Bool)) : Prop :=
  ∀ a t b c, l = a ++ (t, b) :: c → P t ∨ ∃ p, (p, true) ∈ a ∧ t ∈ (g.node p).children

omit [DecidableEq V] in
theorem Caused.append {g : Graph V S} {P : Nat → Prop} {l l' : List (Nat × Bool)}
    (h : Caused g P l) (h' : Caused g P l') : Caused g P (l ++ l') := by
  intro a t b c he
  rcases List.append_eq_append_iff.1 he with ⟨d, h1, h2⟩ | ⟨d, h1, h2⟩
  · rcases h' d t b c h2 with k | ⟨p, k1, k2⟩
    · exact .inl k
    · exact .inr ⟨p, by rw [h1]; exact List.mem_append_right _ k1, k2⟩
  · match d, h1, h2 with
    | [], h1, h2 =>
      rcases h' [] t b c h2.symm with k | ⟨p, k1, _⟩
      · exact .inl k
      · cases k1
    | e :: d, h1, h2 =>
      rw [List.cons_append] at h2
      injection h2 with h3 h4
      subst h3
      exact h a t b d h1

omit [DecidableEq V] in
theorem Caused.mono {g : Graph V S} {P Q : Nat → Prop} {l : List (Nat × Bool)}
    (h : Caused g P l) (hq : ∀ t, P t → Q t) : Caused g Q l := by
  intro a t b c he
  rcases h a t b c he with k | k
  · exact .inl (hq t k)
  · exact .inr k

omit [DecidableEq V] in
theorem Caused.same {g g' : Graph V S} (hs : Same g g') {P : Nat → Prop}
    {l : List (Nat × Bool)} (h : Caused g' P l) : Caused g P l := by
  intro a t b c he
  rcases h a t b c he with k | ⟨p, k1, k2⟩
  · exact .inl k
  · exact .inr ⟨p, k1, by rw [hs.children] at k2; exact k2⟩

theorem sendDownL_caused (k : Nat) : ∀ (g : Graph V S) (n : Nat),
    Caused g (· = n) (Graph.sendDownL k g n).2 := by
  induction k with
  | zero =>
    intro g n a t b c he
    exact absurd (congrArg List.length he) (by simp [Graph.sendDownL])
  | succ k ih =>
    intro g n
    simp only [Graph.sendDownL]
    have h1 : Same g (g.recompute n) := (recompute_touch g n).same
    have hf : ∀ (l : List Nat) (r : Graph V S × List (Nat × Bool)), Same g r.1 →
        (∀ c ∈ l, c ∈ (g.node n).children) → Caused g (· ∈ (g.node n).children) r.2 →
        Caused g (· ∈ (g.node n).children) (l.foldl (fun r c =>
          if (r.1.node c).alive then
            ((Graph.sendDownL k r.1 c).1, r.2 ++ (Graph.sendDownL k r.1 c).2)
          else r) r).2 := by
      intro l
      induction l with
      | nil => intro r _ _ h; exact h
      | cons c l ihl =>
        intro r hr hl h
        rw [List.foldl_cons]
        have hl' : ∀ c ∈ l, c ∈ (g.node n).children := fun c hc => hl c (List.mem_cons_of_mem _ hc)
        split
        · refine ihl _ (hr.trans (sendDownL_same k r.1 c)) hl' (h.append ?_)
          refine ((ih r.1 c).same hr).mono ?_
          rintro t rfl
          exact hl t List.mem_cons_self
        · exact ihl r hr hl' h
    split
    · dsimp only
      have h2 : Same g ((g.recompute n).publish n) := h1.trans (publish_same _ n)
      have h3 := hf (((g.recompute n).publish n).node n).children
        ((g.recompute n).publish n, []) h2 (fun c hc => by rw [h2.children] at hc; exact hc)
        (by
          intro a t b c he
          exact absurd (congrArg List.length he) (by simp))
      intro a t b c he
      match a, he with
      | [], he =>
        injection he with h4 h5
        exact .inl (congrArg (·.1) h4).symm
      | e :: a, he =>
        rw [List.cons_append] at he
        injection he with h4 h5
        rcases h3 a t b c h5 with k1 | ⟨p, k1, k2⟩
        · exact .inr ⟨n, by rw [h4]; exact List.mem_cons_self, k1⟩
        · exact .inr ⟨p, List.mem_cons_of_mem _ k1, k2⟩
    · intro a t b c he
      match a, he with
      | [], he =>
        injection he with h4 h5
        exact .inl (congrArg (·.1) h4).symm
      | e :: a, he =>
        exact absurd (congrArg List.length he) (by simp)

theorem commitL_caused (rs : List Nat) : ∀ (g : Graph V S),
    Caused g (· ∈ rs) (Graph.commitL rs g).2 := by
  induction rs with
  | nil =>
    intro g a t b c he
    exact absurd (congrArg List.length he) (by simp [Graph.commitL])
  | cons r rs ih =>
    intro g
    simp only [Graph.commitL]
    refine Caused.append ((sendDownL_caused g.size g r).mono ?_)
      (((ih _).same (sendDownL_same g.size g r)).mono fun t h => List.mem_cons_of_mem _ h)
    rintro t rfl
    exact List.mem_cons_self

/-! ### What the record says about changes -/

/-- A record is right about which nodes have published something: those that watchers have to be told
of, apart from those that they had to be told of before. -/
def Tells (g g' : Graph V S) (l : List (Nat × Bool)) : Prop :=
  ∀ t, (g'.node t).needsNotify = true ↔ (g.node t).needsNotify = true ∨ (t, true) ∈ l

omit [DecidableEq V] in
theorem Tells.trans {g g' g'' : Graph V S} {l l' : List (Nat × Bool)} (h : Tells g g' l)
    (h' : Tells g' g'' l') : Tells g g'' (l ++ l') := by
  intro t
  rw [h' t, h t, List.mem_append, or_assoc]

theorem sendDownL_tells (k : Nat) : ∀ (g : Graph V S) (n : Nat),
    Tells g (Graph.sendDownL k g n).1 (Graph.sendDownL k g n).2 := by
  induction k with
  | zero => intro g n t; simp [Graph.sendDownL]
  | succ k ih =>
    intro g n
    simp only [Graph.sendDownL]
    have h0 : ∀ t, ((g.recompute n).node t).needsNotify = (g.node t).needsNotify := by
      intro t
      by_cases h : t = n
      · subst h; exact (recompute_touch g t).needsNotify
      · rw [recompute_other _ h]
    have hf : ∀ (l : List Nat) (g1 : Graph V S) (r : Graph V S × List (Nat × Bool)), Tells g1 r.1 r.2 →
        Tells g1 (l.foldl (fun r c =>
          if (r.1.node c).alive then
            ((Graph.sendDownL k r.1 c).1, r.2 ++ (Graph.sendDownL k r.1 c).2)
          else r) r).1 (l.foldl (fun r c =>
          if (r.1.node c).alive then
            ((Graph.sendDownL k r.1 c).1, r.2 ++ (Graph.sendDownL k r.1 c).2)
          else r) r).2 := by
      intro l g1
      induction l with
      | nil => intro r h; exact h
      | cons c l ihl =>
        intro r h
        rw [List.foldl_cons]
        split
        · exact ihl _ (h.trans (ih _ _))
        · exact ihl _ h
    split
    · have h1 : Tells g ((g.recompute n).publish n) [(n, true)] := by
        intro t
        by_cases h : t = n
        · subst h; simp [Graph.publish]
        · rw [publish_other _ h, h0]; simp [h]
      exact h1.trans (hf _ _ _ (by intro t; simp))
    · intro t; simp [h0]

theorem commitL_tells (rs : List Nat) : ∀ (g : Graph V S),
    Tells g (Graph.commitL rs g).1 (Graph.commitL rs g).2 := by
  induction rs with
  | nil => intro g t; simp [Graph.commitL]
  | cons r rs ih =>
    intro g
    simp only [Graph.commitL]
    exact (sendDownL_tells _ _ _).trans (ih _)

end Verif.Graph
