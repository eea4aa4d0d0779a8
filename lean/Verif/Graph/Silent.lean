import Verif.Graph.Write
import Verif.Graph.Kinds

/-
Lemmas for the second group of properties: commits without changes, histories of single nodes, links
to children.
-/

set_option linter.unusedSectionVars false

namespace Verif.Graph

variable {V S : Type} [DecidableEq V]

/-! ### Commits without changes -/

/-- Only sensor counters differ. -/
def Counted (g g' : Graph V S) : Prop :=
  g'.size = g.size ∧ ∀ n, ∃ s, g'.node n = { g.node n with samples := s }

theorem Counted.refl (g : Graph V S) : Counted g g := ⟨rfl, fun n => ⟨(g.node n).samples, rfl⟩⟩

theorem Counted.trans {a b c : Graph V S} (h : Counted a b) (k : Counted b c) : Counted a c := by
  refine ⟨k.1.trans h.1, fun n => ?_⟩
  obtain ⟨s, hs⟩ := h.2 n
  obtain ⟨t, ht⟩ := k.2 n
  exact ⟨t, by rw [ht, hs]⟩

/-- A root with nothing to publish. -/
def Idle (g : Graph V S) (r j : Nat) : Prop :=
  r < g.size ∧ (g.node r).dirty = false ∧ (g.node r).last = (g.node r).current ∧
  ((∃ a, (g.node r).kind = .state a) ∨ (g.node r).kind = .constant ∨
    ∃ ext, (g.node r).kind = .sensor ext ∧ (g.node r).cmp = true ∧
      ∀ i, (g.node r).samples ≤ i → i < (g.node r).samples + j → ext i = (g.node r).last)

theorem sendDown_idle (g : Graph V S) (r j : Nat) (h : Idle g r (j + 1)) :
    g.sendDown r = g ∨ g.sendDown r = g.mod r fun x => { x with samples := x.samples + 1 } := by
  obtain ⟨hn, hd, hl, hk⟩ := h
  rcases hk with ⟨a, hk⟩ | hk | ⟨ext, hk, hc, he⟩
  · have hr : g.recompute r = g := by unfold Graph.recompute; rw [hk]
    left
    rw [sendDown_nothing g r hn (by rw [hr]; exact hd), hr]
  · have hr : g.recompute r = g := by unfold Graph.recompute; rw [hk]
    left
    rw [sendDown_nothing g r hn (by rw [hr]; exact hd), hr]
  · have hr : g.recompute r = g.mod r fun x => { x with samples := x.samples + 1 } := by
      unfold Graph.recompute
      rw [hk]
      simp only
      rw [he _ (Nat.le_refl _) (by omega)]
      unfold Graph.pushDown
      rw [if_neg]
      rw [Graph.mod_self]
      simp only
      rw [hc, hl]
      simp
    right
    rw [sendDown_nothing g r hn (by rw [hr, Graph.mod_self]; exact hd), hr]

theorem counted_samples (g : Graph V S) (r : Nat) :
    Counted g (g.mod r fun x => { x with samples := x.samples + 1 }) := by
  refine ⟨rfl, fun n => ?_⟩
  by_cases hn : n = r
  · subst hn; rw [Graph.mod_self]; exact ⟨_, rfl⟩
  · rw [Graph.mod_ne _ _ hn]; exact ⟨(g.node n).samples, rfl⟩

theorem sendAll_idle (rs : List Nat) : ∀ (g : Graph V S),
    (∀ r ∈ rs, Idle g r (rs.count r)) →
    Counted g (rs.foldl (fun g r => g.sendDown r) g) := by
  induction rs with
  | nil => intro g _; exact .refl g
  | cons r rs ih =>
    intro g h
    have h0 := h r (List.mem_cons_self ..)
    rw [List.count_cons_self] at h0
    simp only [List.foldl_cons]
    rcases sendDown_idle g r _ h0 with e | e
    · rw [e]
      refine ih g fun r' hr' => ?_
      have := h r' (List.mem_cons_of_mem _ hr')
      refine ⟨this.1, this.2.1, this.2.2.1, ?_⟩
      rcases this.2.2.2 with h1 | h1 | ⟨ext, h1, h2, h3⟩
      · exact .inl h1
      · exact .inr (.inl h1)
      · refine .inr (.inr ⟨ext, h1, h2, fun i a b => h3 i a ?_⟩)
        have : rs.count r' ≤ (r :: rs).count r' := List.count_le_count_cons
        omega
    · rw [e]
      refine (counted_samples g r).trans (ih _ fun r' hr' => ?_)
      have := h r' (List.mem_cons_of_mem _ hr')
      obtain ⟨a1, a2, a3, a4⟩ := this
      by_cases hne : r' = r
      · subst hne
        unfold Idle
        rw [Graph.mod_self]
        refine ⟨a1, a2, a3, ?_⟩
        rcases a4 with h1 | h1 | ⟨ext, h1, h2, h3⟩
        · exact .inl h1
        · exact .inr (.inl h1)
        · refine .inr (.inr ⟨ext, h1, h2, fun i a b => h3 i ?_ ?_⟩)
          · simp only at a; omega
          · rw [List.count_cons_self]; simp only at b; omega
      · unfold Idle
        rw [Graph.mod_ne _ _ hne]
        refine ⟨a1, a2, a3, ?_⟩
        rw [List.count_cons_of_ne (Ne.symm hne)] at a4
        exact a4

/-- Notifying roots of which none has anything to say. -/
theorem roots_silent (rs : List Nat) : ∀ (m : M V S) (st : List (Frame V)), m.ub = false →
    m.stack = .roots rs :: st → (∀ r ∈ rs, (m.g.node r).needsNotify = false) →
    LibRun m { m with stack := st } := by
  induction rs with
  | nil =>
    intro m st hub hst _
    refine .step ?_ (.refl _)
    unfold istep
    rw [hub, hst]; rfl
  | cons r rs ih =>
    intro m st hub hst h
    have e1 : istep m = some { m with stack := .notify r :: .roots rs :: st } := by
      unfold istep; rw [hub, hst]; rfl
    have e2 : istep { m with stack := .notify r :: .roots rs :: st } =
        some { m with stack := .roots rs :: st } := by
      unfold istep
      simp only [hub, h r (List.mem_cons_self ..)]
      rfl
    refine .step e1 (.step e2 ?_)
    exact ih { m with stack := .roots rs :: st } st hub rfl
      fun r' hr' => h r' (List.mem_cons_of_mem _ hr')

/-! ### Histories of single nodes -/

theorem Runs.evolves [Inhabited S] {m m' : M V S} (h : Runs m m') (hi : Inv m)
    (hub : m'.ub = false) {n : Nat} (hn : n < m.g.size) :
    Evolves (m.g.node n) (m'.g.node n) ∧ n < m'.g.size := by
  induction h with
  | refl m => exact ⟨.refl _, hn⟩
  | step hs hr ih =>
    have hub1 := hr.ub hub
    have hi1 := step_inv hi hs hub1
    obtain ⟨h1, h2⟩ := ih hi1 hub (Nat.lt_of_lt_of_le hn (step_size_le hs))
    exact ⟨(step_evolves hi hs hn).trans h1, h2⟩

/-- What a transducer node has been given only grows, and the last of it is `input`. -/
theorem Evolves.fed {x y : Node V S} (h : Evolves x y) :
    x.fed <+: y.fed ∧ (y.fed = x.fed → y.input = x.input) := by
  induction h with
  | refl => exact ⟨List.prefix_refl _, fun _ => rfl⟩
  | tail _ he ih =>
    obtain ⟨h1, h2⟩ := ih
    have keep : ∀ {a b : Node V S}, b.fed = a.fed → b.input = a.input →
        x.fed <+: a.fed → (a.fed = x.fed → a.input = x.input) →
        x.fed <+: b.fed ∧ (b.fed = x.fed → b.input = x.input) := by
      intro a b e1 e2 k1 k2
      rw [e1, e2]; exact ⟨k1, k2⟩
    cases he with
    | other => exact keep rfl rfl h1 h2
    | sample ext hk =>
      rename_i a _
      have := push_rest { a with samples := a.samples + 1 } (ext a.samples)
      exact keep (a := a) this.2.2.1 this.2.2.2 h1 h2
    | view f put r v hk => exact keep (push_rest _ v).2.2.1 (push_rest _ v).2.2.2 h1 h2
    | write v hk => exact keep (push_rest _ v).2.2.1 (push_rest _ v).2.2.2 h1 h2
    | flag b => exact keep rfl rfl h1 h2
    | upSt s => exact keep rfl rfl h1 h2
    | publish hd => exact keep rfl rfl h1 h2
    | feed down up ins hk =>
      rename_i a _
      have := foldl_push (down a.downSt ins).2
        { a with downSt := (down a.downSt ins).1, fed := a.fed ++ [ins], input := ins }
      rw [this.2.2.1]
      simp only
      refine ⟨h1.trans (List.prefix_append ..), fun e => ?_⟩
      obtain ⟨t, ht⟩ := h1
      rw [← ht] at e
      have := congrArg List.length e
      simp at this

/-! ### Links to children -/

theorem istep_children {m m' : M V S} (h : Inv m) (he : istep m = some m') {n : Nat}
    (ha : active n m'.stack = true) : (m'.g.node n).children = (m.g.node n).children := by
  have hm : ∀ (g : Graph V S) (k : Nat) (f : Node V S → Node V S),
      (f (g.node k)).children = (g.node k).children →
      ((g.mod k f).node n).children = (g.node n).children := by
    intro g k f hf
    by_cases hk : n = k
    · subst hk; rw [Graph.mod_self]; exact hf
    · rw [Graph.mod_ne _ _ hk]
  unfold istep at he
  split at he
  · cases he
  · split at he
    · split at he
      · cases he
        dsimp only
        rw [hm _ _ _ rfl]
      · cases he; rfl
    · split at he <;> (cases he; rfl)
    · rename_i k i size prev garbage st hst
      split at he
      · split at he
        · cases he; rfl
        · split at he <;> (cases he; rfl)
      · cases he
        dsimp only at ha ⊢
        rw [hm _ _ _ rfl]
        split
        · rename_i hc
          by_cases hk : n = k
          · subst hk
            have hg := h.stack.guards
            rw [hst] at hg
            rw [Bool.and_eq_true] at hc
            have : prev = active n st := hg.1
            rw [ha] at this
            rw [this] at hc
            simp at hc
          · unfold Graph.collect
            rw [Graph.mod_ne _ _ hk]
        · rfl
    · cases he; rfl
    · cases he; rfl
    · rename_i k v st hst
      split at he
      · split at he
        · cases he
          exact ((pushDown_touch m.g k v).same.trans (sendDown_moves _ k).same).children n
        · cases he; exact (pushDown_touch m.g k v).same.children n
      · cases he
        simp only
        split
        · exact (refresh_recomputes m.g k).same.children n
        · rfl
      · cases he
        dsimp only
        rw [hm _ _ _ rfl]
      · cases he; rfl
      · cases he; rfl
    · cases he; rfl
    · cases he; rfl
    · rename_i k v st hst
      split at he
      · cases he
        dsimp only
        rw [(sendDown_moves _ k).same.children n, hm _ _ _ rfl]
        exact (pushDown_touch m.g k v).same.children n
      · cases he; exact (pushDown_touch m.g k v).same.children n
    · cases he
    · cases he

theorem ustep_children [Inhabited S] {m m' : M V S} {op : Op V S} (h : Inv m)
    (he : ustep m op = some m') (n : Nat) :
    (m.g.node n).children <+: (m'.g.node n).children := by
  have hadd : ∀ x : Node V S, (m.g.node n).children <+: ((m.g.add x).node n).children := by
    intro x
    by_cases hn : n = m.g.size
    · subst hn
      rw [(h.wf.unused _ (Nat.le_refl _)).2.1]
      exact List.nil_prefix
    · obtain ⟨k, hk, _⟩ := add_old m.g x hn
      rw [hk]
      exact List.prefix_append ..
  have hm : ∀ (k : Nat) (f : Node V S → Node V S), (f (m.g.node k)).children =
      (m.g.node k).children → (m.g.node n).children <+: ((m.g.mod k f).node n).children := by
    intro k f hf
    by_cases hk : n = k
    · subst hk; rw [Graph.mod_self, hf]; exact List.prefix_refl _
    · rw [Graph.mod_ne _ _ hk]; exact List.prefix_refl _
  unfold ustep at he
  split at he
  · cases he
  · split at he
    case h_2 => cases he
    cases op with
    | newState auto cmp v => cases he; exact hadd _
    | newSensor cmp ext => cases he; exact hadd _
    | newConstant cmp v => cases he; exact hadd _
    | newCalc cmp ps view put refreshes dflt =>
      simp only at he
      split at he
      · cases he; exact hadd _
      · cases he
    | newXform cmp ps s0 u0 down up dflt =>
      simp only at he
      split at he
      · cases he; exact hadd _
      · cases he
    | newSetter cmp p auto =>
      simp only at he
      split at he
      · cases he; exact hadd _
      · cases he
    | set k v =>
      simp only at he
      split at he
      · cases he; exact List.prefix_refl _
      · cases he
    | update k f =>
      simp only at he
      split at he
      · cases he; exact List.prefix_refl _
      · cases he
    | commit rs =>
      simp only at he
      split at he
      · cases he
        dsimp only
        rw [(sendAll_same rs m.g).children n]
        exact List.prefix_refl _
      · cases he
    | attach k i =>
      simp only at he
      split at he
      · cases he; dsimp only; refine hm _ _ ?_; rfl
      · cases he
    | detach k w => cases he; dsimp only; refine hm _ _ ?_; rfl
    | kill k =>
      simp only at he
      split at he
      · cases he; dsimp only; refine hm _ _ ?_; rfl
      · cases he
    | ret =>
      simp only at he
      split at he
      · cases he
      · cases he; exact List.prefix_refl _

/-! ### Sensors -/

theorem user_sensor [Inhabited S] {m m' : M V S} (hr : Reach m) (hub : m.ub = false)
    {op : Op V S} (he : ustep m op = some m') {n : Nat} (hn : n < m.g.size) {ext : Nat → V}
    (hk : (m.g.node n).kind = .sensor ext) : m'.sampled n = m.sampled n + op.samples n := by
  have hi := reach_inv hr hub
  have hp := roots_no_parents hr hub hn (.inr (.inl ⟨ext, hk⟩))
  have hd := sensor_clean hr hub hn hk
  by_cases hop : ∃ rs, op = .commit rs
  · obtain ⟨rs, rfl⟩ := hop
    unfold ustep at he
    split at he
    · cases he
    · split at he
      case h_2 => cases he
      simp only at he
      split at he
      · rename_i hc
        cases he
        rw [Bool.and_eq_true] at hc
        exact (sendAll_sensor rs m.g hi.wf
          (fun r hrm => (valid_alive (List.all_eq_true.1 hc.1 r hrm)).1) hk hp hd).1
      · cases he
  · have h0 : op.samples n = 0 := by
      cases op with
      | commit rs => exact absurd ⟨rs, rfl⟩ hop
      | _ => rfl
    rw [h0]
    exact (ustep_frozen hi he hn (.inr hp)
      (fun rs e => absurd ⟨rs, e⟩ hop)).samples

theorem trace_sensor [Inhabited S] {m m' : M V S} {ops : List (Op V S)} (ht : Trace m ops m')
    (hr : Reach m) (hub : m'.ub = false) {n : Nat} (hn : n < m.g.size) {ext : Nat → V}
    (hk : (m.g.node n).kind = .sensor ext) :
    m'.sampled n = m.sampled n + (ops.map (Op.samples n)).sum ∧ n < m'.g.size ∧
      (m'.g.node n).kind = .sensor ext ∧ Reach m' := by
  induction ht with
  | refl m => exact ⟨by simp, hn, hk, hr⟩
  | lib he ht ih =>
    have hs : Step _ _ := .lib he
    have hub1 : _ = false := step_ub hs
    have hi := reach_inv hr hub1
    obtain ⟨k1, k2, k3⟩ := ih (.step hr hs) hub (Nat.lt_of_lt_of_le hn (step_size_le hs))
      ((step_evolves hi hs hn).const.1.trans hk)
    refine ⟨?_, k2, k3⟩
    rw [k1]
    rcases (step_sensor hr hub1 hs hn hk (sensor_clean hr hub1 hn hk)).2 with ⟨_, h1⟩ | ⟨op, h0, h1⟩
    · unfold M.sampled; rw [h1]
    · obtain ⟨st, hst⟩ := ustep_user h0
      rw [istep_user hst] at he; cases he
  | user he ht ih =>
    rename_i a b c op ops
    have hs : Step a b := .user _ he
    have hub1 : a.ub = false := step_ub hs
    have hi := reach_inv hr hub1
    obtain ⟨k1, k2, k3⟩ := ih (.step hr hs) hub (Nat.lt_of_lt_of_le hn (step_size_le hs))
      ((step_evolves hi hs hn).const.1.trans hk)
    refine ⟨?_, k2, k3⟩
    rw [k1]
    have hkey : b.sampled n = a.sampled n + op.samples n := user_sensor hr hub1 he hn hk
    rw [hkey, List.map_cons, List.sum_cons]
    omega

/-! ### Destroyed nodes -/

theorem Evolves.alive {x y : Node V S} (h : Evolves x y) (ha : y.alive = true) :
    x.alive = true := by
  induction h with
  | refl => exact ha
  | tail _ he ih =>
    apply ih
    have hpush : ∀ (z : Node V S) v, (z.push v).alive = z.alive := by
      intro z v; unfold Node.push; split <;> rfl
    have hfold : ∀ (l : List V) (z : Node V S), (l.foldl Node.push z).alive = z.alive := by
      intro l
      induction l with
      | nil => intro z; rfl
      | cons v l ih => intro z; rw [List.foldl_cons, ih, hpush]
    cases he with
    | other _ _ _ _ _ _ hal => exact hal ha
    | sample ext hk => rwa [hpush] at ha
    | view f put r v hk => rwa [hpush] at ha
    | write v hk => rwa [hpush] at ha
    | flag b => exact ha
    | upSt s => exact ha
    | publish hd => exact ha
    | feed down up ins hk => rwa [hfold] at ha

theorem commit_alive [Inhabited S] {m m' : M V S} {rs : List Nat}
    (he : ustep m (.commit rs) = some m') (n : Nat) (hn : n ∈ rs) : (m.g.node n).alive = true := by
  unfold ustep at he
  split at he
  · cases he
  · split at he
    case h_2 => cases he
    simp only at he
    split at he
    · rename_i hc
      rw [Bool.and_eq_true] at hc
      exact (valid_alive (List.all_eq_true.1 hc.1 n hn)).2
    · cases he

theorem after_none {w : Nat} {l : List Nat} (h : after w l = none) : w ∉ l := by
  induction l with
  | nil => simp
  | cons x l ih =>
    simp only [after] at h
    split at h
    · cases h
    · rename_i hne
      simp only [List.mem_cons, not_or]
      exact ⟨fun e => hne e.symm, ih h⟩

/-! ### Transducers -/

theorem Inv.inputs {m : M V S} (h : Inv m) {n : Nat} (ha : m.Live n)
    (hc : ∀ a, m.Above a n → ¬ m.Uncommitted a) {down up}
    (hk : (m.g.node n).kind = .xform down up) :
    (m.g.node n).input = (m.g.node n).parents.map m.get := by
  have hset : Settled m.g n := by
    refine Classical.byContradiction fun hns => ?_
    rcases h.just n ha (.inr hns) with h1 | ⟨p, hp, hch⟩
    · cases h1
    · have hpc := h.parentClean ha hc hp
      rw [h.clean p hpc.1 hpc.2] at hch
      cases hch
  rw [hset.2 down up hk]
  unfold Graph.currents
  apply List.map_congr_left
  intro p hp
  have hpc := h.parentClean ha hc hp
  exact (h.shows hpc.1 hpc.2).symm

theorem runX_map (f : List V → V) (s : S) (l : List (List V)) :
    (runX (fun s i => (s, [f i])) s l).2 = l.map f := by
  induction l generalizing s with
  | nil => rfl
  | cons i l ih => simp only [runX, List.map_cons, ih]; rfl

theorem runX_filter (p : V → Bool) (s : S) (l : List (List V)) :
    (runX (fun s i => (s, i.filter p)) s l).2 = l.flatten.filter p := by
  induction l generalizing s with
  | nil => rfl
  | cons i l ih => simp only [runX, List.flatten_cons, List.filter_append, ih]

theorem lastOr_getLast? (d : V) (l : List V) : lastOr d l = l.getLast?.getD d := by
  induction l generalizing d with
  | nil => rfl
  | cons v l ih =>
    simp only [lastOr, ih]
    cases l with
    | nil => rfl
    | cons u l =>
      rw [List.getLast?_cons_cons, List.getLast?_eq_some_getLast (List.cons_ne_nil u l)]
      rfl

end Verif.Graph
