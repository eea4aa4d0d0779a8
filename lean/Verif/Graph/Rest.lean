import Verif.Graph.Run

/-
Consequences of the invariant: consistency and notification.
-/

set_option linter.unusedSectionVars false

namespace Verif.Graph

variable {V S : Type} [DecidableEq V]

theorem loose_iff {m : M V S} {n : Nat} : (m.g.node n).loose = true ↔ m.Source n := by
  unfold Node.loose M.Source
  constructor
  · intro h view put r hk; rw [hk] at h; cases h
  · intro h
    split
    · rename_i view put r hk; exact absurd hk (h view put r)
    · rfl

/-- A node with no uncommitted write above it holds no pending change. -/
theorem Inv.clean {m : M V S} (h : Inv m) (n : Nat) (ha : m.Live n)
    (hc : ∀ a, m.Above a n → ¬ m.Uncommitted a) : (m.g.node n).chg = false := by
  induction n using Nat.strongRecOn with
  | ind n ih =>
    cases hx : (m.g.node n).chg with
    | false => rfl
    | true =>
      exfalso
      cases hl : (m.g.node n).loose with
      | true => exact hc n .refl ⟨loose_iff.1 hl, (h.fresh n).1 hx⟩
      | false =>
        rcases h.just n ha (.inl ⟨hx, hl⟩) with h1 | ⟨p, hp, hpc⟩
        · cases h1
        · have := ih p (h.wf.lt n p hp) (h.wf.parentAlive n ha p hp)
            fun a hab => hc a (.step hp hab)
          rw [this] at hpc
          cases hpc

theorem Inv.shows {m : M V S} (h : Inv m) {n : Nat} (ha : m.Live n)
    (hc : ∀ a, m.Above a n → ¬ m.Uncommitted a) : m.get n = m.pending n :=
  (h.fresh n).2.2 (h.clean n ha hc)

theorem Inv.parentClean {m : M V S} (h : Inv m) {n : Nat} (ha : m.Live n)
    (hc : ∀ a, m.Above a n → ¬ m.Uncommitted a) {p : Nat} (hp : p ∈ (m.g.node n).parents) :
    m.Live p ∧ ∀ a, m.Above a p → ¬ m.Uncommitted a :=
  ⟨h.wf.parentAlive n ha p hp, fun a hab => hc a (.step hp hab)⟩

theorem Inv.consistent {m : M V S} (h : Inv m) {n : Nat} (ha : m.Live n)
    (hc : ∀ a, m.Above a n → ¬ m.Uncommitted a) {view put r}
    (hk : (m.g.node n).kind = .calc view put r) {v : V}
    (hv : view ((m.g.node n).parents.map m.get) = some v) : m.get n = v := by
  have hs : Settled m.g n := by
    refine Classical.byContradiction fun hs => ?_
    rcases h.just n ha (.inr hs) with h1 | ⟨p, hp, hpc⟩
    · cases h1
    · have hpp := h.parentClean ha hc hp
      rw [h.clean p hpp.1 hpp.2] at hpc
      cases hpc
  have hcur : m.g.currents (m.g.node n).parents = (m.g.node n).parents.map m.get := by
    apply List.map_congr_left
    intro p hp
    have hpp := h.parentClean ha hc hp
    exact (h.shows hpp.1 hpp.2).symm
  rw [h.shows ha hc]
  exact hs.1 view put r hk v (by rw [hcur]; exact hv)

/-- Types without `operator==` are the exception for notifications. -/
theorem Inv.notDirty {m : M V S} (h : Inv m) {n : Nat} (ha : m.Live n)
    (hc : ∀ a, m.Above a n → ¬ m.Uncommitted a)
    (he : ∀ a, m.Above a n → ¬ m.Source a → (m.g.node a).cmp = true) :
    (m.g.node n).dirty = false := by
  cases hd : (m.g.node n).dirty with
  | false => rfl
  | true =>
    exfalso
    by_cases hs : m.Source n
    · exact hc n .refl ⟨hs, hd⟩
    · have := (h.fresh n).2.1 (he n .refl hs) hd
      rw [h.clean n ha hc] at this
      cases this

/-- At rest nothing is left to be notified. -/
theorem Inv.notified {m : M V S} (h : Inv m) (hr : m.stack = [.user]) (n : Nat) (ha : m.Live n)
    (hc : ∀ a, m.Above a n → ¬ m.Uncommitted a)
    (he : ∀ a, m.Above a n → ¬ m.Source a → (m.g.node a).cmp = true) :
    (m.g.node n).needsNotify = false := by
  induction n using Nat.strongRecOn with
  | ind n ih =>
    cases hn : (m.g.node n).needsNotify with
    | false => rfl
    | true =>
      exfalso
      rcases h.cov n ha hn with ⟨f, hf, hp⟩ | h1 | ⟨p, hp, h1⟩
      · rw [hr] at hf
        have := List.mem_singleton.1 hf
        subst this
        exact hp
      · rw [h.notDirty ha hc he] at h1; cases h1
      · have hpp := h.parentClean ha hc hp
        have hpe : ∀ a, m.Above a p → ¬ m.Source a → (m.g.node a).cmp = true :=
          fun a hab => he a (.step hp hab)
        rcases h1 with h1 | h1
        · rw [ih p (h.wf.lt n p hp) hpp.1 hpp.2 hpe] at h1; cases h1
        · rw [h.notDirty hpp.1 hpp.2 hpe] at h1; cases h1

/-! ### What `send_down` touches -/

theorem recompute_other (g : Graph V S) {n m : Nat} (h : m ≠ n) :
    (g.recompute n).node m = g.node m := (recompute_touch g n).other m h

/-- `send_down` changes only its node and nodes below it. -/
theorem sendDownN_other (k : Nat) (g : Graph V S) (n : Nat) (w : WF g) {m : Nat} (hm : m ≠ n)
    (hp : ∀ p ∈ (g.node m).parents, p < n) : (g.sendDownN k n).node m = g.node m := by
  induction k generalizing g n with
  | zero => rfl
  | succ k ih =>
    simp only [Graph.sendDownN]
    split
    · have hs : Same g ((g.recompute n).publish n) :=
        (recompute_touch g n).same.trans (publish_same _ n)
      have h0 : ((g.recompute n).publish n).node m = g.node m := by
        rw [publish_other _ hm, recompute_other _ hm]
      have walk : ∀ (l : List Nat) (g' : Graph V S), Same g g' → (∀ c ∈ l, n < c ∧ c ≠ m) →
          g'.node m = g.node m →
          (l.foldl (fun g c => if (g.node c).alive then g.sendDownN k c else g) g').node m =
            g.node m := by
        intro l
        induction l with
        | nil => intro g' _ _ h; exact h
        | cons c l ihl =>
          intro g' hs' hl hm'
          simp only [List.foldl_cons]
          have hc := hl c (List.mem_cons_self ..)
          apply ihl
          · split
            · exact hs'.trans (sendDownN_same k g' c)
            · exact hs'
          · exact fun c' hc' => hl c' (List.mem_cons_of_mem _ hc')
          · split
            · rw [ih g' c (hs'.wf w) hc.2.symm ?_, hm']
              intro p hpm
              rw [hs'.parents] at hpm
              have := hp p hpm
              omega
            · exact hm'
      apply walk _ _ hs _ h0
      intro c hc
      rw [hs.children] at hc
      refine ⟨(w.child_lt hc).1, ?_⟩
      intro e
      subst e
      have := hp n (w.child n c hc).1
      omega
    · exact recompute_other _ hm

theorem sendDown_root (g : Graph V S) (n : Nat) (w : WF g) {m : Nat} (hm : m ≠ n)
    (hp : (g.node m).parents = []) : (g.sendDown n).node m = g.node m :=
  sendDownN_other g.size g n w hm (by rw [hp]; simp)

/-- `send_down` from a root leaves the root as `recompute` and `publish` made it. -/
theorem sendDownN_self (k : Nat) (g : Graph V S) (n : Nat) (w : WF g) :
    (g.sendDownN (k + 1) n).node n =
      if ((g.recompute n).node n).dirty then ((g.recompute n).publish n).node n
      else (g.recompute n).node n := by
  simp only [Graph.sendDownN]
  split
  · have hs : Same g ((g.recompute n).publish n) :=
      (recompute_touch g n).same.trans (publish_same _ n)
    have walk : ∀ (l : List Nat) (g' : Graph V S), Same g g' → (∀ c ∈ l, n < c) →
        (l.foldl (fun g c => if (g.node c).alive then g.sendDownN k c else g) g').node n =
          g'.node n := by
      intro l
      induction l with
      | nil => intro g' _ _; rfl
      | cons c l ihl =>
        intro g' hs' hl
        simp only [List.foldl_cons]
        have hc := hl c (List.mem_cons_self ..)
        rw [ihl]
        · split
          · rw [sendDownN_other k g' c (hs'.wf w) (by omega)]
            intro p hp
            rw [hs'.parents] at hp
            have := w.lt n p hp
            omega
          · rfl
        · split
          · exact hs'.trans (sendDownN_same k g' c)
          · exact hs'
        · exact fun c' hc' => hl c' (List.mem_cons_of_mem _ hc')
    apply walk _ _ hs
    intro c hc
    rw [hs.children] at hc
    exact (w.child_lt hc).1
  · rfl

theorem sendDown_self (g : Graph V S) (n : Nat) (w : WF g) (hn : n < g.size) :
    (g.sendDown n).node n =
      if ((g.recompute n).node n).dirty then ((g.recompute n).publish n).node n
      else (g.recompute n).node n := by
  unfold Graph.sendDown
  cases hs : g.size with
  | zero => omega
  | succ k => exact sendDownN_self k g n w

/-- After `send_down`, a state shows its pending value. -/
theorem sendDown_state (g : Graph V S) (n : Nat) (w : WF g) (hf : Fresh g) (hn : n < g.size)
    {auto : Bool} (hk : (g.node n).kind = .state auto) :
    ((g.sendDown n).node n).last = (g.node n).current ∧
    ((g.sendDown n).node n).current = (g.node n).current ∧
    ((g.sendDown n).node n).dirty = false := by
  have hr : g.recompute n = g := by unfold Graph.recompute; rw [hk]
  rw [sendDown_self g n w hn, hr]
  split
  · simp [Graph.publish]
  · rename_i hd
    have hd' : (g.node n).dirty = false := by simpa using hd
    have hx : (g.node n).chg = false := by
      cases hx : (g.node n).chg with
      | false => rfl
      | true => rw [(hf n).1 hx] at hd'; cases hd'
    exact ⟨(hf n).2.2 hx, rfl, hd'⟩

theorem sendAll_same (rs : List Nat) (g : Graph V S) :
    Same g (rs.foldl (fun g r => g.sendDown r) g) := by
  induction rs generalizing g with
  | nil => exact .refl g
  | cons r rs ih => exact (sendDown_moves g r).same.trans (ih _)

theorem sendAll_root (rs : List Nat) (g : Graph V S) (w : WF g) {n : Nat}
    (hp : (g.node n).parents = []) (hn : n ∉ rs) :
    (rs.foldl (fun g r => g.sendDown r) g).node n = g.node n := by
  induction rs generalizing g with
  | nil => rfl
  | cons r rs ih =>
    simp only [List.foldl_cons]
    have hne : n ≠ r := fun e => hn (by rw [e]; exact List.mem_cons_self ..)
    have hnr : n ∉ rs := fun e => hn (List.mem_cons_of_mem _ e)
    have hs := (sendDown_moves g r).same
    rw [ih _ (hs.wf w) (by rw [hs.parents]; exact hp) hnr, sendDown_root g r w hne hp]

/-- After a commit, every state that it lists shows its pending value. -/
theorem sendAll_state (rs : List Nat) (g : Graph V S) (w : WF g) (hf : Fresh g)
    (hr : ∀ r ∈ rs, r < g.size) {n : Nat} {auto : Bool} (hk : (g.node n).kind = .state auto)
    (hp : (g.node n).parents = []) :
    ((rs.foldl (fun g r => g.sendDown r) g).node n).current = (g.node n).current ∧
    (n ∈ rs → ((rs.foldl (fun g r => g.sendDown r) g).node n).last = (g.node n).current ∧
      ((rs.foldl (fun g r => g.sendDown r) g).node n).dirty = false) := by
  induction rs generalizing g with
  | nil => exact ⟨rfl, fun h => by cases h⟩
  | cons r rs ih =>
    simp only [List.foldl_cons]
    have hm := sendDown_moves g r
    have hs := hm.same
    have hrl := hr r (List.mem_cons_self ..)
    obtain ⟨h1, h2⟩ := ih (g.sendDown r) (hs.wf w) (hm.fresh hf)
      (fun r' hr' => by rw [hs.size]; exact hr r' (List.mem_cons_of_mem _ hr'))
      (by rw [hs.kind]; exact hk) (by rw [hs.parents]; exact hp)
    by_cases hn : n = r
    · subst hn
      have h3 := sendDown_state g n w hf hrl hk
      refine ⟨by rw [h1, h3.2.1], fun _ => ?_⟩
      by_cases hnr : n ∈ rs
      · have := h2 hnr
        exact ⟨by rw [this.1, h3.2.1], this.2⟩
      · rw [sendAll_root rs _ (hs.wf w) (by rw [hs.parents]; exact hp) hnr]
        exact ⟨h3.1, h3.2.2⟩
    · have h3 := sendDown_root g r w hn hp
      refine ⟨by rw [h1, h3], fun hmem => ?_⟩
      rcases List.mem_cons.1 hmem with h4 | h4
      · exact absurd h4 hn
      · have := h2 h4
        exact ⟨by rw [this.1, h3], this.2⟩

/-- A commit of roots none of which has a change to publish changes no node, apart from the number of
samples taken by sensors. -/
theorem sendDown_nothing (g : Graph V S) (n : Nat) (hn : n < g.size)
    (hd : ((g.recompute n).node n).dirty = false) : g.sendDown n = g.recompute n := by
  unfold Graph.sendDown
  cases hs : g.size with
  | zero => omega
  | succ k =>
    simp only [Graph.sendDownN]
    rw [hd]; rfl

end Verif.Graph
