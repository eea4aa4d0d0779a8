import Verif.Graph.Inv

/-
Every reachable state satisfies the invariant.
-/

set_option linter.unusedSectionVars false

namespace Verif.Graph

variable {V S : Type} [DecidableEq V]

/-! ### Creating nodes -/

theorem linkAll_node (ps : List Nat) (c : Nat) (g : Graph V S) :
    (g.linkAll ps c).size = g.size ∧ (g.linkAll ps c).ltr = g.ltr ∧
    ∀ n, ∃ k, (g.linkAll ps c).node n =
      { g.node n with children := (g.node n).children ++ List.replicate k c } ∧
      (n ∈ ps ↔ 0 < k) := by
  unfold Graph.linkAll
  induction ps generalizing g with
  | nil => exact ⟨rfl, rfl, fun n => ⟨0, by simp, by simp⟩⟩
  | cons p ps ih =>
    obtain ⟨h1, h2, h3⟩ := ih (g.mod p fun x => { x with children := x.children ++ [c] })
    refine ⟨h1, h2, fun n => ?_⟩
    obtain ⟨k, hk, hm⟩ := h3 n
    by_cases hn : n = p
    · subst hn
      refine ⟨k + 1, ?_, by simp⟩
      rw [List.foldl_cons, hk]
      simp [List.replicate_succ]
    · refine ⟨k, ?_, ?_⟩
      · rw [List.foldl_cons, hk]
        simp [Graph.mod_ne _ _ hn]
      · rw [List.mem_cons]
        simp [hn, hm]

theorem add_size (g : Graph V S) (x : Node V S) : (g.add x).size = g.size + 1 :=
  (linkAll_node _ _ _).1

theorem add_new (g : Graph V S) (x : Node V S) (hp : ∀ p ∈ x.parents, p < g.size) :
    (g.add x).node g.size = x := by
  obtain ⟨k, hk, hm⟩ := (linkAll_node x.parents g.size
    { g with size := g.size + 1, node := fun m => if m = g.size then x else g.node m }).2.2 g.size
  have h0 : k = 0 := by
    apply Nat.eq_zero_of_not_pos
    intro hpos
    exact Nat.lt_irrefl _ (hp _ (hm.2 hpos))
  subst h0
  unfold Graph.add
  rw [hk]
  simp

theorem add_old (g : Graph V S) (x : Node V S) {n : Nat} (hn : n ≠ g.size) :
    ∃ k, (g.add x).node n =
      { g.node n with children := (g.node n).children ++ List.replicate k g.size } ∧
      (n ∈ x.parents ↔ 0 < k) := by
  obtain ⟨k, hk, hm⟩ := (linkAll_node x.parents g.size
    { g with size := g.size + 1, node := fun m => if m = g.size then x else g.node m }).2.2 n
  refine ⟨k, ?_, hm⟩
  unfold Graph.add
  rw [hk]
  simp [hn]

/-- Creating a node keeps the invariant. -/
theorem Inv.add {m : M V S} (h : Inv m) (x : Node V S)
    (hp : ∀ p ∈ x.parents, (m.g.node p).alive = true) (hd : x.dirty = false) (hx : x.chg = false)
    (hn : x.needsNotify = false) (hnf : x.notifying = false) (ho : x.obs = [])
    (hc : x.children = []) (hl : x.last = x.current)
    (hs : ∀ view put r, x.kind = .calc view put r → ∀ v, view (m.g.currents x.parents) = some v →
      x.current = v)
    (hsx : ∀ down up, x.kind = .xform down up → x.input = m.g.currents x.parents) :
    Inv { m with g := m.g.add x } := by
  have hpl : ∀ p ∈ x.parents, p < m.g.size := fun p hpp => h.wf.alive_lt (hp p hpp)
  have hnew := add_new m.g x hpl
  have hsz := add_size m.g x
  have hold : ∀ n, n ≠ m.g.size → _ := fun n hn => add_old m.g x hn
  have hcur : ∀ n, n ≠ m.g.size → ((m.g.add x).node n).current = (m.g.node n).current := by
    intro n hne; obtain ⟨k, hk, _⟩ := hold n hne; rw [hk]
  have hlast : ∀ n, n ≠ m.g.size → ((m.g.add x).node n).last = (m.g.node n).last := by
    intro n hne; obtain ⟨k, hk, _⟩ := hold n hne; rw [hk]
  have hdir : ∀ n, n ≠ m.g.size → ((m.g.add x).node n).dirty = (m.g.node n).dirty := by
    intro n hne; obtain ⟨k, hk, _⟩ := hold n hne; rw [hk]
  have hchg : ∀ n, n ≠ m.g.size → ((m.g.add x).node n).chg = (m.g.node n).chg := by
    intro n hne; obtain ⟨k, hk, _⟩ := hold n hne; rw [hk]
  have halv : ∀ n, n ≠ m.g.size → ((m.g.add x).node n).alive = (m.g.node n).alive := by
    intro n hne; obtain ⟨k, hk, _⟩ := hold n hne; rw [hk]
  have hpar : ∀ n, n ≠ m.g.size → ((m.g.add x).node n).parents = (m.g.node n).parents := by
    intro n hne; obtain ⟨k, hk, _⟩ := hold n hne; rw [hk]
  have hknd : ∀ n, n ≠ m.g.size → ((m.g.add x).node n).kind = (m.g.node n).kind := by
    intro n hne; obtain ⟨k, hk, _⟩ := hold n hne; rw [hk]
  have hcmp : ∀ n, n ≠ m.g.size → ((m.g.add x).node n).cmp = (m.g.node n).cmp := by
    intro n hne; obtain ⟨k, hk, _⟩ := hold n hne; rw [hk]
  have hnn : ∀ n, n ≠ m.g.size → ((m.g.add x).node n).needsNotify = (m.g.node n).needsNotify := by
    intro n hne; obtain ⟨k, hk, _⟩ := hold n hne; rw [hk]
  have hobs : ∀ n, n ≠ m.g.size → ((m.g.add x).node n).obs = (m.g.node n).obs := by
    intro n hne; obtain ⟨k, hk, _⟩ := hold n hne; rw [hk]
  have hnot : ∀ n, n ≠ m.g.size → ((m.g.add x).node n).notifying = (m.g.node n).notifying := by
    intro n hne; obtain ⟨k, hk, _⟩ := hold n hne; rw [hk]
  have hinp : ∀ n, n ≠ m.g.size → ((m.g.add x).node n).input = (m.g.node n).input := by
    intro n hne; obtain ⟨k, hk, _⟩ := hold n hne; rw [hk]
  have hparlt : ∀ n, n ≠ m.g.size → ∀ p ∈ (m.g.node n).parents, p ≠ m.g.size := by
    intro n hne p hpp he
    have h1 := h.wf.lt n p hpp
    by_cases h2 : m.g.size ≤ n
    · rw [(h.wf.unused n h2).2.2] at hpp; cases hpp
    · omega
  have hcurs : ∀ n, n ≠ m.g.size →
      (m.g.add x).currents (m.g.node n).parents = m.g.currents (m.g.node n).parents :=
    fun n hne => List.map_congr_left fun p hpp => hcur p (hparlt n hne p hpp)
  have hchsub : ∀ n c, c ∈ (m.g.node n).children → c ∈ ((m.g.add x).node n).children := by
    intro n c hcm
    by_cases hne : n = m.g.size
    · rw [hne, (h.wf.unused _ (Nat.le_refl _)).2.1] at hcm; cases hcm
    · obtain ⟨k, hk, _⟩ := hold n hne; rw [hk]; exact List.mem_append_left _ hcm
  have hset : ∀ n, n ≠ m.g.size → (Settled (m.g.add x) n ↔ Settled m.g n) := by
    intro n hne
    unfold Settled
    rw [hknd n hne, hpar n hne, hcurs n hne, hcur n hne, hinp n hne]
  have hloose : ∀ n, n ≠ m.g.size →
      ((m.g.add x).node n).loose = (m.g.node n).loose := by
    intro n hne; unfold Node.loose; rw [hknd n hne]
  have hstale : ∀ n, (m.g.node n).alive = true → n ≠ m.g.size := by
    intro n han he
    have := h.wf.alive_lt han
    omega
  have hframes : ∀ f ∈ m.stack, ∀ n ∈ f.holds, n ≠ m.g.size :=
    fun f hf n hn => hstale n (h.stack.holds f hf n hn)
  refine ⟨?_, ?_, ?_, ?_, ?_, ?_⟩
  · -- WF
    refine ⟨?_, ?_, ?_, ?_, ?_⟩
    · intro n hn'
      simp only [hsz] at hn'
      have hne : n ≠ m.g.size := by omega
      obtain ⟨k, hk, hm⟩ := hold n hne
      obtain ⟨h1, h2, h3⟩ := h.wf.unused n (by omega)
      have hk0 : k = 0 := by
        apply Nat.eq_zero_of_not_pos
        intro hpos
        have := hpl n (hm.2 hpos)
        omega
      simp only [hk, hk0]
      exact ⟨h1, by simp [h2], h3⟩
    · intro n p hpp
      by_cases hne : n = m.g.size
      · subst hne; rw [hnew] at hpp; exact hpl p hpp
      · rw [hpar n hne] at hpp; exact h.wf.lt n p hpp
    · intro n han p hpp
      by_cases hne : n = m.g.size
      · subst hne
        rw [hnew] at hpp
        have := hp p hpp
        rw [halv p (hstale p this)]; exact this
      · rw [hpar n hne] at hpp
        rw [halv n hne] at han
        rw [halv p (hparlt n hne p hpp)]
        exact h.wf.parentAlive n han p hpp
    · intro n han p hpp
      by_cases hne : n = m.g.size
      · subst hne
        rw [hnew] at hpp
        obtain ⟨k, hk, hm⟩ := hold p (hstale p (hp p hpp))
        have hpos := hm.1 hpp
        rw [hk]
        apply List.mem_append_right
        rw [List.mem_replicate]
        exact ⟨by omega, rfl⟩
      · rw [hpar n hne] at hpp
        rw [halv n hne] at han
        exact hchsub p n (h.wf.linked n han p hpp)
    · intro p c hcm
      show _ ∧ c < (m.g.add x).size
      rw [hsz]
      by_cases hne : p = m.g.size
      · subst hne; rw [hnew, hc] at hcm; cases hcm
      · obtain ⟨k, hk, hm⟩ := hold p hne
        simp only [hk] at hcm
        rcases List.mem_append.1 hcm with h1 | h1
        · have h2 := h.wf.child p c h1
          rw [hpar c (by omega)]
          exact ⟨h2.1, by omega⟩
        · rw [List.mem_replicate] at h1
          rw [h1.2, hnew]
          exact ⟨hm.2 (by omega), by omega⟩
  · intro n
    by_cases hne : n = m.g.size
    · subst hne; rw [hnew]; exact ⟨fun hh => (by rw [hx] at hh; cases hh), fun _ hh => (by rw [hd] at hh; cases hh), fun _ => hl⟩
    · rw [hdir n hne, hcmp n hne, hchg n hne, hlast n hne, hcur n hne]; exact h.fresh n
  · intro n han hbad
    by_cases hne : n = m.g.size
    · subst hne
      exfalso
      rcases hbad with ⟨h1, _⟩ | h1
      · rw [hnew, hx] at h1; cases h1
      · apply h1
        have hcx : (m.g.add x).currents x.parents = m.g.currents x.parents :=
          List.map_congr_left fun p hpp => hcur p (hstale p (hp p hpp))
        unfold Settled
        rw [hnew, hcx]
        exact ⟨hs, hsx⟩
    · rw [halv n hne] at han
      rw [hchg n hne, hloose n hne, hset n hne] at hbad
      rw [hpar n hne]
      rcases h.just n han hbad with h1 | ⟨p, hpp, hpd⟩
      · exact .inl h1
      · exact .inr ⟨p, hpp, by rw [hchg p (hparlt n hne p hpp)]; exact hpd⟩
  · intro n han hnt
    by_cases hne : n = m.g.size
    · subst hne; rw [hnew, hn] at hnt; cases hnt
    · rw [halv n hne] at han
      rw [hnn n hne] at hnt
      rw [hdir n hne, hpar n hne]
      rcases h.cov n han hnt with ⟨f, hf, hpf⟩ | h1 | ⟨p, hpp, h1⟩
      · left
        refine ⟨f, hf, ?_⟩
        cases f with
        | obs k _ _ => exact hchsub k n hpf
        | kids k i size prev garbage =>
          have hkne := hframes _ hf k (by simp [Frame.holds])
          obtain ⟨j, hj, _⟩ := hold k hkne
          have hlen := (h.stack.kids k i size prev garbage hf).2
          show n ∈ (((m.g.add x).node k).children.take size).drop i
          rw [hj]
          simp only
          rw [List.take_append_of_le_length hlen]
          exact hpf
        | notify _ => exact hpf
        | roots _ => exact hpf
        | user => exact hpf
        | up _ _ => exact hpf
        | ups _ => exact hpf
        | setterRest _ _ => exact hpf
      · exact .inr (.inl h1)
      · refine .inr (.inr ⟨p, hpp, ?_⟩)
        have := hparlt n hne p hpp
        rw [hnn p this, hdir p this]; exact h1
  · refine ⟨?_, ?_, h.stack.guards, ?_, ?_, h.stack.base⟩
    · intro f hf n hnf'
      rw [halv n (hframes f hf n hnf')]
      exact h.stack.holds f hf n hnf'
    · intro n i size prev garbage hf
      have := h.stack.kids n i size prev garbage hf
      obtain ⟨k, hk, _⟩ := hold n (hframes _ hf n (by simp [Frame.holds]))
      rw [hk]
      simp only [List.length_append]
      omega
    · intro n
      by_cases hne : n = m.g.size
      · subst hne
        show _ = active m.g.size m.stack
        rw [hnew, hnf]
        symm
        unfold active
        rw [List.any_eq_false]
        intro f hf hin
        have hmem : m.g.size ∈ f.holds := by
          cases f <;> simp_all [Frame.inNotify, Frame.holds]
        exact hframes f hf _ hmem rfl
      · rw [hnot n hne]; exact h.stack.notifying n
    · intro n v hf
      rw [hknd n (hframes _ hf n (by simp [Frame.holds]))]
      exact h.stack.setters n v hf
  · have hob' : ∀ n w, w ∈ ((m.g.add x).node n).obs → n ≠ m.g.size ∧ w ∈ (m.g.node n).obs := by
      intro n w hw
      by_cases hne : n = m.g.size
      · subst hne; rw [hnew, ho] at hw; cases hw
      · rw [hobs n hne] at hw; exact ⟨hne, hw⟩
    refine ⟨?_, fun n w hw => h.obs.lt n w (hob' n w hw).2,
      fun n n' w h1 h2 => h.obs.uniq n n' w (hob' n w h1).2 (hob' n' w h2).2, ?_⟩
    · intro n
      by_cases hne : n = m.g.size
      · subst hne; rw [hnew, ho]; exact List.nodup_nil
      · rw [hobs n hne]; exact h.obs.nodup n
    · intro n w hw
      obtain ⟨hne, hw'⟩ := hob' n w hw
      rw [hlast n hne, hnn n hne, hobs n hne]
      exact h.obs.seen n w hw'

/-! ### Attaching and detaching callbacks, destroying nodes -/

theorem after_insert {w x : Nat} {l : List Nat} (hx : x ∉ l) (hwx : w ≠ x) (i : Nat)
    {rest' : List Nat} (h : after w (l.take i ++ x :: l.drop i) = some rest') :
    ∃ rest, after w l = some rest ∧ ∀ y ∈ rest, y ∈ rest' := by
  induction l generalizing i with
  | nil =>
    rw [List.take_nil, List.drop_nil, List.nil_append] at h
    simp [after, Ne.symm hwx] at h
  | cons y l ih =>
    cases i with
    | zero =>
      rw [List.take_zero, List.nil_append, List.drop_zero] at h
      rw [after, if_neg (Ne.symm hwx)] at h
      exact ⟨rest', h, fun _ => id⟩
    | succ i =>
      rw [List.take_succ_cons, List.drop_succ_cons, List.cons_append] at h
      simp only [after] at h ⊢
      by_cases hy : y = w
      · rw [if_pos hy] at h ⊢
        refine ⟨l, rfl, fun z hz => ?_⟩
        cases h
        rw [← List.take_append_drop i l] at hz
        rcases List.mem_append.1 hz with h1 | h1
        · exact List.mem_append_left _ h1
        · exact List.mem_append_right _ (List.mem_cons_of_mem _ h1)
      · rw [if_neg hy] at h ⊢
        exact ih (fun hh => hx (List.mem_cons_of_mem _ hh)) i h

theorem after_filter {w x : Nat} {l rest' : List Nat}
    (h : after w (l.filter (· ≠ x)) = some rest') :
    ∃ rest, after w l = some rest ∧ rest' = rest.filter (· ≠ x) := by
  induction l with
  | nil => cases h
  | cons y l ih =>
    by_cases hy : y = x
    · rw [List.filter_cons_of_neg (by simp [hy])] at h
      have hmem : ∀ {l r}, after w l = some r → w ∈ l := by
        intro l
        induction l with
        | nil => intro r hh; cases hh
        | cons z l ihl =>
          intro r hh
          simp only [after] at hh
          split at hh
          · rename_i e; rw [e]; exact List.mem_cons_self ..
          · exact List.mem_cons_of_mem _ (ihl hh)
      have hwx : w ≠ x := by
        have := (List.mem_filter.1 (hmem h)).2
        simpa using this
      obtain ⟨rest, h1, h2⟩ := ih h
      refine ⟨rest, ?_, h2⟩
      simp only [after]
      rw [if_neg (fun e => hwx (by rw [← e, hy])), h1]
    · rw [List.filter_cons_of_pos (by simp [hy])] at h
      simp only [after] at h ⊢
      by_cases hw : y = w
      · rw [if_pos hw] at h ⊢
        cases h
        exact ⟨l, rfl, rfl⟩
      · rw [if_neg hw] at h ⊢
        exact ih h

/-- Changes of the callback lists only. -/
theorem Inv.obsChange {m m' : M V S} (h : Inv m) (hst : m'.stack = m.stack) {n : Nat}
    {f : Node V S → List Nat} (hg : m'.g = m.g.mod n fun x => { x with obs := f x })
    (ho : ObsOK m') : Inv m' := by
  have hq : Quiet m.g m'.g := by rw [hg]; exact quiet_mod rfl rfl rfl rfl rfl rfl rfl rfl rfl
  have hch : ∀ k, (m'.g.node k).children = (m.g.node k).children := by
    intro k; rw [hg, Graph.mod_node]; split <;> rfl
  have hnn : ∀ k, (m'.g.node k).needsNotify = (m.g.node k).needsNotify := by
    intro k; rw [hg, Graph.mod_node]; split <;> rfl
  have hnf : ∀ k, (m'.g.node k).notifying = (m.g.node k).notifying := by
    intro k; rw [hg, Graph.mod_node]; split <;> rfl
  refine ⟨hq.wf h.wf (fun k c hc => by rw [hch] at hc; exact hc)
    (fun k c _ hc => by rw [hch]; exact hc), hq.fresh h.fresh, hq.justified h.just, ?_, ?_, ho⟩
  · intro k ha hn
    rw [hq.alive] at ha
    rw [hnn] at hn
    rw [hq.dirty, hq.parents, hst, pending_same hch]
    rcases h.cov k ha hn with h1 | h1 | ⟨p, hp, h1⟩
    · exact .inl h1
    · exact .inr (.inl h1)
    · exact .inr (.inr ⟨p, hp, by rw [hnn, hq.dirty]; exact h1⟩)
  · rw [hst]
    refine ⟨?_, ?_, h.stack.guards, ?_, ?_, h.stack.base⟩
    · intro f hf k hk; rw [hq.alive]; exact h.stack.holds f hf k hk
    · intro k i size prev garbage hf; rw [hch]; exact h.stack.kids k i size prev garbage hf
    · intro k; rw [hnf]; exact h.stack.notifying k
    · intro k v hf; rw [hq.kind]; exact h.stack.setters k v hf

theorem valid_alive {g : Graph V S} {n : Nat} (h : g.valid n = true) :
    n < g.size ∧ (g.node n).alive = true := by
  simpa [Graph.valid] using h

theorem Inv.attach {m : M V S} (h : Inv m) (n i : Nat) : Inv { m with
    g := m.g.mod n fun x => { x with obs := x.obs.take i ++ m.nextW :: x.obs.drop i }
    nextW := m.nextW + 1
    seen := fun w => if w = m.nextW then some (m.g.node n).last else m.seen w } := by
  refine h.obsChange rfl (n := n)
    (f := fun x => x.obs.take i ++ m.nextW :: x.obs.drop i) rfl ?_
  have hnotin : ∀ k, m.nextW ∉ (m.g.node k).obs := fun k hk =>
    Nat.lt_irrefl _ (h.obs.lt k _ hk)
  have hmem : ∀ k w, w ∈ ((m.g.mod n fun x =>
      { x with obs := x.obs.take i ++ m.nextW :: x.obs.drop i }).node k).obs →
      (w = m.nextW ∧ k = n) ∨ (w ≠ m.nextW ∧ w ∈ (m.g.node k).obs) := by
    intro k w hw
    have key : w ∈ (m.g.node k).obs → w ≠ m.nextW := fun hh e => hnotin k (by rw [← e]; exact hh)
    rw [Graph.mod_node] at hw
    by_cases hk : k = n
    · rw [if_pos hk] at hw
      simp only at hw
      rcases List.mem_append.1 hw with h1 | h1
      · have := List.mem_of_mem_take h1
        exact .inr ⟨key this, this⟩
      · rcases List.mem_cons.1 h1 with h2 | h2
        · exact .inl ⟨h2, hk⟩
        · have := List.mem_of_mem_drop h2
          exact .inr ⟨key this, this⟩
    · rw [if_neg hk] at hw
      exact .inr ⟨key hw, hw⟩
  refine ⟨?_, ?_, ?_, ?_⟩
  · intro k
    simp only [Graph.mod_node]
    by_cases hk : k = n
    · rw [if_pos hk]
      simp only
      have hnd := h.obs.nodup k
      have hni := hnotin k
      rw [← List.take_append_drop i (m.g.node k).obs] at hnd hni
      rw [List.nodup_append] at hnd ⊢
      refine ⟨hnd.1, ?_, ?_⟩
      · rw [List.nodup_cons]
        exact ⟨fun hh => hni (List.mem_append_right _ hh), hnd.2.1⟩
      · intro a ha b hb
        rcases List.mem_cons.1 hb with h1 | h1
        · intro e
          apply hni
          rw [← h1, ← e]
          exact List.mem_append_left _ ha
        · exact hnd.2.2 a ha b h1
    · rw [if_neg hk]; exact h.obs.nodup k
  · intro k w hw
    rcases hmem k w hw with ⟨h1, _⟩ | ⟨_, h1⟩
    · show w < m.nextW + 1; omega
    · have := h.obs.lt k w h1
      show w < m.nextW + 1; omega
  · intro k k' w h1 h2
    rcases hmem k w h1 with ⟨h3, h4⟩ | ⟨h3, h4⟩
    · rcases hmem k' w h2 with ⟨h5, h6⟩ | ⟨h5, h6⟩
      · rw [h4, h6]
      · exact absurd h3 h5
    · rcases hmem k' w h2 with ⟨h5, h6⟩ | ⟨h5, h6⟩
      · exact absurd h5 h3
      · exact h.obs.uniq k k' w h4 h6
  · intro k w hw
    have hlast : ((m.g.mod n fun x =>
        { x with obs := x.obs.take i ++ m.nextW :: x.obs.drop i }).node k).last =
        (m.g.node k).last := by rw [Graph.mod_node]; split <;> rfl
    have hnn : ((m.g.mod n fun x =>
        { x with obs := x.obs.take i ++ m.nextW :: x.obs.drop i }).node k).needsNotify =
        (m.g.node k).needsNotify := by rw [Graph.mod_node]; split <;> rfl
    simp only [hlast, hnn]
    rcases hmem k w hw with ⟨h1, h2⟩ | ⟨h1, h2⟩
    · left; rw [if_pos h1, h2]
    · rw [if_neg h1]
      rcases h.obs.seen k w h2 with h3 | h3 | ⟨cur, prev, h3, h4⟩
      · exact .inl h3
      · exact .inr (.inl h3)
      · refine .inr (.inr ⟨cur, prev, h3, fun c hc => Nat.lt_succ_of_lt (h4.1 c hc), ?_⟩)
        intro rest' hr
        rw [Graph.mod_node] at hr
        by_cases hk : k = n
        · rw [if_pos hk] at hr
          simp only at hr
          cases cur with
          | none =>
            cases hr
            rw [← List.take_append_drop i (m.g.node k).obs] at h2
            rcases List.mem_append.1 h2 with h5 | h5
            · exact List.mem_append_left _ h5
            · exact List.mem_append_right _ (List.mem_cons_of_mem _ h5)
          | some c =>
            by_cases hcw : c = m.nextW
            · exact absurd (h4.1 c rfl) (by omega)
            · obtain ⟨rest, h5, h6⟩ := after_insert (hnotin k) hcw i hr
              exact h6 w (h4.2 rest h5)
        · rw [if_neg hk] at hr
          exact h4.2 rest' hr

theorem Inv.detach {m : M V S} (h : Inv m) (n w : Nat) : Inv { m with
    g := m.g.mod n fun x => { x with obs := x.obs.filter (· ≠ w) } } := by
  refine h.obsChange rfl (n := n) (f := fun x => x.obs.filter (· ≠ w)) rfl ?_
  have hmem : ∀ k x, x ∈ ((m.g.mod n fun x => { x with obs := x.obs.filter (· ≠ w) }).node k).obs →
      x ∈ (m.g.node k).obs ∧ (k = n → x ≠ w) := by
    intro k x hx
    rw [Graph.mod_node] at hx
    by_cases hk : k = n
    · rw [if_pos hk] at hx
      have := List.mem_filter.1 hx
      exact ⟨this.1, fun _ => by simpa using this.2⟩
    · rw [if_neg hk] at hx
      exact ⟨hx, fun e => absurd e hk⟩
  refine ⟨?_, fun k x hx => h.obs.lt k x (hmem k x hx).1,
    fun k k' x h1 h2 => h.obs.uniq k k' x (hmem k x h1).1 (hmem k' x h2).1, ?_⟩
  · intro k
    simp only [Graph.mod_node]
    split
    · exact (h.obs.nodup k).filter _
    · exact h.obs.nodup k
  · intro k x hx
    obtain ⟨h1, h2⟩ := hmem k x hx
    have hlast : ((m.g.mod n fun x => { x with obs := x.obs.filter (· ≠ w) }).node k).last =
        (m.g.node k).last := by rw [Graph.mod_node]; split <;> rfl
    have hnn : ((m.g.mod n fun x => { x with obs := x.obs.filter (· ≠ w) }).node k).needsNotify =
        (m.g.node k).needsNotify := by rw [Graph.mod_node]; split <;> rfl
    simp only [hlast, hnn]
    rcases h.obs.seen k x h1 with h3 | h3 | ⟨cur, prev, h3, h4, h5⟩
    · exact .inl h3
    · exact .inr (.inl h3)
    · refine .inr (.inr ⟨cur, prev, h3, h4, ?_⟩)
      intro rest' hr
      rw [Graph.mod_node] at hr
      by_cases hk : k = n
      · rw [if_pos hk] at hr
        have hxw := h2 hk
        cases cur with
        | none =>
          cases hr
          exact List.mem_filter.2 ⟨h1, by simpa using hxw⟩
        | some c =>
          obtain ⟨rest, h6, h7⟩ := after_filter hr
          rw [h7]
          exact List.mem_filter.2 ⟨h5 rest h6, by simpa using hxw⟩
      · rw [if_neg hk] at hr
        exact h5 rest' hr

/-- Destroying a node, with a stack that does not hold it. -/
theorem Inv.killTo {m : M V S} (h : Inv m) (n : Nat) (st : List (Frame V))
    (hc : ∀ c, c < m.g.size → (m.g.node c).alive = true → n ∉ (m.g.node c).parents)
    (hso : StackOK m.g st) (hf : ∀ f ∈ st, n ∉ f.holds)
    (hpend : ∀ k, k ≠ n → pending m.g m.stack k → pending m.g st k)
    (hobs : ∀ k cur prev, Frame.obs k cur prev ∈ m.stack → Frame.obs k cur prev ∈ st) :
    Inv { m with
      g := m.g.mod n fun x => { x with alive := false, obs := [] }
      stack := st } := by
  have hnode : ∀ k, k ≠ n → (m.g.mod n fun x => { x with alive := false, obs := [] }).node k =
      m.g.node k := fun k hk => Graph.mod_ne _ _ hk
  have hself : (m.g.mod n fun x => { x with alive := false, obs := [] }).node n =
      { m.g.node n with alive := false, obs := [] } := Graph.mod_self ..
  have hal : ∀ k, ((m.g.mod n fun x => { x with alive := false, obs := [] }).node k).alive = true →
      k ≠ n ∧ (m.g.node k).alive = true := by
    intro k ha
    by_cases hk : k = n
    · rw [hk, hself] at ha; cases ha
    · rw [hnode k hk] at ha; exact ⟨hk, ha⟩
  have hch : ∀ k, ((m.g.mod n fun x => { x with alive := false, obs := [] }).node k).children =
      (m.g.node k).children := by intro k; rw [Graph.mod_node]; split <;> rfl
  have hpar : ∀ k, ((m.g.mod n fun x => { x with alive := false, obs := [] }).node k).parents =
      (m.g.node k).parents := by intro k; rw [Graph.mod_node]; split <;> rfl
  have hcur : ∀ k, ((m.g.mod n fun x => { x with alive := false, obs := [] }).node k).current =
      (m.g.node k).current := by intro k; rw [Graph.mod_node]; split <;> rfl
  have hlast : ∀ k, ((m.g.mod n fun x => { x with alive := false, obs := [] }).node k).last =
      (m.g.node k).last := by intro k; rw [Graph.mod_node]; split <;> rfl
  have hdir : ∀ k, ((m.g.mod n fun x => { x with alive := false, obs := [] }).node k).dirty =
      (m.g.node k).dirty := by intro k; rw [Graph.mod_node]; split <;> rfl
  have hcmp : ∀ k, ((m.g.mod n fun x => { x with alive := false, obs := [] }).node k).cmp =
      (m.g.node k).cmp := by intro k; rw [Graph.mod_node]; split <;> rfl
  have hchg : ∀ k, ((m.g.mod n fun x => { x with alive := false, obs := [] }).node k).chg =
      (m.g.node k).chg := by intro k; rw [Graph.mod_node]; split <;> rfl
  have hnn : ∀ k, ((m.g.mod n fun x => { x with alive := false, obs := [] }).node k).needsNotify =
      (m.g.node k).needsNotify := by intro k; rw [Graph.mod_node]; split <;> rfl
  have hnf : ∀ k, ((m.g.mod n fun x => { x with alive := false, obs := [] }).node k).notifying =
      (m.g.node k).notifying := by intro k; rw [Graph.mod_node]; split <;> rfl
  have hinp : ∀ k, ((m.g.mod n fun x => { x with alive := false, obs := [] }).node k).input =
      (m.g.node k).input := by intro k; rw [Graph.mod_node]; split <;> rfl
  have hkd : ∀ k, ((m.g.mod n fun x => { x with alive := false, obs := [] }).node k).kind =
      (m.g.node k).kind := by intro k; rw [Graph.mod_node]; split <;> rfl
  refine ⟨⟨?_, ?_, ?_, ?_, ?_⟩, ?_, ?_, ?_, ?_, ?_⟩
  · intro k hk
    obtain ⟨h1, h2, h3⟩ := h.wf.unused k hk
    rw [hch, hpar]
    refine ⟨?_, h2, h3⟩
    by_cases hkn : k = n
    · rw [hkn, hself]
    · rw [hnode k hkn]; exact h1
  · intro k p hp; rw [hpar] at hp; exact h.wf.lt k p hp
  · intro k ha p hp
    rw [hpar] at hp
    obtain ⟨_, ha'⟩ := hal k ha
    have hpn : p ≠ n := fun e => hc k (h.wf.alive_lt ha') ha' (by rw [← e]; exact hp)
    rw [hnode p hpn]
    exact h.wf.parentAlive k ha' p hp
  · intro k ha p hp
    rw [hpar] at hp
    rw [hch]
    exact h.wf.linked k (hal k ha).2 p hp
  · intro p c hcm
    rw [hch] at hcm
    rw [hpar]
    exact h.wf.child p c hcm
  · intro k
    rw [hdir, hcmp, hchg, hlast, hcur]
    exact h.fresh k
  · intro k ha hbad
    obtain ⟨hk, ha'⟩ := hal k ha
    rw [hpar]
    have hs : Settled (m.g.mod n fun x => { x with alive := false, obs := [] }) k ↔
        Settled m.g k := by
      unfold Settled
      rw [hkd, hpar, hcur, hinp]
      have : (m.g.mod n fun x => { x with alive := false, obs := [] }).currents
          (m.g.node k).parents = m.g.currents (m.g.node k).parents :=
        List.map_congr_left fun p _ => hcur p
      rw [this]
    rw [hs, hnode k hk] at hbad
    rcases h.just k ha' hbad with h1 | ⟨p, hp, hd⟩
    · exact .inl h1
    · exact .inr ⟨p, hp, by rw [hchg]; exact hd⟩
  · intro k ha hn
    obtain ⟨hk, ha'⟩ := hal k ha
    rw [hnn] at hn
    rw [hdir, hpar, pending_same hch]
    rcases h.cov k ha' hn with h1 | h1 | ⟨p, hp, h1⟩
    · exact .inl (hpend k hk h1)
    · exact .inr (.inl h1)
    · exact .inr (.inr ⟨p, hp, by rw [hnn, hdir]; exact h1⟩)
  · refine ⟨?_, ?_, hso.guards, ?_, ?_, hso.base⟩
    · intro f hff k hk
      have hkn : k ≠ n := fun e => hf f hff (by rw [← e]; exact hk)
      rw [hnode k hkn]
      exact hso.holds f hff k hk
    · intro k i size prev garbage hff; rw [hch]; exact hso.kids k i size prev garbage hff
    · intro k; rw [hnf]; exact hso.notifying k
    · intro k v hff; rw [hkd]; exact hso.setters k v hff
  · have hob : ∀ k w, w ∈ ((m.g.mod n fun x =>
        { x with alive := false, obs := [] }).node k).obs → k ≠ n ∧ w ∈ (m.g.node k).obs := by
      intro k w hw
      by_cases hk : k = n
      · rw [hk, hself] at hw; cases hw
      · rw [hnode k hk] at hw; exact ⟨hk, hw⟩
    refine ⟨?_, fun k w hw => h.obs.lt k w (hob k w hw).2,
      fun k k' w h1 h2 => h.obs.uniq k k' w (hob k w h1).2 (hob k' w h2).2, ?_⟩
    · intro k
      by_cases hk : k = n
      · simp only [hk, hself]; exact List.nodup_nil
      · simp only [hnode k hk]; exact h.obs.nodup k
    · intro k w hw
      obtain ⟨hk, hw'⟩ := hob k w hw
      show m.seen w = _ ∨ _
      simp only [hnode k hk]
      rcases h.obs.seen k w hw' with h1 | h1 | ⟨cur, prev, h1, h2⟩
      · exact .inl h1
      · exact .inr (.inl h1)
      · exact .inr (.inr ⟨cur, prev, hobs _ _ _ h1, h2⟩)

theorem Inv.kill {m : M V S} (h : Inv m) (n : Nat)
    (hc : ∀ c, c < m.g.size → (m.g.node c).alive = true → n ∉ (m.g.node c).parents)
    (hf : ∀ f ∈ m.stack, n ∉ f.holds) :
    Inv { m with g := m.g.mod n fun x => { x with alive := false, obs := [] } } :=
  h.killTo n m.stack hc h.stack hf (fun _ _ hp => hp) (fun _ _ _ hm => hm)

/-! ### All steps -/

theorem freshNode_inv {m : M V S} (h : Inv m) (kind : Kind V S) (ps : List Nat) (v : V)
    (cmp : Bool) (s0 u0 : S) (hp : ∀ p ∈ ps, (m.g.node p).alive = true)
    (hs : ∀ view put r, kind = .calc view put r → ∀ x, view (m.g.currents ps) = some x → v = x)
    (hx : ∀ down up, kind ≠ .xform down up) :
    Inv { m with g := m.g.add (freshNode kind ps v cmp s0 u0) } :=
  h.add _ hp rfl rfl rfl rfl rfl rfl rfl hs (fun down up hk => absurd hk (hx down up))

theorem all_valid {g : Graph V S} {ps : List Nat} (h : ps.all g.valid = true) :
    ∀ p ∈ ps, (g.node p).alive = true := fun p hp =>
  (valid_alive (List.all_eq_true.1 h p hp)).2

theorem ustep_inv [Inhabited S] {m m' : M V S} (h : Inv m) (op : Op V S)
    (he : ustep m op = some m') : Inv m' := by
  unfold ustep at he
  split at he
  · cases he
  · split at he
    case h_2 => cases he
    rename_i st hst
    have hbase := h.stack.base
    rw [hst] at hbase
    have push : ∀ (f : Frame V) (g' : Graph V S) (N : Nat → Prop), f.light = true →
        (∀ n ∈ f.holds, (m.g.node n).alive = true) → (∀ n v, f ≠ .setterRest n v) →
        Prop' (fun n => N n ∨ pending m.g m.stack n) m.g g' → (∀ n, N n → pend m.g f n) →
        Inv { m with g := g', stack := f :: m.stack } := by
      intro f g' N hl hh hns hp hN
      refine h.lightProp (fs := [f, .user]) (N := N) hst rfl (by simp [hst]) ?_ ?_
        (by rw [← hst]; exact hp) (by intro n hn; cases hn) ?_ rfl rfl
      · intro x hx
        rcases List.mem_cons.1 hx with h1 | h1
        · subst h1; exact ⟨hl, hh, fun n v e => absurd e (hns n v)⟩
        · have := List.mem_singleton.1 h1
          subst this
          exact ⟨rfl, by simp [Frame.holds], by simp⟩
      · rw [List.cons_append, List.cons_append, List.nil_append, List.getLast?_cons_cons]
        exact hbase
      · intro n hn
        exact ⟨f, List.mem_append_left _ (List.mem_cons_self ..), hN n hn⟩
    cases op with
    | newState auto cmp v =>
      cases he
      exact freshNode_inv h _ [] v cmp _ _ (by simp) (by simp) (by simp)
    | newSensor cmp ext =>
      cases he
      exact h.add _ (by simp [freshNode]) rfl rfl rfl rfl rfl rfl rfl (by simp [freshNode])
        (by simp [freshNode])
    | newConstant cmp v =>
      cases he
      exact freshNode_inv h _ [] v cmp _ _ (by simp) (by simp) (by simp)
    | newCalc cmp ps view put refreshes dflt =>
      simp only at he
      split at he
      · rename_i hc
        cases he
        refine freshNode_inv h _ ps _ cmp _ _ (all_valid hc.2.1) ?_ (by simp)
        intro view' put' r' hk x hx
        cases hk
        rw [hx]; rfl
      · cases he
    | newXform cmp ps s0 u0 down up dflt =>
      simp only at he
      split at he
      · rename_i hc
        cases he
        exact h.add _ (all_valid hc.2.1) rfl rfl rfl rfl rfl rfl rfl (by simp [freshNode])
          (fun _ _ _ => rfl)
      · cases he
    | newSetter cmp p auto =>
      simp only at he
      split at he
      · rename_i hc
        cases he
        exact freshNode_inv h _ [p] _ cmp _ _ (by
          intro q hq
          have : q = p := by simpa using hq
          rw [this]; exact (valid_alive hc).2) (by simp) (by simp)
      · cases he
    | set n v =>
      simp only at he
      split at he
      · rename_i hc
        cases he
        rw [Bool.and_eq_true] at hc
        exact push (.up n v) m.g (fun _ => False) rfl (by
          intro k hk
          have : k = n := by simpa [Frame.holds] using hk
          rw [this]; exact (valid_alive hc.1).2) (by simp) h.prop0 (by simp)
      · cases he
    | update n f =>
      simp only at he
      split at he
      · rename_i hc
        cases he
        rw [Bool.and_eq_true] at hc
        exact push (.up n _) m.g (fun _ => False) rfl (by
          intro k hk
          have : k = n := by simpa [Frame.holds] using hk
          rw [this]; exact (valid_alive hc.1).2) (by simp) h.prop0 (by simp)
      · cases he
    | commit rs =>
      simp only at he
      split at he
      · rename_i hc
        cases he
        rw [Bool.and_eq_true] at hc
        exact push (.roots rs) _ (fun n => n ∈ rs) rfl (all_valid hc.1) (by simp)
          ((Prop'.refl h.fresh h.just h.cov).sendAll h.wf rs
            fun r hr => (valid_alive (List.all_eq_true.1 hc.1 r hr)).1) (fun n hn => hn)
      · cases he
    | attach n i =>
      simp only at he
      split at he
      · cases he; exact h.attach n i
      · cases he
    | detach n w => cases he; exact h.detach n w
    | kill n =>
      simp only at he
      split at he
      · rename_i hc
        cases he
        exact h.kill n hc.2.1 hc.2.2
      · cases he
    | ret =>
      simp only at he
      split at he
      · cases he
      · rename_i hne
        cases he
        refine h.lightProp (fs := []) (N := fun _ => False) hst rfl rfl (by simp) ?_
          (by rw [← hst]; exact h.prop0) (by intro n hn; cases hn) (by simp) rfl rfl
        cases st with
        | nil => exact absurd rfl hne
        | cons f st => rw [List.getLast?_cons_cons] at hbase; exact hbase

theorem start_inv (ltr : Bool) {dummy : Node V S} (hd : Dummy dummy) : Inv (start ltr dummy) := by
  obtain ⟨h1, h2, h3, h4, h5, h6, h7, h8⟩ := hd
  refine ⟨⟨?_, ?_, ?_, ?_, ?_⟩, ?_, ?_, ?_, ⟨?_, ?_, trivial, ?_, ?_, rfl⟩, ⟨?_, ?_, ?_, ?_⟩⟩ <;>
    simp_all [start, Fresh, Justified, Covered, Frame.holds, active, Frame.inNotify]

theorem reach_inv [Inhabited S] {m : M V S} (h : Reach m) : m.ub = false → Inv m := by
  induction h with
  | start ltr dummy hd => intro _; exact start_inv ltr hd
  | @step m m' _ hs ih =>
    intro hub
    cases hs with
    | lib he =>
      have : m.ub = false := by
        cases hu : m.ub with
        | false => rfl
        | true => unfold istep at he; rw [if_pos hu] at he; cases he
      exact istep_inv (ih this) he hub
    | user op he =>
      have : m.ub = false := by
        cases hu : m.ub with
        | false => rfl
        | true => unfold ustep at he; rw [if_pos hu] at he; cases he
      exact ustep_inv (ih this) op he

end Verif.Graph
