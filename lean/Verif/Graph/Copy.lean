import Verif.Graph.Props7

/-
Property C103: exceptions thrown by values when they are compared or copied.
`Fails .any` and `VReach` are in `Verif.Graph.Throw`.
-/

set_option linter.unusedSectionVars false

namespace Verif.Graph

variable {V S : Type} [DecidableEq V]

/-! ### The call that is left -/

/-- What `send_down` leaves when copying the value of the node itself throws. -/
theorem sendDownT_own (f : Faults V) (k : Nat) (g : Graph V S) (n : Nat) (ht : g.throwsAt f n = false)
    (hcp : f.copy n ((g.recompute n).node n).current = true) (h : (g.sendDownT f k n).2 = false) :
    (g.sendDownT f k n).1 = g.recompute n := by
  cases k with
  | zero => cases h
  | succ k =>
    simp only [Graph.sendDownT, ht, hcp, Bool.false_eq_true, if_false, if_true] at h ⊢
    split <;> rfl

/-- C103: whatever the cause of the exception is, the library call is left and no callback has been called.  No reader,
derivation or subscription is lost. -/
theorem C103_left [Inhabited S] {m m' : M V S} (h : VReach m) {c : Cause} (hf : Fails c m m') :
    m'.log = m.log ∧
    (∃ lib st, m.stack = lib ++ .user :: st ∧ m'.stack = .user :: st ∧ .user ∉ lib) ∧
    ∀ n, (m'.Live n ↔ m.Live n) ∧ (m'.g.node n).obs = (m.g.node n).obs ∧
      (m'.g.node n).parents = (m.g.node n).parents ∧ (m'.g.node n).kind = (m.g.node n).kind :=
  C85_left h hf

/-- C103: … and only readers that are derived from what was written to have changed. -/
theorem C103_unrelated [Inhabited S] {m m' : M V S} (h : VReach m) {c : Cause} (hf : Fails c m m') {n : Nat} {v : V}
    {st : List (Frame V)} (hst : m.stack = .up n v :: st ∨ m.stack = .setterRest n v :: st) {x : Nat}
    (hx : ¬ m.Above n x) : m'.get x = m.get x :=
  C85_unrelated h hf hst hx

/-- A write to a state or a setter cursor that is left by an exception, whatever its cause: either the write is
made and shown, and its callbacks wait; or no reader shows another value, and the value is pending or not
written at all. -/
theorem C103_kept [Inhabited S] {m m' : M V S} (h : VReach m) {c : Cause} (hf : Fails c m m') {n : Nat} {v : V}
    {st : List (Frame V)}
    (hst : (m.stack = .up n v :: st ∧ ∃ a, (m.g.node n).kind = .state a) ∨
      m.stack = .setterRest n v :: st) :
    (m'.get n = v ∧ m'.pending n = v ∧ m'.Waiting n) ∨
    ((∀ x, m'.get x = m.get x) ∧ (∀ x, x ≠ n → m'.pending x = m.pending x) ∧
      (m'.pending n = v ∨ m'.pending n = m.pending n)) := by
  have s := vreach_sound h
  have lv : ∀ {g : Graph V S} (st : List (Frame V)), (g.node n).last = v ∧ (g.node n).current = v ∧
      (g.node n).needsNotify = true →
      (m.leave g st).get n = v ∧ (m.leave g st).pending n = v ∧ (m.leave g st).Waiting n := by
    intro g st hl
    obtain ⟨b, hb⟩ := unwind_node st g n
    unfold M.get M.pending M.Waiting M.leave
    simp only [hb]
    exact hl
  have lu : ∀ {g : Graph V S} (st : List (Frame V)), (∀ x, (g.node x).last = (m.g.node x).last) →
      (∀ x, x ≠ n → (g.node x).current = (m.g.node x).current) →
      ((g.node n).current = v ∨ (g.node n).current = (m.g.node n).current) →
      (∀ x, (m.leave g st).get x = m.get x) ∧ (∀ x, x ≠ n → (m.leave g st).pending x = m.pending x) ∧
      ((m.leave g st).pending n = v ∨ (m.leave g st).pending n = m.pending n) := by
    intro g st h1 h2 h3
    have hb := fun x => unwind_node st g x
    refine ⟨fun x => ?_, fun x hx => ?_, ?_⟩
    · obtain ⟨b, hb⟩ := hb x
      unfold M.get M.leave; simp only [hb]; exact h1 x
    · obtain ⟨b, hb⟩ := hb x
      unfold M.pending M.leave; simp only [hb]; exact h2 x hx
    · obtain ⟨b, hb⟩ := hb n
      unfold M.pending M.leave; simp only [hb]; exact h3
  have pd : ((m.g.pushDown n v).node n).current = v := by
    unfold Graph.pushDown
    split
    · simp
    · rename_i hne
      simp only [not_or, Decidable.not_not] at hne
      exact hne.2.symm
  have ht := pushDown_touch m.g n v
  cases hf with
  | @state f n' v' st' g hub hst' hk hg hok =>
    rcases hst with ⟨hst, _⟩ | hst
    · rw [hst] at hst'
      cases hst'
      have hk' : ((m.g.pushDown n v).node n).kind = .state true := by rw [ht.same.kind]; exact hk
      have hr : (m.g.pushDown n v).recompute n = m.g.pushDown n v := by
        unfold Graph.recompute; rw [hk']
      have htr : (m.g.pushDown n v).throwsAt f n = false := by unfold Graph.throwsAt; rw [hk']
      cases hcp : f.copy n (((m.g.pushDown n v).recompute n).node n).current with
      | false =>
        left
        apply lv
        have := sendDownT_self f m.g.size (m.g.pushDown n v) n (ht.same.wf s.wf) htr hcp (by rw [hg])
        rw [hg] at this
        rw [this, hr]
        simp [Graph.publish]
      | true =>
        right
        have := sendDownT_own f m.g.size (m.g.pushDown n v) n htr hcp (by rw [hg])
        rw [hg, hr] at this
        simp only at this
        rw [this]
        exact lu _ (fun x => (ht.last_all x).1) (fun x hx => by rw [ht.other x hx]) (.inl pd)
    · rw [hst] at hst'; cases hst'
  | @setter f n' v' st' g hub hst' hk hg hok =>
    rcases hst with ⟨hst, _⟩ | hst
    · rw [hst] at hst'; cases hst'
    · rw [hst] at hst'
      cases hst'
      have hk' : (((m.g.pushDown n v).mod n fun x => { x with recomputed := true }).node n).kind =
          .setter true := by rw [Graph.mod_self]; exact (ht.same.kind n).trans hk
      have htr : ((m.g.pushDown n v).mod n fun x => { x with recomputed := true }).throwsAt f n = false := by
        unfold Graph.throwsAt; rw [hk']; simp
      have hr : ((m.g.pushDown n v).mod n fun x => { x with recomputed := true }).recompute n =
          ((m.g.pushDown n v).mod n fun x => { x with recomputed := true }).mod n
            fun x => { x with recomputed := false } := by
        unfold Graph.recompute
        rw [hk']
        simp
      generalize hcpe : f.copy n ((((m.g.pushDown n v).mod n fun x => { x with recomputed := true }).recompute
        n).node n).current = b
      cases b with
      | false =>
        left
        apply lv
        have := sendDownT_self f m.g.size _ n
          ((ht.same.trans (same_mod rfl rfl rfl rfl rfl rfl rfl)).wf s.wf) htr hcpe (by rw [hg])
        rw [hg] at this
        rw [this, hr]
        simp [Graph.publish]
      | true =>
        right
        have := sendDownT_own f m.g.size _ n htr hcpe (by rw [hg])
        rw [hg, hr] at this
        simp only at this
        rw [this]
        refine lu _ (fun x => ?_) (fun x hx => ?_) (.inl ?_)
        · by_cases hx : x = n
          · subst hx; simp only [Graph.mod_self]; exact (ht.last_all x).1
          · rw [Graph.mod_ne _ _ hx, Graph.mod_ne _ _ hx]; exact (ht.last_all x).1
        · rw [Graph.mod_ne _ _ hx, Graph.mod_ne _ _ hx, ht.other x hx]
        · simp only [Graph.mod_self]; exact pd
  | @refresh f n' v' st' view put g hub hst' hk hg =>
    rcases hst with ⟨hst, a, ha⟩ | hst
    · rw [hst] at hst'; cases hst'; rw [ha] at hk; cases hk
    · rw [hst] at hst'; cases hst'
  | @put n' v' st' view put refreshes hub hst' hk =>
    rcases hst with ⟨hst, a, ha⟩ | hst
    · rw [hst] at hst'; cases hst'; rw [ha] at hk; cases hk
    · rw [hst] at hst'; cases hst'
  | @xput n' v' st' down up hub hst' hk =>
    rcases hst with ⟨hst, a, ha⟩ | hst
    · rw [hst] at hst'; cases hst'; rw [ha] at hk; cases hk
    · rw [hst] at hst'; cases hst'
  | @commit f rs st' g hub hst' hv hg hok =>
    rcases hst with ⟨hst, _⟩ | hst <;> rw [hst] at hst' <;> cases hst'
  | @write n' v' st' hc hub hst' => exact .inr (lu _ (fun _ => rfl) (fun _ _ => rfl) (.inr rfl))

/-! ### The next call -/

/-- The graph after a set on an automatic state. -/
theorem set_graph {m m' : M V S} {r : Nat} {v : V} {st : List (Frame V)} (hst : m.stack = .up r v :: st)
    (hk : (m.g.node r).kind = .state true) (hs : istep m = some m') :
    m'.g = (m.g.pushDown r v).sendDown r := by
  have hub : m.ub = false := by
    unfold istep at hs
    split at hs
    · cases hs
    · rename_i hu; simpa using hu
  simp only [istep, hub, Bool.false_eq_true, if_false, hst, hk, if_true] at hs
  cases hs
  rfl

/-- Whatever exceptions have left: a set on an automatic state that is not left shows the value. -/
theorem C103_set_shows [Inhabited S] {m m' : M V S} (h : VReach m) {r : Nat} {v : V}
    {st : List (Frame V)} (hst : m.stack = .up r v :: st) (hk : (m.g.node r).kind = .state true)
    (hlr : m.Live r) (hs : istep m = some m') : m'.get r = v ∧ m'.pending r = v := by
  have s := vreach_sound h
  have ht := pushDown_touch m.g r v
  have hk' : ((m.g.pushDown r v).node r).kind = .state true := by rw [ht.same.kind]; exact hk
  have hsz : r < (m.g.pushDown r v).size := by rw [ht.same.size]; exact s.wf.alive_lt hlr
  have := sendDown_state _ r (ht.same.wf s.wf) (ht.sound s).fresh hsz hk'
  have pd : ((m.g.pushDown r v).node r).current = v := by
    unfold Graph.pushDown
    split
    · simp
    · rename_i hne
      simp only [not_or, Decidable.not_not] at hne
      exact hne.2.symm
  unfold M.get M.pending
  rw [set_graph hst hk hs, this.1, this.2.1, pd]
  exact ⟨rfl, rfl⟩

/-! ### Readers that are reached are published -/

/-- Clean nodes stay clean, `n` is clean, and so are the children of what is published. -/
theorem sendDownN_clean (k : Nat) (g : Graph V S) (n : Nat) (w : WF g) (hn : n < g.size) (hk : g.size - n ≤ k)
    (c : Nat) (ha : (g.node c).alive = true)
    (hc : c = n ∨ (g.node c).dirty = false ∨
      ∃ p ∈ (g.node c).parents, ((g.sendDownN k n).node p).last ≠ (g.node p).last) :
    ((g.sendDownN k n).node c).dirty = false := by
  induction k generalizing g n c with
  | zero => omega
  | succ k ih =>
    have ht := recompute_touch g n
    simp only [Graph.sendDownN] at hc ⊢
    by_cases hd : ((g.recompute n).node n).dirty = true
    · rw [if_pos hd] at hc ⊢
      have hmv : Moves g ((g.recompute n).publish n) := .publish n (.recompute n (.refl g)) hd
      have walk : ∀ (l : List Nat) (h : Graph V S), Same g h → (∀ d ∈ l, n < d ∧ d < g.size) →
          (∀ c, (g.node c).alive = true → (c = n ∨ (g.node c).dirty = false ∨
            ∃ p ∈ (g.node c).parents, (h.node p).last ≠ (g.node p).last) →
            (h.node c).dirty = false ∨ c ∈ l) →
          ∀ c, (g.node c).alive = true → (c = n ∨ (g.node c).dirty = false ∨
            ∃ p ∈ (g.node c).parents,
              ((l.foldl (fun g c => if (g.node c).alive then g.sendDownN k c else g) h).node p).last ≠
                (g.node p).last) →
            ((l.foldl (fun g c => if (g.node c).alive then g.sendDownN k c else g) h).node c).dirty = false := by
        intro l
        induction l with
        | nil =>
          intro h _ _ hA c ha hc
          rcases hA c ha hc with h1 | h1
          · exact h1
          · cases h1
        | cons d l ihl =>
          intro h same hl hA
          have hdl := hl d (.head _)
          by_cases had : (h.node d).alive = true
          · simp only [List.foldl_cons, if_pos had]
            have hmd := sendDownN_moves k h d
            refine ihl _ (same.trans hmd.same) (fun x hx => hl x (.tail _ hx)) ?_
            intro c ha hc
            have hwh := same.wf w
            have hkd : h.size - d ≤ k := by rw [same.size]; omega
            have hdh : d < h.size := by rw [same.size]; exact hdl.2
            have hach : (h.node c).alive = true := by rw [same.alive]; exact ha
            by_cases hchg : ∃ p ∈ (h.node c).parents, ((h.sendDownN k d).node p).last ≠ (h.node p).last
            · exact .inl (ih h d hwh hdh hkd c hach (.inr (.inr hchg)))
            · by_cases hcd : c = d
              · exact .inl (ih h d hwh hdh hkd c hach (.inl hcd))
              · have heq : ∀ p ∈ (g.node c).parents, ((h.sendDownN k d).node p).last = (h.node p).last := by
                  intro p hp
                  rw [← same.parents] at hp
                  exact Classical.byContradiction fun hne => hchg ⟨p, hp, hne⟩
                have hold : c = n ∨ (g.node c).dirty = false ∨
                    ∃ p ∈ (g.node c).parents, (h.node p).last ≠ (g.node p).last := by
                  rcases hc with h1 | h1 | ⟨p, hp, h1⟩
                  · exact .inl h1
                  · exact .inr (.inl h1)
                  · refine .inr (.inr ⟨p, hp, ?_⟩)
                    rw [heq p hp] at h1
                    exact h1
                rcases hA c ha hold with h1 | h1
                · exact .inl (ih h d hwh hdh hkd c hach (.inr (.inl h1)))
                · rcases List.mem_cons.1 h1 with h2 | h2
                  · exact absurd h2 hcd
                  · exact .inr h2
          · simp only [List.foldl_cons, if_neg had]
            refine ihl h same (fun x hx => hl x (.tail _ hx)) ?_
            intro c ha hc
            rcases hA c ha hc with h1 | h1
            · exact .inl h1
            · rcases List.mem_cons.1 h1 with h2 | h2
              · subst h2
                rw [same.alive] at had
                exact absurd ha had
              · exact .inr h2
      refine walk _ _ hmv.same ?_ ?_ c ha hc
      · intro d hdm
        rw [hmv.same.children] at hdm
        exact w.child_lt hdm
      · intro c ha hc
        by_cases hcn : c = n
        · subst hcn
          exact .inl (by simp [Graph.publish])
        · by_cases hnp : n ∈ (g.node c).parents
          · right
            rw [hmv.same.children]
            exact w.linked c ha n hnp
          · left
            have hnode : ∀ p, p ≠ n → ((g.recompute n).publish n).node p = g.node p := by
              intro p hp
              rw [publish_other _ hp, ht.other p hp]
            rw [hnode c hcn]
            rcases hc with h1 | h1 | ⟨p, hp, h1⟩
            · exact absurd h1 hcn
            · exact h1
            · rw [hnode p (fun e => hnp (e ▸ hp))] at h1
              exact absurd rfl h1
    · rw [if_neg hd] at hc ⊢
      have hd' : ((g.recompute n).node n).dirty = false := by simpa using hd
      by_cases hcn : c = n
      · subst hcn; exact hd'
      · rw [ht.other c hcn]
        rcases hc with h1 | h1 | ⟨p, hp, h1⟩
        · exact absurd h1 hcn
        · exact h1
        · exact absurd (ht.last_all p).1 h1

/-- Whatever exceptions have left, stale readers become right again: when an automatic state is set and no
exception is thrown, a reader of which at least one direct source changes shows what its function gives, if
its sources have nothing pending.  (Compare `C85_next_set`: its own value may have been pending.) -/
theorem C103_next_set [Inhabited S] {m m' : M V S} (h : VReach m) {r : Nat} {v : V}
    {st : List (Frame V)} (hst : m.stack = .up r v :: st) (hk : (m.g.node r).kind = .state true)
    (hlr : m.Live r) (hs : istep m = some m') {n : Nat} (hlive : m.Live n)
    (ht : ∀ p ∈ (m'.g.node n).parents, m'.pending p = m'.get p)
    (hn : ∃ p ∈ (m.g.node n).parents, m'.get p ≠ m.get p) : m'.pending n = m'.get n ∧ m'.Agrees n := by
  have s := vreach_sound h
  have htc := pushDown_touch m.g r v
  have hg := set_graph hst hk hs
  have hsz : r < (m.g.pushDown r v).size := by rw [htc.same.size]; exact s.wf.alive_lt hlr
  have s' : Sound m'.g := by
    rw [hg]; exact (sendDown_moves _ _).sound (htc.sound s)
  have hcl : (m'.g.node n).dirty = false := by
    rw [hg]
    refine sendDownN_clean _ _ r (htc.same.wf s.wf) hsz (by omega) n (by rw [htc.same.alive]; exact hlive)
      (.inr (.inr ?_))
    obtain ⟨p, hp, hne⟩ := hn
    refine ⟨p, by rw [htc.same.parents]; exact hp, ?_⟩
    rw [(htc.last_all p).1]
    intro e
    apply hne
    unfold M.get
    rw [hg]
    exact e
  have hpend : m'.pending n = m'.get n := by
    have hx : (m'.g.node n).chg = false := by
      cases hx : (m'.g.node n).chg with
      | false => rfl
      | true => rw [(s'.fresh n).1 hx] at hcl; cases hcl
    exact ((s'.fresh n).2.2 hx).symm
  exact ⟨hpend, C85_next_set h hst hk hlr hs hlive ⟨hpend, ht⟩ (.inr hn)⟩

/-- The roots and the graph of a commit. -/
theorem commit_graph [Inhabited S] {m m' : M V S} {rs : List Nat} (hs : ustep m (.commit rs) = some m') :
    (∀ r ∈ rs, m.Live r ∧ (m.g.node r).parents = []) ∧ m'.g = rs.foldl (fun g r => g.sendDown r) m.g := by
  unfold ustep at hs
  split at hs
  · cases hs
  · split at hs
    case h_2 => cases hs
    simp only at hs
    split at hs
    · rename_i hc
      cases hs
      rw [Bool.and_eq_true] at hc
      exact ⟨fun r hr => ⟨all_valid hc.1 r hr, by simpa using List.all_eq_true.1 hc.2 r hr⟩, rfl⟩
    · cases hs

/-- Whatever exceptions have left: a commit that is not left shows what is pending in the states it names. -/
theorem C103_commit_shows [Inhabited S] {m m' : M V S} (h : VReach m) {rs : List Nat}
    (hs : ustep m (.commit rs) = some m') {r : Nat} (hr : r ∈ rs) {a : Bool} (hk : (m.g.node r).kind = .state a) :
    m'.get r = m.pending r ∧ m'.pending r = m.pending r := by
  have s := vreach_sound h
  obtain ⟨hl, hg⟩ := commit_graph hs
  have := sendAll_state rs m.g s.wf s.fresh (fun r hr => s.wf.alive_lt (hl r hr).1) hk (hl r hr).2
  unfold M.get M.pending
  rw [hg]
  exact ⟨(this.2 hr).1, this.1⟩

theorem sendAll_clean (rs : List Nat) : ∀ (g : Graph V S), WF g → (∀ r ∈ rs, r < g.size) → ∀ c,
    (g.node c).alive = true →
    ((g.node c).dirty = false ∨
      ∃ p ∈ (g.node c).parents, ((rs.foldl (fun g r => g.sendDown r) g).node p).last ≠ (g.node p).last) →
    ((rs.foldl (fun g r => g.sendDown r) g).node c).dirty = false := by
  induction rs with
  | nil =>
    intro g _ _ c _ hc
    rcases hc with h | ⟨p, _, h⟩
    · exact h
    · exact absurd rfl h
  | cons r rs ih =>
    intro g w hr c ha hc
    simp only [List.foldl_cons] at hc ⊢
    have same := (sendDown_moves g r).same
    refine ih _ (same.wf w) (fun x hx => by rw [same.size]; exact hr x (.tail _ hx)) c
      (by rw [same.alive]; exact ha) ?_
    have hstep : (g.node c).dirty = false ∨ (∃ p ∈ (g.node c).parents,
        ((g.sendDown r).node p).last ≠ (g.node p).last) → ((g.sendDown r).node c).dirty = false :=
      fun h => sendDownN_clean _ g r w (hr r (.head _)) (by omega) c ha (.inr h)
    rcases hc with h | ⟨p, hp, h⟩
    · exact .inl (hstep (.inl h))
    · by_cases hch : ((g.sendDown r).node p).last = (g.node p).last
      · refine .inr ⟨p, by rw [same.parents]; exact hp, ?_⟩
        rw [hch]; exact h
      · exact .inl (hstep (.inr ⟨p, hp, hch⟩))

/-- Stale readers become right again with `commit` too. -/
theorem C103_next_commit [Inhabited S] {m m' : M V S} (h : VReach m) {rs : List Nat}
    (hs : ustep m (.commit rs) = some m') {n : Nat} (hlive : m.Live n)
    (ht : ∀ p ∈ (m'.g.node n).parents, m'.pending p = m'.get p)
    (hn : ∃ p ∈ (m.g.node n).parents, m'.get p ≠ m.get p) : m'.pending n = m'.get n ∧ m'.Agrees n := by
  have s := vreach_sound h
  obtain ⟨hl, hg⟩ := commit_graph hs
  have s' : Sound m'.g := by
    rw [hg]; exact (sendAll_moves _ _).sound s
  have hcl : (m'.g.node n).dirty = false := by
    rw [hg]
    refine sendAll_clean rs m.g s.wf (fun r hr => s.wf.alive_lt (hl r hr).1) n hlive (.inr ?_)
    obtain ⟨p, hp, hne⟩ := hn
    refine ⟨p, hp, ?_⟩
    intro e
    apply hne
    unfold M.get
    rw [hg]
    exact e
  have hpend : m'.pending n = m'.get n := by
    have hx : (m'.g.node n).chg = false := by
      cases hx : (m'.g.node n).chg with
      | false => rfl
      | true => rw [(s'.fresh n).1 hx] at hcl; cases hcl
    exact ((s'.fresh n).2.2 hx).symm
  exact ⟨hpend, C85_next_commit h hs hlive ⟨hpend, ht⟩ (.inr hn)⟩

/-! ### Examples -/

/-- Copying the value 50 of node 0 throws. -/
def exCopy0 : Faults Nat := ⟨fun _ _ => false, fun n v => n == 0 && v == 50⟩

/-- Copying the value 51 of node 1 throws. -/
def exCopy1 : Faults Nat := ⟨fun _ _ => false, fun n v => n == 1 && v == 51⟩

theorem exCopy_reach (f : Faults Nat)
    (hf : (({ exFail with stack := .up 0 50 :: exFail.stack }.g.pushDown 0 50).sendDownT f
      { exFail with stack := .up 0 50 :: exFail.stack }.g.size 0).2 = false) :
    VReach (exFail.setFails f 0 50) := by
  have h0 : ustep exFail (.set 0 50) = some { exFail with stack := .up 0 50 :: exFail.stack } := rfl
  exact .step (.step (exec_reach _).x.v (.step (.step (.user _ h0))))
    (.fails (setFails_fails (by decide +kernel) h0 rfl hf (c := .any) nofun))

/-- Both cases of `C103_kept`: the value of the state itself cannot be copied, then nothing is shown and the
value is pending; the value of a reader cannot be copied, then the state shows its value. -/
example : ∃ m m1 m2 : M Nat Nat, VReach m ∧ m.stack = [.up 0 50, .user] ∧ (∃ a, (m.g.node 0).kind = .state a) ∧
    Fails .any m m1 ∧ m1.get 0 = 1 ∧ m1.pending 0 = 50 ∧ m1.get 2 = 0 ∧
    Fails .any m m2 ∧ m2.get 0 = 50 ∧ m2.Waiting 0 ∧ m2.get 1 = 2 ∧ m2.get 2 = 0 := by
  have h0 : ustep exFail (.set 0 50) = some { exFail with stack := .up 0 50 :: exFail.stack } := rfl
  have hr : VReach { exFail with stack := .up 0 50 :: exFail.stack } :=
    .step (exec_reach _).x.v (.step (.step (.user _ h0)))
  exact ⟨_, exFail.setFails exCopy0 0 50, exFail.setFails exCopy1 0 50, hr, by decide +kernel, ⟨true, rfl⟩,
    setFails_fails (by decide +kernel) h0 rfl (by decide +kernel) nofun,
    by decide +kernel, by decide +kernel, by decide +kernel,
    setFails_fails (by decide +kernel) h0 rfl (by decide +kernel) nofun,
    by decide +kernel, by unfold M.Waiting; decide +kernel, by decide +kernel, by decide +kernel⟩

/-- When the value of a reader cannot be copied, it goes on showing the old one, and readers that come later
are not even computed.  Setting the state to the same value again, now without exception, changes nothing; a
different value makes both right. -/
theorem C103_stale_false : ∃ m m1 m2 : M Nat Nat, VReach m ∧ m.AtRest ∧ m.Live 1 ∧ m.Live 2 ∧
    m.get 0 = 50 ∧ m.get 1 = 2 ∧ m.gives 1 51 = true ∧ m.get 2 = 0 ∧ m.gives 2 5 = true ∧
    PCall m (.set 0 50) m1 ∧ m1.get 1 = 2 ∧ m1.get 2 = 0 ∧
    PCall m (.set 0 60) m2 ∧ m2.get 1 = 61 ∧ m2.get 2 = 6 := by
  let m := exFail.setFails exCopy1 0 50
  refine ⟨m, m.pcall (.set 0 50), m.pcall (.set 0 60), exCopy_reach _ (by decide +kernel),
    ⟨by decide +kernel, by decide +kernel⟩, by unfold M.Live; decide +kernel,
    by unfold M.Live; decide +kernel,
    by decide +kernel, by decide +kernel, by decide +kernel, by decide +kernel, by decide +kernel,
    pcall_call (by decide +kernel) (by decide +kernel), by decide +kernel, by decide +kernel,
    pcall_call (by decide +kernel) (by decide +kernel), by decide +kernel, by decide +kernel⟩

/-- Hypotheses of `C103_set_shows` and `C103_next_set`: the same value is set again after its copy threw; the
state shows it now, and the readers are computed. -/
example : ∃ m m' : M Nat Nat, VReach m ∧ m.stack = [.up 0 50, .user] ∧
    (m.g.node 0).kind = .state true ∧ m.Live 0 ∧ istep m = some m' ∧ m.get 0 = 1 ∧ m.pending 0 = 50 ∧ m.Live 2 ∧
    (∀ p ∈ (m'.g.node 2).parents, m'.pending p = m'.get p) ∧
    (∃ p ∈ (m.g.node 2).parents, m'.get p ≠ m.get p) ∧ m'.get 0 = 50 ∧ m'.get 2 = 5 := by
  let a := exFail.setFails exCopy0 0 50
  let m := (ustep a (.set 0 50)).getD a
  have h0 : ustep a (.set 0 50) = some m := some_getD a (by decide +kernel)
  let m' := (istep m).getD m
  have h1 : istep m = some m' := some_getD m (by decide +kernel)
  have hk : (m.g.node 2).parents = [0] := by decide +kernel
  have hk' : (m'.g.node 2).parents = [0] := by decide +kernel
  refine ⟨m, m', .step (exCopy_reach _ (by decide +kernel)) (.step (.step (.user _ h0))), by decide +kernel, rfl,
    by unfold M.Live; decide +kernel, h1, by decide +kernel, by decide +kernel,
    by unfold M.Live; decide +kernel, ?_, ⟨0, by rw [hk]; exact .head _, by decide +kernel⟩,
    by decide +kernel, by decide +kernel⟩
  intro p hp
  rw [hk'] at hp
  cases List.mem_singleton.1 hp
  decide +kernel

/-- The reader with a value that was never shown is published too, when its source changes. -/
example : ∃ m m' : M Nat Nat, VReach m ∧ m.stack = [.up 0 60, .user] ∧
    (m.g.node 0).kind = .state true ∧ m.Live 0 ∧ istep m = some m' ∧ m.get 1 = 2 ∧ m.pending 1 = 51 ∧ m.Live 1 ∧
    (∀ p ∈ (m'.g.node 1).parents, m'.pending p = m'.get p) ∧
    (∃ p ∈ (m.g.node 1).parents, m'.get p ≠ m.get p) ∧ m'.get 1 = 61 := by
  let a := exFail.setFails exCopy1 0 50
  let m := (ustep a (.set 0 60)).getD a
  have h0 : ustep a (.set 0 60) = some m := some_getD a (by decide +kernel)
  let m' := (istep m).getD m
  have h1 : istep m = some m' := some_getD m (by decide +kernel)
  have hk : (m.g.node 1).parents = [0] := by decide +kernel
  have hk' : (m'.g.node 1).parents = [0] := by decide +kernel
  refine ⟨m, m', .step (exCopy_reach _ (by decide +kernel)) (.step (.step (.user _ h0))), by decide +kernel, rfl,
    by unfold M.Live; decide +kernel, h1, by decide +kernel, by decide +kernel,
    by unfold M.Live; decide +kernel, ?_, ⟨0, by rw [hk]; exact .head _, by decide +kernel⟩,
    by decide +kernel⟩
  intro p hp
  rw [hk'] at hp
  cases List.mem_singleton.1 hp
  decide +kernel

/-- Hypotheses of `C103_commit_shows` and `C103_next_commit`: `commit` shows the value that is pending since its
copy threw. -/
example : ∃ m m' : M Nat Nat, VReach m ∧ ustep m (.commit [0]) = some m' ∧ (m.g.node 0).kind = .state true ∧
    m.get 0 = 1 ∧ m.pending 0 = 50 ∧ m.Live 2 ∧
    (∀ p ∈ (m'.g.node 2).parents, m'.pending p = m'.get p) ∧
    (∃ p ∈ (m.g.node 2).parents, m'.get p ≠ m.get p) ∧ m'.get 0 = 50 ∧ m'.get 2 = 5 := by
  let m := exFail.setFails exCopy0 0 50
  let m' := (ustep m (.commit [0])).getD m
  have h1 : ustep m (.commit [0]) = some m' := some_getD m (by decide +kernel)
  have hk : (m.g.node 2).parents = [0] := by decide +kernel
  have hk' : (m'.g.node 2).parents = [0] := by decide +kernel
  refine ⟨m, m', exCopy_reach _ (by decide +kernel), h1, rfl, by decide +kernel, by decide +kernel,
    by unfold M.Live; decide +kernel, ?_, ⟨0, by rw [hk]; exact .head _, by decide +kernel⟩,
    by decide +kernel, by decide +kernel⟩
  intro p hp
  rw [hk'] at hp
  cases List.mem_singleton.1 hp
  decide +kernel

end Verif.Graph
