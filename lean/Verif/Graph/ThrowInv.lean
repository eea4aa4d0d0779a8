import Verif.Graph.Throw

/-
What holds of the heap in all behaviours, exceptions of functions included, and what a propagation
that comes to its end achieves, whatever state exceptions have left.
-/

set_option linter.unusedSectionVars false

namespace Verif.Graph

variable {V S : Type} [DecidableEq V]

/-- The part of the invariant that survives exceptions in the middle of a propagation. -/
structure Sound (g : Graph V S) : Prop where
  wf : WF g
  fresh : Fresh g

theorem Moves.sound {g g' : Graph V S} (h : Moves g g') (s : Sound g) : Sound g' :=
  ⟨h.same.wf s.wf, h.fresh s.fresh⟩

theorem Touch.sound {n : Nat} {g g' : Graph V S} (h : Touch n g g') (s : Sound g) : Sound g' :=
  ⟨h.same.wf s.wf, h.fresh s.fresh⟩

theorem Recomputes.sound {g g' : Graph V S} (h : Recomputes g g') (s : Sound g) : Sound g' :=
  ⟨h.same.wf s.wf, h.fresh s.fresh⟩

/-- Changes that leave values, links and life alone. -/
theorem sound_mod {g : Graph V S} {n : Nat} {f : Node V S → Node V S} (s : Sound g)
    (hf : ∀ x, (f x).parents = x.parents ∧ (f x).children = x.children ∧ (f x).alive = x.alive ∧
      (f x).current = x.current ∧ (f x).last = x.last ∧ (f x).dirty = x.dirty ∧
      (f x).chg = x.chg ∧ (f x).cmp = x.cmp) : Sound (g.mod n f) := by
  have hp : ∀ k, ((g.mod n f).node k).parents = (g.node k).parents := by
    intro k; rw [Graph.mod_node]; split
    · exact (hf _).1
    · rfl
  have hc : ∀ k, ((g.mod n f).node k).children = (g.node k).children := by
    intro k; rw [Graph.mod_node]; split
    · exact (hf _).2.1
    · rfl
  have ha : ∀ k, ((g.mod n f).node k).alive = (g.node k).alive := by
    intro k; rw [Graph.mod_node]; split
    · exact (hf _).2.2.1
    · rfl
  refine ⟨⟨?_, ?_, ?_, ?_, ?_⟩, ?_⟩
  · intro k hk; rw [ha, hc, hp]; exact s.wf.unused k hk
  · intro k p h; rw [hp] at h; exact s.wf.lt k p h
  · intro k h p h'; rw [ha] at h; rw [hp] at h'; rw [ha]; exact s.wf.parentAlive k h p h'
  · intro k h p h'; rw [ha] at h; rw [hp] at h'; rw [hc]; exact s.wf.linked k h p h'
  · intro p c h; rw [hc] at h; rw [hp]; exact s.wf.child p c h
  · intro k
    rw [Graph.mod_node]
    split
    · obtain ⟨_, _, _, h4, h5, h6, h7, h8⟩ := hf (g.node k)
      rw [h4, h5, h6, h7, h8]
      exact s.fresh k
    · exact s.fresh k

theorem collect_sound {g : Graph V S} (n : Nat) (s : Sound g) : Sound (g.collect n) := by
  have hnode : ∀ k, ∃ l, (g.collect n).node k = { g.node k with children := l } ∧
      (∀ c, c ∈ l → c ∈ (g.node k).children) ∧
      (∀ c, c ∈ (g.node k).children → (g.node c).alive = true → c ∈ l) := by
    intro k
    unfold Graph.collect
    rw [Graph.mod_node]
    split
    · exact ⟨_, rfl, fun c hc => (List.mem_filter.1 hc).1,
        fun c hc ha => List.mem_filter.2 ⟨hc, ha⟩⟩
    · exact ⟨_, rfl, fun c hc => hc, fun c hc _ => hc⟩
  have hp : ∀ k, ((g.collect n).node k).parents = (g.node k).parents := by
    intro k; obtain ⟨l, hl, _⟩ := hnode k; rw [hl]
  have ha : ∀ k, ((g.collect n).node k).alive = (g.node k).alive := by
    intro k; obtain ⟨l, hl, _⟩ := hnode k; rw [hl]
  have hs : (g.collect n).size = g.size := rfl
  refine ⟨⟨?_, ?_, ?_, ?_, ?_⟩, ?_⟩
  · intro k hk
    rw [ha, hp]
    obtain ⟨h1, h2, h3⟩ := s.wf.unused k hk
    refine ⟨h1, ?_, h3⟩
    obtain ⟨l, hl, hsub, _⟩ := hnode k
    rw [hl]
    cases l with
    | nil => rfl
    | cons c l => have := hsub c (.head _); rw [h2] at this; cases this
  · intro k p h; rw [hp] at h; exact s.wf.lt k p h
  · intro k h p h'; rw [ha] at h; rw [hp] at h'; rw [ha]; exact s.wf.parentAlive k h p h'
  · intro k h p h'
    rw [ha] at h; rw [hp] at h'
    obtain ⟨l, hl, _, hk⟩ := hnode p
    rw [hl]
    exact hk k (s.wf.linked k h p h') h
  · intro p c h
    rw [hp, hs]
    obtain ⟨l, hl, hk, _⟩ := hnode p
    rw [hl] at h
    exact s.wf.child p c (hk c h)
  · intro k
    obtain ⟨l, hl, _⟩ := hnode k
    rw [hl]
    exact s.fresh k

theorem unwind_sound {g : Graph V S} (st : List (Frame V)) (s : Sound g) : Sound (unwind g st).1 := by
  refine ⟨unwind_wf s.wf st, fun k => ?_⟩
  obtain ⟨b, hb⟩ := unwind_node st g k
  rw [hb]
  exact s.fresh k

theorem add_sound {g : Graph V S} (s : Sound g) (x : Node V S)
    (hp : ∀ p ∈ x.parents, (g.node p).alive = true) (hd : x.dirty = false) (hx : x.chg = false)
    (hc : x.children = []) (hl : x.last = x.current) : Sound (g.add x) := by
  have hpl : ∀ p ∈ x.parents, p < g.size := fun p hpp => s.wf.alive_lt (hp p hpp)
  have hnew := add_new g x hpl
  have hsz := add_size g x
  have hold : ∀ n, n ≠ g.size → _ := fun n hn => add_old g x hn
  have halv : ∀ n, n ≠ g.size → ((g.add x).node n).alive = (g.node n).alive := by
    intro n hne; obtain ⟨k, hk, _⟩ := hold n hne; rw [hk]
  have hpar : ∀ n, n ≠ g.size → ((g.add x).node n).parents = (g.node n).parents := by
    intro n hne; obtain ⟨k, hk, _⟩ := hold n hne; rw [hk]
  have hparlt : ∀ n, n ≠ g.size → ∀ p ∈ (g.node n).parents, p ≠ g.size := by
    intro n hne p hpp he
    have h1 := s.wf.lt n p hpp
    by_cases h2 : g.size ≤ n
    · rw [(s.wf.unused n h2).2.2] at hpp; cases hpp
    · omega
  refine ⟨⟨?_, ?_, ?_, ?_, ?_⟩, ?_⟩
  · intro n hn'
    rw [hsz] at hn'
    have hne : n ≠ g.size := by omega
    obtain ⟨k, hk, hm⟩ := hold n hne
    obtain ⟨h1, h2, h3⟩ := s.wf.unused n (by omega)
    have hk0 : k = 0 := by
      apply Nat.eq_zero_of_not_pos
      intro hpos
      have := hpl n (hm.2 hpos)
      omega
    simp only [hk, hk0]
    exact ⟨h1, by simp [h2], h3⟩
  · intro n p hpp
    by_cases hne : n = g.size
    · subst hne; rw [hnew] at hpp; exact hpl p hpp
    · rw [hpar n hne] at hpp; exact s.wf.lt n p hpp
  · intro n han p hpp
    by_cases hne : n = g.size
    · subst hne
      rw [hnew] at hpp
      rw [halv p (by have := hpl p hpp; omega)]
      exact hp p hpp
    · rw [hpar n hne] at hpp
      rw [halv n hne] at han
      rw [halv p (hparlt n hne p hpp)]
      exact s.wf.parentAlive n han p hpp
  · intro n han p hpp
    by_cases hne : n = g.size
    · subst hne
      rw [hnew] at hpp
      obtain ⟨k, hk, hm⟩ := hold p (by have := hpl p hpp; omega)
      rw [hk]
      exact List.mem_append_right _ (List.mem_replicate.2
        ⟨by have := hm.1 hpp; omega, rfl⟩)
    · rw [hpar n hne] at hpp
      rw [halv n hne] at han
      obtain ⟨k, hk, _⟩ := hold p (hparlt n hne p hpp)
      rw [hk]
      exact List.mem_append_left _ (s.wf.linked n han p hpp)
  · intro p c hcm
    rw [hsz]
    by_cases hne : p = g.size
    · subst hne; rw [hnew, hc] at hcm; cases hcm
    · obtain ⟨k, hk, hm⟩ := hold p hne
      rw [hk] at hcm
      rcases List.mem_append.1 hcm with h1 | h1
      · obtain ⟨h2, h3⟩ := s.wf.child p c h1
        rw [hpar c (by omega)]
        exact ⟨h2, by omega⟩
      · obtain ⟨h2, h3⟩ := List.mem_replicate.1 h1
        subst h3
        rw [hnew]
        exact ⟨hm.2 (by omega), by omega⟩
  · intro n
    by_cases hne : n = g.size
    · subst hne
      rw [hnew, hd, hx]
      simp [hl]
    · obtain ⟨k, hk, _⟩ := hold n hne
      rw [hk]
      exact s.fresh n

theorem kill_sound {g : Graph V S} (s : Sound g) (n : Nat)
    (hc : ∀ c, c < g.size → (g.node c).alive = true → n ∉ (g.node c).parents) :
    Sound (g.mod n fun x => { x with alive := false, obs := [] }) := by
  have hp : ∀ k, ((g.mod n fun x => { x with alive := false, obs := [] }).node k).parents =
      (g.node k).parents := by intro k; rw [Graph.mod_node]; split <;> rfl
  have hch : ∀ k, ((g.mod n fun x => { x with alive := false, obs := [] }).node k).children =
      (g.node k).children := by intro k; rw [Graph.mod_node]; split <;> rfl
  have hal : ∀ k, ((g.mod n fun x => { x with alive := false, obs := [] }).node k).alive = true →
      (g.node k).alive = true := by
    intro k h
    rw [Graph.mod_node] at h
    split at h
    · cases h
    · exact h
  refine ⟨⟨?_, ?_, ?_, ?_, ?_⟩, ?_⟩
  · intro k hk
    obtain ⟨h1, h2, h3⟩ := s.wf.unused k hk
    rw [hch, hp]
    refine ⟨?_, h2, h3⟩
    cases h : ((g.mod n fun x => { x with alive := false, obs := [] }).node k).alive with
    | false => rfl
    | true => rw [hal k h] at h1; cases h1
  · intro k p h; rw [hp] at h; exact s.wf.lt k p h
  · intro k ha p h
    rw [hp] at h
    have ha' := hal k ha
    have hpn : p ≠ n := fun e => hc k (s.wf.alive_lt ha') ha' (by rw [← e]; exact h)
    rw [Graph.mod_ne _ _ hpn]
    exact s.wf.parentAlive k ha' p h
  · intro k ha p h; rw [hp] at h; rw [hch]; exact s.wf.linked k (hal k ha) p h
  · intro p c h; rw [hch] at h; rw [hp]; exact s.wf.child p c h
  · intro k
    rw [Graph.mod_node]
    split
    · exact s.fresh k
    · exact s.fresh k

/-! ### All steps -/

theorem istep_sound {m m' : M V S} (s : Sound m.g) (he : istep m = some m') : Sound m'.g := by
  unfold istep at he
  split at he
  · cases he
  · split at he
    · -- notify
      split at he
      · cases he; dsimp only; refine sound_mod s ?_; exact fun _ => ⟨rfl, rfl, rfl, rfl, rfl, rfl, rfl, rfl⟩
      · cases he; exact s
    · split at he <;> cases he <;> exact s
    · -- kids
      split at he
      · split at he
        · cases he; exact s
        · split at he <;> cases he <;> exact s
      · cases he
        dsimp only
        refine sound_mod ?_ ?_
        rotate_left
        · exact fun _ => ⟨rfl, rfl, rfl, rfl, rfl, rfl, rfl, rfl⟩
        split
        · exact collect_sound _ s
        · exact s
    · cases he; exact s
    · cases he; exact s
    · -- up
      split at he
      · split at he <;> cases he
        · exact (sendDown_moves _ _).sound ((pushDown_touch _ _ _).sound s)
        · exact (pushDown_touch _ _ _).sound s
      · cases he
        simp only
        split
        · exact (refresh_recomputes _ _).sound s
        · exact s
      · cases he; dsimp only; refine sound_mod s ?_; exact fun _ => ⟨rfl, rfl, rfl, rfl, rfl, rfl, rfl, rfl⟩
      · cases he; exact s
      · cases he; exact s
    · cases he; exact s
    · cases he; exact s
    · -- setterRest
      split at he <;> cases he
      · exact (sendDown_moves _ _).sound (sound_mod ((pushDown_touch _ _ _).sound s) (fun _ => ⟨rfl, rfl, rfl, rfl, rfl, rfl, rfl, rfl⟩))
      · exact (pushDown_touch _ _ _).sound s
    · cases he
    · cases he

theorem ustep_sound [Inhabited S] {m m' : M V S} (s : Sound m.g) (op : Op V S)
    (he : ustep m op = some m') : Sound m'.g := by
  unfold ustep at he
  split at he
  · cases he
  · split at he
    case h_2 => cases he
    cases op with
    | newState auto cmp v => cases he; exact add_sound s _ (by simp [freshNode]) rfl rfl rfl rfl
    | newSensor cmp ext => cases he; exact add_sound s _ (by simp [freshNode]) rfl rfl rfl rfl
    | newConstant cmp v => cases he; exact add_sound s _ (by simp [freshNode]) rfl rfl rfl rfl
    | newCalc cmp ps view put refreshes dflt =>
      simp only at he
      split at he
      · rename_i hc
        cases he
        exact add_sound s _ (all_valid hc.2.1) rfl rfl rfl rfl
      · cases he
    | newXform cmp ps s0 u0 down up dflt =>
      simp only at he
      split at he
      · rename_i hc
        cases he
        exact add_sound s _ (all_valid hc.2.1) rfl rfl rfl rfl
      · cases he
    | newSetter cmp p auto =>
      simp only at he
      split at he
      · rename_i hc
        cases he
        refine add_sound s _ ?_ rfl rfl rfl rfl
        intro q hq
        have : q = p := by simpa [freshNode] using hq
        rw [this]; exact (valid_alive hc).2
      · cases he
    | set n v => simp only at he; split at he <;> cases he; exact s
    | update n f => simp only at he; split at he <;> cases he; exact s
    | commit rs =>
      simp only at he
      split at he <;> cases he
      exact (sendAll_moves rs m.g).sound s
    | attach n i =>
      simp only at he
      split at he <;> cases he
      dsimp only; refine sound_mod s ?_; exact fun _ => ⟨rfl, rfl, rfl, rfl, rfl, rfl, rfl, rfl⟩
    | detach n w => cases he; dsimp only; refine sound_mod s ?_; exact fun _ => ⟨rfl, rfl, rfl, rfl, rfl, rfl, rfl, rfl⟩
    | kill n =>
      simp only at he
      split at he
      · rename_i hc
        cases he
        exact kill_sound s n hc.2.1
      · cases he
    | ret =>
      simp only at he
      split at he <;> cases he
      exact s

theorem fails_sound {c : Cause} {m m' : M V S} (s : Sound m.g) (h : Fails c m m') : Sound m'.g := by
  cases h with
  | @state f n v st g _ _ _ hg =>
    have hm := sendDownT_moves f m.g.size (m.g.pushDown n v) n
    rw [hg] at hm
    exact unwind_sound st (hm.sound ((pushDown_touch _ _ _).sound s))
  | @setter f n v st g _ _ _ hg =>
    have hm := sendDownT_moves f m.g.size
      ((m.g.pushDown n v).mod n fun x => { x with recomputed := true }) n
    rw [hg] at hm
    exact unwind_sound st (hm.sound (sound_mod ((pushDown_touch _ _ _).sound s) (fun _ => ⟨rfl, rfl, rfl, rfl, rfl, rfl, rfl, rfl⟩)))
  | @refresh f n v st _ _ g _ _ _ hg =>
    have hm := refreshT_recomputes f (n + 1) m.g n
    rw [hg] at hm
    exact unwind_sound st (hm.sound s)
  | @put n v st _ _ refreshes _ _ _ =>
    refine unwind_sound st ?_
    split
    · exact (refresh_recomputes _ _).sound s
    · exact s
  | @xput n v st _ _ _ _ _ => exact unwind_sound st s
  | @commit f rs st g _ _ _ hg =>
    have hm := sendAllT_moves f rs m.g
    rw [hg] at hm
    exact hm.sound s
  | @write n v st _ _ _ => exact unwind_sound st s

theorem vreach_sound [Inhabited S] {m : M V S} (h : VReach m) : Sound m.g := by
  induction h with
  | start ltr dummy hd => exact ⟨(start_inv ltr hd).wf, (start_inv ltr hd).fresh⟩
  | step _ hs ih =>
    cases hs with
    | step hx =>
      cases hx with
      | step hs =>
        cases hs with
        | lib he => exact istep_sound ih he
        | user op he => exact ustep_sound ih op he
      | raise hr =>
        unfold raise at hr
        split at hr
        · cases hr
        · split at hr
          · cases hr; exact unwind_sound _ ih
          · cases hr
    | fails hf => exact fails_sound ih hf

/-! ### A propagation that comes to its end -/

/-- The value of `p` or its pending value differ. -/
def Moved (g g' : Graph V S) (p : Nat) : Prop :=
  (g'.node p).current ≠ (g.node p).current ∨ (g'.node p).last ≠ (g.node p).last

theorem settled_congr {g g' : Graph V S} (hs : Same g g') {c : Nat}
    (hp : ∀ p ∈ (g.node c).parents, (g'.node p).current = (g.node p).current)
    (hc : (g'.node c).current = (g.node c).current) (hi : (g'.node c).input = (g.node c).input)
    (h : Settled g c) : Settled g' c := by
  have hcur : g'.currents (g.node c).parents = g.currents (g.node c).parents :=
    List.map_congr_left hp
  unfold Settled
  rw [hs.kind, hs.parents, hcur, hc, hi]
  exact h

/-- The main fact: whatever the state of the graph, after `send_down` of `n` the readers that were up
to date still are, and so are all readers of which a source has changed. -/
theorem sendDownN_settles (k : Nat) (g : Graph V S) (n : Nat) (s : Sound g)
    (hn : (g.node n).alive = true) (hk : g.size - n ≤ k) (c : Nat) (ha : (g.node c).alive = true)
    (hc : c = n ∨ Settled g c ∨
      ∃ p ∈ (g.node c).parents, Moved g (g.sendDownN k n) p) :
    Settled (g.sendDownN k n) c := by
  induction k generalizing g n c with
  | zero => have := s.wf.alive_lt hn; omega
  | succ k ih =>
    have hnlt := s.wf.alive_lt hn
    have ht := recompute_touch g n
    have s1 := ht.sound s
    have hs1 := recompute_settled s.wf n
    simp only [Graph.sendDownN] at hc ⊢
    by_cases hd : ((g.recompute n).node n).dirty = true
    · rw [if_pos hd] at hc ⊢
      have hmv : Moves g ((g.recompute n).publish n) := .publish n (.recompute n (.refl g)) hd
      have s2 := hmv.sound s
      have walk : ∀ (l : List Nat) (h : Graph V S), Sound h → Same g h →
          (∀ d ∈ l, n < d ∧ d < g.size) →
          (∀ c, (g.node c).alive = true → (c = n ∨ Settled g c ∨
            ∃ p ∈ (g.node c).parents, Moved g h p) →
            Settled h c ∨ c ∈ l) →
          ∀ c, (g.node c).alive = true → (c = n ∨ Settled g c ∨
            ∃ p ∈ (g.node c).parents,
              Moved g (l.foldl (fun g c => if (g.node c).alive then g.sendDownN k c else g) h) p) →
            Settled (l.foldl (fun g c => if (g.node c).alive then g.sendDownN k c else g) h) c := by
        intro l
        induction l with
        | nil =>
          intro h _ _ _ hA c ha hc
          rcases hA c ha hc with h1 | h1
          · exact h1
          · cases h1
        | cons d l ihl =>
          intro h sh same hl hA
          have hdl := hl d (.head _)
          by_cases had : (h.node d).alive = true
          · simp only [List.foldl_cons, if_pos had]
            have hmd := sendDownN_moves k h d
            refine ihl _ (hmd.sound sh) (same.trans hmd.same) (fun x hx => hl x (.tail _ hx)) ?_
            intro c ha hc
            have hkd : h.size - d ≤ k := by rw [same.size]; omega
            have hach : (h.node c).alive = true := by rw [same.alive]; exact ha
            by_cases hchg : ∃ p ∈ (h.node c).parents, Moved h (h.sendDownN k d) p
            · exact .inl (ih h d sh had hkd c hach (.inr (.inr hchg)))
            · by_cases hcd : c = d
              · exact .inl (ih h d sh had hkd c hach (.inl hcd))
              · have heq : ∀ p ∈ (g.node c).parents,
                    ((h.sendDownN k d).node p).current = (h.node p).current ∧
                    ((h.sendDownN k d).node p).last = (h.node p).last := by
                  intro p hp
                  rw [← same.parents] at hp
                  exact ⟨Classical.byContradiction fun hne => hchg ⟨p, hp, .inl hne⟩,
                    Classical.byContradiction fun hne => hchg ⟨p, hp, .inr hne⟩⟩
                have hold : c = n ∨ Settled g c ∨
                    ∃ p ∈ (g.node c).parents, Moved g h p := by
                  rcases hc with h1 | h1 | ⟨p, hp, h1⟩
                  · exact .inl h1
                  · exact .inr (.inl h1)
                  · refine .inr (.inr ⟨p, hp, ?_⟩)
                    unfold Moved at h1 ⊢
                    rw [(heq p hp).1, (heq p hp).2] at h1
                    exact h1
                rcases hA c ha hold with h1 | h1
                · exact .inl (ih h d sh had hkd c hach (.inr (.inl h1)))
                · rcases List.mem_cons.1 h1 with h2 | h2
                  · exact absurd h2 hcd
                  · exact .inr h2
          · simp only [List.foldl_cons, if_neg had]
            refine ihl h sh same (fun x hx => hl x (.tail _ hx)) ?_
            intro c ha hc
            rcases hA c ha hc with h1 | h1
            · exact .inl h1
            · rcases List.mem_cons.1 h1 with h2 | h2
              · subst h2
                rw [same.alive] at had
                exact absurd ha had
              · exact .inr h2
      refine walk _ _ s2 hmv.same ?_ ?_ c ha hc
      · intro d hdm
        rw [hmv.same.children] at hdm
        exact s.wf.child_lt hdm
      · intro c ha hc
        by_cases hcn : c = n
        · subst hcn
          exact .inl ((publish_settled _ _ _).2 hs1)
        · by_cases hnp : n ∈ (g.node c).parents
          · right
            rw [hmv.same.children]
            exact s.wf.linked c ha n hnp
          · left
            have hnode : ∀ p, p ≠ n → ((g.recompute n).publish n).node p = g.node p := by
              intro p hp
              rw [publish_other _ hp, ht.other p hp]
            have hcur : ∀ p, p ≠ n → (((g.recompute n).publish n).node p).current =
                (g.node p).current := fun p hp => by rw [hnode p hp]
            have hcs : Settled g c := by
              rcases hc with h1 | h1 | ⟨p, hp, h1⟩
              · exact absurd h1 hcn
              · exact h1
              · unfold Moved at h1
                rw [hnode p (fun e => hnp (e ▸ hp))] at h1
                exact (h1.elim (· rfl) (· rfl)).elim
            refine settled_congr hmv.same (fun p hp => hcur p (fun e => hnp (e ▸ hp)))
              (hcur c hcn) ?_ hcs
            rw [publish_other _ hcn, ht.other c hcn]
    · rw [if_neg hd] at hc ⊢
      have hcur : ∀ p, ((g.recompute n).node p).current = (g.node p).current := by
        intro p
        by_cases hp : p = n
        · subst hp
          refine Classical.byContradiction fun hne => hd ?_
          exact (s1.fresh p).1 (ht.changed hne)
        · rw [ht.other p hp]
      by_cases hcn : c = n
      · subst hcn; exact hs1
      · have hcs : Settled g c := by
          rcases hc with h1 | h1 | ⟨p, hp, h1⟩
          · exact absurd h1 hcn
          · exact h1
          · rcases h1 with h1 | h1
            · exact absurd (hcur p) h1
            · exact absurd (ht.last_all p).1 h1
        exact settled_congr ht.same (fun p _ => hcur p) (hcur c) (by rw [ht.other c hcn]) hcs

theorem sendDown_settles {g : Graph V S} {n : Nat} (s : Sound g) (hn : (g.node n).alive = true)
    {c : Nat} (ha : (g.node c).alive = true)
    (hc : c = n ∨ Settled g c ∨
      ∃ p ∈ (g.node c).parents, Moved g (g.sendDown n) p) :
    Settled (g.sendDown n) c :=
  sendDownN_settles g.size g n s hn (by omega) c ha hc

/-- The same for several roots, `commit`. -/
theorem sendAll_settles (rs : List Nat) {g : Graph V S} (s : Sound g)
    (hr : ∀ r ∈ rs, (g.node r).alive = true) {c : Nat} (ha : (g.node c).alive = true)
    (hc : Settled g c ∨ ∃ p ∈ (g.node c).parents,
      Moved g (rs.foldl (fun g r => g.sendDown r) g) p) :
    Settled (rs.foldl (fun g r => g.sendDown r) g) c := by
  induction rs generalizing g with
  | nil =>
    rcases hc with h1 | ⟨p, _, h1⟩
    · exact h1
    · exact (h1.elim (· rfl) (· rfl)).elim
  | cons r rs ih =>
    simp only [List.foldl_cons] at hc ⊢
    have hm := sendDown_moves g r
    have key : Settled g c ∨ (∃ p ∈ (g.node c).parents, Moved g (g.sendDown r) p) → Settled (g.sendDown r) c :=
      fun h => sendDown_settles s (hr r (.head _)) ha (.inr h)
    refine ih (hm.sound s) (fun x hx => ?_) (by rw [hm.same.alive]; exact ha) ?_
    · rw [hm.same.alive]; exact hr x (.tail _ hx)
    · rcases hc with h1 | ⟨p, hp, h1⟩
      · exact .inl (key (.inl h1))
      · by_cases he : Moved g (g.sendDown r) p
        · exact .inl (key (.inr ⟨p, hp, he⟩))
        · refine .inr ⟨p, by rw [hm.same.parents]; exact hp, ?_⟩
          have h2 : ((g.sendDown r).node p).current = (g.node p).current :=
            Classical.byContradiction fun h => he (.inl h)
          have h3 : ((g.sendDown r).node p).last = (g.node p).last :=
            Classical.byContradiction fun h => he (.inr h)
          unfold Moved at h1 ⊢
          rw [h2, h3]
          exact h1

/-! ### What a propagation that is left reaches -/

/-- Only nodes below `n` are touched. -/
theorem sendDownT_other (f : Faults V) (P : Nat → Prop) (k : Nat) (g : Graph V S) (n : Nat)
    (hn : P n) (hP : ∀ p c, P p → c ∈ (g.node p).children → P c) {x : Nat} (hx : ¬ P x) :
    (g.sendDownT f k n).1.node x = g.node x := by
  induction k generalizing g n with
  | zero => rfl
  | succ k ih =>
    have hxn : x ≠ n := fun e => hx (e ▸ hn)
    simp only [Graph.sendDownT]
    split
    · rfl
    · split
      · rename_i hd
        split
        · exact recompute_other _ hxn
        have hmv : Moves g ((g.recompute n).publish n) := .publish n (.recompute n (.refl g)) hd
        have walk : ∀ (l : List Nat) (r : Graph V S × Bool), (∀ c ∈ l, P c) → Same g r.1 →
            r.1.node x = g.node x →
            (l.foldl (fun r c => if r.2 && (r.1.node c).alive then
              Graph.sendDownT f k r.1 c else r) r).1.node x = g.node x := by
          intro l
          induction l with
          | nil => intro r _ _ hr; exact hr
          | cons c l ihl =>
            intro r hl hs hr
            simp only [List.foldl_cons]
            apply ihl _ (fun d hd => hl d (.tail _ hd))
            · split
              · exact hs.trans (sendDownT_moves f k r.1 c).same
              · exact hs
            · split
              · rw [← hr]
                refine ih r.1 c (hl c (.head _)) ?_
                intro p d hp hd
                rw [hs.children] at hd
                exact hP p d hp hd
              · exact hr
        refine walk _ _ ?_ hmv.same ?_
        · intro c hc
          rw [hmv.same.children] at hc
          exact hP n c hn hc
        · rw [publish_other _ hxn, recompute_other _ hxn]
      · exact recompute_other _ hxn

theorem sendAllT_other (f : Faults V) (P : Nat → Prop) (rs : List Nat) (g : Graph V S)
    (hn : ∀ r ∈ rs, P r) (hP : ∀ p c, P p → c ∈ (g.node p).children → P c) {x : Nat} (hx : ¬ P x) :
    (g.sendAllT f rs).1.node x = g.node x := by
  have walk : ∀ (l : List Nat) (r : Graph V S × Bool), (∀ c ∈ l, P c) → Same g r.1 →
      r.1.node x = g.node x →
      (l.foldl (fun r n => if r.2 then Graph.sendDownT f r.1.size r.1 n else r) r).1.node x =
        g.node x := by
    intro l
    induction l with
    | nil => intro r _ _ hr; exact hr
    | cons c l ihl =>
      intro r hl hs hr
      simp only [List.foldl_cons]
      apply ihl _ (fun d hd => hl d (.tail _ hd))
      · split
        · exact hs.trans (sendDownT_moves f _ r.1 c).same
        · exact hs
      · split
        · rw [← hr]
          refine sendDownT_other f P _ r.1 c (hl c (.head _)) ?_ hx
          intro p d hp hd
          rw [hs.children] at hd
          exact hP p d hp hd
        · exact hr
  exact walk _ _ hn (Same.refl g) rfl

/-- A propagation that starts at a node without a function and is left has published the node, unless copying its
value throws. -/
theorem sendDownT_self (f : Faults V) (k : Nat) (g : Graph V S) (n : Nat) (w : WF g)
    (ht : g.throwsAt f n = false) (hcp : f.copy n ((g.recompute n).node n).current = false)
    (h : (g.sendDownT f k n).2 = false) :
    (g.sendDownT f k n).1.node n = ((g.recompute n).publish n).node n := by
  cases k with
  | zero => cases h
  | succ k =>
    simp only [Graph.sendDownT, ht, hcp, Bool.false_eq_true, if_false] at h ⊢
    split at h
    · rename_i hd
      rw [if_pos hd]
      have hmv : Moves g ((g.recompute n).publish n) := .publish n (.recompute n (.refl g)) hd
      have walk : ∀ (l : List Nat) (r : Graph V S × Bool), (∀ c ∈ l, n < c) → Same g r.1 →
          r.1.node n = ((g.recompute n).publish n).node n →
          (l.foldl (fun r c => if r.2 && (r.1.node c).alive then
            Graph.sendDownT f k r.1 c else r) r).1.node n =
            ((g.recompute n).publish n).node n := by
        intro l
        induction l with
        | nil => intro r _ _ hr; exact hr
        | cons c l ihl =>
          intro r hl hs hr
          simp only [List.foldl_cons]
          apply ihl _ (fun d hd => hl d (.tail _ hd))
          · split
            · exact hs.trans (sendDownT_moves f k r.1 c).same
            · exact hs
          · split
            · rw [← hr]
              refine sendDownT_other f (fun x => n < x) k r.1 c (hl c (.head _)) ?_ (by omega)
              intro p d hp hd
              rw [hs.children] at hd
              have := (w.child_lt hd).1
              omega
            · exact hr
      refine walk _ _ ?_ hmv.same rfl
      intro c hc
      rw [hmv.same.children] at hc
      exact (w.child_lt hc).1
    · cases h

/-! ### The outermost code is user code -/

theorem vreach_base [Inhabited S] {m : M V S} (h : VReach m) : m.stack.getLast? = some .user := by
  have unw : ∀ (st : List (Frame V)) (g : Graph V S), st.getLast? = some .user →
      (unwind g st).2.getLast? = some .user := by
    intro st g hb
    obtain ⟨pre, st', h1, h2, _⟩ := unwind_suffix st g hb
    rw [h2, ← hb, h1, List.getLast?_append]
    cases h : (Frame.user :: st').getLast? with
    | none => simp at h
    | some x => rfl
  induction h with
  | start ltr dummy hd => rfl
  | @step m m' _ hs ih =>
    have tl : ∀ {f : Frame V} {st : List (Frame V)}, m.stack = f :: st → f ≠ .user →
        ∀ pre : List (Frame V), (pre ++ st).getLast? = some .user := by
      intro f st hst hf pre
      rw [hst] at ih
      exact base_tail ih hf pre
    have keep : ∀ (pre : List (Frame V)), (pre ++ m.stack).getLast? = some .user := by
      intro pre
      cases hst : m.stack with
      | nil => rw [hst] at ih; cases ih
      | cons f st => rw [hst] at ih; simp [ih]
    cases hs with
    | step hx =>
      cases hx with
      | step hs =>
        cases hs with
        | lib he =>
          unfold istep at he
          split at he
          · cases he
          · split at he
            · rename_i hst
              split at he <;> cases he
              · exact tl hst (by simp) [_]
              · exact tl hst (by simp) []
            · rename_i hst
              split at he <;> cases he
              · exact ih
              · exact tl hst (by simp) [_]
              · exact tl hst (by simp) [_, _]
            · rename_i hst
              split at he
              · split at he
                · cases he; exact ih
                · split at he <;> cases he
                  · exact tl hst (by simp) [_, _]
                  · exact tl hst (by simp) [_]
              · cases he; exact tl hst (by simp) []
            · rename_i hst; cases he; exact tl hst (by simp) []
            · rename_i hst; cases he; exact tl hst (by simp) [_, _]
            · rename_i hst
              split at he
              · split at he <;> cases he
                · exact tl hst (by simp) [_]
                · exact tl hst (by simp) []
              · cases he; exact tl hst (by simp) [_]
              · cases he; exact tl hst (by simp) [_]
              · cases he; exact tl hst (by simp) [_, _]
              · cases he; exact tl hst (by simp) []
            · rename_i hst; cases he; exact tl hst (by simp) []
            · rename_i hst; cases he; exact tl hst (by simp) [_, _]
            · rename_i hst
              split at he <;> cases he
              · exact tl hst (by simp) [_]
              · exact tl hst (by simp) []
            · cases he
            · cases he
        | user op he =>
          unfold ustep at he
          split at he
          · cases he
          · split at he
            case h_2 => cases he
            cases op with
            | newState | newSensor | newConstant | detach => cases he; exact ih
            | newCalc | newXform | newSetter | attach | kill =>
              simp only at he; split at he <;> cases he; exact ih
            | set | update | commit =>
              simp only at he; split at he <;> cases he; exact keep [_]
            | ret =>
              rename_i hst
              simp only at he
              split at he
              · cases he
              · rename_i hne
                cases he
                rw [hst] at ih
                rename_i st _
                cases st with
                | nil => exact absurd rfl hne
                | cons f st => rw [List.getLast?_cons_cons] at ih; exact ih
      | raise hr =>
        unfold raise at hr
        split at hr
        · cases hr
        · split at hr
          · rename_i hst
            cases hr
            apply unw
            rw [hst] at ih
            simpa using ih
          · cases hr
    | fails hf =>
      cases hf with
      | state _ _ hst | setter _ _ hst | refresh _ _ hst | put _ hst | xput _ hst =>
        exact unw _ _ (by simpa using tl hst (by simp) [])
      | commit => exact ih
      | write _ _ hst =>
        rcases hst with ⟨hst, _⟩ | ⟨hst, _⟩ <;> exact unw _ _ (by simpa using tl hst (by simp) [])

end Verif.Graph
