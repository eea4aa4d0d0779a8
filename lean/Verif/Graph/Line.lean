import Verif.Graph.Once
import Verif.Graph.Exec

/-
Readers derived from a state along a single path are notified only if their value changes.
-/

set_option linter.unusedSectionVars false

namespace Verif.Graph

variable {V S : Type} [DecidableEq V]

/-- The value that a node will have after the state `r` has got the value `u`. -/
inductive NewVal (g : Graph V S) (old : Nat → V) (r : Nat) (u : V) : Nat → V → Prop where
  | root {a} : (g.node r).kind = .state a → NewVal g old r u r u
  | comp {n p : Nat} {x : V} {view put refr} : (g.node n).kind = .calc view put refr →
      (g.node n).parents = [p] → NewVal g old r u p x →
      NewVal g old r u n ((view [x]).getD (old n))

theorem NewVal.det {g : Graph V S} {old : Nat → V} {r : Nat} {u : V} {n : Nat} {x y : V}
    (h : NewVal g old r u n x) (k : NewVal g old r u n y) : x = y := by
  induction h generalizing y with
  | root hk =>
    cases k with
    | root => rfl
    | comp h1 => rw [hk] at h1; cases h1
  | comp hk hp _ ih =>
    cases k with
    | root h1 => rw [hk] at h1; cases h1
    | comp h1 h2 h3 =>
      rw [hk] at h1; cases h1
      rw [hp] at h2; cases h2
      rw [ih h3]

theorem Line.newVal {g : Graph V S} {n r : Nat} (h : Line g n r) (old : Nat → V) (u : V) :
    ∃ x, NewVal g old r u n x := by
  induction h with
  | state hk => exact ⟨_, .root hk⟩
  | comp hk hp _ ih => obtain ⟨x, hx⟩ := ih; exact ⟨_, .comp hk hp hx⟩

/-- Not yet recomputed (or not changed), recomputed, published. -/
def Phase (old x : V) (y : Node V S) : Prop :=
  (y.current = old ∧ y.last = old ∧ y.dirty = false ∧ y.needsNotify = false) ∨
  (x ≠ old ∧ y.current = x ∧ y.last = old ∧ y.dirty = true ∧ y.needsNotify = false) ∨
  (x ≠ old ∧ y.current = x ∧ y.last = x ∧ y.dirty = false ∧ y.needsNotify = true)

theorem Phase.current {old x : V} {y : Node V S} (h : Phase old x y) :
    y.current = old ∨ y.current = x := by
  rcases h with h | h | h
  · exact .inl h.1
  · exact .inr h.2.1
  · exact .inr h.2.1

/-- The invariant of propagation, for the nodes of `Q` that are on a line. -/
structure LineInv (g0 : Graph V S) (Q : Nat → Prop) (old : Nat → V) (r : Nat) (u : V)
    (g : Graph V S) : Prop where
  same : Same g0 g
  root : (g.node r).current = u
  rootLast : ((g.node r).last = old r ∧ (g.node r).needsNotify = false) ∨
    ((g.node r).last = u ∧ (g0.node r).dirty = true)
  rootDirty : (g.node r).dirty = true → (g0.node r).dirty = true
  phase : ∀ n x, n ≠ r → Q n → NewVal g0 old r u n x → Phase (old n) x (g.node n)
  above : ∀ n x, n ≠ r → Q n → NewVal g0 old r u n x → (g.node n).current ≠ old n →
    ∀ p y, (g0.node n).parents = [p] → NewVal g0 old r u p y → (g.node p).current = y

/-- The old values are consistent. -/
structure LineHyp (g0 : Graph V S) (Q : Nat → Prop) (old : Nat → V) (r : Nat) : Prop where
  wf : WF g0
  closed : ∀ n p, Q n → p ∈ (g0.node n).parents → Q p
  state : ∃ a, (g0.node r).kind = .state a
  settled : ∀ n, Q n → ∀ view put refr p v, (g0.node n).kind = .calc view put refr →
    (g0.node n).parents = [p] → view [old p] = some v → v = old n
  cmp : ∀ n, Q n → n ≠ r → (g0.node n).cmp = true

/-- Nodes that are not changed, or changed only from the first to the second phase. -/
theorem LineInv.touch {g0 : Graph V S} {Q : Nat → Prop} {old : Nat → V} {r : Nat} {u : V}
    {g g' : Graph V S} (hi : LineInv g0 Q old r u g) (hs : Same g g')
    (hr : g'.node r = g.node r)
    (hn : ∀ n x, n ≠ r → Q n → NewVal g0 old r u n x → g'.node n = g.node n) (H : LineHyp g0 Q old r) :
    LineInv g0 Q old r u g' := by
  refine ⟨hi.same.trans hs, by rw [hr]; exact hi.root, by rw [hr]; exact hi.rootLast,
    by rw [hr]; exact hi.rootDirty, fun n x h1 h2 h3 => ?_, fun n x h1 h2 h3 h4 p y h5 h6 => ?_⟩
  · rw [hn n x h1 h2 h3]; exact hi.phase n x h1 h2 h3
  · rw [hn n x h1 h2 h3] at h4
    have := hi.above n x h1 h2 h3 h4 p y h5 h6
    by_cases hp : p = r
    · subst hp; rw [hr]; exact this
    · rw [hn p y hp (H.closed n p h2 (by rw [h5]; exact List.mem_cons_self ..)) h6]; exact this

theorem LineInv.recompute {g0 : Graph V S} {Q : Nat → Prop} {old : Nat → V} {r : Nat} {u : V}
    {g : Graph V S} (hi : LineInv g0 Q old r u g) (H : LineHyp g0 Q old r) (k : Nat) :
    LineInv g0 Q old r u (g.recompute k) := by
  by_cases hkr : k = r
  · subst hkr
    obtain ⟨a, ha⟩ := H.state
    have : g.recompute k = g := by
      unfold Graph.recompute
      rw [hi.same.kind, ha]
    rw [this]; exact hi
  by_cases hon : Q k ∧ ∃ x, NewVal g0 old r u k x
  · obtain ⟨hq, x, hx⟩ := hon
    have hph := hi.phase k x hkr hq hx
    have hab := hi.above k x hkr hq hx
    cases hx with
    | root _ => exact absurd rfl hkr
    | @comp _ p xp view put refr hk hp hxp =>
      have hpk : p ≠ k := by
        have := H.wf.lt k p (by rw [hp]; exact List.mem_cons_self ..); omega
      have hQp := H.closed k p hq (by rw [hp]; exact List.mem_cons_self ..)
      have hcur : g.currents (g.node k).parents = [(g.node p).current] := by
        rw [hi.same.parents, hp]; rfl
      have hcmp : (g.node k).cmp = true := by rw [hi.same.cmp]; exact H.cmp k hq hkr
      have hrec : g.recompute k = match view [(g.node p).current] with
          | none => g
          | some v => g.pushDown k v := by
        unfold Graph.recompute
        rw [hi.same.kind, hk]
        simp only [hcur]
        rfl
      have stay : ∀ v, v = (g.node k).current → g.pushDown k v = g := by
        intro v hv
        unfold Graph.pushDown
        rw [if_neg]
        simp [hcmp, hv]
      have hpcur : (g.node p).current = xp ∨ (g.node p).current = old p := by
        by_cases hpr : p = r
        · subst hpr
          cases hxp with
          | root => exact .inl hi.root
          | comp h1 => obtain ⟨a, ha⟩ := H.state; rw [ha] at h1; cases h1
        · exact (hi.phase p xp hpr hQp hxp).current.symm
      by_cases hpx : (g.node p).current = xp
      · rw [hrec, hpx]
        cases hv : view [xp] with
        | none => exact hi
        | some v =>
          simp only [hv, Option.getD_some] at hph
          simp only
          by_cases hc : v = (g.node k).current
          · rw [stay v hc]; exact hi
          · rcases hph with h1 | h1 | h1
            · -- from the first phase to the second
              have hg : g.pushDown k v = g.mod k (fun y =>
                  { y with current := v, dirty := true, chg := y.chg || decide (v ≠ y.current) }) := by
                unfold Graph.pushDown
                rw [if_pos (.inr hc)]
              have ht := pushDown_touch g k v
              have hnk : ((g.pushDown k v).node k).current = v ∧
                  ((g.pushDown k v).node k).last = (g.node k).last ∧
                  ((g.pushDown k v).node k).dirty = true ∧
                  ((g.pushDown k v).node k).needsNotify = (g.node k).needsNotify := by
                rw [hg, Graph.mod_self]; exact ⟨rfl, rfl, rfl, rfl⟩
              refine ⟨hi.same.trans ht.same, by rw [ht.other r (Ne.symm hkr)]; exact hi.root,
                by rw [ht.other r (Ne.symm hkr)]; exact hi.rootLast,
                by rw [ht.other r (Ne.symm hkr)]; exact hi.rootDirty,
                fun n y k1 k2 k3 => ?_, fun n y k1 k2 k3 k4 p' y' k5 k6 => ?_⟩
              · by_cases hnk' : n = k
                · subst hnk'
                  have hy := k3.det (.comp hk hp hxp)
                  rw [hv, Option.getD_some] at hy
                  subst hy
                  refine .inr (.inl ⟨by rw [← h1.1]; exact hc, hnk.1, hnk.2.1.trans h1.2.1, hnk.2.2.1,
                    hnk.2.2.2.trans h1.2.2.2⟩)
                · rw [ht.other n hnk']; exact hi.phase n y k1 k2 k3
              · by_cases hnk' : n = k
                · subst hnk'
                  rw [hp] at k5; cases k5
                  rw [ht.other p hpk, hpx]
                  exact hxp.det k6
                · rw [ht.other n hnk'] at k4
                  have := hi.above n y k1 k2 k3 k4 p' y' k5 k6
                  by_cases hpk' : p' = k
                  · subst hpk'
                    have hy := k6.det (.comp hk hp hxp)
                    rw [hv, Option.getD_some] at hy
                    rw [hnk.1, hy]
                  · rw [ht.other p' hpk']; exact this
            · exact absurd h1.2.1.symm hc
            · exact absurd h1.2.1.symm hc
      · have hold : (g.node p).current = old p := by
          rcases hpcur with h1 | h1
          · exact absurd h1 hpx
          · exact h1
        have hkold : (g.node k).current = old k := by
          apply Classical.byContradiction
          intro hne
          exact hpx (hab hne p xp hp hxp)
        rw [hrec]
        cases hv : view [(g.node p).current] with
        | none => exact hi
        | some v =>
          simp only
          rw [hold] at hv
          rw [stay v (by rw [hkold]; exact H.settled k hq view put refr p v hk hp hv)]
          exact hi
  · have ht := recompute_touch g k
    refine hi.touch ht.same (ht.other r (Ne.symm hkr)) (fun n x h1 h2 h3 => ht.other n ?_) H
    intro e
    subst e
    exact hon ⟨h2, x, h3⟩

theorem LineInv.publish {g0 : Graph V S} {Q : Nat → Prop} {old : Nat → V} {r : Nat} {u : V}
    {g : Graph V S} (hi : LineInv g0 Q old r u g) {k : Nat}
    (hd : (g.node k).dirty = true) : LineInv g0 Q old r u (g.publish k) := by
  refine ⟨hi.same.trans (publish_same g k), by rw [publish_current]; exact hi.root, ?_, ?_, ?_, ?_⟩
  · by_cases hk : r = k
    · subst hk
      unfold Graph.publish
      rw [Graph.mod_self]
      exact .inr ⟨hi.root, hi.rootDirty hd⟩
    · rw [publish_other g hk]; exact hi.rootLast
  · by_cases hk : r = k
    · subst hk
      unfold Graph.publish
      rw [Graph.mod_self]
      intro h; cases h
    · rw [publish_other g hk]; exact hi.rootDirty
  · intro n x h1 h2 h3
    by_cases hk : n = k
    · subst hk
      unfold Graph.publish
      rw [Graph.mod_self]
      rcases hi.phase n x h1 h2 h3 with h4 | h4 | h4
      · rw [h4.2.2.1] at hd; cases hd
      · exact .inr (.inr ⟨h4.1, h4.2.1, h4.2.1, rfl, rfl⟩)
      · rw [h4.2.2.2.1] at hd; cases hd
    · rw [publish_other g hk]; exact hi.phase n x h1 h2 h3
  · intro n x h1 h2 h3 h4 p y h5 h6
    rw [publish_current] at h4 ⊢
    exact hi.above n x h1 h2 h3 h4 p y h5 h6

theorem LineInv.moves {g0 : Graph V S} {Q : Nat → Prop} {old : Nat → V} {r : Nat} {u : V}
    {g g' : Graph V S} (h : Moves g g') (hi : LineInv g0 Q old r u g) (H : LineHyp g0 Q old r) :
    LineInv g0 Q old r u g' := by
  induction h with
  | refl => exact hi
  | recompute n _ ih => exact ih.recompute H n
  | publish n _ hd ih => exact ih.publish hd

/-- Recomputing changes nothing where everything is settled and can be compared. -/
theorem Recomputes.still {g g' : Graph V S} (h : Recomputes g g') (Q : Nat → Prop)
    (hq : ∀ n p, Q n → p ∈ (g.node n).parents → Q p)
    (hset : ∀ n, Q n → Settled g n)
    (hk : ∀ n, Q n → ((∃ a, (g.node n).kind = .state a) ∨
      ∃ view put refr, (g.node n).kind = .calc view put refr ∧ (g.node n).cmp = true)) :
    ∀ n, Q n → g'.node n = g.node n := by
  induction h with
  | refl => intro n _; rfl
  | @step g1 k hr ih =>
    intro n hn
    by_cases hnk : n = k
    · subst hnk
      have hcur : g1.currents (g1.node n).parents = g.currents (g.node n).parents := by
        rw [ih n hn]
        unfold Graph.currents
        refine List.map_congr_left fun p hp => ?_
        rw [ih p (hq n p hn hp)]
      unfold Graph.recompute
      rcases hk n hn with ⟨a, h1⟩ | ⟨view, put, refr, h1, h2⟩
      · rw [ih n hn, h1]; exact ih n hn
      · rw [hcur, ih n hn, h1]
        simp only
        cases hv : view (g.currents (g.node n).parents) with
        | none => exact ih n hn
        | some v =>
          simp only
          have := (hset n hn).1 view put refr h1 v hv
          unfold Graph.pushDown
          rw [ih n hn, if_neg (by simp [h2, this])]
          exact ih n hn
    · rw [(recompute_touch g1 k).other n hnk]; exact ih n hn

/-- Nodes above a reader on a line are on the line. -/
theorem Line.same {g g' : Graph V S} (hs : Same g g') {n r : Nat} (h : Line g n r) : Line g' n r := by
  induction h with
  | state hk => exact .state ((hs.kind _).trans hk)
  | comp hk hp _ ih => exact .comp ((hs.kind _).trans hk) ((hs.parents _).trans hp) ih

theorem Line.above {m : M V S} {n r : Nat} (h : Line m.g n r) (hp : (m.g.node r).parents = [])
    {a : Nat} (ha : m.Above a n) : Line m.g a r := by
  induction h with
  | state hk =>
    cases ha with
    | refl => exact .state hk
    | step h1 => rw [hp] at h1; cases h1
  | comp hk hpar hl ih =>
    cases ha with
    | refl => exact .comp hk hpar hl
    | step h1 h2 =>
      rw [hpar, List.mem_singleton] at h1
      subst h1
      exact ih hp h2

theorem Above.trans {m : M V S} {a b c : Nat} (h : m.Above a b) (k : m.Above b c) :
    m.Above a c := by
  induction k with
  | refl => exact h
  | step hp _ ih => exact .step hp ih

/-- Everything above `n` is at rest in `m`; what propagation makes of it. -/
structure Ready (m : M V S) (n r : Nat) : Prop where
  inv : Inv m
  rest : m.stack = [.user]
  live : m.Live n
  line : Line m.g n r
  roots : (m.g.node r).parents = []
  clean : ∀ a, m.Above a n → ¬ m.Uncommitted a
  comparable : ∀ a, m.Above a n → (m.g.node a).cmp = true

theorem live_above {m : M V S} (h : WF m.g) {a n : Nat} (hl : m.Live n) (ha : m.Above a n) :
    m.Live a := by
  induction ha with
  | refl => exact hl
  | step hp _ ih => exact ih (h.parentAlive _ hl _ hp)

theorem Ready.up {m : M V S} {n r : Nat} (h : Ready m n r) {a : Nat} (ha : m.Above a n) :
    Ready m a r :=
  ⟨h.inv, h.rest, live_above h.inv.wf h.live ha, h.line.above h.roots ha, h.roots,
    fun b hb => h.clean b (Above.trans hb ha), fun b hb => h.comparable b (Above.trans hb ha)⟩

theorem Ready.node {m : M V S} {n r : Nat} (h : Ready m n r) :
    (m.g.node n).current = m.get n ∧ (m.g.node n).dirty = false ∧
      (m.g.node n).needsNotify = false :=
  ⟨(h.inv.shows h.live h.clean).symm, h.inv.notDirty h.live h.clean fun a ha _ => h.comparable a ha,
    h.inv.notified h.rest n h.live h.clean fun a ha _ => h.comparable a ha⟩

theorem Line.rootAbove {m : M V S} {n r : Nat} (h : Line m.g n r) : m.Above r n := by
  induction h with
  | state => exact .refl
  | comp _ hp _ ih => exact .step (by rw [hp]; exact List.mem_cons_self ..) ih

theorem Line.isState {g : Graph V S} {n r : Nat} (h : Line g n r) :
    ∃ a, (g.node r).kind = .state a := by
  induction h with
  | state hk => exact ⟨_, hk⟩
  | comp _ _ _ ih => exact ih

theorem Ready.hyp {m : M V S} {n r : Nat} (h : Ready m n r) {g : Graph V S} (hs : Same m.g g) :
    LineHyp g (fun a => m.Above a n) m.get r := by
  refine ⟨hs.wf h.inv.wf, fun a p ha hp => ?_, ?_, fun a ha view put refr p v hk hp hv => ?_,
    fun a ha _ => ?_⟩
  · rw [hs.parents] at hp
    exact Above.trans (.step hp .refl) ha
  · rw [hs.kind]; exact h.line.isState
  · have hr := h.up ha
    rw [hs.kind] at hk
    rw [hs.parents] at hp
    refine (h.inv.consistent hr.live hr.clean hk ?_).symm
    rw [hp]; exact hv
  · rw [hs.cmp]; exact h.comparable a ha

/-- Propagation, from a graph in which only the state has got another pending value. -/
theorem Ready.moves {m : M V S} {n r : Nat} (h : Ready m n r) {g1 g2 : Graph V S}
    (hs : Same m.g g1) (hother : ∀ a, m.Above a n → a ≠ r → g1.node a = m.g.node a)
    (hl : (g1.node r).last = m.get r) (hn : (g1.node r).needsNotify = false)
    (hm : Moves g1 g2) (hd : n = r → (g1.node r).dirty = true → (g1.node r).current ≠ m.get r)
    (hnn : (g2.node n).needsNotify = true) : (g2.node n).last ≠ m.get n := by
  have H := h.hyp hs
  have hi : LineInv g1 (fun a => m.Above a n) m.get r (g1.node r).current g1 := by
    refine ⟨.refl _, rfl, .inl ⟨hl, hn⟩, id, fun a x h1 h2 _ => ?_, fun a x h1 h2 _ h4 => ?_⟩
    · have := (h.up h2).node
      rw [hother a h2 h1]
      exact .inl ⟨this.1, rfl, this.2⟩
    · rw [hother a h2 h1] at h4
      exact absurd (h.up h2).node.1 h4
  have hi2 := hi.moves hm H
  have hline : Line g1 n r := by
    have := h.line
    clear hd hnn hi hi2 H hm hl hn hother h
    induction this with
    | state hk => exact .state ((hs.kind _).trans hk)
    | comp hk hp _ ih => exact .comp ((hs.kind _).trans hk) ((hs.parents _).trans hp) ih
  by_cases hnr : n = r
  · subst hnr
    rcases hi2.rootLast with h1 | h1
    · rw [h1.2] at hnn; cases hnn
    · rw [h1.1]; exact hd rfl h1.2
  · obtain ⟨x, hx⟩ := hline.newVal m.get (g1.node r).current
    rcases hi2.phase n x hnr .refl hx with h1 | h1 | h1
    · rw [h1.2.2.2] at hnn; cases hnn
    · rw [h1.2.2.2.2] at hnn; cases hnn
    · rw [h1.2.2.1]; exact h1.1

/-- What a reader on the line shows after propagation: the old value, or the view of the new one. -/
theorem Ready.value {m : M V S} {n r p : Nat} (h : Ready m n r) {g1 g2 : Graph V S}
    (hs : Same m.g g1) (hother : ∀ a, m.Above a n → a ≠ r → g1.node a = m.g.node a)
    (hl : (g1.node r).last = m.get r) (hn : (g1.node r).needsNotify = false)
    (hm : Moves g1 g2) {view put refr} (hk : (m.g.node n).kind = .calc view put refr)
    (hp : (m.g.node n).parents = [p]) :
    (g2.node n).last = m.get n ∨
      view [(g2.node p).current] = some (g2.node n).last := by
  have H := h.hyp hs
  have hi : LineInv g1 (fun a => m.Above a n) m.get r (g1.node r).current g1 := by
    refine ⟨.refl _, rfl, .inl ⟨hl, hn⟩, id, fun a x h1 h2 _ => ?_, fun a x h1 h2 _ h4 => ?_⟩
    · have := (h.up h2).node
      rw [hother a h2 h1]
      exact .inl ⟨this.1, rfl, this.2⟩
    · rw [hother a h2 h1] at h4
      exact absurd (h.up h2).node.1 h4
  have hi2 := hi.moves hm H
  have hline : Line g1 p r := by
    have := h.line
    cases this with
    | state h1 => rw [hk] at h1; cases h1
    | comp _ h2 this =>
      rw [hp] at h2
      cases h2
      exact this.same hs
  have hnr : n ≠ r := by
    rintro rfl
    obtain ⟨a, ha⟩ := h.line.isState
    rw [hk] at ha; cases ha
  obtain ⟨x, hx⟩ := hline.newVal m.get (g1.node r).current
  have hk1 := (hs.kind n).trans hk
  have hp1 := (hs.parents n).trans hp
  have hnx := NewVal.comp hk1 hp1 hx
  rcases hi2.phase n _ hnr .refl hnx with h1 | h1 | h1
  · exact .inl h1.2.1
  · exact .inl h1.2.2.1
  · right
    have hcur := hi2.above n _ hnr .refl hnx (by rw [h1.2.1]; exact h1.1) p x hp1 hx
    rw [hcur, h1.2.2.1]
    cases hv : view [x] with
    | none => rw [hv] at h1; exact absurd rfl h1.1
    | some v => rfl

theorem Ready.settled {m : M V S} {n r : Nat} (h : Ready m n r) : Settled m.g n := by
  constructor
  · intro view put refr hk v hv
    have h1 := h.inv.consistent h.live h.clean hk (v := v) (by
      rw [← hv]
      congr 1
      unfold Graph.currents
      refine List.map_congr_left fun p hp => ?_
      exact (h.up (.step hp .refl)).node.1.symm)
    rw [h.node.1]; exact h1
  · intro down up hk
    have := h.line
    cases this with
    | state h1 => rw [hk] at h1; cases h1
    | comp h1 => rw [hk] at h1; cases h1

/-- Refreshing changes nothing on the line. -/
theorem Ready.refreshed {m : M V S} {n r : Nat} (h : Ready m n r) {g : Graph V S}
    (hr : Recomputes m.g g) : ∀ a, m.Above a n → g.node a = m.g.node a := by
  refine hr.still (fun a => m.Above a n) (fun a p ha hp => Above.trans (.step hp .refl) ha)
    (fun a ha => (h.up ha).settled) (fun a ha => ?_)
  have := (h.up ha).line
  cases this with
  | state hk => exact .inl ⟨_, hk⟩
  | comp hk => exact .inr ⟨_, _, _, hk, h.comparable a ha⟩

/-- A write to a transactional state. -/
theorem state_write [Inhabited S] {m m1 : M V S} {op : Op V S} {s : Nat} (hi : Inv m)
    (hub : m.ub = false) (ht : op.target = some s) (hk : (m.g.node s).kind = .state false)
    (hc : Call m op m1) : ∃ v, op.writes m = some (s, v) ∧ m1 = { m with g := m.g.pushDown s v } := by
  obtain ⟨m2, h1, _, _⟩ := id hc
  obtain ⟨st, hst⟩ := ustep_user h1
  have hv : m.g.valid s = true ∧ m.g.canWrite s = true := by
    unfold ustep at h1
    rw [if_neg (by simp [hub]), hst] at h1
    cases op <;> simp only [Op.target, Option.some.injEq, reduceCtorEq] at ht
    all_goals
      subst ht
      simp only at h1
      split at h1
      · rename_i h2; rwa [Bool.and_eq_true] at h2
      · cases h1
  obtain ⟨v, hop⟩ : ∃ v, op.writes m = some (s, v) := by
    cases op <;> simp only [Op.target, Option.some.injEq, reduceCtorEq] at ht
    all_goals subst ht; exact ⟨_, rfl⟩
  refine ⟨v, hop, ?_⟩
  have := lazy_call hi hub hst hop hv.1 hv.2 (.state hk)
  rw [hc.det this]
  simp [Graph.sendUpN, hk]

/-- Writes to transactional states change the pending values of these states and nothing else. -/
theorem state_writes [Inhabited S] {m m1 : M V S} {ops : List (Op V S)} (hc : Calls m ops m1) :
    Inv m → m.ub = false →
    (∀ op ∈ ops, ∃ s, op.target = some s ∧ (m.g.node s).kind = .state false) →
    Inv m1 ∧ m1.ub = false ∧ m1.stack = m.stack ∧ m1.log = m.log ∧ Hidden m.g m1.g ∧
    ∀ a, (m.g.node a).kind ≠ .state false → m1.g.node a = m.g.node a := by
  induction hc with
  | nil m => intro hi hub _; exact ⟨hi, hub, rfl, rfl, .refl _, fun _ _ => rfl⟩
  | cons h1 _ ih =>
    intro hi hub hs
    rename_i m mm m2 op ops _
    obtain ⟨s, ht, hk⟩ := hs op (List.mem_cons_self ..)
    obtain ⟨v, _, rfl⟩ := state_write hi hub ht hk h1
    have htt := pushDown_touch m.g s v
    obtain ⟨k1, k2, k3, k4, k5, k6⟩ := ih (h1.runs.inv hi hub) hub fun op' ho => by
      obtain ⟨s', h2, h3⟩ := hs op' (List.mem_cons_of_mem _ ho)
      exact ⟨s', h2, (htt.same.kind s').trans h3⟩
    refine ⟨k1, k2, k3, k4, htt.hidden.trans k5, fun a ha => ?_⟩
    have hne : a ≠ s := by rintro rfl; exact ha hk
    rw [k6 a (by rw [show ({ m with g := m.g.pushDown s v } : M V S).g = m.g.pushDown s v from rfl,
      htt.same.kind]; exact ha)]
    exact htt.other a hne

theorem commit_step [Inhabited S] {m m1 : M V S} {rs : List Nat}
    (h : ustep m (.commit rs) = some m1) :
    m1.g = rs.foldl (fun g r => g.sendDown r) m.g ∧ m1.stack = [.roots rs] ++ m.stack := by
  obtain ⟨st, hst⟩ := ustep_user h
  have hub := (ustep_ub h).1
  unfold ustep at h
  rw [if_neg (by simp [hub]), hst] at h
  simp only at h
  split at h
  · cases h; exact ⟨rfl, by rw [hst]; rfl⟩
  · cases h

theorem set_step [Inhabited S] {m m1 : M V S} {op : Op V S} {n : Nat}
    (h : ustep m op = some m1) (ht : op.target = some n) :
    ∃ v, m1 = { m with stack := .up n v :: m.stack } := by
  obtain ⟨st, hst⟩ := ustep_user h
  have hub := (ustep_ub h).1
  unfold ustep at h
  rw [if_neg (by simp [hub]), hst] at h
  cases op <;> simp only [Op.target, Option.some.injEq, reduceCtorEq] at ht
  all_goals
    subst ht
    simp only at h
    split at h
    · cases h; exact ⟨_, by rw [hst]⟩
    · cases h

/-! ### Checkers for examples -/

theorem PRun.q [Inhabited S] {d : Nat} {a b : M V S} (h : PRun d a b) : QRun d a b := by
  induction h with
  | refl m => exact .refl m
  | @step m m1 _ he _ ih =>
    unfold pstep at he
    split at he
    · cases he
    rename_i hd
    split at he
    · exact .user .ret (by omega) rfl he ih
    · exact .lib he ih

theorem PCall.q [Inhabited S] {a b : M V S} {op : Op V S} (h : PCall a op b) : QCall a op b := by
  obtain ⟨m1, h1, h2, h3⟩ := h
  exact ⟨m1, h1, h2.q, h3⟩

/-- Every call of the sequence is possible and comes back without calling user code. -/
def callsOK [Inhabited S] : List (Op V S) → M V S → Bool
  | [], _ => true
  | op :: ops, m => (ustep m op).isSome && decide ((exec [op] m).stack = m.stack) &&
      callsOK ops (exec [op] m)

theorem calls_exec [Inhabited S] (ops : List (Op V S)) {m : M V S} (h : callsOK ops m = true) :
    Calls m ops (exec ops m) := by
  induction ops generalizing m with
  | nil => exact .nil m
  | cons op ops ih =>
    simp only [callsOK, Bool.and_eq_true, decide_eq_true_eq] at h
    refine .cons (m1 := exec [op] m) ?_ (ih h.2)
    obtain ⟨m1, hm⟩ := Option.isSome_iff_exists.1 h.1.1
    have he : exec [op] m = libN 200 m1 := by
      simp only [exec, List.foldl, hm]
    refine ⟨m1, hm, ?_, h.1.2⟩
    rw [he]; exact libN_run 200 m1

/-- Is `n` the state `r`, or derived from it by `map` and `zoom` of one at a time?  For examples. -/
def Graph.isLine (g : Graph V S) : Nat → Nat → Nat → Bool
  | 0, _, _ => false
  | k + 1, n, r =>
    match (g.node n).kind with
    | .state _ => n == r
    | .calc _ _ _ => match (g.node n).parents with
      | [p] => isLine g k p r
      | _ => false
    | _ => false

theorem isLine_line {g : Graph V S} {k n r : Nat} (h : g.isLine k n r = true) : Line g n r := by
  induction k generalizing n with
  | zero => cases h
  | succ k ih =>
    simp only [Graph.isLine] at h
    split at h
    · rename_i hk
      rw [beq_iff_eq] at h
      subst h
      exact .state hk
    · rename_i hk
      split at h
      · rename_i hp; exact .comp hk hp (ih h)
      · cases h
    · cases h

/-- The same for cursors and an automatic state.  For examples. -/
def Graph.isChain (g : Graph V S) : Nat → Nat → Nat → Bool
  | 0, _, _ => false
  | k + 1, n, r =>
    match (g.node n).kind with
    | .state true => n == r
    | .calc _ (some _) _ => match (g.node n).parents with
      | [p] => isChain g k p r
      | _ => false
    | _ => false

theorem isChain_chain {g : Graph V S} {k n r : Nat} (h : g.isChain k n r = true) :
    Chain g n r := by
  induction k generalizing n with
  | zero => cases h
  | succ k ih =>
    simp only [Graph.isChain] at h
    split at h
    · rename_i hk
      rw [beq_iff_eq] at h
      subst h
      exact .state hk
    · rename_i hk
      split at h
      · rename_i hp; exact .comp hk hp (ih h)
      · cases h
    · cases h

/-- Is `n` a state, `state.hpp:31-59`?  For examples. -/
def Graph.isState (g : Graph V S) (n : Nat) (auto : Bool) : Bool :=
  match (g.node n).kind with
  | .state a => a == auto
  | _ => false

theorem isState_state {g : Graph V S} {n : Nat} {auto : Bool} (h : g.isState n auto = true) :
    (g.node n).kind = .state auto := by
  unfold Graph.isState at h
  split at h
  · rename_i hk; rw [beq_iff_eq] at h; rw [hk, h]
  · cases h

end Verif.Graph
