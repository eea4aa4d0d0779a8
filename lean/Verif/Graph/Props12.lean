import Verif.Graph.Settle

/-
C108: callbacks that correct the value of the state that they watch.
-/

set_option linter.unusedSectionVars false

namespace Verif.Graph

variable {V S : Type} [DecidableEq V]

/-- What happens is determined by the program. -/
theorem Corrects.det [Inhabited S] {P : Writes V} {d : Nat} {m m1 m2 : M V S} (h1 : Corrects P d m m1)
    (h2 : Corrects P d m m2) (l1 : m1.stack.length ≤ d) (l2 : m2.stack.length ≤ d) : m1 = m2 := by
  induction h1 generalizing m2 with
  | refl d m =>
    cases h2 with
    | refl => rfl
    | lib h => omega
    | callback h => omega
  | lib hd he _ ih =>
    cases h2 with
    | refl => omega
    | lib _ he' h => rw [he] at he'; cases he'; exact ih h l1 l2
    | callback _ hst =>
      unfold istep at he
      rw [hst] at he
      split at he <;> cases he
  | callback hd hst hset _ hst2 hret _ ih1 ih2 =>
    cases h2 with
    | refl => omega
    | lib _ he =>
      unfold istep at he
      rw [hst] at he
      split at he <;> cases he
    | callback _ hst' hset' hn hst2' hret' h =>
      rw [hst] at hst'
      cases hst'
      rw [hset] at hset'
      cases hset'
      have := ih1 hn (by rw [hst2]; exact Nat.le_refl _) (by rw [hst2']; exact Nat.le_refl _)
      subst this
      rw [hret] at hret'
      cases hret'
      exact ih2 h l1 l2

/-- States that are set to be corrected: automatic ones, with values that can be compared, and nothing
unpublished. -/
def M.Correctable (m : M V S) (r : Nat) : Prop :=
  m.Live r ∧ (m.g.node r).kind = .state true ∧ (m.g.node r).cmp = true ∧ ¬ m.Uncommitted r

theorem correctable_good [Inhabited S] {m : M V S} (h : Reach m) (hrest : m.AtRest) {R : Nat → Prop}
    (hR : ∀ r, R r → m.Correctable r) : Good R (fun n => (m.g.node n).obs) m := by
  have hi := reach_inv h hrest.2
  have hpar : ∀ r, R r → (m.g.node r).parents = [] := fun r hr =>
    roots_no_parents h hrest.2 (hi.wf.alive_lt (hR r hr).1) (.inl ⟨true, (hR r hr).2.1⟩)
  have habove : ∀ r, R r → ∀ a, m.Above a r → a = r := by
    intro r hr a ha
    cases ha with
    | refl => rfl
    | step hp _ => rw [hpar r hr] at hp; cases hp
  have hsrc : ∀ r, R r → m.Source r := fun r hr => by
    intro view put b hk
    rw [(hR r hr).2.1] at hk
    cases hk
  refine ⟨hrest.2, fun r hr => ⟨(hR r hr).2.1, (hR r hr).2.2.1, (hR r hr).1, hpar r hr⟩, ?_, fun _ => rfl⟩
  intro r hr
  have hd : (m.g.node r).dirty = false := by
    cases hd : (m.g.node r).dirty with
    | false => rfl
    | true => exact absurd ⟨hsrc r hr, hd⟩ (hR r hr).2.2.2
  have hchg : (m.g.node r).chg = false := by
    cases hc : (m.g.node r).chg with
    | false => rfl
    | true => rw [(hi.fresh r).1 hc] at hd; cases hd
  refine ⟨hd, (hi.fresh r).2.2 hchg, hi.notified hrest.1 r (hR r hr).1 ?_ ?_⟩
  · intro a ha
    rw [habove r hr a ha]
    exact (hR r hr).2.2.2
  · intro a ha hs
    rw [habove r hr a ha] at hs
    exact absurd (hsrc r hr) hs

/-- The set, with everything that it leads to. -/
theorem settle [Inhabited S] {m : M V S} (h : Reach m) (hrest : m.AtRest) {R : Nat → Prop}
    (hR : ∀ r, R r → m.Correctable r) {P : Writes V} {μ : (Nat → V) → Nat} {Q : (Nat → V) → Prop}
    {Φ : Nat → V → Nat → Prop} (hc : Conv P R μ Q Φ fun n => (m.g.node n).obs) {r : Nat} (hr : R r) (v : V)
    (hQ : Q (upd m.get r v)) :
    ∃ m1 m2, ustep m (.set r v) = some m1 ∧ Corrects P m.stack.length m1 m2 ∧ m2.AtRest ∧ Q m2.get ∧
      Good R (fun n => (m.g.node n).obs) m2 ∧ Went μ Φ (μ (upd m.get r v)) none m m2 := by
  have hg := correctable_good h hrest hR
  have hi := reach_inv h hrest.2
  obtain ⟨hk, _, ha, _⟩ := hg.auto r hr
  have hv : m.g.valid r = true := by
    unfold Graph.valid
    simp [ha, hi.wf.alive_lt ha]
  have hset := set_begins hrest.2 hrest.1 (v := v) hv hk
  obtain ⟨m2, h1, h2, h3, h4, h5⟩ := writing hc _ { m with stack := .up r v :: m.stack } r v m.stack
    (.step h (.user _ hset)) ⟨hg.ub, hg.auto, hg.calm, hg.obs⟩ hr rfl (call_ends h hset rfl) hQ rfl
  exact ⟨_, m2, hset, h1, ⟨h2.trans hrest.1, h3.ub⟩, h4, h3, h5.le, h5.seen⟩

/-- Callbacks that write to automatic states, each of them a value that makes a measure of the values of
these states smaller if it changes anything: `set` returns, however they are attached and to which readers.
Every property of the values that is preserved by each of these writes, and that the values have after
the first one, holds at the end. -/
theorem C108_returns [Inhabited S] {m : M V S} (h : Reach m) (hrest : m.AtRest) {R : Nat → Prop}
    (hR : ∀ r, R r → m.Correctable r) {P : Writes V} (htarget : ∀ w, R (P.target w)) (μ : (Nat → V) → Nat)
    (hμ : ∀ σ σ', (∀ r, R r → σ' r = σ r) → μ σ' = μ σ)
    (hless : ∀ w σ, P.value w σ = σ (P.target w) ∨ μ (upd σ (P.target w) (P.value w σ)) < μ σ)
    (Q : (Nat → V) → Prop) (hQ : ∀ σ σ', (∀ r, R r → σ' r = σ r) → Q σ → Q σ')
    (hkeep : ∀ w σ, Q σ → Q (upd σ (P.target w) (P.value w σ))) {r : Nat} (hr : R r) (v : V)
    (hv : Q (upd m.get r v)) :
    ∃ m1 m2, ustep m (.set r v) = some m1 ∧ Corrects P m.stack.length m1 m2 ∧ m2.AtRest ∧ Q m2.get := by
  have hc : Conv P R μ Q (fun _ _ _ => True) fun n => (m.g.node n).obs :=
    ⟨htarget, hμ, hQ, hless, hkeep, fun _ _ _ _ _ _ => trivial, fun _ _ _ _ _ => trivial,
      fun _ _ _ _ _ _ _ => trivial⟩
  obtain ⟨m1, m2, h1, h2, h3, h4, _⟩ := settle h hrest hR hc hr v hv
  exact ⟨m1, m2, h1, h2, h3, h4⟩

/-- There is only one way how this can go on. -/
theorem C108_unique [Inhabited S] {P : Writes V} {m m1 m2 m2' : M V S} (h : Corrects P m.stack.length m1 m2)
    (h' : Corrects P m.stack.length m1 m2') (hs : m2.stack = m.stack) (hs' : m2'.stack = m.stack) :
    m2 = m2' :=
  h.det h' (by rw [hs]; exact Nat.le_refl _) (by rw [hs']; exact Nat.le_refl _)

/-- Callback `w` corrects the value `x` of the state `r` to `ψ w x`, wherever it is attached. -/
def corrects (r : Nat) (ψ : Nat → V → V) : Writes V := ⟨fun _ => r, fun w σ => ψ w (σ r)⟩

theorem settle_one [Inhabited S] {m : M V S} (h : Reach m) (hrest : m.AtRest) {r : Nat}
    (hR : m.Correctable r) (ψ : Nat → V → V) (μ : V → Nat) (hless : ∀ w x, ψ w x = x ∨ μ (ψ w x) < μ x)
    (hok : ∀ w ∈ (m.g.node r).obs, ψ w (m.get r) = m.get r) (Q : V → Prop)
    (hkeep : ∀ w x, Q x → Q (ψ w x)) (v : V) (hv : Q v) :
    ∃ m1 m2, ustep m (.set r v) = some m1 ∧ Corrects (corrects r ψ) m.stack.length m1 m2 ∧ m2.AtRest ∧
      Q (m2.get r) ∧ (m2.g.node r).obs = (m.g.node r).obs ∧
      ∀ w ∈ (m.g.node r).obs, ψ w (m2.get r) = m2.get r := by
  have hi := reach_inv h hrest.2
  have hc : Conv (corrects r ψ) (· = r) (fun σ => μ (σ r)) (fun σ => Q (σ r))
      (fun w x j => w ∈ (m.g.node r).obs → ψ w x = x ∨ j < μ x) fun n => (m.g.node n).obs := by
    refine ⟨fun _ => rfl, fun σ σ' he => ?_, fun σ σ' he hq => ?_, fun w σ => ?_, fun w σ hq => ?_,
      fun w x j j' hj hp hw => ?_, fun n w σ hw he hw' => ?_, fun n w σ j hw he hj hw' => ?_⟩
    · show μ (σ' r) = μ (σ r)
      rw [he r rfl]
    · show Q (σ' r)
      rw [he r rfl]; exact hq
    · have := hless w (σ r)
      simpa [corrects, upd] using this
    · simpa [corrects, upd] using hkeep w (σ r) hq
    · rcases hp hw with h | h
      · exact .inl h
      · exact .inr (Nat.lt_of_le_of_lt hj h)
    · have := hi.obs.uniq _ _ _ hw hw'
      subst this
      exact .inl he
    · have := hi.obs.uniq _ _ _ hw hw'
      subst this
      exact .inr hj
  obtain ⟨m1, m2, h1, h2, h3, h4, hg, hw⟩ := settle h hrest (R := (· = r)) (by rintro r' rfl; exact hR) hc rfl v
    (by simpa [upd] using hv)
  refine ⟨m1, m2, h1, h2, h3, h4, hg.obs r, fun w hwo => ?_⟩
  have hr2 : Reach m2 := h2.runs.reach (.step h (.user _ h1))
  have hi2 := reach_inv hr2 h3.2
  have seen_of : ∀ {m : M V S}, Inv m → m.AtRest → (m.g.node r).needsNotify = false → w ∈ (m.g.node r).obs →
      m.seen w = some (m.get r) := by
    intro m hi hrest hn hwo
    rcases hi.obs.seen r w hwo with h | h | ⟨cur, prev, hm, _⟩
    · exact h
    · rw [hn] at h; cases h
    · rw [hrest.1] at hm
      rcases List.mem_cons.1 hm with hm | hm
      · cases hm
      · cases hm
  have hs2 := seen_of hi2 h3 (hg.calm r rfl).2.2 (by rw [hg.obs]; exact hwo)
  rcases hw.seen w with ⟨h5, _⟩ | h5
  · have hg0 := correctable_good h hrest (R := (· = r)) (by rintro r' rfl; exact hR)
    rw [hs2, seen_of hi hrest (hg0.calm r rfl).2.2 hwo] at h5
    rw [Option.some.inj h5]
    exact hok w hwo
  · rcases h5 _ hs2 hwo with h6 | h6
    · exact h6
    · exact absurd h6 (Nat.lt_irrefl _)

/-- Callbacks that correct the value of one state, and each correction makes a measure smaller: if those that
are attached to the state have nothing to correct before a call of `set`, then they have nothing to correct
when it has returned. -/
theorem C108_settled [Inhabited S] {m m1 m2 : M V S} (h : Reach m) (hrest : m.AtRest) {r : Nat}
    (hR : m.Correctable r) (ψ : Nat → V → V) (μ : V → Nat) (hless : ∀ w x, ψ w x = x ∨ μ (ψ w x) < μ x)
    (hok : ∀ w ∈ (m.g.node r).obs, ψ w (m.get r) = m.get r) {v : V} (h1 : ustep m (.set r v) = some m1)
    (h2 : Corrects (corrects r ψ) m.stack.length m1 m2) (hst : m2.stack = m.stack) :
    ∀ w ∈ (m2.g.node r).obs, ψ w (m2.get r) = m2.get r := by
  obtain ⟨m1', m2', k1, k2, k3, _, k4, k5⟩ :=
    settle_one h hrest hR ψ μ hless hok (fun _ => True) (fun _ _ _ => trivial) v trivial
  rw [h1] at k1
  cases k1
  have := h2.det k2 (by rw [hst]; exact Nat.le_refl _) (by rw [k3.1, hrest.1]; exact Nat.le_refl _)
  subst this
  rw [k4]
  exact k5

/-- Validation: callbacks that bring the value into a certain form, where values in this form are left alone,
and callbacks that do nothing.  If one that does it is attached to the state, which has a value in this form,
then `set` returns and the state has the value that was set, in this form. -/
theorem C108_validated [Inhabited S] {m : M V S} (h : Reach m) (hrest : m.AtRest) {r : Nat}
    (hR : m.Correctable r) (norm : V → V) (hidem : ∀ x, norm (norm x) = norm x)
    (hold : norm (m.get r) = m.get r) (ψ : Nat → V → V) (hψ : ∀ w, ψ w = norm ∨ ψ w = id)
    {w : Nat} (hw : w ∈ (m.g.node r).obs) (hn : ψ w = norm) (v : V) :
    ∃ m1 m2, ustep m (.set r v) = some m1 ∧ Corrects (corrects r ψ) m.stack.length m1 m2 ∧ m2.AtRest ∧
      m2.get r = norm v := by
  obtain ⟨m1, m2, k1, k2, k3, k4, _, k5⟩ := settle_one h hrest hR ψ (fun x => if norm x = x then 0 else 1)
    (by
      intro w x
      rcases hψ w with h | h <;> rw [h]
      · by_cases hx : norm x = x
        · exact .inl hx
        · exact .inr (by simp [hidem, hx])
      · exact .inl rfl)
    (by
      intro w _
      rcases hψ w with h | h <;> rw [h]
      · exact hold
      · rfl)
    (fun x => x = v ∨ x = norm v)
    (by
      intro w x hx
      rcases hψ w with h | h <;> rw [h]
      · rcases hx with rfl | rfl
        · exact .inr rfl
        · exact .inr (hidem v)
      · exact hx)
    v (.inl rfl)
  refine ⟨m1, m2, k1, k2, k3, ?_⟩
  have := k5 w hw
  rw [hn] at this
  rcases k4 with h4 | h4
  · rw [h4] at this ⊢; exact this.symm
  · exact h4

/-- A state, two callbacks on it, a reader that shows its double, and a callback on that. -/
def exValid : M Nat Nat := exec [.newState true true 0, .attach 0 0, .attach 0 1,
  .newCalc true [0] (on1 (2 * ·)) none false 0, .attach 1 0] boot

theorem exValid_correctable : exValid.Correctable 0 :=
  ⟨by unfold M.Live; decide +kernel, by rfl, by decide +kernel, fun h => absurd h.2 (by decide +kernel)⟩

/-- The first one keeps it below 10, the others do nothing: 25 becomes 9. -/
example : Reach exValid ∧ exValid.AtRest ∧ exValid.Correctable 0 ∧ (exValid.g.node 0).obs = [0, 1] ∧
    ∃ m1 m2, ustep exValid (.set 0 25) = some m1 ∧
      Corrects (corrects 0 fun w => if w = 0 then fun x => min x 9 else id) exValid.stack.length m1 m2 ∧
      m2.AtRest ∧ m2.get 0 = 9 := by
  have hrest : exValid.AtRest := ⟨by decide +kernel, by decide +kernel⟩
  refine ⟨exec_reach _, hrest, exValid_correctable, by decide +kernel, ?_⟩
  refine C108_validated (w := 0) (exec_reach _) hrest exValid_correctable (fun x => min x 9) ?_ ?_ _ ?_ ?_ ?_ 25
  · intro x; simp
  · decide +kernel
  · intro w
    by_cases hw : w = 0
    · exact .inl (if_pos hw)
    · exact .inr (if_neg hw)
  · decide +kernel
  · rfl

/-- Two states, each with a callback that lets the other one follow: the larger value wins. -/
example : ∃ m1 m2, ustep exTwo (.set 0 7) = some m1 ∧
    Corrects ⟨fun w => if w = 0 then 1 else 0, fun _ σ => max (σ 0) (σ 1)⟩ exTwo.stack.length m1 m2 ∧
    m2.AtRest ∧ max (m2.get 0) (m2.get 1) = 7 := by
  refine C108_returns (exec_reach _) ⟨by decide +kernel, by decide +kernel⟩ (R := fun r => r = 0 ∨ r = 1)
    ?_ ?_ (fun σ => (σ 0 - σ 1) + (σ 1 - σ 0)) ?_ ?_ (fun σ => max (σ 0) (σ 1) = 7) ?_ ?_ (.inl rfl) 7 ?_
  · rintro r (rfl | rfl)
    · exact ⟨by unfold M.Live; decide +kernel, by rfl, by decide +kernel,
        fun h => absurd h.2 (by decide +kernel)⟩
    · exact ⟨by unfold M.Live; decide +kernel, by rfl, by decide +kernel,
        fun h => absurd h.2 (by decide +kernel)⟩
  · intro w
    by_cases hw : w = 0
    · exact .inr (if_pos hw)
    · exact .inl (if_neg hw)
  · intro σ σ' h
    simp only [h 0 (.inl rfl), h 1 (.inr rfl)]
  · intro w σ
    by_cases hw : w = 0
    · simp only [hw, if_true, upd]
      simp
      omega
    · simp only [hw, if_false, upd]
      simp
      omega
  · intro σ σ' h
    simp only [h 0 (.inl rfl), h 1 (.inr rfl)]
    exact id
  · intro w σ h
    by_cases hw : w = 0
    · simp only [hw, if_true, upd]
      simp
      omega
    · simp only [hw, if_false, upd]
      simp
      omega
  · decide +kernel

/-! ### Callbacks that always write something else, and values that cannot be compared -/

/-- `set` is on its way to a callback of `r`. -/
structure InLoop [Inhabited S] (r : Nat) (d : Nat) (m : M V S) : Prop where
  reach : Reach m
  ub : m.ub = false
  kind : (m.g.node r).kind = .state true
  live : (m.g.node r).alive = true
  obs : (m.g.node r).obs ≠ []
  stack : ∃ b, b.length = d ∧ (
    (∃ x, m.stack = .up r x :: b ∧ ((m.g.node r).cmp = false ∨ x ≠ (m.g.node r).current)) ∨
    ((m.g.node r).last = (m.g.node r).current ∧ m.stack = .notify r :: b ∧
      (m.g.node r).needsNotify = true ∧ (m.g.node r).dirty = false) ∨
    ((m.g.node r).last = (m.g.node r).current ∧ ∃ prev, m.stack = .obs r none prev :: b) ∨
    ((m.g.node r).last = (m.g.node r).current ∧ ∃ w prev, m.stack = .user :: .obs r (some w) prev :: b))

theorem InLoop.deep [Inhabited S] {r d : Nat} {m : M V S} (h : InLoop r d m) : d < m.stack.length := by
  obtain ⟨b, hb, ⟨x, hs, _⟩ | ⟨_, hs, _⟩ | ⟨_, prev, hs⟩ | ⟨_, w, prev, hs⟩⟩ := h.stack <;>
    rw [hs] <;> simp <;> omega

theorem InLoop.lib [Inhabited S] {r d : Nat} {m m' : M V S} (h : InLoop r d m) (he : istep m = some m') :
    InLoop r d m' := by
  have hi := reach_inv h.reach h.ub
  have hr : Reach m' := .step h.reach (.lib he)
  have hobs : (m'.g.node r).obs ≠ [] := by rw [istep_obs he]; exact h.obs
  obtain ⟨b, hb, ⟨x, hs, hx⟩ | ⟨hsync, hs, hn, hd⟩ | ⟨hsync, prev, hs⟩ | ⟨_, w, prev, hs⟩⟩ := h.stack
  · have he' : istep m = some { m with g := (m.g.pushDown r x).sendDown r, stack := .notify r :: b } := by
      unfold istep
      simp only [h.ub, hs, h.kind, Bool.false_eq_true, if_false, if_true]
    rw [he] at he'
    cases he'
    have hsame := (pushDown_touch m.g r x).same
    have hsd := (sendDown_moves (m.g.pushDown r x) r).same
    have hrc : (m.g.pushDown r x).recompute r = m.g.pushDown r x := by
      unfold Graph.recompute; rw [hsame.kind, h.kind]
    have hself := sendDown_self (m.g.pushDown r x) r (hsame.wf hi.wf)
      (by rw [hsame.size]; exact hi.wf.alive_lt h.live)
    have hdirty : ((m.g.pushDown r x).node r).dirty = true := by
      unfold Graph.pushDown
      rw [if_pos hx]
      simp
    rw [hrc, if_pos hdirty] at hself
    refine ⟨hr, h.ub, ?_, ?_, hobs, b, hb, .inr (.inl ⟨?_, rfl, ?_, ?_⟩)⟩
    · show (((m.g.pushDown r x).sendDown r).node r).kind = _
      rw [hsd.kind, hsame.kind]; exact h.kind
    · show (((m.g.pushDown r x).sendDown r).node r).alive = _
      rw [hsd.alive, hsame.alive]; exact h.live
    · show (((m.g.pushDown r x).sendDown r).node r).last = (((m.g.pushDown r x).sendDown r).node r).current
      rw [hself]; simp [Graph.publish]
    · show (((m.g.pushDown r x).sendDown r).node r).needsNotify = _
      rw [hself]; simp [Graph.publish]
    · show (((m.g.pushDown r x).sendDown r).node r).dirty = _
      rw [hself]; simp [Graph.publish]
  · have he' : istep m = some { m with
        g := m.g.mod r fun x => { x with needsNotify := false, notifying := true }
        stack := .obs r none (m.g.node r).notifying :: b } := by
      unfold istep
      simp only [h.ub, hs, hn, hd, Bool.false_eq_true, if_false]
      rfl
    rw [he] at he'
    cases he'
    exact ⟨hr, h.ub, by simp [h.kind], by simp [h.live], hobs, b, hb,
      .inr (.inr (.inl ⟨by simp [hsync], _, rfl⟩))⟩
  · obtain ⟨w, rest, ho⟩ : ∃ w rest, (m.g.node r).obs = w :: rest := by
      cases ho : (m.g.node r).obs with
      | nil => exact absurd ho h.obs
      | cons w rest => exact ⟨w, rest, rfl⟩
    unfold istep at he
    rw [hs] at he
    simp only [h.ub, Bool.false_eq_true, if_false, remaining, ho, Option.some.injEq] at he
    subst he
    exact ⟨hr, rfl, h.kind, h.live, h.obs, b, hb, .inr (.inr (.inr ⟨hsync, w, prev, rfl⟩))⟩
  · unfold istep at he
    rw [hs] at he
    split at he <;> cases he

theorem never_returns [Inhabited S] {m m1 m2 : M V S} (h : Reach m) {r : Nat} (hl : m.Live r)
    (hk : (m.g.node r).kind = .state true) (ho : (m.g.node r).obs ≠ []) (P : Writes V)
    (hP : ∀ w, P.target w = r) {v : V} (hv : (m.g.node r).cmp = false ∨ v ≠ m.pending r)
    (hne : (m.g.node r).cmp = false ∨ ∀ w σ, P.value w σ ≠ σ r)
    (h1 : ustep m (.set r v) = some m1) (h2 : Corrects P m.stack.length m1 m2) : m2.stack ≠ m.stack := by
  have key : ∀ {d : Nat} {m m2 : M V S}, Corrects P d m m2 →
      ((m.g.node r).cmp = false ∨ ∀ w σ, P.value w σ ≠ σ r) → InLoop r d m → InLoop r d m2 := by
    intro d m m2 h
    induction h with
    | refl => exact fun _ => id
    | lib _ he _ ih => exact fun hc hi => ih (by rw [(istep_evolves (reach_inv hi.reach hi.ub) he r).const.2.2.1]; exact hc) (hi.lib he)
    | @callback d m m1 m2 m3 m4 n w prev st hd hst hset _ hst2 _ _ ih1 _ =>
      intro hc hi
      have hu := set_begins (r := r) (v := P.value w m.get) hi.ub hst (by
        unfold Graph.valid
        simp [hi.live, (reach_inv hi.reach hi.ub).wf.alive_lt hi.live]) hi.kind
      rw [hP w, hu] at hset
      simp only [Option.some.injEq] at hset
      have hsync : (m.g.node r).last = (m.g.node r).current := by
        obtain ⟨b, _, ⟨x, hs, _⟩ | ⟨h, _⟩ | ⟨h, _⟩ | ⟨h, _⟩⟩ := hi.stack
        · rw [hst] at hs; cases hs
        all_goals exact h
      have h1 : InLoop r m.stack.length m1 := by
        rw [← hset]
        refine ⟨.step hi.reach (.user _ hu), hi.ub, hi.kind, hi.live, hi.obs, m.stack, rfl, .inl ⟨_, rfl, ?_⟩⟩
        rcases hc with hc | hc
        · exact .inl hc
        · refine .inr ?_
          show P.value w m.get ≠ (m.g.node r).current
          rw [← hsync]
          exact hc w m.get
      have := (ih1 (by rw [← hset]; exact hc) h1).deep
      rw [hst2] at this
      exact absurd this (Nat.lt_irrefl _)
  have hub := (ustep_ub h1).1
  have hu : ∃ st, m.stack = .user :: st := by
    unfold ustep at h1
    split at h1
    · cases h1
    · split at h1
      · rename_i st hst; exact ⟨st, hst⟩
      · cases h1
  obtain ⟨st, hst⟩ := hu
  have hset := set_begins (r := r) (v := v) hub hst (by
    unfold Graph.valid
    have hl' : (m.g.node r).alive = true := hl
    simp [hl', (reach_inv h hub).wf.alive_lt hl']) hk
  have hr1 : Reach m1 := .step h (.user _ h1)
  rw [h1] at hset
  cases hset
  have := (key h2 hne ⟨hr1, hub, hk, hl, ho, m.stack, rfl, .inl ⟨_, rfl, hv⟩⟩).deep
  intro he
  rw [he] at this
  exact absurd this (Nat.lt_irrefl _)

/-- The writes must come to an end: if the callbacks attached to the state always write another value, then
`set` never returns. -/
theorem C108_endless_false [Inhabited S] {m m1 m2 : M V S} (h : Reach m) {r : Nat} (hl : m.Live r)
    (hk : (m.g.node r).kind = .state true) (ho : (m.g.node r).obs ≠ []) (P : Writes V)
    (hP : ∀ w, P.target w = r) (hne : ∀ w σ, P.value w σ ≠ σ r) {v : V} (hv : v ≠ m.pending r)
    (h1 : ustep m (.set r v) = some m1) (h2 : Corrects P m.stack.length m1 m2) : m2.stack ≠ m.stack :=
  never_returns h hl hk ho P hP (.inr hv) (.inr hne) h1 h2

/-- A callback that adds one. -/
example : Reach exValid ∧ exValid.Live 0 ∧ (exValid.g.node 0).obs ≠ [] ∧
    (∀ (w : Nat) (σ : Nat → Nat), (corrects 0 fun _ x => x + 1).value w σ ≠ σ 0) ∧ 1 ≠ exValid.pending 0 :=
  ⟨exec_reach _, by unfold M.Live; decide +kernel, by decide +kernel, fun w σ => by simp [corrects],
    by decide +kernel⟩

/-- The values must be comparable: if they are not, and callbacks attached to the state write to it, then
`set` never returns, even if what they write is the value that they were given. -/
theorem C108_not_comparable_false [Inhabited S] {m m1 m2 : M V S} (h : Reach m) {r : Nat} (hl : m.Live r)
    (hk : (m.g.node r).kind = .state true) (hc : (m.g.node r).cmp = false)
    (ho : (m.g.node r).obs ≠ []) (P : Writes V) (hP : ∀ w, P.target w = r) {v : V}
    (h1 : ustep m (.set r v) = some m1) (h2 : Corrects P m.stack.length m1 m2) : m2.stack ≠ m.stack :=
  never_returns h hl hk ho P hP (.inl hc) (.inl hc) h1 h2

/-- A state of such a type, with a callback. -/
example : ∃ m : M Nat Nat, Reach m ∧ m.Live 0 ∧ (m.g.node 0).cmp = false ∧ (m.g.node 0).obs ≠ [] ∧
    (ustep m (.set 0 1)).isSome = true :=
  ⟨exec [.newState true false 0, .attach 0 0] boot, exec_reach _, by unfold M.Live; decide +kernel,
    by decide +kernel, by decide +kernel, by decide +kernel⟩

end Verif.Graph
