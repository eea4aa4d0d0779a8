import Verif.Graph.ThrowInv

/-
Property C85: exceptions thrown by the functions of derived readers, lenses, transducers and sensors.
`Verif.Graph.Spec` has the vocabulary; `Fails`, `VReach`, `Agrees` and `Tidy` are in
`Verif.Graph.Throw`.
-/

set_option linter.unusedSectionVars false

namespace Verif.Graph

variable {V S : Type} [DecidableEq V]

/-! ### The call that is left -/

/-- When a function throws, the library call is left and no callback has been called.  No reader,
derivation or subscription is lost. -/
theorem C85_left [Inhabited S] {m m' : M V S} (h : VReach m) {c : Cause} (hf : Fails c m m') :
    m'.log = m.log ∧
    (∃ lib st, m.stack = lib ++ .user :: st ∧ m'.stack = .user :: st ∧ .user ∉ lib) ∧
    ∀ n, (m'.Live n ↔ m.Live n) ∧ (m'.g.node n).obs = (m.g.node n).obs ∧
      (m'.g.node n).parents = (m.g.node n).parents ∧ (m'.g.node n).kind = (m.g.node n).kind := by
  have hb := vreach_base h
  have same : ∀ {g : Graph V S} {st : List (Frame V)}, Same m.g g → ∀ n,
      ((m.leave g st).Live n ↔ m.Live n) ∧ ((m.leave g st).g.node n).obs = (m.g.node n).obs ∧
      ((m.leave g st).g.node n).parents = (m.g.node n).parents ∧
      ((m.leave g st).g.node n).kind = (m.g.node n).kind := by
    intro g st hs n
    obtain ⟨b, hb⟩ := unwind_node st g n
    unfold M.Live M.leave
    simp only [hb]
    exact ⟨by rw [hs.alive], hs.obs n, hs.parents n, hs.kind n⟩
  have stk : ∀ {g : Graph V S} {f : Frame V} {st : List (Frame V)}, m.stack = f :: st → f ≠ .user →
      ∃ lib st', m.stack = lib ++ .user :: st' ∧ (m.leave g st).stack = .user :: st' ∧
        .user ∉ lib := by
    intro g f st hst hne
    rw [hst] at hb
    obtain ⟨pre, st', h1, h2, h3⟩ := unwind_suffix st g (by simpa using base_tail hb hne [])
    refine ⟨f :: pre, st', by rw [hst, h1]; rfl, h2, fun hm => ?_⟩
    rcases List.mem_cons.1 hm with h4 | h4
    · exact hne h4.symm
    · exact h3 h4
  cases hf with
  | @state f n v st g hub hst hk hg hok =>
    have hm := sendDownT_moves f m.g.size (m.g.pushDown n v) n
    rw [hg] at hm
    exact ⟨rfl, stk hst (by simp), same ((pushDown_touch m.g n v).same.trans hm.same)⟩
  | @setter f n v st g hub hst hk hg hok =>
    have hm := sendDownT_moves f m.g.size
      ((m.g.pushDown n v).mod n fun x => { x with recomputed := true }) n
    rw [hg] at hm
    exact ⟨rfl, stk hst (by simp), same ((pushDown_touch m.g n v).same.trans
      ((same_mod rfl rfl rfl rfl rfl rfl rfl).trans hm.same))⟩
  | @refresh f n v st view put g hub hst hk hg =>
    have hm := refreshT_recomputes f (n + 1) m.g n
    rw [hg] at hm
    exact ⟨rfl, stk hst (by simp), same hm.same⟩
  | @put n v st view put refreshes hub hst hk =>
    refine ⟨rfl, stk hst (by simp), same ?_⟩
    split
    · exact (refresh_recomputes m.g n).same
    · exact .refl _
  | @xput n v st down up hub hst hk => exact ⟨rfl, stk hst (by simp), same (.refl _)⟩
  | @commit f rs st g hub hst hv hg hok =>
    have hm := sendAllT_moves f rs m.g
    rw [hg] at hm
    refine ⟨rfl, ⟨[], st, hst, hst, by simp⟩, fun n => ?_⟩
    unfold M.Live
    exact ⟨by rw [hm.same.alive], hm.same.obs n, hm.same.parents n, hm.same.kind n⟩
  | @write n v st _ hub hst =>
    rcases hst with ⟨hst, _⟩ | ⟨hst, _⟩ <;> exact ⟨rfl, stk hst (by simp), same (.refl _)⟩

/-- A call that writes to a state or to a setter cursor, and is left, has changed only readers that
are derived from it. -/
theorem C85_unrelated [Inhabited S] {m m' : M V S} (h : VReach m) {c : Cause} (hf : Fails c m m') {n : Nat} {v : V}
    {st : List (Frame V)} (hst : m.stack = .up n v :: st ∨ m.stack = .setterRest n v :: st) {x : Nat}
    (hx : ¬ m.Above n x) : m'.get x = m.get x := by
  have s := vreach_sound h
  have below : ∀ {g : Graph V S}, Same m.g g → ∀ p c, m.Above n p → c ∈ (g.node p).children →
      m.Above n c := by
    intro g hs p c hp hc
    rw [hs.children] at hc
    exact .step (s.wf.child p c hc).1 hp
  have hxn : x ≠ n := fun e => hx (e ▸ .refl)
  have lv : ∀ {g : Graph V S} (st : List (Frame V)), (g.node x).last = (m.g.node x).last →
      (m.leave g st).get x = m.get x := by
    intro g st hl
    obtain ⟨b, hb⟩ := unwind_node st g x
    unfold M.get M.leave
    simp only [hb]
    exact hl
  cases hf with
  | @state f n' v' st' g hub hst' hk hg hok =>
    rcases hst with hst | hst
    · rw [hst] at hst'
      cases hst'
      apply lv
      have := sendDownT_other f (m.Above n) m.g.size (m.g.pushDown n v) n .refl
        (below (pushDown_touch m.g n v).same) hx
      rw [hg] at this
      rw [this, (pushDown_touch m.g n v).other x hxn]
    · rw [hst] at hst'; cases hst'
  | @setter f n' v' st' g hub hst' hk hg hok =>
    rcases hst with hst | hst
    · rw [hst] at hst'; cases hst'
    · rw [hst] at hst'
      cases hst'
      apply lv
      have := sendDownT_other f (m.Above n) m.g.size
        ((m.g.pushDown n v).mod n fun x => { x with recomputed := true }) n .refl
        (below ((pushDown_touch m.g n v).same.trans (same_mod rfl rfl rfl rfl rfl rfl rfl))) hx
      rw [hg] at this
      rw [this, Graph.mod_ne _ _ hxn, (pushDown_touch m.g n v).other x hxn]
  | @refresh f n' v' st' view put g hub hst' hk hg =>
    have hm := refreshT_recomputes f (n' + 1) m.g n'
    rw [hg] at hm
    exact lv _ (hm.last x).1
  | @put n' v' st' view put refreshes hub hst' hk =>
    apply lv
    split
    · exact ((refresh_recomputes m.g n').last x).1
    · rfl
  | @xput n' v' st' down up hub hst' hk => exact lv _ rfl
  | @commit f rs st' g hub hst' hv hg hok =>
    rcases hst with hst | hst <;> rw [hst] at hst' <;> cases hst'
  | @write n' v' st' _ hub hst' => exact lv _ rfl

/-- The same for `commit`. -/
theorem C85_commit_unrelated [Inhabited S] {m : M V S} (h : VReach m) (f : Faults V)
    (rs : List Nat) {x : Nat} (hx : ∀ r ∈ rs, ¬ m.Above r x) :
    ({ m with g := (m.g.sendAllT f rs).1 } : M V S).get x = m.get x := by
  have s := vreach_sound h
  show ((m.g.sendAllT f rs).1.node x).last = (m.g.node x).last
  rw [sendAllT_other f (fun k => ∃ r ∈ rs, m.Above r k) rs m.g (fun r hr => ⟨r, hr, .refl⟩) ?_
    (fun ⟨r, hr, ha⟩ => hx r hr ha)]
  rintro p c ⟨r, hr, hp⟩ hc
  exact ⟨r, hr, .step (s.wf.child p c hc).1 hp⟩

/-- The write is not undone: an automatic state that was set shows the new value, and so does an
automatic setter cursor.  Its callbacks have not been called, they wait. -/
theorem C85_kept [Inhabited S] {m m' : M V S} (h : VReach m) (hf : Fails .fn m m') {n : Nat} {v : V}
    {st : List (Frame V)}
    (hst : (m.stack = .up n v :: st ∧ ∃ a, (m.g.node n).kind = .state a) ∨
      m.stack = .setterRest n v :: st) :
    m'.get n = v ∧ m'.pending n = v ∧ m'.Waiting n := by
  have s := vreach_sound h
  have lv : ∀ {g : Graph V S} (st : List (Frame V)), (g.node n).last = v ∧ (g.node n).current = v ∧
      (g.node n).needsNotify = true →
      (m.leave g st).get n = v ∧ (m.leave g st).pending n = v ∧ (m.leave g st).Waiting n := by
    intro g st hl
    obtain ⟨b, hb⟩ := unwind_node st g n
    unfold M.get M.pending M.Waiting M.leave
    simp only [hb]
    exact hl
  cases hf with
  | @state f n' v' st' g hub hst' hk hg hok =>
    rcases hst with ⟨hst, _⟩ | hst
    · rw [hst] at hst'
      cases hst'
      apply lv
      have ht := pushDown_touch m.g n v
      have hk' : ((m.g.pushDown n v).node n).kind = .state true := by rw [ht.same.kind]; exact hk
      have := sendDownT_self f m.g.size (m.g.pushDown n v) n (ht.same.wf s.wf)
        (by unfold Graph.throwsAt; rw [hk']) (hok rfl _ _) (by rw [hg])
      rw [hg] at this
      have hr : (m.g.pushDown n v).recompute n = m.g.pushDown n v := by
        unfold Graph.recompute; rw [hk']
      rw [this, hr]
      simp [Graph.publish]
    · rw [hst] at hst'; cases hst'
  | @setter f n' v' st' g hub hst' hk hg hok =>
    rcases hst with ⟨hst, _⟩ | hst
    · rw [hst] at hst'; cases hst'
    · rw [hst] at hst'
      cases hst'
      apply lv
      have ht := pushDown_touch m.g n v
      have hk' : (((m.g.pushDown n v).mod n fun x => { x with recomputed := true }).node n).kind =
          .setter true := by rw [Graph.mod_self]; exact (ht.same.kind n).trans hk
      have := sendDownT_self f m.g.size _ n
        ((ht.same.trans (same_mod rfl rfl rfl rfl rfl rfl rfl)).wf s.wf)
        (by unfold Graph.throwsAt; rw [hk']; simp) (hok rfl _ _) (by rw [hg])
      rw [hg] at this
      rw [this]
      unfold Graph.recompute
      rw [hk']
      simp [Graph.publish]
  | @refresh f n' v' st' view put g hub hst' hk hg =>
    rcases hst with ⟨hst, a, ha⟩ | hst
    · rw [hst] at hst'; cases hst'; rw [ha] at hk; cases hk
    · rw [hst] at hst'; cases hst'
  | @put n' v' st' view put refreshes hub hst' hk =>
    rcases hst with ⟨hst, a, ha⟩ | hst
    · rw [hst] at hst'; cases hst'; rw [ha] at hk; cases hk
    · rw [hst] at hst'; cases hst'
  | @xput n' v' st' down up hub hst' hk =>
    rcases hst with ⟨hst, a, ha⟩ | hst
    · rw [hst] at hst'; cases hst'; rw [ha] at hk; cases hk
    · rw [hst] at hst'; cases hst'
  | @commit f rs st' g hub hst' hv hg hok =>
    rcases hst with ⟨hst, _⟩ | hst <;> rw [hst] at hst' <;> cases hst'
  | @write n' v' st' hc hub hst' => cases hc

/-- If the function of a lens or the transducer of a cursor throws while a value is written through
it, then nothing is written: no reader shows another value, and the pending values of the states are
what they were. -/
theorem C85_nothing_written [Inhabited S] {m m' : M V S} {c : Cause} (hf : Fails c m m') {n : Nat} {v : V}
    {st : List (Frame V)} (hst : m.stack = .up n v :: st) (hk : ∀ a, (m.g.node n).kind ≠ .state a)
    (x : Nat) : m'.get x = m.get x ∧
      ∀ a, (m.g.node x).kind = .state a → m'.pending x = m.pending x := by
  have lv : ∀ {g : Graph V S} (st : List (Frame V)), (g.node x).last = (m.g.node x).last →
      (∀ a, (m.g.node x).kind = .state a → g.node x = m.g.node x) →
      (m.leave g st).get x = m.get x ∧
      ∀ a, (m.g.node x).kind = .state a → (m.leave g st).pending x = m.pending x := by
    intro g st hl hs
    obtain ⟨b, hb⟩ := unwind_node st g x
    unfold M.get M.pending M.leave
    simp only [hb]
    exact ⟨hl, fun a ha => by rw [hs a ha]⟩
  cases hf with
  | @state f n' v' st' g hub hst' hk' hg hok =>
    rw [hst] at hst'; cases hst'; exact absurd hk' (hk _)
  | @setter f n' v' st' g hub hst' hk' hg hok => rw [hst] at hst'; cases hst'
  | @refresh f n' v' st' view put g hub hst' hk' hg =>
    have hm := refreshT_recomputes f (n' + 1) m.g n'
    rw [hg] at hm
    exact lv _ (hm.last x).1 (fun a ha => hm.state ha)
  | @put n' v' st' view put refreshes hub hst' hk' =>
    have hm : Recomputes m.g (if refreshes then m.g.refresh n' else m.g) := by
      split
      · exact refresh_recomputes m.g n'
      · exact .refl _
    exact lv _ (hm.last x).1 (fun a ha => hm.state ha)
  | @xput n' v' st' down up hub hst' hk' => exact lv _ rfl (fun _ _ => rfl)
  | @commit f rs st' g hub hst' hv hg hok => rw [hst] at hst'; cases hst'
  | @write n' v' st' _ hub hst' => exact lv _ rfl (fun _ _ => rfl)

/-! ### After an exception -/

theorem settled_agrees {m : M V S} {n : Nat} (h : Settled m.g n) (ht : m.Tidy n) : m.Agrees n := by
  intro view put r hk v hv
  have hc : m.g.currents (m.g.node n).parents = (m.g.node n).parents.map m.get :=
    List.map_congr_left fun p hp => ht.2 p hp
  rw [← ht.1]
  exact h.1 view put r hk v (by rw [hc]; exact hv)

theorem agrees_settled {m : M V S} {n : Nat} (h : m.Agrees n) (ht : m.Tidy n)
    (hx : ∀ down up, (m.g.node n).kind ≠ .xform down up) : Settled m.g n := by
  refine ⟨fun view put r hk v hv => ?_, fun down up hk => absurd hk (hx down up)⟩
  have hc : m.g.currents (m.g.node n).parents = (m.g.node n).parents.map m.get :=
    List.map_congr_left fun p hp => ht.2 p hp
  rw [hc] at hv
  exact ht.1.trans (h view put r hk v hv)

/-- What exceptions have left stale becomes right again: when an automatic state is set and no
exception is thrown, then a reader of which at least one direct source changes shows what its function
gives for its sources.  Readers that were right stay right. -/
theorem C85_next_set [Inhabited S] {m m' : M V S} (h : VReach m) {r : Nat} {v : V}
    {st : List (Frame V)} (hst : m.stack = .up r v :: st) (hk : (m.g.node r).kind = .state true)
    (hlr : m.Live r) (hs : istep m = some m') {n : Nat} (hlive : m.Live n) (ht : m'.Tidy n)
    (hn : (m.Tidy n ∧ m.Agrees n) ∨ ∃ p ∈ (m.g.node n).parents, m'.get p ≠ m.get p) :
    m'.Agrees n := by
  intro view put refr hkn w hw
  have s := vreach_sound h
  have htc := pushDown_touch m.g r v
  have hub : m.ub = false := by
    unfold istep at hs
    split at hs
    · cases hs
    · rename_i hu; simpa using hu
  have hm' : m' = { m with g := (m.g.pushDown r v).sendDown r, stack := .notify r :: st } := by
    simp only [istep, hub, Bool.false_eq_true, if_false, hst, hk, if_true] at hs
    exact (Option.some.inj hs).symm.trans (by rw [hub])
  have hmv := sendDown_moves (m.g.pushDown r v) r
  have hsame : Same m.g m'.g := by rw [hm']; exact htc.same.trans hmv.same
  have hkn0 : (m.g.node n).kind = .calc view put refr := by rw [← hsame.kind]; exact hkn
  refine settled_agrees ?_ ht view put refr hkn w hw
  have hg : m'.g = (m.g.pushDown r v).sendDown r := by rw [hm']
  rw [hg]
  have hnr : n ≠ r := by
    intro e; rw [e, hk] at hkn0; cases hkn0
  refine sendDown_settles (htc.sound s) (by rw [htc.same.alive]; exact hlr)
    (by rw [htc.same.alive]; exact hlive) (.inr ?_)
  rcases hn with ⟨ht0, ha⟩ | ⟨p, hp, hne⟩
  · have hset := agrees_settled ha ht0 (fun down up hx => by rw [hkn0] at hx; cases hx)
    by_cases hrp : r ∈ (m.g.node n).parents
    · by_cases hch : ((m.g.pushDown r v).node r).current = (m.g.node r).current
      · left
        refine settled_congr htc.same ?_ (by rw [htc.other n hnr]) (by rw [htc.other n hnr]) hset
        intro q hq
        by_cases hqr : q = r
        · rw [hqr]; exact hch
        · rw [htc.other q hqr]
      · right
        refine ⟨r, by rw [htc.same.parents]; exact hrp, .inr ?_⟩
        have hkr : ((m.g.pushDown r v).node r).kind = .state true := by rw [htc.same.kind]; exact hk
        have hsz : r < (m.g.pushDown r v).size := by
          rw [htc.same.size]; exact s.wf.alive_lt hlr
        rw [(sendDown_state _ r (htc.same.wf s.wf) (htc.sound s).fresh hsz hkr).1, (htc.last_all r).1]
        intro e
        apply hch
        rw [e]
        exact (ht0.2 r hrp).symm
    · left
      refine settled_congr htc.same ?_ (by rw [htc.other n hnr]) (by rw [htc.other n hnr]) hset
      intro q hq
      rw [htc.other q (fun e => hrp (e ▸ hq))]
  · right
    refine ⟨p, by rw [htc.same.parents]; exact hp, .inr ?_⟩
    rw [(htc.last_all p).1, ← hg]
    exact hne

/-- The same for `commit`. -/
theorem C85_next_commit [Inhabited S] {m m' : M V S} (h : VReach m) {rs : List Nat}
    (hs : ustep m (.commit rs) = some m') {n : Nat} (hlive : m.Live n) (ht : m'.Tidy n)
    (hn : (m.Tidy n ∧ m.Agrees n) ∨ ∃ p ∈ (m.g.node n).parents, m'.get p ≠ m.get p) :
    m'.Agrees n := by
  intro view put refr hkn w hw
  have s := vreach_sound h
  have hm' : (∀ r ∈ rs, m.Live r) ∧ m'.g = rs.foldl (fun g r => g.sendDown r) m.g := by
    unfold ustep at hs
    split at hs
    · cases hs
    · split at hs
      case h_2 => cases hs
      simp only at hs
      split at hs
      · rename_i hc
        cases hs
        rw [Bool.and_eq_true] at hc
        exact ⟨all_valid hc.1, rfl⟩
      · cases hs
  have hg := hm'.2
  have hmv := sendAll_moves rs m.g
  have hkn0 : (m.g.node n).kind = .calc view put refr := by
    rw [← hmv.same.kind, ← hg]; exact hkn
  refine settled_agrees ?_ ht view put refr hkn w hw
  rw [hg]
  refine sendAll_settles rs s hm'.1 hlive ?_
  rcases hn with ⟨ht0, ha⟩ | ⟨p, hp, hne⟩
  · exact .inl (agrees_settled ha ht0 (fun down up hx => by rw [hkn0] at hx; cases hx))
  · refine .inr ⟨p, hp, .inr ?_⟩
    intro e
    apply hne
    unfold M.get
    rw [hg]
    exact e

/-! ### Without exceptions -/

/-- A propagation that is not left by an exception does what the model without exceptions does. -/
theorem C85_done (f : Faults V) (g : Graph V S) (n : Nat)
    (h : (g.sendDownT f g.size n).2 = true) : (g.sendDownT f g.size n).1 = g.sendDown n :=
  sendDownT_done f g.size g n h

/-- If no function throws, no propagation is left. -/
theorem C85_never (f : Faults V) (hf : ∀ n l, f.fn n l = false) (hc : ∀ n v, f.copy n v = false) (g : Graph V S) (n : Nat) :
    g.sendDownT f g.size n = (g.sendDown n, true) := sendDownT_never f hf hc g.size g n

/-! ### Examples -/

theorem XReach.v [Inhabited S] {m : M V S} (h : XReach m) : VReach m := by
  induction h with
  | start ltr dummy hd => exact .start ltr dummy hd
  | step _ hs ih => exact .step ih (.step hs)

theorem VReach.runs [Inhabited S] {a b : M V S} (h : VReach a) (hr : Runs a b) : VReach b := by
  induction hr with
  | refl => exact h
  | step hs _ ih => exact ih (.step h (.step (.step hs)))

/-- `set` on an automatic state, left by an exception of a function. -/
def M.setFails [Inhabited S] (f : Faults V) (m : M V S) (n : Nat) (v : V) : M V S :=
  let m0 := (ustep m (.set n v)).getD m
  m0.leave ((m.g.pushDown n v).sendDownT f m.g.size n).1 m.stack

theorem setFails_fails [Inhabited S] {f : Faults V} {m : M V S} {n : Nat} {v : V}
    (hub : m.ub = false) (h0 : ustep m (.set n v) = some { m with stack := .up n v :: m.stack })
    (hk : (m.g.node n).kind = .state true)
    (hf : ((m.g.pushDown n v).sendDownT f m.g.size n).2 = false) {c : Cause} (hok : f.ok c) :
    Fails c { m with stack := .up n v :: m.stack } (m.setFails f n v) := by
  have := @Fails.state V S _ c { m with stack := .up n v :: m.stack } f n v m.stack _ hub rfl hk
    (Prod.ext rfl hf) hok
  unfold M.setFails
  rw [h0]
  exact this

theorem commit_fails {f : Faults V} {m : M V S} {rs : List Nat} {st : List (Frame V)}
    (hub : m.ub = false) (hst : m.stack = .user :: st)
    (hv : (rs.all m.g.valid && rs.all fun r => (m.g.node r).parents.isEmpty) = true)
    (hf : (m.g.sendAllT f rs).2 = false) {c : Cause} (hok : f.ok c) : Fails c m { m with g := (m.g.sendAllT f rs).1 } :=
  .commit f hub hst hv (Prod.ext rfl hf) hok

/-- An automatic state with two readers; the function of the first one throws for 50. -/
def exFail : M Nat Nat := exec [.newState true true 1,
  .newCalc true [0] (on1 (· + 1)) none false 0, .newCalc true [0] (on1 (· / 10)) none false 0,
  .newState true true 7, .newCalc true [3] (on1 (· * 2)) none false 0, .attach 0 0, .attach 2 0] boot

def exThrows : Faults Nat := ⟨fun n l => n == 1 && l == [50], fun _ _ => false⟩

/-- The call and the state after it. -/
example : ∃ m m' : M Nat Nat, VReach m ∧ Fails .fn m m' ∧ m.stack = [.up 0 50, .user] ∧ m'.AtRest ∧
    (∃ a, (m.g.node 0).kind = .state a) ∧ ¬ m.Above 0 4 ∧ m'.get 0 = 50 ∧ m'.get 1 = 2 ∧
    m'.get 2 = 0 ∧ m'.get 4 = 14 ∧ m'.log = [] := by
  have h0 : ustep exFail (.set 0 50) = some { exFail with stack := .up 0 50 :: exFail.stack } := rfl
  have hr : VReach { exFail with stack := .up 0 50 :: exFail.stack } :=
    .step (exec_reach _).x.v (.step (.step (.user _ h0)))
  refine ⟨_, exFail.setFails exThrows 0 50, hr, setFails_fails (by decide +kernel) h0 rfl
    (by decide +kernel) (fun _ _ _ => rfl), by decide +kernel, ⟨by decide +kernel, by decide +kernel⟩, ⟨true, rfl⟩, ?_,
    by decide +kernel, by decide +kernel, by decide +kernel, by decide +kernel, by decide +kernel⟩
  intro ha
  have hp4 : ({ exFail with stack := .up 0 50 :: exFail.stack }.g.node 4).parents = [3] := by
    decide +kernel
  have hp3 : ({ exFail with stack := .up 0 50 :: exFail.stack }.g.node 3).parents = [] := by
    decide +kernel
  cases ha with
  | step hp ha =>
    rw [hp4] at hp
    cases List.mem_singleton.1 hp
    cases ha with
    | step hp _ => rw [hp3] at hp; cases hp

theorem exFail_reach : VReach (exFail.setFails exThrows 0 50) := by
  have h0 : ustep exFail (.set 0 50) = some { exFail with stack := .up 0 50 :: exFail.stack } := rfl
  exact .step (.step (exec_reach _).x.v (.step (.step (.user _ h0))))
    (.fails (setFails_fails (by decide +kernel) h0 rfl (by decide +kernel) (c := .fn) (fun _ _ _ => rfl)))

/-- After the exception the readers of the state are stale, also the one of which the function does
not throw; its function is not even called.  Setting the state to the same value again, now without
exception, changes nothing; a different value makes both right. -/
theorem C85_stale_false : ∃ m m1 m2 : M Nat Nat, VReach m ∧ m.AtRest ∧ m.Live 2 ∧ m.calm = true ∧
    m.get 0 = 50 ∧ m.get 2 = 0 ∧ m.gives 2 5 = true ∧
    PCall m (.set 0 50) m1 ∧ m1.get 2 = 0 ∧ PCall m (.set 0 51) m2 ∧ m2.get 1 = 52 ∧ m2.get 2 = 5 := by
  let m := exFail.setFails exThrows 0 50
  refine ⟨m, m.pcall (.set 0 50), m.pcall (.set 0 51), exFail_reach,
    ⟨by decide +kernel, by decide +kernel⟩, by unfold M.Live; decide +kernel, by decide +kernel,
    by decide +kernel, by decide +kernel, by decide +kernel,
    pcall_call (by decide +kernel) (by decide +kernel), by decide +kernel,
    pcall_call (by decide +kernel) (by decide +kernel), by decide +kernel, by decide +kernel⟩

/-- Hypotheses of `C85_next_set`, in this state; the callbacks on the state and on the second reader
are called with the new values. -/
example : ∃ m m' m2 : M Nat Nat, VReach m ∧ m.stack = [.up 0 51, .user] ∧
    (m.g.node 0).kind = .state true ∧ m.Live 0 ∧ istep m = some m' ∧ m.Live 2 ∧ m'.Tidy 2 ∧
    (∃ p ∈ (m.g.node 2).parents, m'.get p ≠ m.get p) ∧ ¬ m.Agrees 2 ∧ m'.get 2 = 5 ∧
    Runs m' m2 ∧ m2.log = [.call 0 0 51, .call 1 2 5] := by
  let a := exFail.setFails exThrows 0 50
  let m := (ustep a (.set 0 51)).getD a
  have h0 : ustep a (.set 0 51) = some m := some_getD a (by decide +kernel)
  let m' := (istep m).getD m
  have h1 : istep m = some m' := some_getD m (by decide +kernel)
  have hk : (m.g.node 2).parents = [0] := by decide +kernel
  have hk' : (m'.g.node 2).parents = [0] := by decide +kernel
  refine ⟨m, m', exec [.ret, .ret] (libN 200 m'), .step exFail_reach (.step (.step (.user _ h0))),
    by decide +kernel, rfl,
    by unfold M.Live; decide +kernel, h1, by unfold M.Live; decide +kernel, ⟨by decide +kernel, ?_⟩,
    ⟨0, by rw [hk]; exact .head _, by decide +kernel⟩, ?_, by decide +kernel,
    (libN_run 200 m').runs.trans (exec_runs _ _), by decide +kernel⟩
  · intro p hp
    rw [hk'] at hp
    cases List.mem_singleton.1 hp
    decide +kernel
  · intro ha
    have hg : m.gives 2 5 = true := by decide +kernel
    obtain ⟨view, put, r, h2, h3⟩ := gives_view hg
    have := ha view put r h2 5 h3
    revert this
    decide +kernel

/-- `commit` calls the callbacks that wait, with the values of that time, and leaves the reader stale:
the state has nothing to publish. -/
example : ∃ m m' : M Nat Nat, VReach m ∧ m.AtRest ∧ m.Waiting 0 ∧ PCall m (.commit [0]) m' ∧
    m'.log = [.call 0 0 50] ∧ m'.get 2 = 0 ∧ m'.gives 2 5 = true := by
  let m := exFail.setFails exThrows 0 50
  exact ⟨m, m.pcall (.commit [0]), exFail_reach, ⟨by decide +kernel, by decide +kernel⟩,
    by unfold M.Waiting; decide +kernel, pcall_call (by decide +kernel) (by decide +kernel),
    by decide +kernel, by decide +kernel, by decide +kernel⟩

/-- A state `x`, the readers `x + 1` and `x * 2`, and a reader of both; the second function throws
for 50. -/
def exMixed : M Nat Nat := exec [.newState true true 1,
  .newCalc true [0] (on1 (· + 1)) none false 0, .newCalc true [0] (on1 (· * 2)) none false 0,
  .newCalc true [1, 2] (on2 fun a b => 1000 * a + b) none false 0] boot

def exThrows2 : Faults Nat := ⟨fun n l => n == 2 && l == [50], fun _ _ => false⟩

/-- Readers with several sources can show a mix of new and old values, which is no value of their
function for any value of the state. -/
theorem C85_mixed_false : ∃ m : M Nat Nat, VReach m ∧ m.AtRest ∧ m.Live 3 ∧ m.calm = true ∧
    m.get 0 = 50 ∧ m.get 1 = 51 ∧ m.get 2 = 2 ∧ m.get 3 = 51002 ∧
    ∀ x, 1000 * (x + 1) + x * 2 ≠ m.get 3 := by
  have h0 : ustep exMixed (.set 0 50) = some { exMixed with stack := .up 0 50 :: exMixed.stack } := rfl
  have hr : VReach (exMixed.setFails exThrows2 0 50) :=
    .step (.step (exec_reach _).x.v (.step (.step (.user _ h0))))
      (.fails (setFails_fails (by decide +kernel) h0 rfl (by decide +kernel) (c := .fn) (fun _ _ _ => rfl)))
  have h3 : (exMixed.setFails exThrows2 0 50).get 3 = 51002 := by decide +kernel
  refine ⟨_, hr, ⟨by decide +kernel, by decide +kernel⟩, by unfold M.Live; decide +kernel,
    by decide +kernel, by decide +kernel, by decide +kernel, by decide +kernel, h3, ?_⟩
  intro x
  rw [h3]
  omega

/-- A cursor zoomed from a state; the setter of the lens throws. -/
example : ∃ m m' : M Nat Nat, VReach m ∧ Fails .fn m m' ∧ m.stack = [.up 1 9, .user] ∧
    (∀ a, (m.g.node 1).kind ≠ .state a) ∧ m'.AtRest ∧ m'.get 0 = 12 ∧ m'.get 1 = 2 ∧
    m'.pending 0 = 12 := by
  let a := exec [.newState true true 12,
    .newCalc true [0] (on1 (· % 10)) (some fun l v => l.map (fun x => x / 10 * 10 + v)) true 0] boot
  have h0 : ustep a (.set 1 9) = some { a with stack := .up 1 9 :: a.stack } := rfl
  refine ⟨{ a with stack := .up 1 9 :: a.stack },
    { a with stack := .up 1 9 :: a.stack }.leave (a.g.refresh 1) a.stack,
    .step (exec_reach _).x.v (.step (.step (.user _ h0))), ?_, by decide +kernel,
    (fun b hb => nomatch hb), ⟨by decide +kernel, by decide +kernel⟩, by decide +kernel, by decide +kernel,
    by decide +kernel⟩
  exact @Fails.put Nat Nat _ .fn { a with stack := .up 1 9 :: a.stack } 1 9 a.stack _ _ true
    (by decide +kernel) rfl rfl

/-- A transactional state; the commit is left because a function throws, and the next one is not. -/
example : ∃ m m' : M Nat Nat, VReach m ∧ Fails .fn m m' ∧ m.AtRest ∧ m'.AtRest ∧ m.pending 0 = 50 ∧
    m.get 0 = 1 ∧ m'.get 0 = 50 ∧ m'.get 2 = 0 ∧ ¬ m.Above 0 3 := by
  let m := exec [.newState false true 1,
    .newCalc true [0] (on1 (· + 1)) none false 0, .newCalc true [0] (on1 (· / 10)) none false 0,
    .newState true true 7, .set 0 50] boot
  refine ⟨m, { m with g := (m.g.sendAllT exThrows [0]).1 }, (exec_reach _).x.v, ?_,
    ⟨by decide +kernel, by decide +kernel⟩, ⟨by decide +kernel, by decide +kernel⟩, by decide +kernel,
    by decide +kernel, by decide +kernel, by decide +kernel, ?_⟩
  · exact commit_fails (st := []) (by decide +kernel) (by decide +kernel) (by decide +kernel)
      (by decide +kernel) (fun _ _ _ => rfl)
  · intro ha
    have hp3 : (m.g.node 3).parents = [] := by decide +kernel
    cases ha with
    | step hp _ => rw [hp3] at hp; cases hp

/-- Hypotheses of `C85_next_commit`: the state that was left stale is set again, and committed. -/
example : ∃ m m' : M Nat Nat, VReach m ∧ ustep m (.commit [0]) = some m' ∧ m.Live 2 ∧ m'.Tidy 2 ∧
    (∃ p ∈ (m.g.node 2).parents, m'.get p ≠ m.get p) ∧ m.get 2 = 0 ∧ m'.get 0 = 67 ∧
    m'.get 2 = 6 := by
  let a := exec [.newState false true 1,
    .newCalc true [0] (on1 (· + 1)) none false 0, .newCalc true [0] (on1 (· / 10)) none false 0,
    .newState true true 7, .set 0 50] boot
  let b : M Nat Nat := { a with g := (a.g.sendAllT exThrows [0]).1 }
  have hb : VReach b := .step (exec_reach _).x.v (.fails (commit_fails (st := [])
    (by decide +kernel) (by decide +kernel) (by decide +kernel) (by decide +kernel) (c := .fn) (fun _ _ _ => rfl)))
  let m := exec [.set 0 67] b
  let m' := (ustep m (.commit [0])).getD m
  have h1 : ustep m (.commit [0]) = some m' := some_getD m (by decide +kernel)
  have hk : (m.g.node 2).parents = [0] := by decide +kernel
  have hk' : (m'.g.node 2).parents = [0] := by decide +kernel
  refine ⟨m, m', hb.runs (exec_runs _ _), h1, by unfold M.Live; decide +kernel,
    ⟨by decide +kernel, ?_⟩, ⟨0, by rw [hk]; exact .head _, by decide +kernel⟩, by decide +kernel,
    by decide +kernel, by decide +kernel⟩
  intro p hp
  rw [hk'] at hp
  cases List.mem_singleton.1 hp
  decide +kernel

end Verif.Graph
