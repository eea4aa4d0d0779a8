import Verif.With.Made

/-!
What `refresh` does, and writing through the nodes of a chain.
-/

set_option linter.unusedSectionVars false

namespace Verif.With

open Verif.Graph (M Op Graph Node Inv WF Runs Same Recomputes LibRun Frame istep Lazy Call Calls)

variable {V S : Type} [DecidableEq V] [Tup V]

theorem freshN_bound {g : Graph V S} (w : WF g) : ∀ (k k' n : Nat), n < k → n < k' → freshN g k n = freshN g k' n := by
  intro k
  induction k with
  | zero => intro k' n h; omega
  | succ k ih =>
    intro k' n h h'
    cases k' with
    | zero => omega
    | succ k' =>
      simp only [freshN]
      have : (g.node n).parents.map (freshN g k) = (g.node n).parents.map (freshN g k') :=
        List.map_congr_left fun p hp => by
          have := w.lt n p hp
          exact ih k' p (by omega) (by omega)
      rw [this]

theorem fresh_calc {g : Graph V S} (w : WF g) {n : Nat} {view pt r} (hk : (g.node n).kind = .calc view pt r) :
    fresh g n = (view ((g.node n).parents.map (fresh g))).getD (g.node n).current := by
  unfold fresh
  simp only [freshN, hk]
  have : (g.node n).parents.map (freshN g n) = (g.node n).parents.map (fun p => freshN g (p + 1) p) :=
    List.map_congr_left fun p hp => by
      have := w.lt n p hp
      exact freshN_bound w n (p + 1) p (by omega) (by omega)
  rw [this]
  rfl

theorem fresh_leaf {g : Graph V S} {n : Nat} (hk : ∀ view pt r, (g.node n).kind ≠ .calc view pt r) :
    fresh g n = (g.node n).current := by
  unfold fresh
  cases h : (g.node n).kind <;> simp only [freshN, h]
  exact absurd h (hk _ _ _)

/-- Only nodes that compute functions have changed, and only in a way that brings them up to date. -/
structure Upd (g g' : Graph V S) : Prop where
  same : Same g g'
  fresh : ∀ a, fresh g' a = With.fresh g a
  keep : ∀ a, (g.node a).current = With.fresh g a → (g'.node a).current = With.fresh g a
  leaf : ∀ a, (∀ view pt r, (g.node a).kind ≠ .calc view pt r) → g'.node a = g.node a

theorem Upd.refl (g : Graph V S) : Upd g g := ⟨.refl g, fun _ => rfl, fun _ h => h, fun _ _ => rfl⟩

theorem Upd.trans {a b c : Graph V S} (h : Upd a b) (k : Upd b c) : Upd a c :=
  ⟨h.same.trans k.same, fun n => (k.fresh n).trans (h.fresh n),
    fun n hn => by
      have := k.keep n ((h.keep n hn).trans (h.fresh n).symm)
      rw [this, h.fresh],
    fun n hn => by
      rw [k.leaf n (fun view pt r => by rw [h.same.kind]; exact hn view pt r), h.leaf n hn]⟩

theorem recompute_upd {g : Graph V S} (w : WF g) {n : Nat} {view pt r} (hk : (g.node n).kind = .calc view pt r)
    (hp : ∀ p ∈ (g.node n).parents, (g.node p).current = fresh g p) :
    Upd g (g.recompute n) ∧ ((g.recompute n).node n).current = fresh g n := by
  have ht := Graph.recompute_touch g n
  have hw' := ht.same.wf w
  have hcur : g.currents (g.node n).parents = (g.node n).parents.map (fresh g) :=
    List.map_congr_left hp
  have hf := fresh_calc w hk
  have hnew : ((g.recompute n).node n).current = fresh g n := by
    rw [hf]
    unfold Graph.recompute
    rw [hk]
    simp only
    rw [hcur]
    cases hv : view ((g.node n).parents.map (fresh g)) with
    | none => rfl
    | some v =>
      simp only [Option.getD_some]
      exact Graph.pushDown_pending g n v
  refine ⟨⟨ht.same, ?_, ?_, ?_⟩, hnew⟩
  · intro a
    induction a using Nat.strongRecOn with
    | _ a ih =>
      by_cases hx : ∃ view' pt' r', (g.node a).kind = .calc view' pt' r'
      · obtain ⟨view', pt', r', hx⟩ := hx
        have hx' := (ht.same.kind a).trans hx
        have hm : (g.node a).parents.map (fresh (g.recompute n)) = (g.node a).parents.map (fresh g) :=
          List.map_congr_left fun p hpp => ih p (w.lt a p hpp)
        rw [fresh_calc hw' hx', ht.same.parents, hm]
        by_cases han : a = n
        · subst han
          rw [hk] at hx
          simp only [Graph.Kind.calc.injEq] at hx
          obtain ⟨rfl, _, _⟩ := hx
          rw [hnew, hf]
          cases view ((g.node a).parents.map (fresh g)) <;> rfl
        · rw [ht.other a han, ← fresh_calc w hx]
      · have hx1 : ∀ view pt r, (g.node a).kind ≠ .calc view pt r := fun _ _ _ h => hx ⟨_, _, _, h⟩
        rw [fresh_leaf hx1, fresh_leaf (g := g.recompute n) (fun view pt r => by rw [ht.same.kind]; exact hx1 view pt r)]
        by_cases han : a = n
        · subst han; exact absurd hk (hx1 _ _ _)
        · rw [ht.other a han]
  · intro a ha
    by_cases han : a = n
    · subst han; exact hnew
    · rw [ht.other a han]; exact ha
  · intro a ha
    refine ht.other a fun han => ?_
    subst han; exact absurd hk (ha _ _ _)

/-- No stateful transformation above, up to states, sensors, constants and setters. -/
inductive Clear (g : Graph V S) : Nat → Prop where
  | leaf {n : Nat} : (∀ view pt r, (g.node n).kind ≠ .calc view pt r) →
      (∀ down up, (g.node n).kind ≠ .xform down up) → Clear g n
  | comp {n : Nat} {view pt r} : (g.node n).kind = .calc view pt r →
      (∀ p ∈ (g.node n).parents, Clear g p) → Clear g n

theorem Clear.same {g g' : Graph V S} (hs : Same g g') {n : Nat} (h : Clear g n) : Clear g' n := by
  induction h with
  | leaf h1 h2 => exact .leaf (by rw [hs.kind]; exact h1) (by rw [hs.kind]; exact h2)
  | comp hk _ ih => exact .comp ((hs.kind _).trans hk) (by rw [hs.parents]; exact ih)

theorem Plain.clear {g : Graph V S} {n : Nat} (h : Plain g n) : Clear g n := by
  induction h with
  | state hk => exact .leaf (by rw [hk]; intros; intro h; cases h) (by rw [hk]; intros; intro h; cases h)
  | sensor hk => exact .leaf (by rw [hk]; intros; intro h; cases h) (by rw [hk]; intros; intro h; cases h)
  | constant hk => exact .leaf (by rw [hk]; intros; intro h; cases h) (by rw [hk]; intros; intro h; cases h)
  | setter hk => exact .leaf (by rw [hk]; intros; intro h; cases h) (by rw [hk]; intros; intro h; cases h)
  | comp hk _ _ _ ih => exact .comp hk ih

theorem refreshN_upd (k : Nat) : ∀ {g : Graph V S}, WF g → ∀ {n : Nat}, n < k → Clear g n →
    Upd g (g.refreshN k n) ∧ ((g.refreshN k n).node n).current = fresh g n ∧
    ((∃ view pt r, (g.node n).kind = .calc view pt r) →
      ∀ p ∈ (g.node n).parents, ((g.refreshN k n).node p).current = fresh g p) := by
  induction k with
  | zero => intro g _ n h; omega
  | succ k ih =>
    intro g w n hn hc
    cases hc with
    | leaf h1 h2 =>
      have : g.refreshN (k + 1) n = g := by
        cases h : (g.node n).kind <;> simp only [Graph.refreshN, h]
        · exact absurd h (h1 _ _ _)
        · exact absurd h (h2 _ _)
      rw [this]
      exact ⟨.refl g, (fresh_leaf h1).symm, fun ⟨_, _, _, h⟩ => absurd h (h1 _ _ _)⟩
    | @comp _ view pt r hk hp =>
      have walk : ∀ (l : List Nat) (g1 : Graph V S), Upd g g1 → (∀ p ∈ l, p ∈ (g.node n).parents) →
          Upd g (l.foldl (fun g p => g.refreshN k p) g1) ∧
          ∀ p ∈ l, ((l.foldl (fun g p => g.refreshN k p) g1).node p).current = fresh g p := by
        intro l
        induction l with
        | nil => intro g1 hu _; exact ⟨hu, fun p hp => (nomatch hp)⟩
        | cons q l ihl =>
          intro g1 hu hl
          have hq := hl q (List.mem_cons_self ..)
          have hlt := w.lt n q hq
          obtain ⟨u1, u2, _⟩ := ih (hu.same.wf w) (n := q) (by omega) ((hp q hq).same hu.same)
          have hu' := hu.trans u1
          obtain ⟨h1, h2⟩ := ihl _ hu' (fun p hp => hl p (List.mem_cons_of_mem _ hp))
          refine ⟨h1, fun p hpp => ?_⟩
          rcases List.mem_cons.mp hpp with rfl | hpp
          · -- kept by the rest
            have hkeep : ∀ (l : List Nat) (g2 : Graph V S), Upd g g2 → (∀ x ∈ l, x ∈ (g.node n).parents) →
                (g2.node p).current = fresh g p →
                ((l.foldl (fun g p => g.refreshN k p) g2).node p).current = fresh g p := by
              intro l
              induction l with
              | nil => intro g2 _ _ h; exact h
              | cons y l ihy =>
                intro g2 hu2 hl2 h
                have hy := hl2 y (List.mem_cons_self ..)
                have hlt' := w.lt n y hy
                obtain ⟨v1, _, _⟩ := ih (hu2.same.wf w) (n := y) (by omega) ((hp y hy).same hu2.same)
                refine ihy _ (hu2.trans v1) (fun p hp => hl2 p (List.mem_cons_of_mem _ hp)) ?_
                rw [v1.keep p (h.trans (hu2.fresh p).symm), hu2.fresh]
            refine hkeep l _ hu' (fun p hp => hl p (List.mem_cons_of_mem _ hp)) ?_
            rw [u2, hu.fresh]
          · exact h2 p hpp
      obtain ⟨h1, h2⟩ := walk (g.order (g.node n).parents) g (.refl g) (fun p hp => Graph.mem_order.mp hp)
      have hr : g.refreshN (k + 1) n =
          ((g.order (g.node n).parents).foldl (fun g p => g.refreshN k p) g).recompute n := by
        simp only [Graph.refreshN, hk]
      generalize hg1 : (g.order (g.node n).parents).foldl (fun g p => g.refreshN k p) g = g1 at h1 h2 hr
      obtain ⟨r1, r2⟩ := recompute_upd (h1.same.wf w) ((h1.same.kind n).trans hk) (fun p hpp => by
        rw [h1.same.parents] at hpp
        rw [h2 p (Graph.mem_order.mpr hpp), h1.fresh])
      rw [hr]
      refine ⟨h1.trans r1, by rw [r2, h1.fresh], fun _ p hpp => ?_⟩
      rw [r1.keep p ((h2 p (Graph.mem_order.mpr hpp)).trans (h1.fresh p).symm), h1.fresh]

/-- The graph that `send_up` works on. -/
theorem refreshed {g : Graph V S} (w : WF g) {n : Nat} (hc : Clear g n) {view pt r}
    (hk : (g.node n).kind = .calc view pt r) :
    Upd g (g.refresh n) ∧ (g.refresh n).currents (g.node n).parents = (g.node n).parents.map (fresh g) := by
  obtain ⟨h1, _, h3⟩ := refreshN_upd (n + 1) w (n := n) (by omega) hc
  exact ⟨h1, List.map_congr_left fun p hp => h3 ⟨_, _, _, hk⟩ p hp⟩

theorem Made.fresh {g : Graph V S} (w : WF g) {ps : List Nat} {s : Bool} {n : Nat} {l : List (Part V)} {b : Bool}
    (h : Made g ps s n l b) {y : V} (hy : look l (tup (ps.map (With.fresh g))) = some y) :
    With.fresh g n = y := by
  induction h generalizing y with
  | one hs =>
    obtain ⟨view, pt, refr, h1, h2, h3, _⟩ := hs
    rw [fresh_calc w h1, h2, h3, hy]; rfl
  | @step n q l1 l2 b1 b hm hs hb ih =>
    obtain ⟨view, pt, refr, h1, h2, h3, _⟩ := hs
    rw [look_append] at hy
    cases hx : look l1 (tup (ps.map (With.fresh g))) with
    | none => rw [hx] at hy; cases hy
    | some x =>
      rw [hx] at hy
      rw [fresh_calc w h1, h2, h3, List.map_cons, List.map_nil, ih hx, Tup.tup_one]
      rw [show look l2 x = some y from hy]; rfl

theorem Made.clear {g : Graph V S} {ps : List Nat} {s : Bool} {n : Nat} {l : List (Part V)} {b : Bool}
    (h : Made g ps s n l b) (hc : ∀ p ∈ ps, Clear g p) : Clear g n := by
  induction h with
  | one hs =>
    obtain ⟨view, pt, refr, h1, h2, _⟩ := hs
    exact .comp h1 (by rw [h2]; exact hc)
  | step _ hs _ ih =>
    obtain ⟨view, pt, refr, h1, h2, _⟩ := hs
    refine .comp h1 ?_
    rw [h2]
    intro p hp
    rw [List.mem_singleton] at hp
    subst hp; exact ih

theorem Seg.up {m : M V S} (w : WF m.g) (hub : m.ub = false) {ps : List Nat} {n : Nat} {l : List (Part V)}
    {v : V} {fs : List (Frame V)} (hs : Seg m.g ps n l true true) (hc : ∀ p ∈ ps, Clear m.g p)
    (hl : (look l (tup (ps.map (fresh m.g)))).isSome = true) (hst : m.stack = .up n v :: fs) :
    ∃ g', istep m = some { m with
        g := g',
        stack := .ups (m.g.order (ps.zip (parts ps.length (put l (tup (ps.map (fresh m.g))) v)))) :: fs } ∧
      Upd m.g g' := by
  obtain ⟨view, pt, refr, h1, h2, h3, h4, h5, h6⟩ := hs
  cases pt with
  | none => cases h4
  | some p =>
    obtain ⟨p1, p2⟩ := h6 p rfl rfl
    cases refr with
    | true =>
      obtain ⟨r1, r2⟩ := refreshed w (.comp h1 (by rw [h2]; exact hc)) h1
      refine ⟨m.g.refresh n, ?_, r1⟩
      rw [h2] at r2
      unfold istep
      rw [if_neg (by simp [hub]), hst]
      simp only [h1, if_true]
      rw [r1.same.parents, h2, r2, p1 rfl _ v hl]
      unfold Graph.order
      rw [r1.same.ltr]
    | false =>
      refine ⟨m.g, ?_, .refl _⟩
      unfold istep
      rw [if_neg (by simp [hub]), hst]
      simp only [h1, Bool.false_eq_true, if_false]
      rw [h2, p2 rfl _ _ v hl]

theorem Seg.sameG {g g' : Graph V S} (hs : Same g g') {ps : List Nat} {n : Nat} {l : List (Part V)} {b s : Bool}
    (h : Seg g ps n l b s) : Seg g' ps n l b s := h.same (hs.kind n) (hs.parents n) fun p _ => hs.kind p

theorem Made.sameG {g g' : Graph V S} (hs : Same g g') {ps : List Nat} {n : Nat} {l : List (Part V)} {b s : Bool}
    (h : Made g ps s n l b) : Made g' ps s n l b := by
  induction h with
  | one h => exact .one (h.sameG hs)
  | step _ h hb ih => exact .step ih (h.sameG hs) hb

/-- Library code runs, above a stack of depth `d`. -/
inductive DRun (d : Nat) : M V S → M V S → Prop where
  | refl (m) : DRun d m m
  | step {m m1 m2 : M V S} {f : Frame V} {st : List (Frame V)} : m.stack = f :: st → f ≠ .user → d ≤ st.length →
      istep m = some m1 → DRun d m1 m2 → DRun d m m2

theorem DRun.lib {d : Nat} {m m' : M V S} (h : DRun d m m') : LibRun m m' := by
  induction h with
  | refl => exact .refl _
  | step _ _ _ he _ ih => exact .step he ih

theorem DRun.prun [Inhabited S] {d : Nat} {m m' : M V S} (h : DRun d m m') : Graph.PRun d m m' := by
  induction h with
  | refl => exact .refl _
  | step hst hf hd he _ ih => exact .step (Graph.pstep_lib hst hf hd he) ih

/-- Writing to a chain sends the components of the value that the steps make of it to the sources. -/
theorem Made.up {g0 : Graph V S} {ps : List Nat} {n : Nat} {l : List (Part V)} {b : Bool}
    (h : Made g0 ps true n l b) : b = true → ∀ {m : M V S} {v : V} {fs : List (Frame V)}, Same g0 m.g → WF m.g →
      m.ub = false → (∀ p ∈ ps, Clear m.g p) → (look l (tup (ps.map (With.fresh m.g)))).isSome = true →
      m.stack = .up n v :: fs → ∀ d, d ≤ fs.length →
      ∃ g' k, DRun d m { m with
          g := g',
          stack := .ups (m.g.order (ps.zip (parts ps.length (put l (tup (ps.map (With.fresh m.g))) v)))) ::
            (List.replicate k (.ups []) ++ fs) } ∧ Upd m.g g' := by
  induction h with
  | one hs =>
    intro hb m v fs hsame w hub hc hl hst d hd
    subst hb
    obtain ⟨g', h1, h2⟩ := (hs.sameG hsame).up w hub hc hl hst
    exact ⟨g', 0, .step hst (by simp) hd h1 (.refl _), h2⟩
  | @step n q l1 l2 b1 b hm hs hb ih =>
    intro hbt m v fs hsame w hub hc hl hst d hd
    subst hbt
    rw [look_append] at hl
    obtain ⟨y, hy, hl2⟩ := isSome_bind hl
    have hmade := hm.sameG hsame
    have hfq := hmade.fresh w hy
    obtain ⟨g1, h1, h2⟩ := (hs.sameG hsame).up w hub (ps := [q]) (v := v)
      (fun p hp => by rw [List.mem_singleton] at hp; subst hp; exact hmade.clear hc)
      (by simpa [hfq, Tup.tup_one] using hl2) hst
    rw [List.map_cons, List.map_nil, Tup.tup_one, hfq] at h1
    rw [put_append, hy]
    simp only [Option.bind_some]
    cases hw : put l2 y v with
    | none =>
      rw [hw] at h1
      refine ⟨g1, 0, .step hst (by simp) hd ?_ (.refl _), h2⟩
      simpa [parts, Graph.order] using h1
    | some u =>
      rw [hw] at h1
      simp only [parts, List.length_singleton, Tup.untup_one, List.zip_cons_cons, List.zip_nil_right] at h1
      rw [Graph.order_one] at h1
      have w1 := h2.same.wf w
      have hmap : ps.map (With.fresh g1) = ps.map (With.fresh m.g) := List.map_congr_left fun p _ => h2.fresh p
      obtain ⟨g', k, r1, r2⟩ := ih (hb rfl) (m := { m with g := g1, stack := .up q u :: .ups [] :: fs }) (v := u)
        (fs := .ups [] :: fs) (hsame.trans h2.same) w1 hub (fun p hp => (hc p hp).same h2.same)
        (by show (look l1 (tup (ps.map (With.fresh g1)))).isSome = true; rw [hmap, hy]; rfl) rfl d
        (by simp only [List.length_cons]; omega)
      refine ⟨g', k + 1, ?_, h2.trans r2⟩
      refine .step hst (by simp) hd h1 (.step (m1 := { m with g := g1, stack := .up q u :: .ups [] :: fs })
        (f := .ups [(q, u)]) (st := fs) rfl (by simp) hd ?_ ?_)
      · unfold istep
        rw [if_neg (by simp [hub])]
      · refine cast ?_ r1
        show DRun d _ { m with g := g', stack := .ups (g1.order (ps.zip (parts ps.length (put l1 (tup (ps.map (With.fresh g1))) u)))) ::
            (List.replicate k (.ups []) ++ .ups [] :: fs) } = _
        rw [hmap]
        unfold Graph.order
        rw [h2.same.ltr]
        have : List.replicate k (Frame.ups []) ++ Frame.ups [] :: fs = List.replicate (k + 1) (Frame.ups ([] : List (Nat × V))) ++ fs := by
          rw [List.replicate_succ', List.append_assoc]; rfl
        rw [this]
        rfl

end Verif.With
