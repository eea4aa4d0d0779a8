import Verif.With.Fresh
import Verif.Graph.Log
import Verif.Graph.Props4

/-!
Writing to a chain is writing to its sources.
-/

set_option linter.unusedSectionVars false

namespace Verif.With

open Verif.Graph (Reach QCall Line LensLine PCall PRun M Op Graph Node Inv WF Runs Same Recomputes LibRun Frame istep Lazy Call Calls)

variable {V S : Type} [DecidableEq V] [Tup V]

/-- The two graphs differ only in nodes that compute functions. -/
structure Agree (g g' : Graph V S) : Prop where
  same : Same g g'
  leaf : ∀ a, (∀ view pt r, (g.node a).kind ≠ .calc view pt r) → g'.node a = g.node a

theorem Upd.agree {g g' : Graph V S} (h : Upd g g') : Agree g g' := ⟨h.same, h.leaf⟩

theorem same_symm {g g' : Graph V S} (h : Same g g') : Same g' g :=
  ⟨h.size.symm, h.ltr.symm, fun n => (h.kind n).symm, fun n => (h.parents n).symm, fun n => (h.children n).symm,
    fun n => (h.alive n).symm, fun n => (h.cmp n).symm, fun n => (h.obs n).symm, fun n => (h.notifying n).symm⟩

theorem Agree.symm {g g' : Graph V S} (h : Agree g g') : Agree g' g :=
  ⟨same_symm h.same, fun a ha => (h.leaf a fun view pt r => by rw [← h.same.kind]; exact ha view pt r).symm⟩

theorem Agree.trans {a b c : Graph V S} (h : Agree a b) (k : Agree b c) : Agree a c :=
  ⟨h.same.trans k.same, fun n hn => by
    rw [k.leaf n (fun view pt r => by rw [h.same.kind]; exact hn view pt r), h.leaf n hn]⟩

theorem Plain.same {g g' : Graph V S} (hs : Same g g') {n : Nat} (h : Plain g n) : Plain g' n := by
  induction h with
  | state hk => exact .state ((hs.kind _).trans hk)
  | sensor hk => exact .sensor ((hs.kind _).trans hk)
  | constant hk => exact .constant ((hs.kind _).trans hk)
  | setter hk => exact .setter ((hs.kind _).trans hk)
  | comp hk h1 h2 _ ih =>
    exact .comp ((hs.kind _).trans hk) (by rw [hs.parents]; exact h1) h2 (by rw [hs.parents]; exact ih)

theorem fresh_agree {g g' : Graph V S} (w : WF g) (h : Agree g g') {n : Nat} (hp : Plain g n) :
    fresh g' n = fresh g n := by
  have leaf : ∀ n, (∀ view pt r, (g.node n).kind ≠ .calc view pt r) → fresh g' n = fresh g n := fun n hn => by
    rw [fresh_leaf hn, fresh_leaf (g := g') (fun view pt r => by rw [h.same.kind]; exact hn view pt r), h.leaf n hn]
  induction hp with
  | state hk => exact leaf _ (by rw [hk]; intros; intro h; cases h)
  | sensor hk => exact leaf _ (by rw [hk]; intros; intro h; cases h)
  | constant hk => exact leaf _ (by rw [hk]; intros; intro h; cases h)
  | setter hk => exact leaf _ (by rw [hk]; intros; intro h; cases h)
  | @comp n view pt r hk h1 _ _ ih =>
    rw [fresh_calc w hk, fresh_calc (h.same.wf w) ((h.same.kind n).trans hk), h.same.parents,
      List.map_congr_left (g := fresh g) ih]
    have := h1 ((g.node n).parents.map (fresh g)) (by simp)
    cases hv : view ((g.node n).parents.map (fresh g)) with
    | none => rw [hv] at this; cases this
    | some v => rfl

theorem order_same {α : Type} {g g' : Graph V S} (hs : Same g g') (l : List α) : g'.order l = g.order l := by
  unfold Graph.order
  rw [hs.ltr]

theorem sendUpN_agree (k : Nat) : ∀ {g g' : Graph V S}, WF g → Agree g g' → ∀ {n : Nat}, n < k → Plain g n →
    ∀ v, Agree (g.sendUpN k n v) (g'.sendUpN k n v) := by
  induction k with
  | zero => intro g g' _ _ n h; omega
  | succ k ih =>
    intro g g' w ha n hn hp v
    have walk : ∀ (l : List (Nat × V)) (a b : Graph V S), WF a → Agree a b → (∀ x ∈ l, x.1 < k ∧ Plain a x.1) →
        Agree (l.foldl (fun g x => g.sendUpN k x.1 x.2) a) (l.foldl (fun g x => g.sendUpN k x.1 x.2) b) := by
      intro l
      induction l with
      | nil => intro a b _ h _; exact h
      | cons x l ihl =>
        intro a b wa hab hx
        have h1 := hx x (List.mem_cons_self ..)
        have hs := (Graph.sendUpN_hidden k a x.1 x.2).same
        exact ihl _ _ (hs.wf wa) (ih wa hab h1.1 h1.2 x.2) fun y hy =>
          ⟨(hx y (List.mem_cons_of_mem _ hy)).1, (hx y (List.mem_cons_of_mem _ hy)).2.same hs⟩
    cases hp with
    | @state _ a hk =>
      have hk' := (ha.same.kind n).trans hk
      simp only [Graph.sendUpN, hk, hk']
      have hnode : g'.node n = g.node n := ha.leaf n (by rw [hk]; intros; intro h; cases h)
      have t1 := Graph.pushDown_touch g n v
      have t2 := Graph.pushDown_touch g' n v
      refine ⟨(same_symm t1.same).trans (ha.same.trans t2.same), fun a hna => ?_⟩
      by_cases han : a = n
      · subst han
        unfold Graph.pushDown Graph.mod
        rw [hnode]
        split
        · simp [hnode]
        · exact hnode
      · rw [t2.other a han, t1.other a han]
        exact ha.leaf a fun view pt r => by rw [← t1.same.kind]; exact hna view pt r
    | sensor hk =>
      have hk' := (ha.same.kind n).trans hk
      simp only [Graph.sendUpN, hk, hk']; exact ha
    | constant hk =>
      have hk' := (ha.same.kind n).trans hk
      simp only [Graph.sendUpN, hk, hk']; exact ha
    | setter hk =>
      have hk' := (ha.same.kind n).trans hk
      simp only [Graph.sendUpN, hk, hk']; exact ha
    | @comp _ view pt r hk h1 h2 h3 =>
      have hk' := (ha.same.kind n).trans hk
      cases pt with
      | none => simp only [Graph.sendUpN, hk, hk']; exact ha
      | some p =>
        simp only [Graph.sendUpN, hk, hk']
        cases r with
        | true =>
          simp only [if_true]
          have hcl : Clear g n := .comp hk fun q hq => (h3 q hq).clear
          obtain ⟨r1, r2⟩ := refreshed w hcl hk
          obtain ⟨s1, s2⟩ := refreshed (ha.same.wf w) (hcl.same ha.same) hk'
          have hab : Agree (g.refresh n) (g'.refresh n) := (r1.agree.symm.trans ha).trans s1.agree
          have hpar : (g'.refresh n).currents ((g'.refresh n).node n).parents =
              (g.refresh n).currents ((g.refresh n).node n).parents := by
            rw [r1.same.parents, s1.same.parents, r2, s2, ha.same.parents]
            exact List.map_congr_left fun q hq => fresh_agree w ha (h3 q hq)
          rw [hpar, hab.same.parents, order_same hab.same]
          refine walk _ _ _ (r1.same.wf w) hab fun x hx => ?_
          have hx' := (List.of_mem_zip (Graph.mem_order.1 hx)).1
          rw [r1.same.parents] at hx'
          exact ⟨by have := w.lt n x.1 hx'; omega, (h3 x.1 hx').same r1.same⟩
        | false =>
          simp only [Bool.false_eq_true, if_false]
          rw [h2 rfl p rfl (g'.currents _) (g.currents (g.node n).parents) v, ha.same.parents, order_same ha.same]
          refine walk _ _ _ w ha fun x hx => ?_
          have hx' := (List.of_mem_zip (Graph.mem_order.1 hx)).1
          exact ⟨by have := w.lt n x.1 hx'; omega, h3 x.1 hx'⟩

theorem sendAllUp_agree (k : Nat) (l : List (Nat × V)) : ∀ {a b : Graph V S}, WF a → Agree a b →
    (∀ x ∈ l, x.1 < k ∧ Plain a x.1) →
    Agree (l.foldl (fun g x => g.sendUpN k x.1 x.2) a) (l.foldl (fun g x => g.sendUpN k x.1 x.2) b) := by
  induction l with
  | nil => intro a b _ h _; exact h
  | cons x l ihl =>
    intro a b wa hab hx
    have h1 := hx x (List.mem_cons_self ..)
    have hs := (Graph.sendUpN_hidden k a x.1 x.2).same
    exact ihl (hs.wf wa) (sendUpN_agree k wa hab h1.1 h1.2 x.2) fun y hy =>
      ⟨(hx y (List.mem_cons_of_mem _ hy)).1, (hx y (List.mem_cons_of_mem _ hy)).2.same hs⟩

/-- Writing a list of values to cursors of transactional states. -/
theorem ups_run (k : Nat) (l : List (Nat × V)) (st : List (Frame V)) : ∀ (m : M V S), WF m.g → m.ub = false →
    (∀ x ∈ l, x.1 < k ∧ Lazy m.g x.1) → m.stack = .ups l :: st →
    LibRun m { m with g := l.foldl (fun g x => g.sendUpN k x.1 x.2) m.g, stack := st } := by
  induction l with
  | nil =>
    intro m w hub _ hst
    refine .step (m1 := { m with stack := st }) ?_ (.refl _)
    unfold istep
    rw [hub, hst]; rfl
  | cons x l ihl =>
    intro m w hub hx hst
    obtain ⟨p, u⟩ := x
    have h1 := hx (p, u) (List.mem_cons_self ..)
    refine .step (m1 := { m with stack := .up p u :: .ups l :: st }) ?_ ?_
    · unfold istep
      rw [hub, hst]; rfl
    · refine LibRun.trans (Graph.up_run k { m with stack := .up p u :: .ups l :: st } p u (.ups l :: st)
        h1.1 w hub h1.2 rfl) ?_
      have hs := (Graph.sendUpN_hidden k m.g p u).same
      refine ihl { m with g := m.g.sendUpN k p u, stack := .ups l :: st } (hs.wf w) hub ?_ rfl
      intro y hy
      have := hx y (List.mem_cons_of_mem _ hy)
      exact ⟨this.1, this.2.same hs.kind hs.parents⟩

theorem pops (k : Nat) (fs : List (Frame V)) : ∀ (m : M V S), m.ub = false →
    m.stack = List.replicate k (.ups []) ++ fs → LibRun m { m with stack := fs } := by
  induction k with
  | zero => intro m _ h; exact cast (by rw [show m = { m with stack := fs } by rw [← show m.stack = fs from h]]) (LibRun.refl m)
  | succ k ih =>
    intro m hub hst
    refine .step (m1 := { m with stack := List.replicate k (.ups []) ++ fs }) ?_ ?_
    · unfold istep
      rw [hub, hst]; rfl
    · exact ih { m with stack := List.replicate k (.ups []) ++ fs } hub rfl

theorem set_calls [Inhabited S] (k : Nat) {fs : List (Frame V)} (l : List (Nat × V)) : ∀ (m : M V S), WF m.g →
    m.ub = false → m.stack = .user :: fs →
    (∀ x ∈ l, x.1 < k ∧ Lazy m.g x.1 ∧ m.g.valid x.1 = true ∧ m.g.canWrite x.1 = true) →
    Calls m (l.map fun x => .set x.1 x.2) { m with g := l.foldl (fun g x => g.sendUpN k x.1 x.2) m.g } := by
  induction l with
  | nil => intro m _ _ _ _; exact .nil m
  | cons x l ih =>
    intro m w hub hst hx
    obtain ⟨h1, h2, h3, h4⟩ := hx x (List.mem_cons_self ..)
    have hs := (Graph.sendUpN_hidden k m.g x.1 x.2).same
    refine .cons (m1 := { m with g := m.g.sendUpN k x.1 x.2 })
      ⟨_, Graph.write_step hst hub (op := .set x.1 x.2) rfl h3 h4, ?_, rfl⟩ ?_
    · exact Graph.up_run k { m with stack := .up x.1 x.2 :: m.stack } x.1 x.2 m.stack h1 w hub h2 rfl
    · refine ih { m with g := m.g.sendUpN k x.1 x.2 } (hs.wf w) hub hst fun y hy => ?_
      obtain ⟨a1, a2, a3, a4⟩ := hx y (List.mem_cons_of_mem _ hy)
      refine ⟨a1, a2.same hs.kind hs.parents, ?_, ?_⟩
      · rw [← a3]; unfold Graph.valid; rw [hs.size, hs.alive]
      · rw [← a4]; unfold Graph.canWrite; rw [hs.kind]

theorem Made.canWrite {g : Graph V S} {ps : List Nat} {s : Bool} {n : Nat} {l : List (Part V)} {b : Bool}
    (h : Made g ps s n l b) : g.canWrite n = b := by
  cases h with
  | one hs => obtain ⟨_, _, _, h1, _, _, h4, _⟩ := hs; unfold Graph.canWrite; rw [h1]; exact h4
  | step _ hs _ => obtain ⟨_, _, _, h1, _, _, h4, _⟩ := hs; unfold Graph.canWrite; rw [h1]; exact h4

theorem Made.sources {m : M V S} {ps : List Nat} {s : Bool} {n : Nat} {l : List (Part V)} {b : Bool}
    (h : Made m.g ps s n l b) : (b = true → ∀ p ∈ ps, m.g.canWrite p = true) ∧ ∀ p ∈ ps, m.Above p n := by
  induction h with
  | one hs =>
    obtain ⟨_, _, _, h1, h2, _, h4, h5, _⟩ := hs
    exact ⟨h5, fun p hp => .step (by rw [h2]; exact hp) .refl⟩
  | step _ hs hb ih =>
    obtain ⟨_, _, _, h1, h2, _, h4, h5, _⟩ := hs
    exact ⟨fun h => ih.1 (hb h), fun p hp => .step (by rw [h2]; exact List.mem_singleton.mpr rfl) (ih.2 p hp)⟩

theorem write_lazy [Inhabited S] {m m1 : M V S} (hi : Inv m) {ps : List Nat} {n : Nat} {l : List (Part V)} {b : Bool}
    (h : Made m.g ps true n l b) (hl : (look l (tup (ps.map (fresh m.g)))).isSome = true)
    (hp : ∀ p ∈ ps, Lazy m.g p ∧ Plain m.g p) {v : V} (hc : Call m (.set n v) m1) :
    ∃ m2, Calls m ((sent m.g ps l v).map fun x => .set x.1 x.2) m2 ∧ Agree m2.g m1.g ∧ Same m.g m2.g := by
  have hc' := hc
  obtain ⟨m0, h1, h2, h3⟩ := hc'
  have hvalid := Graph.target_valid h1 rfl
  have hub := (Graph.ustep_ub h1).1
  have hst : ∃ fs, m.stack = .user :: fs := by
    unfold Graph.ustep at h1
    rw [if_neg (by simp [hub])] at h1
    split at h1
    · rename_i hst; exact ⟨_, hst⟩
    · cases h1
  obtain ⟨fs, hst⟩ := hst
  have hcw : m.g.canWrite n = true := by
    unfold Graph.ustep at h1
    rw [if_neg (by simp [hub]), hst] at h1
    simp only at h1
    split at h1
    · rename_i hx; simp only [Bool.and_eq_true] at hx; exact hx.2
    · cases h1
  have hb : b = true := h.canWrite.symm.trans hcw
  subst hb
  have hw := Graph.write_step hst hub (op := .set n v) rfl hvalid hcw
  rw [h1] at hw
  cases hw
  obtain ⟨g', k, r1, r2⟩ := h.up rfl (m := { m with stack := .up n v :: m.stack }) (v := v) (fs := m.stack)
    (.refl _) hi.wf hub (fun p hp' => (hp p hp').2.clear) hl rfl m.stack.length (Nat.le_refl _)
  have hlive : m.Live n := (Graph.valid_alive hvalid).2
  have hsrc : ∀ x ∈ sent m.g ps l v, x.1 ∈ ps := fun x hx => (List.of_mem_zip (Graph.mem_order.1 hx)).1
  have hlt : ∀ x ∈ sent m.g ps l v, x.1 < n + 1 := fun x hx => by
    have := Graph.Above.le (S := S) hi.wf (h.sources.2 x.1 (hsrc x hx)); omega
  refine ⟨_, set_calls (n + 1) (sent m.g ps l v) m hi.wf hub hst fun x hx => ?_, ?_⟩
  · have ha := h.sources.2 x.1 (hsrc x hx)
    have hla := Graph.live_above hi.wf hlive ha
    refine ⟨hlt x hx, (hp _ (hsrc x hx)).1, ?_, h.sources.1 rfl _ (hsrc x hx)⟩
    unfold Graph.valid
    rw [hla]
    simpa using hi.wf.alive_lt hla
  · have r3 := ups_run (n + 1) (sent m.g ps l v) (List.replicate k (.ups []) ++ m.stack)
      { m with g := g', stack := .ups (sent m.g ps l v) :: (List.replicate k (.ups []) ++ m.stack) }
      (r2.same.wf hi.wf) hub (fun x hx => ⟨hlt x hx, (hp _ (hsrc x hx)).1.same r2.same.kind r2.same.parents⟩) rfl
    have r4 := pops k m.stack { m with
      g := (sent m.g ps l v).foldl (fun g x => g.sendUpN (n + 1) x.1 x.2) g'
      stack := List.replicate k (.ups []) ++ m.stack } hub rfl
    have hcall : Call m (.set n v) { m with g := (sent m.g ps l v).foldl (fun g x => g.sendUpN (n + 1) x.1 x.2) g' } :=
      ⟨_, h1, (r1.lib.trans r3).trans r4, rfl⟩
    have := Call.det hc hcall
    subst this
    exact ⟨sendAllUp_agree (n + 1) _ hi.wf r2.agree fun x hx => ⟨hlt x hx, (hp _ (hsrc x hx)).2⟩,
      (Graph.hidden_foldl (fun g (x : Nat × V) => Graph.sendUpN_hidden (n + 1) g x.1 x.2) _ _).same⟩

theorem set_facts [Inhabited S] {m m0 : M V S} {n : Nat} {v : V} (h : Graph.ustep m (.set n v) = some m0) :
    m.ub = false ∧ (∃ fs, m.stack = .user :: fs) ∧ m.g.valid n = true ∧ m.g.canWrite n = true ∧
    m0 = { m with stack := .up n v :: m.stack } := by
  have hub := (Graph.ustep_ub h).1
  unfold Graph.ustep at h
  rw [if_neg (by simp [hub])] at h
  split at h
  · rename_i hst
    simp only at h
    split at h
    · rename_i hx
      simp only [Bool.and_eq_true] at hx
      simp only [Option.some.injEq] at h
      exact ⟨hub, ⟨_, hst⟩, hx.1, hx.2, h.symm⟩
    · cases h
  · cases h

theorem LensLine.clear {g : Graph V S} {n r : Nat} {gt st} (h : LensLine g n r gt st) : Clear g n := by
  induction h with
  | state hk => exact .leaf (by rw [hk]; intros; intro h; cases h) (by rw [hk]; intros; intro h; cases h)
  | zoom _ _ h1 h2 _ _ _ ih =>
    refine .comp h1 ?_
    rw [h2]
    intro p hp
    rw [List.mem_singleton] at hp
    subst hp; exact ih

theorem Upd.pending {m : M V S} {g' : Graph V S} (h : Upd m.g g') {r : Nat} {a}
    (hk : (m.g.node r).kind = .state a) : g'.node r = m.g.node r :=
  h.leaf r (by rw [hk]; intros; intro h; cases h)

theorem write_auto [Inhabited S] {m m1 : M V S} (h : Reach m) {ps : List Nat} {n : Nat} {l : List (Part V)} {b : Bool}
    (hm : Made m.g ps true n l b) (hl : (look l (tup (ps.map (fresh m.g)))).isSome = true)
    {root : Nat → Nat} {gt : Nat → V → V} {st : Nat → V → V → V}
    (hp : ∀ p ∈ ps, LensLine m.g p (root p) (gt p) (st p) ∧ (m.g.node (root p)).kind = .state true)
    (hd : (ps.map root).Nodup) {v : V} (hc : PCall m (.set n v) m1) :
    (∀ x ∈ sent m.g ps l v, m1.get (root x.1) = st x.1 (m.pending (root x.1)) x.2 ∧
      (m1.g.node (root x.1)).dirty = false) ∧ m1.ub = false ∧
    ∀ s a, m.Live s → (m.g.node s).kind = .state a → s ∉ (sent m.g ps l v).map (fun x => root x.1) →
      m1.get s = m.get s ∧ m1.pending s = m.pending s := by
  obtain ⟨m0, h1, h2, h3⟩ := id hc
  obtain ⟨hub, ⟨fs, hst⟩, hv, hw, rfl⟩ := set_facts h1
  have hi := Graph.reach_inv h hub
  have hb : b = true := hm.canWrite.symm.trans hw
  subst hb
  obtain ⟨g', k, r1, r2⟩ := hm.up rfl (m := { m with stack := .up n v :: m.stack }) (v := v) (fs := m.stack)
    (.refl _) hi.wf hub (fun p hp' => LensLine.clear (hp p hp').1) hl rfl m.stack.length (Nat.le_refl _)
  have hlive : m.Live n := (Graph.valid_alive hv).2
  have hmem : ∀ x ∈ sent m.g ps l v, x.1 ∈ ps := fun x hx => (List.of_mem_zip (Graph.mem_order.1 hx)).1
  have hpl : ∀ x ∈ sent m.g ps l v, m.Live x.1 := fun x hx =>
    Graph.live_above hi.wf hlive (hm.sources.2 x.1 (hmem x hx))
  have hrl : ∀ x ∈ sent m.g ps l v, m.Live (root x.1) := fun x hx =>
    (hp x.1 (hmem x hx)).1.rootLive hi.wf (hpl x hx)
  have hreach := r1.lib.runs.reach (.step h (.user _ h1))
  obtain ⟨m2, k1, k2, k3, k4, k5⟩ := Graph.auto_ups (d := m.stack.length) root st (sent m.g ps l v) hreach hub
    (fun x hx => ⟨(r2.same.alive _).trans (hrl x hx), by
        show x.1 < g'.size
        rw [r2.same.size]; exact hi.wf.alive_lt (hpl x hx),
      (r2.same.kind _).trans (hp x.1 (hmem x hx)).2, gt x.1,
      (hp x.1 (hmem x hx)).1.same r2.same.kind r2.same.parents⟩)
    (Graph.order_nodup _ _ (Graph.zip_nodup root _ _ hd)) rfl
    (by simp only [List.length_append, List.length_replicate]; omega)
  have hpop := Graph.pop_ups (d := m.stack.length) k (m := m2) (fs := m.stack) k3 k2 (Nat.le_refl _)
  have hcall : PCall m (.set n v) { m2 with stack := m.stack } :=
    ⟨_, h1, (r1.prun.trans k1).trans hpop, rfl⟩
  have := PCall.det hc hcall
  subst this
  refine ⟨fun x hx => ⟨?_, (k4 x hx).2⟩, k3, fun s a hls hk hs => ?_⟩
  · refine (k4 x hx).1.trans ?_
    show st x.1 (g'.node (root x.1)).current x.2 = _
    rw [r2.pending (hp x.1 (hmem x hx)).2]; rfl
  · have := k5 s a ((r2.same.alive _).trans hls) ((r2.same.kind _).trans hk) hs
    rw [show ({ m with g := g', stack := .ups (sent m.g ps l v) :: (List.replicate k (.ups []) ++ m.stack) } : M V S).g = g' from rfl,
      r2.pending hk] at this
    exact ⟨this.1, this.2.1⟩

/-- What is shown after a commit is what was published by it. -/
theorem committed [Inhabited S] {m m1 m2 : M V S} (h : Reach m) (hrest : m.AtRest)
    {ops : List (Op V S)} (hw : Calls m ops m1)
    (hops : ∀ op ∈ ops, ∃ s, op.target = some s ∧ (m.g.node s).kind = .state false)
    {rs : List Nat} (hc : QCall m1 (.commit rs) m2) (hub : m2.ub = false) :
    ∃ m' : M V S, Inv m' ∧ Same m.g m'.g ∧ (∀ n, n < m.g.size → m2.get n = m'.get n) ∧
      ∀ r ∈ rs, ∀ a, (m.g.node r).kind = .state a → (m.g.node r).parents = [] → (m'.g.node r).dirty = false := by
  have hi := Graph.reach_inv h hrest.2
  obtain ⟨hi1, hub1, hst1, hlog1, hhid, hoth⟩ := Graph.state_writes hw hi hrest.2 hops
  obtain ⟨m1', h1, h2, h3⟩ := hc
  have hi1' := Graph.step_inv hi1 (.user _ h1) (Graph.ustep_ub h1).2
  obtain ⟨hg', hst1'⟩ := Graph.commit_step h1
  have ho := Graph.once_start (fs := [.roots rs]) hst1' (by
    intro f hf; rw [List.mem_singleton] at hf; subst hf; exact ⟨rfl, fun _ => rfl⟩)
  obtain ⟨l, k1, _, k3, k4⟩ := h2.once (Graph.ustep_user h1) hi1' ho hub h3
  have hs := (hhid.same.trans (Graph.sendAll_same rs m1.g))
  rw [← hg'] at hs
  refine ⟨m1', hi1', hs, fun n hn => k3 n (by rw [hs.size]; exact hn), fun r hr a hk hp => ?_⟩
  rw [hg']
  refine ((Graph.sendAll_state rs m1.g hi1.wf hi1.fresh (fun s hs => ?_)
    ((hhid.same.kind r).trans hk) ((hhid.same.parents r).trans hp)).2 hr).2
  exact hi1.wf.alive_lt (Graph.commit_alive h1 s hs)

theorem above_same {m m' : M V S} (hp : ∀ n, (m'.g.node n).parents = (m.g.node n).parents) {a n : Nat}
    (h : m.Above a n) : m'.Above a n := by
  induction h with
  | refl => exact .refl
  | step hq _ ih => exact .step (by rw [hp]; exact hq) ih

theorem Made.line {g : Graph V S} {p : Nat} {s : Bool} {n : Nat} {l : List (Part V)} {b : Bool}
    (h : Made g [p] s n l b) {r : Nat} (hl : Line g p r) : Line g n r := by
  induction h with
  | one hs => obtain ⟨_, _, _, h1, h2, _⟩ := hs; exact .comp h1 h2 hl
  | step _ hs _ ih => obtain ⟨_, _, _, h1, h2, _⟩ := hs; exact .comp h1 h2 ih

theorem latch [Inhabited S] {m m1 m2 : M V S} (h : Reach m) (hrest : m.AtRest) {n p r : Nat} {s : Bool}
    {l : List (Part V)} {b : Bool} (hm : Made m.g [p] s n l b)
    (hl : m.Live n) (hline : Line m.g p r) (hclean : ∀ a, m.Above a n → ¬ m.Uncommitted a)
    (hcmp : ∀ a, m.Above a n → (m.g.node a).cmp = true)
    {ops : List (Op V S)} (hw : Calls m ops m1)
    (hops : ∀ op ∈ ops, ∃ s, op.target = some s ∧ (m.g.node s).kind = .state false)
    {rs : List Nat} (hr : r ∈ rs) (hc : QCall m1 (.commit rs) m2) (hub : m2.ub = false) :
    m2.get n = (look l (m2.get p)).getD (m.get n) := by
  have hi := Graph.reach_inv h hrest.2
  obtain ⟨m', hi', hs, hget, hdirty⟩ := committed h hrest hw hops hc hub
  -- one node
  have one : ∀ (q n : Nat) (l : List (Part V)) (b : Bool), Seg m.g [q] n l b s → Line m.g q r → m.Live n →
      (∀ a, m.Above a n → ¬ m.Uncommitted a) → (∀ a, m.Above a n → (m.g.node a).cmp = true) →
      m2.get n = (look l (m2.get q)).getD (m.get n) ∧ ∀ x, look l (m.get q) = some x → m.get n = x := by
    intro q n l b hseg hlq hl hclean hcmp
    obtain ⟨view, pt, refr, h1, h2, h3, _⟩ := hseg
    have hln : Line m.g n r := .comp h1 h2 hlq
    obtain ⟨a, hk⟩ := hln.isState
    have hlr : m.Live r := Graph.live_above hi.wf hl hln.rootAbove
    have hpr := Graph.roots_no_parents h hrest.2 (hi.wf.alive_lt hlr) (.inl ⟨a, hk⟩)
    have hnlt := hi.wf.alive_lt hl
    have hqlt : q < m.g.size := Nat.lt_trans (hi.wf.lt n q (by rw [h2]; exact List.mem_singleton.mpr rfl)) hnlt
    have hline' : Line m'.g n r := hln.same hs
    constructor
    · cases hx : look l (m2.get q) with
      | some x =>
        have := hi'.consistent ((hs.alive n).trans hl) (fun a ha hu => by
          have := hline'.above ((hs.parents r).trans hpr) ha
          cases this with
          | state h4 =>
            have hd := hdirty r hr _ hk hpr
            rw [hu.2] at hd; cases hd
          | comp h4 => exact hu.1 _ _ _ h4) ((hs.kind n).trans h1) (v := x) (by
          rw [hs.parents, h2, h3, List.map_cons, List.map_nil, Tup.tup_one, ← hget q hqlt, hx])
        rw [hget n hnlt, this]; rfl
      | none =>
        rcases Graph.C25_single_path h hrest hl h1 h2 hlq hclean hcmp hw hops hr hc hub with h4 | h4
        · exact h4
        · rw [h3, Tup.tup_one, hx] at h4; cases h4
    · intro x hx
      exact hi.consistent hl hclean h1 (by rw [h2, h3, List.map_cons, List.map_nil, Tup.tup_one, hx])
  have all : ∀ {n l b}, Made m.g [p] s n l b → m.Live n →
      (∀ a, m.Above a n → ¬ m.Uncommitted a) → (∀ a, m.Above a n → (m.g.node a).cmp = true) →
      m2.get n = (look l (m2.get p)).getD (m.get n) := by
    intro n l b hm
    induction hm with
    | one hseg => intro hl h1 h2; exact (one _ _ _ _ hseg hline hl h1 h2).1
    | @step n q l1 l2 b1 b hm hseg _ ih =>
      intro hl h1 h2
      have hq : m.Above q n := by
        obtain ⟨_, _, _, _, k2, _⟩ := hseg
        exact .step (by rw [k2]; exact List.mem_singleton.mpr rfl) .refl
      have ihq := ih (Graph.live_above hi.wf hl hq) (fun a ha => h1 a (Graph.Above.trans ha hq))
        (fun a ha => h2 a (Graph.Above.trans ha hq))
      obtain ⟨o1, o2⟩ := one _ _ _ _ hseg (hm.line hline) hl h1 h2
      rw [look_append, o1, ihq]
      cases hx : look l1 (m2.get p) with
      | some x => rfl
      | none =>
        simp only [Option.bind_none, Option.getD_none]
        cases hy : look l2 (m.get q) with
        | none => rfl
        | some y => exact (o2 y hy).symm
  exact all hm hl hclean hcmp

/-- If nothing above is uncommitted, a reader shows the value that it would show if all was published. -/
theorem fresh_clean {m : M V S} (hi : Inv m) {n : Nat} (hl : m.Live n)
    (hc : ∀ a, m.Above a n → ¬ m.Uncommitted a) : fresh m.g n = m.get n := by
  induction n using Nat.strongRecOn with
  | _ n ih =>
    by_cases hx : ∃ view pt r, (m.g.node n).kind = .calc view pt r
    · obtain ⟨view, pt, r, hx⟩ := hx
      have hm : (m.g.node n).parents.map (fresh m.g) = (m.g.node n).parents.map m.get :=
        List.map_congr_left fun p hp => by
          obtain ⟨h1, h2⟩ := hi.parentClean hl hc hp
          exact ih p (hi.wf.lt n p hp) h1 h2
      rw [fresh_calc hi.wf hx, hm]
      cases hv : view ((m.g.node n).parents.map m.get) with
      | none => exact (hi.shows hl hc).symm
      | some v => exact (hi.consistent hl hc hx hv).symm
    · rw [fresh_leaf (fun _ _ _ h => hx ⟨_, _, _, h⟩)]
      exact (hi.shows hl hc).symm

theorem Made.shows {m : M V S} (hi : Inv m) {ps : List Nat} {s : Bool} {n : Nat} {l : List (Part V)} {b : Bool}
    (h : Made m.g ps s n l b) (hl : m.Live n) (hc : ∀ a, m.Above a n → ¬ m.Uncommitted a) {x : V}
    (hx : look l (tup (ps.map m.get)) = some x) : m.get n = x := by
  rw [← fresh_clean hi hl hc]
  refine h.fresh hi.wf ?_
  rw [← hx]
  congr 2
  refine List.map_congr_left fun p hp => ?_
  have ha := h.sources.2 p hp
  exact fresh_clean hi (Graph.live_above hi.wf hl ha) fun a haa => hc a (Graph.Above.trans haa ha)

theorem Calls.det [Inhabited S] {m a b : M V S} {ops : List (Op V S)} (h : Calls m ops a) (k : Calls m ops b) :
    a = b := by
  induction h with
  | nil => cases k; rfl
  | cons hc _ ih =>
    cases k with
    | cons kc ks =>
      have := Call.det hc kc
      subst this
      exact ih ks

/-- What is above a chain: its own nodes, and what is above its sources. -/
theorem Made.above {m : M V S} {ps : List Nat} {s : Bool} {n : Nat} {l : List (Part V)} {b : Bool}
    (h : Made m.g ps s n l b) {a : Nat} (ha : m.Above a n) :
    (∃ p ∈ ps, m.Above a p) ∨ ¬ m.Source a := by
  induction h with
  | one hs =>
    obtain ⟨_, _, _, h1, h2, _⟩ := hs
    cases ha with
    | refl => exact .inr fun h => h _ _ _ h1
    | step hp hap => exact .inl ⟨_, h2 ▸ hp, hap⟩
  | step _ hs _ ih =>
    obtain ⟨_, _, _, h1, h2, _⟩ := hs
    cases ha with
    | refl => exact .inr fun h => h _ _ _ h1
    | step hp hap =>
      rw [h2, List.mem_singleton] at hp
      subst hp
      exact ih hap

theorem chains_ub [Inhabited S] (l : List (Part V)) : ∀ (m : M V S) (e : Expr V), m.ub = true →
    ∀ x, chains m e l = some x → x.1.ub = true := by
  induction l with
  | nil =>
    intro m e hm x hx
    simp only [chains, Option.some.injEq] at hx
    subst hx; exact hm
  | cons a l ih =>
    intro m e hm x hx
    have hc : ∀ e : Expr V, Expr.make m e = none := fun e => by
      unfold Expr.make Graph.ustep
      rw [hm]; rfl
    simp only [chains] at hx
    cases ha : chain m e a with
    | none => rw [ha] at hx; cases hx
    | some y =>
      rw [ha] at hx
      refine ih y.1 y.2 ?_ x hx
      cases e <;> cases a <;> simp only [chain, hc, Option.map_none, Option.some.injEq, reduceCtorEq] at ha
      all_goals first
        | (subst ha; exact hm)
        | (split at ha <;> cases ha)

theorem build_ub [Inhabited S] {m0 m1 : M V S} {t : Ty V} {rw : Bool} {ps : List Nat} {l : List (Part V)} {n : Nat}
    (hb : build m0 t rw ps l = some (m1, n)) : m0.ub = false := by
  cases hx : m0.ub with
  | false => rfl
  | true =>
    unfold build at hb
    cases hx2 : chains m0 (.base t rw ps) l with
    | none => rw [hx2] at hb; cases hb
    | some x =>
      rw [hx2] at hb
      have h1 := chains_ub l m0 _ hx x hx2
      have h2 : Expr.make x.1 x.2 = none := by
        unfold Expr.make Graph.ustep
        rw [h1]; rfl
      have h3 : Expr.make x.1 x.2 = some (m1, n) := hb
      rw [h2] at h3; cases h3

theorem build_runs [Inhabited S] {m0 m1 : M V S} (h : Reach m0) {t : Ty V} {rw : Bool} {ps : List Nat}
    {l : List (Part V)} {n : Nat} (hb : build m0 t rw ps l = some (m1, n)) : Runs m0 m1 := by
  obtain ⟨_, _, h2, _⟩ := build_made (Graph.reach_inv h (build_ub hb)) hb
  exact h2

theorem built [Inhabited S] {m0 m1 m : M V S} (h : Reach m0) {t : Ty V} {rw : Bool} {ps : List Nat}
    {l : List (Part V)} {n : Nat} (hb : build m0 t rw ps l = some (m1, n)) (hr : Runs m1 m) (hub : m.ub = false) :
    ∃ b, Made m.g ps (separate false l) n (steps l) b ∧ Reach m := by
  obtain ⟨b, h1, h2, h3, h4, h5, h6⟩ := build_made (Graph.reach_inv h (build_ub hb)) hb
  have hr1 := h2.reach h
  exact ⟨b, h1.runs hr (Graph.reach_inv hr1 h4) hub h6, hr.reach hr1⟩

theorem sent_steps (g : Graph V S) (ps : List Nat) (l : List (Part V)) (v : V) :
    sent g ps (steps l) v = sent g ps l v := by
  unfold sent
  rw [put_steps]

theorem call_same [Inhabited S] {m m' : M V S} {n : Nat} {v : V} (hi : Inv m) (hl : Lazy m.g n)
    (h : Call m (.set n v) m') (s : Nat) : (m'.g.node s).kind = (m.g.node s).kind := by
  obtain ⟨m0, h1, h2, h3⟩ := id h
  obtain ⟨hub, ⟨fs, hst⟩, hv, hw, rfl⟩ := set_facts h1
  have := Graph.lazy_call hi hub hst (op := .set n v) rfl hv hw hl
  rw [Call.det h this]
  exact (Graph.sendUpN_hidden (n + 1) m.g n v).same.kind s

theorem set_alive [Inhabited S] {m m' : M V S} {n : Nat} {v : V} (h : Call m (.set n v) m') (s : Nat) :
    (m'.g.node s).alive = (m.g.node s).alive := by
  obtain ⟨m0, h1, h2, h3⟩ := id h
  obtain ⟨_, _, _, _, rfl⟩ := set_facts h1
  exact h2.alive s

end Verif.With
