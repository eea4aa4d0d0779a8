import Verif.Graph.Line

/-
Writes through zoomed and merged cursors.
-/

set_option linter.unusedSectionVars false

namespace Verif.Graph

variable {V S : Type} [DecidableEq V]

theorem LensLine.isState {g : Graph V S} {n r : Nat} {gt st} (h : LensLine g n r gt st) :
    ∃ a, (g.node r).kind = .state a := by
  induction h with
  | state hk => exact ⟨_, hk⟩
  | zoom _ _ _ _ _ _ _ ih => exact ih

theorem LensLine.same {g g' : Graph V S} (hk : ∀ n, (g'.node n).kind = (g.node n).kind)
    (hp : ∀ n, (g'.node n).parents = (g.node n).parents) {n r : Nat} {gt st}
    (h : LensLine g n r gt st) : LensLine g' n r gt st := by
  induction h with
  | state h => exact .state ((hk _).trans h)
  | zoom gt1 st1 h1 h2 h3 h4 _ ih => exact .zoom gt1 st1 ((hk _).trans h1) ((hp _).trans h2) h3 h4 ih

theorem LensLine.toLazy {g : Graph V S} {n r : Nat} {gt st} (h : LensLine g n r gt st)
    (hk : (g.node r).kind = .state false) : Lazy g n := by
  induction h with
  | state _ => exact .state hk
  | zoom gt1 st1 h1 h2 _ _ _ ih =>
    exact .comp h1 fun p hp => by
      rw [h2, List.mem_singleton] at hp; subst hp; exact ih hk

theorem LensLine.canWrite {g : Graph V S} {n r : Nat} {gt st} (h : LensLine g n r gt st) :
    g.canWrite n = true := by
  cases h with
  | state hk => unfold Graph.canWrite; rw [hk]
  | zoom gt1 st1 h1 => unfold Graph.canWrite; rw [h1]; rfl

/-- Recomputing leaves states alone. -/
theorem Recomputes.state {g g' : Graph V S} (h : Recomputes g g') {n : Nat} {a : Bool}
    (hk : (g.node n).kind = .state a) : g'.node n = g.node n := by
  induction h with
  | refl => rfl
  | @step g1 k hr ih =>
    by_cases hnk : n = k
    · subst hnk
      unfold Graph.recompute
      rw [hr.same.kind, hk]; exact ih
    · rw [(recompute_touch g1 k).other n hnk]; exact ih

theorem order_one {α : Type} (g : Graph V S) (x : α) : g.order [x] = [x] := by
  unfold Graph.order; split <;> rfl

theorem refreshN_recomputes (k : Nat) (g : Graph V S) (n : Nat) : Recomputes g (g.refreshN k n) :=
  refreshN_ind (Recomputes g) (fun _ m h => .step m h) k g n (.refl g)

/-- After a refresh, a zoomed cursor has the part of the state's pending value. -/
theorem refreshN_line {g : Graph V S} (w : WF g) {n r : Nat} {gt st} (h : LensLine g n r gt st)
    {k : Nat} (hk : n < k) : ((g.refreshN k n).node n).current = gt (g.node r).current := by
  induction h generalizing k with
  | @state r a hs =>
    obtain ⟨k, rfl⟩ : ∃ j, k = j + 1 := ⟨k - 1, by omega⟩
    simp only [Graph.refreshN, hs]
  | @zoom n p r view put gt st gt1 st1 h1 h2 h3 _ hl ih =>
    obtain ⟨k, rfl⟩ : ∃ j, k = j + 1 := ⟨k - 1, by omega⟩
    have hpn := w.lt n p (by rw [h2]; exact List.mem_cons_self ..)
    have ihp := ih (k := k) (by omega)
    simp only [Graph.refreshN, h1, h2, order_one, List.foldl]
    have hs := (refreshN_recomputes k g p).same
    unfold Graph.recompute
    rw [hs.kind, h1]
    simp only [hs.parents, h2, Graph.currents, List.map, h3, ihp]
    exact pushDown_pending _ _ _

theorem refresh_line {g : Graph V S} (w : WF g) {n p r : Nat} {gt st} {view put}
    (h1 : (g.node n).kind = .calc view put true)
    (h2 : (g.node n).parents = [p]) (h : LensLine g p r gt st) :
    ((g.refresh n).node p).current = gt (g.node r).current := by
  have hpn := w.lt n p (by rw [h2]; exact List.mem_cons_self ..)
  unfold Graph.refresh
  simp only [Graph.refreshN, h1, h2, order_one, List.foldl]
  rw [(recompute_touch _ n).other p (by omega)]
  exact refreshN_line w h hpn

/-- What a write through a zoomed cursor does to the states. -/
theorem sendUpN_line (k : Nat) : ∀ (g : Graph V S), WF g → ∀ {n r : Nat} {gt st},
    LensLine g n r gt st → n < k → ∀ v,
    ((g.sendUpN k n v).node r).current = st (g.node r).current v ∧
    ∀ s a, (g.node s).kind = .state a → s ≠ r → (g.sendUpN k n v).node s = g.node s := by
  induction k with
  | zero => intro g _ n r gt st _ hn; omega
  | succ k ih =>
    intro g w n r gt st h hn v
    cases h with
    | state hk =>
      simp only [Graph.sendUpN, hk]
      exact ⟨pushDown_pending g n v, fun s a _ hs => (pushDown_touch g n v).other s hs⟩
    | @zoom _ p _ view put gt st gt1 st1 h1 h2 h3 h4 hl =>
      have hpn := w.lt n p (by rw [h2]; exact List.mem_cons_self ..)
      have hre := refresh_recomputes g n
      have hs := hre.same
      obtain ⟨a, ha⟩ := hl.isState
      have hcur := refresh_line w h1 h2 hl
      simp only [Graph.sendUpN, h1, if_true, hs.parents, h2, Graph.currents, List.map, hcur, h4,
        List.zip_cons_cons, List.zip_nil_left, order_one, List.foldl]
      obtain ⟨k1, k2⟩ := ih (g.refresh n) (hs.wf w) (hl.same hs.kind hs.parents) (by omega)
        (st1 (gt (g.node r).current) v)
      refine ⟨?_, fun s b hsb hne => ?_⟩
      · rw [k1, hre.state ha]
      · rw [k2 s b ((hs.kind s).trans hsb) hne, hre.state hsb]

theorem target_valid [Inhabited S] {m m1 : M V S} {op : Op V S} {n : Nat}
    (h1 : ustep m op = some m1) (ht : op.target = some n) : m.g.valid n = true := by
  have hub := (ustep_ub h1).1
  obtain ⟨st', hst⟩ := ustep_user h1
  unfold ustep at h1
  rw [if_neg (by simp [hub]), hst] at h1
  cases op <;> simp only [Op.target, Option.some.injEq, reduceCtorEq] at ht
  all_goals
    subst ht
    simp only at h1
    split at h1
    · rename_i h2; rw [Bool.and_eq_true] at h2; exact h2.1
    · cases h1

/-- A write through a zoomed cursor of a transactional state. -/
theorem line_call [Inhabited S] {m m1 : M V S} {op : Op V S} {n r : Nat} {gt st} (hi : Inv m)
    (ht : op.target = some n) (hl : LensLine m.g n r gt st)
    (hk : (m.g.node r).kind = .state false) (hc : Call m op m1) :
    ∃ v, op.writes m = some (n, v) ∧ m1.pending r = st (m.pending r) v ∧
      (∀ s a, (m.g.node s).kind = .state a → s ≠ r → m1.g.node s = m.g.node s) ∧
      Hidden m.g m1.g ∧ m1.stack = m.stack ∧ m1.log = m.log ∧ m1.ub = false ∧ Inv m1 := by
  obtain ⟨m2, h1, _, h3⟩ := id hc
  have hub := (ustep_ub h1).1
  obtain ⟨st', hst⟩ := ustep_user h1
  have hv := target_valid h1 ht
  obtain ⟨v, hop⟩ : ∃ v, op.writes m = some (n, v) := by
    cases op <;> simp only [Op.target, Option.some.injEq, reduceCtorEq] at ht
    all_goals subst ht; exact ⟨_, rfl⟩
  have hcall := lazy_call hi hub hst hop hv hl.canWrite (hl.toLazy hk)
  obtain rfl := hc.det hcall
  obtain ⟨k1, k2⟩ := sendUpN_line (n + 1) m.g hi.wf hl (Nat.lt_succ_self n) v
  exact ⟨v, hop, k1, k2, sendUpN_hidden _ _ _ _, rfl, rfl, hub, hc.runs.inv hi hub⟩

theorem Runs.lensLine [Inhabited S] {m m' : M V S} (h : Runs m m') (hi : Inv m)
    (hub : m'.ub = false) {n r : Nat} {gt st} (hn : n < m.g.size)
    (hl : LensLine m.g n r gt st) : LensLine m'.g n r gt st := by
  induction hl with
  | state hk => exact .state (by rw [(h.const hi hub hn).1]; exact hk)
  | @zoom n p r view put gt st gt1 st1 h1 h2 h3 h4 _ ih =>
    have hc := h.const hi hub hn
    have hp := hi.wf.lt n p (by rw [h2]; exact List.mem_cons_self ..)
    exact .zoom gt1 st1 (hc.1.trans h1) (hc.2.1.trans h2) h3 h4 (ih (by omega))

/-- What a zoomed cursor shows if its state has no uncommitted write. -/
theorem LensLine.shows {m : M V S} (hi : Inv m) {n r : Nat} {gt st} (hl : LensLine m.g n r gt st)
    (hr : (m.g.node r).parents = []) (hd : (m.g.node r).dirty = false) (ha : m.Live n) :
    m.get n = gt (m.get r) ∧ ∀ a, m.Above a n → ¬ m.Uncommitted a := by
  induction hl with
  | state hk =>
    refine ⟨rfl, fun a h1 h2 => ?_⟩
    cases h1 with
    | refl => rw [h2.2] at hd; cases hd
    | step h3 => rw [hr] at h3; cases h3
  | @zoom n p r view put gt st gt1 st1 h1 h2 h3 h4 _ ih =>
    have hp : m.Live p := hi.wf.parentAlive n ha p (by rw [h2]; exact List.mem_cons_self ..)
    obtain ⟨k1, k2⟩ := ih hr hd hp
    have hclean : ∀ a, m.Above a n → ¬ m.Uncommitted a := by
      intro a h5
      cases h5 with
      | refl => intro h6; exact h6.1 _ _ _ h1
      | step h6 h7 =>
        rw [h2, List.mem_singleton] at h6
        subst h6
        exact k2 a h7
    refine ⟨hi.consistent ha hclean h1 ?_, hclean⟩
    rw [h2]; simp only [List.map]; rw [h3, k1]

/-- A write on its way up to an automatic state. -/
theorem line_run [Inhabited S] {d : Nat} (b : Nat) : ∀ {m : M V S} {n r : Nat} {gt st} {v : V} {fs : List (Frame V)},
    n < b → WF m.g → m.ub = false → LensLine m.g n r gt st → m.stack = .up n v :: fs →
    d ≤ fs.length → ∃ g1 k, Recomputes m.g g1 ∧ PRun d m { m with
      g := g1
      stack := .up r (st (m.g.node r).current v) :: (List.replicate k (.ups []) ++ fs) } := by
  induction b with
  | zero => intro m n r gt st v fs hn; omega
  | succ b ih =>
    intro m n r gt st v fs hn w hub hl hst hd
    cases hl with
    | state hk =>
      refine ⟨m.g, 0, .refl _, ?_⟩
      simp only [List.replicate, List.nil_append]
      rw [← hst]; exact .refl m
    | @zoom _ p _ view put gt st gt1 st1 h1 h2 h3 h4 hl =>
      have hpn := w.lt n p (by rw [h2]; exact List.mem_cons_self ..)
      have hre := refresh_recomputes m.g n
      have hs := hre.same
      obtain ⟨a, ha⟩ := hl.isState
      have hcur := refresh_line w h1 h2 hl
      have hl' := hl.same hs.kind hs.parents
      have he : istep m = some { m with
          g := m.g.refresh n
          stack := .ups [(p, st1 (gt (m.g.node r).current) v)] :: fs } := by
        unfold istep
        rw [if_neg (by simp [hub]), hst]
        simp only [h1, if_true, hs.parents, h2, Graph.currents, List.map, hcur, h4,
          List.zip_cons_cons, List.zip_nil_left, order_one]
      have he2 : istep { m with
          g := m.g.refresh n
          stack := .ups [(p, st1 (gt (m.g.node r).current) v)] :: fs } = some { m with
          g := m.g.refresh n
          stack := .up p (st1 (gt (m.g.node r).current) v) :: .ups [] :: fs } := by
        unfold istep
        simp [hub]
      obtain ⟨g1, k, k1, k2⟩ := ih (m := { m with
          g := m.g.refresh n
          stack := .up p (st1 (gt (m.g.node r).current) v) :: .ups [] :: fs })
        (by omega) (hs.wf w) hub hl' rfl (by rw [List.length_cons]; omega)
      refine ⟨g1, k + 1, hre.trans k1, .step (pstep_lib hst (by simp) hd he)
        (.step (pstep_lib rfl (by simp) hd he2) ?_)⟩
      have e : (List.replicate k (Frame.ups ([] : List (Nat × V))) ++ .ups [] :: fs) =
          List.replicate (k + 1) (.ups []) ++ fs := by
        rw [List.replicate_succ', List.append_assoc]; rfl
      dsimp only at k2
      rw [hre.state ha, e] at k2
      exact k2

theorem pop_ups [Inhabited S] {d : Nat} (k : Nat) : ∀ {m : M V S} {fs : List (Frame V)},
    m.ub = false → m.stack = List.replicate k (.ups []) ++ fs → d ≤ fs.length →
    PRun d m { m with stack := fs } := by
  induction k with
  | zero =>
    intro m fs _ hst _
    simp only [List.replicate, List.nil_append] at hst
    rw [← hst]; exact .refl m
  | succ k ih =>
    intro m fs hub hst hd
    have he : istep m = some { m with stack := List.replicate k (.ups []) ++ fs } := by
      unfold istep
      rw [if_neg (by simp [hub]), hst]
      simp only [List.replicate_succ, List.cons_append]
    refine .step (pstep_lib (by rw [hst, List.replicate_succ, List.cons_append]) (by simp)
      (by rw [List.length_append]; omega) he) ?_
    exact ih (m := { m with stack := List.replicate k (.ups []) ++ fs }) hub rfl hd

/-- The part of a state that its readers can see. -/
def StateEq (x y : Node V S) : Prop := y.last = x.last ∧ y.current = x.current ∧ y.dirty = x.dirty

/-- A write through a zoomed cursor of an automatic state. -/
theorem auto_up [Inhabited S] {d : Nat} {m : M V S} {n r : Nat} {gt st} {v : V}
    {fs : List (Frame V)} (hi : Inv m) (hub : m.ub = false) (hl : LensLine m.g n r gt st)
    (hk : (m.g.node r).kind = .state true) (hr : m.Live r) (hst : m.stack = .up n v :: fs)
    (hd : d ≤ fs.length) :
    ∃ m', PRun d m m' ∧ m'.stack = fs ∧ m'.ub = false ∧ m'.get r = st (m.pending r) v ∧
      m'.pending r = st (m.pending r) v ∧ (m'.g.node r).dirty = false ∧
      (∀ s a, (m.g.node s).kind = .state a → (m.g.node s).parents = [] → s ≠ r →
        StateEq (m.g.node s) (m'.g.node s)) ∧
      ∀ s, (m'.g.node s).alive = (m.g.node s).alive := by
  obtain ⟨g1, k, k1, k2⟩ := line_run (n + 1) (d := d) (Nat.lt_succ_self n) hi.wf hub hl hst hd
  have hs := k1.same
  have hk1 : (g1.node r).kind = .state true := (hs.kind r).trans hk
  have hi2 := k2.runs.inv hi hub
  have he3 : istep { m with
      g := g1
      stack := .up r (st (m.g.node r).current v) :: (List.replicate k (.ups []) ++ fs) } =
      some { m with
        g := (g1.pushDown r (st (m.g.node r).current v)).sendDown r
        stack := .notify r :: (List.replicate k (.ups []) ++ fs) } := by
    unfold istep
    simp [hub, hk1]
  have hi3 := istep_inv hi2 he3 hub
  have hst1 : Same g1 (g1.pushDown r (st (m.g.node r).current v)) := (pushDown_touch _ _ _).same
  have hrs : r < g1.size := by
    rw [hs.size]; exact hi.wf.alive_lt hr
  have hsz : r < ((g1.pushDown r (st (m.g.node r).current v)).sendDown r).size := by
    rw [(sendDown_moves _ _).same.size, hst1.size]
    exact hrs
  obtain ⟨m', h1, h2, h3, h4⟩ := notify_prun (d := d) _ _ r
    (List.replicate k (.ups []) ++ fs) (Nat.le_refl _) hsz hi3 hub rfl
    (by rw [List.length_append]; omega)
  have h5 := pop_ups (d := d) k h3 h2 hd
  have hst3 := sendDown_state (g1.pushDown r (st (m.g.node r).current v)) r (hst1.wf hi2.wf)
    ((pushDown_touch _ _ _).fresh hi2.fresh) (by rw [hst1.size]; exact hrs)
    ((hst1.kind r).trans hk1)
  refine ⟨{ m' with stack := fs }, k2.trans (.step (pstep_lib rfl (by simp)
    (by rw [List.length_append]; omega) he3) (h1.trans h5)), rfl, h3, ?_, ?_, ?_, ?_, fun s => ?_⟩
  · exact (h4.quiet.last r).trans (hst3.1.trans (pushDown_pending _ _ _))
  · exact (h4.quiet.current r).trans (hst3.2.1.trans (pushDown_pending _ _ _))
  · exact (h4.quiet.dirty r).trans hst3.2.2
  · intro s a hsa hsp hne
    have e : ((g1.pushDown r (st (m.g.node r).current v)).sendDown r).node s = m.g.node s := by
      rw [sendDown_root _ r (hst1.wf hi2.wf) hne (by rw [hst1.parents, hs.parents, hsp]),
        (pushDown_touch _ _ _).other s hne, k1.state hsa]
    refine ⟨(h4.quiet.last s).trans ?_, (h4.quiet.current s).trans ?_, (h4.quiet.dirty s).trans ?_⟩
    all_goals simp only [e]
  · exact (h4.quiet.alive s).trans (((sendDown_moves _ _).same.alive s).trans
      ((hst1.alive s).trans (hs.alive s)))

theorem auto_line [Inhabited S] {m : M V S} {op : Op V S} {n r : Nat} {gt st} (hi : Inv m)
    (ht : op.target = some n) (hl : LensLine m.g n r gt st)
    (hk : (m.g.node r).kind = .state true) (hr : m.Live r) :
    (m.Live n → m.ub = false → (∃ fs, m.stack = .user :: fs) → ∃ m', PCall m op m') ∧
    ∀ m', PCall m op m' → ∃ v, op.writes m = some (n, v) ∧
      m'.get r = st (m.pending r) v ∧ m'.pending r = st (m.pending r) v ∧
      (m'.g.node r).dirty = false ∧ m'.ub = false := by
  obtain ⟨v, hop⟩ : ∃ v, op.writes m = some (n, v) := by
    cases op <;> simp only [Op.target, Option.some.injEq, reduceCtorEq] at ht
    all_goals subst ht; exact ⟨_, rfl⟩
  have main : m.g.valid n = true → m.ub = false → (∃ fs, m.stack = .user :: fs) →
      ∃ m', PCall m op m' ∧ m'.get r = st (m.pending r) v ∧ m'.pending r = st (m.pending r) v ∧
      (m'.g.node r).dirty = false ∧ m'.ub = false := by
    rintro hv hub ⟨fs, hst⟩
    have he := write_step hst hub hop hv hl.canWrite
    have hi1 := ustep_inv hi _ he
    obtain ⟨m', h1, h2, h3, h4, h5, h6, _⟩ := auto_up (d := m.stack.length) hi1 hub hl hk hr rfl
      (Nat.le_refl _)
    exact ⟨m', ⟨_, he, h1, h2⟩, h4, h5, h6, h3⟩
  constructor
  · intro hln hub hst
    have hv : m.g.valid n = true := by
      unfold Graph.valid
      rw [show (m.g.node n).alive = true from hln]
      simp [hi.wf.alive_lt hln]
    obtain ⟨m', h1, _⟩ := main hv hub hst
    exact ⟨m', h1⟩
  · intro m' hc
    obtain ⟨m1, h1, _, _⟩ := id hc
    obtain ⟨m2, k1, k2⟩ := main (target_valid h1 ht) (ustep_ub h1).1 (ustep_user h1)
    obtain rfl : m2 = m' := k1.det hc
    exact ⟨v, hop, k2⟩

/-- Writes to the components of a merged cursor: transactional states. -/
theorem sendAllUp (k : Nat) (root : Nat → Nat) (st : Nat → V → V → V) (l : List (Nat × V)) :
    ∀ (g : Graph V S), WF g → (∀ x ∈ l, x.1 < k ∧ ∃ gt, LensLine g x.1 (root x.1) gt (st x.1)) →
    (l.map fun x => root x.1).Nodup →
    (∀ x ∈ l, ((l.foldl (fun g x => g.sendUpN k x.1 x.2) g).node (root x.1)).current =
      st x.1 (g.node (root x.1)).current x.2) ∧
    ∀ s a, (g.node s).kind = .state a → s ∉ l.map (fun x => root x.1) →
      (l.foldl (fun g x => g.sendUpN k x.1 x.2) g).node s = g.node s := by
  induction l with
  | nil => intro g _ _ _; exact ⟨by simp, fun _ _ _ _ => rfl⟩
  | cons y l ih =>
    intro g w hl hn
    obtain ⟨hy, gt, hly⟩ := hl y (List.mem_cons_self ..)
    obtain ⟨k1, k2⟩ := sendUpN_line k g w hly hy y.2
    have hs := (sendUpN_hidden k g y.1 y.2).same
    rw [List.map_cons, List.nodup_cons] at hn
    obtain ⟨k3, k4⟩ := ih (g.sendUpN k y.1 y.2) (hs.wf w) (fun x hx => by
      obtain ⟨h1, gt, h2⟩ := hl x (List.mem_cons_of_mem _ hx)
      exact ⟨h1, gt, h2.same hs.kind hs.parents⟩) hn.2
    simp only [List.foldl]
    obtain ⟨a0, ha0⟩ := hly.isState
    refine ⟨fun x hx => ?_, fun s a hsa hns => ?_⟩
    · rcases List.mem_cons.1 hx with rfl | hx
      · rw [k4 (root x.1) a0 ((hs.kind _).trans ha0) hn.1, k1]
      · obtain ⟨_, gt', h2⟩ := hl x (List.mem_cons_of_mem _ hx)
        obtain ⟨a1, ha1⟩ := h2.isState
        rw [k3 x hx, k2 (root x.1) a1 ha1]
        intro e
        exact hn.1 (e ▸ List.mem_map_of_mem (f := fun x => root x.1) hx)
    · rw [List.map_cons, List.mem_cons, not_or] at hns
      rw [k4 s a ((hs.kind s).trans hsa) hns.2, k2 s a hsa hns.1]

/-- The same for automatic states. -/
theorem auto_ups [Inhabited S] {d : Nat} (root : Nat → Nat) (st : Nat → V → V → V)
    (l : List (Nat × V)) : ∀ {m : M V S} {fs : List (Frame V)}, Reach m → m.ub = false →
    (∀ x ∈ l, m.Live (root x.1) ∧ x.1 < m.g.size ∧ (m.g.node (root x.1)).kind = .state true ∧
      ∃ gt, LensLine m.g x.1 (root x.1) gt (st x.1)) →
    (l.map fun x => root x.1).Nodup → m.stack = .ups l :: fs → d ≤ fs.length →
    ∃ m', PRun d m m' ∧ m'.stack = fs ∧ m'.ub = false ∧
      (∀ x ∈ l, m'.get (root x.1) = st x.1 (m.pending (root x.1)) x.2 ∧
        (m'.g.node (root x.1)).dirty = false) ∧
      ∀ s a, m.Live s → (m.g.node s).kind = .state a → s ∉ l.map (fun x => root x.1) →
        StateEq (m.g.node s) (m'.g.node s) := by
  induction l with
  | nil =>
    intro m fs _ hub _ _ hst hd
    have he : istep m = some { m with stack := fs } := by
      unfold istep
      rw [if_neg (by simp [hub]), hst]
    exact ⟨{ m with stack := fs }, .step (pstep_lib hst (by simp) hd he) (.refl _), rfl, hub,
      by simp, fun _ _ _ _ _ => ⟨rfl, rfl, rfl⟩⟩
  | cons y l ih =>
    intro m fs hre hub hl hn hst hd
    have hi := reach_inv hre hub
    obtain ⟨hlr, hsz, hk, gt, hly⟩ := hl y (List.mem_cons_self ..)
    rw [List.map_cons, List.nodup_cons] at hn
    have he : istep m = some { m with stack := .up y.1 y.2 :: .ups l :: fs } := by
      unfold istep
      rw [if_neg (by simp [hub]), hst]
    have hi1 := istep_inv hi he hub
    obtain ⟨m1, h1, h2, h3, h4, h5, h6, h7, h8⟩ := auto_up (d := d) hi1 hub hly hk hlr rfl
      (by rw [List.length_cons]; omega)
    have hrun : PRun d m m1 := .step (pstep_lib hst (by simp) hd he) h1
    have hst' : ∀ s a, m.Live s → (m.g.node s).kind = .state a → s ≠ root y.1 →
        StateEq (m.g.node s) (m1.g.node s) := fun s a hls hsk hne =>
      h7 s a hsk (roots_no_parents hre hub (hi.wf.alive_lt hls) (.inl ⟨a, hsk⟩)) hne
    have hal : ∀ s, m.Live s → m1.Live s := fun s hls => (h8 s).trans hls
    obtain ⟨m2, k1, k2, k3, k4, k5⟩ := ih (m := m1) (fs := fs) (hrun.runs.reach hre) h3
      (fun x hx => by
        obtain ⟨a1, a2, a3, gt', a4⟩ := hl x (List.mem_cons_of_mem _ hx)
        exact ⟨hal _ a1, (hrun.runs.const hi h3 a2).2.2.2,
          (hrun.runs.const hi h3 (hi.wf.alive_lt a1)).1.trans a3, gt', hrun.runs.lensLine hi h3 a2 a4⟩)
      hn.2 h2 hd
    refine ⟨m2, hrun.trans k1, k2, k3, fun x hx => ?_, fun s a hls hsk hns => ?_⟩
    · rcases List.mem_cons.1 hx with rfl | hx
      · have := k5 (root x.1) true (hal _ hlr)
          ((hrun.runs.const hi h3 (hi.wf.alive_lt hlr)).1.trans hk) hn.1
        exact ⟨this.1.trans h4, this.2.2.trans h6⟩
      · obtain ⟨a1, a2, a3, gt', a4⟩ := hl x (List.mem_cons_of_mem _ hx)
        have hne : root x.1 ≠ root y.1 := by
          intro e
          exact hn.1 (e ▸ List.mem_map_of_mem (f := fun x => root x.1) hx)
        have := hst' _ _ a1 a3 hne
        refine ⟨(k4 x hx).1.trans ?_, (k4 x hx).2⟩
        unfold M.pending
        rw [this.2.1]
    · rw [List.map_cons, List.mem_cons, not_or] at hns
      have a1 := hst' s a hls hsk hns.1
      have a2 := k5 s a (hal s hls) ((hrun.runs.const hi h3 (hi.wf.alive_lt hls)).1.trans hsk) hns.2
      exact ⟨a2.1.trans a1.1, a2.2.1.trans a1.2.1, a2.2.2.trans a1.2.2⟩

/-- A commit, with callbacks that do nothing. -/
theorem commit_still [Inhabited S] {m m1 : M V S} (h : Reach m) {rs : List Nat}
    (hc : PCall m (.commit rs) m1) :
    m1.ub = false ∧ Still (rs.foldl (fun g r => g.sendDown r) m.g) m1.g ∧
    ∀ r ∈ rs, r < m.g.size ∧ (m.g.node r).parents = [] := by
  obtain ⟨m', h1, _⟩ := id hc
  have hub := (ustep_ub h1).1
  have hi := reach_inv h hub
  obtain ⟨fs, hst⟩ := ustep_user h1
  have hall : ∀ r ∈ rs, m.g.valid r = true ∧ (m.g.node r).parents = [] := by
    have h2 := h1
    unfold ustep at h2
    rw [if_neg (by rw [hub]; decide), hst] at h2
    dsimp only at h2
    split at h2
    · rename_i hv
      intro r hr
      rw [Bool.and_eq_true] at hv
      exact ⟨List.all_eq_true.1 hv.1 r hr, List.isEmpty_iff.1 (List.all_eq_true.1 hv.2 r hr)⟩
    · cases h2
  obtain ⟨m'', h3, h4, h5⟩ := commit_call hi hub hst hall
  obtain rfl : m1 = m'' := hc.det h3
  exact ⟨h4, h5, fun r hr => ⟨hi.wf.alive_lt (commit_alive h1 r hr), (hall r hr).2⟩⟩

theorem commit_ub [Inhabited S] {m m1 : M V S} (h : Reach m) {rs : List Nat}
    (hc : PCall m (.commit rs) m1) :
    m1.ub = false ∧ ∀ n, (m1.g.node n).alive = (m.g.node n).alive := by
  obtain ⟨h1, h2, _⟩ := commit_still h hc
  exact ⟨h1, fun n => (h2.quiet.alive n).trans ((sendAll_same rs m.g).alive n)⟩

/-- A commit of a state, with callbacks that do nothing. -/
theorem commit_state [Inhabited S] {m m1 : M V S} (h : Reach m) {rs : List Nat}
    (hc : PCall m (.commit rs) m1) {r : Nat} (hr : r ∈ rs) {a} (hk : (m.g.node r).kind = .state a) :
    m1.get r = m.pending r ∧ m1.pending r = m.pending r ∧ (m1.g.node r).dirty = false ∧
    (m1.g.node r).parents = [] ∧ m1.ub = false ∧ ∀ n, (m1.g.node n).alive = (m.g.node n).alive := by
  obtain ⟨m', h1, _⟩ := id hc
  have hi := reach_inv h (ustep_ub h1).1
  obtain ⟨h4, h5, hall⟩ := commit_still h hc
  obtain ⟨k1, k2⟩ := sendAll_state rs m.g hi.wf hi.fresh (fun r hr => (hall r hr).1) hk (hall r hr).2
  obtain ⟨k2, k3⟩ := k2 hr
  have hs := sendAll_same rs m.g
  exact ⟨(h5.quiet.last r).trans k2, (h5.quiet.current r).trans k1, (h5.quiet.dirty r).trans k3,
    (h5.quiet.parents r).trans ((hs.parents r).trans (hall r hr).2), h4,
    fun n => (h5.quiet.alive n).trans (hs.alive n)⟩

theorem LensLine.rootLive {m : M V S} (w : WF m.g) {n r : Nat} {gt st}
    (hl : LensLine m.g n r gt st) (hn : m.Live n) : m.Live r := by
  induction hl with
  | state => exact hn
  | zoom _ _ _ h2 _ _ _ ih =>
    exact ih (w.parentAlive _ hn _ (by rw [h2]; exact List.mem_cons_self ..))

/-- Writes through cursors zoomed from one transactional state. -/
theorem line_calls [Inhabited S] {r : Nat} (l : List (Nat × V × (V → V → V))) :
    ∀ {m m1 : M V S}, Inv m → (m.g.node r).kind = .state false →
    (∀ x ∈ l, ∃ gt, LensLine m.g x.1 r gt x.2.2) →
    Calls m (l.map fun x => .set x.1 x.2.1) m1 →
    m1.pending r = l.foldl (fun w x => x.2.2 w x.2.1) (m.pending r) ∧ Hidden m.g m1.g ∧
    ∀ s a, (m.g.node s).kind = .state a → s ≠ r → m1.g.node s = m.g.node s := by
  induction l with
  | nil => intro m m1 _ _ _ hc; cases hc; exact ⟨rfl, .refl _, fun _ _ _ _ => rfl⟩
  | cons x l ih =>
    intro m m1 hi hk hl hc
    cases hc with
    | cons h1 h2 =>
      rename_i m'
      obtain ⟨gt, hx⟩ := hl x (List.mem_cons_self ..)
      obtain ⟨v', k1, k2, k3, k4, _, _, k5, k6⟩ := line_call hi rfl hx hk h1
      cases k1
      obtain ⟨j1, j2, j3⟩ := ih k6 ((k4.same.kind r).trans hk) (fun y hy => by
        obtain ⟨gt', h4⟩ := hl y (List.mem_cons_of_mem _ hy)
        exact ⟨gt', h4.same k4.same.kind k4.same.parents⟩) h2
      refine ⟨by rw [j1, k2]; rfl, k4.trans j2, fun s a hs hne => ?_⟩
      rw [j3 s a ((k4.same.kind s).trans hs) hne, k3 s a hs hne]

theorem order_nodup {α β : Type} (g : Graph V S) {l : List α} (f : α → β) (h : (l.map f).Nodup) :
    ((g.order l).map f).Nodup := by
  unfold Graph.order
  split
  · exact h
  · rw [List.map_reverse, List.nodup_iff_pairwise_ne, List.pairwise_reverse]
    rw [List.nodup_iff_pairwise_ne] at h
    exact h.imp fun h => h.symm

theorem zip_nodup {β : Type} (f : Nat → β) (ps : List Nat) : ∀ (vs : List V), (ps.map f).Nodup →
    ((ps.zip vs).map fun x => f x.1).Nodup := by
  induction ps with
  | nil => intro vs _; simp
  | cons p ps ih =>
    intro vs h
    cases vs with
    | nil => simp
    | cons v vs =>
      rw [List.map_cons, List.nodup_cons] at h
      rw [List.zip_cons_cons, List.map_cons, List.nodup_cons]
      refine ⟨fun h1 => h.1 ?_, ih vs h.2⟩
      obtain ⟨x, h2, h3⟩ := List.mem_map.1 h1
      exact List.mem_map.2 ⟨x.1, (List.of_mem_zip (a := x.1) (b := x.2) h2).1, h3⟩

theorem zip_map (f : Nat → V) (ps : List Nat) : ∀ (vs : List V), vs.length = ps.length →
    (∀ x ∈ ps.zip vs, f x.1 = x.2) → ps.map f = vs := by
  induction ps with
  | nil => intro vs h _; rw [List.length_nil, List.length_eq_zero_iff] at h; subst h; rfl
  | cons p ps ih =>
    intro vs h hx
    cases vs with
    | nil => cases h
    | cons v vs =>
      rw [List.map_cons, ih vs (by simpa using h) fun x h1 => hx x (by
        rw [List.zip_cons_cons]; exact List.mem_cons_of_mem _ h1)]
      rw [hx (p, v) (by rw [List.zip_cons_cons]; exact List.mem_cons_self ..)]

/-- A write to a cursor merged from cursors that are zoomed from different transactional states. -/
theorem merged_call [Inhabited S] {m m1 : M V S} {op : Op V S} {n : Nat} (root : Nat → Nat)
    (gt : Nat → V → V) (st : Nat → V → V → V) {view put} (hi : Inv m) (ht : op.target = some n)
    (hkn : (m.g.node n).kind = .calc view (some put) false)
    (hc : ∀ c ∈ (m.g.node n).parents, LensLine m.g c (root c) (gt c) (st c) ∧
      (m.g.node (root c)).kind = .state false)
    (hd : ((m.g.node n).parents.map root).Nodup) (h : Call m op m1) :
    ∃ v, op.writes m = some (n, v) ∧
    (∀ x ∈ (m.g.node n).parents.zip (put ((m.g.node n).parents.map m.pending) v),
      m1.pending (root x.1) = st x.1 (m.pending (root x.1)) x.2) ∧ Hidden m.g m1.g ∧
    ∀ s a, (m.g.node s).kind = .state a → s ∉ (m.g.node n).parents.map root →
      m1.g.node s = m.g.node s := by
  obtain ⟨v, hop⟩ : ∃ v, op.writes m = some (n, v) := by
    cases op <;> simp only [Op.target, Option.some.injEq, reduceCtorEq] at ht
    all_goals subst ht; exact ⟨_, rfl⟩
  obtain ⟨m', h1, _⟩ := id h
  have hlazy : Lazy m.g n := .comp hkn fun p hp => (hc p hp).1.toLazy (hc p hp).2
  have hw : m.g.canWrite n = true := by unfold Graph.canWrite; rw [hkn]; rfl
  obtain ⟨fs, hst⟩ := ustep_user h1
  have hcall := lazy_call hi (ustep_ub h1).1 hst hop (target_valid h1 ht) hw hlazy
  obtain rfl := h.det hcall
  refine ⟨v, hop, ?_⟩
  have he : m.g.sendUpN (n + 1) n v =
      (m.g.order ((m.g.node n).parents.zip (put ((m.g.node n).parents.map m.pending) v))).foldl
        (fun g x => g.sendUpN n x.1 x.2) m.g := by
    conv => lhs; unfold Graph.sendUpN
    rw [hkn]
    rfl
  have hmem : ∀ x ∈ m.g.order ((m.g.node n).parents.zip (put ((m.g.node n).parents.map m.pending) v)),
      x.1 ∈ (m.g.node n).parents := fun x hx =>
    (List.of_mem_zip (a := x.1) (b := x.2) (mem_order.1 hx)).1
  obtain ⟨k1, k2⟩ := sendAllUp n root st
    (m.g.order ((m.g.node n).parents.zip (put ((m.g.node n).parents.map m.pending) v))) m.g hi.wf
    (fun x hx => ⟨hi.wf.lt _ _ (hmem x hx), gt x.1, (hc x.1 (hmem x hx)).1⟩)
    (order_nodup _ _ (zip_nodup root _ _ hd))
  refine ⟨fun x hx => ?_, sendUpN_hidden _ _ _ _, fun s a hs hns => ?_⟩
  · show ((m.g.sendUpN (n + 1) n v).node (root x.1)).current = _
    rw [he]
    exact k1 x (mem_order.2 hx)
  · show (m.g.sendUpN (n + 1) n v).node s = _
    rw [he]
    refine k2 s a hs fun h2 => hns ?_
    obtain ⟨x, h3, h4⟩ := List.mem_map.1 h2
    exact List.mem_map.2 ⟨x.1, hmem x h3, h4⟩

/-- The same for automatic states. -/
theorem merged_auto [Inhabited S] {m : M V S} {op : Op V S} {n : Nat} (root : Nat → Nat)
    (gt : Nat → V → V) (st : Nat → V → V → V) {view put} (h : Reach m) (ht : op.target = some n)
    (hkn : (m.g.node n).kind = .calc view (some put) false)
    (hc : ∀ c ∈ (m.g.node n).parents, LensLine m.g c (root c) (gt c) (st c) ∧
      (m.g.node (root c)).kind = .state true ∧ m.Live (root c))
    (hd : ((m.g.node n).parents.map root).Nodup) :
    (m.Live n → m.ub = false → (∃ fs, m.stack = .user :: fs) → ∃ m1, PCall m op m1) ∧
    ∀ m1, PCall m op m1 → ∃ v, op.writes m = some (n, v) ∧ m1.ub = false ∧
    ∀ x ∈ (m.g.node n).parents.zip (put ((m.g.node n).parents.map m.pending) v),
      m1.get (root x.1) = st x.1 (m.pending (root x.1)) x.2 ∧
      (m1.g.node (root x.1)).dirty = false := by
  obtain ⟨v, hop⟩ : ∃ v, op.writes m = some (n, v) := by
    cases op <;> simp only [Op.target, Option.some.injEq, reduceCtorEq] at ht
    all_goals subst ht; exact ⟨_, rfl⟩
  have main : m.g.valid n = true → m.ub = false → (∃ fs, m.stack = .user :: fs) →
      ∃ m1, PCall m op m1 ∧ m1.ub = false ∧
      ∀ x ∈ (m.g.node n).parents.zip (put ((m.g.node n).parents.map m.pending) v),
      m1.get (root x.1) = st x.1 (m.pending (root x.1)) x.2 ∧
      (m1.g.node (root x.1)).dirty = false := by
    rintro hv hub ⟨fs, hst⟩
    have hi := reach_inv h hub
    have hw : m.g.canWrite n = true := by unfold Graph.canWrite; rw [hkn]; rfl
    have he := write_step hst hub hop hv hw
    have he2 : istep { m with stack := .up n v :: m.stack } = some { m with
        stack := .ups (m.g.order ((m.g.node n).parents.zip
          (put ((m.g.node n).parents.map m.pending) v))) :: m.stack } := by
      unfold istep
      dsimp only
      rw [if_neg (by rw [hub]; decide), hkn]
      rfl
    have hr2 : Reach { m with
        stack := .ups (m.g.order ((m.g.node n).parents.zip
          (put ((m.g.node n).parents.map m.pending) v))) :: m.stack } :=
      .step (.step h (.user _ he)) (.lib he2)
    have hmem : ∀ x ∈ m.g.order ((m.g.node n).parents.zip (put ((m.g.node n).parents.map m.pending) v)),
      x.1 ∈ (m.g.node n).parents := fun x hx =>
      (List.of_mem_zip (a := x.1) (b := x.2) (mem_order.1 hx)).1
    have hn : n < m.g.size := by
      unfold Graph.valid at hv
      simp at hv
      exact hv.1
    obtain ⟨m1, k1, k2, k3, k4, _⟩ := auto_ups (d := m.stack.length) root st
      (m.g.order ((m.g.node n).parents.zip (put ((m.g.node n).parents.map m.pending) v))) hr2 hub
      (fun x hx => ⟨(hc x.1 (hmem x hx)).2.2, by
        have := hi.wf.lt _ _ (hmem x hx)
        show x.1 < m.g.size
        omega, (hc x.1 (hmem x hx)).2.1, gt x.1,
        (hc x.1 (hmem x hx)).1⟩)
      (order_nodup _ _ (zip_nodup root _ _ hd)) rfl (Nat.le_refl _)
    refine ⟨m1, ⟨_, he, .step ?_ k1, k2⟩, k3, fun x hx => k4 x (mem_order.2 hx)⟩
    exact pstep_lib (st := m.stack) (f := .up n v) rfl (by simp) (Nat.le_refl _) he2
  constructor
  · intro hln hub hst
    have hi := reach_inv h hub
    have hv : m.g.valid n = true := by
      unfold Graph.valid
      rw [show (m.g.node n).alive = true from hln]
      simp [hi.wf.alive_lt hln]
    obtain ⟨m', h1, _⟩ := main hv hub hst
    exact ⟨m', h1⟩
  · intro m1 hcall
    obtain ⟨m', h1, _, _⟩ := id hcall
    obtain ⟨m2, k1, k2⟩ := main (target_valid h1 ht) (ustep_ub h1).1 (ustep_user h1)
    obtain rfl : m2 = m1 := k1.det hcall
    exact ⟨v, hop, k2⟩

theorem mod_alive (g : Graph V S) (n : Nat) (f : Node V S → Node V S)
    (h : (f (g.node n)).alive = (g.node n).alive) (k : Nat) :
    ((g.mod n f).node k).alive = (g.node k).alive := by
  by_cases hk : k = n
  · subst hk; rw [Graph.mod_self]; exact h
  · rw [Graph.mod_ne _ _ hk]

/-- Library code destroys no reader. -/
theorem istep_alive {m m' : M V S} (he : istep m = some m') (k : Nat) :
    (m'.g.node k).alive = (m.g.node k).alive := by
  unfold istep at he
  split at he
  · cases he
  · split at he
    · split at he
      · cases he; dsimp only; refine mod_alive _ _ _ ?_ _; rfl
      · cases he; rfl
    · split at he <;> (cases he; rfl)
    · split at he
      · split at he
        · cases he; rfl
        · split at he <;> (cases he; rfl)
      · cases he
        dsimp only
        refine (mod_alive _ _ _ rfl _).trans ?_
        split
        · unfold Graph.collect; exact mod_alive _ _ _ rfl _
        · rfl
    · cases he; rfl
    · cases he; rfl
    · split at he
      · split at he
        · cases he
          exact ((sendDown_moves _ _).same.alive _).trans ((pushDown_touch _ _ _).same.alive _)
        · cases he; exact (pushDown_touch _ _ _).same.alive _
      · cases he
        simp only
        split
        · exact (refresh_recomputes _ _).same.alive _
        · rfl
      · cases he; dsimp only; refine mod_alive _ _ _ ?_ _; rfl
      · cases he; rfl
      · cases he; rfl
    · cases he; rfl
    · cases he; rfl
    · split at he
      · cases he
        refine ((sendDown_moves _ _).same.alive _).trans ((mod_alive _ _ _ ?_ _).trans
          ((pushDown_touch _ _ _).same.alive _))
        rfl
      · cases he; exact (pushDown_touch _ _ _).same.alive _
    · cases he
    · cases he

theorem LibRun.alive {m m' : M V S} (h : LibRun m m') (k : Nat) :
    (m'.g.node k).alive = (m.g.node k).alive := by
  induction h with
  | refl => rfl
  | step he _ ih => exact ih.trans (istep_alive he k)

theorem ret_graph [Inhabited S] {m m' : M V S} (h : ustep m .ret = some m') : m'.g = m.g := by
  unfold ustep at h
  split at h
  · cases h
  · split at h
    · dsimp only at h
      split at h
      · cases h
      · cases h; rfl
    · cases h

theorem PRun.alive [Inhabited S] {d : Nat} {m m' : M V S} (h : PRun d m m') (k : Nat) :
    (m'.g.node k).alive = (m.g.node k).alive := by
  induction h with
  | refl => rfl
  | step he _ ih =>
    refine ih.trans ?_
    unfold pstep at he
    split at he
    · cases he
    · split at he
      · rw [ret_graph he]
      · exact istep_alive he k

theorem PCall.alive [Inhabited S] {m m' : M V S} {op : Op V S} {n : Nat} (ht : op.target = some n)
    (h : PCall m op m') (k : Nat) : (m'.g.node k).alive = (m.g.node k).alive := by
  obtain ⟨m1, h1, h2, _⟩ := h
  obtain ⟨v, rfl⟩ := set_step h1 ht
  exact h2.alive k

/-- All the states that a merged cursor depends on are published. -/
theorem merged_shows [Inhabited S] {m : M V S} (h : Reach m) (hub : m.ub = false) {n : Nat}
    {ps : List Nat} {root : Nat → Nat} {gt : Nat → V → V} {st : Nat → V → V → V} {vs : List V} {v : V}
    {view put} (hk : (m.g.node n).kind = .calc view put false) (hv : view vs = some v)
    (hp : (m.g.node n).parents = ps) (hlen : vs.length = ps.length)
    (hc : ∀ c ∈ ps, LensLine m.g c (root c) (gt c) (st c)) (hn : m.Live n)
    (hd : ∀ c ∈ ps, (m.g.node (root c)).dirty = false)
    (hx : ∀ x ∈ ps.zip vs, gt x.1 (m.get (root x.1)) = x.2) :
    m.get n = v ∧ ps.map m.get = vs := by
  have hi := reach_inv h hub
  have hlive : ∀ c ∈ ps, m.Live c := fun c hcp => hi.wf.parentAlive n hn c (by rw [hp]; exact hcp)
  have hroot : ∀ c ∈ ps, m.Live (root c) := fun c hcp =>
    (hc c hcp).rootLive hi.wf (hlive c hcp)
  have hs : ∀ c ∈ ps, m.get c = gt c (m.get (root c)) ∧ ∀ a, m.Above a c → ¬ m.Uncommitted a := by
    intro c hcp
    refine (hc c hcp).shows hi ?_ (hd c hcp) (hlive c hcp)
    obtain ⟨a, ha⟩ := (hc c hcp).isState
    exact roots_no_parents h hub (hi.wf.alive_lt (hroot c hcp)) (.inl ⟨a, ha⟩)
  have hmap : ps.map m.get = vs := by
    refine zip_map _ _ _ hlen fun x h1 => ?_
    rw [(hs x.1 (List.of_mem_zip (a := x.1) (b := x.2) h1).1).1]
    exact hx x h1
  refine ⟨hi.consistent hn ?_ hk (by rw [hp, hmap]; exact hv), hmap⟩
  intro a ha
  cases ha with
  | refl => intro h1; exact h1.1 _ _ _ hk
  | step h1 h2 =>
    rw [hp] at h1
    exact (hs _ h1).2 a h2

end Verif.Graph
