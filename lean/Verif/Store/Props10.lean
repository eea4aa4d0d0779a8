import Verif.Store.MultiReach

/-!
Property C98: several stores on one event loop.
-/

namespace Verif.Store

variable {K : Type} [DecidableEq K] {A Mo : K → Type}

/-! ### Specification -/

/-- Nothing is left to do: the loop that the stores share has no task, no other loop has, no library code is
under way and no effect of any store is running. -/
def Multi.quiet (m : Multi A Mo) : Prop :=
  m.queue = [] ∧ (∀ l, m.fu.queue l = []) ∧ m.fu.active = [] ∧ ∀ k, (m.part k).ev = []

/-- No reducer, watcher or effect has thrown. -/
def Multi.calm (m : Multi A Mo) : Prop :=
  ∀ k, (∀ d, ¬ ReducerThrew (m.view k) d) ∧ (∀ d, ¬ Lost (m.view k) d) ∧ ∀ x, ¬ Threw (m.view k) x

/-- The effect of dispatch `d` to store `k` has returned a future, or one of the effects that it was sequenced
of has; `g` is its promise state. -/
def WaitsFor (m : Multi A Mo) (k : K) (d g : Nat) : Prop :=
  ∃ x e pos, SEv.effStart d x e ∈ evsOf k m.hist ∧ SEv.primRet x pos (some g) ∈ evsOf k m.hist

/-! ### C98 -/

/-- C98: to each store on the loop, what the others do is no more than what user code may do with promises and
futures: what a store goes through is an execution of that store alone, with its own events. -/
theorem C98_alone {c : (k : K) → Cfg (A k) (Mo k)} {m : Multi A Mo} (r : Multi.Reach c m) (k : K) :
    Reach (c k) (m.view k) ∧ (m.view k).log = evsOf k m.hist :=
  ⟨r.inv.reach k, r.hist.1 k⟩

/-- C98: the loop is first come, first served for all stores together: the actions that reducers have been called
with are the first ones of those dispatched, in the order in which they were dispatched, to whichever store; the
others wait in the queue in this order. -/
theorem C98_order {c : (k : K) → Cfg (A k) (Mo k)} {m : Multi A Mo} (r : Multi.Reach c m) :
    mdisp m.hist = mred m.hist ++ mpend m.queue := r.hist.2

/-- C98: when the loop has no tasks left, the model of each store is the fold of its reducer over the actions
that have been dispatched to it, in the order in which they were. -/
theorem C98_fold {c : (k : K) → Cfg (A k) (Mo k)} {m : Multi A Mo} (r : Multi.Reach c m) (hq : m.queue = [])
    (k : K) (hc : (c k).sound) (ht : (c k).trans = false) :
    (m.view k).get = fold (c k) (dispatches (evsOf k m.hist)) := by
  obtain ⟨h1, h2⟩ := C98_alone r k
  have hi : (m.view k).idle := by
    show m.queue.filterMap _ = []
    rw [hq]; rfl
  rw [← h2]
  exact C48_fold hc ht h1 hi

theorem start_part_own (c : Cfg A' M') (fu : Future.M) (q : List (Item A')) (i : Nat) :
    ¬ ((Store.start c).part.join fu q).own i ∧ ¬ ((Store.start c).part.join fu q).held i := by
  constructor <;> rintro ⟨y, hy, _⟩ <;> cases hy

theorem start_part_tagged (c : Cfg A' M') (fu : Future.M) (q : List (Item A')) (k : Nat) :
    ¬ ((Store.start c).part.join fu q).tagged k := by
  unfold St.tagged
  split
  · exact fun h => h rfl
  · exact id

/-- C98: any execution of a store alone is also one of that store on a loop with others. -/
theorem C98_embeds (c : (k : K) → Cfg (A k) (Mo k)) (k : K) {s : St (A k) (Mo k)} (r : Reach (c k) s) :
    ∃ m, Multi.Reach c m ∧ m.view k = s ∧ ∀ j, j ≠ k → m.part j = (Store.start (c j)).part := by
  suffices h : ∃ m, Multi.Reach c m ∧ m.view k = s ∧ (∀ j, j ≠ k → m.part j = (Store.start (c j)).part) ∧
      ∀ j x, j ≠ k → MItem.of j x ∉ m.queue by
    obtain ⟨m, h1, h2, h3, _⟩ := h
    exact ⟨m, h1, h2, h3⟩
  induction r with
  | start => exact ⟨Multi.start c, .start, rfl, fun _ _ => rfl, fun _ _ _ h => by cases h⟩
  | step op r h ih =>
    obtain ⟨m, h1, rfl, h3, h4⟩ := ih
    have hmine : ∀ l, m.mine k l := by
      intro l t q _ j hj
      rw [h3 j hj]; rfl
    -- from a step of the store within its own queue
    have done : ∀ s1, m.guard k op → Store.step (c k) (m.enter k op) op = some s1 → ∃ m', Multi.Reach c m' ∧
        Store.step (c k) (m.view k) op = some (m'.view k) ∧ (∀ j, j ≠ k → m'.part j = (Store.start (c j)).part) ∧
        ∀ j x, j ≠ k → MItem.of j x ∉ m'.queue := by
      intro s1 hg hs
      refine ⟨m.leave k op s1, .step k op h1 ⟨hg, s1, hs, rfl⟩, own_step hg hs, ?_, ?_⟩
      · intro j hj
        rw [leave_part_other m (Ne.symm hj), h3 j hj]
      · intro j x hj hx
        rcases List.mem_append.1 hx with hx | hx
        · refine h4 j x hj ?_
          cases op <;> first | exact hx | exact List.mem_of_mem_drop hx
        · obtain ⟨y, _, hy⟩ := List.mem_map.1 hx
          cases y <;> cases hy <;> exact hj rfl
    suffices hd : ∃ s1, m.guard k op ∧ Store.step (c k) (m.enter k op) op = some s1 by
      obtain ⟨s1, hg, hs⟩ := hd
      obtain ⟨m', k1, k2, k3, k4⟩ := done s1 hg hs
      rw [h] at k2
      cases k2
      exact ⟨m', k1, rfl, k3, k4⟩
    have hjk : ∀ (P : (j : K) → Prop), P k → (∀ j, j ≠ k → P j) → ∀ j, P j := by
      intro P h1 h2 j
      by_cases hj : j = k
      · subst hj; exact h1
      · exact h2 j hj
    by_cases e1 : op = .loop
    · subst e1
      cases hq : m.queue with
      | nil =>
        exfalso
        have : (m.view k).queue = [] := by show m.queue.filterMap _ = []; rw [hq]; rfl
        simp [Store.step, St.loop, this] at h
      | cons x q =>
        have hy : ∃ y, x.for k = some y := by
          cases x with
          | tok => exact ⟨.tok, rfl⟩
          | of j y =>
            by_cases hj : j = k
            · subst hj; exact ⟨y, by simp [MItem.for]⟩
            · exact absurd (by rw [hq]; exact List.mem_cons_self) (h4 j y hj)
        obtain ⟨y, hy⟩ := hy
        have e1 : m.enter k .loop = { m.view k with queue := [y] } := by
          simp [Multi.enter, hq, hy, Multi.view, Part.join]
        have e2 : m.view k = { m.view k with queue := y :: q.filterMap (MItem.for k) } := by
          simp [Multi.view, hq, hy, Part.join]
        rw [e2] at h
        simp only [Store.step] at h
        rw [pre_loop, Option.map_eq_some_iff] at h
        obtain ⟨s1, hs, _⟩ := h
        refine ⟨s1, ⟨x, q, hq, ?_⟩, by rw [e1]; exact hs⟩
        cases x with
        | tok => exact hmine 0
        | of j y =>
          by_cases hj : j = k
          · exact hj
          · exact absurd (by rw [hq]; exact List.mem_cons_self) (h4 j y hj)
    · by_cases e2 : op = .loopRaise
      · subst e2
        cases hq : m.queue with
        | nil =>
          exfalso
          have : (m.view k).queue = [] := by show m.queue.filterMap _ = []; rw [hq]; rfl
          simp [Store.step, St.loopRaise, this] at h
        | cons x q =>
          cases x with
          | tok =>
            exfalso
            have : (m.view k).queue = .tok :: q.filterMap (MItem.for k) := by
              simp [Multi.view, hq, MItem.for, Part.join]
            simp [Store.step, St.loopRaise, this] at h
          | of j y =>
            by_cases hj : j = k
            · subst hj
              have e1 : m.enter j .loopRaise = { m.view j with queue := [y] } := by
                simp [Multi.enter, hq, MItem.for, Multi.view, Part.join]
              have e2 : m.view j = { m.view j with queue := y :: q.filterMap (MItem.for j) } := by
                simp [Multi.view, hq, MItem.for, Part.join]
              rw [e2] at h
              simp only [Store.step] at h
              rw [pre_loopRaise, Option.map_eq_some_iff] at h
              obtain ⟨s1, hs, _⟩ := h
              exact ⟨s1, ⟨y, q, hq⟩, by rw [e1]; exact hs⟩
            · exact absurd (by rw [hq]; exact List.mem_cons_self) (h4 j y hj)
      · have h' := h
        rw [← (enter_other m k e1 e2).1, pre_step (c k) _ _ op e1 e2, Option.map_eq_some_iff] at h'
        obtain ⟨s1, hs, _⟩ := h'
        refine ⟨s1, ?_, hs⟩
        cases op with
        | loop => exact absurd rfl e1
        | loopRaise => exact absurd rfl e2
        | other l => exact hmine l
        | fut o =>
          simp only [Store.step] at h
          split at h
          · rename_i ha
            refine hjk _ ?_ ?_
            · cases o <;> exact ha
            · intro j hj
              rw [h3 j hj]
              have h5 := start_part_own (c j) m.fu []
              have h6 := start_part_tagged (c j) m.fu []
              cases o with
              | run l => exact ha
              | newPair => trivial
              | invalid => trivial
              | lib => trivial
              | copyP i => exact (h5 i).1
              | copyF i => exact (h5 i).2
              | fulfil i => exact (h5 i).1
              | «then» i f => exact (h5 i).2
              | thenP i j => exact ⟨(h5 i).2, (h5 j).1⟩
              | also i j => exact ⟨(h5 i).2, (h5 j).2⟩
              | retV n => exact h6 n
              | retF n i => exact ⟨h6 n, (h5 i).2⟩
              | raise n => exact h6 n
          · cases h
        | prim n o =>
          intro i hi
          refine hjk _ ?_ ?_
          · simp only [Store.step] at h
            split at h
            · split at h
              · rename_i hh
                exact (hh.2 i hi).1
              · cases h
            · cases h
          · intro j hj
            rw [h3 j hj]
            exact (start_part_own (c j) m.fu [] i).2
        | _ => trivial

/-- C98: an effect of one store may dispatch to another and return the future: when the future of its own
dispatch is fulfilled, the other store has evaluated the action, its watchers have seen the result if it is
not transactional, and the effect of that action, if there is one, has been called and is over. -/
theorem C98_waits {c : (k : K) → Cfg (A k) (Mo k)} {m : Multi A Mo} (r : Multi.Reach c m) (hu : m.fu.ub = false)
    {j k : K} (hc : (c j).sound) (hb : (c j).built) (hF : (c j).hasF = true) (hc' : (c k).sound)
    (hb' : (c k).built) (hF' : (c k).hasF = true) {d s d' g : Nat} {a : A j} {b : A k}
    (ha : SEv.dispatched d a ∈ evsOf j m.hist) (hp : Promised (m.view j) d s) (hd : Future.Fulfilled m.fu s)
    (hw : WaitsFor m j d g)
    (ha' : SEv.dispatched d' b ∈ evsOf k m.hist) (hp' : Promised (m.view k) d' g) :
    ∃ n n' e, SEv.reduced d' n b n' e ∈ evsOf k m.hist ∧
      ((c k).trans = false → ∃ l1 l2, evsOf k m.hist = l1 ++ .ready d' :: l2 ∧ SEv.reduced d' n b n' e ∈ l1 ∧
        lastShown (c k).init l1 = fold (c k) (reductions l1)) ∧
      (e.isEmpty = false → ∃ x o, SEv.effStart d' x e ∈ evsOf k m.hist ∧ SEv.effEnd d' o ∈ evsOf k m.hist ∧
        (∀ g, o = some g → Future.Fulfilled m.fu g) ∧ ran x (evsOf k m.hist) = e.acts ∧ Settled (m.view k) x) := by
  obtain ⟨r1, l1⟩ := C98_alone r j
  obtain ⟨r2, l2⟩ := C98_alone r k
  obtain ⟨x, e, pos, w1, w2⟩ := hw
  rw [← l1] at ha w1 w2
  rw [← l2] at ha'
  rw [← l2]
  refine C52_after hc' hb' hF' r2 hu ha' hp' ?_
  obtain ⟨n, n', e', k1, _, k2⟩ := C52_after hc hb hF r1 hu ha hp hd
  have hne : e'.isEmpty = false := by
    obtain ⟨a2, e2, ⟨y, y', h3⟩, h4⟩ := (C49_once hc r1 d).2.2 (by
      refine Nat.pos_of_ne_zero fun h0 => ?_
      have : ∀ l : List (SEv (A j) (Mo j)), effRuns d l = 0 → SEv.effStart d x e ∉ l := by
        intro l
        induction l with
        | nil => intro _ h; cases h
        | cons y l ih =>
          intro h1 h2
          rcases List.mem_cons.1 h2 with rfl | h2
          · simp [effRuns] at h1
          · refine ih ?_ h2
            cases y <;> simp [effRuns] at h1 <;> first | exact h1 | exact h1.2
      exact this _ h0 w1)
    cases (reduced_unique hc r1 k1 h3)
    exact h4
  obtain ⟨x', o, k3, _, _, _, k4⟩ := k2 hne
  obtain ⟨rfl, rfl⟩ := call_unique hc r1 w1 k3
  have sq := (r1.seq hb hu).s
  have h2 : 0 < rc (m.view j).log x pos := rc_pos.2 ⟨_, w2⟩
  have h1 := sq.bal x pos
  obtain ⟨id, h3⟩ := pc_pos.1 (show 0 < pc (m.view j).log x pos by omega)
  obtain ⟨r', h4, h5⟩ := k4 pos id h3
  exact h5 g (sq.ret_unique h4 w2)

/-- C98: no dispatch is left hanging: if effects return no other futures than fulfilled ones and those of
actions that were dispatched, to any store, after the one that they are the effect of (in particular by
themselves), and nothing throws, then when nothing is left to do the futures of all dispatches are fulfilled. -/
theorem C98_live {c : (k : K) → Cfg (A k) (Mo k)} {m : Multi A Mo} (r : Multi.Reach c m) (hu : m.fu.ub = false)
    (hc : ∀ k, (c k).sound) (hb : ∀ k, (c k).built) (hF : ∀ k, (c k).hasF = true) (hq : m.quiet) (ht : m.calm)
    (hw : ∀ l1 k d a l2 g, m.hist = l1 ++ ⟨k, .dispatched d a⟩ :: l2 → WaitsFor m k d g → Future.Fulfilled m.fu g ∨
      ∃ j d' b, ⟨j, .dispatched d' b⟩ ∈ l2 ∧ Promised (m.view j) d' g)
    (k : K) (d s : Nat) (a : A k) (hd : SEv.dispatched d a ∈ evsOf k m.hist) (hp : Promised (m.view k) d s) :
    Future.Fulfilled m.fu s := by
  have key : ∀ n l1 k d a l2 s, l2.length < n → m.hist = l1 ++ ⟨k, .dispatched d a⟩ :: l2 → Promised (m.view k) d s →
      Future.Fulfilled m.fu s := by
    intro n
    induction n with
    | zero => intro l1 k d a l2 s h; exact absurd h (Nat.not_lt_zero _)
    | succ n ih =>
      intro l1 k d a l2 s hn hl hp
      obtain ⟨r1, e1⟩ := C98_alone r k
      have hqk : (m.view k).quiet := ⟨hq.2.1, hq.2.2.1, hq.2.2.2 k⟩
      have hi : (m.view k).idle := by
        show m.queue.filterMap _ = []
        rw [hq.1]; rfl
      obtain ⟨t1, t2, t3⟩ := ht k
      refine C52_completes (hc k) (hF k) r1 hu hi hqk hp (t1 d) (t2 d) (fun x e _ => t3 x) ?_
      intro g hg
      have sq := r1.seq (hb k) hu
      obtain ⟨x, e, h6, h7⟩ := sq.s.ended d (some g) hg
      refine path_done r1 hu sq hqk.1 hqk.2.1 h6 (t3 x) ?_ _ _ 1 g (Nat.le_refl _) h7
      intro pos g' hg'
      rcases hw l1 k d a l2 g' hl ⟨x, e, pos, by rw [← e1]; exact h6, by rw [← e1]; exact hg'⟩ with h | ⟨j, d', b, hm, hp'⟩
      · exact h
      · obtain ⟨l3, l4, rfl⟩ := List.append_of_mem hm
        refine ih (l1 ++ ⟨k, .dispatched d a⟩ :: l3) j d' b l4 g' ?_ ?_ hp'
        · simp at hn; omega
        · rw [hl]; simp
  have hd' : (⟨k, .dispatched d a⟩ : Sigma fun k => SEv (A k) (Mo k)) ∈ m.hist := by
    generalize m.hist = l at hd
    induction l with
    | nil => cases hd
    | cons y l ih =>
      obtain ⟨j, e⟩ := y
      by_cases hj : j = k
      · subst hj
        simp only [evsOf, dif_pos] at hd
        rcases List.mem_cons.1 hd with h | h
        · cases h; exact List.mem_cons_self
        · exact List.mem_cons_of_mem _ (ih h)
      · simp only [evsOf, dif_neg hj] at hd
        exact List.mem_cons_of_mem _ (ih hd)
  obtain ⟨l1, l2, hl⟩ := List.append_of_mem hd'
  exact key (l2.length + 1) l1 k d a l2 s (Nat.lt_succ_self _) hl hp

/-! ### Examples

Two stores with the names `false` and `true`, and integers as actions and models.  An action that is 0 has an
effect; what it returns is up to the examples. -/

/-- `Multi.mine`, for a list of all stores. -/
def Multi.mineb (ks : List K) (m : Multi A Mo) (k : K) (l : Nat) : Bool :=
  match m.fu.queue l with
  | [] => true
  | t :: _ => ks.all fun j => decide (j = k) || ((m.part j).tag t.c).isNone

/-- `Multi.guard`, for a list of all stores. -/
def Multi.guardb (ks : List K) (m : Multi A Mo) (k : K) : SOp (A k) → Bool
  | .loop =>
    match m.queue with
    | [] => false
    | .tok :: _ => m.mineb ks k 0
    | .of j _ :: _ => decide (j = k)
  | .loopRaise =>
    match m.queue with
    | .of j _ :: _ => decide (j = k)
    | _ => false
  | .other l => m.mineb ks k l
  | .fut op => ks.all fun j => decide (((m.part j).join m.fu []).allowed op)
  | .prim _ o =>
    match o with
    | none => true
    | some i => ks.all fun j => !decide (((m.part j).join m.fu []).held i)
  | _ => true

theorem Multi.mineb_mine {ks : List K} (hk : ∀ k, k ∈ ks) {m : Multi A Mo} {k : K} {l : Nat}
    (h : m.mineb ks k l = true) : m.mine k l := by
  intro t q hq j hj
  unfold Multi.mineb at h
  rw [hq] at h
  have := List.all_eq_true.1 h j (hk j)
  simpa [hj] using this

theorem Multi.guardb_guard {ks : List K} (hk : ∀ k, k ∈ ks) {m : Multi A Mo} {k : K} {op : SOp (A k)}
    (h : m.guardb ks k op = true) : m.guard k op := by
  cases op with
  | loop =>
    unfold Multi.guardb at h
    dsimp only at h
    split at h
    · cases h
    · rename_i q hq
      exact ⟨.tok, q, hq, Multi.mineb_mine hk h⟩
    · rename_i j y q hq
      exact ⟨.of j y, q, hq, of_decide_eq_true h⟩
  | loopRaise =>
    unfold Multi.guardb at h
    dsimp only at h
    split at h
    · rename_i j y q hq
      have := of_decide_eq_true h
      subst this
      exact ⟨y, q, hq⟩
    · cases h
  | other l => exact Multi.mineb_mine hk h
  | fut o => exact fun j => of_decide_eq_true (List.all_eq_true.1 h j (hk j))
  | prim n o =>
    rintro i rfl j
    have := List.all_eq_true.1 h j (hk j)
    simpa using this
  | _ => trivial

/-- Several steps. -/
def Multi.exec (ks : List K) (c : (k : K) → Cfg (A k) (Mo k)) (m : Multi A Mo) : List (Sigma fun k => SOp (A k)) →
    Option (Multi A Mo)
  | [] => some m
  | ⟨k, op⟩ :: ops =>
    if m.guardb ks k op then
      (Store.step (c k) (m.enter k op) op).bind fun s => Multi.exec ks c (m.leave k op s) ops
    else none

theorem Multi.exec_reach {ks : List K} (hk : ∀ k, k ∈ ks) {c : (k : K) → Cfg (A k) (Mo k)} {m m' : Multi A Mo}
    {ops : List (Sigma fun k => SOp (A k))} (r : Multi.Reach c m) (h : Multi.exec ks c m ops = some m') :
    Multi.Reach c m' := by
  induction ops generalizing m with
  | nil => cases h; exact r
  | cons op ops ih =>
    obtain ⟨k, op⟩ := op
    simp only [Multi.exec] at h
    split at h
    · rename_i hg
      simp only [Option.bind_eq_some_iff] at h
      obtain ⟨s, h1, h2⟩ := h
      exact ih (.step k op r ⟨Multi.guardb_guard hk hg, s, h1, rfl⟩) h2
    · cases h

def exTwo : (k : Bool) → Cfg Nat Nat := fun _ => {
  reducer := fun m a => (m + a, if a = 0 then .prim 7 else .empty)
  changed := fun v w => v != w
  trans := false
  hasF := true
  init := 10 }

def exTwoSt (ops : List (Sigma fun _ : Bool => SOp Nat)) : Multi (fun _ : Bool => Nat) (fun _ => Nat) :=
  (Multi.exec [false, true] exTwo (Multi.start exTwo) ops).getD (Multi.start exTwo)

theorem exTwo_reach {ops : List (Sigma fun _ : Bool => SOp Nat)}
    (h : (Multi.exec [false, true] exTwo (Multi.start exTwo) ops).isSome = true) :
    Multi.Reach exTwo (exTwoSt ops) := by
  obtain ⟨m, hm⟩ := Option.isSome_iff_exists.1 h
  unfold exTwoSt
  rw [hm]
  exact Multi.exec_reach (by decide) .start hm

/-- The effect of the first action, of store `false`, dispatches 5 to store `true`, which has got another action
before, and returns the future; everything is run. -/
def exTwoOps : List (Sigma fun _ : Bool => SOp Nat) :=
  [⟨false, .dispatch 0⟩, ⟨true, .dispatch 3⟩, ⟨false, .loop⟩, ⟨true, .loop⟩, ⟨false, .loop⟩, ⟨false, .go 0⟩,
   ⟨true, .dispatch 5⟩, ⟨false, .prim 0 (some 2)⟩, ⟨false, .go 0⟩, ⟨true, .loop⟩, ⟨true, .loop⟩, ⟨true, .loop⟩,
   ⟨true, .loop⟩, ⟨true, .fut (.lib 0)⟩, ⟨true, .fut (.lib 0)⟩]

/-- Each of two stores has an action whose effect returns the future of the other one. -/
def exCircleOps : List (Sigma fun _ : Bool => SOp Nat) :=
  [⟨false, .dispatch 0⟩, ⟨true, .dispatch 0⟩, ⟨false, .loop⟩, ⟨true, .loop⟩, ⟨false, .loop⟩, ⟨true, .loop⟩,
   ⟨false, .go 0⟩, ⟨true, .go 0⟩, ⟨false, .prim 0 (some 1)⟩, ⟨true, .prim 0 (some 0)⟩, ⟨false, .go 0⟩, ⟨true, .go 0⟩]

theorem exTwo_sound (k : Bool) : (exTwo k).sound := by
  intro v w h
  simpa [exTwo] using h

theorem exTwo_built (k : Bool) : (exTwo k).built := by
  intro m a
  show Built (if a = 0 then .prim 7 else .empty)
  split
  · exact .prim 7
  · exact .empty

theorem exTwo_quiet {m : Multi (fun _ : Bool => Nat) (fun _ => Nat)} (r : Multi.Reach exTwo m) (hu : m.fu.ub = false)
    (h : (List.range m.fu.size).all (fun s => (m.fu.cell s).loop == 0) = true) (hq : m.queue.isEmpty = true)
    (h0 : (m.fu.queue 0).isEmpty = true) (ha : m.fu.active.isEmpty = true) (hf : (m.part false).ev.isEmpty = true)
    (ht : (m.part true).ev.isEmpty = true) : m.quiet := by
  have hev : ∀ k, (m.part k).ev = [] := by
    intro k
    cases k
    · exact List.isEmpty_iff.1 hf
    · exact List.isEmpty_iff.1 ht
  have := quiet_of (((C98_alone r false).1.seq (exTwo_built false) hu).fi) h h0 ha hf
  exact ⟨List.isEmpty_iff.1 hq, this.1, this.2.1, hev⟩

theorem exTwo_calm {m : Multi (fun _ : Bool => Nat) (fun _ => Nat)} (r : Multi.Reach exTwo m)
    (h : ∀ k, ((evsOf k m.hist).all fun e => match e with
      | .reduceThrew _ _ _ => false
      | .lost _ _ => false
      | .primThrew _ _ => false
      | _ => true) = true) : m.calm := by
  intro k
  have hl := (C98_alone r k).2
  have h := List.all_eq_true.1 (h k)
  refine ⟨?_, ?_, ?_⟩
  · rintro d ⟨n, a, hm⟩
    rw [hl] at hm
    have := h _ hm
    cases this
  · rintro d ⟨e, hm⟩
    rw [hl] at hm
    have := h _ hm
    cases this
  · rintro x ⟨pos, hm⟩
    rw [hl] at hm
    have := h _ hm
    cases this

/-- C98: without this, dispatches may be left hanging: two effects that return the futures of each other's
dispatches wait for ever. -/
theorem C98_circular : ∃ m : Multi (fun _ : Bool => Nat) (fun _ => Nat), Multi.Reach exTwo m ∧ m.fu.ub = false ∧
    m.quiet ∧ m.calm ∧ SEv.dispatched 0 0 ∈ evsOf false m.hist ∧ SEv.dispatched 0 0 ∈ evsOf true m.hist ∧
    Promised (m.view false) 0 0 ∧ Promised (m.view true) 0 1 ∧ WaitsFor m false 0 1 ∧ WaitsFor m true 0 0 ∧
    ¬ Future.Fulfilled m.fu 0 ∧ ¬ Future.Fulfilled m.fu 1 := by
  have r : Multi.Reach exTwo (exTwoSt exCircleOps) := exTwo_reach (by decide +kernel)
  refine ⟨exTwoSt exCircleOps, r, by decide +kernel, ?_, ?_, by decide +kernel, by decide +kernel,
    ⟨0, by decide +kernel⟩, ⟨1, by decide +kernel⟩, ⟨0, .prim 7, 0, by decide +kernel, by decide +kernel⟩,
    ⟨0, .prim 7, 0, by decide +kernel, by decide +kernel⟩, ?_, ?_⟩
  · exact exTwo_quiet r (by decide +kernel) (by decide +kernel) (by decide +kernel) (by decide +kernel)
      (by decide +kernel) (by decide +kernel) (by decide +kernel)
  · exact exTwo_calm r (by decide +kernel)
  · unfold Future.Fulfilled; decide +kernel
  · unfold Future.Fulfilled; decide +kernel

/-- The hypotheses of `C98_alone`, `C98_order` and `C98_fold`. -/
example : Multi.Reach exTwo (exTwoSt exTwoOps) ∧ (exTwoSt exTwoOps).queue.isEmpty = true ∧
    mdisp (exTwoSt exTwoOps).hist = [(false, 0), (true, 0), (true, 1)] ∧
    ((exTwoSt exTwoOps).view false).get = 10 ∧ ((exTwoSt exTwoOps).view true).get = 18 ∧
    dispatches (evsOf true (exTwoSt exTwoOps).hist) = [3, 5] ∧
    mpend (exTwoSt (exTwoOps.take 3)).queue = [(true, 0)] :=
  ⟨exTwo_reach (by decide +kernel), by decide +kernel⟩

/-- Those of `C98_waits`. -/
example : (exTwoSt exTwoOps).fu.ub = false ∧ SEv.dispatched 0 0 ∈ evsOf false (exTwoSt exTwoOps).hist ∧
    Promised ((exTwoSt exTwoOps).view false) 0 0 ∧ Future.Fulfilled (exTwoSt exTwoOps).fu 0 ∧
    WaitsFor (exTwoSt exTwoOps) false 0 2 ∧ SEv.dispatched 1 5 ∈ evsOf true (exTwoSt exTwoOps).hist ∧
    Promised ((exTwoSt exTwoOps).view true) 1 2 :=
  ⟨by decide +kernel, by decide +kernel, ⟨0, by decide +kernel⟩, by unfold Future.Fulfilled; decide +kernel,
    ⟨0, .prim 7, 0, by decide +kernel, by decide +kernel⟩, by decide +kernel, ⟨2, by decide +kernel⟩⟩

/-- Those of `C98_live`. -/
example : (exTwoSt exTwoOps).quiet ∧ (exTwoSt exTwoOps).calm ∧
    ∀ l1 k d a l2 g, (exTwoSt exTwoOps).hist = l1 ++ ⟨k, .dispatched d a⟩ :: l2 → WaitsFor (exTwoSt exTwoOps) k d g →
      Future.Fulfilled (exTwoSt exTwoOps).fu g ∨
      ∃ j d' b, ⟨j, .dispatched d' b⟩ ∈ l2 ∧ Promised ((exTwoSt exTwoOps).view j) d' g := by
  have r : Multi.Reach exTwo (exTwoSt exTwoOps) := exTwo_reach (by decide +kernel)
  refine ⟨exTwo_quiet r (by decide +kernel) (by decide +kernel) (by decide +kernel) (by decide +kernel)
      (by decide +kernel) (by decide +kernel) (by decide +kernel), exTwo_calm r (by decide +kernel), ?_⟩
  rintro l1 k d a l2 g hl ⟨x, e, pos, h1, h2⟩
  have f1 : ∀ k, ((evsOf k (exTwoSt exTwoOps).hist).all fun e => match e with
      | .primRet _ _ (some g) => decide (k = false ∧ g = 2)
      | .effStart d _ _ => decide (d = 0)
      | _ => true) = true := by decide +kernel
  have f2 : ((List.range (exTwoSt exTwoOps).hist.length).all fun i => match (exTwoSt exTwoOps).hist[i]? with
      | some ⟨false, .dispatched 0 _⟩ => decide (i = 0)
      | _ => true) = true := by decide +kernel
  have g1 := of_decide_eq_true (List.all_eq_true.1 (f1 k) _ h1)
  obtain ⟨rfl, rfl⟩ := of_decide_eq_true (List.all_eq_true.1 (f1 k) _ h2)
  subst g1
  have g2 := List.all_eq_true.1 f2 l1.length (List.mem_range.2 (by rw [hl]; simp))
  have g3 : (exTwoSt exTwoOps).hist[l1.length]? = some ⟨false, .dispatched 0 a⟩ := by rw [hl]; simp
  rw [g3] at g2
  have g4 : l1 = [] := List.length_eq_zero_iff.1 (of_decide_eq_true g2)
  subst g4
  have g5 : l2 = (exTwoSt exTwoOps).hist.tail := by rw [hl]; rfl
  rw [g5]
  exact .inr ⟨true, 1, 5, by decide +kernel, ⟨2, by decide +kernel⟩⟩

end Verif.Store
