import Verif.Store.MultiSim

/-! Each store on a loop is a store of its own. -/

namespace Verif.Store

section One

variable {A Mo : Type}

/-- What a step adds to the log and to the queue. -/
def Adds (s s' : St A Mo) : Prop :=
  ∃ es, s'.log = s.log ++ es ∧ red es = [] ∧ pend s'.queue = pend s.queue ++ disp es

theorem Adds.toks {s s' : St A Mo} (h : Toks s s') : Adds s s' := by
  obtain ⟨n, hn⟩ := h.queue
  exact ⟨[], by simp [h.log], rfl, by simp [hn, pend_append, pend_toks, disp]⟩

theorem Adds.one {s s' t : St A Mo} (h : Toks t s') (e : SEv A Mo) (h1 : t.log = s.log ++ [e]) (h2 : red [e] = [])
    (h3 : disp [e] = []) (h4 : t.queue = s.queue) : Adds s s' := by
  obtain ⟨n, hn⟩ := h.queue
  exact ⟨[e], by rw [h.log, h1], h2, by simp [hn, pend_append, pend_toks, h3, h4]⟩

theorem shown_adds {es : List (SEv A Mo)} (h : ∀ e ∈ es, ∃ v, e = .shown v) : red es = [] ∧ disp es = [] := by
  induction es with
  | nil => exact ⟨rfl, rfl⟩
  | cons e es ih =>
    obtain ⟨v, rfl⟩ := h e List.mem_cons_self
    exact ih (fun e he => h e (List.mem_cons_of_mem _ he))

theorem publish_adds (c : Cfg A Mo) (s : St A Mo) : ∃ es, (s.publish c).log = s.log ++ es ∧ red es = [] ∧ disp es = [] := by
  unfold St.publish
  split
  · exact ⟨[], by simp, rfl, rfl⟩
  · obtain ⟨es, h1, h2⟩ := notify_log s
    exact ⟨es, h1, shown_adds h2⟩

theorem step_adds {c : Cfg A Mo} {s s' : St A Mo} {op : SOp A} (h : Store.step c s op = some s') (h1 : op ≠ .loop)
    (h2 : op ≠ .loopRaise) : Adds s s' := by
  cases op with
  | dispatch a =>
    simp only [Store.step, St.dispatch, Option.map_eq_some_iff] at h
    obtain ⟨s1, h1, rfl⟩ := h
    have k := fstep_toks h1
    obtain ⟨n, hn⟩ := k.queue
    refine ⟨[.dispatched s.sent.length a], ?_, rfl, ?_⟩
    · show s1.log ++ _ = _
      rw [k.log]
    · show pend (s1.queue ++ [_]) = _
      simp [hn, pend_append, pend_toks, pend, disp]
  | loop => exact absurd rfl h1
  | loopRaise => exact absurd rfl h2
  | other l =>
    simp only [Store.step] at h
    split at h
    · cases h
    · exact .toks (runTask_toks h)
  | fut op =>
    simp only [Store.step] at h
    split at h
    · exact .toks (fstep_toks h)
    · cases h
  | go n =>
    simp only [Store.step] at h
    split at h
    · cases h
    · rename_i f hf
      have nil : ∀ t : St A Mo, t.log = s.log → t.queue = s.queue → Adds s t := fun t e1 e2 =>
        ⟨[], by simp [e1], rfl, by simp [e2, disp]⟩
      have mk : ∀ {u t : St A Mo}, Toks u t → u.log = s.log → u.queue = s.queue → Adds s t := by
        intro u t h e1 e2
        obtain ⟨n, hn⟩ := h.queue
        exact ⟨[], by simp [h.log, e1], rfl, by simp [hn, pend_append, pend_toks, disp, e2]⟩
      unfold St.go at h
      dsimp only at h
      split at h
      · cases h
      · cases h; exact nil _ rfl rfl
      · cases h; exact .one (.refl _) (.prim _ _ _) rfl rfl rfl rfl
      · cases h; exact nil _ rfl rfl
      · cases h
      · split at h
        · split at h
          · simp only [Option.map_eq_some_iff] at h
            obtain ⟨s1, h1, rfl⟩ := h
            obtain ⟨n, hn⟩ := (fstep_toks h1).queue
            refine ⟨[], ?_, rfl, ?_⟩
            · show s1.log = _
              rw [(fstep_toks h1).log]; simp
            · show pend s1.queue = _
              rw [hn]; simp [pend_append, pend_toks, disp]
          · cases h; exact nil _ rfl rfl
        · split at h
          · rename_i d i _
            split at h
            · split at h
              · exact .one (fstep_toks h) (.effEnd _ _) rfl rfl rfl rfl
              · exact .one (fstep_toks h) (.effEnd _ _) rfl rfl rfl rfl
            · cases h; exact .one (.refl _) (.effEnd _ _) rfl rfl rfl rfl
          · simp only [Option.bind_eq_some_iff] at h
            obtain ⟨n, _, h⟩ := h
            split at h
            · exact mk (fstep_toks h) rfl rfl
            · simp only [Option.bind_eq_some_iff] at h
              obtain ⟨s1, h1, h2⟩ := h
              exact mk ((fstep_toks h1).trans (fstep_toks h2)) rfl rfl
  | prim n o =>
    simp only [Store.step] at h
    split at h
    · split at h
      · cases h; exact .one (.refl _) (.primRet _ _ _) rfl rfl rfl rfl
      · cases h
    · cases h
  | raise n =>
    simp only [Store.step] at h
    split at h
    · cases h; exact .one (.refl _) (.primThrew _ _) rfl rfl rfl rfl
    · simp only [Option.bind_eq_some_iff] at h
      obtain ⟨m, _, h⟩ := h
      exact .one (fstep_toks h) (.primThrew _ _) rfl rfl rfl rfl
    · cases h
  | commit =>
    simp only [Store.step] at h
    split at h
    · cases h
      obtain ⟨es, h1, h2⟩ := notify_log s
      obtain ⟨h3, h4⟩ := shown_adds h2
      refine ⟨es, h1, h3, ?_⟩
      rw [(notify_same s).2.2.2.2.1, h4, List.append_nil]
    · cases h

/-- What a task adds. -/
theorem loop_adds {c : Cfg A Mo} {s s' : St A Mo} {x : Item A} (h : Store.step c s .loop = some s')
    (hq : s.queue = [x]) : ∃ es, s'.log = s.log ++ es ∧ disp es = [] ∧ pend s'.queue = [] ∧ red es = pend [x] := by
  simp only [Store.step, St.loop] at h
  split at h
  · cases h
  · rename_i d a i q hq'
    rw [hq] at hq'
    cases hq'
    split at h
    · cases h
      exact ⟨[.reduceThrew d s.cur a], rfl, rfl, rfl, rfl⟩
    · simp only [Option.map_eq_some_iff] at h
      obtain ⟨s1, h1, rfl⟩ := h
      have e5 := (pushDown_same c s1 (c.reducer s.cur a).1).2.2.2.2.1
      have el : (s1.pushDown c (c.reducer s.cur a).1).log = s1.log := by unfold St.pushDown; split <;> rfl
      have h2 : s1.log = s.log ∧ pend s1.queue = [] := by
        split at h1
        · split at h1
          · have k := complete_toks h1
            obtain ⟨n, hn⟩ := k.queue
            exact ⟨k.log, by rw [hn]; simp [pend_toks]⟩
          · cases h1; exact ⟨rfl, rfl⟩
        · cases h1; exact ⟨rfl, rfl⟩
      refine ⟨[.reduced d s.cur a (c.reducer s.cur a).1 (c.reducer s.cur a).2], ?_, rfl, ?_, rfl⟩
      · show (s1.pushDown c _).log ++ _ = _
        rw [el, h2.1]
      · show pend (s1.pushDown c _).queue = _
        rw [e5, h2.2]
  · rename_i d e i q hq'
    rw [hq] at hq'
    cases hq'
    cases h
    obtain ⟨es, h1, h2, h3⟩ := publish_adds c { s with queue := ([] : List (Item A)) }
    refine ⟨es ++ [.ready d, .effStart d s.nx e], ?_, ?_, ?_, ?_⟩
    · show ((St.publish c { s with queue := [] }).log ++ _) ++ _ = _
      rw [h1]; simp
    · simp [disp_append, h3, disp]
    · show pend (St.publish c { s with queue := [] }).queue = _
      rw [(publish_same c _).2.2.2.2.1]; rfl
    · simp [red_append, h2, red, pend]
  · rename_i d i q hq'
    rw [hq] at hq'
    cases hq'
    obtain ⟨es, h1, h2, h3⟩ := publish_adds c { s with queue := ([] : List (Item A)) }
    have k := complete_toks h
    obtain ⟨n, hn⟩ := k.queue
    refine ⟨es ++ [.ready d], ?_, ?_, ?_, ?_⟩
    · rw [k.log]
      show (St.publish c { s with queue := [] }).log ++ _ = _
      rw [h1]; simp
    · simp [disp_append, h3, disp]
    · rw [hn]
      show pend ((St.publish c { s with queue := [] }).queue ++ _) = _
      rw [(publish_same c _).2.2.2.2.1]
      simp [pend_toks]
    · simp [red_append, h2, red, pend]
  · rename_i q hq'
    rw [hq] at hq'
    cases hq'
    have k := runTask_toks h
    obtain ⟨n, hn⟩ := k.queue
    exact ⟨[], by rw [k.log]; simp, rfl, by rw [hn]; simp [pend_toks], rfl⟩

theorem loopRaise_adds {c : Cfg A Mo} {s s' : St A Mo} {x : Item A} (h : Store.step c s .loopRaise = some s')
    (hq : s.queue = [x]) : ∃ es, s'.log = s.log ++ es ∧ disp es = [] ∧ pend s'.queue = [] ∧ red es = pend [x] := by
  obtain ⟨y, q, d, o, hq', hx, ht, _, rfl⟩ := loopRaise_some h
  rw [hq] at hq'
  cases hq'
  obtain ⟨es, h1, h2, h3⟩ := publish_adds c { s with queue := ([] : List (Item A)) }
  refine ⟨es ++ [.lost d o], ?_, ?_, ?_, ?_⟩
  · show (St.publish c { s with queue := [] }).log ++ _ = _
    rw [h1]; simp
  · simp [disp_append, h3, disp]
  · show pend (St.publish c { s with queue := [] }).queue = _
    rw [(publish_same c _).2.2.2.2.1]; rfl
  · have : pend [x] = [] := by rcases hx with ⟨e, i, rfl, _⟩ | ⟨i, rfl, _⟩ <;> rfl
    simp [red_append, h2, red, this]

end One

variable {K : Type} [DecidableEq K] {A Mo : K → Type}

theorem mark_for (k : K) (x : Item (A k)) : (mark k x).for k = some x := by
  cases x <;> simp [mark, MItem.for]

theorem marks_for (k : K) (l : List (Item (A k))) : (l.map (mark k)).filterMap (MItem.for k) = l := by
  induction l with
  | nil => rfl
  | cons x l ih => rw [List.map_cons, List.filterMap_cons_some (mark_for k x), ih]

theorem of_for {j k : K} (h : k ≠ j) (x : Item (A k)) : (MItem.of k x : MItem A).for j = none := by
  simp [MItem.for, h]

theorem marks_other {j k : K} (h : k ≠ j) (l : List (Item (A k))) :
    (l.map (mark k)).filterMap (MItem.for j) = List.replicate (ntok l) (.tok : Item (A j)) := by
  induction l with
  | nil => rfl
  | cons x l ih =>
    rw [List.map_cons, List.filterMap_cons, ih]
    cases x with
    | tok => simp [mark, MItem.for, ntok, List.replicate_succ]
    | reduce d a i => simp [mark, of_for h, ntok]
    | effect d a i => simp [mark, of_for h, ntok]
    | publish d i => simp [mark, of_for h, ntok]

theorem leave_part (m : Multi A Mo) (k : K) (op : SOp (A k)) (s : St (A k) (Mo k)) :
    (m.leave k op s).part k = s.part := by
  simp [Multi.leave]

theorem leave_part_other (m : Multi A Mo) {j k : K} (h : k ≠ j) (op : SOp (A k)) (s : St (A k) (Mo k)) :
    (m.leave k op s).part j = m.part j := by
  simp [Multi.leave, Ne.symm h]

/-- The store that has done something, afterwards. -/
theorem view_leave (m : Multi A Mo) (k : K) (op : SOp (A k)) (s : St (A k) (Mo k)) :
    (m.leave k op s).view k = s.pre ((m.rest k op).filterMap (MItem.for k)) := by
  unfold Multi.view
  rw [leave_part]
  show s.part.join s.fu ((m.rest k op ++ s.queue.map (mark k)).filterMap (MItem.for k)) = _
  rw [List.filterMap_append, marks_for]
  rfl

/-- Any other one. -/
theorem view_leave_other (m : Multi A Mo) {j k : K} (h : k ≠ j) (op : SOp (A k)) (s : St (A k) (Mo k)) :
    (m.leave k op s).view j =
      ({ m.view j with queue := (m.rest k op).filterMap (MItem.for j) } : St (A j) (Mo j)).put s.fu (ntok s.queue) := by
  unfold Multi.view
  rw [leave_part_other m h]
  show (m.part j).join s.fu ((m.rest k op ++ s.queue.map (mark k)).filterMap (MItem.for j)) = _
  rw [List.filterMap_append, marks_other h]
  rfl

/-- What is true of the stores on a loop. -/
structure MInv (c : (k : K) → Cfg (A k) (Mo k)) (m : Multi A Mo) : Prop where
  reach : ∀ k, Reach (c k) (m.view k)
  own : ∀ j k, j ≠ k → ∀ i, (m.view j).own i → ¬ (m.view k).own i
  held : ∀ j k, j ≠ k → ∀ i, (m.view j).held i → ¬ (m.view k).held i
  tag : ∀ j k, j ≠ k → ∀ x, (m.view j).tag x ≠ none → (m.view k).tag x = none
  toks : ∀ k, MItem.of k .tok ∉ m.queue

theorem enter_other (m : Multi A Mo) (k : K) {op : SOp (A k)} (h1 : op ≠ .loop) (h2 : op ≠ .loopRaise) :
    (m.enter k op).pre ((m.rest k op).filterMap (MItem.for k)) = m.view k ∧ (m.enter k op).queue = [] ∧
    m.rest k op = m.queue := by
  cases op with
  | loop => exact absurd rfl h1
  | loopRaise => exact absurd rfl h2
  | _ =>
    refine ⟨?_, rfl, rfl⟩
    simp [Multi.enter, Multi.rest, St.pre, Part.join, Multi.view]

/-- A step of store `k` is one of what it sees. -/
theorem own_step {c : (k : K) → Cfg (A k) (Mo k)} {m : Multi A Mo} {k : K} {op : SOp (A k)} {s : St (A k) (Mo k)}
    (hg : m.guard k op) (h : Store.step (c k) (m.enter k op) op = some s) :
    Store.step (c k) (m.view k) op = some ((m.leave k op s).view k) := by
  rw [view_leave]
  by_cases h1 : op = .loop
  · subst h1
    obtain ⟨x, q, hq, hx⟩ := hg
    have hy : ∃ y, x.for k = some y := by
      cases x with
      | tok => exact ⟨.tok, rfl⟩
      | of j y => subst hx; exact ⟨y, by simp [MItem.for]⟩
    obtain ⟨y, hy⟩ := hy
    have e1 : m.enter k .loop = { m.view k with queue := [y] } := by
      simp [Multi.enter, hq, hy, Multi.view, Part.join]
    have e2 : m.view k = { m.view k with queue := y :: q.filterMap (MItem.for k) } := by
      simp [Multi.view, hq, hy, Part.join]
    rw [e1] at h
    rw [e2]
    show St.loop (c k) _ = _
    rw [pre_loop, show St.loop (c k) { m.view k with queue := [y] } = some s from h]
    simp [Multi.rest, hq]
  · by_cases h2 : op = .loopRaise
    · subst h2
      obtain ⟨y, q, hq⟩ := hg
      have hy : (MItem.of k y : MItem A).for k = some y := by simp [MItem.for]
      have e1 : m.enter k .loopRaise = { m.view k with queue := [y] } := by
        simp [Multi.enter, hq, hy, Multi.view, Part.join]
      have e2 : m.view k = { m.view k with queue := y :: q.filterMap (MItem.for k) } := by
        simp [Multi.view, hq, hy, Part.join]
      rw [e1] at h
      rw [e2]
      show St.loopRaise (c k) _ = _
      rw [pre_loopRaise, show St.loopRaise (c k) { m.view k with queue := [y] } = some s from h]
      simp [Multi.rest, hq]
    · rw [← (enter_other m k h1 h2).1, pre_step (c k) _ _ op h1 h2, h]
      rfl

/-- For another store it is what promises and futures may do, or nothing. -/
theorem other_step {c : (k : K) → Cfg (A k) (Mo k)} {m : Multi A Mo} (i : MInv c m) {j k : K} (hjk : k ≠ j)
    {op : SOp (A k)} {s : St (A k) (Mo k)} (hg : m.guard k op) (h : Store.step (c k) (m.enter k op) op = some s) :
    Steps (c j) (m.view j) ((m.leave k op s).view j) := by
  have bk : Bnd (m.view k) := (i.reach k).bnd
  have bj : Bnd (m.view j) := (i.reach j).bnd
  have hfu : (m.enter k op).fu = m.fu := by cases op <;> rfl
  have hev : (m.enter k op).ev = (m.view k).ev := by cases op <;> rfl
  have hqu : ∀ x ∈ (m.enter k op).queue, x ∈ (m.view k).queue := by
    have h0 : ∀ x ∈ (m.queue.take 1).filterMap (MItem.for k), x ∈ (m.view k).queue := by
      intro x hx
      obtain ⟨y, hy, hyx⟩ := List.mem_filterMap.1 hx
      exact List.mem_filterMap.2 ⟨y, List.mem_of_mem_take hy, hyx⟩
    cases op <;> first | exact h0 | (intro x hx; cases hx)
  have a : Alien (m.enter k op) (m.view j) := by
    refine ⟨hfu.symm, ?_, ?_, bj.held, ?_⟩
    · rintro x hx
      refine i.own k j hjk x (bk.jobs x ?_)
      rcases hx with ⟨y, hy, hd⟩ | hx
      · exact .inl ⟨y, hqu y hy, hd⟩
      · rw [hev] at hx; exact .inr hx
    · intro x hx
      refine i.held k j hjk x ?_
      unfold St.held at hx ⊢
      rw [← hev]; exact hx
    · intro f hf x hx
      rw [hev] at hf
      exact i.tag k j hjk x (bk.clo f hf x hx)
  rw [view_leave_other m hjk]
  have hmine : ∀ l, m.mine k l → ∀ x q, (m.enter k op).fu.queue l = x :: q → (m.view j).tag x.c = none := by
    intro l hm x q hq
    rw [hfu] at hq
    exact hm x q hq j (Ne.symm hjk)
  -- the queue of the other store is the same
  have done : (m.rest k op).filterMap (MItem.for j) = (m.view j).queue → Fol (c j) (m.enter k op) s (m.view j) →
      ntok (m.enter k op).queue = 0 →
      Steps (c j) (m.view j) (({ m.view j with queue := (m.rest k op).filterMap (MItem.for j) } :
        St (A j) (Mo j)).put s.fu (ntok s.queue)) := by
    intro e ⟨n, k1, k2⟩ k3
    rw [k3, Nat.zero_add] at k1
    rw [e, k1]
    exact k2
  by_cases h1 : op = .loop
  · subst h1
    obtain ⟨x, q, hq, hx⟩ := hg
    cases x with
    | tok =>
      have e1 : (m.enter k .loop).queue = [.tok] := by simp [Multi.enter, hq, MItem.for, Part.join]
      have e2 : (m.view j).queue = .tok :: q.filterMap (MItem.for j) := by
        simp [Multi.view, hq, MItem.for, Part.join]
      obtain ⟨n, k1, k2⟩ := fol_tok (c j) a.fu h e1 e2 (hmine 0 hx)
      have e3 : (m.rest k .loop).filterMap (MItem.for j) = q.filterMap (MItem.for j) := by simp [Multi.rest, hq]
      rw [e3, k1, show ntok ([] : List (Item (A k))) = 0 from rfl, Nat.zero_add]
      exact k2
    | of j' y =>
      subst hx
      have hy : y ≠ .tok := by
        rintro rfl
        exact i.toks j' (by rw [hq]; exact List.mem_cons_self)
      have e1 : (m.enter j' .loop).queue = [y] := by simp [Multi.enter, hq, MItem.for, Part.join]
      refine done ?_ (fol_step (c j) a h ?_ (fun o ho => by cases ho) (fun l hl => by cases hl)) ?_
      · simp [Multi.rest, hq, Multi.view, Part.join, of_for hjk]
      · intro _ q' hq'
        rw [e1] at hq'
        cases hq'
        exact hy rfl
      · rw [e1, ntok_cons hy]; rfl
  · by_cases h2 : op = .loopRaise
    · subst h2
      obtain ⟨y, q, hq⟩ := hg
      have hy : y ≠ .tok := by
        rintro rfl
        exact i.toks k (by rw [hq]; exact List.mem_cons_self)
      have e1 : (m.enter k .loopRaise).queue = [y] := by simp [Multi.enter, hq, MItem.for, Part.join]
      refine done ?_ (fol_step (c j) a h (fun h => by cases h) (fun o ho => by cases ho) (fun l hl => by cases hl)) ?_
      · simp [Multi.rest, hq, Multi.view, Part.join, of_for hjk]
      · rw [e1, ntok_cons hy]; rfl
    · obtain ⟨_, e2, e3⟩ := enter_other m k h1 h2
      refine done ?_ (fol_step (c j) a h (fun h => absurd h h1) ?_ ?_) ?_
      · rw [e3]; rfl
      · rintro o rfl
        exact hg j
      · rintro l rfl
        exact hmine l hg
      · rw [e2]; rfl

theorem MInv.step {c : (k : K) → Cfg (A k) (Mo k)} {m m' : Multi A Mo} (i : MInv c m) {k : K} {op : SOp (A k)}
    (h : Multi.Step c m k op m') : MInv c m' := by
  obtain ⟨hg, s, h1, rfl⟩ := h
  have h2 := own_step hg h1
  have f := foot_step h2
  have hp : ∀ j, k ≠ j → ((m.leave k op s).view j).sent = (m.view j).sent ∧
      ((m.leave k op s).view j).ev = (m.view j).ev ∧ ((m.leave k op s).view j).tag = (m.view j).tag := by
    intro j hj
    rw [view_leave_other m hj]
    exact ⟨rfl, rfl, rfl⟩
  have hown : ∀ j, k ≠ j → ∀ x, ((m.leave k op s).view j).own x ↔ (m.view j).own x := by
    intro j hj x; unfold St.own; rw [(hp j hj).1]
  have hheld : ∀ j, k ≠ j → ∀ x, ((m.leave k op s).view j).held x ↔ (m.view j).held x := by
    intro j hj x; unfold St.held; rw [(hp j hj).2.1]
  have kown : ∀ j, k ≠ j → ∀ x, ((m.leave k op s).view k).own x → ¬ (m.view j).own x := by
    intro j hj x hx
    rcases f.own x hx with hx | hx
    · exact i.own k j hj x hx
    · intro hy
      have := (i.reach j).bnd.own x hy
      exact absurd (Nat.lt_of_lt_of_le this hx.1) (Nat.lt_irrefl _)
  have kheld : ∀ j, k ≠ j → ∀ x, ((m.leave k op s).view k).held x → ¬ (m.view j).held x := by
    intro j hj x hx
    rcases f.held x hx with hx | hx | ⟨n, rfl⟩
    · exact i.held k j hj x hx
    · intro hy
      have := (i.reach j).bnd.held x hy
      exact absurd (Nat.lt_of_lt_of_le this hx.1) (Nat.lt_irrefl _)
    · exact hg x rfl j
  have ktag : ∀ j, k ≠ j → ∀ x, ((m.leave k op s).view k).tag x ≠ none → (m.view j).tag x = none := by
    intro j hj x hx
    rcases f.tag x hx with hx | hx
    · exact i.tag k j hj x hx
    · refine Classical.byContradiction fun hy => ?_
      have := (i.reach j).bnd.tag x hy
      exact absurd (Nat.lt_of_lt_of_le this hx.1) (Nat.lt_irrefl _)
  refine ⟨?_, ?_, ?_, ?_, ?_⟩
  · intro j
    by_cases hj : k = j
    · subst hj; exact .step op (i.reach k) h2
    · exact (i.reach j).steps (other_step i hj hg h1)
  · intro j j' hjj x
    by_cases hj : k = j
    · subst hj
      rw [hown j' hjj]
      exact kown j' hjj x
    · rw [hown j hj]
      by_cases hj' : k = j'
      · subst hj'
        exact fun hx hy => kown j hj x hy hx
      · rw [hown j' hj']; exact i.own j j' hjj x
  · intro j j' hjj x
    by_cases hj : k = j
    · subst hj
      rw [hheld j' hjj]
      exact kheld j' hjj x
    · rw [hheld j hj]
      by_cases hj' : k = j'
      · subst hj'
        exact fun hx hy => kheld j hj x hy hx
      · rw [hheld j' hj']; exact i.held j j' hjj x
  · intro j j' hjj x
    by_cases hj : k = j
    · subst hj
      rw [(hp j' hjj).2.2]
      exact ktag j' hjj x
    · rw [(hp j hj).2.2]
      by_cases hj' : k = j'
      · subst hj'
        intro hx
        refine Classical.byContradiction fun hy => hx (ktag j hj x hy)
      · rw [(hp j' hj').2.2]; exact i.tag j j' hjj x
  · intro j hj
    rcases List.mem_append.1 hj with hj | hj
    · refine i.toks j ?_
      cases op <;> first | exact hj | exact List.mem_of_mem_drop hj
    · obtain ⟨y, _, hy⟩ := List.mem_map.1 hj
      cases y <;> cases hy

theorem Multi.Reach.inv {c : (k : K) → Cfg (A k) (Mo k)} {m : Multi A Mo} (r : Multi.Reach c m) : MInv c m := by
  induction r with
  | start =>
    refine ⟨fun k => .start, ?_, ?_, fun _ _ _ x hx => absurd rfl hx, fun k h => by cases h⟩
    · rintro j k _ i ⟨y, hy, _⟩; cases hy
    · rintro j k _ i ⟨y, hy, _⟩; cases hy
  | step k op _ h ih => exact ih.step h

/-! ### The history -/

/-- The events of store `k`. -/
def evsOf (k : K) : List (Sigma fun k => SEv (A k) (Mo k)) → List (SEv (A k) (Mo k))
  | [] => []
  | ⟨j, e⟩ :: l => if h : j = k then (h ▸ e) :: evsOf k l else evsOf k l

theorem evsOf_append (k : K) (l r : List (Sigma fun k => SEv (A k) (Mo k))) : evsOf k (l ++ r) = evsOf k l ++ evsOf k r := by
  induction l with
  | nil => rfl
  | cons x l ih =>
    obtain ⟨j, e⟩ := x
    by_cases h : j = k <;> simp [evsOf, h, ih]

theorem evsOf_mark (k : K) (es : List (SEv (A k) (Mo k))) : evsOf k (es.map (Sigma.mk k)) = es := by
  induction es with
  | nil => rfl
  | cons e es ih => simp [evsOf, ih]

theorem evsOf_other {j k : K} (h : k ≠ j) (es : List (SEv (A k) (Mo k))) : evsOf j (es.map (Sigma.mk k)) = [] := by
  induction es with
  | nil => rfl
  | cons e es ih => simp [evsOf, ih, h]

omit [DecidableEq K] in
theorem mdisp_append (l r : List (Sigma fun k => SEv (A k) (Mo k))) : mdisp (l ++ r) = mdisp l ++ mdisp r := by
  induction l with
  | nil => rfl
  | cons x l ih => obtain ⟨j, e⟩ := x; cases e <;> simp [mdisp, ih]

omit [DecidableEq K] in
theorem mred_append (l r : List (Sigma fun k => SEv (A k) (Mo k))) : mred (l ++ r) = mred l ++ mred r := by
  induction l with
  | nil => rfl
  | cons x l ih => obtain ⟨j, e⟩ := x; cases e <;> simp [mred, ih]

omit [DecidableEq K] in
theorem mpend_append (l r : List (MItem A)) : mpend (l ++ r) = mpend l ++ mpend r := by
  induction l with
  | nil => rfl
  | cons x l ih =>
    cases x with
    | tok => exact ih
    | of j y => cases y <;> simp [mpend, ih]

omit [DecidableEq K] in
theorem mdisp_mark (k : K) (es : List (SEv (A k) (Mo k))) :
    mdisp (es.map (Sigma.mk k) : List (Sigma fun k => SEv (A k) (Mo k))) = (disp es).map (fun y => (k, y.1)) := by
  induction es with
  | nil => rfl
  | cons e es ih => cases e <;> simp [mdisp, disp, ih]

omit [DecidableEq K] in
theorem mred_mark (k : K) (es : List (SEv (A k) (Mo k))) :
    mred (es.map (Sigma.mk k) : List (Sigma fun k => SEv (A k) (Mo k))) = (red es).map (fun y => (k, y.1)) := by
  induction es with
  | nil => rfl
  | cons e es ih => cases e <;> simp [mred, red, ih]

omit [DecidableEq K] in
theorem mpend_mark (k : K) (q : List (Item (A k))) :
    mpend (q.map (mark k) : List (MItem A)) = (pend q).map (fun y => (k, y.1)) := by
  induction q with
  | nil => rfl
  | cons x q ih => cases x <;> simp [mpend, mark, pend, ih]

theorem enter_log (m : Multi A Mo) (k : K) (op : SOp (A k)) : (m.enter k op).log = (m.part k).log := by
  cases op <;> rfl

/-- What a step of store `k` adds to the history. -/
theorem Multi.Step.hist {c : (k : K) → Cfg (A k) (Mo k)} {m m' : Multi A Mo} {k : K} {op : SOp (A k)}
    (h : Multi.Step c m k op m') : ∃ es, m'.hist = m.hist ++ es.map (Sigma.mk k) ∧
      (m'.part k).log = (m.part k).log ++ es ∧ (∀ j, k ≠ j → m'.part j = m.part j) ∧
      (mdisp m.hist = mred m.hist ++ mpend m.queue → mdisp m'.hist = mred m'.hist ++ mpend m'.queue) := by
  obtain ⟨hg, s, h1, rfl⟩ := h
  have mk : ∀ es, s.log = (m.enter k op).log ++ es →
      (mdisp m.hist = mred m.hist ++ mpend m.queue → mdisp (m.hist ++ es.map (Sigma.mk k)) =
        mred (m.hist ++ es.map (Sigma.mk k)) ++ mpend (m.rest k op ++ s.queue.map (mark k))) →
      ∃ es, (m.leave k op s).hist = m.hist ++ es.map (Sigma.mk k) ∧
      ((m.leave k op s).part k).log = (m.part k).log ++ es ∧ (∀ j, k ≠ j → (m.leave k op s).part j = m.part j) ∧
      (mdisp m.hist = mred m.hist ++ mpend m.queue → mdisp (m.leave k op s).hist =
        mred (m.leave k op s).hist ++ mpend (m.leave k op s).queue) := by
    intro es hl ho
    rw [enter_log] at hl
    have hh : (m.leave k op s).hist = m.hist ++ es.map (Sigma.mk k) := by
      show m.hist ++ (s.log.drop (m.part k).log.length).map (Sigma.mk k) = _
      rw [hl, List.drop_left]
    refine ⟨es, hh, ?_, fun j hj => leave_part_other m hj op s, ?_⟩
    · rw [leave_part]; exact hl
    · rw [hh]; exact ho
  -- a task
  have task : ∀ y q, m.queue = y :: q → m.rest k op = q → (∃ z, y.for k = some z ∧ (m.enter k op).queue = [z]) →
      (∃ es, s.log = (m.enter k op).log ++ es ∧ disp es = [] ∧ pend s.queue = [] ∧
        red es = pend ((m.enter k op).queue)) → ∃ es, (m.leave k op s).hist = m.hist ++ es.map (Sigma.mk k) ∧
      ((m.leave k op s).part k).log = (m.part k).log ++ es ∧ (∀ j, k ≠ j → (m.leave k op s).part j = m.part j) ∧
      (mdisp m.hist = mred m.hist ++ mpend m.queue → mdisp (m.leave k op s).hist =
        mred (m.leave k op s).hist ++ mpend (m.leave k op s).queue) := by
    rintro y q hq hr ⟨z, hz, hz2⟩ ⟨es, k1, k2, k3, k4⟩
    refine mk es k1 ?_
    intro ho
    rw [mdisp_append, mred_append, mpend_append, mdisp_mark, mred_mark, mpend_mark, k2, k3, k4, ho, hr, hq, hz2]
    have : mpend (y :: q) = (pend [z]).map (fun w => (k, w.1)) ++ mpend q := by
      cases y with
      | tok => cases hz; rfl
      | of j w =>
        by_cases hj : j = k
        · subst hj
          simp [MItem.for] at hz
          subst hz
          cases w <;> rfl
        · rw [of_for hj] at hz; cases hz
    rw [this]
    simp [List.append_assoc]
  by_cases e1 : op = .loop
  · subst e1
    obtain ⟨y, q, hq, hx⟩ := hg
    have hz : ∃ z, y.for k = some z ∧ (m.enter k .loop).queue = [z] := by
      cases y with
      | tok => exact ⟨.tok, rfl, by simp [Multi.enter, hq, MItem.for, Part.join]⟩
      | of j w => subst hx; exact ⟨w, by simp [MItem.for], by simp [Multi.enter, hq, MItem.for, Part.join]⟩
    refine task y q hq (by simp [Multi.rest, hq]) hz ?_
    obtain ⟨z, _, hz2⟩ := hz
    obtain ⟨es, k⟩ := loop_adds h1 hz2
    exact ⟨es, by rw [hz2]; exact k⟩
  · by_cases e2 : op = .loopRaise
    · subst e2
      obtain ⟨w, q, hq⟩ := hg
      have hz2 : (m.enter k .loopRaise).queue = [w] := by simp [Multi.enter, hq, MItem.for, Part.join]
      refine task _ q hq (by simp [Multi.rest, hq]) ⟨w, by simp [MItem.for], hz2⟩ ?_
      obtain ⟨es, k⟩ := loopRaise_adds h1 hz2
      exact ⟨es, by rw [hz2]; exact k⟩
    · obtain ⟨es, k1, k2, k3⟩ := step_adds h1 e1 e2
      obtain ⟨_, q1, q2⟩ := enter_other m k e1 e2
      refine mk es k1 ?_
      intro ho
      rw [q1, show pend ([] : List (Item (A k))) = [] from rfl, List.nil_append] at k3
      rw [mdisp_append, mred_append, mpend_append, mdisp_mark, mred_mark, mpend_mark, k2, k3, ho, q2]
      simp [List.append_assoc]

theorem Multi.Reach.hist {c : (k : K) → Cfg (A k) (Mo k)} {m : Multi A Mo} (r : Multi.Reach c m) :
    (∀ k, (m.part k).log = evsOf k m.hist) ∧ mdisp m.hist = mred m.hist ++ mpend m.queue := by
  induction r with
  | start => exact ⟨fun k => rfl, rfl⟩
  | step k op _ h ih =>
    obtain ⟨es, h1, h2, h3, h4⟩ := h.hist
    refine ⟨fun j => ?_, h4 ih.2⟩
    rw [h1, evsOf_append]
    by_cases hj : k = j
    · subst hj
      rw [h2, evsOf_mark, ih.1 k]
    · rw [h3 j hj, evsOf_other hj, List.append_nil, ih.1 j]

end Verif.Store
