import Verif.Store.Promise

/-! The promises of dispatches in every history. -/

namespace Verif.Store

open Verif.Future (M Op Inv Ev Le)

variable {A Mo : Type}

/-- The model is published for a dispatch after the reducer has been called for it. -/
def RdyOK (log : List (SEv A Mo)) : Prop :=
  ∀ l1 d l2, log = l1 ++ SEv.ready d :: l2 → ∃ m a m' e, SEv.reduced d m a m' e ∈ l1

theorem RdyOK.app {log es : List (SEv A Mo)} (h : RdyOK log)
    (he : ∀ d, SEv.ready d ∈ es → ∃ m a m' e, SEv.reduced d m a m' e ∈ log) : RdyOK (log ++ es) := by
  intro l1 d l2 hl
  rcases List.append_eq_append_iff.1 hl with ⟨as, h1, h2⟩ | ⟨bs, h1, h2⟩
  · obtain ⟨m, a, m', e, h3⟩ := he d (by rw [h2]; simp)
    exact ⟨m, a, m', e, by rw [h1]; exact List.mem_append_left _ h3⟩
  · cases bs with
    | nil =>
      rw [List.append_nil] at h1
      obtain ⟨m, a, m', e, h3⟩ := he d (by rw [List.nil_append] at h2; rw [← h2]; simp)
      exact ⟨m, a, m', e, by rw [← h1]; exact h3⟩
    | cons b bs =>
      have : SEv.ready d = b := by
        simp at h2; exact h2.1
      subst this
      exact h l1 d bs h1

/-- Tasks, calls of effects and events. -/
structure QInv (fu : M) (sent : List (Nat × Nat)) (log : List (SEv A Mo)) (q : List (Item A))
    (ev : List EF) : Prop where
  pub : ∀ d i, Item.publish d i ∈ q → ∃ m a m' e, SEv.reduced d m a m' e ∈ log ∧ e.isEmpty = true
  eff : ∀ d e i, Item.effect d e i ∈ q → (∃ m a m', SEv.reduced d m a m' e ∈ log) ∧ e.isEmpty = false
  frames : ∀ f ∈ ev, ∀ d i, f.k = .store d i → RunX log d f.x
  empty : ∀ (d i s : Nat) m a m' e, sent[d]? = some (i, s) → SEv.reduced d m a m' e ∈ log →
    e.isEmpty = true → (fu.cell s).done = true ∨ Item.publish d i ∈ q ∨ ∃ o, SEv.lost d o ∈ log
  run : ∀ d x e, SEv.effStart d x e ∈ log → (∃ f ∈ ev, f.x = x ∧ ∃ i, f.k = .store d i) ∨
    (∃ r, SEv.effEnd d r ∈ log) ∨ ∃ pos, SEv.primThrew x pos ∈ log
  red : ∀ d m a m' e, SEv.reduced d m a m' e ∈ log → d < sent.length
  jobs : ∀ x ∈ q, ∀ d i, x.job = some (d, i) → d < sent.length
  rdy : RdyOK log

/-- Futures go on and events are recorded. -/
theorem QInv.next {fu fu' : M} {sent : List (Nat × Nat)} {log es : List (SEv A Mo)} {q : List (Item A)}
    {ev : List EF} (k : QInv fu sent log q ev)
    (l : ∀ d i s : Nat, sent[d]? = some (i, s) → (fu.cell s).done = true → (fu'.cell s).done = true)
    (h1 : ∀ d m a m' e, SEv.reduced d m a m' e ∉ es) (h2 : ∀ d x e, SEv.effStart d x e ∉ es)
    (h3 : ∀ d, SEv.ready d ∈ es → ∃ m a m' e, SEv.reduced d m a m' e ∈ log := by simp) :
    QInv fu' sent (log ++ es) q ev where
  pub d i h := by
    obtain ⟨m, a, m', e, h, h'⟩ := k.pub d i h
    exact ⟨m, a, m', e, List.mem_append_left _ h, h'⟩
  eff d e i h := by
    obtain ⟨⟨m, a, m', h⟩, h'⟩ := k.eff d e i h
    exact ⟨⟨m, a, m', List.mem_append_left _ h⟩, h'⟩
  frames f hf d i hk := (k.frames f hf d i hk).mono
  empty d i s m a m' e hs hr he := by
    rcases List.mem_append.1 hr with hr | hr
    · rcases k.empty d i s m a m' e hs hr he with h | h
      · exact Or.inl (l d i s hs h)
      · exact Or.inr (h.imp id fun ⟨o, h⟩ => ⟨o, List.mem_append_left _ h⟩)
    · exact absurd hr (h1 _ _ _ _ _)
  run d x e he := by
    rcases List.mem_append.1 he with he | he
    · rcases k.run d x e he with h | ⟨r, h⟩ | ⟨p, h⟩
      · exact Or.inl h
      · exact Or.inr (Or.inl ⟨r, List.mem_append_left _ h⟩)
      · exact Or.inr (Or.inr ⟨p, List.mem_append_left _ h⟩)
    · exact absurd he (h2 _ _ _)
  red d m a m' e hr := by
    rcases List.mem_append.1 hr with hr | hr
    · exact k.red d m a m' e hr
    · exact absurd hr (h1 _ _ _ _ _)
  jobs := k.jobs
  rdy := k.rdy.app h3

theorem QInv.fut {fu fu' : M} {sent : List (Nat × Nat)} {log : List (SEv A Mo)} {q : List (Item A)}
    {ev : List EF} (k : QInv fu sent log q ev)
    (l : ∀ d i s : Nat, sent[d]? = some (i, s) → (fu.cell s).done = true → (fu'.cell s).done = true) :
    QInv fu' sent log q ev := by
  have := k.next (es := []) l (fun _ _ _ _ _ h => (nomatch h)) (fun _ _ _ h => (nomatch h))
  rwa [List.append_nil] at this

theorem QInv.toks {fu : M} {sent : List (Nat × Nat)} {log : List (SEv A Mo)} {q : List (Item A)}
    {ev : List EF} (k : QInv fu sent log q ev) (n : Nat) :
    QInv fu sent log (q ++ List.replicate n .tok) ev := by
  have hm : ∀ {x : Item A}, x ∈ q ++ List.replicate n .tok → x ∈ q ∨ x = .tok := by
    intro x h
    rcases List.mem_append.1 h with h | h
    · exact Or.inl h
    · exact Or.inr (List.mem_replicate.1 h).2
  exact { k with
    pub := fun d i h => by
      rcases hm h with h | h
      · exact k.pub d i h
      · cases h
    eff := fun d e i h => by
      rcases hm h with h | h
      · exact k.eff d e i h
      · cases h
    empty := fun d i s m a m' e hs hr he => by
      rcases k.empty d i s m a m' e hs hr he with h | h
      · exact Or.inl h
      · exact Or.inr (h.imp (List.mem_append_left _) id)
    jobs := fun x hx d i hj => by
      rcases hm hx with h | h
      · exact k.jobs x h d i hj
      · subst h; cases hj }

/-- A task that does not publish leaves the queue, or one that does is lost. -/
theorem QInv.pop {fu : M} {sent : List (Nat × Nat)} {log : List (SEv A Mo)} {x : Item A}
    {q : List (Item A)} {ev : List EF} (k : QInv fu sent log (x :: q) ev)
    (hx : ∀ d i, x = .publish d i → ∃ o, SEv.lost d o ∈ log) : QInv fu sent log q ev :=
  { k with
    pub := fun d i h => k.pub d i (List.mem_cons_of_mem _ h)
    eff := fun d e i h => k.eff d e i (List.mem_cons_of_mem _ h)
    empty := fun d i s m a m' e hs hr he => by
      rcases k.empty d i s m a m' e hs hr he with h | h | h
      · exact Or.inl h
      · rcases List.mem_cons.1 h with h | h
        · exact Or.inr (Or.inr (hx _ _ h.symm))
        · exact Or.inr (Or.inl h)
      · exact Or.inr (Or.inr h)
    jobs := fun x h => k.jobs x (List.mem_cons_of_mem _ h) }

/-- Calls of effects go on. -/
theorem QInv.calls {fu : M} {sent : List (Nat × Nat)} {log : List (SEv A Mo)}
    {q : List (Item A)} {ev ev' : List EF} (k : QInv fu sent log q ev)
    (h1 : ∀ f ∈ ev', ∀ d i, f.k = .store d i → ∃ g ∈ ev, g.x = f.x ∧ g.k = f.k)
    (h2 : ∀ f ∈ ev, ∀ d i, f.k = .store d i → (∃ g ∈ ev', g.x = f.x ∧ g.k = f.k) ∨
      (∃ r, SEv.effEnd d r ∈ log) ∨ ∃ pos, SEv.primThrew f.x pos ∈ log) :
    QInv fu sent log q ev' :=
  { k with
    frames := fun f hf d i hk => by
      obtain ⟨g, hg, hx, hk'⟩ := h1 f hf d i hk
      rw [← hx]
      exact k.frames g hg d i (hk'.trans hk)
    run := fun d x e he => by
      rcases k.run d x e he with ⟨f, hf, hx, i, hk⟩ | h
      · rcases h2 f hf d i hk with ⟨g, hg, hx', hk'⟩ | ⟨r, h⟩ | ⟨pos, h⟩
        · exact Or.inl ⟨g, hg, hx'.trans hx, i, hk'.trans hk⟩
        · exact Or.inr (Or.inl ⟨r, h⟩)
        · rw [hx] at h
          exact Or.inr (Or.inr ⟨pos, h⟩)
      · exact Or.inr h }

theorem perm_erase {α : Type} : ∀ {l : List α} {n : Nat} {a : α}, l[n]? = some a →
    l.Perm (a :: l.eraseIdx n)
  | [], _, _, h => by simp at h
  | b :: l, 0, a, h => by
    simp at h
    subst h
    exact .refl _
  | b :: l, n + 1, a, h => by
    have h : l[n]? = some a := by simpa using h
    show (b :: l).Perm (a :: b :: l.eraseIdx n)
    exact ((perm_erase h).cons b).trans (.swap a b _)

theorem erase_or {α : Type} {l : List α} {n : Nat} {a b : α} (h : l[n]? = some a) (hb : b ∈ l) :
    b = a ∨ b ∈ l.eraseIdx n := List.mem_cons.1 ((perm_erase h).mem_iff.1 hb)

theorem holders_toks (q : List (Item A)) (n : Nat) (ev : List EF) :
    holders (q ++ List.replicate n .tok) ev = holders q ev := by
  have : (List.replicate n (Item.tok : Item A)).filterMap Item.job = [] := by
    rw [List.filterMap_eq_nil_iff]
    intro x hx
    rw [(List.mem_replicate.1 hx).2]; rfl
  unfold holders
  rw [List.filterMap_append, this, List.append_nil]

theorem holders_post (q : List (Item A)) (x : Item A) (d i : Nat) (hx : x.job = some (d, i))
    (ev : List EF) : ((d, i) :: holders q ev).Perm (holders (q ++ [x]) ev) := by
  unfold holders
  rw [List.filterMap_append]
  have : [x].filterMap Item.job = [(d, i)] := by simp [hx]
  rw [this, List.append_assoc]
  exact List.perm_middle.symm

theorem holders_call (q : List (Item A)) (f : EF) (ev : List EF) :
    (f.call.toList ++ holders q ev).Perm (holders q (f :: ev)) := by
  unfold holders
  cases h : f.call with
  | none => simp [h]
  | some y =>
    simp only [Option.toList, List.singleton_append, List.filterMap_cons, h]
    exact List.perm_middle.symm

theorem holders_erase (q : List (Item A)) {f : EF} {ev : List EF} {n : Nat} (h : ev[n]? = some f) :
    (holders q ev).Perm (f.call.toList ++ holders q (ev.eraseIdx n)) := by
  refine List.Perm.trans ?_ (holders_call q f (ev.eraseIdx n)).symm
  unfold holders
  exact ((perm_erase h).filterMap _).append_left _

theorem QInv.swap {fu : M} {sent : List (Nat × Nat)} {log : List (SEv A Mo)}
    {q : List (Item A)} {ev : List EF} (k : QInv fu sent log q ev) {n : Nat} {f f' : EF}
    (hn : ev[n]? = some f) (hx : f'.x = f.x) (hk : f'.k = f.k) :
    QInv fu sent log q (f' :: ev.eraseIdx n) := by
  refine k.calls ?_ ?_
  · intro g hg d i _
    rcases List.mem_cons.1 hg with rfl | hg
    · exact ⟨f, List.mem_of_getElem? hn, hx.symm, hk.symm⟩
    · exact ⟨g, List.mem_of_mem_eraseIdx hg, rfl, rfl⟩
  · intro g hg d i _
    rcases erase_or hn hg with rfl | hg
    · exact Or.inl ⟨f', List.mem_cons_self, hx, hk⟩
    · exact Or.inl ⟨g, List.mem_cons_of_mem _ hg, rfl, rfl⟩

theorem holders_swap (q : List (Item A)) {f f' : EF} {ev : List EF} {n : Nat} (h : ev[n]? = some f)
    (hk : f'.k = f.k) : (holders q ev).Perm (holders q (f' :: ev.eraseIdx n)) := by
  have : f'.call = f.call := by unfold EF.call; rw [hk]
  refine (holders_erase q h).trans ?_
  rw [← this]
  exact holders_call q f' _

theorem QInv.drop {fu : M} {sent : List (Nat × Nat)} {log : List (SEv A Mo)}
    {q : List (Item A)} {ev : List EF} (k : QInv fu sent log q ev) {n : Nat} {f : EF}
    (hn : ev[n]? = some f) (h : ∀ d i, f.k = .store d i →
      (∃ r, SEv.effEnd d r ∈ log) ∨ ∃ pos, SEv.primThrew f.x pos ∈ log) :
    QInv fu sent log q (ev.eraseIdx n) := by
  refine k.calls ?_ ?_
  · intro g hg d i _
    exact ⟨g, List.mem_of_mem_eraseIdx hg, rfl, rfl⟩
  · intro g hg d i hk
    rcases erase_or hn hg with rfl | hg
    · exact Or.inr (h d i hk)
    · exact Or.inl ⟨g, hg, rfl, rfl⟩

/-- Of the proof: the invariant. -/
structure PI (c : Cfg A Mo) (st : St A Mo) : Prop where
  fi : Inv st.fu
  p : PInv c.trans st.fu st.sent st.log (holders st.queue st.ev)
  q : QInv st.fu st.sent st.log st.queue st.ev

theorem step_inv {fu fu' : M} {op : Op} (fi : Inv fu) (h : Future.step fu op = some fu')
    (hu : fu'.ub = false) : Inv fu' := Future.inv_step fi h hu

theorem PI.le {c : Cfg A Mo} {st : St A Mo} (k : PI c st) {fu' : M} (l : Le st.fu fu') :
    ∀ d i s : Nat, st.sent[d]? = some (i, s) → (st.fu.cell s).done = true → (fu'.cell s).done = true :=
  fun d i s hs hd => l.done s (k.p.made d i s hs).2.1 hd

theorem PI.fut {c : Cfg A Mo} {st s1 : St A Mo} (k : PI c st) {op : Op} (h : st.fstep op = some s1)
    (hu : s1.fu.ub = false)
    (hop : ∀ d i s : Nat, st.sent[d]? = some (i, s) → ¬ op.takesP i ∧ op ≠ .copyP i) : PI c s1 := by
  obtain ⟨h1, h2, _, h4, _, n, h6⟩ := fstep_fu h
  have h7 := (fstep_toks h).sent
  have fi' := step_inv k.fi h1 hu
  refine ⟨fi', ?_, ?_⟩
  · rw [h2, h4, h6, h7, holders_toks]
    exact k.p.bg k.fi fi' h1 hu hop
  · rw [h2, h4, h6, h7]
    exact (k.q.fut (k.le (Future.step_le k.fi h1 hu))).toks n

theorem PI.of {c : Cfg A Mo} {st s1 : St A Mo} (k : PI c st) (h1 : s1.fu = st.fu)
    (h2 : s1.sent = st.sent) (h3 : s1.log = st.log) (h4 : s1.queue = st.queue) (h5 : s1.ev = st.ev) :
    PI c s1 := by
  refine ⟨?_, ?_, ?_⟩
  · rw [h1]; exact k.fi
  · rw [h1, h2, h3, h4, h5]; exact k.p
  · rw [h1, h2, h3, h4, h5]; exact k.q

theorem PI.say {c : Cfg A Mo} {st s1 : St A Mo} (k : PI c st) {es : List (SEv A Mo)}
    (h1 : s1.fu = st.fu) (h2 : s1.sent = st.sent) (h3 : s1.log = st.log ++ es)
    (h4 : s1.queue = st.queue) (h5 : s1.ev = st.ev) (he : ∀ d r, SEv.effEnd d r ∉ es)
    (hr : ∀ d m a m' e, SEv.reduced d m a m' e ∉ es) (hs : ∀ d x e, SEv.effStart d x e ∉ es)
    (hy : ∀ d, SEv.ready d ∉ es) :
    PI c s1 := by
  refine ⟨?_, ?_, ?_⟩
  · rw [h1]; exact k.fi
  · rw [h1, h2, h3, h4, h5]; exact k.p.say he
  · rw [h1, h2, h3, h4, h5]; exact k.q.next (fun _ _ _ _ h => h) hr hs (fun d h => absurd h (hy d))

theorem send_fields (st : St A Mo) : st.sendDown.notify.fu = st.fu ∧ st.sendDown.notify.sent = st.sent ∧
    st.sendDown.notify.queue = st.queue ∧ st.sendDown.notify.ev = st.ev ∧
    ∃ es, st.sendDown.notify.log = st.log ++ es ∧ ∀ e ∈ es, ∃ v, e = .shown v := by
  have := notify_log st
  refine ⟨?_, ?_, ?_, ?_, this⟩ <;>
  · unfold St.notify St.sendDown
    split <;> split <;> simp

theorem publish_fields (c : Cfg A Mo) (st : St A Mo) : (st.publish c).fu = st.fu ∧
    (st.publish c).sent = st.sent ∧ (st.publish c).queue = st.queue ∧ (st.publish c).ev = st.ev ∧
    ∃ es, (st.publish c).log = st.log ++ es ∧ ∀ e ∈ es, ∃ v, e = .shown v := by
  unfold St.publish
  split
  · exact ⟨rfl, rfl, rfl, rfl, [], by simp, fun _ h => (nomatch h)⟩
  · exact send_fields st

theorem PI.send {c : Cfg A Mo} {st : St A Mo} (k : PI c st) : PI c st.sendDown.notify := by
  obtain ⟨h1, h2, h3, h4, es, h5, h6⟩ := send_fields st
  refine k.say h1 h2 h5 h3 h4 ?_ ?_ ?_ ?_ <;>
  · intros
    intro h
    obtain ⟨v, h⟩ := h6 _ h
    cases h

theorem PI.runTask {c : Cfg A Mo} {st s1 : St A Mo} (k : PI c st) {l : Nat} (h : st.runTask l = some s1)
    (hu : s1.fu.ub = false) : PI c s1 := by
  unfold St.runTask at h
  split at h
  · cases h
  · simp only [Option.map_eq_some_iff] at h
    obtain ⟨s0, h, rfl⟩ := h
    have hu : s0.fu.ub = false := by split at hu <;> exact hu
    have k0 := k.fut h hu (fun _ _ _ _ => ⟨fun h => h, fun h => (nomatch h)⟩)
    split
    · exact k0
    · rename_i t _ _ _ _ x pos e _
      refine ⟨k0.fi, k0.p.perm (holders_call s0.queue ⟨x, pos, .call e, [], .clo t.c⟩ s0.ev), ?_⟩
      refine k0.q.calls ?_ ?_
      · intro f hf d i hk
        rcases List.mem_cons.1 hf with rfl | hf
        · cases hk
        · exact ⟨f, hf, rfl, rfl⟩
      · intro f hf d i hk
        exact Or.inl ⟨f, List.mem_cons_of_mem _ hf, rfl, rfl⟩

theorem PI.dispatch {c : Cfg A Mo} (hF : c.hasF = true) {st s1 : St A Mo} (k : PI c st) {a : A}
    (h : st.dispatch c a = some s1) (hu : s1.fu.ub = false) : PI c s1 := by
  simp only [St.dispatch, Option.map_eq_some_iff, hF, if_true] at h
  obtain ⟨s0, h, rfl⟩ := h
  obtain ⟨h1, h2, _, h4, _, n, h6⟩ := fstep_fu h
  have fi' := step_inv k.fi h1 hu
  have p := (k.p.new k.fi fi' h1 hu).say (es := [SEv.dispatched st.sent.length a])
    (by intro d r h; simp at h)
  refine ⟨fi', ?_, ?_⟩
  · show PInv _ _ _ (s0.log ++ _) (holders (s0.queue ++ _) s0.ev)
    rw [h4, h6, h2]
    refine p.perm ?_
    have := holders_post (st.queue ++ List.replicate n .tok)
      (.reduce st.sent.length a st.fu.proms.length) _ _ rfl st.ev
    rw [holders_toks] at this
    exact this
  · show QInv _ _ (s0.log ++ _) (s0.queue ++ _) s0.ev
    rw [h4, h6, h2]
    have q := ((k.q.next (es := [SEv.dispatched st.sent.length a])
      (k.le (Future.step_le k.fi h1 hu)) (by simp) (by simp)).toks n)
    have hm : ∀ {x : Item A}, x ∈ (st.queue ++ List.replicate n .tok) ++
        [.reduce st.sent.length a st.fu.proms.length] → x ∈ st.queue ++ List.replicate n .tok ∨
        x = .reduce st.sent.length a st.fu.proms.length := mem_app_one
    exact {
      pub := fun d i h => by
        rcases hm h with h | h
        · exact q.pub d i h
        · cases h
      eff := fun d e i h => by
        rcases hm h with h | h
        · exact q.eff d e i h
        · cases h
      frames := q.frames
      empty := fun d i s m a' m' e hs hr he => by
        have hd := q.red d m a' m' e hr
        rw [List.getElem?_append_left hd] at hs
        rcases q.empty d i s m a' m' e hs hr he with h | h
        · exact Or.inl h
        · exact Or.inr (h.imp (List.mem_append_left _) id)
      run := q.run
      red := fun d m a' m' e hr => by
        have := q.red d m a' m' e hr
        simp; omega
      jobs := fun x hx d i hj => by
        have : d < st.sent.length + 1 := by
          rcases hm hx with h | h
          · exact Nat.lt_succ_of_lt (q.jobs x h d i hj)
          · subst h; cases hj; exact Nat.lt_succ_self _
        simpa using this
      rdy := q.rdy }

theorem holders_pop (x : Item A) (q : List (Item A)) (ev : List EF) :
    holders (x :: q) ev = x.job.toList ++ holders q ev := by
  unfold holders
  cases h : x.job <;> simp [h]

/-- The publication of a new model: a task with nothing else to do. -/
theorem PI.loop {c : Cfg A Mo} (hF : c.hasF = true) {st s1 : St A Mo} (k : PI c st)
    (h : st.loop c = some s1) (hu : s1.fu.ub = false) : PI c s1 := by
  unfold St.loop at h
  split at h
  · cases h
  · rename_i d a i q hq
    have kp := k.p
    have kq := k.q
    rw [hq] at kp kq
    rw [holders_pop] at kp
    have kp : PInv c.trans st.fu st.sent st.log ((d, i) :: holders q st.ev) := kp
    have hd : d < st.sent.length := kq.jobs _ List.mem_cons_self d i rfl
    have hno : ∀ j, (d, j) ∉ holders q st.ev := fun j hm =>
      (List.nodup_cons.1 kp.nodup).1 (List.mem_map.2 ⟨_, hm, rfl⟩)
    dsimp only at h
    have kq1 := kq.pop (by simp)
    split at h
    · cases h
      exact ⟨k.fi, (kp.say (es := [SEv.reduceThrew d st.cur a]) (by simp)).sub,
        kq1.next (es := [SEv.reduceThrew d st.cur a]) (fun _ _ _ _ h => h) (by simp) (by simp)⟩
    simp only [Option.map_eq_some_iff] at h
    obtain ⟨s0, hst, rfl⟩ := h
    generalize (c.reducer st.cur a).1 = m' at *
    generalize (c.reducer st.cur a).2 = e at *
    obtain ⟨f1, _, _, f4, f5, f6⟩ := pushDown_fields c s0 m'
    have f7 : (s0.pushDown c m').sent = s0.sent := by unfold St.pushDown; split <;> rfl
    have hu : s0.fu.ub = false := by
      have hu : (s0.pushDown c m').fu.ub = false := hu
      rwa [f1] at hu
    suffices hh : Inv s0.fu ∧ PInv c.trans s0.fu s0.sent (s0.log ++ [.reduced d st.cur a m' e])
        (holders s0.queue s0.ev) ∧ QInv s0.fu s0.sent (s0.log ++ [.reduced d st.cur a m' e]) s0.queue s0.ev by
      obtain ⟨a1, a2, a3⟩ := hh
      refine ⟨?_, ?_, ?_⟩
      · show Inv (s0.pushDown c m').fu
        rw [f1]; exact a1
      · show PInv c.trans (s0.pushDown c m').fu (s0.pushDown c m').sent ((s0.pushDown c m').log ++ _)
          (holders (s0.pushDown c m').queue (s0.pushDown c m').ev)
        rw [f1, f7, f6, f5, f4]; exact a2
      · show QInv (s0.pushDown c m').fu (s0.pushDown c m').sent ((s0.pushDown c m').log ++ _)
          (s0.pushDown c m').queue (s0.pushDown c m').ev
        rw [f1, f7, f6, f5, f4]; exact a3
    have kp2 := kp.say (es := [SEv.reduced d st.cur a m' e]) (by simp)
    -- another task is posted
    have hpost : ∀ x : Item A, x.job = some (d, i) → (e.isEmpty = true → x = .publish d i) →
        (e.isEmpty = false → x = .effect d e i) →
        PInv c.trans st.fu st.sent (st.log ++ [.reduced d st.cur a m' e]) (holders (q ++ [x]) st.ev) ∧
        QInv st.fu st.sent (st.log ++ [.reduced d st.cur a m' e]) (q ++ [x]) st.ev := by
      intro x hj hx1 hx2
      refine ⟨kp2.perm (holders_post q x d i hj st.ev), ?_⟩
      have hred : ∀ {d' m0 a0 m1 e0}, SEv.reduced d' m0 a0 m1 e0 ∈ st.log ++ [.reduced d st.cur a m' e] →
          SEv.reduced d' m0 a0 m1 e0 ∈ st.log ∨ (d' = d ∧ e0 = e) := by
        intro d' m0 a0 m1 e0 h
        rcases mem_app_one h with h | h
        · exact Or.inl h
        · cases h; exact Or.inr ⟨rfl, rfl⟩
      have hnew : SEv.reduced d st.cur a m' e ∈ st.log ++ [SEv.reduced d st.cur a m' e] :=
        List.mem_append_right _ (List.mem_singleton.2 rfl)
      exact {
        pub := fun d' i' h => by
          rcases mem_app_one h with h | h
          · obtain ⟨m0, a0, m1, e0, h1, h2⟩ := kq1.pub d' i' h
            exact ⟨m0, a0, m1, e0, List.mem_append_left _ h1, h2⟩
          · by_cases hem : e.isEmpty = true
            · have := hx1 hem
              rw [← h] at this
              cases this
              exact ⟨_, _, _, _, hnew, hem⟩
            · have := hx2 (by simpa using hem)
              rw [← h] at this
              cases this
        eff := fun d' e' i' h => by
          rcases mem_app_one h with h | h
          · obtain ⟨⟨m0, a0, m1, h1⟩, h2⟩ := kq1.eff d' e' i' h
            exact ⟨⟨m0, a0, m1, List.mem_append_left _ h1⟩, h2⟩
          · by_cases hem : e.isEmpty = true
            · have := hx1 hem
              rw [← h] at this
              cases this
            · have := hx2 (by simpa using hem)
              rw [← h] at this
              cases this
              exact ⟨⟨_, _, _, hnew⟩, by simpa using hem⟩
        frames := fun f hf d' i' hk => (kq1.frames f hf d' i' hk).mono
        empty := fun d' i' s m0 a0 m1 e0 hs hr he => by
          rcases hred hr with hr | ⟨rfl, rfl⟩
          · rcases kq1.empty d' i' s m0 a0 m1 e0 hs hr he with h | h
            · exact Or.inl h
            · exact Or.inr (h.imp (List.mem_append_left _) fun ⟨o, h⟩ => ⟨o, List.mem_append_left _ h⟩)
          · right; left
            obtain ⟨s', hs', _⟩ := kp.hold d' i List.mem_cons_self
            rw [hs] at hs'
            cases hs'
            exact List.mem_append_right _ (List.mem_singleton.2 (hx1 he).symm)
        run := fun d' x' e' he => by
          rcases mem_app_one he with he | he
          · rcases kq1.run d' x' e' he with h | ⟨r, h⟩ | ⟨p, h⟩
            · exact Or.inl h
            · exact Or.inr (Or.inl ⟨r, List.mem_append_left _ h⟩)
            · exact Or.inr (Or.inr ⟨p, List.mem_append_left _ h⟩)
          · cases he
        red := fun d' m0 a0 m1 e0 hr => by
          rcases hred hr with hr | ⟨rfl, _⟩
          · exact kq1.red _ _ _ _ _ hr
          · exact hd
        jobs := fun y hy d' i' hj' => by
          rcases mem_app_one hy with h | h
          · exact kq1.jobs y h d' i' hj'
          · subst h
            rw [hj] at hj'
            cases hj'
            exact hd
        rdy := kq1.rdy.app (by simp) }
    split at hst
    · rename_i hem
      split at hst
      · -- transactional: the promise is fulfilled
        rename_i ht
        simp only [St.complete, hF, if_true] at hst
        obtain ⟨h1, h2, _, h4, _, n, h6⟩ := fstep_fu hst
        have h7 := (fstep_toks hst).sent
        have h1 : Future.step st.fu (.fulfil i) = some s0.fu := h1
        have h2 : s0.ev = st.ev := h2
        have h4 : s0.log = st.log := h4
        have h6 : s0.queue = q ++ List.replicate n .tok := h6
        have h7 : s0.sent = st.sent := h7
        have hnew : SEv.reduced d st.cur a m' e ∈ st.log ++ [SEv.reduced d st.cur a m' e] :=
          List.mem_append_right _ (List.mem_singleton.2 rfl)
        have hc : Compl c.trans st.fu (st.log ++ [SEv.reduced d st.cur a m' e]) d :=
          Or.inl ⟨_, _, _, _, hnew, hem, fun h => by rw [ht] at h; cases h⟩
        have p1 := kp2.own k.fi h1 hu (Or.inl ⟨rfl, rfl, hc⟩)
        rw [List.append_nil] at p1
        refine ⟨step_inv k.fi h1 hu, ?_, ?_⟩
        · rw [h2, h4, h6, h7, holders_toks]; exact p1
        · rw [h2, h4, h6, h7]
          refine QInv.toks ?_ n
          have l := k.le (Future.step_le k.fi h1 hu)
          have kq2 := kq1.fut l
          obtain ⟨s, hs0, hp0⟩ := kp.hold d i List.mem_cons_self
          have hdone : (s0.fu.cell s).done = true := by
            generalize s0.fu = fu1 at h1
            cases Future.step_out h1 with
            | threw hp => rw [hp0] at hp; cases hp
            | fulfil hp => rw [hp0] at hp; cases hp; simp [Future.fulfil_cell]
          exact {
            pub := fun d' i' h => by
              obtain ⟨m0, a0, m1, e0, h1, h2⟩ := kq2.pub d' i' h
              exact ⟨m0, a0, m1, e0, List.mem_append_left _ h1, h2⟩
            eff := fun d' e' i' h => by
              obtain ⟨⟨m0, a0, m1, h1⟩, h2⟩ := kq2.eff d' e' i' h
              exact ⟨⟨m0, a0, m1, List.mem_append_left _ h1⟩, h2⟩
            frames := fun f hf d' i' hk => (kq2.frames f hf d' i' hk).mono
            empty := fun d' i' s' m0 a0 m1 e0 hs hr he => by
              rcases mem_app_one hr with hr | hr
              · exact (kq2.empty d' i' s' m0 a0 m1 e0 hs hr he).imp id fun h =>
                  h.imp id fun ⟨o, h⟩ => ⟨o, List.mem_append_left _ h⟩
              · cases hr
                rw [hs0] at hs
                cases hs
                exact Or.inl hdone
            run := fun d' x' e' he => by
              rcases mem_app_one he with he | he
              · rcases kq2.run d' x' e' he with h | ⟨r, h⟩ | ⟨p, h⟩
                · exact Or.inl h
                · exact Or.inr (Or.inl ⟨r, List.mem_append_left _ h⟩)
                · exact Or.inr (Or.inr ⟨p, List.mem_append_left _ h⟩)
              · cases he
            red := fun d' m0 a0 m1 e0 hr => by
              rcases mem_app_one hr with hr | hr
              · exact kq2.red _ _ _ _ _ hr
              · cases hr; exact hd
            jobs := kq2.jobs
            rdy := kq2.rdy.app (by simp) }
      · cases hst
        obtain ⟨a1, a2⟩ := hpost (.publish d i) rfl (fun _ => rfl) (fun h => by rw [hem] at h; cases h)
        exact ⟨k.fi, a1, a2⟩
    · rename_i hem
      cases hst
      obtain ⟨a1, a2⟩ := hpost (.effect d e i) rfl (fun h => absurd h hem) (fun _ => rfl)
      exact ⟨k.fi, a1, a2⟩
  · -- an effect
    rename_i d e i q hq
    have kp := k.p
    have kq := k.q
    rw [hq] at kp kq
    rw [holders_pop] at kp
    have kp : PInv c.trans st.fu st.sent st.log ((d, i) :: holders q st.ev) := kp
    cases h
    obtain ⟨f1, f2, f3, f4, es, f5, f6⟩ := publish_fields c { st with queue := q }
    generalize hs1 : ({ st with queue := q } : St A Mo).publish c = s1 at *
    have f1 : s1.fu = st.fu := f1
    have f2 : s1.sent = st.sent := f2
    have f3 : s1.queue = q := f3
    have f4 : s1.ev = st.ev := f4
    have f5 : s1.log = st.log ++ es := f5
    have hlog : ((s1.say (.ready d)).say (.effStart d st.nx e)).log =
        st.log ++ (es ++ [.ready d, .effStart d st.nx e]) := by
      show s1.log ++ _ ++ _ = _
      rw [f5]; simp
    have hes : ∀ {x : SEv A Mo}, x ∈ es ++ [.ready d, .effStart d st.nx e] →
        (∃ v, x = .shown v) ∨ x = .ready d ∨ x = .effStart d st.nx e := by
      intro x hx
      rcases List.mem_append.1 hx with hx | hx
      · exact Or.inl (f6 _ hx)
      · simp at hx; exact Or.inr hx
    obtain ⟨⟨m0, a0, m1, hred⟩, hem⟩ := kq.eff d e i List.mem_cons_self
    have hrun : RunX (st.log ++ (es ++ [SEv.ready d, SEv.effStart d st.nx e])) d st.nx :=
      ⟨m0, a0, m1, e, List.mem_append_left _ hred, hem, by simp, by simp⟩
    have kq1 := kq.pop (by simp)
    refine ⟨?_, ?_, ?_⟩
    · show Inv s1.fu
      rw [f1]; exact k.fi
    · show PInv c.trans s1.fu s1.sent ((s1.say (.ready d)).say (.effStart d st.nx e)).log
        (holders s1.queue (_ :: s1.ev))
      rw [hlog, f1, f2, f3, f4]
      refine (kp.say ?_).perm (holders_call q ⟨st.nx, 0, .call e, [], .store d i⟩ st.ev)
      intro d' r h
      rcases hes h with ⟨v, h⟩ | h | h <;> cases h
    · show QInv s1.fu s1.sent ((s1.say (.ready d)).say (.effStart d st.nx e)).log s1.queue (_ :: s1.ev)
      rw [hlog, f1, f2, f3, f4]
      exact {
        pub := fun d' i' h => by
          obtain ⟨m0, a0, m1, e0, h1, h2⟩ := kq1.pub d' i' h
          exact ⟨m0, a0, m1, e0, List.mem_append_left _ h1, h2⟩
        eff := fun d' e' i' h => by
          obtain ⟨⟨m0, a0, m1, h1⟩, h2⟩ := kq1.eff d' e' i' h
          exact ⟨⟨m0, a0, m1, List.mem_append_left _ h1⟩, h2⟩
        frames := fun f hf d' i' hk => by
          rcases List.mem_cons.1 hf with rfl | hf
          · cases hk; exact hrun
          · exact (kq1.frames f hf d' i' hk).mono
        empty := fun d' i' s' m0 a0 m1 e0 hs hr he => by
          rcases List.mem_append.1 hr with hr | hr
          · exact (kq1.empty d' i' s' m0 a0 m1 e0 hs hr he).imp id fun h =>
              h.imp id fun ⟨o, h⟩ => ⟨o, List.mem_append_left _ h⟩
          · rcases hes hr with ⟨v, h⟩ | h | h <;> cases h
        run := fun d' x' e' he => by
          rcases List.mem_append.1 he with he | he
          · rcases kq1.run d' x' e' he with ⟨f, hf, h⟩ | ⟨r, h⟩ | ⟨p, h⟩
            · exact Or.inl ⟨f, List.mem_cons_of_mem _ hf, h⟩
            · exact Or.inr (Or.inl ⟨r, List.mem_append_left _ h⟩)
            · exact Or.inr (Or.inr ⟨p, List.mem_append_left _ h⟩)
          · rcases hes he with ⟨v, h⟩ | h | h
            · cases h
            · cases h
            · cases h
              exact Or.inl ⟨_, List.mem_cons_self, rfl, i, rfl⟩
        red := fun d' m0 a0 m1 e0 hr => by
          rcases List.mem_append.1 hr with hr | hr
          · exact kq1.red _ _ _ _ _ hr
          · rcases hes hr with ⟨v, h⟩ | h | h <;> cases h
        jobs := kq1.jobs
        rdy := kq1.rdy.app (fun d' h => by
          rcases hes h with ⟨v, h⟩ | h | h
          · cases h
          · cases h; exact ⟨m0, a0, m1, e, hred⟩
          · cases h) }
  · -- publication
    rename_i d i q hq
    have kp := k.p
    have kq := k.q
    rw [hq] at kp kq
    rw [holders_pop] at kp
    have kp : PInv c.trans st.fu st.sent st.log ((d, i) :: holders q st.ev) := kp
    obtain ⟨f1, f2, f3, f4, es, f5, f6⟩ := publish_fields c { st with queue := q }
    generalize hs0 : ({ st with queue := q } : St A Mo).publish c = s0 at *
    have f1 : s0.fu = st.fu := f1
    have f2 : s0.sent = st.sent := f2
    have f3 : s0.queue = q := f3
    have f4 : s0.ev = st.ev := f4
    have hlog : (s0.say (.ready d)).log = st.log ++ (es ++ [.ready d]) := by
      show s0.log ++ _ = _
      rw [f5]; simp
    have hes : ∀ {x : SEv A Mo}, x ∈ es ++ [.ready d] → (∃ v, x = .shown v) ∨ x = .ready d := by
      intro x hx
      rcases List.mem_append.1 hx with hx | hx
      · exact Or.inl (f6 _ hx)
      · simp at hx; exact Or.inr hx
    simp only [St.complete, hF, if_true] at h
    obtain ⟨h1, h2, _, h4, _, n, h6⟩ := fstep_fu h
    have h7 := (fstep_toks h).sent
    have h1 : Future.step s0.fu (.fulfil i) = some s1.fu := h1
    have h2 : s1.ev = s0.ev := h2
    have h6 : s1.queue = s0.queue ++ List.replicate n .tok := h6
    have h7 : s1.sent = s0.sent := h7
    rw [f1] at h1
    obtain ⟨m0, a0, m1, e0, hred, hem⟩ := kq.pub d i List.mem_cons_self
    have p0 := kp.say (es := es ++ [SEv.ready d]) (by
      intro d' r h
      rcases hes h with ⟨v, h⟩ | h <;> cases h)
    have hc : Compl c.trans st.fu (st.log ++ (es ++ [SEv.ready d])) d :=
      Or.inl ⟨m0, a0, m1, e0, List.mem_append_left _ hred, hem, fun _ => by simp⟩
    have p1 := p0.own k.fi h1 hu (Or.inl ⟨rfl, rfl, hc⟩)
    rw [List.append_nil] at p1
    refine ⟨step_inv k.fi h1 hu, ?_, ?_⟩
    · rw [h2, h4, hlog, h6, h7, f2, f3, f4, holders_toks]; exact p1
    · rw [h2, h4, hlog, h6, h7, f2, f3, f4]
      refine QInv.toks ?_ n
      have kq1 := kq.next (es := es ++ [SEv.ready d]) (k.le (Future.step_le k.fi h1 hu)) (by
        intro _ _ _ _ _ h
        rcases hes h with ⟨v, h⟩ | h <;> cases h) (by
        intro _ _ _ h
        rcases hes h with ⟨v, h⟩ | h <;> cases h) (by
        intro d' h
        rcases hes h with ⟨v, h⟩ | h <;> cases h
        exact ⟨m0, a0, m1, e0, hred⟩)
      obtain ⟨s, hs0, hp0⟩ := kp.hold d i List.mem_cons_self
      have hdone : (s1.fu.cell s).done = true := by
        generalize s1.fu = fu1 at h1
        cases Future.step_out h1 with
        | threw hp => rw [hp0] at hp; cases hp
        | fulfil hp => rw [hp0] at hp; cases hp; simp [Future.fulfil_cell]
      exact { kq1 with
        pub := fun d i h => kq1.pub d i (List.mem_cons_of_mem _ h)
        eff := fun d e i h => kq1.eff d e i (List.mem_cons_of_mem _ h)
        empty := fun d' i' s' m a m' e hs hr he => by
          rcases kq1.empty d' i' s' m a m' e hs hr he with h | h | h
          · exact Or.inl h
          · rcases List.mem_cons.1 h with h | h
            · cases h
              rw [hs0] at hs
              cases hs
              exact Or.inl hdone
            · exact Or.inr (Or.inl h)
          · exact Or.inr (Or.inr h)
        jobs := fun x h => kq1.jobs x (List.mem_cons_of_mem _ h) }
  · rename_i q hq
    have k1 : PI c { st with queue := q } := by
      have kp := k.p
      have kq := k.q
      rw [hq] at kp kq
      rw [holders_pop] at kp
      exact ⟨k.fi, kp, kq.pop (by simp)⟩
    exact k1.runTask h hu

theorem PI.loopRaise {c : Cfg A Mo} {st s1 : St A Mo} (k : PI c st) (h : st.loopRaise c = some s1) :
    PI c s1 := by
  obtain ⟨x, q, d, o, hq, hx, _, _, rfl⟩ := loopRaise_some h
  have kp := k.p
  have kq := k.q
  rw [hq] at kp kq
  rw [holders_pop] at kp
  obtain ⟨i, hj⟩ : ∃ i, x.job = some (d, i) := by
    rcases hx with ⟨e, i, rfl, _⟩ | ⟨i, rfl, _⟩ <;> exact ⟨i, rfl⟩
  rw [hj] at kp
  have kp : PInv c.trans st.fu st.sent st.log ((d, i) :: holders q st.ev) := kp
  obtain ⟨f1, f2, f3, f4, es, f5, f6⟩ := publish_fields c { st with queue := q }
  generalize hs0 : ({ st with queue := q } : St A Mo).publish c = s0 at *
  have f1 : s0.fu = st.fu := f1
  have f2 : s0.sent = st.sent := f2
  have f3 : s0.queue = q := f3
  have f4 : s0.ev = st.ev := f4
  have hlog : (s0.say (.lost d o)).log = st.log ++ (es ++ [.lost d o]) := by
    show s0.log ++ _ = _
    rw [f5]; simp
  have hes : ∀ {x : SEv A Mo}, x ∈ es ++ [.lost d o] → (∃ v, x = .shown v) ∨ x = .lost d o := by
    intro x hx
    rcases List.mem_append.1 hx with hx | hx
    · exact Or.inl (f6 _ hx)
    · simp at hx; exact Or.inr hx
  refine ⟨?_, ?_, ?_⟩
  · show Inv s0.fu
    rw [f1]; exact k.fi
  · show PInv c.trans s0.fu s0.sent (s0.say (.lost d o)).log (holders s0.queue s0.ev)
    rw [hlog, f1, f2, f3, f4]
    refine (kp.say ?_).sub
    intro d' r h
    rcases hes h with ⟨v, h⟩ | h <;> cases h
  · show QInv s0.fu s0.sent (s0.say (.lost d o)).log s0.queue s0.ev
    rw [hlog, f1, f2, f3, f4]
    refine (kq.next (fun _ _ _ _ h => h) ?_ ?_ ?_).pop ?_
    · intro _ _ _ _ _ h
      rcases hes h with ⟨v, h⟩ | h <;> cases h
    · intro _ _ _ h
      rcases hes h with ⟨v, h⟩ | h <;> cases h
    · intro _ h
      rcases hes h with ⟨v, h⟩ | h <;> cases h
    · intro d' i' h
      rcases hx with ⟨e, i, rfl, _⟩ | ⟨i, rfl, _⟩
      · cases h
      · cases h; exact ⟨o, by simp⟩

theorem PI.go {c : Cfg A Mo} (hF : c.hasF = true) {st s1 : St A Mo} (k : PI c st) {n : Nat} {f : EF}
    (hn : st.ev[n]? = some f) (h : { st with ev := st.ev.eraseIdx n }.go c f = some s1)
    (hu : s1.fu.ub = false) : PI c s1 := by
  -- the call goes on
  have hmove : ∀ {f' : EF}, f'.x = f.x → f'.k = f.k →
      PI c { st with ev := f' :: st.ev.eraseIdx n } := fun hx hk =>
    ⟨k.fi, k.p.perm (holders_swap st.queue hn hk), k.q.swap hn hx hk⟩
  -- a call by a closure ends
  have hdrop : (∀ d i, f.k ≠ .store d i) → PI c { st with ev := st.ev.eraseIdx n } := by
    intro hk
    have hc : f.call = none := by
      unfold EF.call
      split
      · rename_i h; exact absurd h (hk _ _)
      · rfl
    have := holders_erase st.queue hn
    rw [hc] at this
    exact ⟨k.fi, k.p.perm this, k.q.drop hn (fun d i h => absurd h (hk d i))⟩
  unfold St.go at h
  dsimp only at h
  split at h
  · cases h
  · cases h; exact hmove rfl rfl
  · cases h
    refine (hmove (f' := { f with mode := .prim _ }) rfl rfl).say (es := [_]) rfl rfl rfl rfl rfl ?_ ?_ ?_ ?_ <;> simp
  · cases h; exact hmove rfl rfl
  · cases h
  · rename_i o hm
    split at h
    · rename_i b ks hks
      split at h
      · rename_i j s hr
        simp only [Option.map_eq_some_iff] at h
        obtain ⟨s2, h, rfl⟩ := h
        have hop : ∀ d i s : Nat, st.sent[d]? = some (i, s) →
            ¬ (Op.then j true).takesP i ∧ Op.then j true ≠ .copyP i :=
          fun _ _ _ _ => ⟨fun h => h, fun h => (nomatch h)⟩
        obtain ⟨h1, h2, _, h4, _, m, h6⟩ := fstep_fu h
        have h7 := (fstep_toks h).sent
        have fi' := step_inv k.fi h1 hu
        have p1 := k.p.bg k.fi fi' h1 hu hop
        have q1 := (k.q.fut (k.le (Future.step_le k.fi h1 hu))).toks m
        have h2 : s2.ev = st.ev.eraseIdx n := h2
        have h4 : s2.log = st.log := h4
        have h6 : s2.queue = st.queue ++ List.replicate m .tok := h6
        have h7 : s2.sent = st.sent := h7
        refine ⟨fi', ?_, ?_⟩
        · show PInv c.trans s2.fu s2.sent s2.log (holders s2.queue (_ :: s2.ev))
          rw [h2, h4, h6, h7, holders_toks]
          exact p1.perm (holders_swap st.queue hn rfl)
        · show QInv s2.fu s2.sent s2.log s2.queue (_ :: s2.ev)
          rw [h2, h4, h6, h7]
          exact q1.swap hn rfl rfl
      · cases h; exact hmove rfl rfl
    · rename_i hks
      split at h
      · -- the effect of a dispatch has returned
        rename_i d i hk
        simp only [hF, if_true] at h
        have hcall : f.call = some (d, i) := by unfold EF.call; rw [hk]
        have hpm := holders_erase st.queue hn
        rw [hcall] at hpm
        have kp : PInv c.trans st.fu st.sent st.log ((d, i) :: holders st.queue (st.ev.eraseIdx n)) :=
          k.p.perm hpm
        have hrun : RunX st.log d f.x := k.q.frames f (List.mem_of_getElem? hn) d i hk
        generalize hr : (o.bind fun i => st.fu.futs[i]?).join = r at h
        have key : ∀ {op : Op} {s2 : St A Mo}, ({ st with ev := st.ev.eraseIdx n }.say (.effEnd d r)).fstep op =
            some s2 → s2.fu.ub = false →
            ((op = .fulfil i ∧ r = none) ∨ ∃ j, op = .thenP j i ∧ st.fu.futs[j]? = some r) → PI c s2 := by
          intro op s2 h hu hop
          obtain ⟨h1, h2, _, h4, _, m, h6⟩ := fstep_fu h
          have h7 := (fstep_toks h).sent
          have h1 : Future.step st.fu op = some s2.fu := h1
          have h2 : s2.ev = st.ev.eraseIdx n := h2
          have h4 : s2.log = st.log ++ [.effEnd d r] := h4
          have h6 : s2.queue = st.queue ++ List.replicate m .tok := h6
          have h7 : s2.sent = st.sent := h7
          have p1 := kp.own (es := [SEv.effEnd d r]) k.fi h1 hu (Or.inr ⟨r, f.x, rfl, hrun, hop⟩)
          refine ⟨step_inv k.fi h1 hu, ?_, ?_⟩
          · rw [h2, h4, h6, h7, holders_toks]; exact p1
          · rw [h2, h4, h6, h7]
            refine QInv.toks ?_ m
            have q1 := k.q.next (es := [SEv.effEnd d r]) (k.le (Future.step_le k.fi h1 hu)) (by simp) (by simp)
            refine q1.drop hn ?_
            intro d' i' hk'
            rw [hk] at hk'
            cases hk'
            exact Or.inl ⟨r, by simp⟩
        split at h
        · rename_i j
          refine key h hu (Or.inr ⟨j, rfl, ?_⟩)
          have h1 := (fstep_fu h).1
          have h1 : Future.step st.fu (.thenP j i) = some s1.fu := h1
          generalize s1.fu = fu1 at h1
          have hf : ∃ r', st.fu.futs[j]? = some r' := by
            cases Future.step_out h1 with
            | thenPS hf _ => exact ⟨_, hf⟩
            | thenPN hf _ => exact ⟨_, hf⟩
          obtain ⟨r', hf⟩ := hf
          rw [← hr]
          simp [hf]
        · refine key h hu (Or.inl ⟨rfl, ?_⟩)
          rw [← hr]; rfl
      · rename_i tc hk
        have k1 := hdrop (fun d i h => by rw [hk] at h; cases h)
        simp only [Option.bind_eq_some_iff] at h
        obtain ⟨w, _, h⟩ := h
        split at h
        · exact k1.fut h hu (fun _ _ _ _ => ⟨fun h => h, fun h => (nomatch h)⟩)
        · simp only [Option.bind_eq_some_iff] at h
          obtain ⟨s2, h, h2⟩ := h
          have hu2 : s2.fu.ub = false := Future.step_ub (fstep_fu h2).1
          exact (k1.fut h hu2 (fun _ _ _ _ => ⟨fun h => h, fun h => (nomatch h)⟩)).fut h2 hu
            (fun _ _ _ _ => ⟨fun h => h, fun h => (nomatch h)⟩)

theorem pi_step {c : Cfg A Mo} (hF : c.hasF = true) {st st' : St A Mo} (k : PI c st) {op : SOp A}
    (h : step c st op = some st') (hu : st'.fu.ub = false) : PI c st' := by
  cases op with
  | dispatch a => exact k.dispatch hF h hu
  | loop => exact k.loop hF h hu
  | loopRaise => exact k.loopRaise h
  | other l =>
    simp only [step] at h
    split at h
    · cases h
    · exact k.runTask h hu
  | fut op =>
    simp only [step] at h
    split at h
    · rename_i hal
      refine k.fut h hu ?_
      intro d i s hs
      have ho : st.own i := ⟨(i, s), List.mem_of_getElem? hs, rfl⟩
      refine ⟨fun ht => ?_, fun ht => ?_⟩
      · cases op with
        | fulfil j => have : j = i := ht; subst this; exact hal ho
        | thenP a j => have : j = i := ht; subst this; exact hal.2 ho
        | _ => exact ht
      · subst ht
        exact hal ho
    · cases h
  | go n =>
    simp only [step] at h
    split at h
    · cases h
    · rename_i f hn
      exact k.go hF hn h hu
  | prim n o =>
    simp only [step] at h
    split at h
    · rename_i x pos id ks kk hn
      split at h
      · cases h
        have k1 : PI c { st with ev := ⟨x, pos + 1, .got o, ks, kk⟩ :: st.ev.eraseIdx n } :=
          ⟨k.fi, k.p.perm (holders_swap st.queue hn rfl), k.q.swap hn rfl rfl⟩
        refine k1.say (es := [_]) rfl rfl rfl rfl rfl ?_ ?_ ?_ ?_ <;> simp
      · cases h
    · cases h
  | raise n =>
    simp only [step] at h
    split at h
    · rename_i x pos id ks d i hn
      cases h
      have hpm := holders_erase st.queue hn
      refine ⟨k.fi, ?_, ?_⟩
      · exact ((k.p.say (es := [SEv.primThrew x pos]) (by simp)).perm hpm).sub
      · exact (k.q.next (es := [SEv.primThrew x pos]) (fun _ _ _ _ h => h) (by simp) (by simp)).drop hn
          (fun _ _ _ => Or.inr ⟨pos, by simp⟩)
    · rename_i x pos id ks t hn
      simp only [Option.bind_eq_some_iff] at h
      obtain ⟨m, hm, h⟩ := h
      have hpm := holders_erase st.queue hn
      have k1 : PI c ({ st.say (.primThrew x pos) with ev := st.ev.eraseIdx n } : St A Mo) := by
        refine ⟨k.fi, ?_, ?_⟩
        · exact (k.p.say (es := [SEv.primThrew x pos]) (by simp)).perm hpm
        · exact (k.q.next (es := [SEv.primThrew x pos]) (fun _ _ _ _ h => h) (by simp) (by simp)).drop hn
            (fun _ _ _ => Or.inr ⟨pos, by simp⟩)
      exact k1.fut h hu (fun _ _ _ _ => ⟨fun h => h, fun h => (nomatch h)⟩)
    · cases h
  | commit =>
    simp only [step] at h
    split at h
    · cases h; exact k.send
    · cases h

theorem pi_start (c : Cfg A Mo) : PI c (start c) := by
  refine ⟨Future.inv_start, ?_, ?_⟩
  · constructor <;> simp [start, holders, Future.start]
  · constructor <;> simp [start, RdyOK]

theorem Reach.pi {c : Cfg A Mo} (hF : c.hasF = true) {st : St A Mo} (r : Reach c st)
    (hu : st.fu.ub = false) : PI c st := by
  induction r with
  | start => exact pi_start c
  | step op _ h ih => exact pi_step hF (ih (step_ub h hu)) h hu

end Verif.Store
