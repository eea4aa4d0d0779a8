import Verif.Store.Threads

/-!
With one thread in tasks at a time, tasks may be thought of as single steps.
-/

namespace Verif.Store

variable {A Mo : Type}

/-! ### Logs -/

theorem SameLog.refl (l : List (SEv A Mo)) : SameLog l l := ⟨rfl, rfl⟩

theorem SameLog.append {l l' m m' : List (SEv A Mo)} (h : SameLog l l') (k : SameLog m m') :
    SameLog (l ++ m) (l' ++ m') :=
  ⟨by rw [List.filter_append, List.filter_append, h.1, k.1],
   by rw [List.filter_append, List.filter_append, h.2, k.2]⟩

theorem SameLog.snoc {l l' : List (SEv A Mo)} (h : SameLog l l') (e : SEv A Mo) :
    SameLog (l ++ [e]) (l' ++ [e]) := h.append (.refl _)

/-- An event of a task changes places with others. -/
theorem SameLog.swap {l l' m : List (SEv A Mo)} {t : List (SEv A Mo)} (h : SameLog (l ++ t) l')
    (ht : ∀ e ∈ t, e.isTask = true) (hm : ∀ e ∈ m, e.isTask = false) :
    SameLog ((l ++ m) ++ t) (l' ++ m) := by
  have e1 : m.filter SEv.isTask = [] := by
    rw [List.filter_eq_nil_iff]; intro e he; rw [hm e he]; simp
  have e2 : t.filter (fun e => !e.isTask) = [] := by
    rw [List.filter_eq_nil_iff]; intro e he; rw [ht e he]; simp
  obtain ⟨h1, h2⟩ := h
  rw [List.filter_append] at h1 h2
  refine ⟨?_, ?_⟩
  · rw [List.filter_append, List.filter_append, List.filter_append, e1, ← h1]; simp
  · rw [List.filter_append, List.filter_append, List.filter_append, e2, ← h2, e2]; simp

/-! ### Frames -/

/-- Another state with the same futures, promises and calls of effects. -/
def St.patch (st : St A Mo) (cur last : Mo) (dirty ntf : Bool) (q : List (Item A)) (l : List (SEv A Mo)) :
    St A Mo :=
  { st with cur := cur, last := last, dirty := dirty, ntf := ntf, queue := q, log := l }

/-- What user code does appends to the queue and to the log, and neither looks at them nor at the members of
the store. -/
def Uni (F : St A Mo → Option (St A Mo)) : Prop :=
  ∀ (s : St A Mo) a b x y Q L, F (s.patch a b x y Q L) =
    (F (s.patch s.cur s.last s.dirty s.ntf [] [])).map fun t => t.patch a b x y (Q ++ t.queue) (L ++ t.log)

theorem fstep_uni (op : Future.Op) : Uni (fun s : St A Mo => s.fstep op) := by
  intro s a b x y Q L
  show (Future.step s.fu op).map _ = ((Future.step s.fu op).map _).map _
  cases Future.step s.fu op with
  | none => rfl
  | some fu => simp [St.patch]

theorem fstep_patch (op : Future.Op) (s : St A Mo) (a b x y Q L) : (s.patch a b x y Q L).fstep op =
    ((s.patch s.cur s.last s.dirty s.ntf [] []).fstep op).map fun t =>
      t.patch a b x y (Q ++ t.queue) (L ++ t.log) := fstep_uni op s a b x y Q L

theorem Uni.bind {F : St A Mo → Option (St A Mo)} {H : St A Mo → Option (St A Mo)} (hF : Uni F) (hH : Uni H) :
    Uni (fun s => (F s).bind H) := by
  intro s a b x y Q L
  dsimp only
  rw [hF s a b x y Q L]
  cases F (s.patch s.cur s.last s.dirty s.ntf [] []) with
  | none => rfl
  | some t =>
    simp only [Option.map_some, Option.bind_some]
    rw [hH t a b x y]
    have h := hH t t.cur t.last t.dirty t.ntf t.queue t.log
    rw [show t.patch t.cur t.last t.dirty t.ntf t.queue t.log = t from rfl] at h
    rw [h]
    cases H (t.patch t.cur t.last t.dirty t.ntf [] []) with
    | none => rfl
    | some r => simp [St.patch]

theorem dispatch_uni (c : Cfg A Mo) (a : A) : Uni (fun s : St A Mo => s.dispatch c a) := by
  intro s m b x y Q L
  dsimp only
  unfold St.dispatch
  simp only [fstep_uni _ s m b x y Q L]
  cases (s.patch s.cur s.last s.dirty s.ntf [] []).fstep (if c.hasF then .newPair 0 else .invalid) with
  | none => rfl
  | some t => simp [St.patch, St.post, St.say]

theorem runTask_uni (l : Nat) : Uni (fun s : St A Mo => s.runTask l) := by
  intro s m b x y Q L
  dsimp only
  unfold St.runTask
  simp only [fstep_uni _ s m b x y Q L]
  show (match s.fu.queue l with | [] => _ | t :: _ => _) = Option.map _ (match s.fu.queue l with | [] => _ | t :: _ => _)
  cases s.fu.queue l with
  | nil => rfl
  | cons t ts =>
    dsimp only
    cases (s.patch s.cur s.last s.dirty s.ntf [] []).fstep (.run l) with
    | none => rfl
    | some r =>
      simp only [Option.map_some, show ∀ a b x y Q L, (s.patch a b x y Q L).tag = s.tag from fun _ _ _ _ _ _ => rfl]
      cases s.tag t.c with
      | none => simp [St.patch]
      | some z => simp [St.patch]

theorem go_uni (c : Cfg A Mo) (f : EF) : Uni (fun s : St A Mo => s.go c f) := by
  intro s m b x y Q L
  dsimp only
  unfold St.go
  simp only [fstep_uni _ s m b x y Q L]
  obtain ⟨fx, pos, mode, ks, k⟩ := f
  cases mode with
  | call e => cases e <;> simp [St.patch, St.say]
  | prim _ => rfl
  | got o =>
    simp only [show ∀ a b x y Q L, (s.patch a b x y Q L).fu = s.fu from fun _ _ _ _ _ _ => rfl,
      show ∀ a b x y Q L, (s.patch a b x y Q L).tag = s.tag from fun _ _ _ _ _ _ => rfl]
    generalize hr : (o.bind fun i => s.fu.futs[i]?).join = r
    cases ks with
    | cons e ks =>
      cases o with
      | none => simp [St.patch]
      | some i =>
        cases r with
        | none => simp [St.patch]
        | some _ =>
          dsimp only
          cases (s.patch s.cur s.last s.dirty s.ntf [] []).fstep (.then i true) with
          | none => rfl
          | some t => simp [St.patch]
    | nil =>
      cases k with
      | store d i =>
        dsimp only
        have hs : ∀ a b x y Q L, (s.patch a b x y Q L).say (.effEnd d r) = s.patch a b x y Q (L ++ [.effEnd d r]) :=
          fun _ _ _ _ _ _ => rfl
        simp only [hs]
        cases c.hasF with
        | false => simp [St.patch]
        | true =>
          cases o with
          | none =>
            simp only [if_true]
            rw [fstep_patch (.fulfil i) s, fstep_patch (.fulfil i) s s.cur _ _ _ _ ([] ++ _)]
            cases (s.patch s.cur s.last s.dirty s.ntf [] []).fstep (.fulfil i) with
            | none => rfl
            | some t => simp [St.patch]
          | some j =>
            simp only [if_true]
            rw [fstep_patch (.thenP j i) s, fstep_patch (.thenP j i) s s.cur _ _ _ _ ([] ++ _)]
            cases (s.patch s.cur s.last s.dirty s.ntf [] []).fstep (.thenP j i) with
            | none => rfl
            | some t => simp [St.patch]
      | clo t =>
        dsimp only
        cases findRun t s.fu.active with
        | none => rfl
        | some k =>
          cases o with
          | some i =>
            simp only [Option.bind_some]
          | none =>
            simp only [Option.bind_some]
            have := Uni.bind (fstep_uni .invalid)
              (H := fun s1 => s1.fstep (.retF k (s1.fu.futs.length - 1)))
              (fun s a b x y Q L => fstep_uni (.retF k (s.fu.futs.length - 1)) s a b x y Q L)
              s m b x y Q L
            dsimp only at this
            rw [fstep_patch .invalid s m b x y Q L] at this
            exact this

theorem step_uni (c : Cfg A Mo) (op : SOp A) (h : op.isUser = true) : Uni (fun s : St A Mo => step c s op) := by
  cases op with
  | dispatch a => exact dispatch_uni c a
  | loop => cases h
  | loopRaise => cases h
  | commit => cases h
  | other l =>
    intro s a b x y Q L
    simp only [step]
    by_cases hl : l = 0
    · rw [if_pos hl, if_pos hl]; rfl
    · rw [if_neg hl, if_neg hl]; exact runTask_uni l s a b x y Q L
  | fut op =>
    intro s a b x y Q L
    simp only [step]
    have e : ∀ a b x y Q L, (s.patch a b x y Q L).allowed op ↔ s.allowed op := by
      intro a b x y Q L; cases op <;> exact Iff.rfl
    by_cases hl : s.allowed op
    · rw [if_pos ((e ..).2 hl), if_pos ((e ..).2 hl)]; exact fstep_uni op s a b x y Q L
    · rw [if_neg (fun h => hl ((e ..).1 h)), if_neg (fun h => hl ((e ..).1 h))]; rfl
  | go n =>
    intro s a b x y Q L
    simp only [step]
    show (match s.ev[n]? with | none => _ | some f => _) = Option.map _ (match s.ev[n]? with | none => _ | some f => _)
    cases s.ev[n]? with
    | none => rfl
    | some f => exact go_uni c f { s with ev := s.ev.eraseIdx n } a b x y Q L
  | prim n o =>
    intro s a b x y Q L
    simp only [step, show ∀ a b x y Q L, (s.patch a b x y Q L).ev = s.ev from fun _ _ _ _ _ _ => rfl,
      show ∀ a b x y Q L, (s.patch a b x y Q L).fu = s.fu from fun _ _ _ _ _ _ => rfl,
      show ∀ a b x y Q L i, (s.patch a b x y Q L).held i = s.held i from fun _ _ _ _ _ _ _ => rfl]
    split
    · split
      · simp [St.patch, St.say]
      · rfl
    · rfl
  | raise n =>
    intro s a b x y Q L
    simp only [step, show ∀ a b x y Q L, (s.patch a b x y Q L).ev = s.ev from fun _ _ _ _ _ _ => rfl,
      show ∀ a b x y Q L, (s.patch a b x y Q L).fu = s.fu from fun _ _ _ _ _ _ => rfl]
    split
    · simp [St.patch, St.say]
    · rename_i fx pos id ks t _
      cases findRun t s.fu.active with
      | none => rfl
      | some k =>
        simp only [Option.bind_some]
        have e1 := fstep_uni (.raise k) { s with ev := s.ev.eraseIdx n } a b x y Q (L ++ [.primThrew fx pos])
        have e2 := fstep_uni (.raise k) { s with ev := s.ev.eraseIdx n } s.cur s.last s.dirty s.ntf []
          ([.primThrew fx pos])
        refine e1.trans (.trans ?_ (congrArg (Option.map _) e2.symm))
        dsimp only
        generalize St.fstep _ (.raise k) = z
        cases z with
        | none => rfl
        | some t => simp [St.patch]
    · rfl

/-! ### What user code logs -/

theorem fstep_log {s t : St A Mo} {op : Future.Op} (h : s.fstep op = some t) : t.log = s.log :=
  (fstep_toks h).log

/-- It logs no events of tasks. -/
def Quiet (s t : St A Mo) : Prop := ∃ l, t.log = s.log ++ l ∧ ∀ e ∈ l, SEv.isTask e = false

theorem Quiet.of_eq {s t : St A Mo} (h : t.log = s.log) : Quiet s t :=
  ⟨[], by rw [h, List.append_nil], fun _ h => nomatch h⟩

theorem Quiet.one {s t : St A Mo} {e : SEv A Mo} (h : t.log = s.log ++ [e]) (he : e.isTask = false) : Quiet s t :=
  ⟨[e], h, fun x hx => by cases List.mem_singleton.1 hx; exact he⟩

theorem go_quiet (c : Cfg A Mo) (f : EF) {s t : St A Mo} (h : s.go c f = some t) : Quiet s t := by
  obtain ⟨fx, pos, mode, ks, k⟩ := f
  unfold St.go at h
  cases mode with
  | prim _ => cases h
  | call e =>
    cases e with
    | empty => cases h
    | noop => cases h; exact .of_eq rfl
    | prim id => cases h; exact .one rfl rfl
    | seq a b => cases h; exact .of_eq rfl
  | got o =>
    dsimp only at h
    cases ks with
    | cons e ks =>
      dsimp only at h
      split at h
      · simp only [Option.map_eq_some_iff] at h
        obtain ⟨s2, h2, rfl⟩ := h
        have h3 := fstep_log h2
        exact .of_eq h3
      · cases h; exact .of_eq rfl
    | nil =>
      cases k with
      | store d i =>
        dsimp only at h
        split at h
        · split at h
          · exact .one (fstep_log h) rfl
          · exact .one (fstep_log h) rfl
        · cases h; exact .one rfl rfl
      | clo n =>
        dsimp only at h
        rw [Option.bind_eq_some_iff] at h
        obtain ⟨k, _, h⟩ := h
        split at h
        · exact .of_eq (fstep_log h)
        · rw [Option.bind_eq_some_iff] at h
          obtain ⟨s1, h1, h⟩ := h
          exact .of_eq ((fstep_log h).trans (fstep_log h1))

theorem user_quiet (c : Cfg A Mo) {op : SOp A} (hu : op.isUser = true) {s t : St A Mo}
    (h : step c s op = some t) : Quiet s t := by
  cases op with
  | loop => cases hu
  | loopRaise => cases hu
  | commit => cases hu
  | dispatch a =>
    simp only [step, St.dispatch, Option.map_eq_some_iff] at h
    obtain ⟨s1, h1, rfl⟩ := h
    refine .one (e := .dispatched s.sent.length a) ?_ rfl
    show s1.log ++ _ = _
    rw [fstep_log h1]
  | other l =>
    simp only [step] at h
    split at h
    · cases h
    · exact .of_eq (runTask_toks h).log
  | fut op =>
    simp only [step] at h
    split at h
    · exact .of_eq (fstep_log h)
    · cases h
  | go n =>
    simp only [step] at h
    split at h
    · cases h
    · obtain ⟨l, h1, h2⟩ := go_quiet c _ h
      exact ⟨l, h1, h2⟩
  | prim n o =>
    simp only [step] at h
    split at h
    · split at h
      · cases h; exact .one rfl rfl
      · cases h
    · cases h
  | raise n =>
    simp only [step] at h
    split at h
    · cases h; exact .one rfl rfl
    · rw [Option.bind_eq_some_iff] at h
      obtain ⟨k, _, h⟩ := h
      exact .one (fstep_log h) rfl
    · cases h

/-- A step from the state and from any other with the same futures, promises and calls. -/
theorem uni_frame {F : St A Mo → Option (St A Mo)} (hF : Uni F) (hq : ∀ s t, F s = some t → Quiet s t)
    {t t' : St A Mo} (h : F t = some t') :
    ∃ q l, (∀ e ∈ l, SEv.isTask e = false) ∧ t'.cur = t.cur ∧ t'.last = t.last ∧ t'.dirty = t.dirty ∧
      t'.ntf = t.ntf ∧ t'.queue = t.queue ++ q ∧ t'.log = t.log ++ l ∧
      ∀ a b x y Q L, F (t.patch a b x y Q L) = some (t'.patch a b x y (Q ++ q) (L ++ l)) := by
  have u := hF t
  have e := u t.cur t.last t.dirty t.ntf t.queue t.log
  rw [show t.patch t.cur t.last t.dirty t.ntf t.queue t.log = t from rfl] at e
  rw [h] at e
  cases hb : F (t.patch t.cur t.last t.dirty t.ntf [] []) with
  | none => rw [hb] at e; cases e
  | some r =>
    rw [hb] at e
    simp only [Option.map_some, Option.some.injEq] at e
    obtain ⟨l, h1, h2⟩ := hq _ _ hb
    have hl : r.log = l := by rw [h1]; rfl
    refine ⟨r.queue, r.log, by rw [hl]; exact h2, by rw [e]; rfl, by rw [e]; rfl, by rw [e]; rfl, by rw [e]; rfl,
      by rw [e]; rfl, by rw [e]; rfl, ?_⟩
    intro a b x y Q L
    rw [u, hb, e]
    rfl

theorem complete_uni (c : Cfg A Mo) (i : Nat) : Uni (fun s : St A Mo => s.complete c i) := by
  intro s a b x y Q L
  simp only [St.complete]
  by_cases h : c.hasF = true
  · rw [if_pos h, if_pos h]; exact fstep_uni _ s a b x y Q L
  · rw [if_neg h, if_neg h]; simp [St.patch]

/-! ### The relation -/

/-- The members of the store. -/
def St.node (s : St A Mo) : Mo × Mo × Bool × Bool := (s.cur, s.last, s.dirty, s.ntf)

/-- Of the proof: `send_down`, if a task calls it. -/
def sendIf (c : Cfg A Mo) (it : Option (Item A)) (s : St A Mo) : St A Mo := if sends c it then s.sendDown else s

/-- Of the proof: `send_down` and `notify`, if a task calls them. -/
def pubIf (c : Cfg A Mo) (it : Option (Item A)) (s : St A Mo) : St A Mo :=
  if sends c it then s.sendDown.notify else s

/-- What it logs. -/
def pubLog (c : Cfg A Mo) (it : Option (Item A)) (s : St A Mo) : List (SEv A Mo) :=
  if sends c it && s.dirty then [.shown s.cur] else []

/-- The tasks that publish, and `commit`. -/
def Pubs (c : Cfg A Mo) : Option (Item A) → Prop
  | none => c.trans = true
  | some (.effect _ _ _) => True
  | some (.publish _ _) => True
  | _ => False

/-- How the members, the queue and the log of the state where tasks are steps, `s`, agree with those where
they are not, `t`. -/
def Here (c : Cfg A Mo) : List (Job A Mo) → St A Mo → St A Mo → Prop
  | [], s, t => s.node = t.node ∧ s.queue = t.queue ∧ SameLog s.log t.log
  | [.reducing d a i], s, t => s.node = t.node ∧ s.queue = .reduce d a i :: t.queue ∧ SameLog s.log t.log
  | [.pushing v], s, t => s.node = (t.pushDown c v).node ∧ s.queue = t.queue ∧ SameLog s.log t.log
  | [.sending it], s, t =>
    s.node = t.node ∧ s.queue = it.toList ++ t.queue ∧ SameLog s.log t.log ∧ Pubs c it
  | [.notifying it], s, t =>
    (sendIf c it s).node = t.node ∧ s.queue = it.toList ++ t.queue ∧ SameLog s.log t.log ∧ Pubs c it
  | [.watching it called], s, t =>
    (pubIf c it s).node = t.node ∧ s.queue = it.toList ++ t.queue ∧ SameLog (s.log ++ pubLog c it s) t.log ∧
      Pubs c it ∧ called = (sends c it && s.dirty)
  | _, _, _ => False

/-- Of the proof: the relation between stores with and without divided tasks. -/
structure PRel (c : Cfg A Mo) (p : Par A Mo) (s : St A Mo) : Prop where
  fu : s.fu = p.st.fu
  ev : s.ev = p.st.ev
  sent : s.sent = p.st.sent
  tag : s.tag = p.st.tag
  nx : s.nx = p.st.nx
  here : Here c p.jobs s p.st

theorem PRel.patch {c : Cfg A Mo} {p : Par A Mo} {s : St A Mo} (h : PRel c p s) :
    s = p.st.patch s.cur s.last s.dirty s.ntf s.queue s.log := by
  obtain ⟨h1, h2, h3, h4, h5, _⟩ := h
  obtain ⟨fu, cur, last, dirty, ntf, queue, ev, sent, tag, nx, log⟩ := s
  dsimp only at h1 h2 h3 h4 h5
  subst h1 h2 h3 h4 h5
  rfl

theorem pushDown_node (c : Cfg A Mo) {s t : St A Mo} (h : s.node = t.node) (v : Mo) :
    (s.pushDown c v).node = (t.pushDown c v).node := by
  simp only [St.node, Prod.mk.injEq] at h
  obtain ⟨h1, h2, h3, h4⟩ := h
  unfold St.pushDown
  rw [h1]
  split <;> simp [St.node, h1, h2, h3, h4]

theorem sendDown_node {s t : St A Mo} (h : s.node = t.node) : s.sendDown.node = t.sendDown.node := by
  simp only [St.node, Prod.mk.injEq] at h
  obtain ⟨h1, h2, h3, h4⟩ := h
  unfold St.sendDown
  rw [h3]
  split <;> simp [St.node, h1, h2, h3, h4]

theorem notify_node {s t : St A Mo} (h : s.node = t.node) : s.notify.node = t.notify.node := by
  simp only [St.node, Prod.mk.injEq] at h
  obtain ⟨h1, h2, h3, h4⟩ := h
  unfold St.notify
  rw [h3, h4]
  split <;> simp [St.node, h1, h2, h3, h4]

theorem sendIf_node (c : Cfg A Mo) (it : Option (Item A)) {s t : St A Mo} (h : s.node = t.node) :
    (sendIf c it s).node = (sendIf c it t).node := by
  unfold sendIf; split
  · exact sendDown_node h
  · exact h

theorem pubIf_node (c : Cfg A Mo) (it : Option (Item A)) {s t : St A Mo} (h : s.node = t.node) :
    (pubIf c it s).node = (pubIf c it t).node := by
  unfold pubIf; split
  · exact notify_node (sendDown_node h)
  · exact h

theorem pubLog_node (c : Cfg A Mo) (it : Option (Item A)) {s t : St A Mo} (h : s.node = t.node) :
    pubLog c it s = pubLog c it t := by
  simp only [St.node, Prod.mk.injEq] at h
  obtain ⟨h1, _, h3, _⟩ := h
  unfold pubLog; rw [h1, h3]

theorem pubLog_task (c : Cfg A Mo) (it : Option (Item A)) (s : St A Mo) : ∀ e ∈ pubLog c it s, e.isTask = true := by
  unfold pubLog
  split
  · intro e he; cases List.mem_singleton.1 he; rfl
  · intro e he; cases he

/-- What user code does keeps the relation, at any point of a task. -/
theorem Here.frame {c : Cfg A Mo} {js : List (Job A Mo)} {s t s' t' : St A Mo} (h : Here c js s t)
    {q : List (Item A)} {l : List (SEv A Mo)} (hl : ∀ e ∈ l, e.isTask = false)
    (n1 : s'.node = s.node) (n2 : t'.node = t.node) (q1 : s'.queue = s.queue ++ q)
    (q2 : t'.queue = t.queue ++ q) (l1 : s'.log = s.log ++ l) (l2 : t'.log = t.log ++ l) : Here c js s' t' := by
  match js, h with
  | [], ⟨h1, h2, h3⟩ =>
    exact ⟨by rw [n1, n2, h1], by rw [q1, q2, h2], by rw [l1, l2]; exact h3.append (.refl _)⟩
  | [.reducing d a i], ⟨h1, h2, h3⟩ =>
    exact ⟨by rw [n1, n2, h1], by rw [q1, q2, h2]; rfl, by rw [l1, l2]; exact h3.append (.refl _)⟩
  | [.pushing v], ⟨h1, h2, h3⟩ =>
    exact ⟨by rw [n1, h1]; exact (pushDown_node c n2 v).symm, by rw [q1, q2, h2],
      by rw [l1, l2]; exact h3.append (.refl _)⟩
  | [.sending it], ⟨h1, h2, h3, h4⟩ =>
    exact ⟨by rw [n1, n2, h1], by rw [q1, q2, h2, List.append_assoc],
      by rw [l1, l2]; exact h3.append (.refl _), h4⟩
  | [.notifying it], ⟨h1, h2, h3, h4⟩ =>
    exact ⟨by rw [sendIf_node c it n1, n2, h1], by rw [q1, q2, h2, List.append_assoc],
      by rw [l1, l2]; exact h3.append (.refl _), h4⟩
  | [.watching it b], ⟨h1, h2, h3, h4, h5⟩ =>
    refine ⟨by rw [pubIf_node c it n1, n2, h1], by rw [q1, q2, h2, List.append_assoc], ?_, h4, ?_⟩
    · rw [l1, l2, pubLog_node c it n1]
      exact h3.swap (pubLog_task c it s) hl
    · simp only [St.node, Prod.mk.injEq] at n1
      rw [n1.2.2.1]; exact h5

theorem PRel.user {c : Cfg A Mo} {p : Par A Mo} {s : St A Mo} (h : PRel c p s) {op : SOp A}
    (hu : op.isUser = true) {t' : St A Mo} (hs : step c p.st op = some t') :
    ∃ s', step c s op = some s' ∧ PRel c { p with st := t' } s' := by
  obtain ⟨q, l, hl, n1, n2, n3, n4, hq, hlog, hp⟩ :=
    uni_frame (step_uni c op hu) (fun _ _ => user_quiet c hu) hs
  have e := hp s.cur s.last s.dirty s.ntf s.queue s.log
  rw [← h.patch] at e
  refine ⟨_, e, rfl, rfl, rfl, rfl, rfl, ?_⟩
  exact h.here.frame hl rfl (by simp only [St.node]; rw [n1, n2, n3, n4]) rfl hq rfl hlog

end Verif.Store
