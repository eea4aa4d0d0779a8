import Verif.Store.Map

/-!
Stores that do the same, up to three things: the reducer of one may return an effect that does nothing
where that of the other returns none, the model of one may have more parts than that of the other, and
watchers of one may be called although nothing has changed for the other.  That is what enhancers do
that wrap the reducer, such as `with_thunk` and `with_debugger`.
-/

namespace Verif.Store

variable {A B Mo N : Type}

/-! ### Vocabulary -/

/-- An effect that does nothing where there is none. -/
def Eff.filled (e : Eff) : Eff := if e.isEmpty then .noop else e

/-- What matters of an event: not the number of a call of an effect, not that an effect which does nothing
is called, and not when the call of an effect is over (but when its user code returns). -/
def SEv.norm : SEv A Mo → Option (SEv A Mo)
  | .effStart d _ e => if e = .noop then none else some (.effStart d 0 e)
  | .effEnd _ _ => none
  | .reduced d m a m' e => some (.reduced d m a m' e.filled)
  | .prim _ pos id => some (.prim 0 pos id)
  | .primRet _ pos r => some (.primRet 0 pos r)
  | .primThrew _ pos => some (.primThrew 0 pos)
  | .lost d e => some (.lost d (if e = some .noop then none else e))
  | e => some e

/-- Without calls of watchers with the value that they were called with before. -/
def fresh [DecidableEq Mo] (last : Mo) : List (SEv A Mo) → List (SEv A Mo)
  | [] => []
  | .shown v :: l => if v = last then fresh last l else .shown v :: fresh v l
  | e :: l => e :: fresh last l

/-- What is seen of a store: dispatches, calls of the reducer, of watchers with new values, and of
effects, in order. -/
def seen [DecidableEq Mo] (init : Mo) (l : List (SEv A Mo)) : List (SEv A Mo) :=
  fresh init (l.filterMap SEv.norm)

/-- See only a part of the model. -/
def SEv.view (v : N → Mo) : SEv A N → SEv A Mo
  | .dispatched d a => .dispatched d a
  | .reduced d m a m' e => .reduced d (v m) a (v m') e
  | .shown m => .shown (v m)
  | .ready d => .ready d
  | .effStart d x e => .effStart d x e
  | .effEnd d r => .effEnd d r
  | .prim x pos id => .prim x pos id
  | .primRet x pos r => .primRet x pos r
  | .primThrew x pos => .primThrew x pos
  | .reduceThrew d m a => .reduceThrew d (v m) a
  | .lost d e => .lost d e

/-- The steps that are not those of calls of effects. -/
def SOp.isGo : SOp A → Bool
  | .go _ => true
  | _ => false

/-! ### Logs -/

section Logs

variable [DecidableEq Mo]

omit [DecidableEq Mo] in
theorem lastShown_snoc (i : Mo) (l : List (SEv A Mo)) (e : SEv A Mo) :
    lastShown i (l ++ [e]) = match e with | .shown v => v | _ => lastShown i l := by
  induction l generalizing i with
  | nil => cases e <;> rfl
  | cons x l ih => cases x <;> simp only [List.cons_append, lastShown] <;> exact ih _

omit [DecidableEq Mo] in
theorem lastShown_norm (i : Mo) (l : List (SEv A Mo)) :
    lastShown i (l.filterMap SEv.norm) = lastShown i l := by
  induction l generalizing i with
  | nil => rfl
  | cons x l ih =>
    rw [List.filterMap_cons]
    cases x with
    | effStart d x e =>
      simp only [SEv.norm]
      by_cases h : e = Eff.noop
      · rw [if_pos h]; exact ih _
      · rw [if_neg h]; exact ih _
    | _ => simp only [SEv.norm, lastShown]; exact ih _

theorem fresh_snoc (i : Mo) (l : List (SEv A Mo)) (e : SEv A Mo) :
    fresh i (l ++ [e]) = fresh i l ++ fresh (lastShown i l) [e] := by
  induction l generalizing i with
  | nil => rfl
  | cons x l ih =>
    cases x with
    | shown v =>
      simp only [List.cons_append, fresh, lastShown]
      split
      · rename_i h; subst h; exact ih _
      · rw [ih]; rfl
    | _ => simp only [List.cons_append, fresh, lastShown]; rw [ih]

theorem seen_snoc (i : Mo) (l : List (SEv A Mo)) (e : SEv A Mo) :
    seen i (l ++ [e]) = seen i l ++ (match e.norm with | none => [] | some e => fresh (lastShown i l) [e]) := by
  unfold seen
  rw [List.filterMap_append, List.filterMap_cons, List.filterMap_nil]
  cases e.norm with
  | none => simp
  | some e => dsimp only; rw [fresh_snoc, lastShown_norm]

omit [DecidableEq Mo] in
theorem lastShown_map (g : A → B) (i : Mo) (l : List (SEv A Mo)) :
    lastShown i (l.map (SEv.map g)) = lastShown i l := by
  induction l generalizing i with
  | nil => rfl
  | cons x l ih => cases x <;> simp only [List.map_cons, SEv.map, lastShown] <;> exact ih _

/-- The same is seen in two logs. -/
def Agree (i : Mo) (l l' : List (SEv A Mo)) : Prop :=
  seen i l = seen i l' ∧ lastShown i l = lastShown i l'

omit [DecidableEq Mo] in
theorem lastShown_snoc' (i : Mo) (l : List (SEv A Mo)) (e : SEv A Mo) :
    lastShown i (l ++ [e]) = match e.norm with | some (.shown v) => v | _ => lastShown i l := by
  rw [lastShown_snoc]
  cases e with
  | effStart d x e =>
    simp only [SEv.norm]
    by_cases h : e = Eff.noop
    · rw [if_pos h]
    · rw [if_neg h]
  | _ => rfl

theorem Agree.snoc {i : Mo} {l l' : List (SEv A Mo)} (h : Agree i l l') {e e' : SEv A Mo}
    (he : e.norm = e'.norm) : Agree i (l ++ [e]) (l' ++ [e']) := by
  constructor
  · rw [seen_snoc, seen_snoc, h.1, h.2, he]
  · rw [lastShown_snoc', lastShown_snoc', h.2, he]

theorem Agree.skip {i : Mo} {l l' : List (SEv A Mo)} (h : Agree i l l') {e : SEv A Mo}
    (he : e.norm = none) : Agree i (l ++ [e]) l' := by
  constructor
  · rw [seen_snoc, h.1, he]; simp
  · rw [lastShown_snoc', h.2, he]

theorem Agree.again {i : Mo} {l l' : List (SEv A Mo)} (h : Agree i l l') {v : Mo}
    (hv : lastShown i l = v) : Agree i (l ++ [.shown v]) l' := by
  constructor
  · rw [seen_snoc, h.1]
    show _ ++ fresh (lastShown i l) [.shown v] = _
    rw [hv]
    simp [fresh]
  · rw [lastShown_snoc, ← h.2]; exact hv.symm

end Logs

/-! ### The simulation -/

/-- The store `c'` does what `c` does, with actions `g a` for `a`, and `v` shows the model of `c` in the
one of `c'`, as long as that is `ok`. -/
structure Sim (g : A → B) (v : N → Mo) (ok : N → Prop) (c : Cfg A Mo) (c' : Cfg B N) : Prop where
  throws : ∀ n a, ok n → c'.throws n (g a) = c.throws (v n) a
  good : ∀ n a, ok n → c.throws (v n) a = false → ok (c'.reducer n (g a)).1
  model : ∀ n a, ok n → c.throws (v n) a = false → v (c'.reducer n (g a)).1 = (c.reducer (v n) a).1
  eff : ∀ n a, ok n → c.throws (v n) a = false →
    (c'.reducer n (g a)).2 = (c.reducer (v n) a).2.filled
  changed : ∀ n a, ok n → c.throws (v n) a = false →
    c'.changed (c'.reducer n (g a)).1 n = false → c.changed (c.reducer (v n) a).1 (v n) = false
  sound : c.sound
  trans : c.trans = false
  trans' : c'.trans = false
  hasF : c'.hasF = c.hasF
  init : ok c'.init
  vinit : v c'.init = c.init
  null : c'.null = c.null

/-- The task of the other store. -/
def Item.filled (g : A → B) : Item A → Item B
  | .reduce d a i => .reduce d (g a) i
  | .effect d e i => .effect d e i
  | .publish d i => .effect d .noop i
  | .tok => .tok

/-- A call without its number. -/
def EF.anon (f : EF) : Nat × Mode × List Eff × Kont := (f.pos, f.mode, f.ks, f.k)

theorem EF.anon_eq {f f' : EF} (h : f'.anon = f.anon) : ∃ x, f' = { f with x := x } := by
  obtain ⟨x, p, m, ks, k⟩ := f
  obtain ⟨x', p', m', ks', k'⟩ := f'
  simp only [EF.anon, Prod.mk.injEq] at h
  obtain ⟨rfl, rfl, rfl, rfl⟩ := h
  exact ⟨x', rfl⟩

section Sim

variable [DecidableEq Mo] {g : A → B} {v : N → Mo} {ok : N → Prop} {c : Cfg A Mo} {c' : Cfg B N}

/-- Of the proof: the relation between stores. -/
structure Rel (g : A → B) (v : N → Mo) (ok : N → Prop) (i : Mo) (s : St A Mo) (t : St B N) : Prop where
  fu : t.fu = s.fu
  good : ok t.cur
  cur : v t.cur = s.cur
  last : v t.last = s.last
  dirty : s.dirty = true → t.dirty = true
  rest : s.dirty = false → s.cur = s.last
  ntf : s.ntf = false
  ntf' : t.ntf = false
  queue : t.queue = s.queue.map (Item.filled g)
  ev : t.ev.map EF.anon = s.ev.map EF.anon
  sent : t.sent = s.sent
  tag : ∀ k, (t.tag k).map (·.2) = (s.tag k).map (·.2)
  log : Agree i (t.log.map (SEv.view v)) (s.log.map (SEv.map g))
  shown : lastShown i s.log = s.last


theorem Rel.say {i : Mo} {s : St A Mo} {t : St B N} (h : Rel g v ok i s t) {e : SEv A Mo} {e' : SEv B N}
    (he : (e'.view v).norm = (e.map g).norm) (hs : ∀ w, e ≠ .shown w) :
    Rel g v ok i (s.say e) (t.say e') :=
  { h with
    log := by
      show Agree i ((t.log ++ [e']).map _) ((s.log ++ [e]).map _)
      rw [List.map_append, List.map_append]
      exact h.log.snoc he
    shown := by
      show lastShown i (s.log ++ [e]) = s.last
      rw [lastShown_snoc, ← h.shown]
      cases e with
      | shown w => exact absurd rfl (hs w)
      | _ => rfl }

theorem Rel.skip {i : Mo} {s : St A Mo} {t : St B N} (h : Rel g v ok i s t) {e' : SEv B N}
    (he : (e'.view v).norm = none) : Rel g v ok i s (t.say e') :=
  { h with
    log := by
      show Agree i ((t.log ++ [e']).map _) _
      rw [List.map_append]
      exact h.log.skip he }

theorem Rel.fstep {i : Mo} {s s1 : St A Mo} {t : St B N} (h : Rel g v ok i s t) {op : Future.Op}
    (hs : s.fstep op = some s1) : ∃ t1, t.fstep op = some t1 ∧ Rel g v ok i s1 t1 := by
  unfold St.fstep at hs ⊢
  rw [h.fu]
  cases hf : Future.step s.fu op with
  | none => rw [hf] at hs; cases hs
  | some fu =>
    rw [hf] at hs
    cases hs
    exact ⟨_, rfl, { h with fu := rfl, queue := by simp [h.queue, Item.filled] }⟩

theorem Rel.setQueue {i : Mo} {s : St A Mo} {t : St B N} (h : Rel g v ok i s t) (q : List (Item A)) :
    Rel g v ok i { s with queue := q } { t with queue := q.map (Item.filled g) } :=
  { h with queue := rfl }

theorem Rel.post {i : Mo} {s : St A Mo} {t : St B N} (h : Rel g v ok i s t) {x : Item A} {y : Item B}
    (hx : y = x.filled g) : Rel g v ok i (s.post x) (t.post y) :=
  { h with queue := by subst hx; simp [St.post, h.queue] }

theorem Rel.setEv {i : Mo} {s : St A Mo} {t : St B N} (h : Rel g v ok i s t) {l l' : List EF}
    (hl : l'.map EF.anon = l.map EF.anon) : Rel g v ok i { s with ev := l } { t with ev := l' } :=
  { h with ev := hl }

theorem Rel.publish {i : Mo} {s : St A Mo} {t : St B N} (h : Rel g v ok i s t) :
    Rel g v ok i s.sendDown.notify t.sendDown.notify := by
  have h1 := h.ntf
  have h2 := h.ntf'
  cases hd : s.dirty with
  | true =>
    have hd' := h.dirty hd
    have e1 : s.sendDown.notify = { s with last := s.cur, dirty := false, ntf := false, log := s.log ++ [.shown s.cur] } := by
      simp [St.sendDown, St.notify, hd]
    have e2 : t.sendDown.notify = { t with last := t.cur, dirty := false, ntf := false, log := t.log ++ [.shown t.cur] } := by
      simp [St.sendDown, St.notify, hd']
    rw [e1, e2]
    exact { h with
      last := h.cur
      dirty := fun e => by cases e
      rest := fun _ => rfl
      ntf := rfl
      ntf' := rfl
      log := by
        show Agree i ((t.log ++ [SEv.shown t.cur]).map _) ((s.log ++ [SEv.shown s.cur]).map _)
        rw [List.map_append, List.map_append]
        refine h.log.snoc ?_
        show some (SEv.shown (v t.cur)) = some (SEv.shown s.cur)
        rw [h.cur]
      shown := by
        show lastShown i (s.log ++ [.shown s.cur]) = s.cur
        rw [lastShown_snoc] }
  | false =>
    have e1 : s.sendDown.notify = s := by simp [St.sendDown, St.notify, hd, h1]
    rw [e1]
    cases hd' : t.dirty with
    | false =>
      have e2 : t.sendDown.notify = t := by simp [St.sendDown, St.notify, hd', h2]
      rw [e2]
      exact h
    | true =>
      have e2 : t.sendDown.notify =
          { t with last := t.cur, dirty := false, ntf := false, log := t.log ++ [.shown t.cur] } := by
        simp [St.sendDown, St.notify, hd']
      rw [e2]
      exact { h with
        last := h.cur.trans (h.rest hd)
        dirty := fun e => by rw [hd] at e; cases e
        ntf' := rfl
        log := by
          show Agree i ((t.log ++ [SEv.shown t.cur]).map _) (s.log.map _)
          rw [List.map_append]
          refine h.log.again ?_
          rw [h.log.2, lastShown_map, h.shown, h.cur, h.rest hd] }

theorem Rel.complete (hc : Sim g v ok c c') {i : Mo} {s s1 : St A Mo} {t : St B N} (h : Rel g v ok i s t)
    {j : Nat} (hs : s.complete c j = some s1) : ∃ t1, t.complete c' j = some t1 ∧ Rel g v ok i s1 t1 := by
  unfold St.complete at hs ⊢
  rw [hc.hasF]
  by_cases hF : c.hasF = true
  · rw [if_pos hF] at hs ⊢
    exact h.fstep hs
  · rw [if_neg hF] at hs ⊢
    cases hs
    exact ⟨t, rfl, h⟩

theorem Rel.dispatch (hc : Sim g v ok c c') {i : Mo} {s s1 : St A Mo} {t : St B N} (h : Rel g v ok i s t)
    {a : A} (hs : s.dispatch c a = some s1) :
    ∃ t1, t.dispatch c' (g a) = some t1 ∧ Rel g v ok i s1 t1 := by
  unfold St.dispatch at hs ⊢
  rw [hc.hasF]
  cases hf : s.fstep (if c.hasF = true then .newPair 0 else .invalid) with
  | none => rw [hf] at hs; cases hs
  | some s2 =>
    obtain ⟨t2, e2, h2⟩ := h.fstep hf
    rw [hf] at hs
    cases hs
    rw [e2]
    refine ⟨_, rfl, ?_⟩
    have h3 : Rel g v ok i ((s2.post (.reduce s.sent.length a s.fu.proms.length)).say (.dispatched s.sent.length a))
        ((t2.post (.reduce t.sent.length (g a) t.fu.proms.length)).say (.dispatched t.sent.length (g a))) :=
      (h2.post (by rw [h.sent, h.fu]; rfl)).say (by rw [h.sent]; rfl) (fun w e => by cases e)
    exact { h3 with sent := by simp only [h.sent, h.fu] }

theorem Rel.runTask {i : Mo} {s s1 : St A Mo} {t : St B N} (h : Rel g v ok i s t) {l : Nat}
    (hs : s.runTask l = some s1) : ∃ t1, t.runTask l = some t1 ∧ Rel g v ok i s1 t1 := by
  unfold St.runTask at hs ⊢
  rw [h.fu]
  cases hq : s.fu.queue l with
  | nil => rw [hq] at hs; cases hs
  | cons x q =>
    rw [hq] at hs
    dsimp only at hs ⊢
    cases hf : s.fstep (.run l) with
    | none => rw [hf] at hs; cases hs
    | some s2 =>
      obtain ⟨t2, e2, h2⟩ := h.fstep hf
      rw [hf] at hs
      rw [e2]
      cases hs
      refine ⟨_, rfl, ?_⟩
      have ht := h.tag x.c
      cases h1 : s.tag x.c with
      | none =>
        rw [h1, Option.map_none, Option.map_eq_none_iff] at ht
        rw [ht]
        exact h2
      | some y =>
        obtain ⟨n, pos, e⟩ := y
        rw [h1, Option.map_some, Option.map_eq_some_iff] at ht
        obtain ⟨⟨n', pos', e'⟩, ht, he⟩ := ht
        cases he
        rw [ht]
        exact h2.setEv (by rw [List.map_cons, List.map_cons, h2.ev]; rfl)

theorem Rel.loopReduce (hc : Sim g v ok c c') {i : Mo} {s s1 : St A Mo} {t : St B N} (h : Rel g v ok i s t)
    {d : Nat} {a : A} {j : Nat} {q : List (Item A)} (hq : s.queue = .reduce d a j :: q)
    (hs : s.loop c = some s1) : ∃ t1, t.loop c' = some t1 ∧ Rel g v ok i s1 t1 := by
  have hq' : t.queue = .reduce d (g a) j :: q.map (Item.filled g) := by rw [h.queue, hq]; rfl
  rw [loop_reduce hq] at hs
  rw [loop_reduce hq']
  have h0 := h.setQueue q
  have ht := hc.throws t.cur a h.good
  rw [h.cur] at ht
  cases hth : c.throws s.cur a with
  | true =>
    rw [hth] at ht hs
    simp only [if_true] at hs
    cases hs
    simp only [ht, if_true]
    exact ⟨_, rfl, h0.say (by show some _ = some _; rw [← h.cur]; rfl) (fun w e => by cases e)⟩
  | false =>
    have hth' : c.throws (v t.cur) a = false := by rw [h.cur]; exact hth
    have hm := hc.model t.cur a h.good hth'
    have hg := hc.good t.cur a h.good hth'
    have he := hc.eff t.cur a h.good hth'
    have hch := hc.changed t.cur a h.good hth'
    rw [h.cur] at hm he hch
    rw [hth] at ht hs
    simp only [Bool.false_eq_true, if_false, hc.trans] at hs
    simp only [ht, Bool.false_eq_true, if_false, hc.trans']
    generalize c.reducer s.cur a = y at hs hm he hch
    generalize c'.reducer t.cur (g a) = z at hm hg he hch
    obtain ⟨m', e⟩ := y
    obtain ⟨n', e'⟩ := z
    dsimp only at hs hm hg he hch ⊢
    subst he
    have hne : e.filled.isEmpty = false := by
      cases e <;> rfl
    simp only [hne, Bool.false_eq_true, if_false, Option.map_some]
    refine ⟨_, rfl, ?_⟩
    have key : ∀ x : Item A, x.filled g = .effect d e.filled j →
        Rel g v ok i (((St.post { s with queue := q } x).pushDown c m').say (.reduced d s.cur a m' e))
          (((St.post { t with queue := q.map (Item.filled g) } (.effect d e.filled j)).pushDown c' n').say
            (.reduced d t.cur (g a) n' e.filled)) := by
      intro x hx
      have h1 := h0.post hx.symm
      refine Rel.say ?_ ?_ (fun w e => by cases e)
      · unfold St.pushDown
        show Rel g v ok i (if c.changed m' s.cur = true then _ else _) (if c'.changed n' t.cur = true then _ else _)
        cases h2 : c.changed m' s.cur with
        | true =>
          have h3 : c'.changed n' t.cur = true := by
            cases h3 : c'.changed n' t.cur with
            | true => rfl
            | false => rw [hch h3] at h2; cases h2
          rw [if_pos rfl, if_pos h3]
          exact { h1 with good := hg, cur := hm, dirty := fun _ => rfl, rest := fun e => by cases e }
        | false =>
          rw [if_neg (by simp)]
          have h4 : m' = s.cur := hc.sound _ _ h2
          split
          · exact { h1 with good := hg, cur := hm.trans h4, dirty := fun _ => rfl }
          · exact h1
      · show some _ = some _
        rw [h.cur, hm]
        have : e.filled.filled = e.filled := by cases e <;> rfl
        rw [this]
    cases hE : e.isEmpty with
    | true =>
      simp only [hE, if_true, Option.map_some] at hs
      cases hs
      exact key (.publish d j) (by cases e <;> first | rfl | cases hE)
    | false =>
      simp only [hE, Bool.false_eq_true, if_false, Option.map_some] at hs
      cases hs
      exact key (.effect d e j) (by unfold Eff.filled; rw [if_neg (by simp [hE])]; rfl)

theorem Rel.loopEffect (hc : Sim g v ok c c') {i : Mo} {s s1 : St A Mo} {t : St B N} (h : Rel g v ok i s t)
    {d : Nat} {e : Eff} {j : Nat} {q : List (Item A)} (hq : s.queue = .effect d e j :: q)
    (hs : s.loop c = some s1) : ∃ t1, t.loop c' = some t1 ∧ Rel g v ok i s1 t1 := by
  have hq' : t.queue = .effect d e j :: q.map (Item.filled g) := by rw [h.queue, hq]; rfl
  simp only [St.loop, hq] at hs
  simp only [St.loop, hq']
  cases hs
  refine ⟨_, rfl, ?_⟩
  have h1 : Rel g v ok i (St.publish c { s with queue := q }) (St.publish c' { t with queue := q.map (Item.filled g) }) := by
    unfold St.publish
    rw [hc.trans, hc.trans', if_neg (by simp), if_neg (by simp)]
    exact (h.setQueue q).publish
  have h2 := (h1.say (e := .ready d) (e' := .ready d) rfl (fun w e => by cases e)).say
    (e := .effStart d s.nx e) (e' := .effStart d t.nx e) (by simp [SEv.view, SEv.map, SEv.norm])
    (fun w e => by cases e)
  exact { h2 with ev := by simp only [List.map_cons, h1.ev]; rfl }

/-- Where one store publishes and completes the promise, the other does so in three steps. -/
theorem Rel.loopPublish (hc : Sim g v ok c c') {i : Mo} {s s1 : St A Mo} {t : St B N} (h : Rel g v ok i s t)
    {d : Nat} {j : Nat} {q : List (Item A)} (hq : s.queue = .publish d j :: q)
    (hs : s.loop c = some s1) :
    ∃ t1, exec c' t [.loop, .go 0, .go 0] = some t1 ∧ Rel g v ok i s1 t1 := by
  have hq' : t.queue = .effect d .noop j :: q.map (Item.filled g) := by rw [h.queue, hq]; rfl
  simp only [St.loop, hq] at hs
  have h1 : Rel g v ok i (St.publish c { s with queue := q }) (St.publish c' { t with queue := q.map (Item.filled g) }) := by
    unfold St.publish
    rw [hc.trans, hc.trans', if_neg (by simp), if_neg (by simp)]
    exact (h.setQueue q).publish
  have h2 := (h1.say (e := .ready d) (e' := .ready d) rfl (fun w e => by cases e)).skip
    (e' := .effStart d t.nx .noop) (by simp [SEv.view, SEv.norm])
  have h3 := h2.skip (e' := .effEnd d none) rfl
  have h4 : Rel g v ok i ((St.publish c { s with queue := q }).say (.ready d))
      { (((St.publish c' { t with queue := q.map (Item.filled g) }).say (.ready d)).say
        (.effStart d t.nx .noop)).say (.effEnd d none) with nx := t.nx + 1 } := { h3 with }
  obtain ⟨t1, e1, h5⟩ := h4.complete hc hs
  refine ⟨t1, ?_, h5⟩
  rw [← e1]
  simp only [exec, step, St.loop, hq', Option.bind_some, List.getElem?_cons_zero, List.eraseIdx_cons_zero, St.go,
    St.complete, Option.bind_none, Option.join_none]
  split
  · exact Option.bind_fun_some _
  · rfl

theorem Rel.loopRaise (hc : Sim g v ok c c') {i : Mo} {s s1 : St A Mo} {t : St B N} (h : Rel g v ok i s t)
    (hs : s.loopRaise c = some s1) : ∃ t1, t.loopRaise c' = some t1 ∧ Rel g v ok i s1 t1 := by
  have key : ∀ (d : Nat) (e : Option Eff) (e' : Option Eff) (q : List (Item A)),
      ((if e' = some .noop then none else e') = if e = some .noop then none else e) →
      (if c.trans = false ∧ s.dirty = true then
        some ((St.publish c { s with queue := q }).say (.lost d e)) else none) = some s1 →
      ∃ t1, (if c'.trans = false ∧ t.dirty = true then
        some ((St.publish c' { t with queue := q.map (Item.filled g) }).say (.lost d e')) else none) = some t1 ∧
        Rel g v ok i s1 t1 := by
    intro d e e' q he hs
    split at hs
    · rename_i hd
      cases hs
      rw [if_pos ⟨hc.trans', h.dirty hd.2⟩]
      refine ⟨_, rfl, Rel.say ?_ ?_ (fun w e => by cases e)⟩
      · unfold St.publish
        rw [hc.trans, hc.trans', if_neg (by simp), if_neg (by simp)]
        exact (h.setQueue q).publish
      · simp only [SEv.view, SEv.map, SEv.norm, he]
    · cases hs
  cases hq : s.queue with
  | nil => simp only [St.loopRaise, hq] at hs; cases hs
  | cons x q =>
    have hq' : t.queue = x.filled g :: q.map (Item.filled g) := by rw [h.queue, hq]; rfl
    cases x with
    | reduce d a j => simp only [St.loopRaise, hq] at hs; cases hs
    | effect d e j =>
      simp only [St.loopRaise, hq] at hs
      simp only [St.loopRaise, hq', Item.filled]
      exact key d (some e) (some e) q rfl hs
    | publish d j =>
      simp only [St.loopRaise, hq] at hs
      simp only [St.loopRaise, hq', Item.filled]
      exact key d none (some .noop) q rfl hs
    | tok => simp only [St.loopRaise, hq] at hs; cases hs

theorem Rel.go (hc : Sim g v ok c c') {i : Mo} {s s1 : St A Mo} {t : St B N} (h : Rel g v ok i s t)
    {f : EF} (y : Nat) (hs : s.go c f = some s1) :
    ∃ t1, t.go c' { f with x := y } = some t1 ∧ Rel g v ok i s1 t1 := by
  obtain ⟨x, pos, mode, ks, k⟩ := f
  have push : ∀ {s : St A Mo} {t : St B N} {f : EF}, Rel g v ok i s t →
      Rel g v ok i { s with ev := f :: s.ev } { t with ev := { f with x := y } :: t.ev } := by
    intro s t f h
    exact h.setEv (by rw [List.map_cons, List.map_cons, h.ev]; rfl)
  cases mode with
  | call e =>
    cases e with
    | empty => simp only [St.go] at hs; cases hs
    | noop => simp only [St.go] at hs ⊢; cases hs; exact ⟨_, rfl, push h⟩
    | prim id =>
      simp only [St.go] at hs ⊢; cases hs
      exact ⟨_, rfl, push (h.say rfl (fun w e => by cases e))⟩
    | seq a b => simp only [St.go] at hs ⊢; cases hs; exact ⟨_, rfl, push h⟩
  | prim id => simp only [St.go] at hs; cases hs
  | got o =>
    simp only [St.go] at hs ⊢
    rw [show (o.bind fun i => t.fu.futs[i]?).join = (o.bind fun i => s.fu.futs[i]?).join by rw [h.fu]]
    cases ks with
    | cons b ks =>
      dsimp only at hs ⊢
      cases hr : (o.bind fun i => s.fu.futs[i]?).join with
      | none =>
        rw [hr] at hs
        cases o with
        | none => dsimp only at hs ⊢; cases hs; exact ⟨_, rfl, push h⟩
        | some j => dsimp only at hs ⊢; cases hs; exact ⟨_, rfl, push h⟩
      | some r =>
        rw [hr] at hs
        cases o with
        | none => dsimp only at hs ⊢; cases hs; exact ⟨_, rfl, push h⟩
        | some j =>
          dsimp only at hs ⊢
          cases hf : s.fstep (.then j true) with
          | none => rw [hf] at hs; cases hs
          | some s2 =>
            obtain ⟨t2, e2, h2⟩ := h.fstep hf
            rw [hf] at hs
            rw [e2]
            cases hs
            refine ⟨_, rfl, ?_⟩
            exact { h2 with
              ev := by simp only [List.map_cons, h2.ev, h2.fu]; rfl
              tag := by
                intro n
                show (Future.upd t.tag t.fu.nextC _ n).map _ = (Future.upd s.tag s.fu.nextC _ n).map _
                rw [h.fu]
                unfold Future.upd
                split
                · rfl
                · exact h.tag n }
    | nil =>
      dsimp only at hs ⊢
      cases k with
      | store d j =>
        dsimp only at hs ⊢
        have h0 : ∀ r, Rel g v ok i (s.say (.effEnd d r)) (t.say (.effEnd d r)) :=
          fun r => h.say rfl (fun w e => by cases e)
        rw [hc.hasF]
        by_cases hF : c.hasF = true
        · rw [if_pos hF] at hs ⊢
          cases o with
          | some n => exact (h0 _).fstep hs
          | none => exact (h0 _).fstep hs
        · rw [if_neg hF] at hs ⊢
          cases hs
          exact ⟨_, rfl, h0 _⟩
      | clo n =>
        dsimp only at hs ⊢
        rw [show findRun n t.fu.active = findRun n s.fu.active by rw [h.fu]]
        cases hr : findRun n s.fu.active with
        | none => rw [hr] at hs; cases hs
        | some m =>
          rw [hr] at hs
          simp only [Option.bind_some] at hs ⊢
          cases o with
          | some n => exact h.fstep hs
          | none =>
            dsimp only at hs ⊢
            cases hf : s.fstep .invalid with
            | none => rw [hf] at hs; cases hs
            | some s2 =>
              obtain ⟨t2, e2, h2⟩ := h.fstep hf
              rw [hf] at hs
              rw [e2]
              simp only [Option.bind_some] at hs ⊢
              rw [h2.fu]
              exact h2.fstep hs

theorem Rel.getEv {i : Mo} {s : St A Mo} {t : St B N} (h : Rel g v ok i s t) {n : Nat} {f : EF}
    (hf : s.ev[n]? = some f) : ∃ y, t.ev[n]? = some { f with x := y } := by
  have h1 := congrArg (fun l => l[n]?) h.ev
  simp only [List.getElem?_map, hf, Option.map_some, Option.map_eq_some_iff] at h1
  obtain ⟨f', h2, h3⟩ := h1
  obtain ⟨y, rfl⟩ := EF.anon_eq h3
  exact ⟨y, h2⟩

theorem Rel.eraseEv {i : Mo} {s : St A Mo} {t : St B N} (h : Rel g v ok i s t) (n : Nat) :
    (t.ev.eraseIdx n).map EF.anon = (s.ev.eraseIdx n).map EF.anon := by
  have key : ∀ (l : List EF) (n : Nat), (l.eraseIdx n).map EF.anon = (l.map EF.anon).eraseIdx n := by
    intro l
    induction l with
    | nil => intro n; rfl
    | cons x l ih =>
      intro n
      cases n with
      | zero => rfl
      | succ n => simp [ih]
  rw [key, key, h.ev]

theorem Rel.held {i : Mo} {s : St A Mo} {t : St B N} (h : Rel g v ok i s t) (j : Nat) :
    t.held j ↔ s.held j := by
  have key : ∀ {l l' : List EF}, l.map EF.anon = l'.map EF.anon →
      (∃ f ∈ l, f.mode = .got (some j)) → ∃ f ∈ l', f.mode = .got (some j) := by
    rintro l l' h ⟨f, h1, h2⟩
    have h3 : f.anon ∈ l'.map EF.anon := h ▸ List.mem_map_of_mem h1
    rw [List.mem_map] at h3
    obtain ⟨f', h4, h5⟩ := h3
    obtain ⟨y, rfl⟩ := EF.anon_eq h5
    exact ⟨_, h4, h2⟩
  exact ⟨key h.ev, key h.ev.symm⟩

theorem Rel.tagged {i : Mo} {s : St A Mo} {t : St B N} (h : Rel g v ok i s t) (k : Nat) :
    t.tagged k ↔ s.tagged k := by
  unfold St.tagged
  rw [h.fu]
  split
  · rename_i y _
    have := h.tag y.c
    refine not_congr ?_
    constructor
    · intro e; rw [e, Option.map_none] at this; exact Option.map_eq_none_iff.1 this.symm
    · intro e; rw [e, Option.map_none] at this; exact Option.map_eq_none_iff.1 this
  · exact Iff.rfl

theorem Rel.allowed {i : Mo} {s : St A Mo} {t : St B N} (h : Rel g v ok i s t) (op : Future.Op) :
    t.allowed op ↔ s.allowed op := by
  have ho : ∀ j, t.own j ↔ s.own j := by
    intro j; unfold St.own; rw [h.sent]
  cases op <;> simp only [St.allowed, h.held, h.tagged, ho]

/-- Each step of one store is a step of the other, or three. -/
theorem Rel.step (hc : Sim g v ok c c') {i : Mo} {s s1 : St A Mo} {t : St B N} (h : Rel g v ok i s t)
    {op : SOp A} (hs : Store.step c s op = some s1) :
    ∃ ops t1, (ops = [op.map g] ∨ (op = .loop ∧ ops = [.loop, .go 0, .go 0])) ∧
      exec c' t ops = some t1 ∧ Rel g v ok i s1 t1 := by
  have one : ∀ {op' : SOp B}, op' = op.map g → (∃ t1, Store.step c' t op' = some t1 ∧ Rel g v ok i s1 t1) →
      ∃ ops t1, (ops = [op.map g] ∨ (op = .loop ∧ ops = [.loop, .go 0, .go 0])) ∧
      exec c' t ops = some t1 ∧ Rel g v ok i s1 t1 := by
    rintro op' rfl ⟨t1, h1, h2⟩
    exact ⟨_, t1, .inl rfl, by simp [exec, h1], h2⟩
  cases op with
  | dispatch a => exact one rfl (h.dispatch hc hs)
  | loop =>
    have hs : s.loop c = some s1 := hs
    cases hq : s.queue with
    | nil => simp only [St.loop, hq] at hs; cases hs
    | cons x q =>
      cases x with
      | reduce d a j => exact one rfl (h.loopReduce hc hq hs)
      | effect d e j => exact one rfl (h.loopEffect hc hq hs)
      | publish d j =>
        obtain ⟨t1, h1, h2⟩ := h.loopPublish hc hq hs
        exact ⟨_, t1, .inr ⟨rfl, rfl⟩, h1, h2⟩
      | tok =>
        have hq' : t.queue = .tok :: q.map (Item.filled g) := by rw [h.queue, hq]; rfl
        simp only [St.loop, hq] at hs
        refine one rfl ?_
        show ∃ t1, t.loop c' = some t1 ∧ _
        simp only [St.loop, hq']
        exact (h.setQueue q).runTask hs
  | loopRaise => exact one rfl (h.loopRaise hc hs)
  | other l =>
    refine one rfl ?_
    show ∃ t1, (if l = 0 then none else t.runTask l) = some t1 ∧ _
    have hs : (if l = 0 then none else s.runTask l) = some s1 := hs
    split at hs
    · cases hs
    · rename_i hl
      rw [if_neg hl]
      exact h.runTask hs
  | fut op =>
    refine one rfl ?_
    show ∃ t1, (if t.allowed op then t.fstep op else none) = some t1 ∧ _
    have hs : (if s.allowed op then s.fstep op else none) = some s1 := hs
    split at hs
    · rename_i hl
      rw [if_pos ((h.allowed op).2 hl)]
      exact h.fstep hs
    · cases hs
  | go n =>
    refine one rfl ?_
    simp only [Store.step] at hs
    simp only [Store.step, SOp.map]
    cases hf : s.ev[n]? with
    | none => rw [hf] at hs; cases hs
    | some f =>
      obtain ⟨y, hy⟩ := h.getEv hf
      rw [hf] at hs
      rw [hy]
      exact (h.setEv (h.eraseEv n)).go hc y hs
  | prim n o =>
    refine one rfl ?_
    simp only [Store.step] at hs
    simp only [Store.step, SOp.map]
    cases hf : s.ev[n]? with
    | none => rw [hf] at hs; cases hs
    | some f =>
      obtain ⟨y, hy⟩ := h.getEv hf
      rw [hf] at hs
      rw [hy]
      obtain ⟨x, pos, mode, ks, k⟩ := f
      cases mode with
      | call e => cases hs
      | got o => cases hs
      | prim id =>
        dsimp only at hs ⊢
        have hh : (c'.null id = false ∧ ∀ i, o = some i → ¬ t.held i ∧ i < t.fu.futs.length) ↔
            (c.null id = false ∧ ∀ i, o = some i → ¬ s.held i ∧ i < s.fu.futs.length) := by
          simp only [h.held, h.fu, hc.null]
        split at hs
        · rename_i hl
          cases hs
          rw [if_pos (hh.2 hl)]
          refine ⟨_, rfl, Rel.setEv (Rel.say h ?_ (fun w e => by cases e)) ?_⟩
          · rw [h.fu]; rfl
          · rw [List.map_cons, List.map_cons, h.eraseEv]; rfl
        · cases hs
  | raise n =>
    refine one rfl ?_
    simp only [Store.step] at hs
    simp only [Store.step, SOp.map]
    cases hf : s.ev[n]? with
    | none => rw [hf] at hs; cases hs
    | some f =>
      obtain ⟨y, hy⟩ := h.getEv hf
      rw [hf] at hs
      rw [hy]
      obtain ⟨x, pos, mode, ks, k⟩ := f
      cases mode with
      | call e => cases hs
      | got o => cases hs
      | prim id =>
        cases k with
        | store d j =>
          dsimp only at hs ⊢
          cases hs
          exact ⟨_, rfl, Rel.setEv (Rel.say h rfl (fun w e => by cases e)) (h.eraseEv n)⟩
        | clo m =>
          dsimp only at hs ⊢
          rw [h.fu]
          cases hr : findRun m s.fu.active with
          | none => rw [hr] at hs; cases hs
          | some k =>
            rw [hr] at hs
            exact (Rel.setEv (Rel.say h rfl (fun w e => by cases e)) (h.eraseEv n)).fstep hs
  | commit =>
    have hs : (if c.trans = true then some s.sendDown.notify else none) = some s1 := hs
    rw [hc.trans] at hs
    cases hs

theorem Rel.start (hc : Sim g v ok c c') : Rel g v ok c.init (Store.start c) (Store.start c') where
  fu := rfl
  good := hc.init
  cur := hc.vinit
  last := hc.vinit
  dirty := fun e => by cases e
  rest := fun _ => rfl
  ntf := rfl
  ntf' := rfl
  queue := rfl
  ev := rfl
  sent := rfl
  tag := fun _ => rfl
  log := ⟨rfl, rfl⟩
  shown := rfl

/-- Each run of one store is one of the other. -/
theorem Rel.exec (hc : Sim g v ok c c') {i : Mo} (ops : List (SOp A)) : ∀ {s s1 : St A Mo} {t : St B N},
    Rel g v ok i s t → Store.exec c s ops = some s1 →
    ∃ ops' t1, ops'.filter (fun o => !o.isGo) = (ops.filter (fun o => !o.isGo)).map (SOp.map g) ∧
      Store.exec c' t ops' = some t1 ∧ Rel g v ok i s1 t1 := by
  induction ops with
  | nil => intro s s1 t h hs; cases hs; exact ⟨[], t, rfl, rfl, h⟩
  | cons op ops ih =>
    intro s s1 t h hs
    simp only [Store.exec, Option.bind_eq_some_iff] at hs
    obtain ⟨s2, h1, h2⟩ := hs
    obtain ⟨o1, t2, h3, h4, h5⟩ := h.step hc h1
    obtain ⟨o2, t1, h6, h7, h8⟩ := ih h5 h2
    refine ⟨o1 ++ o2, t1, ?_, ?_, h8⟩
    · rw [List.filter_append, h6]
      rcases h3 with rfl | ⟨rfl, rfl⟩
      · cases op <;> rfl
      · rfl
    · have app : ∀ (l l' : List (SOp B)) (t : St B N),
          Store.exec c' t (l ++ l') = (Store.exec c' t l).bind fun t => Store.exec c' t l' := by
        intro l l'
        induction l with
        | nil => intro t; rfl
        | cons o l ih =>
          intro t
          simp only [List.cons_append, Store.exec]
          cases Store.step c' t o with
          | none => rfl
          | some t => exact ih t
      rw [app, h4]
      exact h7

end Sim

end Verif.Store
