import Verif.Store.Enhance

/-!
Property C95: stores with any enhancers in any order.
-/

namespace Verif.Store

variable {D A M B N C O : Type}

/-! ### Helpers -/

/-- The arguments that the last one passes on. -/
def Stack.args {D A M B N : Type} : Stack D A M B N → Args D A M → Args D B N
  | .nil, x => x
  | .cons e s, x => s.args (e.args x)

theorem Enh.apply_eq (e : Enh D A M B N) (next : Args D B N → Made D C O) (x : Args D A M) :
    e.apply next x = { next (e.args x) with
      inits := (next (e.args x)).inits ++ e.handle } := by
  cases e <;> simp [Enh.apply, Enh.handle]

theorem comp_eq (s : Stack D A M B N) (next : Args D B N → Made D C O) (x : Args D A M) :
    s.comp next x = { next (s.args x) with inits := (next (s.args x)).inits ++ s.handles.reverse } := by
  induction s with
  | nil => simp [Stack.comp, Stack.args, Stack.handles]
  | cons e s ih =>
    show e.apply (s.comp next) x = _
    rw [Enh.apply_eq, ih]
    simp only [Stack.args, Stack.handles, List.reverse_append, List.append_assoc]
    cases e <;> simp [Enh.handle]

theorem makeStore_eq (tag : Tag) (init : M) (ch : M → M → Bool) (upd : Red A M) (s : Stack D A M B N) :
    makeStore tag init ch upd s =
      ⟨(s.args ⟨init, ch, upd, fun _ => none, [tag]⟩).cfg, (s.args ⟨init, ch, upd, fun _ => none, [tag]⟩).deps,
        s.handles.reverse⟩ := by
  unfold makeStore
  rw [comp_eq]
  rfl

theorem args_append (s : Stack D A M B N) (t : Stack D B N C O) (x : Args D A M) :
    (s.append t).args x = t.args (s.args x) := by
  induction s with
  | nil => rfl
  | cons e s ih => exact ih t _

theorem args_tags (s : Stack D A M B N) (x : Args D A M) : (s.args x).tags = x.tags ++ s.allTags := by
  induction s with
  | nil => simp [Stack.args, Stack.allTags]
  | cons e s ih =>
    rw [Stack.args, ih, Stack.allTags]
    cases e <;> simp [Enh.args, Enh.tagsOf]

theorem args_deps (s : Stack D A M B N) (x : Args D A M) (k : Nat) :
    (s.args x).deps k = ((s.depsOf k).getLast?).or (x.deps k) := by
  induction s with
  | nil => simp [Stack.args, Stack.depsOf]
  | cons e s ih =>
    have h : (e.args x).deps k = (e.depOf k).or (x.deps k) := by
      cases e with
      | debugger ea em i h pid rid => by_cases hk : k = i <;> simp [Enh.args, mergeDeps, Enh.depOf, hk]
      | tree ea em i h pid rid => by_cases hk : k = i <;> simp [Enh.args, mergeDeps, Enh.depOf, hk]
      | _ => simp [Enh.args, mergeDeps, Enh.depOf]
    rw [Stack.args, ih, Stack.depsOf, List.getLast?_append, h, ← Option.or_assoc]
    cases e.depOf k <;> simp

/-- Stores with the same tags behave the same if they did with others. -/
theorem Sim.cast {g : A → B} {v : N → M} {ok : N → Prop} {c : Cfg A M} {c' : Cfg B N} (h : Sim g v ok c c')
    (f : Bool) : Sim g v ok { c with hasF := f } { c' with hasF := f } :=
  ⟨h.throws, h.good, h.model, h.eff, h.changed, h.sound, h.trans, h.trans', rfl, h.init, h.vinit, h.null⟩

theorem filled_filled (e : Eff) : e.filled.filled = e.filled := by cases e <;> rfl

theorem Sim.comp {g : A → B} {v : N → M} {ok : N → Prop} {g' : B → C} {v' : O → N} {ok' : O → Prop} {c : Cfg A M}
    {c1 : Cfg B N} {c2 : Cfg C O} (h : Sim g v ok c c1) (h' : Sim g' v' ok' c1 c2) :
    Sim (g' ∘ g) (v ∘ v') (fun n => ok' n ∧ ok (v' n)) c c2 := by
  have ht : ∀ n a, ok (v' n) → c.throws (v (v' n)) a = false → c1.throws (v' n) (g a) = false :=
    fun n a hn hf => (h.throws _ a hn).trans hf
  constructor
  · exact fun n a hn => (h'.throws n (g a) hn.1).trans (h.throws _ a hn.2)
  · intro n a hn hf
    refine ⟨h'.good n (g a) hn.1 (ht n a hn.2 hf), ?_⟩
    show ok (v' (c2.reducer n (g' (g a))).1)
    rw [h'.model n (g a) hn.1 (ht n a hn.2 hf)]
    exact h.good _ a hn.2 hf
  · intro n a hn hf
    show v (v' (c2.reducer n (g' (g a))).1) = _
    rw [h'.model n (g a) hn.1 (ht n a hn.2 hf)]
    exact h.model _ a hn.2 hf
  · intro n a hn hf
    show (c2.reducer n (g' (g a))).2 = _
    rw [h'.eff n (g a) hn.1 (ht n a hn.2 hf), h.eff _ a hn.2 hf, filled_filled]
    rfl
  · intro n a hn hf hc
    exact h.changed _ a hn.2 hf (h'.changed n (g a) hn.1 (ht n a hn.2 hf) hc)
  · exact h.sound
  · exact h.trans
  · exact h'.trans'
  · exact h'.hasF.trans h.hasF
  · exact ⟨h'.init, by rw [h'.vinit]; exact h.init⟩
  · show v (v' c2.init) = _
    rw [h'.vinit]; exact h.vinit
  · exact h'.null.trans h.null

/-- Stores that do exactly the same. -/
structure Sim0 (g : A → B) (v : N → M) (c : Cfg A M) (c' : Cfg B N) : Prop where
  throws : ∀ n a, c'.throws n (g a) = c.throws (v n) a
  model : ∀ n a, v (c'.reducer n (g a)).1 = (c.reducer (v n) a).1
  eff : ∀ n a, (c'.reducer n (g a)).2 = (c.reducer (v n) a).2
  changed : ∀ n a, c'.changed (c'.reducer n (g a)).1 n = c.changed (c.reducer (v n) a).1 (v n)
  trans' : c'.trans = false
  hasF : c'.hasF = c.hasF
  vinit : v c'.init = c.init
  null : c'.null = c.null

theorem Sim.comp0 {g : A → B} {v : N → M} {ok : N → Prop} {g' : B → C} {v' : O → N} {c : Cfg A M}
    {c1 : Cfg B N} {c2 : Cfg C O} (h : Sim g v ok c c1) (h' : Sim0 g' v' c1 c2) :
    Sim (g' ∘ g) (v ∘ v') (fun n => ok (v' n)) c c2 := by
  constructor
  · exact fun n a hn => (h'.throws n (g a)).trans (h.throws _ a hn)
  · intro n a hn hf
    show ok (v' (c2.reducer n (g' (g a))).1)
    rw [h'.model n (g a)]
    exact h.good _ a hn hf
  · intro n a hn hf
    show v (v' (c2.reducer n (g' (g a))).1) = _
    rw [h'.model n (g a)]
    exact h.model _ a hn hf
  · intro n a hn hf
    show (c2.reducer n (g' (g a))).2 = _
    rw [h'.eff n (g a)]
    exact h.eff _ a hn hf
  · intro n a hn hf hc
    exact h.changed _ a hn hf (by rw [← h'.changed n (g a)]; exact hc)
  · exact h.sound
  · exact h.trans
  · exact h'.trans'
  · exact h'.hasF.trans h.hasF
  · show ok (v' c2.init)
    rw [h'.vinit]; exact h.init
  · show v (v' c2.init) = _
    rw [h'.vinit]; exact h.vinit
  · exact h'.null.trans h.null

/-- An enhancer without `with_reducer` and wrappers leaves the reducer as it is. -/
theorem enh_flat (e : Enh D A M B N) (s : Stack D B N C O) (x : Args D A M) (f : Bool) (hk : e.isReducer = false)
    (hw : e.isWrapper = false) (hx : Tag.transactional ∉ x.tags) (ht : Tag.transactional ∉ e.tagsOf) {P :
      {A : Type} → {M : Type} → (A → C) → (O → M) → Cfg A M → Prop}
    (h : P s.wrap s.view { (e.args x).cfg with hasF := f }) :
    P (Stack.cons e s).wrap (Stack.cons e s).view { x.cfg with hasF := f } := by
  cases e with
  | reducer r => cases hk
  | tags ts =>
    have : ({ ((Enh.tags ts).args x).cfg with hasF := f } : Cfg A M) = { x.cfg with hasF := f } := by
      simp only [Enh.tagsOf] at ht
      simp [Enh.args, Args.cfg, hx, ht]
    rw [this] at h
    exact h
  | deps d => exact h
  | thunk => cases hw
  | debugger ea em k h pid rid => cases hw
  | tree ea em k h pid rid => cases hw

theorem tags_mem (e : Enh D A M B N) (x : Args D A M) (hx : Tag.transactional ∉ x.tags)
    (ht : Tag.transactional ∉ e.tagsOf) : Tag.transactional ∉ (e.args x).tags := by
  cases e <;> simp_all [Enh.args, Enh.tagsOf]

theorem enh_sound (e : Enh D A M B N) (x : Args D A M) (hx : x.cfg.sound) : (e.args x).cfg.sound := by
  cases e with
  | debugger ea em k h pid rid => intro v w h; exact Classical.not_not.1 (of_decide_eq_false h)
  | tree ea em k h pid rid => intro v w h; exact Classical.not_not.1 (of_decide_eq_false h)
  | _ => exact hx

/-- With wrappers there is a simulation, without any it is exact. -/
theorem sim_stack (t : Stack D A M B N) : ∀ (x : Args D A M), x.cfg.sound → t.keeps = true →
    Tag.transactional ∉ x.tags → Tag.transactional ∉ t.allTags → ∀ f, f = (t.args x).cfg.hasF →
    (t.flat = false → ∃ ok, Sim t.wrap t.view ok { x.cfg with hasF := f } (t.args x).cfg) ∧
    (t.flat = true → Sim0 t.wrap t.view { x.cfg with hasF := f } (t.args x).cfg) := by
  induction t with
  | @nil A M =>
    intro x _ _ hx _ f hf
    refine ⟨fun h => (nomatch h), fun _ => ⟨fun _ _ => rfl, fun _ _ => rfl, fun _ _ => rfl, fun _ _ => rfl, ?_, hf.symm, rfl, rfl⟩⟩
    exact decide_eq_false hx
  | @cons A M B' N' C' O' e s ih =>
    intro x hc hk hx ht f hf
    simp only [Stack.keeps, Bool.and_eq_true, Bool.not_eq_true'] at hk
    simp only [Stack.allTags, List.mem_append, not_or] at ht
    obtain ⟨i1, i2⟩ := ih (e.args x) (enh_sound e x hc) hk.2 (tags_mem e x hx ht.1) ht.2 f hf
    cases hw : e.isWrapper with
    | false =>
      simp only [Stack.flat, hw, Bool.not_false, Bool.true_and]
      constructor
      · intro h
        exact enh_flat e s x f hk.1 hw hx ht.1
          (P := fun g v c => ∃ ok, Sim g v ok c ((Stack.cons e s).args x).cfg) (i1 h)
      · intro h
        exact enh_flat e s x f hk.1 hw hx ht.1
          (P := fun g v c => Sim0 g v c ((Stack.cons e s).args x).cfg) (i2 h)
    | true =>
      simp only [Stack.flat, hw, Bool.not_true, Bool.false_and, true_imp_iff]
      refine ⟨?_, fun h => (nomatch h)⟩
      have hx' : decide (Tag.transactional ∈ x.tags) = false := decide_eq_false hx
      have key : ∃ ok, Sim e.wrap e.view ok { x.cfg with hasF := f } { (e.args x).cfg with hasF := f } := by
        cases e with
        | reducer r => cases hw
        | tags ts => cases hw
        | deps d => cases hw
        | thunk =>
          have h := sim_thunk (c := x.bare) hc rfl
          exact ⟨_, h.throws, h.good, h.model, h.eff, h.changed, hc, hx', hx', rfl, h.init, h.vinit, h.null⟩
        | debugger ea em k hd pid rid =>
          have h := sim_debugger pid rid (ch := fun v w => decide (v ≠ w)) (c := x.bare) hc
            (fun _ _ h => Classical.not_not.1 (of_decide_eq_false h)) rfl
          exact ⟨_, h.throws, h.good, h.model, h.eff, h.changed, hc, hx', hx', rfl, h.init, h.vinit, h.null⟩
        | tree ea em k hd pid rid =>
          have h := sim_tree pid rid (ch := fun v w => decide (v ≠ w)) (c := x.bare) hc
            (fun _ _ h => Classical.not_not.1 (of_decide_eq_false h)) rfl
          exact ⟨_, h.throws, h.good, h.model, h.eff, h.changed, hc, hx', hx', rfl, h.init, h.vinit, h.null⟩
      obtain ⟨ok, h1⟩ := key
      cases hs : s.flat with
      | true => exact ⟨_, h1.comp0 (i2 hs)⟩
      | false =>
        obtain ⟨ok', h2⟩ := i1 hs
        exact ⟨_, h1.comp h2⟩

theorem map_id_op (ops : List (SOp A)) : ops.map (SOp.map id) = ops := by
  induction ops with
  | nil => rfl
  | cons o ops ih => rw [List.map_cons, ih]; cases o <;> rfl

theorem map_id_ev (l : List (SEv A M)) : l.map (SEv.map id) = l := by
  induction l with
  | nil => rfl
  | cons e l ih => rw [List.map_cons, ih]; cases e <;> rfl

theorem view_id_ev (l : List (SEv A M)) : l.map (SEv.view id) = l := by
  induction l with
  | nil => rfl
  | cons e l ih => rw [List.map_cons, ih]; cases e <;> rfl

/-- For each run of the store `c` with actions `A` and models `M` there is one of the store `c'`, with the same
actions (as converted by `g`) and the same schedule, except for the internal steps of effects that do nothing.  It
leads to the same shown model (in the view `v`), the same futures and promises and the same number of waiting tasks,
and in it the same is seen: the same dispatches, calls of the reducer, of watchers with new values, and of effects,
in the same order. -/
def Transparent [DecidableEq M] (g : A → B) (v : N → M) (c : Cfg A M) (c' : Cfg B N) : Prop :=
  ∀ (ops : List (SOp A)) (st : St A M), exec c (start c) ops = some st →
    ∃ ops' st', ops'.filter (fun o => !o.isGo) = (ops.filter (fun o => !o.isGo)).map (SOp.map g) ∧
      exec c' (start c') ops' = some st' ∧ v st'.get = st.get ∧ st'.fu = st.fu ∧ st'.sent = st.sent ∧
      st'.queue.length = st.queue.length ∧
      seen c.init (st'.log.map (SEv.view v)) = seen c.init (st.log.map (SEv.map g))

theorem Sim.transparent [DecidableEq M] {g : A → B} {v : N → M} {ok : N → Prop} {c : Cfg A M} {c' : Cfg B N}
    (h : Sim g v ok c c') : Transparent g v c c' := by
  intro ops st hs
  obtain ⟨ops', st', h1, h2, h3⟩ := Rel.exec h ops (Rel.start h) hs
  exact ⟨ops', st', h1, h2, h3.last, h3.fu, h3.sent, by rw [h3.queue, List.length_map], h3.log.1⟩

theorem flat_transparent (t : Stack D A M B N) : ∀ [DecidableEq M] (x : Args D A M), t.keeps = true → t.flat = true →
    Tag.transactional ∉ x.tags → Tag.transactional ∉ t.allTags → ∀ f, f = (t.args x).cfg.hasF →
    Transparent t.wrap t.view { x.cfg with hasF := f } (t.args x).cfg := by
  induction t with
  | @nil A M =>
    intro _ x _ _ _ _ f hf ops st hs
    subst hf
    refine ⟨ops, st, ?_, hs, rfl, rfl, rfl, rfl, ?_⟩
    · exact (map_id_op _).symm
    · rw [show (Stack.nil : Stack D A M A M).view = id from rfl, show (Stack.nil : Stack D A M A M).wrap = id from rfl,
        map_id_ev, view_id_ev]
  | @cons A M B' N' C' O' e s ih =>
    intro _ x hk hw hx ht f hf
    simp only [Stack.keeps, Bool.and_eq_true, Bool.not_eq_true'] at hk
    simp only [Stack.flat, Bool.and_eq_true, Bool.not_eq_true'] at hw
    simp only [Stack.allTags, List.mem_append, not_or] at ht
    refine enh_flat e s x f hk.1 hw.1 hx ht.1 (P := fun {_ M'} g v c => ∀ [DecidableEq M'],
      Transparent g v c ((Stack.cons e s).args x).cfg) ?_
    intro _
    exact ih (e.args x) hk.2 hw.2 (tags_mem e x hx ht.1) ht.2 f hf

theorem resumeAll_bare (c : Cfg A M) (t f : Bool) (as : List A) : ∀ acc,
    resumeAll { c with trans := t, hasF := f } as acc = resumeAll c as acc := by
  induction as with
  | nil => intro acc; rfl
  | cons a as ih => intro acc; exact ih _

theorem resumeThrows_bare (c : Cfg A M) (t f : Bool) (as : List A) : ∀ m,
    resumeThrows { c with trans := t, hasF := f } as m = resumeThrows c as m := by
  induction as with
  | nil => intro m; rfl
  | cons a as ih => intro m; exact congrArg (debugThrows c m a || ·) (ih _)

theorem treeResume_bare (c : Cfg A M) (t f : Bool) (as : List A) : ∀ acc,
    treeResume { c with trans := t, hasF := f } as acc = treeResume c as acc := by
  induction as with
  | nil => intro acc; rfl
  | cons a as ih => intro acc; exact ih _

theorem treeResumeThrows_bare (c : Cfg A M) (t f : Bool) (as : List A) : ∀ m,
    treeResumeThrows { c with trans := t, hasF := f } as m = treeResumeThrows c as m := by
  induction as with
  | nil => intro m; rfl
  | cons a as ih => intro m; exact congrArg (treeThrows c m a || ·) (ih _)

theorem cfg_ext {c c' : Cfg A M} (h1 : ∀ m a, c.reducer m a = c'.reducer m a) (h2 : ∀ m a, c.throws m a = c'.throws m a)
    (h0 : c.null = c'.null)
    (h3 : c.changed = c'.changed) (h4 : c.trans = c'.trans) (h5 : c.hasF = c'.hasF) (h6 : c.init = c'.init) :
    c = c' := by
  obtain ⟨a1, a0, a2, a3, a4, a5, a6⟩ := c
  obtain ⟨b1, b0, b2, b3, b4, b5, b6⟩ := c'
  dsimp only at *
  obtain rfl : a1 = b1 := funext fun m => funext (h1 m)
  obtain rfl : a2 = b2 := funext fun m => funext (h2 m)
  subst h0 h3 h4 h5 h6
  rfl

/-- What was the reducer at first only matters for the reducer in the end. -/
theorem args_red (s : Stack D A M B N) (x : Args D A M) (u : Red A M) :
    ∃ r', s.args { x with red := u } = { s.args x with red := r' } := by
  induction s with
  | nil => exact ⟨u, rfl⟩
  | cons e s ih =>
    have : ∃ u', e.args { x with red := u } = { e.args x with red := u' } := by
      cases e with
      | reducer r => exact ⟨r, rfl⟩
      | tags ts => exact ⟨u, rfl⟩
      | deps d => exact ⟨u, rfl⟩
      | thunk => exact ⟨_, rfl⟩
      | debugger ea em k h pid rid => exact ⟨_, rfl⟩
      | tree ea em k h pid rid => exact ⟨_, rfl⟩
    obtain ⟨u', hu⟩ := this
    rw [Stack.args, hu]
    exact ih (e.args x) u'

theorem args_sound (s : Stack D A M B N) (x : Args D A M) (h : x.cfg.sound) : (s.args x).cfg.sound := by
  induction s with
  | nil => exact h
  | cons e s ih => exact ih _ (enh_sound e x h)

/-! ### Examples

The effect of an action is its number, unless it is 0. -/

def exRed : Red Nat Nat where
  run m a := (m + a, if a = 0 then .empty else .prim a)

/-- The debugger, then thunks; and more. -/
def exStackDT : Stack Nat Nat Nat (Eff ⊕ DAction Nat) (DModel Nat Nat) :=
  .cons (.debugger inferInstance inferInstance 0 100 50 60) (.cons .thunk .nil)

def exStackMix : Stack Nat Nat Nat (Eff ⊕ TAction (DAction Nat)) (TModel (DAction Nat) (DModel Nat Nat)) :=
  .cons (.deps fun k => if k = 5 then some 7 else none) (.cons (.debugger inferInstance inferInstance 0 100 50 60)
    (.cons (.tags [.futures]) (.cons (.tree inferInstance inferInstance 1 101 51 61) (.cons (.deps fun k => if k = 5 then some 8 else none)
      (.cons .thunk .nil)))))

def exMake {B N : Type} (s : Stack Nat Nat Nat B N) : Made Nat B N :=
  makeStore .automatic 10 (fun v w => v != w) exRed s

/-! ### C95 -/

section C95

variable (tag : Tag) (init : M) (ch : M → M → Bool) (upd : Red A M)

/-- C95: enhancers wrap the reducer in the order in which they are given: the one given last is the outermost. -/
theorem C95_wraps (s : Stack D A M B N) :
    (makeStore tag init ch upd (s.append (.one .thunk))).cfg = withThunk (makeStore tag init ch upd s).cfg ∧
    (∀ [DecidableEq B] [DecidableEq N] k h pid rid,
      (makeStore tag init ch upd (s.append (.one (.debugger inferInstance inferInstance k h pid rid)))).cfg =
        withDebugger pid rid (fun v w => decide (v ≠ w)) (makeStore tag init ch upd s).cfg ∧
      (makeStore tag init ch upd (s.append (.one (.tree inferInstance inferInstance k h pid rid)))).cfg =
        withTree pid rid (fun v w => decide (v ≠ w)) (makeStore tag init ch upd s).cfg) ∧
    (∀ r : Red B N, (makeStore tag init ch upd (s.append (.one (.reducer r)))).cfg =
      { (makeStore tag init ch upd s).cfg with reducer := r.run, throws := r.throws, null := r.null }) := by
  simp only [makeStore_eq, args_append]
  generalize s.args _ = y
  refine ⟨?_, fun k h pid rid => ⟨?_, ?_⟩, fun r => rfl⟩
  · exact cfg_ext (fun m a => by cases a <;> rfl) (fun m a => by cases a <;> rfl) rfl rfl rfl rfl rfl
  · refine cfg_ext (fun m a => ?_) (fun m a => ?_) rfl rfl rfl rfl rfl
    · cases a with
      | resume =>
        show ((resumeAll y.bare m.pending (unpause m, .noop)).1,
          sequence (.prim rid) (resumeAll y.bare m.pending (unpause m, .noop)).2) = _
        rw [show y.bare = { y.cfg with trans := false, hasF := false } from rfl, resumeAll_bare]
        rfl
      | _ => rfl
    · cases a with
      | resume => exact resumeThrows_bare y.cfg false false m.pending (unpause m)
      | _ => rfl
  · refine cfg_ext (fun m a => ?_) (fun m a => ?_) rfl rfl rfl rfl rfl
    · cases a with
      | resume =>
        show ((treeResume y.bare m.pending (tunpause m, .noop)).1,
          sequence (.prim rid) (treeResume y.bare m.pending (tunpause m, .noop)).2) = _
        rw [show y.bare = { y.cfg with trans := false, hasF := false } from rfl, treeResume_bare]
        rfl
      | _ => rfl
    · cases a with
      | resume => exact treeResumeThrows_bare y.cfg false false m.pending (tunpause m)
      | _ => rfl

/-- C95: enhancers other than `with_reducer`, `with_thunk` and `with_debugger` leave model and reducer alone. -/
theorem C95_leaves (s : Stack D A M B N) (ts : List Tag) (d : Nat → Option D) :
    let c := (makeStore tag init ch upd s).cfg
    let c1 := (makeStore tag init ch upd (s.append (.one (.tags ts)))).cfg
    let c2 := (makeStore tag init ch upd (s.append (.one (.deps d)))).cfg
    c1 = { c with trans := c1.trans, hasF := c1.hasF } ∧ c2 = c := by
  simp only [makeStore_eq, args_append]
  exact ⟨rfl, rfl⟩

/-- C95: `with_reducer` replaces the reducer with everything that has been wrapped around it: whatever the reducer
before was, with the same enhancers, the store is the same. -/
theorem C95_reducer (s : Stack D A M B N) (r : Red B N) (t : Stack D B N C O) (upd' : Red A M) :
    makeStore tag init ch upd (s.append (.cons (.reducer r) t)) =
      makeStore tag init ch upd' (s.append (.cons (.reducer r) t)) := by
  simp only [makeStore_eq, args_append]
  obtain ⟨r1, h1⟩ := args_red s ⟨init, ch, upd, fun _ => none, [tag]⟩ upd'
  dsimp only at h1
  rw [h1]
  rfl

/-- C95: the store is transactional if the tag given to `make_store` or any enhancer says so, and it has futures if
any says so, in any order. -/
theorem C95_tags (s : Stack D A M B N) :
    ((makeStore tag init ch upd s).cfg.trans = true ↔ tag = .transactional ∨ .transactional ∈ s.allTags) ∧
    ((makeStore tag init ch upd s).cfg.hasF = true ↔ tag = .futures ∨ .futures ∈ s.allTags) := by
  simp only [makeStore_eq, Args.cfg, args_tags, decide_eq_true_eq, List.mem_append, List.mem_singleton]
  constructor <;> constructor <;> rintro (h | h) <;> simp_all

/-- C95 is FALSE for turning things off: with the tag `automatic_tag` a transactional store stays transactional. -/
theorem C95_automatic_false :
    ¬ ∀ (s : Stack Nat Nat Nat Nat Nat), .automatic ∈ s.allTags →
      (makeStore .transactional 0 (fun v w => v != w) exRed s).cfg.trans = false := by
  intro h
  have := h (.one (.tags [.automatic])) (by decide)
  exact absurd this (by decide)

/-- C95: of what the enhancers give for a dependency, the last one is found. -/
theorem C95_deps (s : Stack D A M B N) (k : Nat) : (makeStore tag init ch upd s).deps k = (s.depsOf k).getLast? := by
  rw [makeStore_eq]
  show (s.args _).deps k = _
  rw [args_deps]
  simp

/-- C95: each debugger gets the finished store, the last one first. -/
theorem C95_inits (s : Stack D A M B N) : (makeStore tag init ch upd s).inits = s.handles.reverse := by
  rw [makeStore_eq]

example : (exMake exStackMix).deps 5 = some 8 ∧ (exMake exStackMix).deps 1 = some 101 ∧
    (exMake exStackMix).inits = [101, 100] ∧ (exMake exStackMix).cfg.hasF = true ∧
    (exMake exStackMix).cfg.trans = false ∧ (exMake exStackDT).cfg.hasF = false := by decide +kernel

/-- C95: enhancers `t` in any number and order, without `with_reducer`, on top of any others, `s`: with the actions
of the store without them, the store with them behaves like the one without them that has the same tags. -/
theorem C95_transparent [DecidableEq N] (hch : ∀ v w, ch v w = false → v = w) (s : Stack D A M B N)
    (t : Stack D B N C O) (hk : t.keeps = true) (ht : (makeStore tag init ch upd (s.append t)).cfg.trans = false) :
    Transparent t.wrap t.view (makeStore tag init ch upd (s.append (.one (.tags t.allTags)))).cfg
      (makeStore tag init ch upd (s.append t)).cfg := by
  have h1 := (C95_tags tag init ch upd (s.append t)).1
  rw [ht] at h1
  simp only [makeStore_eq, args_append]
  have hy := args_sound s ⟨init, ch, upd, fun _ => none, [tag]⟩ hch
  have hy2 : Tag.transactional ∉ (s.args ⟨init, ch, upd, fun _ => none, [tag]⟩).tags ++ t.allTags := by
    rw [← args_tags t, ← args_append]
    intro h
    rw [args_tags] at h
    simp only [List.mem_append, List.mem_singleton] at h
    have h2 := h1.2 (h.imp Eq.symm id)
    cases h2
  generalize s.args _ = y at hy hy2
  simp only [List.mem_append, not_or] at hy2
  have e : ((Stack.one (.tags t.allTags)).args y).cfg = { y.cfg with hasF := (t.args y).cfg.hasF } := by
    refine cfg_ext (fun _ _ => rfl) (fun _ _ => rfl) rfl rfl ?_ ?_ rfl
    · show decide _ = decide _
      simp [Stack.one, Stack.args, Enh.args, hy2.1, hy2.2]
    · show decide _ = decide (Tag.futures ∈ (t.args y).tags)
      rw [args_tags t y]
      simp [Stack.one, Stack.args, Enh.args]
  rw [e]
  cases hf : t.flat with
  | true => exact flat_transparent t y hk hf hy2.1 hy2.2 _ rfl
  | false =>
    obtain ⟨ok, h⟩ := (sim_stack t y hy hk hy2.1 hy2.2 _ rfl).1 hf
    exact h.transparent

end C95

example : exStackMix.keeps = true ∧ (exMake exStackMix).cfg.trans = false ∧
    (exMake (.one (.tags exStackMix.allTags))).cfg.hasF = true := by decide +kernel

/-- An action through two debuggers and the thunks. -/
example : exStackMix.wrap 3 = .inr (.act (.act 3)) ∧
    exStackMix.view (exSt (exMake exStackMix).cfg [.dispatch (exStackMix.wrap 3), .loop, .loop]).get = 13 ∧
    effRuns 0 (exSt (exMake exStackMix).cfg [.dispatch (exStackMix.wrap 3), .loop, .loop]).log = 1 := by
  decide +kernel

theorem compiles_false (s : Stack D A M B N) : ∀ m, s.compiles (false, m) = true → s.hasDebugger = false := by
  induction s with
  | nil => intro m _; rfl
  | cons e s ih =>
    intro m h
    cases e with
    | debugger ea em k h' pid rid => simp [Stack.compiles, Enh.compiles] at h
    | tree ea em k h' pid rid => simp [Stack.compiles, Enh.compiles] at h
    | _ =>
      simp only [Stack.compiles, Enh.compiles, Option.any_some] at h
      exact ih _ h

theorem hasDebugger_append (s : Stack D A M B N) : ∀ t : Stack D B N C O, (s.append t).hasDebugger = false →
    t.hasDebugger = false := by
  induction s with
  | nil => intro t h; exact h
  | cons e s ih => intro t h; exact ih t (Bool.or_eq_false_iff.1 h).2

/-- C95: debuggers compare actions, and thunks cannot be compared: if the enhancers compile, then no debugger is
outside of `with_thunk`. -/
theorem C95_compiles (s : Stack D A M B N) : ∀ (am : Bool × Bool) (t : Stack D B N C O),
    (s.append t).compiles am = true → s.hasThunk = true → t.hasDebugger = false := by
  induction s with
  | nil => intro am t _ h; cases h
  | cons e s ih =>
    intro am t h hs
    cases e with
    | thunk => exact hasDebugger_append s t (compiles_false (s.append t) am.2 h)
    | debugger ea em k h' pid rid =>
      simp only [Stack.append, Stack.compiles, Enh.compiles] at h
      split at h
      · exact ih _ t h hs
      · cases h
    | tree ea em k h' pid rid =>
      simp only [Stack.append, Stack.compiles, Enh.compiles] at h
      split at h
      · exact ih _ t h hs
      · cases h
    | _ => exact ih _ t h hs

example : exStackMix.compiles (true, true) = true ∧ exStackMix.hasThunk = true ∧ exStackMix.hasDebugger = true ∧
    (exStackDT.append (.one (.debugger inferInstance inferInstance 0 100 50 60))).compiles (true, true) = false := by decide +kernel

/-- C95 is FALSE for a paused debugger and thunks, then: a thunk that is dispatched while it is paused is called,
although actions wait. -/
theorem C95_paused_false :
    let st := exSt (exMake exStackDT).cfg
      [.dispatch (.inr .pause), .dispatch (.inl (.prim 9)), .dispatch (.inr (.act 3)), .loop, .loop, .loop, .loop,
       .go 0, .prim 0 none, .go 0, .loop, .go 0, .prim 0 none, .go 0, .loop, .go 0, .go 0]
    Reach (exMake exStackDT).cfg st ∧ st.idle ∧ st.ev = [] ∧ (∃ x pos, SEv.prim x pos 9 ∈ st.log) ∧
      st.get.paused = true ∧ st.get.pending = [3] ∧ view st.get = 10 := by
  refine ⟨exSt_reach (by decide +kernel), List.isEmpty_iff.1 (by decide +kernel),
    List.isEmpty_iff.1 (by decide +kernel), ⟨1, 0, by decide +kernel⟩, by decide +kernel⟩

end Verif.Store
