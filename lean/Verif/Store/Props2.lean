import Verif.Store.Props
import Verif.Store.SeqLive

/-!
Property C53: sequencing effects.

`ran x log` is the user code that call number `x` of an effect by the store has called, in order, over all
the time: the call itself and the closures that it has given to `then`, directly or not.
-/

namespace Verif.Store

variable {A Mo : Type}

/-! ### An example

Every action has an effect that is a sequence of three, in a store with or without futures. -/

def exSeqCfg (hasF : Bool) : Cfg Nat Nat where
  reducer m a := (m + a, sequence (sequence (.prim 1) (.prim 2)) (.prim 3))
  changed v w := v != w
  trans := false
  hasF := hasF
  init := 10

theorem exSeqCfg_built (f : Bool) : (exSeqCfg f).built :=
  fun _ _ => .sequence (.sequence (.prim 1) (.prim 2) nofun nofun) (.prim 3) nofun nofun

/-- The first part returns a future.  The promise is not fulfilled. -/
def exSeqOps1 : List (SOp Nat) :=
  [.dispatch 5, .loop, .loop, .go 0, .go 0, .go 0, .fut (.newPair 0), .prim 0 (some 1), .go 0, .go 0, .go 0]

/-- It is fulfilled, and everything is run. -/
def exSeqOps : List (SOp Nat) :=
  [.dispatch 5, .loop, .loop, .go 0, .go 0, .go 0, .fut (.newPair 0), .prim 0 (some 1), .go 0, .go 0, .go 0,
   .fut (.fulfil 1), .loop, .go 0, .prim 0 none, .go 0, .fut (.lib 0), .loop, .go 0, .prim 0 none, .go 0,
   .fut (.lib 0)]

theorem quiet_of {st : St A Mo} (i : Future.Inv st.fu)
    (h : (List.range st.fu.size).all (fun s => (st.fu.cell s).loop == 0) = true)
    (h0 : (st.fu.queue 0).isEmpty = true) (ha : st.fu.active.isEmpty = true) (he : st.ev.isEmpty = true) :
    st.quiet := by
  refine ⟨?_, List.isEmpty_iff.1 ha, List.isEmpty_iff.1 he⟩
  intro l
  cases hq : st.fu.queue l with
  | nil => rfl
  | cons t q =>
    obtain ⟨s, h1, _, h3⟩ := i.queued l t (by rw [hq]; exact List.mem_cons_self ..)
    have h4 := List.all_eq_true.1 h s (List.mem_range.2 (i.att _ _ _ _ h1).2.1)
    have : l = 0 := by rw [← h3]; simpa using h4
    subst this
    rw [hq] at h0
    cases h0

theorem exSeq_reach : Reach (exSeqCfg false) (exSt (exSeqCfg false) exSeqOps) := exSt_reach (by decide +kernel)

theorem exSeq_quiet : (exSt (exSeqCfg false) exSeqOps).quiet :=
  quiet_of (exSeq_reach.seq (exSeqCfg_built false) (by decide +kernel)).fi (by decide +kernel)
    (by decide +kernel) (by decide +kernel) (by decide +kernel)

/-! ### C53 -/

/-- The user code of a sequence is that of the first part and then that of the second. -/
theorem acts_sequence (a b : Eff) : (sequence a b).acts = a.acts ++ b.acts := rfl

/-- A call of the effect of a dispatch is its only one. -/
theorem call_unique {c : Cfg A Mo} (hc : c.sound) {st : St A Mo} (r : Reach c st) {d x x' : Nat}
    {e e' : Eff} (h : SEv.effStart d x e ∈ st.log) (h' : SEv.effStart d x' e' ∈ st.log) :
    x = x' ∧ e = e' := by
  have h1 := (C49_once hc r d).1
  have h2 : effRuns d st.log = st.log.countP (fun v => match v with
      | .effStart d' _ _ => d' == d
      | _ => false) := by
    generalize st.log = l
    induction l with
    | nil => rfl
    | cons v l ih =>
      rw [List.countP_cons]
      cases v <;> simp only [effRuns, ih] <;> simp <;> omega
  rw [h2] at h1
  have := countP_unique h1 h h' (by simp) (by simp)
  cases this
  exact ⟨rfl, rfl⟩

/-- C53: a call of `sequence(a, b)` calls user code of `a`, in its order, then user code of `b`: each at most
once, and nothing else. -/
theorem C53_order {c : Cfg A Mo} (hb : c.built) {st : St A Mo} (r : Reach c st) (hu : st.fu.ub = false)
    {a b : Eff} {d x : Nat} (h : SEv.effStart d x (sequence a b) ∈ st.log) :
    ran x st.log <+: a.acts ++ b.acts := by
  rw [← acts_sequence]
  exact (r.seq hb hu).s.prefix h

example : SEv.effStart 0 0 (sequence (sequence (.prim 1) (.prim 2)) (.prim 3)) ∈
      (exSt (exSeqCfg false) exSeqOps1).log ∧ ran 0 (exSt (exSeqCfg false) exSeqOps1).log = [1] ∧
    (exSt (exSeqCfg false) exSeqOps1).fu.ub = false := by decide +kernel

example : Reach (exSeqCfg false) (exSt (exSeqCfg false) exSeqOps1) := exSt_reach (by decide +kernel)

/-- C53: it waits.  When it calls user code, all user code that it has called before has returned, and
the futures that it has returned are fulfilled. -/
theorem C53_waits {c : Cfg A Mo} (hb : c.built) {st st' : St A Mo} (r : Reach c st) {op : SOp A}
    (h : step c st op = some st') (hu : st'.fu.ub = false) {x : Nat} (hr : ran x st'.log ≠ ran x st.log) :
    Settled st x := by
  obtain ⟨n, f, id, _, hf, hm, rfl⟩ := step_ran h hr
  exact (r.seq hb (step_ub h hu)).s.settled hf hm

/-- It calls the second part. -/
example : ((exec (exSeqCfg false) (exSt (exSeqCfg false) exSeqOps1) [.fut (.fulfil 1), .loop]).bind
    (fun s => (step (exSeqCfg false) s (.go 0)).map (fun s' => (ran 0 s.log, ran 0 s'.log)))) =
      some ([1], [1, 2]) := by decide +kernel

theorem eff_all {c : Cfg A Mo} (hc : c.sound) (hb : c.built) {st : St A Mo} (r : Reach c st)
    (hu : st.fu.ub = false) (hq : st.quiet) {e : Eff} {d x : Nat}
    (h : SEv.effStart d x e ∈ st.log) (ht : ¬ Threw st x) (hs : Settled st x) :
    ran x st.log = e.acts ∧ ∀ g, SEv.effEnd d (some g) ∈ st.log → Future.Fulfilled st.fu g := by
  have k := r.seq hb hu
  have hs' : ∀ pos g, SEv.primRet x pos (some g) ∈ st.log → (st.fu.cell g).done = true := by
    intro pos g hp
    have h1 := k.s.bal x pos
    have h2 : 0 < rc st.log x pos := rc_pos.2 ⟨_, hp⟩
    obtain ⟨id, h3⟩ := pc_pos.1 (show 0 < pc st.log x pos by omega)
    obtain ⟨r', h4, h5⟩ := hs pos id h3
    exact h5 g (k.s.ret_unique h4 hp)
  refine ⟨all_ran r hu k hq h ht hs', ?_⟩
  intro g hg
  obtain ⟨x', e', h6, h7⟩ := k.s.ended d (some g) hg
  obtain ⟨rfl, rfl⟩ := call_unique hc r h h6
  exact path_done r hu k hq.1 hq.2.1 h ht hs' _ _ 1 g (Nat.le_refl _) h7

/-- C53: it goes on.  If the user code has not thrown and the futures that it has returned are fulfilled,
then when nothing is left to do all of it has been called, and the future that the effect has returned is
fulfilled. -/
theorem C53_all {c : Cfg A Mo} (hc : c.sound) (hb : c.built) {st : St A Mo} (r : Reach c st)
    (hu : st.fu.ub = false) (hq : st.quiet) {a b : Eff} {d x : Nat}
    (h : SEv.effStart d x (sequence a b) ∈ st.log) (ht : ¬ Threw st x) (hs : Settled st x) :
    ran x st.log = a.acts ++ b.acts ∧
    ∀ g, SEv.effEnd d (some g) ∈ st.log → Future.Fulfilled st.fu g := eff_all hc hb r hu hq h ht hs

example : ran 0 (exSt (exSeqCfg false) exSeqOps).log = [1, 2, 3] ∧
    SEv.effStart 0 0 (sequence (sequence (.prim 1) (.prim 2)) (.prim 3)) ∈
      (exSt (exSeqCfg false) exSeqOps).log ∧
    (exSt (exSeqCfg false) exSeqOps).fu.ub = false ∧
    SEv.effEnd 0 (some 2) ∈ (exSt (exSeqCfg false) exSeqOps).log := by decide +kernel

example : (exSt (exSeqCfg false) exSeqOps).quiet ∧ ¬ Threw (exSt (exSeqCfg false) exSeqOps) 0 := by
  refine ⟨exSeq_quiet, ?_⟩
  rintro ⟨pos, h⟩
  have : ∀ e ∈ (exSt (exSeqCfg false) exSeqOps).log, (match e with
      | .primThrew _ _ => false
      | _ => true) = true := by decide +kernel
  have := this _ h
  cases this

theorem eff_future {c : Cfg A Mo} (hc : c.sound) (hb : c.built) {st : St A Mo} (r : Reach c st)
    (hu : st.fu.ub = false) {e : Eff} {d x : Nat} (h : SEv.effStart d x e ∈ st.log)
    {o : Option Nat} (he : SEv.effEnd d o ∈ st.log) (hf : ∀ g, o = some g → Future.Fulfilled st.fu g) :
    ran x st.log = e.acts ∧ Settled st x := by
  have k := r.seq hb hu
  obtain ⟨x', e', h6, h7⟩ := k.s.ended d o he
  obtain ⟨rfl, rfl⟩ := call_unique hc r h h6
  have hcomp : Comp st.fu st.log x e e.len := by
    cases o with
    | none => exact h7
    | some g => exact k.s.tg.path h h7 (hf g rfl)
  exact k.s.comp_all h hcomp

/-- C53: the future that `sequence(a, b)` has returned, or an empty one, means that both parts are over: when
it is fulfilled, all user code of `a` and of `b` has been called and has returned, and the futures that it
has returned are fulfilled. -/
theorem C53_future {c : Cfg A Mo} (hc : c.sound) (hb : c.built) {st : St A Mo} (r : Reach c st)
    (hu : st.fu.ub = false) {a b : Eff} {d x : Nat} (h : SEv.effStart d x (sequence a b) ∈ st.log)
    {o : Option Nat} (he : SEv.effEnd d o ∈ st.log) (hf : ∀ g, o = some g → Future.Fulfilled st.fu g) :
    ran x st.log = a.acts ++ b.acts ∧ Settled st x := eff_future hc hb r hu h he hf

example : SEv.effEnd 0 (some 2) ∈ (exSt (exSeqCfg false) exSeqOps).log ∧
    Future.Fulfilled (exSt (exSeqCfg false) exSeqOps).fu 2 := by
  unfold Future.Fulfilled
  decide +kernel

/-- C53: the effect of a dispatch that is not empty behaves as its user code says.  (`C53_order`, `C53_waits`,
`C53_all` and `C53_future` for any effect.) -/
theorem C53_effect {c : Cfg A Mo} (hc : c.sound) (hb : c.built) {st : St A Mo} (r : Reach c st)
    (hu : st.fu.ub = false) {e : Eff} {d x : Nat} (h : SEv.effStart d x e ∈ st.log) :
    ran x st.log <+: e.acts ∧
    (st.quiet → ¬ Threw st x → Settled st x → ran x st.log = e.acts ∧
      ∀ g, SEv.effEnd d (some g) ∈ st.log → Future.Fulfilled st.fu g) ∧
    (∀ o, SEv.effEnd d o ∈ st.log → (∀ g, o = some g → Future.Fulfilled st.fu g) →
      ran x st.log = e.acts ∧ Settled st x) := by
  exact ⟨(r.seq hb hu).s.prefix h, fun hq ht hs => eff_all hc hb r hu hq h ht hs,
    fun o ho hf => eff_future hc hb r hu h ho hf⟩

/-- C53: `sequence` is associative: calls of both, in whatever stores, call the same user code in the same
order, and when they are over, all of it. -/
theorem C53_assoc {B : Type} {N : Type} {c : Cfg A Mo} {c' : Cfg B N} (hc : c.sound) (hc' : c'.sound)
    (hb : c.built) (hb' : c'.built) {st : St A Mo} {st' : St B N} (r : Reach c st) (r' : Reach c' st')
    (hu : st.fu.ub = false) (hu' : st'.fu.ub = false) {e1 e2 e3 : Eff} {d x d' x' : Nat}
    (h : SEv.effStart d x (sequence (sequence e1 e2) e3) ∈ st.log)
    (h' : SEv.effStart d' x' (sequence e1 (sequence e2 e3)) ∈ st'.log) :
    (ran x st.log <+: e1.acts ++ e2.acts ++ e3.acts ∧ ran x' st'.log <+: e1.acts ++ e2.acts ++ e3.acts) ∧
    (st.quiet → ¬ Threw st x → Settled st x → st'.quiet → ¬ Threw st' x' → Settled st' x' →
      ran x st.log = ran x' st'.log) := by
  have e1' := C53_effect hc hb r hu h
  have e2' := C53_effect hc' hb' r' hu' h'
  rw [acts_sequence, acts_sequence] at e1' e2'
  rw [← List.append_assoc] at e2'
  refine ⟨⟨e1'.1, e2'.1⟩, ?_⟩
  intro q1 t1 s1 q2 t2 s2
  rw [(e1'.2.1 q1 t1 s1).1, (e2'.2.1 q2 t2 s2).1]

example : sequence (sequence (.prim 1) (.prim 2)) (.prim 3) ≠ sequence (.prim 1) (sequence (.prim 2) (.prim 3)) := by
  decide

/-- C53: `noop` is an identity of `sequence`, observably: a call of a sequence with it calls the user code of
the other effect in the same order, and when it is over, all of it. -/
theorem C53_noop {c : Cfg A Mo} (hc : c.sound) (hb : c.built) {st : St A Mo} (r : Reach c st)
    (hu : st.fu.ub = false) {e : Eff} {d x : Nat}
    (h : SEv.effStart d x (sequence .noop e) ∈ st.log ∨ SEv.effStart d x (sequence e .noop) ∈ st.log) :
    ran x st.log <+: e.acts ∧
    (st.quiet → ¬ Threw st x → Settled st x → ran x st.log = e.acts) ∧
    (∀ o, SEv.effEnd d o ∈ st.log → (∀ g, o = some g → Future.Fulfilled st.fu g) → ran x st.log = e.acts) := by
  have : ∃ e', e'.acts = e.acts ∧ SEv.effStart d x e' ∈ st.log := by
    rcases h with h | h
    · exact ⟨_, by rw [acts_sequence]; rfl, h⟩
    · exact ⟨_, by rw [acts_sequence]; simp [Eff.acts], h⟩
  obtain ⟨e', h1, h2⟩ := this
  have k := C53_effect hc hb r hu h2
  rw [h1] at k
  exact ⟨k.1, fun q t s => (k.2.1 q t s).1, fun o ho hf => (k.2.2 o ho hf).1⟩

/-- A store whose effect is a sequence with `noop`. -/
def exNoopCfg : Cfg Nat Nat := { exSeqCfg false with reducer := fun m a => (m + a, sequence .noop (.prim 4)) }

example : SEv.effStart 0 0 (sequence .noop (.prim 4)) ∈
    (exSt exNoopCfg [.dispatch 1, .loop, .loop, .go 0, .go 0, .go 0, .go 0, .prim 0 none, .go 0]).log ∧
    ran 0 (exSt exNoopCfg [.dispatch 1, .loop, .loop, .go 0, .go 0, .go 0, .go 0, .prim 0 none, .go 0]).log
      = [4] := by decide +kernel

theorem mem_ran {x id : Nat} {l : List (SEv A Mo)} (h : id ∈ ran x l) : ∃ pos, SEv.prim x pos id ∈ l := by
  induction l with
  | nil => cases h
  | cons e l ih =>
    have old : id ∈ ran x l → ∃ pos, SEv.prim x pos id ∈ e :: l := fun h =>
      (ih h).imp fun _ h => List.mem_cons_of_mem _ h
    cases e with
    | prim x' pos id' =>
      simp only [ran] at h
      split at h
      · rename_i hx
        subst hx
        rcases List.mem_cons.1 h with rfl | h
        · exact ⟨pos, List.mem_cons_self⟩
        · exact old h
      · exact old h
    | _ => exact old h

/-- What has settled is not null. -/
theorem not_null {c : Cfg A Mo} (hb : c.built) {st : St A Mo} (r : Reach c st) (hu : st.fu.ub = false) {x : Nat}
    (hs : Settled st x) {id : Nat} (h : id ∈ ran x st.log) : c.null id = false := by
  obtain ⟨pos, hp⟩ := mem_ran h
  obtain ⟨o, h1, _⟩ := hs pos id hp
  exact ret_not_null hb r hu h1 hp

/-- C53: a null effect is not an identity of `sequence`: whatever comes after it is not called, and the call of the
sequence does not return, or it returns a future that is not fulfilled. -/
theorem C53_null {c : Cfg A Mo} (hc : c.sound) (hb : c.built) {st : St A Mo} (r : Reach c st)
    (hu : st.fu.ub = false) {e : Eff} {l1 l2 : List Nat} {id : Nat} (he : e.acts = l1 ++ id :: l2)
    (hn : c.null id = true) {d x : Nat} (h : SEv.effStart d x e ∈ st.log) :
    ran x st.log <+: l1 ++ [id] ∧
    ∀ o, SEv.effEnd d o ∈ st.log → ∃ g, o = some g ∧ ¬ Future.Fulfilled st.fu g := by
  have hp : ∀ {st : St A Mo}, Reach c st → st.fu.ub = false → SEv.effStart d x e ∈ st.log →
      ran x st.log <+: l1 ++ id :: l2 := by
    intro st r hu h
    have := (r.seq hb hu).s.prefix h
    rwa [he] at this
  constructor
  · have key : ∀ {st : St A Mo}, Reach c st → st.fu.ub = false → (∀ d' e', SEv.effStart d' x e' ∈ st.log →
        d' = d ∧ e' = e) → (ran x st.log).length ≤ l1.length + 1 := by
      intro st r
      induction r with
      | start => intro _ _; exact Nat.zero_le _
      | @step st st' op r hs ih =>
        intro hu' hx
        have hu0 := step_ub hs hu'
        have hx0 : ∀ d' e', SEv.effStart d' x e' ∈ st.log → d' = d ∧ e' = e :=
          fun d' e' h => hx d' e' (step_mono hs h)
        have h0 := ih hu0 hx0
        by_cases hr : ran x st'.log = ran x st.log
        · rw [hr]; exact h0
        · have hset := C53_waits hb r hs hu' hr
          have h1 := step_ran_one hs hr
          rcases Nat.lt_or_ge (ran x st.log).length (l1.length + 1) with h2 | h2
          · omega
          · exfalso
            have h3 : (ran x st.log) ≠ [] := by intro h; rw [h] at h2; simp at h2
            obtain ⟨id', hid'⟩ := List.exists_mem_of_ne_nil _ h3
            obtain ⟨pos, hpp⟩ := mem_ran hid'
            obtain ⟨d', e', h4, _⟩ := (r.seq hb hu0).s.prims _ _ _ hpp
            obtain ⟨rfl, rfl⟩ := hx0 _ _ h4
            have h5 := hp r hu0 h4
            have h6 : ran x st.log = l1 ++ [id] := by
              refine (List.IsPrefix.eq_of_length ?_ ?_)
              · refine List.prefix_of_prefix_length_le h5 ?_ (by simp; omega)
                exact ⟨l2, by simp⟩
              · simp; omega
            have := not_null hb r hu0 hset (id := id) (by rw [h6]; simp)
            rw [hn] at this
            cases this
    have h1 := key r hu (fun d' e' h' => by
      obtain ⟨rfl, rfl⟩ := (r.seq hb hu).s.tg.uniq _ _ _ _ _ h h'
      exact ⟨rfl, rfl⟩)
    exact List.prefix_of_prefix_length_le (hp r hu h) ⟨l2, by simp⟩ (by simpa using h1)
  · intro o ho
    apply Classical.byContradiction
    intro hh
    have hf : ∀ g, o = some g → Future.Fulfilled st.fu g := by
      intro g hg
      apply Classical.byContradiction
      intro hng
      exact hh ⟨g, hg, hng⟩
    obtain ⟨h1, h2⟩ := eff_future hc hb r hu h ho hf
    have := not_null hb r hu h2 (id := id) (by rw [h1, he]; simp)
    rw [hn] at this
    cases this

/-- A store whose effect is a sequence with a null effect, number 7. -/
def exNullCfg : Cfg Nat Nat :=
  { exSeqCfg false with reducer := fun m a => (m + a, sequence (.prim 4) (sequence (.prim 7) (.prim 5))), null := (· == 7) }

/-- It throws, and user code number 5 is not called. -/
example : ran 0 (exSt exNullCfg [.dispatch 1, .loop, .loop, .go 0, .go 0, .prim 0 none, .go 0, .go 0, .go 0, .raise 0]).log =
      [4, 7] ∧
    (exSt exNullCfg [.dispatch 1, .loop, .loop, .go 0, .go 0, .prim 0 none, .go 0, .go 0, .go 0, .raise 0]).ev = [] ∧
    exec exNullCfg (start exNullCfg) [.dispatch 1, .loop, .loop, .go 0, .go 0, .prim 0 none, .go 0, .go 0, .go 0,
      .prim 0 none] = none := by decide +kernel

end Verif.Store
