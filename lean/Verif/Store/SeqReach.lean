import Verif.Store.SeqStep

/-! The invariant of running effects holds in every reachable state. -/

namespace Verif.Store

open Verif.Future (M Op Ev Frame Task Fn Inv Le Out upd)

variable {A Mo : Type}

/-- Of the proof: the invariant. -/
structure SeqInv (st : St A Mo) : Prop where
  fi : Inv st.fu
  s : SInv st.fu st.tag st.log st.nx st.ev
  items : ∀ d e i, Item.effect d e i ∈ st.queue → e.good

theorem fstep_fu {st s1 : St A Mo} {op : Op} (h : st.fstep op = some s1) :
    Future.step st.fu op = some s1.fu ∧ s1.ev = st.ev ∧ s1.tag = st.tag ∧ s1.log = st.log ∧ s1.nx = st.nx ∧
    ∃ n, s1.queue = st.queue ++ List.replicate n .tok := by
  simp only [St.fstep, Option.map_eq_some_iff] at h
  obtain ⟨fu, hf, rfl⟩ := h
  exact ⟨hf, rfl, rfl, rfl, rfl, _, rfl⟩

theorem toks_items {q r : List (Item A)} {n d i : Nat} {e : Eff} (hq : r = q ++ List.replicate n .tok)
    (h : Item.effect d e i ∈ r) : Item.effect d e i ∈ q := by
  subst hq
  rcases List.mem_append.1 h with h | h
  · exact h
  · have := List.eq_of_mem_replicate h
    cases this

/-- A step of futures in the background. -/
theorem SeqInv.fut {st s1 : St A Mo} (k : SeqInv st) {op : Op} (h : st.fstep op = some s1)
    (hu : s1.fu.ub = false) (hheld : ∀ f ∈ st.ev, ∀ j, f.mode = .got (some j) → ¬ op.takes j)
    (hrun : ∀ l t q, op = .run l → st.fu.queue l = t :: q → st.tag t.c = none)
    (hret : ∀ n j t s x pos b d e, op = .retF n j → st.fu.active[n]? = some (.run t) →
      st.fu.futs[j]? = some s → st.tag t.c = some (x, pos, b) → SEv.effStart d x e ∈ st.log →
      Path st.fu st.tag st.log x e (pos + 1) (pos + b.len) s)
    (hraise : ∀ n t x pos b, op = .raise n → st.fu.active[n]? = some (.run t) →
      st.tag t.c = some (x, pos, b) → ∃ pos, SEv.primThrew x pos ∈ st.log) : SeqInv s1 := by
  obtain ⟨h1, h2, h3, h4, h5, n, h6⟩ := fstep_fu h
  refine ⟨Future.inv_step k.fi h1 hu, ?_, ?_⟩
  · rw [h2, h3, h4, h5]
    exact k.s.step k.fi h1 hu ⟨[], by simp, by simp⟩ hheld hrun hret hraise
  · intro d e i hm
    exact k.items d e i (toks_items h6 hm)

theorem SeqInv.of {st s1 : St A Mo} (k : SeqInv st) (h1 : s1.fu = st.fu)
    (hs : SInv st.fu s1.tag s1.log s1.nx s1.ev)
    (hq : ∀ d e i, Item.effect d e i ∈ s1.queue → Item.effect d e i ∈ st.queue ∨ e.good) : SeqInv s1 := by
  refine ⟨by rw [h1]; exact k.fi, by rw [h1]; exact hs, ?_⟩
  intro d e i hm
  rcases hq d e i hm with h | h
  · exact k.items d e i h
  · exact h

theorem SeqInv.say {st : St A Mo} (k : SeqInv st) {e : SEv A Mo} (he : e.plain = true) :
    SeqInv (st.say e) :=
  k.of rfl (k.s.plain (es := [e]) (by simpa using he)) (fun _ _ _ h => Or.inl h)

theorem SeqInv.queue {st : St A Mo} (k : SeqInv st) {q : List (Item A)}
    (hq : ∀ d e i, Item.effect d e i ∈ q → Item.effect d e i ∈ st.queue ∨ e.good) :
    SeqInv { st with queue := q } := k.of rfl k.s hq

theorem SeqInv.send {st : St A Mo} (k : SeqInv st) : SeqInv st.sendDown.notify := by
  have h : st.sendDown.notify.fu = st.fu ∧ st.sendDown.notify.tag = st.tag ∧
      st.sendDown.notify.nx = st.nx ∧ st.sendDown.notify.ev = st.ev ∧
      st.sendDown.notify.queue = st.queue := by
    unfold St.notify St.sendDown
    split <;> split <;> simp
  obtain ⟨h1, h2, h3, h4, h5⟩ := h
  obtain ⟨es, h6, h7⟩ := notify_log st
  refine k.of h1 ?_ (fun d e i hm => Or.inl (by rw [h5] at hm; exact hm))
  rw [h2, h3, h4, h6]
  refine k.s.plain ?_
  intro e he
  obtain ⟨v, rfl⟩ := h7 e he
  rfl

theorem SeqInv.publish {c : Cfg A Mo} {st : St A Mo} (k : SeqInv st) : SeqInv (st.publish c) := by
  unfold St.publish
  split
  · exact k
  · exact k.send

theorem publish_nx (c : Cfg A Mo) (st : St A Mo) : (st.publish c).nx = st.nx := by
  unfold St.publish St.notify St.sendDown
  split
  · rfl
  · split <;> split <;> rfl

theorem SeqInv.complete {c : Cfg A Mo} {st s1 : St A Mo} (k : SeqInv st) {i : Nat}
    (h : st.complete c i = some s1) (hu : s1.fu.ub = false) : SeqInv s1 := by
  unfold St.complete at h
  split at h
  · refine k.fut h hu ?_ ?_ ?_ ?_
    · intro _ _ _ _ h; exact h
    · intro _ _ _ h; cases h
    · intro _ _ _ _ _ _ _ _ _ h; cases h
    · intro _ _ _ _ _ h; cases h
  · cases h; exact k

theorem SeqInv.runTask {st s1 : St A Mo} (k : SeqInv st) {l : Nat} (h : st.runTask l = some s1)
    (hu : s1.fu.ub = false) : SeqInv s1 := by
  unfold St.runTask at h
  split at h
  · cases h
  rename_i t q hq
  simp only [Option.map_eq_some_iff] at h
  obtain ⟨s2, hs, h⟩ := h
  cases ht : st.tag t.c with
  | none =>
    rw [ht] at h
    cases h
    refine k.fut hs hu ?_ ?_ ?_ ?_
    · intro _ _ _ _ h; exact h
    · intro l' t' q' h hq'
      cases h
      rw [hq] at hq'
      cases hq'
      exact ht
    · intro _ _ _ _ _ _ _ _ _ h; cases h
    · intro _ _ _ _ _ h; cases h
  | some v =>
    obtain ⟨x, pos, b⟩ := v
    rw [ht] at h
    cases h
    obtain ⟨h1, h2, h3, h4, h5, n, h6⟩ := fstep_fu hs
    refine ⟨Future.inv_step k.fi h1 hu, ?_, ?_⟩
    · show SInv s2.fu s2.tag s2.log s2.nx (_ :: s2.ev)
      rw [h2, h3, h4, h5]
      exact k.s.runs k.fi hq ht h1 hu
    · intro d e i hm
      exact k.items d e i (toks_items h6 hm)

theorem pushDown_fields (c : Cfg A Mo) (st : St A Mo) (v : Mo) : (st.pushDown c v).fu = st.fu ∧
    (st.pushDown c v).tag = st.tag ∧ (st.pushDown c v).nx = st.nx ∧ (st.pushDown c v).ev = st.ev ∧
    (st.pushDown c v).queue = st.queue ∧ (st.pushDown c v).log = st.log := by
  unfold St.pushDown
  split <;> simp

theorem SeqInv.pushDown {c : Cfg A Mo} {st : St A Mo} (k : SeqInv st) (v : Mo) :
    SeqInv (st.pushDown c v) := by
  obtain ⟨h1, h2, h3, h4, h5, h6⟩ := pushDown_fields c st v
  refine k.of h1 ?_ (fun d e i hm => Or.inl (by rw [h5] at hm; exact hm))
  rw [h2, h3, h4, h6]
  exact k.s

theorem seq_loop {c : Cfg A Mo} (hb : ∀ m a, Built (c.reducer m a).2) {st st' : St A Mo} (k : SeqInv st)
    (h : st.loop c = some st') (hu : st'.fu.ub = false) : SeqInv st' := by
  unfold St.loop at h
  split at h
  · cases h
  · rename_i d a i q hq
    have k0 : SeqInv { st with queue := q } :=
      k.queue (fun d e i hm => Or.inl (by rw [hq]; exact List.mem_cons_of_mem _ hm))
    dsimp only at h
    split at h
    · cases h
      exact k0.say (e := .reduceThrew d st.cur a) rfl
    simp only [Option.map_eq_some_iff] at h
    obtain ⟨s1, hs, rfl⟩ := h
    have hu1 : s1.fu.ub = false := by
      have : ((s1.pushDown c (c.reducer st.cur a).1).say
        (.reduced d st.cur a (c.reducer st.cur a).1 (c.reducer st.cur a).2)).fu = s1.fu :=
        (pushDown_fields c s1 _).1
      rw [← this]; exact hu
    refine SeqInv.say ?_ rfl
    refine SeqInv.pushDown ?_ _
    split at hs
    · split at hs
      · exact k0.complete hs hu1
      · cases hs
        refine k0.of rfl k0.s ?_
        intro d' e' i' hm
        rcases mem_app_one hm with h | h
        · exact Or.inl h
        · cases h
    · rename_i he
      cases hs
      refine k0.of rfl k0.s ?_
      intro d' e' i' hm
      rcases mem_app_one hm with h | h
      · exact Or.inl h
      · cases h
        exact Or.inr ⟨(hb _ _).ok, by simpa using he⟩
  · rename_i d e i q hq
    have k0 : SeqInv { st with queue := q } :=
      k.queue (fun d e i hm => Or.inl (by rw [hq]; exact List.mem_cons_of_mem _ hm))
    have hg := k.items d e i (by rw [hq]; exact List.mem_cons_self ..)
    cases h
    have k1 := (k0.publish (c := c)).say (e := .ready d) rfl
    refine k1.of rfl ?_ (fun _ _ _ h => Or.inl h)
    have := k1.s.begins d i hg
    rw [show ((({ st with queue := q } : St A Mo).publish c).say (.ready d)).nx = st.nx from
      publish_nx c _] at this
    exact this
  · rename_i d i q hq
    have k0 : SeqInv { st with queue := q } :=
      k.queue (fun d e i hm => Or.inl (by rw [hq]; exact List.mem_cons_of_mem _ hm))
    exact ((k0.publish (c := c)).say (e := .ready d) rfl).complete h hu
  · rename_i q hq
    have k0 : SeqInv { st with queue := q } :=
      k.queue (fun d e i hm => Or.inl (by rw [hq]; exact List.mem_cons_of_mem _ hm))
    exact k0.runTask h hu

theorem findRun_some {c : Nat} {fs : List Frame} {n : Nat} (h : findRun c fs = some n) :
    ∃ t, fs[n]? = some (.run t) ∧ t.c = c := by
  induction fs generalizing n with
  | nil => cases h
  | cons f fs ih =>
    unfold findRun at h
    split at h
    · cases h
    · rename_i t fs' heq
      cases heq
      split at h
      · rename_i ht
        cases h
        exact ⟨t, rfl, ht⟩
      · simp only [Option.map_eq_some_iff] at h
        obtain ⟨m, hm, rfl⟩ := h
        obtain ⟨t', h1, h2⟩ := ih hm
        exact ⟨t', by simpa using h1, h2⟩
    · rename_i fs' _ heq
      cases heq
      simp only [Option.map_eq_some_iff] at h
      obtain ⟨m, hm, rfl⟩ := h
      obtain ⟨t', h1, h2⟩ := ih hm
      exact ⟨t', by simpa using h1, h2⟩

theorem seq_go {c : Cfg A Mo} {st st' : St A Mo} (k : SeqInv st) {n : Nat} {f : EF}
    (hn : st.ev[n]? = some f)
    (h : { st with ev := st.ev.eraseIdx n }.go c f = some st') (hu : st'.fu.ub = false) : SeqInv st' := by
  have hf := k.s.fr f (List.mem_of_getElem? hn)
  obtain ⟨x, pos, mode, ks, kk⟩ := f
  obtain ⟨d, e, lo, stop, h1, h2, h3, h4, h5, h6⟩ := hf
  dsimp only at h1 h2 h3 h4 h5 h6
  unfold St.go at h
  dsimp only at h
  split at h
  · cases h
  · -- noop
    cases h
    have hleaf : e.leaves[pos]? = some none := h3.get
    refine k.of rfl ?_ (fun _ _ _ h => Or.inl h)
    refine k.s.move hn ⟨d, e, lo, stop, h1, h2, h3.tail, ?_, h5, ?_, ?_⟩ ?_ ?_ ?_ ?_
    · simp only [EF.rem, Mode.rem, Eff.leaves, List.length_append, List.length_cons, List.length_nil] at h4 ⊢
      omega
    · exact Nat.lt_succ_of_le h6.2.1
    · exact Comp.skip h6.2.2 hleaf
    · intro i h; cases h
    · intro id h; cases h
    · intro x' q
      simp only [cov, EF.first, EF.last, Eff.len]
      by_cases hx : x = x'
      · simp only [hx, true_and]
        split <;> split <;> omega
      · simp [hx]
    · intro d' e' x' q id he hq
      simp only [cov, EF.first, EF.last, Eff.len]
      by_cases hx : x = x'
      · subst hx
        obtain ⟨rfl, rfl⟩ := k.s.tg.uniq _ _ _ _ _ h1 he
        have : q ≠ pos := by rintro rfl; rw [hleaf] at hq; cases hq
        simp only [true_and]
        split <;> split <;> omega
      · simp [hx]
  · -- user code
    rename_i id
    cases h
    exact k.of rfl (k.s.calls hn rfl) (fun _ _ _ h => Or.inl h)
  · -- a sequence
    rename_i a b
    cases h
    have hrem : EF.rem ⟨x, pos, .call (.seq a b), ks, kk⟩ = EF.rem ⟨x, pos, .call a, b :: ks, kk⟩ := by
      simp [EF.rem, Mode.rem, Eff.leaves]
    rw [hrem] at h3 h4
    obtain ⟨hg, h7, h8⟩ := h6
    obtain ⟨⟨ha, hb, ha', hb'⟩, _⟩ := hg
    refine k.of rfl ?_ (fun _ _ _ h => Or.inl h)
    refine k.s.move hn ⟨d, e, lo, stop, h1, h2, h3, h4, ?_, ⟨ha, ha'⟩, h7, h8⟩ ?_ ?_ ?_ ?_
    · intro b' hb''
      rcases List.mem_cons.1 hb'' with rfl | hb''
      · exact ⟨hb, hb'⟩
      · exact h5 b' hb''
    · intro i h; cases h
    · intro id h; cases h
    · intro x' q
      simp only [cov, EF.first, EF.last, Eff.len, ksLen_cons, Nat.add_assoc]
      exact Nat.le_refl _
    · intro _ _ x' q _ _ _
      simp only [cov, EF.first, EF.last, Eff.len, ksLen_cons, Nat.add_assoc]
  · cases h
  · rename_i o
    split at h
    · rename_i b ks'
      split at h
      · -- `then`
        rename_i i s hs
        simp only [Option.map_eq_some_iff] at h
        obtain ⟨s1, hs1, rfl⟩ := h
        obtain ⟨q1, q2, q3, q4, q5, m, q6⟩ := fstep_fu hs1
        have hfi : st.fu.futs[i]? = some (some s) := by
          simp only [Option.bind_some] at hs
          cases hx : st.fu.futs[i]? with
          | none => rw [hx] at hs; cases hs
          | some y => rw [hx] at hs; cases hs; rfl
        refine ⟨Future.inv_step k.fi q1 hu, ?_, ?_⟩
        · show SInv s1.fu _ s1.log s1.nx (_ :: s1.ev)
          rw [q2, q4, q5]
          exact k.s.chains k.fi hn rfl rfl hfi q1 hu
        · intro d e i hm
          exact k.items d e i (toks_items q6 hm)
      · -- nothing to wait for
        rename_i o _ _ hno
        cases h
        refine k.of rfl ?_ (fun _ _ _ h => Or.inl h)
        have hcomp : lo < pos ∧ Comp st.fu st.log x e pos := by
          cases o with
          | none => exact h6
          | some i =>
            obtain ⟨h7, r, hr, hp⟩ := h6
            cases r with
            | none => exact ⟨h7, hp⟩
            | some g =>
              exact absurd rfl (fun _ : True = True => hno i g rfl (by simp [hr]))
        have hrem : EF.rem ⟨x, pos, .got o, b :: ks', kk⟩ = EF.rem ⟨x, pos, .call b, ks', kk⟩ := by
          simp [EF.rem, Mode.rem]
        rw [hrem] at h3 h4
        refine k.s.move hn ⟨d, e, lo, stop, h1, h2, h3, h4, ?_, ?_, ?_, hcomp.2⟩ ?_ ?_ ?_ ?_
        · intro b' hb'
          exact h5 b' (List.mem_cons_of_mem _ hb')
        · exact h5 b (List.mem_cons_self ..)
        · exact Nat.le_of_lt hcomp.1
        · intro i h; cases h
        · intro id h; cases h
        · intro x' q
          simp only [cov, EF.first, EF.last, ksLen_cons]
          exact Nat.le_refl _
        · intro _ _ x' q _ _ _
          simp only [cov, EF.first, EF.last, ksLen_cons]
          congr
    · have hr : ∀ j, o = some j → ∃ r, st.fu.futs[j]? = some r ∧ (st.fu.futs[j]?).join = r ∧
          Path st.fu st.tag st.log x e (lo + 1) pos r := by
        rintro j rfl
        obtain ⟨_, r, hr, hp⟩ := h6
        exact ⟨r, hr, by rw [hr]; rfl, hp⟩
      have hpath : Path st.fu st.tag st.log x e (lo + 1) pos (o.bind fun i => st.fu.futs[i]?).join := by
        cases o with
        | none => exact h6.2
        | some j =>
          obtain ⟨r, _, h7, h8⟩ := hr j rfl
          simp only [Option.bind_some]
          rw [h7]
          exact h8
      have hstop : pos = stop := by simpa [EF.rem, Mode.rem] using h4
      have k0 : SeqInv { st with ev := st.ev.eraseIdx n } :=
        k.of rfl (k.s.drop hn rfl rfl) (fun _ _ _ h => Or.inl h)
      have hfree : ∀ j, o = some j → ∀ g ∈ st.ev.eraseIdx n, g.mode ≠ .got (some j) := by
        rintro j rfl
        exact excl_other k.s.excl hn rfl
      split at h
      · rename_i d' i
        obtain ⟨rfl, rfl, rfl⟩ := h2
        subst hstop
        have k1 : SeqInv (({ st with ev := st.ev.eraseIdx n } : St A Mo).say
            (.effEnd d' (o.bind fun i => st.fu.futs[i]?).join)) :=
          k0.of rfl (k0.s.ends h1 hpath) (fun _ _ _ h => Or.inl h)
        split at h
        · split at h
          · rename_i j
            refine k1.fut h hu ?_ ?_ ?_ ?_
            · intro g hg j' hj' ht
              have ht : j = j' := ht
              subst ht
              exact hfree j rfl g hg hj'
            · intro _ _ _ h; cases h
            · intro _ _ _ _ _ _ _ _ _ h; cases h
            · intro _ _ _ _ _ h; cases h
          · refine k1.fut h hu ?_ ?_ ?_ ?_
            · intro _ _ _ _ h; exact h
            · intro _ _ _ h; cases h
            · intro _ _ _ _ _ _ _ _ _ h; cases h
            · intro _ _ _ _ _ h; cases h
        · cases h; exact k1
      · rename_i t
        obtain ⟨b, h7, h8⟩ := h2
        simp only [Option.bind_eq_some_iff] at h
        obtain ⟨m, hm, h⟩ := h
        obtain ⟨t', ht1, ht2⟩ := findRun_some hm
        split at h
        · rename_i j
          refine k0.fut h hu ?_ ?_ ?_ ?_
          · intro g hg j' hj' ht
            have ht : j = j' := ht
            subst ht
            exact hfree j rfl g hg hj'
          · intro _ _ _ h; cases h
          · intro n' j' t'' s x' pos' b' d' e' hop hact hfut htag he
            cases hop
            have hact : st.fu.active[m]? = some (.run t'') := hact
            rw [ht1] at hact
            cases hact
            have htag : st.tag t'.c = some (x', pos', b') := htag
            rw [ht2, h7] at htag
            cases htag
            obtain ⟨rfl, rfl⟩ := k.s.tg.uniq _ _ _ _ _ h1 he
            obtain ⟨r, hr1, _, hr3⟩ := hr j rfl
            have hfut : st.fu.futs[j]? = some s := hfut
            rw [hr1] at hfut
            cases hfut
            rw [← h8, ← hstop]
            exact hr3
          · intro _ _ _ _ _ h; cases h
        · simp only [Option.bind_eq_some_iff] at h
          obtain ⟨s1, hs1, h⟩ := h
          obtain ⟨q1, q2, q3, q4, q5, _, q6⟩ := fstep_fu hs1
          have hu1 : s1.fu.ub = false := Future.step_ub (fstep_fu h).1
          have k1 : SeqInv s1 := by
            refine k0.fut hs1 hu1 ?_ ?_ ?_ ?_
            · intro _ _ _ _ h; exact h
            · intro _ _ _ h; cases h
            · intro _ _ _ _ _ _ _ _ _ h; cases h
            · intro _ _ _ _ _ h; cases h
          have hl := Future.step_le k.fi q1 hu1
          have ho := Future.step_out q1
          have hfu : s1.fu.futs = st.fu.futs ++ [none] ∧ s1.fu.active = st.fu.active := by
            generalize s1.fu = fu1 at ho
            cases ho with
            | invalid => exact ⟨rfl, rfl⟩
          refine k1.fut h hu ?_ ?_ ?_ ?_
          · intro g hg j' hj' ht
            have ht : s1.fu.futs.length - 1 = j' := ht
            rw [q2] at hg
            obtain ⟨_, _, _, _, _, _, _, _, _, h9⟩ := k.s.fr g (List.mem_of_mem_eraseIdx hg)
            rw [hj'] at h9
            obtain ⟨_, r, hr, _⟩ := h9
            have := (List.getElem?_eq_some_iff.1 hr).1
            rw [hfu.1] at ht
            simp at ht
            omega
          · intro _ _ _ h; cases h
          · intro n' j' t'' s x' pos' b' d' e' hop hact hfut htag he
            cases hop
            rw [hfu.2, ht1] at hact
            cases hact
            rw [q3] at htag
            have htag : st.tag t'.c = some (x', pos', b') := htag
            rw [ht2, h7] at htag
            cases htag
            rw [q4] at he
            obtain ⟨rfl, rfl⟩ := k.s.tg.uniq _ _ _ _ _ h1 he
            rw [hfu.1] at hfut
            simp at hfut
            subst hfut
            rw [← h8, ← hstop, q4]
            exact Comp.mono h6.2 hl (fun _ h => h)
          · intro _ _ _ _ _ h; cases h

theorem seq_step {c : Cfg A Mo} (hb : ∀ m a, Built (c.reducer m a).2) {st st' : St A Mo} (k : SeqInv st)
    {op : SOp A} (h : step c st op = some st') (hu : st'.fu.ub = false) : SeqInv st' := by
  cases op with
  | dispatch a =>
    simp only [step, St.dispatch, Option.map_eq_some_iff] at h
    obtain ⟨s1, hs, rfl⟩ := h
    have k1 : SeqInv s1 := by
      refine k.fut hs hu ?_ ?_ ?_ ?_
      · intro _ _ _ _ h; split at h <;> exact h
      · intro _ _ _ h; split at h <;> cases h
      · intro _ _ _ _ _ _ _ _ _ h; split at h <;> cases h
      · intro _ _ _ _ _ h; split at h <;> cases h
    have k2 : SeqInv (s1.post (.reduce st.sent.length a st.fu.proms.length)) := by
      refine k1.of rfl k1.s ?_
      intro d e i hm
      rcases mem_app_one hm with h | h
      · exact Or.inl h
      · cases h
    exact (k2.say (e := .dispatched st.sent.length a) rfl).of rfl
      (k2.say (e := .dispatched st.sent.length a) rfl).s (fun _ _ _ h => Or.inl h)
  | loop => exact seq_loop hb k h hu
  | loopRaise =>
    obtain ⟨x, q, d, o, hq, _, _, _, rfl⟩ := loopRaise_some h
    have k0 : SeqInv { st with queue := q } :=
      k.queue (fun d e i hm => Or.inl (by rw [hq]; exact List.mem_cons_of_mem _ hm))
    exact (k0.publish (c := c)).say (e := .lost d o) rfl
  | other l =>
    simp only [step] at h
    split at h
    · cases h
    · exact k.runTask h hu
  | fut op =>
    simp only [step] at h
    split at h
    · rename_i hal
      refine k.fut h hu ?_ ?_ ?_ ?_
      · intro g hg j hj ht
        have hh : st.held j := ⟨g, hg, hj⟩
        cases op with
        | copyF i => exact ht
        | «then» i b => have : i = j := ht; subst this; exact hal hh
        | thenP i b => have : i = j := ht; subst this; exact hal.1 hh
        | also i b =>
          rcases ht with ht | ht
          · have : i = j := ht; subst this; exact hal.1 hh
          · have : b = j := ht; subst this; exact hal.2 hh
        | retF k i => have : i = j := ht; subst this; exact hal.2 hh
        | _ => exact ht
      · rintro l t q rfl; exact absurd hal (fun h => h)
      · rintro n j t s x pos b d e rfl hact _ htag _
        refine absurd hal (fun h => h.1 ?_)
        unfold St.tagged
        rw [hact]
        simp [htag]
      · rintro n t x pos b rfl hact htag
        refine absurd hal (fun h => h ?_)
        unfold St.tagged
        rw [hact]
        simp [htag]
    · cases h
  | go n =>
    simp only [step] at h
    split at h
    · cases h
    · rename_i f hn
      exact seq_go k hn h hu
  | prim n o =>
    simp only [step] at h
    split at h
    · rename_i x pos id ks kk hn
      split at h
      · rename_i ho
        cases h
        refine k.of rfl ?_ (fun _ _ _ h => Or.inl h)
        refine k.s.returns (f := ⟨x, pos, .prim id, ks, kk⟩) k.fi hn rfl ?_ ?_
        · rintro j rfl
          obtain ⟨h1, h2⟩ := ho.2 j rfl
          refine ⟨?_, fun g hg hm => h1 ⟨g, hg, hm⟩⟩
          simp [List.getElem?_eq_getElem h2]
        · rintro rfl; rfl
      · cases h
    · cases h
  | raise n =>
    simp only [step] at h
    split at h
    · rename_i x pos id ks d i hn
      cases h
      exact k.of rfl (k.s.throws hn) (fun _ _ _ h => Or.inl h)
    · rename_i x pos id ks t hn
      simp only [Option.bind_eq_some_iff] at h
      obtain ⟨m, hm, h⟩ := h
      obtain ⟨t', ht1, ht2⟩ := findRun_some hm
      have k1 : SeqInv ({ st.say (.primThrew x pos) with ev := st.ev.eraseIdx n } : St A Mo) :=
        k.of rfl (k.s.throws hn) (fun _ _ _ h => Or.inl h)
      refine k1.fut h hu ?_ ?_ ?_ ?_
      · intro _ _ _ _ h; exact h
      · intro _ _ _ h; cases h
      · intro _ _ _ _ _ _ _ _ _ h; cases h
      · intro n' t'' x' pos' b hop hact htag
        cases hop
        have hact : st.fu.active[m]? = some (.run t'') := hact
        rw [ht1] at hact
        cases hact
        obtain ⟨d, e, lo, stop, _, h2, _⟩ := k.s.fr _ (List.mem_of_getElem? hn)
        obtain ⟨b', h7, h8⟩ := h2
        have htag : st.tag t'.c = some (x', pos', b) := htag
        rw [ht2, h7] at htag
        cases htag
        exact ⟨pos, List.mem_append_right _ (List.mem_singleton.2 rfl)⟩
    · cases h
  | commit =>
    simp only [step] at h
    split at h
    · cases h; exact k.send
    · cases h

theorem seq_start (c : Cfg A Mo) : SeqInv (start c) where
  fi := Future.inv_start
  s := by
    refine ⟨⟨?_, ?_, ?_, ?_, ?_, ?_, ?_, ?_⟩, ?_, ?_, ?_, ?_, ?_, ?_, ?_, ?_⟩ <;>
      first
      | (intro x q; simp [start, total, ec, cc, ccN, pc, Future.start, rc, fc]; done)
      | (intros; rename_i h; cases h; done)
      | (intros; simp_all [start]; done)
  items := by intro _ _ _ h; cases h

/-- What a step does to futures. -/
theorem step_fu {c : Cfg A Mo} {st st' : St A Mo} {op : SOp A} (h : step c st op = some st') :
    ∃ ops, Future.exec st.fu ops = some st'.fu := by
  have e0 : ∀ {m : M}, ∃ ops, Future.exec m ops = some m := ⟨[], rfl⟩
  have fub : ∀ {s s1 : St A Mo} {o : Op}, s.fstep o = some s1 → Future.exec s.fu [o] = some s1.fu := by
    intro s s1 o h
    simp only [Future.exec, (fstep_fu h).1, Option.bind_some]
  have rub : ∀ {s s1 : St A Mo} {l : Nat}, s.runTask l = some s1 →
      ∃ ops, Future.exec s.fu ops = some s1.fu := by
    intro s s1 l h
    unfold St.runTask at h
    split at h
    · cases h
    · simp only [Option.map_eq_some_iff] at h
      obtain ⟨_, h, rfl⟩ := h
      refine ⟨_, (fub h).trans ?_⟩
      split <;> rfl
  have cub : ∀ {s s1 : St A Mo} {i : Nat}, s.complete c i = some s1 →
      ∃ ops, Future.exec s.fu ops = some s1.fu := by
    intro s s1 i h
    unfold St.complete at h
    split at h
    · exact ⟨_, fub h⟩
    · cases h; exact e0
  have sfu : ∀ s : St A Mo, s.sendDown.notify.fu = s.fu := by
    intro s
    unfold St.notify St.sendDown
    split <;> split <;> simp
  have pfu : ∀ s : St A Mo, (s.publish c).fu = s.fu := by
    intro s
    unfold St.publish
    split
    · rfl
    · exact sfu s
  cases op with
  | dispatch a =>
    simp only [step, St.dispatch, Option.map_eq_some_iff] at h
    obtain ⟨_, h, rfl⟩ := h
    have := fub h; exact ⟨_, this⟩
  | loop =>
    simp only [step] at h
    unfold St.loop at h
    split at h
    · cases h
    · dsimp only at h
      split at h
      · cases h; exact e0
      simp only [Option.map_eq_some_iff] at h
      obtain ⟨s1, hs, rfl⟩ := h
      show ∃ ops, Future.exec st.fu ops = some (s1.pushDown c _).fu
      rw [(pushDown_fields c s1 _).1]
      split at hs
      · split at hs
        · have := cub hs; exact this
        · cases hs; exact e0
      · cases hs; exact e0
    · cases h
      show ∃ ops, Future.exec st.fu ops = some (St.publish c _).fu
      rw [pfu]; exact e0
    · have := cub h
      have : ∃ ops, Future.exec (St.publish c _).fu ops = some st'.fu := this
      rw [pfu] at this
      exact this
    · have := rub h; exact this
  | loopRaise =>
    obtain ⟨x, q, d, o, hq, _, _, _, rfl⟩ := loopRaise_some h
    show ∃ ops, Future.exec st.fu ops = some (St.publish c _).fu
    rw [pfu]; exact e0
  | other l =>
    simp only [step] at h
    split at h
    · cases h
    · exact rub h
  | fut op =>
    simp only [step] at h
    split at h
    · exact ⟨_, fub h⟩
    · cases h
  | go n =>
    simp only [step] at h
    split at h
    · cases h
    · unfold St.go at h
      dsimp only at h
      split at h
      · cases h
      · cases h; exact e0
      · cases h; exact e0
      · cases h; exact e0
      · cases h
      · split at h
        · split at h
          · simp only [Option.map_eq_some_iff] at h
            obtain ⟨_, h, rfl⟩ := h
            have := fub h; exact ⟨_, this⟩
          · cases h; exact e0
        · split at h
          · split at h
            · split at h
              · have := fub h; exact ⟨_, this⟩
              · have := fub h; exact ⟨_, this⟩
            · cases h; exact e0
          · simp only [Option.bind_eq_some_iff] at h
            obtain ⟨w, _, h⟩ := h
            split at h
            · have := fub h; exact ⟨_, this⟩
            · simp only [Option.bind_eq_some_iff] at h
              obtain ⟨s1, h, h2⟩ := h
              have h := (fstep_fu h).1
              have h2 := (fstep_fu h2).1
              refine ⟨[.invalid, .retF w (s1.fu.futs.length - 1)], ?_⟩
              have h : Future.step st.fu .invalid = some s1.fu := h
              simp only [Future.exec, h, Option.bind_some]
              rw [h2]; rfl
  | prim n o =>
    simp only [step] at h
    split at h
    · split at h
      · cases h; exact e0
      · cases h
    · cases h
  | raise n =>
    simp only [step] at h
    split at h
    · cases h; exact e0
    · simp only [Option.bind_eq_some_iff] at h
      obtain ⟨_, _, h⟩ := h
      have := fub h; exact ⟨_, this⟩
    · cases h
  | commit =>
    simp only [step] at h
    split at h
    · cases h; rw [sfu]; exact e0
    · cases h

/-- Once something undefined has happened the model says nothing more. -/
theorem step_ub {c : Cfg A Mo} {st st' : St A Mo} {op : SOp A} (h : step c st op = some st')
    (hu : st'.fu.ub = false) : st.fu.ub = false := by
  obtain ⟨ops, h⟩ := step_fu h
  cases ops with
  | nil =>
    simp only [Future.exec, Option.some.injEq] at h
    rw [h]; exact hu
  | cons op ops =>
    simp only [Future.exec, Option.bind_eq_some_iff] at h
    obtain ⟨_, h, _⟩ := h
    exact Future.step_ub h

theorem Reach.fut {c : Cfg A Mo} {st : St A Mo} (r : Reach c st) : Future.Reach st.fu := by
  induction r with
  | start => exact .start
  | step op _ h ih =>
    obtain ⟨ops, h⟩ := step_fu h
    exact Future.exec_reach ih h

theorem Reach.seq {c : Cfg A Mo} (hb : ∀ m a, Built (c.reducer m a).2) {st : St A Mo} (r : Reach c st)
    (hu : st.fu.ub = false) : SeqInv st := by
  induction r with
  | start => exact seq_start c
  | step op _ h ih => exact seq_step hb (ih (step_ub h hu)) h hu

end Verif.Store
