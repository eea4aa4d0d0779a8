import Verif.Store.SeqLive

/-! The promises of dispatches. -/

namespace Verif.Store

open Verif.Future (M Op Inv Ev Frame Fn Out Fulfils Adds Comes)

variable {A Mo : Type}

/-- The promise object that a task holds. -/
def Item.job : Item A → Option (Nat × Nat)
  | .reduce d _ i => some (d, i)
  | .effect d _ i => some (d, i)
  | .publish d i => some (d, i)
  | .tok => none

/-- … and that a call of an effect holds. -/
def EF.call (f : EF) : Option (Nat × Nat) :=
  match f.k with
  | .store d i => some (d, i)
  | .clo _ => none

/-- Of the proof: the dispatches that the tasks and running effects hold. -/
def holders (q : List (Item A)) (ev : List EF) : List (Nat × Nat) :=
  q.filterMap Item.job ++ ev.filterMap EF.call

/-- Effect `e` of dispatch `d` has been called, as call `x`, and the model was published before. -/
def RunX (log : List (SEv A Mo)) (d x : Nat) : Prop :=
  ∃ m a m' e, SEv.reduced d m a m' e ∈ log ∧ e.isEmpty = false ∧ SEv.ready d ∈ log ∧
    SEv.effStart d x e ∈ log

/-- All is done for dispatch `d`. -/
def Compl (t : Bool) (fu : M) (log : List (SEv A Mo)) (d : Nat) : Prop :=
  (∃ m a m' e, SEv.reduced d m a m' e ∈ log ∧ e.isEmpty = true ∧ (t = false → SEv.ready d ∈ log)) ∨
  (∃ x r, RunX log d x ∧ SEv.effEnd d r ∈ log ∧ ∀ g, r = some g → g < fu.size ∧ (fu.cell g).done = true)

theorem RunX.mono {log es : List (SEv A Mo)} {d x : Nat} (h : RunX log d x) : RunX (log ++ es) d x := by
  obtain ⟨m, a, m', e, h1, h2, h3, h4⟩ := h
  exact ⟨m, a, m', e, List.mem_append_left _ h1, h2, List.mem_append_left _ h3, List.mem_append_left _ h4⟩

theorem Compl.mono {t : Bool} {fu fu' : M} {log es : List (SEv A Mo)} {d : Nat} (h : Compl t fu log d)
    (l : Future.Le fu fu') : Compl t fu' (log ++ es) d := by
  rcases h with ⟨m, a, m', e, h1, h2, h3⟩ | ⟨x, r, h1, h2, h3⟩
  · exact Or.inl ⟨m, a, m', e, List.mem_append_left _ h1, h2, fun h => List.mem_append_left _ (h3 h)⟩
  · refine Or.inr ⟨x, r, h1.mono, List.mem_append_left _ h2, fun g hg => ?_⟩
    obtain ⟨a, b⟩ := h3 g hg
    exact ⟨Nat.lt_of_lt_of_le a l.size, l.done g a b⟩

/-- The promises of dispatches, `sent`, of which those in `H` are still to be fulfilled or passed on. -/
structure PInv (t : Bool) (fu : M) (sent : List (Nat × Nat)) (log : List (SEv A Mo))
    (H : List (Nat × Nat)) : Prop where
  made : ∀ (d i s : Nat), sent[d]? = some (i, s) → i < fu.proms.length ∧ s < fu.size ∧ (fu.cell s).src = none
  inj : ∀ (d d' i i' s s' : Nat), sent[d]? = some (i, s) → sent[d']? = some (i', s') → i = i' ∨ s = s' → d = d'
  priv : ∀ (d i s j : Nat), sent[d]? = some (i, s) → fu.proms[j]? = some (some s) → j = i
  hold : ∀ d i, (d, i) ∈ H → ∃ s, sent[d]? = some (i, s) ∧ fu.proms[i]? = some (some s)
  nodup : (H.map (·.1)).Nodup
  att : ∀ (d i s c g p : Nat), sent[d]? = some (i, s) → Ev.attach c g p (.prom s) ∈ fu.log →
    SEv.effEnd d (some g) ∈ log
  attu : ∀ (d i s c g p c' g' p' : Nat), sent[d]? = some (i, s) → Ev.attach c g p (.prom s) ∈ fu.log →
    Ev.attach c' g' p' (.prom s) ∈ fu.log → c = c'
  held : ∀ (d i s j : Nat), sent[d]? = some (i, s) → fu.proms[j]? = some (some s) →
    (fu.cell s).done = false ∧ ∀ c g p, Ev.attach c g p (.prom s) ∉ fu.log
  done : ∀ (d i s : Nat), sent[d]? = some (i, s) → (fu.cell s).done = true → Compl t fu log d
  stt : ∀ (d i s c g p : Nat), sent[d]? = some (i, s) → (fu.cell s).done = true →
    Ev.attach c g p (.prom s) ∈ fu.log → Ev.start c ∈ fu.log
  sat : ∀ (d i s : Nat) t, sent[d]? = some (i, s) → Frame.satisfy s t ∈ fu.active → (fu.cell s).done = false
  thr : ∀ (d i s : Nat), sent[d]? = some (i, s) → Ev.threw i ∉ fu.log
  thl : ∀ i, Ev.threw i ∈ fu.log → i < fu.proms.length
  ended : ∀ d r, SEv.effEnd d r ∈ log → (∃ x, RunX log d x) ∧ ∀ i, (d, i) ∉ H
  elt : ∀ d r, SEv.effEnd d r ∈ log → d < sent.length
  eu : ∀ d r r', SEv.effEnd d r ∈ log → SEv.effEnd d r' ∈ log → r = r'
  cnone : ∀ (d i s : Nat), sent[d]? = some (i, s) → SEv.effEnd d none ∈ log → (fu.cell s).done = true
  csome : ∀ (d i s g : Nat), sent[d]? = some (i, s) → SEv.effEnd d (some g) ∈ log →
    ∃ c p, Ev.attach c g p (.prom s) ∈ fu.log

theorem PInv.perm {t : Bool} {fu : M} {sent : List (Nat × Nat)} {log : List (SEv A Mo)}
    {H H' : List (Nat × Nat)} (k : PInv t fu sent log H) (h : H.Perm H') : PInv t fu sent log H' :=
  { k with
    hold := fun d i hm => k.hold d i (h.mem_iff.2 hm)
    nodup := (h.map _).nodup_iff.1 k.nodup
    ended := fun d r he => ⟨(k.ended d r he).1, fun i hm => (k.ended d r he).2 i (h.mem_iff.2 hm)⟩ }

theorem PInv.say {t : Bool} {fu : M} {sent : List (Nat × Nat)} {log : List (SEv A Mo)}
    {H : List (Nat × Nat)} (k : PInv t fu sent log H) {es : List (SEv A Mo)}
    (he : ∀ d r, SEv.effEnd d r ∉ es) : PInv t fu sent (log ++ es) H := by
  have hm : ∀ {d r}, SEv.effEnd d r ∈ log ++ es → SEv.effEnd d r ∈ log := by
    intro d r h
    rcases List.mem_append.1 h with h | h
    · exact h
    · exact absurd h (he d r)
  exact { k with
    att := fun d i s c g p h h' => List.mem_append_left _ (k.att d i s c g p h h')
    done := fun d i s h h' => (k.done d i s h h').mono (.refl _)
    ended := fun d r h => by
      obtain ⟨⟨x, h1⟩, h2⟩ := k.ended d r (hm h)
      exact ⟨⟨x, h1.mono⟩, h2⟩
    elt := fun d r h => k.elt d r (hm h)
    eu := fun d r r' h h' => k.eu d r r' (hm h) (hm h')
    cnone := fun d i s h h' => k.cnone d i s h (hm h')
    csome := fun d i s g h h' => k.csome d i s g h (hm h') }

/-- Taking a holder away (an effect throws, the promise is dropped). -/
theorem PInv.sub {t : Bool} {fu : M} {sent : List (Nat × Nat)} {log : List (SEv A Mo)}
    {y : Nat × Nat} {H : List (Nat × Nat)} (k : PInv t fu sent log (y :: H)) : PInv t fu sent log H :=
  { k with
    hold := fun d i hm => k.hold d i (List.mem_cons_of_mem _ hm)
    nodup := (List.nodup_cons.1 k.nodup).2
    ended := fun d r he =>
      ⟨(k.ended d r he).1, fun i hm => (k.ended d r he).2 i (List.mem_cons_of_mem _ hm)⟩ }

theorem start_of_active {m : M} (i : Inv m) {f : Frame} {c : Nat} (hf : f ∈ m.active)
    (hc : f.tick = some c) : Ev.start c ∈ m.log := by
  have h1 : 0 < m.acts c := List.countP_pos_iff.2 ⟨f, hf, by simp [hc]⟩
  have h2 := i.balance c
  have h3 : 0 < m.starts c := by omega
  exact List.count_pos_iff.1 h3

theorem act_unique {m : M} (i : Inv m) {f f' : Frame} {c s p : Nat} {fn : Fn}
    (ha : Ev.attach c s p fn ∈ m.log) (hf : f ∈ m.active) (hf' : f' ∈ m.active)
    (hc : f.tick = some c) (hc' : f'.tick = some c) : f = f' := by
  have h1 := i.one c s p fn ha
  have h2 := i.balance c
  have h3 : m.acts c ≤ 1 := by omega
  exact countP_unique h3 hf hf' (by simp [hc]) (by simp [hc'])

/-- Steps of futures that have nothing to do with the promises of dispatches. -/
theorem PInv.bg {t : Bool} {fu fu' : M} {sent : List (Nat × Nat)} {log : List (SEv A Mo)}
    {H : List (Nat × Nat)} (k : PInv t fu sent log H) (fi : Inv fu) (fi' : Inv fu') {op : Op}
    (h : Future.step fu op = some fu') (hu : fu'.ub = false)
    (hop : ∀ (d i s : Nat), sent[d]? = some (i, s) → ¬ op.takesP i ∧ op ≠ .copyP i) :
    PInv t fu' sent log H := by
  have o := Future.step_out h
  have l := Future.step_le fi h hu
  have hthl : ∀ i, Ev.threw i ∈ fu'.log → i < fu'.proms.length := by
    intro i ht
    refine Nat.lt_of_lt_of_le ?_ (Future.out_len o).2.1
    rcases Future.out_threw o ht with h | ⟨_, h⟩
    · exact k.thl i h
    · exact (List.getElem?_eq_some_iff.1 h).1
  clear h
  -- nothing is attached
  have hatt : ∀ {d i s c g p : Nat}, sent[d]? = some (i, s) → Ev.attach c g p (.prom s) ∈ fu'.log →
      Ev.attach c g p (.prom s) ∈ fu.log := by
    intro d i s c g p hs ha
    rcases Future.out_att o ha with ha | ⟨_, _, ha, _⟩
    · exact ha
    · generalize hfn : Fn.prom s = fn at ha
      cases ha with
      | «then» _ => split at hfn <;> cases hfn
      | thenP _ hp =>
        cases hfn
        have := k.priv d i s _ hs hp
        subst this
        exact absurd rfl (hop d _ s hs).1
      | also => cases hfn
      | lib hk =>
        cases hfn
        obtain ⟨⟨s', h1, _⟩, _⟩ := fi.frames _ (List.mem_of_getElem? hk)
        have h2 := (fi.att _ _ _ _ h1).2.2.2.1
        rw [(k.made _ _ _ hs).2.2] at h2
        cases h2
  have hful : ∀ {d i s : Nat}, sent[d]? = some (i, s) → Fulfils fu op s →
      ∃ n t, op = .lib n ∧ fu.active[n]? = some (.satisfy s t) := by
    intro d i s hs hf
    cases hf with
    | obj hp =>
      have := k.priv d i s _ hs hp
      subst this
      exact absurd rfl (hop d _ s hs).1
    | «then» _ hp =>
      have := k.priv d i s _ hs hp
      subst this
      exact absurd rfl (hop d _ s hs).1
    | ret hk _ =>
      obtain ⟨⟨s', h1, _⟩, _⟩ := fi.frames _ (List.mem_of_getElem? hk)
      have h2 := (fi.att _ _ _ _ h1).2.2.2.1
      rw [(k.made _ _ _ hs).2.2] at h2
      cases h2
    | sat hk => exact ⟨_, _, rfl, hk⟩
  have hsat : ∀ {n s : Nat} {t : Future.Task}, fu.active[n]? = some (.satisfy s t) →
      ∃ g, Ev.attach t.c g t.p (.prom s) ∈ fu.log ∧ (fu.cell g).done = true := by
    intro n s t hk
    obtain ⟨⟨g, h1, h2⟩, h3⟩ := fi.frames _ (List.mem_of_getElem? hk)
    unfold Future.TaskOK at h1
    rw [h3] at h1
    exact ⟨g, h1, h2⟩
  have hnew : ∀ {d i s j : Nat}, sent[d]? = some (i, s) → fu'.proms[j]? = some (some s) →
      fu.proms[j]? = some (some s) := by
    intro d i s j hs hp
    rcases Future.out_promsNew o hp with h | ⟨_, _, h, _⟩ | ⟨j', h, h'⟩
    · exact h
    · have := (k.made _ _ _ hs).2.1
      omega
    · have := k.priv d i s _ hs h'
      subst this
      exact absurd h (hop d _ s hs).2
  have hdone : ∀ {d i s : Nat}, sent[d]? = some (i, s) → (fu'.cell s).done = true →
      (fu.cell s).done = true ∨ ∃ n t g, op = .lib n ∧ fu.active[n]? = some (.satisfy s t) ∧
        Ev.attach t.c g t.p (.prom s) ∈ fu.log ∧ (fu.cell g).done = true := by
    intro d i s hs hd
    rcases Future.out_done fi hu o hd with h | h
    · exact Or.inl h
    · obtain ⟨n, t, h1, h2⟩ := hful hs h
      obtain ⟨g, h3, h4⟩ := hsat h2
      exact Or.inr ⟨n, t, g, h1, h2, h3, h4⟩
  refine ⟨?_, k.inj, ?_, ?_, k.nodup, ?_, ?_, ?_, ?_, ?_, ?_, ?_, hthl, k.ended, k.elt, k.eu, ?_, ?_⟩
  · intro d i s hs
    obtain ⟨h1, h2, h3⟩ := k.made d i s hs
    exact ⟨Nat.lt_of_lt_of_le h1 (Future.out_len o).2.1, Nat.lt_of_lt_of_le h2 l.size,
      (l.src s h2).trans h3⟩
  · intro d i s j hs hp
    exact k.priv d i s j hs (hnew hs hp)
  · intro d i hm
    obtain ⟨s, h1, h2⟩ := k.hold d i hm
    exact ⟨s, h1, (Future.out_proms o (k.made _ _ _ h1).1 (hop _ _ _ h1).1).trans h2⟩
  · intro d i s c g p hs ha
    exact k.att d i s c g p hs (hatt hs ha)
  · intro d i s c g p c' g' p' hs ha ha'
    exact k.attu d i s c g p c' g' p' hs (hatt hs ha) (hatt hs ha')
  · intro d i s j hs hp
    obtain ⟨h1, h2⟩ := k.held d i s j hs (hnew hs hp)
    refine ⟨?_, fun c g p ha => h2 c g p (hatt hs ha)⟩
    by_cases hd : (fu'.cell s).done = true
    · rcases hdone hs hd with h | ⟨_, t, g, _, _, h, _⟩
      · rw [h1] at h; cases h
      · exact absurd h (h2 _ _ _)
    · simpa using hd
  · intro d i s hs hd
    rcases hdone hs hd with h | ⟨_, t, g, _, _, h, h'⟩
    · have := (k.done d i s hs h).mono (es := []) l
      rwa [List.append_nil] at this
    · have h3 := k.att d i s _ _ _ hs h
      obtain ⟨⟨x, h4⟩, _⟩ := k.ended d _ h3
      refine Or.inr ⟨x, some g, h4, h3, fun g' hg => ?_⟩
      cases hg
      have hlt := (fi.att _ _ _ _ h).2.1
      exact ⟨Nat.lt_of_lt_of_le hlt l.size, l.done g hlt h'⟩
  · intro d i s c g p hs hd ha
    have ha := hatt hs ha
    rcases hdone hs hd with h | ⟨n, t, g', _, h2, h, h'⟩
    · exact l.log _ (k.stt d i s c g p hs h ha)
    · have := k.attu _ _ _ _ _ _ _ _ _ hs ha h
      rw [this]
      exact l.log _ (start_of_active fi (List.mem_of_getElem? h2) rfl)
  · intro d i s t hs hf
    by_cases hd : (fu'.cell s).done = true
    · exfalso
      rcases hdone hs hd with h | ⟨n, t2, g', hop', h2, h, h'⟩
      · rcases Future.out_act o hf with hf | hf
        · have := k.sat d i s t hs hf
          rw [this] at h; cases h
        · generalize hfr : Frame.satisfy s t = fr at hf
          cases hf with
          | @run lp t0 q hq =>
            have ht : t0 ∈ fu.queue lp := by rw [hq]; exact List.mem_cons_self
            have hfn : t0.fn = .prom s := by
              unfold Future.Task.frame at hfr
              split at hfr <;> first | (cases hfr; assumption) | cases hfr
            obtain ⟨g, h1, _, h3⟩ := fi.queued _ _ ht
            unfold Future.TaskOK at h1
            rw [hfn] at h1
            have h4 := k.stt _ _ _ _ _ _ hs h h1
            have h5 := fi.one _ _ _ _ h1
            have h6 : 0 < fu.queued (fu.cell g).loop t0.c :=
              List.countP_pos_iff.2 ⟨t0, by rw [h3]; exact ht, by simp⟩
            have h7 : 0 < fu.starts t0.c := List.count_pos_iff.2 h4
            omega
          | imm => cases hfr
          | retV => cases hfr
          | retF => cases hfr
          | lib => cases hfr
      · subst hop'
        have hold : Frame.satisfy s t ∈ fu.active := by
          rcases Future.out_act o hf with hf | hf
          · exact hf
          · generalize hfr : Frame.satisfy s t = fr at hf
            cases hf <;> cases hfr
        obtain ⟨m, hm⟩ := List.mem_iff_getElem?.1 hold
        obtain ⟨g2, h3, _⟩ := hsat hm
        have hc : t.c = t2.c := k.attu _ _ _ _ _ _ _ _ _ hs h3 h
        have hr : Frame.ret t2 none ∈ fu'.active := by
          cases o with
          | lib0 hk => rw [h2] at hk; cases hk
          | libS hk => rw [h2] at hk; cases hk
          | libQ hk => rw [h2] at hk; cases hk; exact List.mem_cons_self
        have := act_unique fi' (l.log _ h) hf hr (by simp [Frame.tick, hc]) rfl
        cases this
    · simpa using hd
  · intro d i s hs ht
    rcases Future.out_threw o ht with h | ⟨rfl, _⟩
    · exact k.thr d i s hs h
    · exact absurd rfl (hop d _ s hs).1
  · intro d i s hs he
    have := k.cnone d i s hs he
    exact l.done s (k.made _ _ _ hs).2.1 this
  · intro d i s g hs he
    obtain ⟨c, p, h⟩ := k.csome d i s g hs he
    exact ⟨c, p, l.log _ h⟩

/-- The promise of a dispatch is fulfilled, or given to `then`. -/
theorem PInv.own {t : Bool} {fu fu' : M} {sent : List (Nat × Nat)} {log es : List (SEv A Mo)}
    {H : List (Nat × Nat)} {d i : Nat} (k : PInv t fu sent log ((d, i) :: H)) (fi : Inv fu) {op : Op}
    (h : Future.step fu op = some fu') (hu : fu'.ub = false)
    (hop : (es = [] ∧ op = .fulfil i ∧ Compl t fu log d) ∨
      ∃ r x, es = [SEv.effEnd d r] ∧ RunX log d x ∧
        ((op = .fulfil i ∧ r = none) ∨ ∃ j, op = .thenP j i ∧ fu.futs[j]? = some r)) :
    PInv t fu' sent (log ++ es) H := by
  have o := Future.step_out h
  have l := Future.step_le fi h hu
  have hthl : ∀ i, Ev.threw i ∈ fu'.log → i < fu'.proms.length := by
    intro i ht
    refine Nat.lt_of_lt_of_le ?_ (Future.out_len o).2.1
    rcases Future.out_threw o ht with h | ⟨_, h⟩
    · exact k.thl i h
    · exact (List.getElem?_eq_some_iff.1 h).1
  clear h
  obtain ⟨s, hs0, hp0⟩ := k.hold d i List.mem_cons_self
  obtain ⟨hnd, hno⟩ := k.held d i s i hs0 hp0
  have hi : i < fu.proms.length := (k.made _ _ _ hs0).1
  -- the object is taken
  have hp1 : fu'.proms[i]? = some none := by
    have hpi : op = .fulfil i ∨ ∃ j, op = .thenP j i := by
      rcases hop with ⟨_, h, _⟩ | ⟨_, _, _, _, ⟨h, _⟩ | ⟨j, h, _⟩⟩
      · exact Or.inl h
      · exact Or.inl h
      · exact Or.inr ⟨j, h⟩
    rcases hpi with rfl | ⟨j, rfl⟩
    · cases o with
      | threw hp => rw [hp0] at hp; cases hp
      | fulfil hp => simp [hi]
    · cases o with
      | thenPS _ hp => simp [Future.attach_proms, hi]
      | thenPN _ hp => simp [hi]
  have htk : ∀ j, op.takesP j → j = i := by
    intro j hj
    rcases hop with ⟨_, rfl, _⟩ | ⟨_, _, _, _, ⟨rfl, _⟩ | ⟨j, rfl, _⟩⟩ <;> exact hj.symm
  have hcp : ∀ j, op ≠ .copyP j := by
    rcases hop with ⟨_, rfl, _⟩ | ⟨_, _, _, _, ⟨rfl, _⟩ | ⟨j, rfl, _⟩⟩ <;> intro _ h <;> cases h
  have hnp : ∀ j, op ≠ .newPair j := by
    rcases hop with ⟨_, rfl, _⟩ | ⟨_, _, _, _, ⟨rfl, _⟩ | ⟨j, rfl, _⟩⟩ <;> intro _ h <;> cases h
  have hlb : ∀ j, op ≠ .lib j := by
    rcases hop with ⟨_, rfl, _⟩ | ⟨_, _, _, _, ⟨rfl, _⟩ | ⟨j, rfl, _⟩⟩ <;> intro _ h <;> cases h
  have hrn : ∀ j, op ≠ .run j := by
    rcases hop with ⟨_, rfl, _⟩ | ⟨_, _, _, _, ⟨rfl, _⟩ | ⟨j, rfl, _⟩⟩ <;> intro _ h <;> cases h
  have hnew : ∀ {j s}, fu'.proms[j]? = some (some s) → fu.proms[j]? = some (some s) ∧ j ≠ i := by
    intro j s' hp
    refine ⟨?_, ?_⟩
    · rcases Future.out_promsNew o hp with h | ⟨_, h, _⟩ | ⟨j', h, _⟩
      · exact h
      · exact absurd h (hnp _)
      · exact absurd h (hcp _)
    · rintro rfl
      rw [hp1] at hp; cases hp
  have hatt : ∀ {c g p q}, Ev.attach c g p (.prom q) ∈ fu'.log →
      Ev.attach c g p (.prom q) ∈ fu.log ∨ (q = s ∧ c = fu.nextC ∧ es = [SEv.effEnd d (some g)]) := by
    intro c g p q ha
    rcases Future.out_att o ha with ha | ⟨hc, _, ha, _⟩
    · exact Or.inl ha
    · generalize hfn : Fn.prom q = fn at ha
      cases ha with
      | «then» _ => split at hfn <;> cases hfn
      | @thenP j j' s' q' hf hp =>
        cases hfn
        have := htk j' rfl
        subst this
        rw [hp0] at hp
        cases hp
        refine Or.inr ⟨rfl, hc, ?_⟩
        rcases hop with ⟨_, h, _⟩ | ⟨r, _, h, _, ⟨h', _⟩ | ⟨j, h', h2⟩⟩
        · cases h
        · cases h'
        · cases h'
          rw [hf] at h2
          cases h2
          exact h
      | also => cases hfn
      | lib hk => exact absurd rfl (hlb _)
  have hdone : ∀ {q}, (fu'.cell q).done = true → (fu.cell q).done = true ∨
      (q = s ∧ (es = [] ∨ es = [SEv.effEnd d none])) := by
    intro q hd
    rcases Future.out_done fi hu o hd with h | h
    · exact Or.inl h
    · right
      cases h with
      | @obj j _ hp =>
        have := htk j rfl
        subst this
        rw [hp0] at hp
        cases hp
        refine ⟨rfl, ?_⟩
        rcases hop with ⟨h, _, _⟩ | ⟨r, _, h, _, ⟨h', rfl⟩ | ⟨j, h', h2⟩⟩
        · exact Or.inl h
        · exact Or.inr h
        · cases h'
      | @«then» j j' _ hf hp =>
        have := htk j' rfl
        subst this
        rw [hp0] at hp
        cases hp
        refine ⟨rfl, ?_⟩
        rcases hop with ⟨_, h, _⟩ | ⟨r, _, h, _, ⟨h', _⟩ | ⟨j, h', h2⟩⟩
        · cases h
        · cases h'
        · cases h'
          rw [hf] at h2
          cases h2
          exact Or.inr h
      | ret _ _ => exact absurd rfl (hlb _)
      | sat _ => exact absurd rfl (hlb _)
  have hends : ∀ {d' r}, SEv.effEnd d' r ∈ log ++ es → SEv.effEnd d' r ∈ log ∨ (d' = d ∧ es = [.effEnd d r]) := by
    intro d' r he
    rcases List.mem_append.1 he with he | he
    · exact Or.inl he
    · rcases hop with ⟨rfl, _⟩ | ⟨r', x, rfl, _⟩
      · cases he
      · have := List.mem_singleton.1 he
        cases this
        exact Or.inr ⟨rfl, rfl⟩
  have hgone : ∀ r, SEv.effEnd d r ∉ log := fun r he => (k.ended d r he).2 i List.mem_cons_self
  have hfin : es = [] ∨ es = [SEv.effEnd d none] → Compl t fu' (log ++ es) d := by
    intro he
    rcases hop with ⟨_, _, hc⟩ | ⟨r, x, h1, h2, _⟩
    · exact hc.mono l
    · rcases he with he | he
      · rw [h1] at he; cases he
      · refine Or.inr ⟨x, none, h2.mono, ?_, fun _ h => (nomatch h)⟩
        rw [he]
        exact List.mem_append_right _ (List.mem_singleton.2 rfl)
  have hdd : ∀ {d' i' s' : Nat}, sent[d']? = some (i', s') → s' = s → d' = d := fun h e =>
    k.inj _ _ _ _ _ _ h hs0 (Or.inr e)
  refine ⟨?_, k.inj, ?_, ?_, (List.nodup_cons.1 k.nodup).2, ?_, ?_, ?_, ?_, ?_, ?_, ?_, hthl, ?_, ?_, ?_, ?_, ?_⟩
  · intro d i s hs
    obtain ⟨h1, h2, h3⟩ := k.made d i s hs
    exact ⟨Nat.lt_of_lt_of_le h1 (Future.out_len o).2.1, Nat.lt_of_lt_of_le h2 l.size,
      (l.src s h2).trans h3⟩
  · intro d i s j hs hp
    exact k.priv d i s j hs (hnew hp).1
  · intro d' i' hm
    obtain ⟨s', h1, h2⟩ := k.hold d' i' (List.mem_cons_of_mem _ hm)
    refine ⟨s', h1, (Future.out_proms o (k.made _ _ _ h1).1 ?_).trans h2⟩
    intro ht
    have := htk _ ht
    have : d' = d := k.inj _ _ _ _ _ _ h1 hs0 (Or.inl this)
    subst this
    exact (List.nodup_cons.1 k.nodup).1 (List.mem_map.2 ⟨_, hm, rfl⟩)
  · intro d' i' s' c g p hs ha
    rcases hatt ha with ha | ⟨rfl, _, he⟩
    · exact List.mem_append_left _ (k.att d' i' s' c g p hs ha)
    · have := hdd hs rfl
      subst this
      rw [he]
      exact List.mem_append_right _ (List.mem_singleton.2 rfl)
  · intro d' i' s' c g p c' g' p' hs ha ha'
    rcases hatt ha with ha | ⟨rfl, h1, he⟩
    · rcases hatt ha' with ha' | ⟨rfl, h1', he'⟩
      · exact k.attu d' i' s' c g p c' g' p' hs ha ha'
      · exact absurd ha (hno _ _ _)
    · rcases hatt ha' with ha' | ⟨_, h1', he'⟩
      · exact absurd ha' (hno _ _ _)
      · rw [h1, h1']
  · intro d' i' s' j hs hp
    obtain ⟨hp, hj⟩ := hnew hp
    obtain ⟨h1, h2⟩ := k.held d' i' s' j hs hp
    have hne : s' ≠ s := by
      rintro rfl
      exact hj (k.priv _ _ _ _ hs0 hp)
    refine ⟨?_, fun c g p ha => ?_⟩
    · by_cases hd : (fu'.cell s').done = true
      · rcases hdone hd with h | ⟨h, _⟩
        · rw [h1] at h; cases h
        · exact absurd h hne
      · simpa using hd
    · rcases hatt ha with ha | ⟨h, _⟩
      · exact h2 c g p ha
      · exact absurd h hne
  · intro d' i' s' hs hd
    rcases hdone hd with h | ⟨rfl, he⟩
    · exact (k.done d' i' s' hs h).mono l
    · have := hdd hs rfl
      subst this
      exact hfin he
  · intro d' i' s' c g p hs hd ha
    rcases hatt ha with ha | ⟨rfl, _, he⟩
    · rcases hdone hd with h | ⟨rfl, _⟩
      · exact l.log _ (k.stt d' i' s' c g p hs h ha)
      · exact absurd ha (hno _ _ _)
    · rcases hdone hd with h | ⟨_, he' | he'⟩
      · rw [hnd] at h; cases h
      · rw [he] at he'; cases he'
      · rw [he] at he'; cases he'
  · intro d' i' s' t' hs hf
    have hf : Frame.satisfy s' t' ∈ fu.active := by
      rcases Future.out_act o hf with hf | hf
      · exact hf
      · generalize hfr : Frame.satisfy s' t' = fr at hf
        cases hf with
        | run _ => exact absurd rfl (hrn _)
        | _ => cases hfr
    have h1 := k.sat d' i' s' t' hs hf
    by_cases hd : (fu'.cell s').done = true
    · rcases hdone hd with h | ⟨rfl, _⟩
      · rw [h1] at h; cases h
      · exfalso
        obtain ⟨⟨g, h1, h2⟩, h3⟩ := fi.frames _ hf
        unfold Future.TaskOK at h1
        rw [h3] at h1
        exact hno _ _ _ h1
    · simpa using hd
  · intro d' i' s' hs ht
    rcases Future.out_threw o ht with h | ⟨rfl, h⟩
    · exact k.thr d' i' s' hs h
    · have := htk i' rfl
      subst this
      rw [hp0] at h; cases h
  · intro d' r he
    rcases hends he with he | ⟨rfl, he⟩
    · obtain ⟨⟨x, h1⟩, h2⟩ := k.ended d' r he
      exact ⟨⟨x, h1.mono⟩, fun i hm => h2 i (List.mem_cons_of_mem _ hm)⟩
    · rcases hop with ⟨h, _⟩ | ⟨r', x, h, hx, _⟩
      · rw [h] at he; cases he
      · refine ⟨⟨x, hx.mono⟩, fun i' hm => ?_⟩
        exact (List.nodup_cons.1 k.nodup).1 (List.mem_map.2 ⟨_, hm, rfl⟩)
  · intro d' r he
    rcases hends he with he | ⟨rfl, _⟩
    · exact k.elt d' r he
    · exact (List.getElem?_eq_some_iff.1 hs0).1
  · intro d' r r' he he'
    rcases hends he with he | ⟨rfl, he⟩
    · rcases hends he' with he' | ⟨rfl, he'⟩
      · exact k.eu d' r r' he he'
      · exact absurd he (hgone _)
    · rcases hends he' with he' | ⟨_, he'⟩
      · exact absurd he' (hgone _)
      · rw [he] at he'
        cases he'
        rfl
  · intro d' i' s' hs he
    rcases hends he with he | ⟨rfl, he⟩
    · exact l.done s' (k.made _ _ _ hs).2.1 (k.cnone d' i' s' hs he)
    · rw [hs0] at hs
      cases hs
      rcases hop with ⟨h, _⟩ | ⟨r', x, h, hx, ⟨rfl, _⟩ | ⟨j, rfl, hj⟩⟩
      · rw [h] at he; cases he
      · cases o with
        | threw hp => rw [hp0] at hp; cases hp
        | fulfil hp => rw [hp0] at hp; cases hp; simp [Future.fulfil_cell]
      · rw [h] at he
        cases he
        cases o with
        | thenPS hf _ => rw [hj] at hf; cases hf
        | thenPN _ hp => rw [hp0] at hp; cases hp; simp [Future.fulfil_cell]
  · intro d' i' s' g hs he
    rcases hends he with he | ⟨rfl, he⟩
    · obtain ⟨c, p, h⟩ := k.csome d' i' s' g hs he
      exact ⟨c, p, l.log _ h⟩
    · rw [hs0] at hs
      cases hs
      rcases hop with ⟨h, _⟩ | ⟨r', x, h, hx, ⟨_, rfl⟩ | ⟨j, rfl, hj⟩⟩
      · rw [h] at he; cases he
      · rw [h] at he; cases he
      · rw [h] at he
        cases he
        cases o with
        | thenPS hf hp =>
          rw [hj] at hf; cases hf
          rw [hp0] at hp; cases hp
          refine ⟨fu.nextC, fu.size, ?_⟩
          rw [Future.attach_log]
          exact List.mem_append_right _ (List.mem_singleton.2 rfl)
        | thenPN hf _ => rw [hj] at hf; cases hf

/-- A new dispatch. -/
theorem PInv.new {t : Bool} {fu fu' : M} {sent : List (Nat × Nat)} {log : List (SEv A Mo)}
    {H : List (Nat × Nat)} (k : PInv t fu sent log H) (fi : Inv fu) (fi' : Inv fu')
    (h : Future.step fu (.newPair 0) = some fu') (hu : fu'.ub = false) :
    PInv t fu' (sent ++ [(fu.proms.length, fu.size)]) log ((sent.length, fu.proms.length) :: H) := by
  have hfresh : ∀ r, SEv.effEnd sent.length r ∉ log := fun r h => Nat.lt_irrefl _ (k.elt _ r h)
  have k1 := k.bg fi fi' h hu (fun _ _ _ _ => ⟨fun h => h, fun h => (nomatch h)⟩)
  have he : fu' = { fu with
      size := fu.size + 1
      cell := Future.upd fu.cell fu.size ⟨0, false, none, none⟩
      proms := fu.proms ++ [some fu.size]
      futs := fu.futs ++ [some fu.size] } := by
    cases Future.step_out h; rfl
  have hold : ∀ {d i s : Nat}, (sent ++ [(fu.proms.length, fu.size)])[d]? = some (i, s) →
      sent[d]? = some (i, s) ∨ (d = sent.length ∧ i = fu.proms.length ∧ s = fu.size) := by
    intro d i s hd
    rw [List.getElem?_append] at hd
    split at hd
    · exact Or.inl hd
    · rename_i hlt
      have : d = sent.length := by
        have := (List.getElem?_eq_some_iff.1 hd).1
        simp at this; omega
      subst this
      simp at hd
      exact Or.inr ⟨rfl, hd.1.symm, hd.2.symm⟩
  have hlt : ∀ {d i s : Nat}, sent[d]? = some (i, s) → d < sent.length := fun h =>
    (List.getElem?_eq_some_iff.1 h).1
  have hatt : ∀ {c g p}, Ev.attach c g p (.prom fu.size) ∉ fu'.log := by
    intro c g p ha
    have ha : Ev.attach c g p (.prom fu.size) ∈ fu.log := by rw [he] at ha; exact ha
    have := (fi.att _ _ _ _ ha).2.2.2.2.1.1
    omega
  have hnd : (fu'.cell fu.size).done = false := by rw [he]; simp [Future.upd]
  have hpr : ∀ {j}, fu'.proms[j]? = some (some fu.size) → j = fu.proms.length := by
    intro j hj
    rw [he] at hj
    have hj : (fu.proms ++ [some fu.size])[j]? = some (some fu.size) := hj
    rw [List.getElem?_append] at hj
    split at hj
    · have := (fi.proms _ (List.mem_of_getElem? hj)).1
      omega
    · have := (List.getElem?_eq_some_iff.1 hj).1
      simp at this; omega
  have hnp : fu'.proms[fu.proms.length]? = some (some fu.size) := by rw [he]; simp
  have hHl : ∀ {d i}, (d, i) ∈ H → d < sent.length := fun hm => by
    obtain ⟨s, h1, _⟩ := k.hold _ _ hm
    exact hlt h1
  refine ⟨?_, ?_, ?_, ?_, ?_, ?_, ?_, ?_, ?_, ?_, ?_, ?_, k1.thl, ?_, ?_, k1.eu, ?_, ?_⟩
  · intro d i s hs
    rcases hold hs with hs | ⟨rfl, rfl, rfl⟩
    · exact k1.made d i s hs
    · rw [he]; simp [Future.upd]
  · intro d d' i i' s s' hs hs' hor
    rcases hold hs with hs | ⟨rfl, rfl, rfl⟩
    · rcases hold hs' with hs' | ⟨rfl, rfl, rfl⟩
      · exact k.inj _ _ _ _ _ _ hs hs' hor
      · have := k.made _ _ _ hs
        omega
    · rcases hold hs' with hs' | ⟨rfl, rfl, rfl⟩
      · have := k.made _ _ _ hs'
        omega
      · rfl
  · intro d i s j hs hp
    rcases hold hs with hs | ⟨rfl, rfl, rfl⟩
    · exact k1.priv d i s j hs hp
    · exact hpr hp
  · intro d i hm
    rcases List.mem_cons.1 hm with hm | hm
    · cases hm
      exact ⟨fu.size, by simp, hnp⟩
    · obtain ⟨s, h1, h2⟩ := k1.hold d i hm
      refine ⟨s, ?_, h2⟩
      rw [List.getElem?_append_left (hlt h1)]
      exact h1
  · rw [List.map_cons, List.nodup_cons]
    refine ⟨fun hm => ?_, k.nodup⟩
    obtain ⟨⟨d, i⟩, h1, h2⟩ := List.mem_map.1 hm
    have := hHl h1
    have h2 : d = sent.length := h2
    omega
  · intro d i s c g p hs ha
    rcases hold hs with hs | ⟨rfl, rfl, rfl⟩
    · exact k1.att d i s c g p hs ha
    · exact absurd ha hatt
  · intro d i s c g p c' g' p' hs ha ha'
    rcases hold hs with hs | ⟨rfl, rfl, rfl⟩
    · exact k1.attu d i s c g p c' g' p' hs ha ha'
    · exact absurd ha hatt
  · intro d i s j hs hp
    rcases hold hs with hs | ⟨rfl, rfl, rfl⟩
    · exact k1.held d i s j hs hp
    · exact ⟨hnd, fun c g p => hatt⟩
  · intro d i s hs hd
    rcases hold hs with hs | ⟨rfl, rfl, rfl⟩
    · exact k1.done d i s hs hd
    · rw [hnd] at hd; cases hd
  · intro d i s c g p hs hd ha
    rcases hold hs with hs | ⟨rfl, rfl, rfl⟩
    · exact k1.stt d i s c g p hs hd ha
    · exact absurd ha hatt
  · intro d i s t hs hf
    rcases hold hs with hs | ⟨rfl, rfl, rfl⟩
    · exact k1.sat d i s t hs hf
    · exact hnd
  · intro d i s hs ht
    rcases hold hs with hs | ⟨rfl, rfl, rfl⟩
    · exact k1.thr d i s hs ht
    · have ht : Ev.threw fu.proms.length ∈ fu.log := by rw [he] at ht; exact ht
      have := k.thl _ ht
      omega
  · intro d r hr
    refine ⟨(k1.ended d r hr).1, fun i hm => ?_⟩
    rcases List.mem_cons.1 hm with hm | hm
    · cases hm
      exact hfresh r hr
    · exact (k1.ended d r hr).2 i hm
  · intro d r hr
    have := k.elt d r hr
    simp; omega
  · intro d i s hs hr
    rcases hold hs with hs | ⟨rfl, rfl, rfl⟩
    · exact k1.cnone d i s hs hr
    · exact absurd hr (hfresh _)
  · intro d i s g hs hr
    rcases hold hs with hs | ⟨rfl, rfl, rfl⟩
    · exact k1.csome d i s g hs hr
    · exact absurd hr (hfresh _)

end Verif.Store
