import Verif.Store.Multi

/-! What the steps of one store are for another one on the same loop. -/

namespace Verif.Store

section One

variable {A Mo B N : Type}

/-- Any number of steps. -/
inductive Steps (c : Cfg A Mo) : St A Mo → St A Mo → Prop where
  | refl (s) : Steps c s s
  | step {s t u} (op : SOp A) : Steps c s t → Store.step c t op = some u → Steps c s u

theorem Steps.one {c : Cfg A Mo} {s t : St A Mo} (op : SOp A) (h : Store.step c s op = some t) : Steps c s t :=
  .step op (.refl s) h

theorem Steps.trans {c : Cfg A Mo} {s t u : St A Mo} (h : Steps c s t) (k : Steps c t u) : Steps c s u := by
  induction k with
  | refl => exact h
  | step op _ h2 ih => exact .step op ih h2

theorem Reach.steps {c : Cfg A Mo} {s t : St A Mo} (r : Reach c s) (h : Steps c s t) : Reach c t := by
  induction h with
  | refl => exact r
  | step op _ h2 ih => exact .step op ih h2

/-- Tasks of promises in a queue. -/
def ntok : List (Item A) → Nat
  | [] => 0
  | .tok :: q => ntok q + 1
  | _ :: q => ntok q

theorem ntok_append (q r : List (Item A)) : ntok (q ++ r) = ntok q + ntok r := by
  induction q with
  | nil => simp [ntok]
  | cons x q ih => cases x <;> simp [ntok, ih] <;> omega

theorem ntok_toks (n : Nat) : ntok (List.replicate n (Item.tok : Item A)) = n := by
  induction n with
  | zero => rfl
  | succ n ih => simp [List.replicate_succ, ntok, ih]

/-- New futures, and `n` more tasks of promises. -/
def St.put (t : St A Mo) (fu : Future.M) (n : Nat) : St A Mo :=
  { t with fu := fu, queue := t.queue ++ List.replicate n .tok }

theorem put_put (t : St A Mo) (fu fu' : Future.M) (n n' : Nat) : (t.put fu n).put fu' n' = t.put fu' (n + n') := by
  simp [St.put, List.append_assoc, List.replicate_append_replicate]

theorem put_self (t : St A Mo) {fu : Future.M} (h : t.fu = fu) : t.put fu 0 = t := by
  subst h; simp [St.put]

/-- A step of futures, seen from another store. -/
theorem fstep_put {s s1 : St A Mo} {op : Future.Op} (h : s.fstep op = some s1) {t : St B N} (hf : t.fu = s.fu) :
    ∃ n, ntok s1.queue = ntok s.queue + n ∧ t.fstep op = some (t.put s1.fu n) := by
  simp only [St.fstep, Option.map_eq_some_iff] at h
  obtain ⟨fu, h1, rfl⟩ := h
  refine ⟨(fu.queue 0).length - (s.fu.queue 0).length, by rw [ntok_append, ntok_toks], ?_⟩
  unfold St.fstep
  rw [hf, h1]
  rfl

theorem fut_put (c : Cfg B N) {s s1 : St A Mo} {op : Future.Op} (h : s.fstep op = some s1) {t : St B N} (hf : t.fu = s.fu)
    (ha : t.allowed op) : ∃ n, ntok s1.queue = ntok s.queue + n ∧ Steps c t (t.put s1.fu n) := by
  obtain ⟨n, h1, h2⟩ := fstep_put h hf
  refine ⟨n, h1, Steps.one (.fut op) ?_⟩
  show (if t.allowed op then t.fstep op else none) = _
  rw [if_pos ha, h2]

/-- The promise objects that tasks and calls of effects hold. -/
def St.jobs (s : St A Mo) (i : Nat) : Prop :=
  (∃ x ∈ s.queue, ∃ d, x.job = some (d, i)) ∨ (∃ f ∈ s.ev, ∃ d, f.k = .store d i)

/-- What is known of the promises, futures and closures that belong to a store. -/
structure Bnd (s : St A Mo) : Prop where
  own : ∀ i, s.own i → i < s.fu.proms.length
  held : ∀ i, s.held i → i < s.fu.futs.length
  tag : ∀ x, s.tag x ≠ none → x < s.fu.nextC
  jobs : ∀ i, s.jobs i → s.own i
  clo : ∀ f ∈ s.ev, ∀ x, f.k = .clo x → s.tag x ≠ none

/-- Where what a store has after a step comes from. -/
structure Foot (s s' : St A Mo) (extra : Nat → Prop) : Prop where
  proms : s.fu.proms.length ≤ s'.fu.proms.length
  futs : s.fu.futs.length ≤ s'.fu.futs.length
  nextC : s.fu.nextC ≤ s'.fu.nextC
  own : ∀ i, s'.own i → s.own i ∨ (s.fu.proms.length ≤ i ∧ i < s'.fu.proms.length)
  keep : ∀ i, s.own i → s'.own i
  held : ∀ i, s'.held i → s.held i ∨ (s.fu.futs.length ≤ i ∧ i < s'.fu.futs.length) ∨ extra i
  tag : ∀ x, s'.tag x ≠ none → s.tag x ≠ none ∨ (s.fu.nextC ≤ x ∧ x < s'.fu.nextC)
  tagk : ∀ x, s.tag x ≠ none → s'.tag x ≠ none
  jobs : ∀ i, s'.jobs i → s.jobs i ∨ s'.own i
  clo : ∀ f ∈ s'.ev, ∀ x, f.k = .clo x → (∃ g ∈ s.ev, g.k = .clo x) ∨ s'.tag x ≠ none

theorem Foot.bnd {s s' : St A Mo} {extra : Nat → Prop} (h : Foot s s' extra) (b : Bnd s)
    (he : ∀ i, extra i → i < s.fu.futs.length) : Bnd s' where
  own i hi := by
    rcases h.own i hi with k | k
    · exact Nat.lt_of_lt_of_le (b.own i k) h.proms
    · exact k.2
  held i hi := by
    rcases h.held i hi with k | k | k
    · exact Nat.lt_of_lt_of_le (b.held i k) h.futs
    · exact k.2
    · exact Nat.lt_of_lt_of_le (he i k) h.futs
  tag x hx := by
    rcases h.tag x hx with k | k
    · exact Nat.lt_of_lt_of_le (b.tag x k) h.nextC
    · exact k.2
  jobs i hi := by
    rcases h.jobs i hi with k | k
    · exact h.keep i (b.jobs i k)
    · exact k
  clo f hf x hx := by
    rcases h.clo f hf x hx with ⟨g, k1, k2⟩ | k
    · exact h.tagk x (b.clo g k1 x k2)
    · exact k

/-- Changes that leave futures, tags and dispatches alone, with calls and jobs among those there were. -/
theorem Foot.of_sub {s s' : St A Mo} (extra : Nat → Prop) (h1 : s'.fu = s.fu) (h2 : s'.sent = s.sent) (h3 : s'.tag = s.tag)
    (h4 : ∀ i, s'.held i → s.held i ∨ extra i) (h5 : ∀ i, s'.jobs i → s.jobs i)
    (h6 : ∀ f ∈ s'.ev, ∀ x, f.k = .clo x → ∃ g ∈ s.ev, g.k = .clo x) : Foot s s' extra where
  proms := by rw [h1]; exact Nat.le_refl _
  futs := by rw [h1]; exact Nat.le_refl _
  nextC := by rw [h1]; exact Nat.le_refl _
  own i hi := .inl (by unfold St.own at hi ⊢; rw [← h2]; exact hi)
  keep i hi := by unfold St.own at hi ⊢; rw [h2]; exact hi
  held i hi := (h4 i hi).imp id .inr
  tag x hx := .inl (by rw [← h3]; exact hx)
  tagk x hx := by rw [h3]; exact hx
  jobs i hi := .inl (h5 i hi)
  clo f hf x hx := .inl (h6 f hf x hx)

theorem step_lens {m m' : Future.M} {op : Future.Op} (h : Future.step m op = some m') : m.futs.length ≤ m'.futs.length ∧
    m.proms.length ≤ m'.proms.length ∧ m.nextC ≤ m'.nextC := Future.out_len (Future.step_out h)

theorem jobs_toks_foot {s : St A Mo} {n : Nat} {i : Nat} (x : Item A) (hx : x ∈ s.queue ++ List.replicate n Item.tok)
    (d : Nat) (h : x.job = some (d, i)) : x ∈ s.queue := by
  rcases List.mem_append.1 hx with k | k
  · exact k
  · rw [List.mem_replicate] at k
    rw [k.2] at h
    cases h

theorem Foot.fstep {s s1 : St A Mo} {op : Future.Op} (h : s.fstep op = some s1) (extra : Nat → Prop) : Foot s s1 extra := by
  simp only [St.fstep, Option.map_eq_some_iff] at h
  obtain ⟨fu, h1, rfl⟩ := h
  obtain ⟨l1, l2, l3⟩ := step_lens h1
  refine ⟨l2, l1, l3, fun i hi => .inl hi, fun i hi => hi, fun i hi => .inl hi, fun x hx => .inl hx, fun x hx => hx, ?_,
    fun f hf x hx => .inl ⟨f, hf, hx⟩⟩
  intro i hi
  refine .inl ?_
  rcases hi with ⟨x, hx, d, hd⟩ | hi
  · exact .inl ⟨x, jobs_toks_foot x hx d hd, d, hd⟩
  · exact .inr hi

theorem Foot.trans {s t u : St A Mo} {extra : Nat → Prop} (h : Foot s t extra) (k : Foot t u extra) : Foot s u extra where
  proms := Nat.le_trans h.proms k.proms
  futs := Nat.le_trans h.futs k.futs
  nextC := Nat.le_trans h.nextC k.nextC
  own i hi := by
    rcases k.own i hi with q | q
    · exact (h.own i q).imp id fun ⟨a, b⟩ => ⟨a, Nat.lt_of_lt_of_le b k.proms⟩
    · exact .inr ⟨Nat.le_trans h.proms q.1, q.2⟩
  keep i hi := k.keep i (h.keep i hi)
  held i hi := by
    rcases k.held i hi with q | q | q
    · rcases h.held i q with q | q | q
      · exact .inl q
      · exact .inr (.inl ⟨q.1, Nat.lt_of_lt_of_le q.2 k.futs⟩)
      · exact .inr (.inr q)
    · exact .inr (.inl ⟨Nat.le_trans h.futs q.1, q.2⟩)
    · exact .inr (.inr q)
  tag x hx := by
    rcases k.tag x hx with q | q
    · exact (h.tag x q).imp id fun ⟨a, b⟩ => ⟨a, Nat.lt_of_lt_of_le b k.nextC⟩
    · exact .inr ⟨Nat.le_trans h.nextC q.1, q.2⟩
  tagk x hx := k.tagk x (h.tagk x hx)
  jobs i hi := by
    rcases k.jobs i hi with q | q
    · exact (h.jobs i q).imp id (k.keep i)
    · exact .inr q
  clo f hf x hx := by
    rcases k.clo f hf x hx with ⟨g, q1, q2⟩ | q
    · exact (h.clo g q1 x q2).imp id (k.tagk x)
    · exact .inr q

theorem Foot.refl (s : St A Mo) (extra : Nat → Prop) : Foot s s extra :=
  .of_sub extra rfl rfl rfl (fun _ h => .inl h) (fun _ h => h) (fun f hf _ hx => ⟨f, hf, hx⟩)

theorem Foot.complete {c : Cfg A Mo} {s s1 : St A Mo} {i : Nat} (h : s.complete c i = some s1) (extra : Nat → Prop) :
    Foot s s1 extra := by
  unfold St.complete at h
  split at h
  · exact .fstep h extra
  · cases h; exact .refl _ _

theorem Foot.runTask {s s1 : St A Mo} {l : Nat} (h : s.runTask l = some s1) (extra : Nat → Prop) : Foot s s1 extra := by
  unfold St.runTask at h
  split at h
  · cases h
  · rename_i t q hq
    simp only [Option.map_eq_some_iff] at h
    obtain ⟨s2, h2, rfl⟩ := h
    have k := Foot.fstep h2 extra
    have e1 : s2.ev = s.ev ∧ s2.tag = s.tag := by
      simp only [St.fstep, Option.map_eq_some_iff] at h2
      obtain ⟨fu, _, rfl⟩ := h2
      exact ⟨rfl, rfl⟩
    split
    · exact k
    · rename_i x pos e ht
      refine ⟨k.proms, k.futs, k.nextC, k.own, k.keep, ?_, k.tag, k.tagk, ?_, ?_⟩
      · rintro i ⟨f, hf, hm⟩
        rcases List.mem_cons.1 hf with rfl | hf
        · cases hm
        · exact k.held i ⟨f, hf, hm⟩
      · rintro i (⟨x, hx, d, hd⟩ | ⟨f, hf, d, hd⟩)
        · exact k.jobs i (.inl ⟨x, hx, d, hd⟩)
        · rcases List.mem_cons.1 hf with rfl | hf
          · cases hd
          · exact k.jobs i (.inr ⟨f, hf, d, hd⟩)
      · intro f hf y hy
        rcases List.mem_cons.1 hf with rfl | hf
        · cases hy
          refine .inr ?_
          show s2.tag _ ≠ none
          rw [e1.2, ht]
          exact fun h => by cases h
        · exact k.clo f hf y hy

theorem notify_same (s : St A Mo) : s.sendDown.notify.fu = s.fu ∧ s.sendDown.notify.sent = s.sent ∧
    s.sendDown.notify.tag = s.tag ∧ s.sendDown.notify.ev = s.ev ∧ s.sendDown.notify.queue = s.queue ∧
    s.sendDown.notify.nx = s.nx := by
  have h1 : ∀ s : St A Mo, s.sendDown.fu = s.fu ∧ s.sendDown.sent = s.sent ∧ s.sendDown.tag = s.tag ∧
      s.sendDown.ev = s.ev ∧ s.sendDown.queue = s.queue ∧ s.sendDown.nx = s.nx := by
    intro s
    unfold St.sendDown
    split <;> exact ⟨rfl, rfl, rfl, rfl, rfl, rfl⟩
  have h2 : ∀ s : St A Mo, s.notify.fu = s.fu ∧ s.notify.sent = s.sent ∧ s.notify.tag = s.tag ∧
      s.notify.ev = s.ev ∧ s.notify.queue = s.queue ∧ s.notify.nx = s.nx := by
    intro s
    unfold St.notify
    split <;> exact ⟨rfl, rfl, rfl, rfl, rfl, rfl⟩
  obtain ⟨a1, a2, a3, a4, a5, a6⟩ := h1 s
  obtain ⟨b1, b2, b3, b4, b5, b6⟩ := h2 s.sendDown
  exact ⟨b1.trans a1, b2.trans a2, b3.trans a3, b4.trans a4, b5.trans a5, b6.trans a6⟩

/-- The publishing part of a task leaves what belongs to the store alone. -/
theorem publish_same (c : Cfg A Mo) (s : St A Mo) : (s.publish c).fu = s.fu ∧ (s.publish c).sent = s.sent ∧
    (s.publish c).tag = s.tag ∧ (s.publish c).ev = s.ev ∧ (s.publish c).queue = s.queue ∧ (s.publish c).nx = s.nx := by
  unfold St.publish
  split
  · exact ⟨rfl, rfl, rfl, rfl, rfl, rfl⟩
  · exact notify_same s

theorem pushDown_same (c : Cfg A Mo) (s : St A Mo) (v : Mo) : (s.pushDown c v).fu = s.fu ∧ (s.pushDown c v).sent = s.sent ∧
    (s.pushDown c v).tag = s.tag ∧ (s.pushDown c v).ev = s.ev ∧ (s.pushDown c v).queue = s.queue ∧
    (s.pushDown c v).nx = s.nx := by
  unfold St.pushDown
  split <;> exact ⟨rfl, rfl, rfl, rfl, rfl, rfl⟩

/-- The same in what belongs to the store. -/
theorem Foot.same {s s' : St A Mo} (extra : Nat → Prop) (h1 : s'.fu = s.fu) (h2 : s'.sent = s.sent) (h3 : s'.tag = s.tag)
    (h4 : s'.ev = s.ev) (h5 : ∀ x ∈ s'.queue, ∀ d i, x.job = some (d, i) → s.jobs i) : Foot s s' extra :=
  .of_sub extra h1 h2 h3 (fun i hi => .inl (by unfold St.held at hi ⊢; rw [← h4]; exact hi))
    (by
      rintro i (⟨x, hx, d, hd⟩ | hi)
      · exact h5 x hx d i hd
      · exact .inr (by rw [← h4]; exact hi))
    (fun f hf x hx => ⟨f, by rw [← h4]; exact hf, hx⟩)

theorem foot_go {c : Cfg A Mo} {s s' : St A Mo} {n : Nat} {f : EF} (hf : s.ev[n]? = some f)
    (h : { s with ev := s.ev.eraseIdx n }.go c f = some s') (extra : Nat → Prop) : Foot s s' extra := by
  have hmem : f ∈ s.ev := List.mem_of_getElem? hf
  have hsub : ∀ g, g ∈ s.ev.eraseIdx n → g ∈ s.ev := fun g hg => List.mem_of_mem_eraseIdx hg
  have h0 : Foot s { s with ev := s.ev.eraseIdx n } extra := by
    refine .of_sub extra rfl rfl rfl ?_ ?_ ?_
    · rintro i ⟨g, hg, hm⟩
      exact .inl ⟨g, hsub g hg, hm⟩
    · rintro i (hi | ⟨g, hg, d, hd⟩)
      · exact .inl hi
      · exact .inr ⟨g, hsub g hg, d, hd⟩
    · intro g hg x hx
      exact ⟨g, hsub g hg, hx⟩
  -- a new frame with the same continuation, that does not hold anything new
  have push : ∀ (s1 : St A Mo) (g : EF), s1.fu = s.fu → s1.sent = s.sent → s1.tag = s.tag → s1.queue = s.queue →
      s1.ev = g :: s.ev.eraseIdx n → g.k = f.k → (∀ i, g.mode = .got (some i) → f.mode = .got (some i)) →
      Foot s s1 extra := by
    intro s1 g e1 e2 e3 e4 e5 e6 e7
    refine .of_sub extra e1 e2 e3 ?_ ?_ ?_
    · rintro i ⟨k, hk, hm⟩
      rw [e5] at hk
      rcases List.mem_cons.1 hk with rfl | hk
      · exact .inl ⟨f, hmem, e7 i hm⟩
      · exact .inl ⟨k, hsub k hk, hm⟩
    · rintro i (⟨x, hx, d, hd⟩ | ⟨k, hk, d, hd⟩)
      · exact .inl ⟨x, by rw [← e4]; exact hx, d, hd⟩
      · rw [e5] at hk
        rcases List.mem_cons.1 hk with rfl | hk
        · exact .inr ⟨f, hmem, d, by rw [← e6]; exact hd⟩
        · exact .inr ⟨k, hsub k hk, d, hd⟩
    · intro k hk x hx
      rw [e5] at hk
      rcases List.mem_cons.1 hk with rfl | hk
      · exact ⟨f, hmem, by rw [← e6]; exact hx⟩
      · exact ⟨k, hsub k hk, hx⟩
  unfold St.go at h
  dsimp only at h
  cases hm : f.mode with
  | call e =>
    rw [hm] at h
    cases e with
    | empty => cases h
    | noop => cases h; exact push _ _ rfl rfl rfl rfl rfl rfl (fun i hi => by cases hi)
    | prim id => cases h; exact push _ _ rfl rfl rfl rfl rfl rfl (fun i hi => by cases hi)
    | seq a b => cases h; exact push _ _ rfl rfl rfl rfl rfl rfl (fun i hi => by cases hi)
  | prim id => rw [hm] at h; cases h
  | got o =>
    rw [hm] at h
    dsimp only at h
    split at h
    · split at h
      · rename_i b ks hks i g hg
        simp only [Option.map_eq_some_iff] at h
        obtain ⟨s1, h1, rfl⟩ := h
        have k1 := h0.trans (Foot.fstep h1 extra)
        have e1 : s1.ev = s.ev.eraseIdx n ∧ s1.tag = s.tag ∧ s1.fu.futs.length = s.fu.futs.length + 1 ∧
            s1.fu.nextC = s.fu.nextC + 1 := by
          have hg : s.fu.futs[i]? = some (some g) := by
            have hg : s.fu.futs[i]?.join = some g := hg
            cases hfi : s.fu.futs[i]? with
            | none => rw [hfi] at hg; cases hg
            | some r => rw [hfi] at hg; cases hg; rfl
          simp only [St.fstep, Option.map_eq_some_iff] at h1
          obtain ⟨fu, h2, rfl⟩ := h1
          have h2 : Future.step s.fu (.then i true) = some fu := h2
          refine ⟨rfl, rfl, ?_⟩
          cases Future.step_out h2 with
          | thenS _ => exact ⟨by simp, by simp [Future.attach_nextC]⟩
          | thenN h3 => rw [hg] at h3; cases h3
        refine ⟨k1.proms, k1.futs, k1.nextC, k1.own, k1.keep, ?_, ?_, ?_, ?_, ?_⟩
        · rintro j ⟨g, hg, hgm⟩
          rcases List.mem_cons.1 hg with rfl | hg
          · cases hgm
            refine .inr (.inl ⟨?_, ?_⟩) <;> show _ <;> rw [e1.2.2.1] <;> omega
          · exact k1.held j ⟨g, hg, hgm⟩
        · intro x hx
          have hx : Verif.Future.upd s.tag s.fu.nextC _ x ≠ none := hx
          unfold Verif.Future.upd at hx
          split at hx
          · rename_i hxe
            refine .inr ⟨by omega, ?_⟩
            show x < s1.fu.nextC
            rw [e1.2.2.2]; omega
          · exact .inl hx
        · intro x hx
          show Verif.Future.upd s.tag s.fu.nextC _ x ≠ none
          unfold Verif.Future.upd
          split
          · exact fun h => by cases h
          · exact hx
        · rintro j (⟨x, hx, d, hd⟩ | ⟨g, hg, d, hd⟩)
          · exact k1.jobs j (.inl ⟨x, hx, d, hd⟩)
          · rcases List.mem_cons.1 hg with rfl | hg
            · exact .inl (.inr ⟨f, hmem, d, hd⟩)
            · exact k1.jobs j (.inr ⟨g, hg, d, hd⟩)
        · intro g hg x hx
          rcases List.mem_cons.1 hg with rfl | hg
          · exact .inl ⟨f, hmem, hx⟩
          · refine .inl ⟨g, hsub g ?_, hx⟩
            rw [← e1.1]; exact hg
      · cases h; exact push _ _ rfl rfl rfl rfl rfl rfl (fun i hi => by cases hi)
    · split at h
      · rename_i d i _
        have k1 : ∀ e, Foot s (({ s with ev := s.ev.eraseIdx n } : St A Mo).say e) extra := fun e =>
          h0.trans (Foot.same extra rfl rfl rfl rfl (fun x hx d i hd => .inl ⟨x, hx, d, hd⟩))
        split at h
        · split at h
          · exact (k1 _).trans (Foot.fstep h extra)
          · exact (k1 _).trans (Foot.fstep h extra)
        · cases h; exact k1 _
      · simp only [Option.bind_eq_some_iff] at h
        obtain ⟨k, _, h⟩ := h
        split at h
        · exact h0.trans (Foot.fstep h extra)
        · simp only [Option.bind_eq_some_iff] at h
          obtain ⟨s1, h1, h2⟩ := h
          exact (h0.trans (Foot.fstep h1 extra)).trans (Foot.fstep h2 extra)

theorem foot_step {c : Cfg A Mo} {s s' : St A Mo} {op : SOp A} (h : Store.step c s op = some s') :
    Foot s s' (fun i => ∃ n, op = .prim n (some i)) := by
  generalize he : (fun i => ∃ n, op = .prim n (some i)) = extra
  cases op with
  | dispatch a =>
    simp only [Store.step, St.dispatch, Option.map_eq_some_iff] at h
    obtain ⟨s1, h1, rfl⟩ := h
    have k := Foot.fstep h1 extra
    have hs : s1.sent = s.sent := (fstep_toks h1).sent
    have hl : s1.fu.proms.length = s.fu.proms.length + 1 := by
      simp only [St.fstep, Option.map_eq_some_iff] at h1
      obtain ⟨fu, h2, rfl⟩ := h1
      cases hF : c.hasF with
      | true =>
        rw [hF] at h2
        cases Future.step_out h2
        simp
      | false =>
        rw [hF] at h2
        cases Future.step_out h2
        simp
    refine ⟨k.proms, k.futs, k.nextC, ?_, ?_, k.held, k.tag, k.tagk, ?_, k.clo⟩
    · rintro i ⟨y, hy, rfl⟩
      rcases List.mem_append.1 hy with hy | hy
      · exact .inl ⟨y, hy, rfl⟩
      · rw [List.mem_singleton] at hy
        subst hy
        refine .inr ⟨Nat.le_refl _, ?_⟩
        show _ < s1.fu.proms.length
        rw [hl]; exact Nat.lt_succ_self _
    · rintro i ⟨y, hy, rfl⟩
      exact ⟨y, List.mem_append_left _ hy, rfl⟩
    · rintro i (⟨x, hx, d, hd⟩ | hi)
      · rcases List.mem_append.1 hx with hx | hx
        · refine (k.jobs i (.inl ⟨x, hx, d, hd⟩)).imp id ?_
          rintro ⟨y, hy, rfl⟩
          exact ⟨y, List.mem_append_left _ (by rw [← hs]; exact hy), rfl⟩
        · rw [List.mem_singleton] at hx
          subst hx
          cases hd
          exact .inr ⟨_, List.mem_append_right _ (List.mem_singleton.2 rfl), rfl⟩
      · refine (k.jobs i (.inr hi)).imp id ?_
        rintro ⟨y, hy, rfl⟩
        exact ⟨y, List.mem_append_left _ (by rw [← hs]; exact hy), rfl⟩
  | loop =>
    simp only [Store.step, St.loop] at h
    split at h
    · cases h
    · rename_i d a i q hq
      have hj : s.jobs i := .inl ⟨_, by rw [hq]; exact List.mem_cons_self, d, rfl⟩
      have hsub : ∀ x ∈ q, ∀ d i, x.job = some (d, i) → s.jobs i :=
        fun x hx d i hd => .inl ⟨x, by rw [hq]; exact List.mem_cons_of_mem _ hx, d, hd⟩
      have h0 : Foot s { s with queue := q } extra := .same extra rfl rfl rfl rfl hsub
      have hpost : ∀ x : Item A, (∀ d i', x.job = some (d, i') → i' = i) → Foot s (({ s with queue := q } : St A Mo).post x) extra := by
        intro x hx
        refine .same extra rfl rfl rfl rfl ?_
        intro y hy d' i' hd
        rcases List.mem_append.1 hy with hy | hy
        · exact hsub y hy d' i' hd
        · rw [List.mem_singleton] at hy
          subst hy
          rw [hx d' i' hd]; exact hj
      split at h
      · cases h
        exact h0.trans (Foot.same extra rfl rfl rfl rfl (fun x hx d i hd => .inl ⟨x, hx, d, hd⟩))
      · simp only [Option.map_eq_some_iff] at h
        obtain ⟨s1, h1, rfl⟩ := h
        have h2 : Foot s s1 extra := by
          split at h1
          · split at h1
            · exact h0.trans (.complete h1 extra)
            · cases h1; exact hpost _ (fun d i' hd => by cases hd; rfl)
          · cases h1; exact hpost _ (fun d i' hd => by cases hd; rfl)
        obtain ⟨e1, e2, e3, e4, e5, _⟩ := pushDown_same c s1 (c.reducer s.cur a).1
        refine h2.trans (Foot.same extra e1 e2 e3 e4 ?_)
        intro x hx d' i' hd
        exact .inl ⟨x, by rw [← e5]; exact hx, d', hd⟩
    · rename_i d e i q hq
      have hj : s.jobs i := .inl ⟨_, by rw [hq]; exact List.mem_cons_self, d, rfl⟩
      have hsub : ∀ x ∈ q, ∀ d i, x.job = some (d, i) → s.jobs i :=
        fun x hx d i hd => .inl ⟨x, by rw [hq]; exact List.mem_cons_of_mem _ hx, d, hd⟩
      cases h
      obtain ⟨e1, e2, e3, e4, e5, _⟩ := publish_same c { s with queue := q }
      refine .of_sub extra e1 e2 e3 ?_ ?_ ?_
      · rintro j ⟨f, hf, hm⟩
        rcases List.mem_cons.1 hf with rfl | hf
        · cases hm
        · rw [e4] at hf; exact .inl ⟨f, hf, hm⟩
      · rintro j (⟨x, hx, d', hd⟩ | ⟨f, hf, d', hd⟩)
        · exact hsub x (by rw [← show _ = q from e5]; exact hx) d' j hd
        · rcases List.mem_cons.1 hf with rfl | hf
          · cases hd; exact hj
          · rw [e4] at hf; exact .inr ⟨f, hf, d', hd⟩
      · intro f hf x hx
        rcases List.mem_cons.1 hf with rfl | hf
        · cases hx
        · rw [e4] at hf; exact ⟨f, hf, hx⟩
    · rename_i d i q hq
      have hsub : ∀ x ∈ q, ∀ d i, x.job = some (d, i) → s.jobs i :=
        fun x hx d i hd => .inl ⟨x, by rw [hq]; exact List.mem_cons_of_mem _ hx, d, hd⟩
      obtain ⟨e1, e2, e3, e4, e5, _⟩ := publish_same c { s with queue := q }
      refine Foot.trans (t := (St.publish c { s with queue := q }).say (.ready d))
        (Foot.same extra e1 e2 e3 e4 ?_) (.complete h extra)
      intro x hx d' j hd
      exact hsub x (by rw [← show _ = q from e5]; exact hx) d' j hd
    · rename_i q hq
      have h0 : Foot s { s with queue := q } extra := .same extra rfl rfl rfl rfl
        (fun x hx d i hd => .inl ⟨x, by rw [hq]; exact List.mem_cons_of_mem _ hx, d, hd⟩)
      exact h0.trans (.runTask h extra)
  | loopRaise =>
    obtain ⟨x, q, d, o, hq, hx, ht, _, rfl⟩ := loopRaise_some h
    obtain ⟨e1, e2, e3, e4, e5, _⟩ := publish_same c { s with queue := q }
    refine Foot.same extra e1 e2 e3 e4 ?_
    intro y hy d' j hd
    exact .inl ⟨y, by rw [hq]; exact List.mem_cons_of_mem _ (by rw [← show _ = q from e5]; exact hy), d', hd⟩
  | other l =>
    simp only [Store.step] at h
    split at h
    · cases h
    · exact .runTask h extra
  | fut op =>
    simp only [Store.step] at h
    split at h
    · exact .fstep h extra
    · cases h
  | go n =>
    simp only [Store.step] at h
    split at h
    · cases h
    · rename_i f hf
      exact foot_go hf h extra
  | prim n o =>
    simp only [Store.step] at h
    split at h
    · rename_i x pos id ks k hf
      have hmem := List.mem_of_getElem? hf
      split at h
      · cases h
        refine .of_sub extra rfl rfl rfl ?_ ?_ ?_
        · rintro i ⟨g, hg, hm⟩
          rcases List.mem_cons.1 hg with rfl | hg
          · cases hm
            exact .inr (by rw [← he]; exact ⟨n, rfl⟩)
          · exact .inl ⟨g, List.mem_of_mem_eraseIdx hg, hm⟩
        · rintro i (hi | ⟨g, hg, d, hd⟩)
          · exact .inl hi
          · rcases List.mem_cons.1 hg with rfl | hg
            · exact .inr ⟨_, hmem, d, hd⟩
            · exact .inr ⟨g, List.mem_of_mem_eraseIdx hg, d, hd⟩
        · intro g hg y hy
          rcases List.mem_cons.1 hg with rfl | hg
          · exact ⟨_, hmem, hy⟩
          · exact ⟨g, List.mem_of_mem_eraseIdx hg, hy⟩
      · cases h
    · cases h
  | raise n =>
    have h0 : ∀ e, Foot s { s.say e with ev := s.ev.eraseIdx n } extra := by
      intro e
      refine .of_sub extra rfl rfl rfl ?_ ?_ ?_
      · rintro i ⟨g, hg, hm⟩
        exact .inl ⟨g, List.mem_of_mem_eraseIdx hg, hm⟩
      · rintro i (hi | ⟨g, hg, d, hd⟩)
        · exact .inl hi
        · exact .inr ⟨g, List.mem_of_mem_eraseIdx hg, d, hd⟩
      · intro g hg x hx
        exact ⟨g, List.mem_of_mem_eraseIdx hg, hx⟩
    simp only [Store.step] at h
    split at h
    · cases h; exact h0 _
    · simp only [Option.bind_eq_some_iff] at h
      obtain ⟨m, _, h⟩ := h
      exact (h0 _).trans (.fstep h extra)
    · cases h
  | commit =>
    simp only [Store.step] at h
    split at h
    · cases h
      obtain ⟨e1, e2, e3, e4, e5, _⟩ := notify_same s
      exact Foot.same extra e1 e2 e3 e4 (fun x hx d i hd => .inl ⟨x, by rw [← e5]; exact hx, d, hd⟩)
    · cases h

theorem Reach.bnd {c : Cfg A Mo} {s : St A Mo} (r : Reach c s) : Bnd s := by
  induction r with
  | start =>
    refine ⟨?_, ?_, ?_, ?_, ?_⟩
    · rintro i ⟨y, hy, _⟩; cases hy
    · rintro i ⟨y, hy, _⟩; cases hy
    · intro x hx; exact absurd rfl hx
    · rintro i (⟨y, hy, _⟩ | ⟨y, hy, _⟩) <;> cases hy
    · intro f hf; cases hf
  | step op r h ih =>
    refine (foot_step h).bnd ih ?_
    rintro i ⟨n, rfl⟩
    simp only [Store.step] at h
    split at h
    · split at h
      · rename_i hh
        exact (hh.2 i rfl).2
      · cases h
    · cases h

/-- Two stores that share futures and nothing else; `s` is the one that does a step. -/
structure Alien (s : St A Mo) (t : St B N) : Prop where
  fu : t.fu = s.fu
  jobs : ∀ i, s.jobs i → ¬ t.own i
  held : ∀ i, s.held i → ¬ t.held i
  bnd : ∀ i, t.held i → i < t.fu.futs.length
  clo : ∀ f ∈ s.ev, ∀ x, f.k = .clo x → t.tag x = none

/-- Store `t` can follow: it gets to a state with the same futures, and as many more tasks of promises as have
been posted. -/
def Fol (c : Cfg B N) (s s' : St A Mo) (t : St B N) : Prop :=
  ∃ n, ntok s'.queue = ntok s.queue + n ∧ Steps c t (t.put s'.fu n)

theorem Fol.same (c : Cfg B N) {s s' : St A Mo} {t : St B N} (hf : t.fu = s.fu) (h1 : s'.fu = s.fu)
    (h2 : ntok s'.queue = ntok s.queue) : Fol c s s' t := by
  refine ⟨0, h2, ?_⟩
  rw [put_self t (hf.trans h1.symm)]
  exact .refl t

theorem ntok_cons {x : Item A} (hx : x ≠ .tok) (q : List (Item A)) : ntok (x :: q) = ntok q := by
  cases x <;> first | rfl | exact absurd rfl hx

theorem not_tagged {s : St A Mo} {t : St B N} (a : Alien s t) {f : EF} (hf : f ∈ s.ev) {x k : Nat} (hk : f.k = .clo x)
    (h : findRun x s.fu.active = some k) : ¬ t.tagged k := by
  obtain ⟨u, hu, hc⟩ := findRun_some h
  unfold St.tagged
  rw [a.fu, hu]
  show ¬ t.tag u.c ≠ none
  rw [hc, a.clo f hf x hk]
  exact fun h => h rfl

theorem fol_go {c : Cfg A Mo} (c' : Cfg B N) {s s' : St A Mo} {t : St B N} (a : Alien s t) {n : Nat} {f : EF}
    (hf : s.ev[n]? = some f) (h : { s with ev := s.ev.eraseIdx n }.go c f = some s') : Fol c' s s' t := by
  have hmem : f ∈ s.ev := List.mem_of_getElem? hf
  unfold St.go at h
  dsimp only at h
  cases hm : f.mode with
  | call e =>
    rw [hm] at h
    cases e with
    | empty => cases h
    | noop => cases h; exact .same c' a.fu rfl rfl
    | prim id => cases h; exact .same c' a.fu rfl rfl
    | seq a' b => cases h; exact .same c' a.fu rfl rfl
  | prim id => rw [hm] at h; cases h
  | got o =>
    rw [hm] at h
    dsimp only at h
    have hh : ∀ i, o = some i → ¬ t.held i := fun i hi => a.held i ⟨f, hmem, by rw [hm, hi]⟩
    split at h
    · split at h
      · rename_i b ks hks i g hg
        simp only [Option.map_eq_some_iff] at h
        obtain ⟨s1, h1, rfl⟩ := h
        exact fut_put c' h1 a.fu (hh i rfl)
      · cases h; exact .same c' a.fu rfl rfl
    · split at h
      · rename_i d i hk
        have hi : ¬ t.own i := a.jobs i (.inr ⟨f, hmem, d, hk⟩)
        split at h
        · split at h
          · rename_i j
            exact fut_put c' h a.fu ⟨hh j rfl, hi⟩
          · exact fut_put c' h a.fu hi
        · cases h; exact .same c' a.fu rfl rfl
      · rename_i x hk
        simp only [Option.bind_eq_some_iff] at h
        obtain ⟨k, hk2, h⟩ := h
        have ht := not_tagged a hmem hk hk2
        split at h
        · rename_i i
          exact fut_put c' h a.fu ⟨ht, hh i rfl⟩
        · simp only [Option.bind_eq_some_iff] at h
          obtain ⟨s1, h1, h2⟩ := h
          obtain ⟨n1, k1, k2⟩ := fut_put c' h1 (t := t) a.fu trivial
          have e1 : s1.fu.futs.length = s.fu.futs.length + 1 ∧ s1.fu.active = s.fu.active := by
            simp only [St.fstep, Option.map_eq_some_iff] at h1
            obtain ⟨fu, h3, rfl⟩ := h1
            cases Future.step_out h3
            exact ⟨by simp, rfl⟩
          obtain ⟨n2, k3, k4⟩ := fut_put c' h2 (t := t.put s1.fu n1) rfl (by
            refine ⟨?_, ?_⟩
            · unfold St.tagged at ht ⊢
              show ¬ match s1.fu.active[k]? with
                | some (.run u) => t.tag u.c ≠ none
                | _ => False
              rw [e1.2, ← a.fu]
              exact ht
            · rw [e1.1]
              intro hx
              have := a.bnd _ hx
              rw [a.fu] at this
              omega)
          refine ⟨n1 + n2, by rw [k3, k1, Nat.add_assoc], ?_⟩
          rw [put_put] at k4
          exact k2.trans k4

theorem fol_runTask {s s' : St A Mo} {t : St B N} {l : Nat} (hf : t.fu = s.fu)
    (ht : ∀ x q, s.fu.queue l = x :: q → t.tag x.c = none) (h : s.runTask l = some s') :
    ∃ n, ntok s'.queue = ntok s.queue + n ∧ t.runTask l = some (t.put s'.fu n) := by
  unfold St.runTask at h
  split at h
  · cases h
  · rename_i x q hq
    simp only [Option.map_eq_some_iff] at h
    obtain ⟨s1, h1, h2⟩ := h
    obtain ⟨n, k1, k2⟩ := fstep_put h1 hf
    have e : s'.queue = s1.queue ∧ s'.fu = s1.fu := by
      split at h2 <;> cases h2 <;> exact ⟨rfl, rfl⟩
    refine ⟨n, by rw [e.1]; exact k1, ?_⟩
    unfold St.runTask
    rw [hf, hq]
    show (t.fstep (.run l)).map _ = _
    rw [k2, Option.map_some, ht x q hq, e.2]

/-- A step of a store that does not run a task of a promise, seen from another one. -/
theorem fol_step {c : Cfg A Mo} (c' : Cfg B N) {s s' : St A Mo} {t : St B N} (a : Alien s t) {op : SOp A}
    (h : Store.step c s op = some s') (hq : op = .loop → ∀ q, s.queue ≠ .tok :: q)
    (hfut : ∀ o, op = .fut o → t.allowed o)
    (ho : ∀ l, op = .other l → ∀ x q, s.fu.queue l = x :: q → t.tag x.c = none) : Fol c' s s' t := by
  have hcomp : ∀ (s0 s1 : St A Mo) (i : Nat), s0.fu = s.fu → ntok s0.queue = ntok s.queue → s.jobs i →
      s0.complete c i = some s1 → Fol c' s s1 t := by
    intro s0 s1 i e1 e2 hj h
    unfold St.complete at h
    split at h
    · obtain ⟨n, k1, k2⟩ := fut_put c' h (t := t) (a.fu.trans e1.symm) (a.jobs i hj)
      exact ⟨n, by rw [k1, e2], k2⟩
    · cases h; exact .same c' a.fu e1 e2
  cases op with
  | dispatch x =>
    simp only [Store.step, St.dispatch, Option.map_eq_some_iff] at h
    obtain ⟨s1, h1, rfl⟩ := h
    obtain ⟨n, k1, k2⟩ := fut_put c' h1 (t := t) a.fu (by split <;> trivial)
    refine ⟨n, ?_, k2⟩
    show ntok (s1.queue ++ [_]) = _
    rw [ntok_append, k1]; rfl
  | loop =>
    simp only [Store.step, St.loop] at h
    split at h
    · cases h
    · rename_i d x i q hq
      have hj : s.jobs i := .inl ⟨_, by rw [hq]; exact List.mem_cons_self, d, rfl⟩
      have hn : ntok s.queue = ntok q := by rw [hq]; rfl
      split at h
      · cases h; exact .same c' a.fu rfl hn.symm
      · simp only [Option.map_eq_some_iff] at h
        obtain ⟨s1, h1, rfl⟩ := h
        obtain ⟨e1, e2, e3, e4, e5, _⟩ := pushDown_same c s1 (c.reducer s.cur x).1
        have h2 : Fol c' s s1 t := by
          split at h1
          · split at h1
            · exact hcomp { s with queue := q } _ i rfl hn.symm hj h1
            · cases h1
              refine .same c' a.fu rfl ?_
              show ntok (q ++ [_]) = _
              rw [ntok_append, hn]; rfl
          · cases h1
            refine .same c' a.fu rfl ?_
            show ntok (q ++ [_]) = _
            rw [ntok_append, hn]; rfl
        obtain ⟨n, k1, k2⟩ := h2
        refine ⟨n, ?_, ?_⟩
        · show ntok (s1.pushDown c _).queue = _
          rw [e5, k1]
        · show Steps c' t (t.put (s1.pushDown c _).fu n)
          rw [e1]; exact k2
    · rename_i d e i q hq
      cases h
      obtain ⟨e1, e2, e3, e4, e5, _⟩ := publish_same c { s with queue := q }
      refine .same c' a.fu e1 ?_
      show ntok (St.publish c { s with queue := q }).queue = _
      rw [e5, hq]; rfl
    · rename_i d i q hq
      obtain ⟨e1, e2, e3, e4, e5, _⟩ := publish_same c { s with queue := q }
      refine hcomp ((St.publish c { s with queue := q }).say (.ready d)) _ i e1 ?_ (.inl ⟨_, by rw [hq]; exact List.mem_cons_self, d, rfl⟩) h
      show ntok (St.publish c { s with queue := q }).queue = _
      rw [e5, hq]; rfl
    · rename_i q hq'
      exact absurd hq' (hq rfl q)
  | loopRaise =>
    obtain ⟨x, q, d, o, hq, hx, ht, _, rfl⟩ := loopRaise_some h
    obtain ⟨e1, e2, e3, e4, e5, _⟩ := publish_same c { s with queue := q }
    refine .same c' a.fu e1 ?_
    show ntok (St.publish c { s with queue := q }).queue = _
    rw [e5, hq, ntok_cons (x := x)]
    rintro rfl
    simp at hx
  | other l =>
    simp only [Store.step] at h
    split at h
    · cases h
    · rename_i hl
      obtain ⟨n, k1, k2⟩ := fol_runTask (t := t) a.fu (ho l rfl) h
      refine ⟨n, k1, Steps.one (.other l) ?_⟩
      show (if l = 0 then none else t.runTask l) = _
      rw [if_neg hl, k2]
  | fut o =>
    simp only [Store.step] at h
    split at h
    · exact fut_put c' h a.fu (hfut o rfl)
    · cases h
  | go n =>
    simp only [Store.step] at h
    split at h
    · cases h
    · rename_i f hf
      exact fol_go c' a hf h
  | prim n o =>
    simp only [Store.step] at h
    split at h
    · split at h
      · cases h; exact .same c' a.fu rfl rfl
      · cases h
    · cases h
  | raise n =>
    simp only [Store.step] at h
    split at h
    · cases h; exact .same c' a.fu rfl rfl
    · rename_i x pos id ks u hf
      simp only [Option.bind_eq_some_iff] at h
      obtain ⟨k, hk, h⟩ := h
      have hmem := List.mem_of_getElem? hf
      exact fut_put c' h a.fu (not_tagged a hmem rfl hk)
    · cases h
  | commit =>
    simp only [Store.step] at h
    split at h
    · cases h
      obtain ⟨e1, e2, e3, e4, e5, _⟩ := notify_same s
      exact .same c' a.fu e1 (by rw [e5])
    · cases h

/-- … and one that does. -/
theorem fol_tok {c : Cfg A Mo} (c' : Cfg B N) {s s' : St A Mo} {t : St B N} (hf : t.fu = s.fu) {q : List (Item A)}
    {r : List (Item B)} (h : Store.step c s .loop = some s') (hq : s.queue = .tok :: q) (ht : t.queue = .tok :: r)
    (hx : ∀ x q, s.fu.queue 0 = x :: q → t.tag x.c = none) :
    ∃ n, ntok s'.queue = ntok q + n ∧ Steps c' t (({ t with queue := r } : St B N).put s'.fu n) := by
  simp only [Store.step, St.loop, hq] at h
  obtain ⟨n, k1, k2⟩ := fol_runTask (s := { s with queue := q }) (t := { t with queue := r }) hf hx h
  refine ⟨n, k1, Steps.one .loop ?_⟩
  simp only [Store.step, St.loop, ht]
  exact k2

end One

end Verif.Store
