import Verif.Watch.Safe

/-!
What a loop over observers calls, and in which order.
-/

namespace Verif.Watch

/-! ## Numbers of loops -/

/-- The number of the loop of a frame. -/
def fid : Frame → Option Nat
  | .node f _ _ => some f
  | .slot f _ _ _ _ => some f
  | .bind _ _ => none

/-- Is it a loop over observers? -/
def Frame.isNode : Frame → Bool
  | .node _ _ _ => true
  | _ => false

/-- Inner loops have larger numbers; only a loop over observers shares its number with the loop above it. -/
def Over (a b : Frame) : Prop :=
  ∀ i j, fid a = some i → fid b = some j → j < i ∨ (j = i ∧ b.isNode = true)

theorem base_lt {k : Nat} {fs : List Frame} (h : Base k fs) : ∀ fr ∈ fs, ∀ f, fid fr = some f → f < k := by
  induction h with
  | nil => intro fr h; cases h
  | bind r c _ ih =>
    intro fr h f hf
    rcases List.mem_cons.1 h with rfl | h
    · cases hf
    · exact ih fr h f hf
  | nudge n r c hk _ ih =>
    intro fr h f hf
    rcases List.mem_cons.1 h with rfl | h
    · cases hf; exact hk
    · exact Nat.lt_trans (ih fr h f hf) hk
  | node n r c hk _ ih =>
    intro fr h f hf
    rcases List.mem_cons.1 h with rfl | h
    · cases hf; exact hk
    · rcases List.mem_cons.1 h with rfl | h
      · cases hf; exact hk
      · exact Nat.lt_trans (ih fr h f hf) hk

theorem base_over {k : Nat} {fs : List Frame} (h : Base k fs) : fs.Pairwise Over := by
  induction h with
  | nil => exact .nil
  | bind r c _ ih => exact .cons (fun b _ i j hi _ => by cases hi) ih
  | nudge n r c hk hb ih =>
    refine .cons (fun b hm i j hi hj => ?_) ih
    cases hi
    exact .inl (base_lt hb b hm j hj)
  | node n r c hk hb ih =>
    refine .cons (fun b hm i j hi hj => ?_) (.cons (fun b hm i j hi hj => ?_) ih)
    · cases hi
      rcases List.mem_cons.1 hm with rfl | hm
      · cases hj; exact .inr ⟨rfl, rfl⟩
      · exact .inl (base_lt hb b hm j hj)
    · cases hi
      exact .inl (base_lt hb b hm j hj)

theorem shape_lt {k : Nat} {c : Ctrl} {fs : List Frame} (h : Shape k c fs) :
    ∀ fr ∈ fs, ∀ f, fid fr = some f → f < k := by
  cases c with
  | user => exact base_lt h
  | enter r =>
    obtain ⟨f, n, fs', rfl, hf, hb⟩ := h
    intro fr hm g hg
    rcases List.mem_cons.1 hm with rfl | hm
    · cases hg; exact hf
    · exact Nat.lt_trans (base_lt hb fr hm g hg) hf
  | back =>
    rcases h with ⟨h, _⟩ | ⟨f, n, r, fs', rfl, hf, hb⟩
    · exact base_lt h
    · intro fr hm g hg
      rcases List.mem_cons.1 hm with rfl | hm
      · cases hg; exact hf
      · exact Nat.lt_trans (base_lt hb fr hm g hg) hf

theorem shape_over {k : Nat} {c : Ctrl} {fs : List Frame} (h : Shape k c fs) : fs.Pairwise Over := by
  cases c with
  | user => exact base_over h
  | enter r =>
    obtain ⟨f, n, fs', rfl, hf, hb⟩ := h
    refine .cons (fun b hm i j hi hj => ?_) (base_over hb)
    cases hi
    exact .inl (base_lt hb b hm j hj)
  | back =>
    rcases h with ⟨h, _⟩ | ⟨f, n, r, fs', rfl, hf, hb⟩
    · exact base_over h
    · refine .cons (fun b hm i j hi hj => ?_) (base_over hb)
      cases hi
      exact .inl (base_lt hb b hm j hj)

/-- Frames above a loop in callbacks have larger numbers. -/
theorem above {k : Nat} {ctrl : Ctrl} {pre fs : List Frame} {f n r c : Nat} {b : Bool}
    (h : Shape k ctrl (pre ++ .slot f n r c b :: fs)) : ∀ fr ∈ pre, fid fr ≠ some f := by
  have := shape_over h
  rw [List.pairwise_append] at this
  intro fr hm hf
  rcases this.2.2 fr hm (.slot f n r c b) (by simp) f f hf rfl with h | ⟨_, h⟩
  · exact Nat.lt_irrefl _ h
  · cases h

/-! ## Lists -/

theorem next_append {A B : List Nat} {x : Nat} (hn : (A ++ x :: B).Nodup) : next x (A ++ x :: B) = B.head? := by
  induction A with
  | nil => simp [next]
  | cons a A ih =>
    simp only [List.cons_append, List.nodup_cons] at hn
    have : a ≠ x := by intro e; subst e; exact hn.1 (by simp)
    simp only [List.cons_append, next, if_neg this]
    exact ih hn.2

theorem prefix_split {A B l : List Nat} {x : Nat} (h : A ++ x :: B <+: l) : ∃ B', l = A ++ x :: B' := by
  obtain ⟨t, ht⟩ := h
  exact ⟨B ++ t, by rw [← ht]; simp⟩

/-! ## Steps that detach nothing -/

theorem kind_grow {st st' : St} {op : Op} (g : Good st) (k : Kind st op st') (ht : op.target = none) :
    (∀ n, st.obs n <+: st'.obs n) ∧ ∀ r, st.slots r <+: st'.slots r := by
  cases k with
  | misc hm hc hu h1 h2 h3 h4 h5 h6 =>
    obtain ⟨e1, e2, _, _⟩ := misc_effect g.inv hm hu
    constructor
    · intro n
      obtain ⟨a, ha⟩ := e1 n
      rw [ht] at ha
      exact ⟨a, ha.symm⟩
    · intro r
      refine e2 r fun h => ?_
      rw [Op.target_of_drops h] at ht; cases ht
  | retBind r c fs hc hs ha =>
    have hi : Inv ({ st with stack := fs } : St) := g.inv.same ⟨rfl, rfl, rfl, rfl, rfl, rfl⟩ (Nat.le_refl _)
    obtain ⟨e1, e2, e3, e4, _⟩ := watch_eq hi (r := r) (c := c)
    constructor
    · intro n
      rw [e4]
      show st.obs n <+: if _ then st.obs n ++ [r] else st.obs n
      split
      · exact List.prefix_append _ _
      · exact List.prefix_refl _
    · intro q
      rw [e1]
      show st.slots q <+: upd st.slots r (st.slots r ++ [c]) q
      by_cases hq : q = r
      · subst hq; simp
      · simp [hq]
  | _ => exact ⟨fun _ => List.prefix_refl _, fun _ => List.prefix_refl _⟩

/-! ## The calls of a loop -/

/-- The reader and the callback, for calls of loop `f`. -/
def callOf (f : Nat) : Ev → Option (Nat × Nat)
  | .called f' _ r c _ => if f' = f then some (r, c) else none
  | _ => none

/-- The calls made by loop `f`: readers and callbacks. -/
def calls (f : Nat) (log : List Ev) : List (Nat × Nat) := log.filterMap (callOf f)

theorem calls_append (f : Nat) (a b : List Ev) : calls f (a ++ b) = calls f a ++ calls f b := by
  simp [calls]

theorem calls_misc {f : Nat} {d : List Ev} (h : ∀ e ∈ d, e.misc = true) : calls f d = [] := by
  simp only [calls, List.filterMap_eq_nil_iff]
  intro e he
  have := h e he
  cases e <;> simp_all [Ev.misc, callOf]

theorem done_misc {f : Nat} {d : List Ev} (h : ∀ e ∈ d, e.misc = true) : Ev.done f ∉ d := by
  intro hd; have := h _ hd; cases this

/-- Readers with those of their callbacks that were called. -/
def flat (D : List (Nat × List Nat)) : List (Nat × Nat) := D.flatMap fun p => p.2.map fun c => (p.1, c)

theorem flat_append (D E : List (Nat × List Nat)) : flat (D ++ E) = flat D ++ flat E := by simp [flat]

/-- At least the callbacks at the beginning, at most the callbacks now, from the first on. -/
def Seg (s0 st : St) (D : List (Nat × List Nat)) : Prop :=
  ∀ p ∈ D, s0.slots p.1 <+: p.2 ∧ p.2 <+: st.slots p.1

theorem Seg.mono {s0 st st' : St} {D : List (Nat × List Nat)} (h : Seg s0 st D)
    (hs : ∀ r, st.slots r <+: st'.slots r) : Seg s0 st' D :=
  fun p hp => ⟨(h p hp).1, (h p hp).2.trans (hs p.1)⟩

/-- How far loop `f` over the observers of `n` is. -/
inductive Prog (s0 : St) (f n : Nat) (base : List Frame) (st : St) : Prop where
  | enter (D : List (Nat × List Nat)) (r : Nat) (L : List Nat) : st.ctrl = .enter r →
      st.stack = .node f n r :: base → st.obs n = D.map Prod.fst ++ r :: L →
      calls f st.log = flat D → Seg s0 st D → Ev.done f ∉ st.log → Prog s0 f n base st
  | run (D : List (Nat × List Nat)) (r : Nat) (L : List Nat) (A : List Nat) (c : Nat) (B : List Nat)
      (pre : List Frame) :
      st.stack = pre ++ .slot f n r c false :: .node f n r :: base →
      st.obs n = D.map Prod.fst ++ r :: L → st.slots r = A ++ c :: B →
      calls f st.log = flat D ++ (A ++ [c]).map (fun c => (r, c)) → Seg s0 st D →
      Ev.done f ∉ st.log → Prog s0 f n base st
  | back (D : List (Nat × List Nat)) (r : Nat) (L K : List Nat) : st.ctrl = .back →
      st.stack = .node f n r :: base → st.obs n = D.map Prod.fst ++ r :: L →
      calls f st.log = flat (D ++ [(r, K)]) → Seg s0 st (D ++ [(r, K)]) → Ev.done f ∉ st.log →
      Prog s0 f n base st
  | done (D : List (Nat × List Nat)) : (∀ fr ∈ st.stack, fid fr ≠ some f) →
      s0.obs n <+: D.map Prod.fst → D.map Prod.fst <+: st.obs n →
      calls f st.log = flat D → Seg s0 st D → Prog s0 f n base st

/-- Of the proof: the invariant about a loop. -/
structure Loop (s0 : St) (f n : Nat) (base : List Frame) (st : St) : Prop where
  obs : s0.obs n <+: st.obs n
  slots : ∀ r, s0.slots r <+: st.slots r
  nf : f < st.nf
  prog : Prog s0 f n base st

theorem prefix_len {A B l : List Nat} (h1 : A <+: l) (h2 : B <+: l) (h : A.length ≤ B.length) : A <+: B :=
  List.prefix_of_prefix_length_le h1 h2 h

theorem kind_loop {s0 st st' : St} {op : Op} {f n : Nat} {base : List Frame} (g : Good st)
    (k : Kind st op st') (ht : op.target = none) (l : Loop s0 f n base st) : Loop s0 f n base st' := by
  obtain ⟨g1, g2⟩ := kind_grow g k ht
  have g' := kind_good g k
  have hnf : st.nf ≤ st'.nf := by
    cases k with
    | misc _ _ _ _ _ h => exact Nat.le_of_eq h.symm
    | retBind r c fs hc hs ha =>
      have hi : Inv ({ st with stack := fs } : St) :=
        g.inv.same ⟨rfl, rfl, rfl, rfl, rfl, rfl⟩ (Nat.le_refl _)
      obtain ⟨e1, e2, e3, e4, e5, e6, e7, e8, e9, e10, e11, e12, e13⟩ := watch_eq hi (r := r) (c := c)
      rw [e11]; exact Nat.le_refl _
    | nudge | notify0 | notify => exact Nat.le_succ _
    | _ => exact Nat.le_refl _
  refine ⟨l.obs.trans (g1 n), fun r => (l.slots r).trans (g2 r), Nat.lt_of_lt_of_le l.nf hnf, ?_⟩
  have hsh := g.shape
  -- the new list of observers
  have hobs : ∀ {D : List (Nat × List Nat)} {r : Nat} {L : List Nat}, st.obs n = D.map Prod.fst ++ r :: L →
      ∃ L', st'.obs n = D.map Prod.fst ++ r :: L' := by
    intro D r L h
    have := g1 n
    rw [h] at this
    exact prefix_split this
  have hslots : ∀ {r : Nat} {A : List Nat} {c : Nat} {B : List Nat}, st.slots r = A ++ c :: B →
      ∃ B', st'.slots r = A ++ c :: B' := by
    intro r A c B h
    have := g2 r
    rw [h] at this
    exact prefix_split this
  cases l.prog with
  | enter D r L hc hs ho hcalls hseg hd =>
    cases k with
    | enter f' n' q r' c l fs hc' hs' hl =>
      rw [hc] at hc'
      cases hc'
      rw [hs] at hs'
      cases hs'
      refine .run D r L [] c l [] ?_ ho hl ?_ hseg ?_
      · show .slot f n r c false :: st.stack = _
        rw [hs]; rfl
      · show calls f (st.log ++ [_]) = _
        rw [calls_append, hcalls]
        simp [calls, callOf]
      · simp [St.say, hd]
    | enter0 f' n' q r' fs hc' hs' hl =>
      rw [hc] at hc'
      cases hc'
      rw [hs] at hs'
      cases hs'
      refine .back D r L [] rfl hs ho ?_ ?_ hd
      · rw [flat_append]; simp [flat]; exact hcalls
      · intro p hp
        rcases List.mem_append.1 hp with hp | hp
        · exact hseg p hp
        · simp only [List.mem_singleton] at hp
          subst hp
          have := l.slots r
          rw [hl] at this
          exact ⟨this, List.nil_prefix⟩
    | _ => simp_all
  | back D r L K hc hs ho hcalls hseg hd =>
    cases k with
    | nodeNext f' n' r' m r'' fs hc' hs' hl hn =>
      rw [hs] at hs'
      cases hs'
      have hm : st.linked r = some n := (g.inv.link r n).2 (by rw [ho]; simp)
      rw [hm] at hl
      cases hl
      rw [ho] at hn
      have hnd := g.inv.nodup n
      rw [ho] at hnd
      rw [next_append hnd] at hn
      cases L with
      | nil => cases hn
      | cons x L =>
        simp only [List.head?_cons, Option.some.injEq] at hn
        subst hn
        refine .enter (D ++ [(r, K)]) x L rfl rfl ?_ ?_ hseg ?_
        · show st.obs n = _
          rw [ho]; simp
        · show calls f (st.log ++ [_]) = _
          rw [calls_append, hcalls]
          simp [calls, callOf]
        · simp [St.say, hd]
    | nodeEnd f' n' r' fs hc' hs' hl hn =>
      rw [hs] at hs'
      cases hs'
      rw [ho] at hn
      have hnd := g.inv.nodup n
      rw [ho] at hnd
      rw [next_append hnd] at hn
      have hL : L = [] := by cases L with
        | nil => rfl
        | cons x L => cases hn
      subst hL
      refine .done (D ++ [(r, K)]) ?_ ?_ ?_ ?_ hseg
      · intro fr hfr hf
        rw [hc, hs] at hsh
        rcases hsh with ⟨_, _, _, _, _, _, _, h⟩ | ⟨_, _, _, _, h, _, hb⟩
        · cases h
        · cases h
          exact Nat.lt_irrefl _ (base_lt hb fr hfr _ hf)
      · have := l.obs
        rw [ho] at this
        simpa using this
      · show _ <+: st.obs n
        rw [ho]; simp
      · show calls f (st.log ++ [_]) = _
        rw [calls_append, hcalls]
        simp [calls, callOf]
    | nodeUb f' n' r' fs hc' hs' hl =>
      rw [hs] at hs'
      cases hs'
      have hm : st.linked r = some n := (g.inv.link r n).2 (by rw [ho]; simp)
      rcases hl with h | ⟨m, h, h'⟩
      · rw [hm] at h; cases h
      · rw [hm] at h'; cases h'; exact absurd rfl h
    | _ => simp_all
  | done D hne h1 h2 hcalls hseg =>
    have hseg' := hseg.mono g2
    have h2' := h2.trans (g1 n)
    have hf := l.nf
    -- events of other loops
    have hev : ∀ {f' : Nat} {m r c v : Nat}, f' ≠ f → calls f (st.log ++ [.called f' m r c v]) = flat D := by
      intro f' m r c v h
      rw [calls_append, hcalls]
      simp [calls, callOf, h]
    cases k with
    | misc hm hc hu k1 k2 k3 k4 k5 k6 =>
      refine .done D (by rw [k1]; exact hne) h1 h2' ?_ hseg'
      rw [k4, calls_append, calls_misc k5, hcalls]; simp
    | null => exact .done D hne h1 h2' hcalls hseg'
    | bind r m hc ha hn =>
      refine .done D ?_ h1 h2' ?_ hseg'
      · intro fr hfr
        rcases List.mem_cons.1 hfr with rfl | hfr
        · simp [fid]
        · exact hne fr hfr
      · show calls f (st.log ++ [_]) = _
        rw [calls_append, hcalls]
        simp [calls, callOf]
    | nudge0 => exact .done D hne h1 h2' hcalls hseg'
    | nudge r m c l hc ha hn hs =>
      refine .done D ?_ h1 h2' ?_ hseg'
      · intro fr hfr
        rcases List.mem_cons.1 hfr with rfl | hfr
        · simp [fid]; omega
        · exact hne fr hfr
      · exact hev (by omega)
    | notify0 m hc hs =>
      refine .done D hne h1 h2' ?_ hseg'
      show calls f ((st.log ++ [_]) ++ [_]) = _
      rw [calls_append, calls_append, hcalls]
      simp [calls, callOf]
    | notify m r l hc hs =>
      refine .done D ?_ h1 h2' ?_ hseg'
      · intro fr hfr
        rcases List.mem_cons.1 hfr with rfl | hfr
        · simp [fid]; omega
        · exact hne fr hfr
      · show calls f ((st.log ++ [_]) ++ [_]) = _
        rw [calls_append, calls_append, hcalls]
        simp [calls, callOf]
    | retSlot => exact .done D hne h1 h2' hcalls hseg'
    | retBind r c fs hc hs ha =>
      have hi : Inv ({ st with stack := fs } : St) :=
        g.inv.same ⟨rfl, rfl, rfl, rfl, rfl, rfl⟩ (Nat.le_refl _)
      obtain ⟨e1, e2, e3, e4, e5, e6, e7, e8, e9, e10, e11, e12, e13⟩ := watch_eq hi (r := r) (c := c)
      refine .done D ?_ h1 h2' ?_ hseg'
      · rw [e9]; intro fr hfr; exact hne fr (by rw [hs]; exact List.mem_cons_of_mem _ hfr)
      · rw [e12]; exact hcalls
    | retDead r c fs hc hs ha =>
      refine .done D ?_ h1 h2' hcalls hseg'
      intro fr hfr; exact hne fr (by rw [hs]; exact List.mem_cons_of_mem _ hfr)
    | enter0 => exact .done D hne h1 h2' hcalls hseg'
    | enter f' m q r c l fs hc hs hl =>
      have hf' : f' ≠ f := by
        intro e; exact hne (.node f' m q) (by rw [hs]; simp) (by rw [e]; rfl)
      refine .done D ?_ h1 h2' (hev hf') hseg'
      intro fr hfr
      rcases List.mem_cons.1 hfr with rfl | hfr
      · simpa [fid] using hf'
      · exact hne fr hfr
    | slotNext f' m r c c' b fs hc hs hm hn =>
      have hf' : f' ≠ f := by
        intro e; exact hne (.slot f' m r c b) (by rw [hs]; simp) (by rw [e]; rfl)
      refine .done D ?_ h1 h2' (hev hf') hseg'
      intro fr hfr
      rcases List.mem_cons.1 hfr with rfl | hfr
      · simpa [fid] using hf'
      · exact hne fr (by rw [hs]; exact List.mem_cons_of_mem _ hfr)
    | nudgeEnd f' m r c fs hc hs hm hn =>
      refine .done D ?_ h1 h2' ?_ hseg'
      · intro fr hfr; exact hne fr (by rw [hs]; exact List.mem_cons_of_mem _ hfr)
      · show calls f (st.log ++ [_]) = _
        rw [calls_append, hcalls]
        simp [calls, callOf]
    | slotEnd f' m r c fs hc hs hm hn =>
      refine .done D ?_ h1 h2' hcalls hseg'
      intro fr hfr; exact hne fr (by rw [hs]; exact List.mem_cons_of_mem _ hfr)
    | slotUb => exact .done D hne h1 h2' hcalls hseg'
    | nodeNext f' m r m' r' fs hc hs hl hn =>
      have hf' : f' ≠ f := by
        intro e; exact hne (.node f' m r) (by rw [hs]; simp) (by rw [e]; rfl)
      refine .done D ?_ h1 h2' ?_ hseg'
      · intro fr hfr
        rcases List.mem_cons.1 hfr with rfl | hfr
        · simpa [fid] using hf'
        · exact hne fr (by rw [hs]; exact List.mem_cons_of_mem _ hfr)
      · show calls f (st.log ++ [_]) = _
        rw [calls_append, hcalls]
        simp [calls, callOf]
    | nodeEnd f' m r fs hc hs hl hn =>
      refine .done D ?_ h1 h2' ?_ hseg'
      · intro fr hfr; exact hne fr (by rw [hs]; exact List.mem_cons_of_mem _ hfr)
      · show calls f (st.log ++ [_]) = _
        rw [calls_append, hcalls]
        simp [calls, callOf]
    | nodeUb => exact .done D hne h1 h2' hcalls hseg'
  | run D r L A c B pre hs ho hsl hcalls hseg hd =>
    have hseg' := hseg.mono g2
    obtain ⟨L', ho'⟩ := hobs ho
    obtain ⟨B', hsl'⟩ := hslots hsl
    have hsh' := hsh
    rw [hs] at hsh'
    have hab := above hsh'
    have hf := l.nf
    have hev : ∀ {f' : Nat} {m r' c' v : Nat}, f' ≠ f →
        calls f (st.log ++ [.called f' m r' c' v]) = flat D ++ (A ++ [c]).map (fun c => (r, c)) := by
      intro f' m r' c' v h
      rw [calls_append, hcalls]
      simp [calls, callOf, h]
    have go : ∀ pre' : List Frame, st'.stack = pre' ++ .slot f n r c false :: .node f n r :: base →
        calls f st'.log = flat D ++ (A ++ [c]).map (fun c => (r, c)) → Ev.done f ∉ st'.log →
        Prog s0 f n base st' := fun pre' e1 e2 e3 => .run D r L' A c B' pre' e1 ho' hsl' e2 hseg' e3
    cases k with
    | misc hm hc hu k1 k2 k3 k4 k5 k6 =>
      refine go pre (by rw [k1]; exact hs) ?_ ?_
      · rw [k4, calls_append, calls_misc k5, hcalls]; simp
      · rw [k4]; simp [hd, done_misc k5]
    | null => exact go pre hs hcalls hd
    | bind q m hc ha hn =>
      refine go (.bind q st.nc :: pre) ?_ ?_ ?_
      · show _ :: st.stack = _
        rw [hs]; rfl
      · show calls f (st.log ++ [_]) = _
        rw [calls_append, hcalls]
        simp [calls, callOf]
      · simp [St.say, hd]
    | nudge0 => exact go pre hs hcalls hd
    | nudge q m c' l hc ha hn hs' =>
      refine go (.slot st.nf m q c' true :: pre) ?_ ?_ ?_
      · show _ :: st.stack = _
        rw [hs]; rfl
      · exact hev (by omega)
      · simp [St.say, hd]
    | notify0 m hc hs' =>
      refine go pre hs ?_ ?_
      · show calls f ((st.log ++ [_]) ++ [_]) = _
        rw [calls_append, calls_append, hcalls]
        simp [calls, callOf]
      · simp [St.say, hd]; omega
    | notify m q l hc hs' =>
      refine go (.node st.nf m q :: pre) ?_ ?_ ?_
      · show _ :: st.stack = _
        rw [hs]; rfl
      · show calls f ((st.log ++ [_]) ++ [_]) = _
        rw [calls_append, calls_append, hcalls]
        simp [calls, callOf]
      · simp [St.say, hd]
    | retSlot => exact go pre hs hcalls hd
    | retBind q c' fs hc hs' ha =>
      have hi : Inv ({ st with stack := fs } : St) :=
        g.inv.same ⟨rfl, rfl, rfl, rfl, rfl, rfl⟩ (Nat.le_refl _)
      obtain ⟨e1, e2, e3, e4, e5, e6, e7, e8, e9, e10, e11, e12, e13⟩ := watch_eq hi (r := q) (c := c')
      rw [hs] at hs'
      cases pre with
      | nil => cases hs'
      | cons x pre =>
        cases hs'
        refine go pre ?_ ?_ ?_
        · rw [e9]; rfl
        · rw [e12]; exact hcalls
        · rw [e12]; exact hd
    | retDead q c' fs hc hs' ha =>
      rw [hs] at hs'
      cases pre with
      | nil => cases hs'
      | cons x pre =>
        cases hs'
        exact go pre rfl hcalls hd
    | enter0 => exact go pre hs hcalls hd
    | enter f' m q q' c' l fs hc hs' hl =>
      rw [hs] at hs'
      cases pre with
      | nil => cases hs'
      | cons x pre =>
        cases hs'
        refine go (.slot f' m q' c' false :: .node f' m q :: pre) ?_ ?_ ?_
        · show _ :: st.stack = _
          rw [hs]; rfl
        · refine hev ?_
          have := hab (.node f' m q) (by simp)
          simpa [fid] using this
        · simp [St.say, hd]
    | slotNext f' m q d d' b fs hc hs' hm hn =>
      rw [hs] at hs'
      cases pre with
      | nil =>
        cases hs'
        have hnd := g.inv.once r
        rw [hsl] at hn hnd
        rw [next_append hnd] at hn
        cases B with
        | nil => cases hn
        | cons x B =>
          simp only [List.head?_cons, Option.some.injEq] at hn
          subst hn
          refine .run D r L (A ++ [c]) x B [] rfl ho ?_ ?_ hseg ?_
          · show st.slots r = _
            rw [hsl]; simp
          · show calls f (st.log ++ [_]) = _
            rw [calls_append, hcalls]
            simp [calls, callOf]
          · simp [St.say, hd]
      | cons x pre =>
        cases hs'
        refine go (.slot f' m q d' b :: pre) rfl ?_ ?_
        · refine hev ?_
          have := hab (.slot f' m q d b) (by simp)
          simpa [fid] using this
        · simp [St.say, hd]
    | nudgeEnd f' m q d fs hc hs' hm hn =>
      rw [hs] at hs'
      cases pre with
      | nil => cases hs'
      | cons x pre =>
        cases hs'
        refine go pre rfl ?_ ?_
        · show calls f (st.log ++ [_]) = _
          rw [calls_append, hcalls]
          simp [calls, callOf]
        · have := hab (.slot f' m q d true) (by simp)
          simp [fid] at this
          simp [St.say, hd]
          intro e; exact this e.symm
    | slotEnd f' m q d fs hc hs' hm hn =>
      rw [hs] at hs'
      cases pre with
      | nil =>
        cases hs'
        have hnd := g.inv.once r
        rw [hsl] at hn hnd
        rw [next_append hnd] at hn
        have hB : B = [] := by cases B with
          | nil => rfl
          | cons x B => cases hn
        subst hB
        refine .back D r L (A ++ [c]) hc rfl ho ?_ ?_ hd
        · show calls f st.log = _
          rw [hcalls, flat_append]; simp [flat]
        · intro p hp
          rcases List.mem_append.1 hp with hp | hp
          · exact hseg p hp
          · simp only [List.mem_singleton] at hp
            subst hp
            have := l.slots r
            rw [hsl] at this
            refine ⟨this, ?_⟩
            show _ <+: st.slots r
            rw [hsl]
            exact List.prefix_refl _
      | cons x pre =>
        cases hs'
        exact go pre rfl hcalls hd
    | slotUb f' m q d b fs hc hs' hm => exact go pre hs hcalls hd
    | nodeNext f' m q m' q' fs hc hs' hl hn =>
      rw [hs] at hs'
      cases pre with
      | nil => cases hs'
      | cons x pre =>
        cases hs'
        refine go (.node f' m q' :: pre) rfl ?_ ?_
        · show calls f (st.log ++ [_]) = _
          rw [calls_append, hcalls]
          simp [calls, callOf]
        · simp [St.say, hd]
    | nodeEnd f' m q fs hc hs' hl hn =>
      rw [hs] at hs'
      cases pre with
      | nil => cases hs'
      | cons x pre =>
        cases hs'
        refine go pre rfl ?_ ?_
        · show calls f (st.log ++ [_]) = _
          rw [calls_append, hcalls]
          simp [calls, callOf]
        · have := hab (.node f' m q) (by simp)
          simp [fid] at this
          simp [St.say, hd]
          intro e; exact this e.symm
    | nodeUb f' m q fs hc hs' hl => exact go pre hs hcalls hd

theorem run_loop {s0 st st' : St} {ops : List Op} {f n : Nat} {base : List Frame} (g : Good st)
    (h : Run st ops st') (ht : ∀ op ∈ ops, op.target = none) (l : Loop s0 f n base st) :
    Loop s0 f n base st' := by
  induction h with
  | nil => exact l
  | cons h _ ih =>
    have k := (step_kind h).2
    exact ih (kind_good g k) (fun op ho => ht op (List.mem_cons_of_mem _ ho))
      (kind_loop g k (ht _ (by simp)) l)

end Verif.Watch
