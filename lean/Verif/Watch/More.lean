import Verif.Watch.Todo

/-!
Loops made by `nudge`, callbacks that are gone, and the source that a reader is linked to.
-/

namespace Verif.Watch

theorem kind_nf {st st' : St} {op : Op} (g : Good st) (k : Kind st op st') : st.nf ≤ st'.nf := by
  cases k with
  | misc _ _ _ _ _ h => exact Nat.le_of_eq h.symm
  | retBind r c fs hc hs ha =>
    have hi : Inv ({ st with stack := fs } : St) :=
      g.inv.same ⟨rfl, rfl, rfl, rfl, rfl, rfl⟩ (Nat.le_refl _)
    obtain ⟨e1, e2, e3, e4, e5, e6, e7, e8, e9, e10, e11, e12, e13⟩ := watch_eq hi (r := r) (c := c)
    rw [e11]; exact Nat.le_refl _
  | nudge | notify0 | notify => exact Nat.le_succ _
  | _ => exact Nat.le_refl _

theorem kind_nudge_nf {st st' : St} {r : Nat} (k : Kind st (.nudge r) st') {d : List Ev}
    (hl : st'.log = st.log ++ d) {e : Ev} (he : e ∈ d) : st'.nf = st.nf + 1 := by
  have none : ∀ {a : List Ev}, st'.log = st.log ++ a → e ∈ a := by
    intro a ha
    rw [hl] at ha
    rw [← List.append_cancel_left ha]; exact he
  cases k with
  | misc hm => cases hm
  | null | nudge0 =>
    have := none (a := []) (by simp)
    cases this
  | nudge => rfl

theorem Reach.called_lt {st : St} (h : Reach st) :
    ∀ f n r c v, Ev.called f n r c v ∈ st.log → f < st.nf := by
  induction h with
  | start => simp [Watch.start]
  | @step st st' op hr h ih =>
    intro f n r c v hc
    have g := hr.good
    have k := (step_kind h).2
    obtain ⟨d, hd⟩ := kind_log g k
    rw [hd] at hc
    rcases List.mem_append.1 hc with hc | hc
    · exact Nat.lt_of_lt_of_le (ih f n r c v hc) (kind_nf g k)
    · have hcase := (kind_called g k hd hc).2.2
      rcases hcase with ⟨ho, _, hf⟩ | ⟨c0, b, fs, hs, _⟩ | ⟨fs, hs, _⟩
      · subst ho
        rw [kind_nudge_nf k hd hc]; omega
      · exact Nat.lt_of_lt_of_le (shape_lt g.shape (.slot f n r c0 b) (by rw [hs]; simp) f rfl) (kind_nf g k)
      · exact Nat.lt_of_lt_of_le (shape_lt g.shape (.node f n r) (by rw [hs]; simp) f rfl) (kind_nf g k)

theorem calls_old {st : St} (h : Reach st) : calls st.nf st.log = [] := by
  simp only [calls, List.filterMap_eq_nil_iff]
  intro e he
  cases e <;> simp only [callOf]
  rename_i f n r c v
  rw [if_neg]
  have := h.called_lt f n r c v he
  omega

/-! ## The loop of `nudge` -/

/-- Of the proof: how far a loop has got. -/
inductive NProg (s0 : St) (f n r : Nat) (st : St) : Prop where
  | run (A : List Nat) (c : Nat) (B : List Nat) (pre post : List Frame) :
      st.stack = pre ++ .slot f n r c true :: post → st.slots r = A ++ c :: B →
      calls f st.log = (A ++ [c]).map (fun c => (r, c)) → Ev.done f ∉ st.log → NProg s0 f n r st
  | done (K : List Nat) : (∀ fr ∈ st.stack, fid fr ≠ some f) → s0.slots r <+: K → K <+: st.slots r →
      calls f st.log = K.map (fun c => (r, c)) → NProg s0 f n r st

/-- Of the proof: the invariant about a loop. -/
structure NLoop (s0 : St) (f n r : Nat) (st : St) : Prop where
  slots : s0.slots r <+: st.slots r
  nf : f < st.nf
  prog : NProg s0 f n r st

theorem kind_nloop {s0 st st' : St} {op : Op} {f n r : Nat} (g : Good st)
    (k : Kind st op st') (ht : op.target = none) (l : NLoop s0 f n r st) : NLoop s0 f n r st' := by
  obtain ⟨_, g2⟩ := kind_grow g k ht
  refine ⟨l.slots.trans (g2 r), Nat.lt_of_lt_of_le l.nf (kind_nf g k), ?_⟩
  have hf := l.nf
  have hsh := g.shape
  cases l.prog with
  | done K hne h1 h2 hcalls =>
    have h2' := h2.trans (g2 r)
    have hev : ∀ {f' : Nat} {m r' c v : Nat}, f' ≠ f →
        calls f (st.log ++ [.called f' m r' c v]) = K.map (fun c => (r, c)) := by
      intro f' m r' c v h
      rw [calls_append, hcalls]
      simp [calls, callOf, h]
    cases k with
    | misc hm hc hu k1 k2 k3 k4 k5 k6 =>
      refine .done K (by rw [k1]; exact hne) h1 h2' ?_
      rw [k4, calls_append, calls_misc k5, hcalls]; simp
    | null => exact .done K hne h1 h2' hcalls
    | bind q m hc ha hn =>
      refine .done K ?_ h1 h2' ?_
      · intro fr hfr
        rcases List.mem_cons.1 hfr with rfl | hfr
        · simp [fid]
        · exact hne fr hfr
      · show calls f (st.log ++ [_]) = _
        rw [calls_append, hcalls]
        simp [calls, callOf]
    | nudge0 => exact .done K hne h1 h2' hcalls
    | nudge q m c l hc ha hn hs =>
      refine .done K ?_ h1 h2' ?_
      · intro fr hfr
        rcases List.mem_cons.1 hfr with rfl | hfr
        · simp [fid]; omega
        · exact hne fr hfr
      · exact hev (by omega)
    | notify0 m hc hs =>
      refine .done K hne h1 h2' ?_
      show calls f ((st.log ++ [_]) ++ [_]) = _
      rw [calls_append, calls_append, hcalls]
      simp [calls, callOf]
    | notify m q l hc hs =>
      refine .done K ?_ h1 h2' ?_
      · intro fr hfr
        rcases List.mem_cons.1 hfr with rfl | hfr
        · simp [fid]; omega
        · exact hne fr hfr
      · show calls f ((st.log ++ [_]) ++ [_]) = _
        rw [calls_append, calls_append, hcalls]
        simp [calls, callOf]
    | retSlot => exact .done K hne h1 h2' hcalls
    | retBind q c fs hc hs ha =>
      have hi : Inv ({ st with stack := fs } : St) :=
        g.inv.same ⟨rfl, rfl, rfl, rfl, rfl, rfl⟩ (Nat.le_refl _)
      obtain ⟨e1, e2, e3, e4, e5, e6, e7, e8, e9, e10, e11, e12, e13⟩ := watch_eq hi (r := q) (c := c)
      refine .done K ?_ h1 h2' ?_
      · rw [e9]; intro fr hfr; exact hne fr (by rw [hs]; exact List.mem_cons_of_mem _ hfr)
      · rw [e12]; exact hcalls
    | retDead q c fs hc hs ha =>
      refine .done K ?_ h1 h2' hcalls
      intro fr hfr; exact hne fr (by rw [hs]; exact List.mem_cons_of_mem _ hfr)
    | enter0 => exact .done K hne h1 h2' hcalls
    | enter f' m q q' c l fs hc hs hl =>
      have hf' : f' ≠ f := by
        intro e; exact hne (.node f' m q) (by rw [hs]; simp) (by rw [e]; rfl)
      refine .done K ?_ h1 h2' (hev hf')
      intro fr hfr
      rcases List.mem_cons.1 hfr with rfl | hfr
      · simpa [fid] using hf'
      · exact hne fr hfr
    | slotNext f' m q c c' b fs hc hs hm hn =>
      have hf' : f' ≠ f := by
        intro e; exact hne (.slot f' m q c b) (by rw [hs]; simp) (by rw [e]; rfl)
      refine .done K ?_ h1 h2' (hev hf')
      intro fr hfr
      rcases List.mem_cons.1 hfr with rfl | hfr
      · simpa [fid] using hf'
      · exact hne fr (by rw [hs]; exact List.mem_cons_of_mem _ hfr)
    | nudgeEnd f' m q c fs hc hs hm hn =>
      refine .done K ?_ h1 h2' ?_
      · intro fr hfr; exact hne fr (by rw [hs]; exact List.mem_cons_of_mem _ hfr)
      · show calls f (st.log ++ [_]) = _
        rw [calls_append, hcalls]
        simp [calls, callOf]
    | slotEnd f' m q c fs hc hs hm hn =>
      refine .done K ?_ h1 h2' hcalls
      intro fr hfr; exact hne fr (by rw [hs]; exact List.mem_cons_of_mem _ hfr)
    | slotUb => exact .done K hne h1 h2' hcalls
    | nodeNext f' m q m' q' fs hc hs hl hn =>
      have hf' : f' ≠ f := by
        intro e; exact hne (.node f' m q) (by rw [hs]; simp) (by rw [e]; rfl)
      refine .done K ?_ h1 h2' ?_
      · intro fr hfr
        rcases List.mem_cons.1 hfr with rfl | hfr
        · simpa [fid] using hf'
        · exact hne fr (by rw [hs]; exact List.mem_cons_of_mem _ hfr)
      · show calls f (st.log ++ [_]) = _
        rw [calls_append, hcalls]
        simp [calls, callOf]
    | nodeEnd f' m q fs hc hs hl hn =>
      refine .done K ?_ h1 h2' ?_
      · intro fr hfr; exact hne fr (by rw [hs]; exact List.mem_cons_of_mem _ hfr)
      · show calls f (st.log ++ [_]) = _
        rw [calls_append, hcalls]
        simp [calls, callOf]
    | nodeUb => exact .done K hne h1 h2' hcalls
  | run A c B pre post hs hsl hcalls hd =>
    obtain ⟨B', hsl'⟩ : ∃ B', st'.slots r = A ++ c :: B' := by
      have := g2 r
      rw [hsl] at this
      exact prefix_split this
    have hsh' := hsh
    rw [hs] at hsh'
    have hab := above hsh'
    have hev : ∀ {f' : Nat} {m r' c' v : Nat}, f' ≠ f →
        calls f (st.log ++ [.called f' m r' c' v]) = (A ++ [c]).map (fun c => (r, c)) := by
      intro f' m r' c' v h
      rw [calls_append, hcalls]
      simp [calls, callOf, h]
    have go : ∀ pre' : List Frame, st'.stack = pre' ++ .slot f n r c true :: post →
        calls f st'.log = (A ++ [c]).map (fun c => (r, c)) → Ev.done f ∉ st'.log →
        NProg s0 f n r st' := fun pre' e1 e2 e3 => .run A c B' pre' post e1 hsl' e2 e3
    cases k with
    | misc hm hc hu k1 k2 k3 k4 k5 k6 =>
      refine go pre (by rw [k1]; exact hs) ?_ ?_
      · rw [k4, calls_append, calls_misc k5, hcalls]; simp
      · rw [k4]; simp [hd, done_misc k5]
    | null => exact go pre hs hcalls hd
    | bind q m hc ha hn =>
      refine go (.bind q st.nc :: pre) ?_ ?_ ?_
      · show _ :: st.stack = _
        rw [hs]; rfl
      · show calls f (st.log ++ [_]) = _
        rw [calls_append, hcalls]
        simp [calls, callOf]
      · simp [St.say, hd]
    | nudge0 => exact go pre hs hcalls hd
    | nudge q m c' l hc ha hn hs' =>
      refine go (.slot st.nf m q c' true :: pre) ?_ ?_ ?_
      · show _ :: st.stack = _
        rw [hs]; rfl
      · exact hev (by omega)
      · simp [St.say, hd]
    | notify0 m hc hs' =>
      refine go pre hs ?_ ?_
      · show calls f ((st.log ++ [_]) ++ [_]) = _
        rw [calls_append, calls_append, hcalls]
        simp [calls, callOf]
      · simp [St.say, hd]; omega
    | notify m q l hc hs' =>
      refine go (.node st.nf m q :: pre) ?_ ?_ ?_
      · show _ :: st.stack = _
        rw [hs]; rfl
      · show calls f ((st.log ++ [_]) ++ [_]) = _
        rw [calls_append, calls_append, hcalls]
        simp [calls, callOf]
      · simp [St.say, hd]
    | retSlot => exact go pre hs hcalls hd
    | retBind q c' fs hc hs' ha =>
      have hi : Inv ({ st with stack := fs } : St) :=
        g.inv.same ⟨rfl, rfl, rfl, rfl, rfl, rfl⟩ (Nat.le_refl _)
      obtain ⟨e1, e2, e3, e4, e5, e6, e7, e8, e9, e10, e11, e12, e13⟩ := watch_eq hi (r := q) (c := c')
      rw [hs] at hs'
      cases pre with
      | nil => cases hs'
      | cons x pre =>
        cases hs'
        refine go pre ?_ ?_ ?_
        · rw [e9]; rfl
        · rw [e12]; exact hcalls
        · rw [e12]; exact hd
    | retDead q c' fs hc hs' ha =>
      rw [hs] at hs'
      cases pre with
      | nil => cases hs'
      | cons x pre =>
        cases hs'
        exact go pre rfl hcalls hd
    | enter0 => exact go pre hs hcalls hd
    | enter f' m q q' c' l fs hc hs' hl =>
      rw [hs] at hs'
      cases pre with
      | nil => cases hs'
      | cons x pre =>
        cases hs'
        refine go (.slot f' m q' c' false :: .node f' m q :: pre) ?_ ?_ ?_
        · show _ :: st.stack = _
          rw [hs]; rfl
        · refine hev ?_
          have := hab (.node f' m q) (by simp)
          simpa [fid] using this
        · simp [St.say, hd]
    | slotNext f' m q d d' b fs hc hs' hm hn =>
      rw [hs] at hs'
      cases pre with
      | nil =>
        cases hs'
        have hnd := g.inv.once r
        rw [hsl] at hn hnd
        rw [next_append hnd] at hn
        cases B with
        | nil => cases hn
        | cons x B =>
          simp only [List.head?_cons, Option.some.injEq] at hn
          subst hn
          refine .run (A ++ [c]) x B [] _ rfl ?_ ?_ ?_
          · show st.slots r = _
            rw [hsl]; simp
          · show calls f (st.log ++ [_]) = _
            rw [calls_append, hcalls]
            simp [calls, callOf]
          · simp [St.say, hd]
      | cons x pre =>
        cases hs'
        refine go (.slot f' m q d' b :: pre) rfl ?_ ?_
        · refine hev ?_
          have := hab (.slot f' m q d b) (by simp)
          simpa [fid] using this
        · simp [St.say, hd]
    | nudgeEnd f' m q d fs hc hs' hm hn =>
      rw [hs] at hs'
      cases pre with
      | nil =>
        cases hs'
        have hnd := g.inv.once r
        rw [hsl] at hn hnd
        rw [next_append hnd] at hn
        have hB : B = [] := by cases B with
          | nil => rfl
          | cons x B => cases hn
        subst hB
        refine .done (A ++ [c]) ?_ ?_ ?_ ?_
        · intro fr hfr hf
          rw [hc, hs] at hsh
          rcases hsh with ⟨hb, _⟩ | ⟨_, _, _, _, h, _⟩
          · cases hb with
            | nudge _ _ _ _ hb => exact Nat.lt_irrefl _ (base_lt hb fr hfr _ hf)
          · cases h
        · have := l.slots
          rw [hsl] at this
          exact this
        · show _ <+: st.slots r
          rw [hsl]
          exact List.prefix_refl _
        · show calls f (st.log ++ [_]) = _
          rw [calls_append, hcalls]
          simp [calls, callOf]
      | cons x pre =>
        cases hs'
        refine go pre rfl ?_ ?_
        · show calls f (st.log ++ [_]) = _
          rw [calls_append, hcalls]
          simp [calls, callOf]
        · have := hab (.slot f' m q d true) (by simp)
          simp [fid] at this
          simp [St.say, hd]
          intro e; exact this e.symm
    | slotEnd f' m q d fs hc hs' hm hn =>
      rw [hs] at hs'
      cases pre with
      | nil => cases hs'
      | cons x pre =>
        cases hs'
        exact go pre rfl hcalls hd
    | slotUb f' m q d b fs hc hs' hm => exact go pre hs hcalls hd
    | nodeNext f' m q m' q' fs hc hs' hl hn =>
      rw [hs] at hs'
      cases pre with
      | nil => cases hs'
      | cons x pre =>
        cases hs'
        refine go (.node f' m q' :: pre) rfl ?_ ?_
        · show calls f (st.log ++ [_]) = _
          rw [calls_append, hcalls]
          simp [calls, callOf]
        · simp [St.say, hd]
    | nodeEnd f' m q fs hc hs' hl hn =>
      rw [hs] at hs'
      cases pre with
      | nil => cases hs'
      | cons x pre =>
        cases hs'
        refine go pre rfl ?_ ?_
        · show calls f (st.log ++ [_]) = _
          rw [calls_append, hcalls]
          simp [calls, callOf]
        · have := hab (.node f' m q) (by simp)
          simp [fid] at this
          simp [St.say, hd]
          intro e; exact this e.symm
    | nodeUb f' m q fs hc hs' hl => exact go pre hs hcalls hd

theorem run_nloop {s0 st st' : St} {ops : List Op} {f n r : Nat} (g : Good st)
    (h : Run st ops st') (ht : ∀ op ∈ ops, op.target = none) (l : NLoop s0 f n r st) :
    NLoop s0 f n r st' := by
  induction h with
  | nil => exact l
  | cons h _ ih =>
    have k := (step_kind h).2
    exact ih (kind_good g k) (fun op ho => ht op (List.mem_cons_of_mem _ ho))
      (kind_nloop g k (ht _ (by simp)) l)

/-! ## Callbacks that are gone -/

/-- The callback is attached nowhere and never will be. -/
def Gone (st : St) (c : Nat) : Prop :=
  c < st.nc ∧ (∀ q, c ∉ st.slots q) ∧ c ∉ st.stack.filterMap bindOf

theorem kind_gone {st st' : St} {op : Op} (g : Good st) (k : Kind st op st') {c : Nat} (h : Gone st c) :
    Gone st' c := by
  obtain ⟨h1, h2, h3⟩ := h
  cases k with
  | misc hm hc hu k1 k2 k3 k4 k5 k6 =>
    obtain ⟨_, _, e⟩ := misc_slots g.inv hm hu
    refine ⟨by omega, fun q hq => ?_, by rw [k1]; exact h3⟩
    rcases e q c hq with h | h
    · exact h2 q h
    · omega
  | bind r n hc ha hn =>
    refine ⟨Nat.lt_succ_of_lt h1, h2, ?_⟩
    show c ∉ st.nc :: st.stack.filterMap bindOf
    simp only [List.mem_cons, not_or]
    exact ⟨by omega, h3⟩
  | null | nudge0 | nudge | notify0 | notify | retSlot | enter0 | enter | slotUb | nodeUb =>
    exact ⟨h1, h2, h3⟩
  | retBind r d fs hc hs ha =>
    have hi : Inv ({ st with stack := fs } : St) :=
      g.inv.same ⟨rfl, rfl, rfl, rfl, rfl, rfl⟩ (Nat.le_refl _)
    obtain ⟨e1, e2, e3, e4, e5, e6, e7, e8, e9, e10, e11, e12, e13⟩ := watch_eq hi (r := r) (c := d)
    rw [hs] at h3
    have h4 : c ∉ d :: fs.filterMap bindOf := h3
    simp only [List.mem_cons, not_or] at h4
    refine ⟨by rw [e8]; exact h1, fun q hq => ?_, by rw [e9]; exact h4.2⟩
    rw [e1] at hq
    have hq' : c ∈ upd st.slots r (st.slots r ++ [d]) q := hq
    by_cases h : q = r
    · rw [h, upd_same] at hq'
      simp [h4.1] at hq'; exact h2 r hq'
    · simp [h] at hq'; exact h2 q hq'
  | retDead r d fs hc hs ha =>
    rw [hs] at h3
    have h3 : c ∉ d :: fs.filterMap bindOf := h3
    simp only [List.mem_cons, not_or] at h3
    exact ⟨h1, h2, h3.2⟩
  | slotNext f n r d d' b fs hc hs =>
    rw [hs] at h3
    exact ⟨h1, h2, h3⟩
  | nudgeEnd f n r d fs hc hs =>
    rw [hs] at h3
    exact ⟨h1, h2, h3⟩
  | slotEnd f n r d fs hc hs =>
    rw [hs] at h3
    exact ⟨h1, h2, h3⟩
  | nodeNext f n r m r' fs hc hs =>
    rw [hs] at h3
    exact ⟨h1, h2, h3⟩
  | nodeEnd f n r fs hc hs =>
    rw [hs] at h3
    exact ⟨h1, h2, h3⟩

theorem run_gone {st st' : St} {ops : List Op} (g : Good st) (h : Run st ops st') {c : Nat} (hg : Gone st c)
    {d : List Ev} (hd : st'.log = st.log ++ d) : ∀ f n q v, Ev.called f n q c v ∉ d := by
  induction h generalizing d with
  | nil st =>
    have : d = [] := List.self_eq_append_right.1 hd
    subst this
    intro f n q v h; cases h
  | @cons st st1 st2 op ops h h' ih =>
    have k := (step_kind h).2
    obtain ⟨d1, hd1⟩ := kind_log g k
    have g1 := kind_good g k
    obtain ⟨d2, hd2⟩ := run_log g1 h'
    have : d = d1 ++ d2 := by
      rw [hd2, hd1, List.append_assoc] at hd
      exact (List.append_cancel_left hd).symm
    subst this
    intro f n q v hm
    rcases List.mem_append.1 hm with hm | hm
    · exact hg.2.1 q (kind_called g k hd1 hm).1
    · exact ih g1 (kind_gone g k hg) hd2 f n q v hm

/-! ## A reader without callbacks -/

/-- Nothing is attached to `q`, and nothing is about to be. -/
def Bare (st : St) (q : Nat) : Prop := st.slots q = [] ∧ ∀ c, Frame.bind q c ∉ st.stack

theorem kind_bare {st st' : St} {op : Op} (g : Good st) (k : Kind st op st') {q : Nat} (h : Bare st q)
    (hw : op ≠ .watch q) (hb : op ≠ .bind q) : Bare st' q := by
  obtain ⟨h1, h2⟩ := h
  cases k with
  | misc hm hc hu k1 k2 k3 k4 k5 k6 =>
    refine ⟨?_, by rw [k1]; exact h2⟩
    cases op <;> simp only [Op.misc, reduceCtorEq] at hm
    case mk n =>
      simp [St.user] at hu; subst hu
      show upd st.slots st.nr [] q = []
      by_cases hq : q = st.nr
      · subst hq; simp
      · simp [hq, h1]
    case copy r =>
      simp [St.user] at hu; obtain ⟨_, rfl⟩ := hu
      show upd st.slots st.nr [] q = []
      by_cases hq : q = st.nr
      · subst hq; simp
      · simp [hq, h1]
    case move r =>
      simp [St.user] at hu; obtain ⟨_, rfl⟩ := hu
      show upd st.slots st.nr [] q = []
      by_cases hq : q = st.nr
      · subst hq; simp
      · simp [hq, h1]
    case assign r r2 =>
      simp only [St.user] at hu
      split at hu
      · cases hu
        rw [(relink_stack _ _).2.2.2.2.2.1]
        show (st.unlink r).slots q = []
        rw [(unlink_stack _ _).2.2.2.2.2.2.1]; exact h1
      · cases hu
    case moveAssign r r2 =>
      simp only [St.user] at hu
      split at hu
      · cases hu
        rw [(relink_stack _ _).2.2.2.2.2.1]
        show (st.unlink r).slots q = []
        rw [(unlink_stack _ _).2.2.2.2.2.2.1]; exact h1
      · cases hu
    case destroy r =>
      have := misc_effect g.inv (op := .destroy r) rfl hu
      by_cases hq : q = r
      · subst hq; exact (this.2.2.2 q rfl).1
      · simp only [St.user] at hu
        split at hu
        · cases hu
          show ((_ : St).unlink r).slots q = []
          rw [(unlink_stack _ _).2.2.2.2.2.2.1]
          simp [hq, h1]
        · cases hu
    case watch r =>
      have hq : q ≠ r := by intro e; subst e; exact hw rfl
      simp only [St.user] at hu
      split at hu
      · cases hu
        show (st.watch r st.nc).slots q = []
        rw [(watch_eq g.inv).1]
        simp [hq, h1]
      · cases hu
    case unbind r =>
      have := misc_effect g.inv (op := .unbind r) rfl hu
      by_cases hq : q = r
      · subst hq; exact (this.2.2.2 q rfl).1
      · simp only [St.user] at hu
        split at hu
        · cases hu
          rw [(unlink_stack _ _).2.2.2.2.2.2.1]
          simp [hq, h1]
        · cases hu
    case get r =>
      simp only [St.user] at hu
      split at hu
      · split at hu <;>
        · cases hu
          exact h1
      · cases hu
    case set r v =>
      simp only [St.user] at hu
      split at hu
      · split at hu <;>
        · cases hu
          exact h1
      · cases hu
    case change n v =>
      simp only [St.user, Option.some.injEq] at hu
      subst hu
      exact h1
  | bind r n hc ha hn =>
    have hq : q ≠ r := by intro e; subst e; exact hb rfl
    refine ⟨h1, fun c hm => ?_⟩
    rcases List.mem_cons.1 hm with hm | hm
    · cases hm; exact hq rfl
    · exact h2 c hm
  | null | nudge0 | notify0 | retSlot | enter0 | slotUb | nodeUb => exact ⟨h1, h2⟩
  | nudge | notify | enter =>
    refine ⟨h1, fun c hm => ?_⟩
    rcases List.mem_cons.1 hm with hm | hm
    · cases hm
    · exact h2 c hm
  | retBind r d fs hc hs ha =>
    have hi : Inv ({ st with stack := fs } : St) :=
      g.inv.same ⟨rfl, rfl, rfl, rfl, rfl, rfl⟩ (Nat.le_refl _)
    obtain ⟨e1, e2, e3, e4, e5, e6, e7, e8, e9, e10, e11, e12, e13⟩ := watch_eq hi (r := r) (c := d)
    have hq : q ≠ r := by intro e; subst e; exact h2 d (by rw [hs]; simp)
    refine ⟨?_, ?_⟩
    · rw [e1]; simp [hq, h1]
    · rw [e9]; intro c hm; exact h2 c (by rw [hs]; exact List.mem_cons_of_mem _ hm)
  | retDead r d fs hc hs ha =>
    exact ⟨h1, fun c hm => h2 c (by rw [hs]; exact List.mem_cons_of_mem _ hm)⟩
  | slotNext f n r d d' b fs hc hs =>
    refine ⟨h1, fun c hm => ?_⟩
    rcases List.mem_cons.1 hm with hm | hm
    · cases hm
    · exact h2 c (by rw [hs]; exact List.mem_cons_of_mem _ hm)
  | nudgeEnd f n r d fs hc hs =>
    exact ⟨h1, fun c hm => h2 c (by rw [hs]; exact List.mem_cons_of_mem _ hm)⟩
  | slotEnd f n r d fs hc hs =>
    exact ⟨h1, fun c hm => h2 c (by rw [hs]; exact List.mem_cons_of_mem _ hm)⟩
  | nodeNext f n r m r' fs hc hs =>
    refine ⟨h1, fun c hm => ?_⟩
    rcases List.mem_cons.1 hm with hm | hm
    · cases hm
    · exact h2 c (by rw [hs]; exact List.mem_cons_of_mem _ hm)
  | nodeEnd f n r fs hc hs =>
    exact ⟨h1, fun c hm => h2 c (by rw [hs]; exact List.mem_cons_of_mem _ hm)⟩

theorem run_bare {st st' : St} {ops : List Op} (g : Good st) (h : Run st ops st') {q : Nat} (hb : Bare st q)
    (hw : ∀ op ∈ ops, op ≠ .watch q ∧ op ≠ .bind q) {d : List Ev} (hd : st'.log = st.log ++ d) :
    ∀ f n c v, Ev.called f n q c v ∉ d := by
  induction h generalizing d with
  | nil st =>
    have : d = [] := List.self_eq_append_right.1 hd
    subst this
    intro f n c v h; cases h
  | @cons st st1 st2 op ops h h' ih =>
    have k := (step_kind h).2
    obtain ⟨d1, hd1⟩ := kind_log g k
    have g1 := kind_good g k
    obtain ⟨d2, hd2⟩ := run_log g1 h'
    have : d = d1 ++ d2 := by
      rw [hd2, hd1, List.append_assoc] at hd
      exact (List.append_cancel_left hd).symm
    subst this
    intro f n c v hm
    rcases List.mem_append.1 hm with hm | hm
    · have := (kind_called g k hd1 hm).1
      rw [hb.1] at this; cases this
    · have hw' := hw op (by simp)
      exact ih g1 (kind_bare g k hb hw'.1 hw'.2) (fun op ho => hw op (List.mem_cons_of_mem _ ho)) hd2 f n c v hm

/-! ## The source of a reader -/

/-- Assignment to `r`. -/
def Op.assigns : Op → Option Nat
  | .assign r _ | .moveAssign r _ => some r
  | _ => none

/-- Reader `r` is a reader of `m`, if of anything. -/
def Of (st : St) (r : Nat) (m : Option Nat) : Prop :=
  r < st.nr ∧ (∀ k, st.linked r = some k → m = some k) ∧ ∀ k, st.node r = some k → m = some k

theorem kind_of {st st' : St} {op : Op} (g : Good st) (k : Kind st op st') {r : Nat} {m : Option Nat}
    (h : Of st r m) (ha : op.assigns ≠ some r) : Of st' r m := by
  obtain ⟨h0, h1, h2⟩ := h
  have hne : r ≠ st.nr := by omega
  cases k with
  | misc hm hc hu k1 k2 k3 k4 k5 k6 =>
    cases op <;> simp only [Op.misc, reduceCtorEq] at hm
    case mk n =>
      simp [St.user] at hu; subst hu
      refine ⟨Nat.lt_succ_of_lt h0, fun k hk => h1 k ?_, fun k hk => h2 k ?_⟩
      · simpa [St.new, hne] using hk
      · simpa [St.new, hne] using hk
    case copy q =>
      simp [St.user] at hu; obtain ⟨_, rfl⟩ := hu
      refine ⟨Nat.lt_succ_of_lt h0, fun k hk => h1 k ?_, fun k hk => h2 k ?_⟩
      · simpa [St.new, hne] using hk
      · simpa [St.new, hne] using hk
    case move q =>
      simp [St.user] at hu; obtain ⟨_, rfl⟩ := hu
      refine ⟨Nat.lt_succ_of_lt h0, fun k hk => h1 k ?_, fun k hk => h2 k ?_⟩
      · simpa [St.new, hne] using hk
      · by_cases hq : r = q
        · subst hq; simp at hk
        · simpa [St.new, hne, hq] using hk
    case assign q q2 =>
      have hq : r ≠ q := by intro e; subst e; exact ha rfl
      simp only [St.user] at hu
      split at hu
      · rename_i hal
        cases hu
        obtain ⟨_, _, k3, _⟩ := reset_inv g.inv hal.1 ((st.unlink q).node q2)
        refine ⟨?_, fun k hk => h1 k ?_, fun k hk => h2 k ?_⟩
        · rw [(relink_stack _ _).2.2.2.2.2.2.2.2.2]
          show r < (st.unlink q).nr
          rw [(unlink_stack _ _).2.2.2.2.2.2.2.2.2.2]; exact h0
        · rw [k3] at hk; simpa [hq] using hk
        · rw [(relink_stack _ _).2.2.2.2.2.2.1] at hk
          simp only [upd_ne _ _ hq] at hk
          rw [(unlink_stack _ _).2.2.2.2.2.2.2.1] at hk; exact hk
      · cases hu
    case moveAssign q q2 =>
      have hq : r ≠ q := by intro e; subst e; exact ha rfl
      simp only [St.user] at hu
      split at hu
      · rename_i hal
        cases hu
        have ul := unlink_linked g.inv.link g.inv.nodup q
        refine ⟨?_, fun k hk => h1 k ?_, fun k hk => h2 k ?_⟩
        · rw [(relink_stack _ _).2.2.2.2.2.2.2.2.2]
          show r < (st.unlink q).nr
          rw [(unlink_stack _ _).2.2.2.2.2.2.2.2.2.2]; exact h0
        · have : ∀ s : St, s.linked q = none → (s.relink q).linked r = s.linked r := by
            intro s hs
            unfold St.relink
            split
            · split
              · unfold St.link
                rw [hs]
                simp [hq]
              · rfl
            · rfl
          rw [this _ (by rw [ul.1]; simp)] at hk
          have hk : (st.unlink q).linked r = some k := hk
          rw [ul.1] at hk; simpa [hq] using hk
        · rw [(relink_stack _ _).2.2.2.2.2.2.1] at hk
          dsimp only at hk
          rw [(unlink_stack _ _).2.2.2.2.2.2.2.1] at hk
          split at hk
          · exact hk
          · by_cases hr2 : r = q2
            · subst hr2; simp at hk
            · simpa [hr2, hq] using hk
      · cases hu
    case destroy q =>
      simp only [St.user] at hu
      split at hu
      · cases hu
        obtain ⟨_, _, k3, _⟩ := clear_inv (drop_inv g.inv q) q
        refine ⟨?_, fun k hk => h1 k ?_, fun k hk => h2 k ?_⟩
        · show r < ((_ : St).unlink q).nr
          rw [(unlink_stack _ _).2.2.2.2.2.2.2.2.2.2]; exact h0
        · have hk : ((_ : St).unlink q).linked r = some k := hk
          rw [show (({ st with slots := upd st.slots q [], node := upd st.node q none } : St).unlink q).linked
            = upd st.linked q none from k3] at hk
          by_cases hq : r = q
          · subst hq; simp at hk
          · simpa [hq] using hk
        · have hk : ((_ : St).unlink q).node r = some k := hk
          rw [(unlink_stack _ _).2.2.2.2.2.2.2.1] at hk
          by_cases hq : r = q
          · subst hq; simp at hk
          · simpa [hq] using hk
      · cases hu
    case watch q =>
      simp only [St.user] at hu
      split at hu
      · cases hu
        obtain ⟨e1, e2, e3, e4, e5, e6, e7, _⟩ := watch_eq g.inv (r := q) (c := st.nc)
        refine ⟨?_, fun k hk => ?_, fun k hk => h2 k ?_⟩
        · show r < (st.watch q st.nc).nr
          rw [e7]; exact h0
        · have hk : (st.watch q st.nc).linked r = some k := hk
          rw [e3] at hk
          split at hk
          · by_cases hq : r = q
            · subst hq; simp at hk; exact h2 k hk
            · simp [hq] at hk; exact h1 k hk
          · exact h1 k hk
        · have hk : (st.watch q st.nc).node r = some k := hk
          rw [e5] at hk; exact hk
      · cases hu
    case unbind q =>
      simp only [St.user] at hu
      split at hu
      · cases hu
        obtain ⟨_, _, k3, _⟩ := clear_inv g.inv q
        refine ⟨?_, fun k hk => h1 k ?_, fun k hk => h2 k ?_⟩
        · rw [(unlink_stack _ _).2.2.2.2.2.2.2.2.2.2]; exact h0
        · rw [k3] at hk
          by_cases hq : r = q
          · subst hq; simp at hk
          · simpa [hq] using hk
        · rw [(unlink_stack _ _).2.2.2.2.2.2.2.1] at hk; exact hk
      · cases hu
    case get q =>
      simp only [St.user] at hu
      split at hu
      · split at hu <;>
        · cases hu
          exact ⟨h0, h1, h2⟩
      · cases hu
    case set q v =>
      simp only [St.user] at hu
      split at hu
      · split at hu <;>
        · cases hu
          exact ⟨h0, h1, h2⟩
      · cases hu
    case change n v =>
      simp only [St.user, Option.some.injEq] at hu
      subst hu
      exact ⟨h0, h1, h2⟩
  | retBind q d fs hc hs hal =>
    have hi : Inv ({ st with stack := fs } : St) :=
      g.inv.same ⟨rfl, rfl, rfl, rfl, rfl, rfl⟩ (Nat.le_refl _)
    obtain ⟨e1, e2, e3, e4, e5, e6, e7, e8, e9, e10, e11, e12, e13⟩ := watch_eq hi (r := q) (c := d)
    refine ⟨by rw [e7]; exact h0, fun k hk => ?_, fun k hk => h2 k (by rw [e5] at hk; exact hk)⟩
    rw [e3] at hk
    split at hk
    · by_cases hq : r = q
      · subst hq; simp at hk; exact h2 k hk
      · simp [hq] at hk; exact h1 k hk
    · exact h1 k hk
  | _ => exact ⟨h0, h1, h2⟩

end Verif.Watch
