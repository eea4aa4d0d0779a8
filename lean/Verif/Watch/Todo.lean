import Verif.Watch.Loop

/-!
Callbacks that are still to be called by a loop, and where calls come from.
-/

namespace Verif.Watch

/-! ## Loops that are over, and notifications -/

/-- Of the proof: the invariant. -/
structure LogOK (st : St) : Prop where
  done : ∀ f, Ev.done f ∈ st.log → f < st.nf ∧ ∀ fr ∈ st.stack, fid fr ≠ some f
  notify : ∀ f m, Ev.notify f m ∈ st.log → f < st.nf
    ∧ ∀ fr ∈ st.stack, (∀ n r c, fr ≠ .slot f n r c true) ∧ ∀ n r, fr = .node f n r → n = m

/-- What a step says about loops, and what it does to the stack. -/
theorem kind_logOK {st st' : St} {op : Op} (g : Good st) (o : LogOK st) (k : Kind st op st') : LogOK st' := by
  have hlt := shape_lt g.shape
  have hov := shape_over g.shape
  -- the log gets nothing about the start or end of a loop, and frames keep their numbers
  have easy : ∀ {s : St} {d : List Ev}, s.log = st.log ++ d → (∀ f, Ev.done f ∉ d) →
      (∀ f m, Ev.notify f m ∉ d) → s.nf = st.nf →
      (∀ fr ∈ s.stack, ∀ f, fid fr = some f → ∃ fr' ∈ st.stack, fid fr' = some f) →
      (∀ fr ∈ s.stack, ∀ f n r c, fr = .slot f n r c true → ∃ n r c, Frame.slot f n r c true ∈ st.stack) →
      (∀ fr ∈ s.stack, ∀ f n r, fr = .node f n r → ∃ r, Frame.node f n r ∈ st.stack) →
      LogOK s := by
    intro s d h1 h2 h3 h4 h5 h6 h7
    constructor
    · intro f hf
      rw [h1] at hf
      rcases List.mem_append.1 hf with hf | hf
      · refine ⟨by rw [h4]; exact (o.done f hf).1, fun fr hfr hfid => ?_⟩
        obtain ⟨fr', hm, hf'⟩ := h5 fr hfr f hfid
        exact (o.done f hf).2 fr' hm hf'
      · exact absurd hf (h2 f)
    · intro f m hf
      rw [h1] at hf
      rcases List.mem_append.1 hf with hf | hf
      · refine ⟨by rw [h4]; exact (o.notify f m hf).1, fun fr hfr => ⟨fun n r c e => ?_, fun n r e => ?_⟩⟩
        · obtain ⟨n', r', c', hm⟩ := h6 fr hfr f n r c e
          exact ((o.notify f m hf).2 _ hm).1 n' r' c' rfl
        · obtain ⟨r', hm⟩ := h7 fr hfr f n r e
          exact ((o.notify f m hf).2 _ hm).2 n r' rfl
      · exact absurd hf (h3 f m)
  have sub : ∀ {s : St} {d : List Ev}, s.log = st.log ++ d → (∀ f, Ev.done f ∉ d) →
      (∀ f m, Ev.notify f m ∉ d) → s.nf = st.nf → (∀ fr ∈ s.stack, fr ∈ st.stack) → LogOK s :=
    fun h1 h2 h3 h4 h5 => easy h1 h2 h3 h4 (fun fr h f hf => ⟨fr, h5 fr h, hf⟩)
      (fun fr h f n r c e => ⟨n, r, c, e ▸ h5 fr h⟩) (fun fr h f n r e => ⟨r, e ▸ h5 fr h⟩)
  cases k with
  | misc hm hc hu k1 k2 k3 k4 k5 k6 =>
    refine sub k4 (fun f h => by have := k5 _ h; cases this) (fun f m h => by have := k5 _ h; cases this) k3 ?_
    rw [k1]; exact fun _ h => h
  | null => exact ⟨o.done, o.notify⟩
  | bind r n hc ha hn =>
    refine easy (d := [.bound r st.nc (st.val n)]) rfl (by simp) (by simp) rfl ?_ ?_ ?_
    · intro fr hfr f hf
      rcases List.mem_cons.1 hfr with rfl | hfr
      · cases hf
      · exact ⟨fr, hfr, hf⟩
    · intro fr hfr f n' r' c' e
      rcases List.mem_cons.1 hfr with rfl | hfr
      · cases e
      · exact ⟨n', r', c', e ▸ hfr⟩
    · intro fr hfr f n' r' e
      rcases List.mem_cons.1 hfr with rfl | hfr
      · cases e
      · exact ⟨r', e ▸ hfr⟩
  | nudge0 => exact o
  | nudge r n c l hc ha hn hs =>
    constructor
    · intro f hf
      have hf : Ev.done f ∈ st.log ++ [_] := hf
      simp at hf
      have := o.done f hf
      refine ⟨Nat.lt_succ_of_lt this.1, fun fr hfr => ?_⟩
      rcases List.mem_cons.1 hfr with rfl | hfr
      · have := this.1; simp [fid]; omega
      · exact this.2 fr hfr
    · intro f m hf
      have hf : Ev.notify f m ∈ st.log ++ [_] := hf
      simp at hf
      have := o.notify f m hf
      refine ⟨Nat.lt_succ_of_lt this.1, fun fr hfr => ?_⟩
      rcases List.mem_cons.1 hfr with rfl | hfr
      · refine ⟨fun n r c e => ?_, fun n r e => by cases e⟩
        cases e; exact Nat.lt_irrefl _ this.1
      · exact this.2 fr hfr
  | notify0 n hc hs =>
    constructor
    · intro f hf
      have hf : Ev.done f ∈ (st.log ++ [_]) ++ [_] := hf
      simp at hf
      rcases hf with hf | rfl
      · have := o.done f hf
        exact ⟨Nat.lt_succ_of_lt this.1, this.2⟩
      · refine ⟨Nat.lt_succ_self _, fun fr hfr hf => Nat.lt_irrefl _ (hlt fr hfr _ hf)⟩
    · intro f m hf
      have hf : Ev.notify f m ∈ (st.log ++ [_]) ++ [_] := hf
      simp at hf
      rcases hf with hf | ⟨rfl, rfl⟩
      · have := o.notify f m hf
        exact ⟨Nat.lt_succ_of_lt this.1, this.2⟩
      · refine ⟨Nat.lt_succ_self _, fun fr hfr => ⟨fun n r c e => ?_, fun n r e => ?_⟩⟩
        · exact absurd (hlt fr hfr _ (by rw [e]; rfl)) (Nat.lt_irrefl _)
        · exact absurd (hlt fr hfr _ (by rw [e]; rfl)) (Nat.lt_irrefl _)
  | notify n r l hc hs =>
    constructor
    · intro f hf
      have hf : Ev.done f ∈ (st.log ++ [_]) ++ [_] := hf
      simp at hf
      have := o.done f hf
      refine ⟨Nat.lt_succ_of_lt this.1, fun fr hfr => ?_⟩
      rcases List.mem_cons.1 hfr with rfl | hfr
      · have := this.1; simp [fid]; omega
      · exact this.2 fr hfr
    · intro f m hf
      have hf : Ev.notify f m ∈ (st.log ++ [_]) ++ [_] := hf
      simp at hf
      rcases hf with hf | ⟨rfl, rfl⟩
      · have := o.notify f m hf
        refine ⟨Nat.lt_succ_of_lt this.1, fun fr hfr => ?_⟩
        rcases List.mem_cons.1 hfr with rfl | hfr
        · refine ⟨fun n r c e => (by cases e), fun n r e => ?_⟩
          cases e; exact absurd this.1 (Nat.lt_irrefl _)
        · exact this.2 fr hfr
      · refine ⟨Nat.lt_succ_self _, fun fr hfr => ?_⟩
        rcases List.mem_cons.1 hfr with rfl | hfr
        · refine ⟨fun n r c e => (by cases e), fun n r e => by cases e; rfl⟩
        · refine ⟨fun n r c e => ?_, fun n r e => ?_⟩
          · exact absurd (hlt fr hfr _ (by rw [e]; rfl)) (Nat.lt_irrefl _)
          · exact absurd (hlt fr hfr _ (by rw [e]; rfl)) (Nat.lt_irrefl _)
  | retSlot => exact ⟨o.done, o.notify⟩
  | retBind r c fs hc hs ha =>
    have hi : Inv ({ st with stack := fs } : St) :=
      g.inv.same ⟨rfl, rfl, rfl, rfl, rfl, rfl⟩ (Nat.le_refl _)
    obtain ⟨e1, e2, e3, e4, e5, e6, e7, e8, e9, e10, e11, e12, e13⟩ := watch_eq hi (r := r) (c := c)
    refine sub (d := []) (by rw [e12]; simp) (by simp) (by simp) e11 ?_
    rw [e9]; intro fr hfr; rw [hs]; exact List.mem_cons_of_mem _ hfr
  | retDead r c fs hc hs ha =>
    refine sub (d := []) (by simp) (by simp) (by simp) rfl ?_
    intro fr hfr; rw [hs]; exact List.mem_cons_of_mem _ hfr
  | enter0 => exact ⟨o.done, o.notify⟩
  | enter f n q r c l fs hc hs hl =>
    refine easy (d := [.called f n r c (st.val n)]) rfl (by simp) (by simp) rfl ?_ ?_ ?_
    · intro fr hfr f' hf
      rcases List.mem_cons.1 hfr with rfl | hfr
      · cases hf; exact ⟨.node f n q, by rw [hs]; simp, rfl⟩
      · exact ⟨fr, hfr, hf⟩
    · intro fr hfr f n' r' c' e
      rcases List.mem_cons.1 hfr with rfl | hfr
      · cases e
      · exact ⟨n', r', c', e ▸ hfr⟩
    · intro fr hfr f n' r' e
      rcases List.mem_cons.1 hfr with rfl | hfr
      · cases e
      · exact ⟨r', e ▸ hfr⟩
  | slotNext f n r c c' b fs hc hs hm hn =>
    refine easy (d := [.called f n r c' (st.val n)]) rfl (by simp) (by simp) rfl ?_ ?_ ?_
    · intro fr hfr f' hf
      rcases List.mem_cons.1 hfr with rfl | hfr
      · cases hf; exact ⟨.slot f n r c b, by rw [hs]; simp, rfl⟩
      · exact ⟨fr, by rw [hs]; exact List.mem_cons_of_mem _ hfr, hf⟩
    · intro fr hfr f n' r' c' e
      rcases List.mem_cons.1 hfr with rfl | hfr
      · cases e; exact ⟨n, r, c, by rw [hs]; simp⟩
      · exact ⟨n', r', c', by rw [hs]; exact e ▸ List.mem_cons_of_mem _ hfr⟩
    · intro fr hfr f n' r' e
      rcases List.mem_cons.1 hfr with rfl | hfr
      · cases e
      · exact ⟨r', by rw [hs]; exact e ▸ List.mem_cons_of_mem _ hfr⟩
  | nudgeEnd f n r c fs hc hs hm hn =>
    constructor
    · intro f' hf
      have hf : Ev.done f' ∈ st.log ++ [_] := hf
      simp at hf
      rcases hf with hf | rfl
      · exact ⟨(o.done f' hf).1, fun fr hfr => (o.done f' hf).2 fr (by rw [hs]; exact List.mem_cons_of_mem _ hfr)⟩
      · refine ⟨hlt (.slot f' n r c true) (by rw [hs]; simp) _ rfl, fun fr hfr hf => ?_⟩
        have hsh := g.shape
        rw [hc, hs] at hsh
        rcases hsh with ⟨hb, _⟩ | ⟨_, _, _, _, h, _⟩
        · cases hb with
          | nudge _ _ _ _ hb => exact Nat.lt_irrefl _ (base_lt hb fr hfr _ hf)
        · cases h
    · intro f' m hf
      have hf : Ev.notify f' m ∈ st.log ++ [_] := hf
      simp at hf
      exact ⟨(o.notify f' m hf).1,
        fun fr hfr => (o.notify f' m hf).2 fr (by rw [hs]; exact List.mem_cons_of_mem _ hfr)⟩
  | slotEnd f n r c fs hc hs hm hn =>
    refine sub (d := []) (by simp) (by simp) (by simp) rfl ?_
    intro fr hfr; rw [hs]; exact List.mem_cons_of_mem _ hfr
  | slotUb => exact ⟨o.done, o.notify⟩
  | nodeNext f n r m r' fs hc hs hl hn =>
    refine easy (d := [.turn f r']) rfl (by simp) (by simp) rfl ?_ ?_ ?_
    · intro fr hfr f' hf
      rcases List.mem_cons.1 hfr with rfl | hfr
      · cases hf; exact ⟨.node f n r, by rw [hs]; simp, rfl⟩
      · exact ⟨fr, by rw [hs]; exact List.mem_cons_of_mem _ hfr, hf⟩
    · intro fr hfr f n' r' c' e
      rcases List.mem_cons.1 hfr with rfl | hfr
      · cases e
      · exact ⟨n', r', c', by rw [hs]; exact e ▸ List.mem_cons_of_mem _ hfr⟩
    · intro fr hfr f n' r' e
      rcases List.mem_cons.1 hfr with rfl | hfr
      · cases e; exact ⟨r, by rw [hs]; simp⟩
      · exact ⟨r', by rw [hs]; exact e ▸ List.mem_cons_of_mem _ hfr⟩
  | nodeEnd f n r fs hc hs hl hn =>
    constructor
    · intro f' hf
      have hf : Ev.done f' ∈ st.log ++ [_] := hf
      simp at hf
      rcases hf with hf | rfl
      · exact ⟨(o.done f' hf).1, fun fr hfr => (o.done f' hf).2 fr (by rw [hs]; exact List.mem_cons_of_mem _ hfr)⟩
      · refine ⟨hlt (.node f' n r) (by rw [hs]; simp) _ rfl, fun fr hfr hf => ?_⟩
        have hsh := g.shape
        rw [hc, hs] at hsh
        rcases hsh with ⟨_, _, _, _, _, _, _, h⟩ | ⟨_, _, _, _, h, _, hb⟩
        · cases h
        · cases h; exact Nat.lt_irrefl _ (base_lt hb fr hfr _ hf)
    · intro f' m hf
      have hf : Ev.notify f' m ∈ st.log ++ [_] := hf
      simp at hf
      exact ⟨(o.notify f' m hf).1,
        fun fr hfr => (o.notify f' m hf).2 fr (by rw [hs]; exact List.mem_cons_of_mem _ hfr)⟩
  | nodeUb => exact ⟨o.done, o.notify⟩

theorem Reach.logOK {st : St} (h : Reach st) : LogOK st := by
  induction h with
  | start => constructor <;> simp [Watch.start]
  | step op hr h ih => exact kind_logOK hr.good ih (step_kind h).2

/-! ## Where calls come from -/

/-- A new call: the callback is attached, and it is made by `nudge`, by the loop in the reader, or by the loop
over observers at that reader. -/
theorem kind_called {st st' : St} {op : Op} (g : Good st) (k : Kind st op st') {d : List Ev}
    (hl : st'.log = st.log ++ d) {f n r c v : Nat} (h : Ev.called f n r c v ∈ d) :
    c ∈ st.slots r ∧ v = st.val n ∧
      ((op = .nudge r ∧ st.node r = some n ∧ f = st.nf)
        ∨ (∃ c0 b fs, st.stack = .slot f n r c0 b :: fs ∧ st.ctrl = .back)
        ∨ ∃ fs, st.stack = .node f n r :: fs ∧ st.ctrl = .enter r) := by
  have none : ∀ {e : List Ev}, st'.log = st.log ++ e → Ev.called f n r c v ∈ e := by
    intro e he
    rw [hl] at he
    rw [← List.append_cancel_left he]; exact h
  cases k with
  | misc hm hc hu k1 k2 k3 k4 k5 k6 => have := k5 _ (none k4); cases this
  | null | nudge0 | retSlot | retDead | enter0 | slotEnd | slotUb | nodeUb =>
    have := none (e := []) (by simp)
    cases this
  | bind | nudgeEnd | nodeNext | nodeEnd =>
    have := none (e := [_]) rfl
    simp at this
  | nudge q m d l hc ha hn hs =>
    have := none (e := [_]) rfl
    simp at this
    obtain ⟨rfl, rfl, rfl, rfl, rfl⟩ := this
    exact ⟨by rw [hs]; simp, rfl, .inl ⟨rfl, hn, rfl⟩⟩
  | notify0 m =>
    have := none (e := [.notify st.nf m, .done st.nf]) (by simp [St.say])
    simp at this
  | notify m q =>
    have := none (e := [.notify st.nf m, .turn st.nf q]) (by simp [St.say])
    simp at this
  | retBind q d fs hc hs ha =>
    have hi : Inv ({ st with stack := fs } : St) :=
      g.inv.same ⟨rfl, rfl, rfl, rfl, rfl, rfl⟩ (Nat.le_refl _)
    obtain ⟨e1, e2, e3, e4, e5, e6, e7, e8, e9, e10, e11, e12, e13⟩ := watch_eq hi (r := q) (c := d)
    have := none (e := []) (by rw [e12]; simp)
    cases this
  | enter f' m q q' d l fs hc hs hl' =>
    have := none (e := [_]) rfl
    simp at this
    obtain ⟨rfl, rfl, rfl, rfl, rfl⟩ := this
    have hsh := g.shape
    rw [hc, hs] at hsh
    obtain ⟨_, _, _, h, _⟩ := hsh
    cases h
    exact ⟨by rw [hl']; simp, rfl, .inr (.inr ⟨fs, hs, hc⟩)⟩
  | slotNext f' m q d d' b fs hc hs hm hn =>
    have := none (e := [_]) rfl
    simp at this
    obtain ⟨rfl, rfl, rfl, rfl, rfl⟩ := this
    exact ⟨next_mem hn, rfl, .inr (.inl ⟨d, b, fs, hs, hc⟩)⟩

/-- A new call by a notification is to a reader that is linked to the source. -/
theorem called_linked {st st' : St} {op : Op} (hr : SafeReach st) (h : step st op = some st') {d : List Ev}
    (hl : st'.log = st.log ++ d) {f n r c v : Nat} (hc : Ev.called f n r c v ∈ d) {m : Nat}
    (hno : Ev.notify f m ∈ st'.log) : st.linked r = some n ∧ n = m := by
  have g := hr.reach.good
  have k := (step_kind h).2
  have o' := kind_logOK g hr.reach.logOK k
  have hno' : Ev.notify f m ∈ st.log := by
    rw [hl] at hno
    rcases List.mem_append.1 hno with h' | h'
    · exact h'
    · exfalso
      have none : ∀ {e : List Ev}, st'.log = st.log ++ e → d = e := by
        intro e he
        rw [hl] at he
        exact List.append_cancel_left he
      cases k with
      | misc hm hc' hu k1 k2 k3 k4 k5 k6 => rw [none k4] at hc; have := k5 _ hc; cases this
      | null | nudge0 | retSlot | retDead | enter0 | slotEnd | slotUb | nodeUb =>
        have := none (e := []) (by simp)
        subst this; cases hc
      | bind | nudgeEnd | nodeNext | nodeEnd | nudge | enter | slotNext =>
        have := none (e := [_]) rfl
        subst this; simp at hc h'
      | notify0 m =>
        have := none (e := [.notify st.nf m, .done st.nf]) (by simp [St.say])
        subst this; simp at hc
      | notify m q =>
        have := none (e := [.notify st.nf m, .turn st.nf q]) (by simp [St.say])
        subst this; simp at hc
      | retBind q d' fs hc' hs ha =>
        have hi : Inv ({ st with stack := fs } : St) :=
          g.inv.same ⟨rfl, rfl, rfl, rfl, rfl, rfl⟩ (Nat.le_refl _)
        obtain ⟨e1, e2, e3, e4, e5, e6, e7, e8, e9, e10, e11, e12, e13⟩ := watch_eq hi (r := q) (c := d')
        have := none (e := []) (by rw [e12]; simp)
        subst this; cases hc
  have o := hr.reach.logOK.notify f m hno'
  obtain ⟨_, _, hcase⟩ := kind_called g k hl hc
  rcases hcase with ⟨_, _, hf⟩ | ⟨c0, b, fs, hs, hct⟩ | ⟨fs, hs, hct⟩
  · exact absurd o.1 (by omega)
  · have hsh := g.shape
    rw [hct, hs] at hsh
    rcases hsh with ⟨hb, _⟩ | ⟨_, _, _, _, h, _⟩
    · cases hb with
      | nudge _ _ _ _ hb =>
        exact absurd rfl ((o.2 (.slot f n r c0 true) (by rw [hs]; simp)).1 n r c0)
      | node _ _ _ _ hb =>
        refine ⟨hr.sound.frames (.node f n r) (by rw [hs]; simp), ?_⟩
        exact (o.2 (.node f n r) (by rw [hs]; simp)).2 n r rfl
    · cases h
  · refine ⟨hr.sound.frames (.node f n r) (by rw [hs]; simp), ?_⟩
    exact (o.2 (.node f n r) (by rw [hs]; simp)).2 n r rfl

/-! ## What is still to be called -/

/-- Callback `c` of reader `r` is still to be called by loop `f`: the reader comes later, or it is its turn, or
its loop has not got to that callback. -/
inductive Todo (st : St) (f n r c : Nat) : Prop where
  | later (pre post : List Frame) (cur : Nat) (A B : List Nat) :
      st.stack = pre ++ .node f n cur :: post → st.obs n = A ++ cur :: B → r ∈ B → c ∈ st.slots r →
      Todo st f n r c
  | turn (post : List Frame) : st.ctrl = .enter r → st.stack = .node f n r :: post → c ∈ st.slots r →
      Todo st f n r c
  | mine (pre post : List Frame) (c0 : Nat) (b : Bool) (A B : List Nat) :
      st.stack = pre ++ .slot f n r c0 b :: post → st.slots r = A ++ c0 :: B → c ∈ B → Todo st f n r c

theorem Todo.frame {st : St} {f n r c : Nat} (h : Todo st f n r c) : ∃ fr ∈ st.stack, fid fr = some f := by
  cases h with
  | later pre post cur A B hs => exact ⟨.node f n cur, by rw [hs]; simp, rfl⟩
  | turn post _ hs => exact ⟨.node f n r, by rw [hs]; simp, rfl⟩
  | mine pre post c0 b A B hs => exact ⟨.slot f n r c0 b, by rw [hs]; simp, rfl⟩

theorem erase_split {A B : List Nat} {t x y : Nat} (ht : t ≠ x) (hy : t ≠ y) (h : y ∈ B) :
    ∃ A' B', (A ++ x :: B).erase t = A' ++ x :: B' ∧ y ∈ B' := by
  by_cases ha : t ∈ A
  · exact ⟨A.erase t, B, by rw [List.erase_append_left _ ha], h⟩
  · refine ⟨A, B.erase t, ?_, by rw [List.mem_erase_of_ne (Ne.symm hy)]; exact h⟩
    rw [List.erase_append_right _ ha, List.erase_cons_tail (by simpa using Ne.symm ht)]

theorem kind_todo {st st' : St} {op : Op} (g : Good st) (hf : st.fine op) (k : Kind st op st')
    {f n r c : Nat} (ht : op.target ≠ some r) (h : Todo st f n r c) :
    Todo st' f n r c ∨ ∃ v, Ev.called f n r c v ∈ st'.log := by
  -- steps that change neither lists nor the frame
  cases h with
  | turn post hc hs hcm =>
    cases k with
    | enter f' m q r' d l fs hc' hs' hl =>
      rw [hc] at hc'
      cases hc'
      rw [hs] at hs'
      cases hs'
      rw [hl] at hcm
      rcases List.mem_cons.1 hcm with rfl | hcm
      · exact .inr ⟨st.val n, by simp [St.say]⟩
      · exact .inl (.mine [] (st.stack) d false [] l rfl hl hcm)
    | enter0 f' m q r' fs hc' hs' hl =>
      rw [hc] at hc'
      cases hc'
      rw [hl] at hcm; cases hcm
    | _ => simp_all
  | later pre post cur A B hs ho hr hcm =>
    have hne : ∀ q, op.target = some q → q ≠ cur := by
      intro q hq e
      subst e
      exact hf.1 ⟨.node f n q, by rw [hs]; simp, hq⟩
    have go : ∀ pre' : List Frame, st'.stack = pre' ++ .node f n cur :: post →
        (∃ A' B', st'.obs n = A' ++ cur :: B' ∧ r ∈ B') → c ∈ st'.slots r →
        Todo st' f n r c ∨ ∃ v, Ev.called f n r c v ∈ st'.log := by
      intro pre' h1 ⟨A', B', h2, h3⟩ h4
      exact .inl (.later pre' post cur A' B' h1 h2 h3 h4)
    have same : ∃ A' B', st.obs n = A' ++ cur :: B' ∧ r ∈ B' := ⟨A, B, ho, hr⟩
    cases k with
    | misc hm hc hu k1 k2 k3 k4 k5 k6 =>
      obtain ⟨e1, e2, e3, e4⟩ := misc_effect g.inv hm hu
      refine go pre (by rw [k1]; exact hs) ?_ ?_
      · obtain ⟨a, ha⟩ := e1 n
        cases htg : op.target with
        | none =>
          rw [htg] at ha
          refine ⟨A, B ++ a, ?_, by simp [hr]⟩
          rw [ha]
          show st.obs n ++ a = _
          rw [ho]; simp
        | some t =>
          rw [htg] at ha
          have ha : st'.obs n = (st.obs n).erase t ++ a := ha
          obtain ⟨A', B', h1, h2⟩ := erase_split (A := A) (hne t htg)
            (show t ≠ r from fun e => ht (by rw [← e]; exact htg)) hr
          refine ⟨A', B' ++ a, ?_, by simp [h2]⟩
          rw [ha, ho, h1]; simp
      · exact (e2 r fun h => ht (Op.target_of_drops h)).subset hcm
    | null => exact go pre hs same hcm
    | bind q m hc ha hn =>
      refine go (.bind q st.nc :: pre) ?_ same hcm
      show _ :: st.stack = _
      rw [hs]; rfl
    | nudge0 => exact go pre hs same hcm
    | nudge q m c' l hc ha hn hs' =>
      refine go (.slot st.nf m q c' true :: pre) ?_ same hcm
      show _ :: st.stack = _
      rw [hs]; rfl
    | notify0 m hc hs' => exact go pre hs same hcm
    | notify m q l hc hs' =>
      refine go (.node st.nf m q :: pre) ?_ same hcm
      show _ :: st.stack = _
      rw [hs]; rfl
    | retSlot => exact go pre hs same hcm
    | retBind q c' fs hc hs' ha =>
      have hi : Inv ({ st with stack := fs } : St) :=
        g.inv.same ⟨rfl, rfl, rfl, rfl, rfl, rfl⟩ (Nat.le_refl _)
      obtain ⟨e1, e2, e3, e4, e5, e6, e7, e8, e9, e10, e11, e12, e13⟩ := watch_eq hi (r := q) (c := c')
      rw [hs] at hs'
      cases pre with
      | nil => cases hs'
      | cons x pre =>
        cases hs'
        refine go pre (by rw [e9]; rfl) ?_ ?_
        · rw [e4]
          show ∃ A' B', (if st.slots q = [] ∧ st.node q = some n then st.obs n ++ [q] else st.obs n)
            = A' ++ cur :: B' ∧ r ∈ B'
          split
          · exact ⟨A, B ++ [q], by rw [ho]; simp, by simp [hr]⟩
          · exact same
        · rw [e1]
          show c ∈ upd st.slots q (st.slots q ++ [c']) r
          by_cases h : r = q
          · subst h; simp [hcm]
          · simp [h, hcm]
    | retDead q c' fs hc hs' ha =>
      rw [hs] at hs'
      cases pre with
      | nil => cases hs'
      | cons x pre =>
        cases hs'
        exact go pre rfl same hcm
    | enter0 => exact go pre hs same hcm
    | enter f' m q q' c' l fs hc hs' hl =>
      refine go (.slot f' m q' c' false :: pre) ?_ same hcm
      show _ :: st.stack = _
      rw [hs]; rfl
    | slotNext f' m q d d' b fs hc hs' hm hn =>
      rw [hs] at hs'
      cases pre with
      | nil => cases hs'
      | cons x pre =>
        cases hs'
        exact go (.slot f' m q d' b :: pre) rfl same hcm
    | nudgeEnd f' m q d fs hc hs' hm hn =>
      rw [hs] at hs'
      cases pre with
      | nil => cases hs'
      | cons x pre =>
        cases hs'
        exact go pre rfl same hcm
    | slotEnd f' m q d fs hc hs' hm hn =>
      rw [hs] at hs'
      cases pre with
      | nil => cases hs'
      | cons x pre =>
        cases hs'
        exact go pre rfl same hcm
    | slotUb => exact go pre hs same hcm
    | nodeNext f' m q m' q' fs hc hs' hl hn =>
      rw [hs] at hs'
      cases pre with
      | nil =>
        cases hs'
        have hm : st.linked cur = some n := (g.inv.link cur n).2 (by rw [ho]; simp)
        rw [hm] at hl
        cases hl
        have hnd := g.inv.nodup n
        rw [ho] at hn hnd
        rw [next_append hnd] at hn
        cases B with
        | nil => cases hn
        | cons x B =>
          simp only [List.head?_cons, Option.some.injEq] at hn
          subst hn
          rcases List.mem_cons.1 hr with rfl | hr
          · exact .inl (.turn _ rfl rfl hcm)
          · refine .inl (.later [] _ x (A ++ [cur]) B rfl ?_ hr hcm)
            show st.obs n = _
            rw [ho]; simp
      | cons x pre =>
        cases hs'
        exact go (.node f' m q' :: pre) rfl same hcm
    | nodeEnd f' m q fs hc hs' hl hn =>
      rw [hs] at hs'
      cases pre with
      | nil =>
        cases hs'
        have hnd := g.inv.nodup n
        rw [ho] at hn hnd
        rw [next_append hnd] at hn
        cases B with
        | nil => cases hr
        | cons x B => cases hn
      | cons x pre =>
        cases hs'
        exact go pre rfl same hcm
    | nodeUb => exact go pre hs same hcm
  | mine pre post c0 b A B hs hsl hcm =>
    have hne : op.drops ≠ some r := fun e => hf.1 ⟨.slot f n r c0 b, by rw [hs]; simp, e⟩
    have go : ∀ pre' : List Frame, st'.stack = pre' ++ .slot f n r c0 b :: post →
        st.slots r <+: st'.slots r →
        Todo st' f n r c ∨ ∃ v, Ev.called f n r c v ∈ st'.log := by
      intro pre' h1 h2
      rw [hsl] at h2
      obtain ⟨t, h⟩ := h2
      exact .inl (.mine pre' post c0 b A (B ++ t) h1 (by rw [← h]; simp) (by simp [hcm]))
    have same : st.slots r <+: st.slots r := List.prefix_refl _
    cases k with
    | misc hm hc hu k1 k2 k3 k4 k5 k6 =>
      obtain ⟨e1, e2, e3, e4⟩ := misc_effect g.inv hm hu
      exact go pre (by rw [k1]; exact hs) (e2 r hne)
    | null => exact go pre hs same
    | bind q m hc ha hn =>
      refine go (.bind q st.nc :: pre) ?_ same
      show _ :: st.stack = _
      rw [hs]; rfl
    | nudge0 => exact go pre hs same
    | nudge q m c' l hc ha hn hs' =>
      refine go (.slot st.nf m q c' true :: pre) ?_ same
      show _ :: st.stack = _
      rw [hs]; rfl
    | notify0 m hc hs' => exact go pre hs same
    | notify m q l hc hs' =>
      refine go (.node st.nf m q :: pre) ?_ same
      show _ :: st.stack = _
      rw [hs]; rfl
    | retSlot => exact go pre hs same
    | retBind q c' fs hc hs' ha =>
      have hi : Inv ({ st with stack := fs } : St) :=
        g.inv.same ⟨rfl, rfl, rfl, rfl, rfl, rfl⟩ (Nat.le_refl _)
      obtain ⟨e1, e2, e3, e4, e5, e6, e7, e8, e9, e10, e11, e12, e13⟩ := watch_eq hi (r := q) (c := c')
      rw [hs] at hs'
      cases pre with
      | nil => cases hs'
      | cons x pre =>
        cases hs'
        refine go pre (by rw [e9]; rfl) ?_
        rw [e1]
        show st.slots r <+: upd st.slots q (st.slots q ++ [c']) r
        by_cases h : r = q
        · subst h; simp
        · simp [h]
    | retDead q c' fs hc hs' ha =>
      rw [hs] at hs'
      cases pre with
      | nil => cases hs'
      | cons x pre =>
        cases hs'
        exact go pre rfl same
    | enter0 => exact go pre hs same
    | enter f' m q q' c' l fs hc hs' hl =>
      refine go (.slot f' m q' c' false :: pre) ?_ same
      show _ :: st.stack = _
      rw [hs]; rfl
    | slotNext f' m q d d' b' fs hc hs' hm hn =>
      rw [hs] at hs'
      cases pre with
      | nil =>
        cases hs'
        have hnd := g.inv.once r
        rw [hsl] at hn hnd
        rw [next_append hnd] at hn
        cases B with
        | nil => cases hn
        | cons x B =>
          simp only [List.head?_cons, Option.some.injEq] at hn
          subst hn
          rcases List.mem_cons.1 hcm with rfl | hcm
          · exact .inr ⟨st.val n, by simp [St.say]⟩
          · refine .inl (.mine [] _ x b (A ++ [c0]) B rfl ?_ hcm)
            show st.slots r = _
            rw [hsl]; simp
      | cons x pre =>
        cases hs'
        exact go (.slot f' m q d' b' :: pre) rfl same
    | nudgeEnd f' m q d fs hc hs' hm hn =>
      rw [hs] at hs'
      cases pre with
      | nil =>
        cases hs'
        have hnd := g.inv.once r
        rw [hsl] at hn hnd
        rw [next_append hnd] at hn
        cases B with
        | nil => cases hcm
        | cons x B => cases hn
      | cons x pre =>
        cases hs'
        exact go pre rfl same
    | slotEnd f' m q d fs hc hs' hm hn =>
      rw [hs] at hs'
      cases pre with
      | nil =>
        cases hs'
        have hnd := g.inv.once r
        rw [hsl] at hn hnd
        rw [next_append hnd] at hn
        cases B with
        | nil => cases hcm
        | cons x B => cases hn
      | cons x pre =>
        cases hs'
        exact go pre rfl same
    | slotUb => exact go pre hs same
    | nodeNext f' m q m' q' fs hc hs' hl hn =>
      rw [hs] at hs'
      cases pre with
      | nil => cases hs'
      | cons x pre =>
        cases hs'
        exact go (.node f' m q' :: pre) rfl same
    | nodeEnd f' m q fs hc hs' hl hn =>
      rw [hs] at hs'
      cases pre with
      | nil => cases hs'
      | cons x pre =>
        cases hs'
        exact go pre rfl same
    | nodeUb => exact go pre hs same

end Verif.Watch
