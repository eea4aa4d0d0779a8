import Verif.Watch.Good

/-!
Which operations are safe in callbacks.
-/

namespace Verif.Watch

/-- The reader that the operation takes from its source: `unbind`, destruction and assignment. -/
def Op.target : Op → Option Nat
  | .assign r _ | .moveAssign r _ | .destroy r | .unbind r => some r
  | _ => none

/-- The reader whose callbacks the operation destroys. -/
def Op.drops : Op → Option Nat
  | .destroy r | .unbind r => some r
  | _ => none

theorem Op.target_of_drops {op : Op} {r : Nat} (h : op.drops = some r) : op.target = some r := by
  cases op <;> simp_all [Op.drops, Op.target]

theorem relink_obs (s : St) (r : Nat) (hl : s.linked r = none) (n : Nat) :
    ∃ a, (s.relink r).obs n = s.obs n ++ a := by
  unfold St.relink
  split
  · rename_i m hn
    split
    · unfold St.link
      rw [hl]
      by_cases h : n = m
      · subst h; exact ⟨[r], by simp⟩
      · exact ⟨[], by simp [h]⟩
    · exact ⟨[], by simp⟩
  · exact ⟨[], by simp⟩

/-- What operations on readers do to the lists. -/
theorem misc_effect {st st' : St} {op : Op} (i : Inv st) (hm : op.misc = true) (h : st.user op = some st') :
    (∀ n, ∃ a, st'.obs n = (match op.target with
        | some r => (st.obs n).erase r
        | none => st.obs n) ++ a)
      ∧ (∀ q, op.drops ≠ some q → st.slots q <+: st'.slots q)
      ∧ (∀ q, st.alive q = true → op ≠ .destroy q → st'.alive q = true)
      ∧ (∀ q, op.drops = some q → st'.slots q = [] ∧ st'.linked q = none) := by
  have hnew : st.slots st.nr = [] := by
    have hd : st.alive st.nr = false := by
      cases h : st.alive st.nr
      · rfl
      · exact absurd (i.old _ h) (Nat.lt_irrefl _)
    exact (i.dead _ hd).1
  have pnew : ∀ n q, st.slots q <+: (st.new n).slots q := by
    intro n q
    show _ <+: upd st.slots st.nr [] q
    by_cases hq : q = st.nr
    · subst hq; simp [hnew]
    · simp [hq]
  have anew : ∀ n q, st.alive q = true → (st.new n).alive q = true := by
    intro n q hq
    show upd st.alive st.nr true q = true
    by_cases h : q = st.nr
    · subst h; simp
    · simp [h, hq]
  cases op <;> simp only [Op.misc, reduceCtorEq] at hm
  case mk n =>
    simp [St.user] at h; subst h
    exact ⟨fun n => ⟨[], by simp [Op.target, St.new]⟩, fun q _ => pnew _ q, fun q h _ => anew _ q h,
      fun q h => by simp [Op.drops] at h⟩
  case copy r =>
    simp [St.user] at h; obtain ⟨_, rfl⟩ := h
    exact ⟨fun n => ⟨[], by simp [Op.target, St.new]⟩, fun q _ => pnew _ q, fun q h _ => anew _ q h,
      fun q h => by simp [Op.drops] at h⟩
  case move r =>
    simp [St.user] at h; obtain ⟨_, rfl⟩ := h
    exact ⟨fun n => ⟨[], by simp [Op.target, St.new]⟩, fun q _ => pnew (st.node r) q,
      fun q h _ => anew (st.node r) q h, fun q h => by simp [Op.drops] at h⟩
  case assign r r2 =>
    simp only [St.user] at h
    split at h
    · rename_i ha
      cases h
      obtain ⟨_, _, _, k4⟩ := reset_inv i ha.1 ((st.unlink r).node r2)
      refine ⟨fun n => ?_, fun q _ => ?_, fun q h _ => ?_, fun q h => by simp [Op.drops] at h⟩
      · rw [k4]
        simp only [Op.target]
        split
        · exact ⟨_, rfl⟩
        · exact ⟨[], by simp⟩
      · rw [(relink_stack _ _).2.2.2.2.2.1]
        show _ <+: (st.unlink r).slots q
        rw [(unlink_stack _ _).2.2.2.2.2.2.1]
        exact List.prefix_refl _
      · rw [(relink_stack _ _).2.2.2.2.2.2.2.1]
        show (st.unlink r).alive q = true
        rw [(unlink_stack _ _).2.2.2.2.2.2.2.2.1]; exact h
    · cases h
  case moveAssign r r2 =>
    simp only [St.user] at h
    split at h
    · rename_i ha
      cases h
      refine ⟨fun n => ?_, fun q _ => ?_, fun q h _ => ?_, fun q h => by simp [Op.drops] at h⟩
      · simp only [Op.target]
        have ul := unlink_linked i.link i.nodup r
        have hl : (st.unlink r).linked r = none := by rw [ul.1]; simp
        obtain ⟨a, ha⟩ := relink_obs { st.unlink r with node := (if r = r2 then (st.unlink r).node
            else upd (upd (st.unlink r).node r ((st.unlink r).node r2)) r2 none) } r hl n
        exact ⟨a, by rw [ha, ← ul.2.1]⟩
      · rw [(relink_stack _ _).2.2.2.2.2.1]
        show _ <+: (st.unlink r).slots q
        rw [(unlink_stack _ _).2.2.2.2.2.2.1]
        exact List.prefix_refl _
      · rw [(relink_stack _ _).2.2.2.2.2.2.2.1]
        show (st.unlink r).alive q = true
        rw [(unlink_stack _ _).2.2.2.2.2.2.2.2.1]; exact h
    · cases h
  case destroy r =>
    simp only [St.user] at h
    split at h
    · rename_i ha
      cases h
      have hi := drop_inv i r
      obtain ⟨k1, k2, k3, k4⟩ := clear_inv hi r
      refine ⟨fun n => ⟨[], ?_⟩, fun q hq => ?_, fun q h hq => ?_, fun q hq => ?_⟩
      · simp only [Op.target, List.append_nil]
        exact k4 n
      · show _ <+: _
        rw [show (({ ({ st with slots := upd st.slots r [], node := upd st.node r none } : St).unlink r with
          alive := upd (({ st with slots := upd st.slots r [], node := upd st.node r none } : St).unlink r).alive r
            false } : St).slots) = upd st.slots r [] from k2]
        have : q ≠ r := by intro e; subst e; exact hq rfl
        simp [this]
      · have : q ≠ r := by intro e; subst e; exact hq rfl
        simp only [upd_ne _ _ this]
        rw [(unlink_stack _ _).2.2.2.2.2.2.2.2.1]; exact h
      · simp only [Op.drops, Option.some.injEq] at hq
        subst hq
        constructor
        · rw [show (({ ({ st with slots := upd st.slots r [], node := upd st.node r none } : St).unlink r with
            alive := upd (({ st with slots := upd st.slots r [], node := upd st.node r none } : St).unlink r).alive
              r false } : St).slots) = upd st.slots r [] from k2]
          simp
        · rw [show (({ ({ st with slots := upd st.slots r [], node := upd st.node r none } : St).unlink r with
            alive := upd (({ st with slots := upd st.slots r [], node := upd st.node r none } : St).unlink r).alive
              r false } : St).linked) = upd st.linked r none from k3]
          simp
    · cases h
  case watch r =>
    simp only [St.user] at h
    split at h
    · rename_i ha
      cases h
      obtain ⟨e1, e2, e3, e4, e5, e6, _⟩ := watch_eq i (r := r) (c := st.nc)
      refine ⟨fun n => ?_, fun q _ => ?_, fun q h _ => ?_, fun q h => by simp [Op.drops] at h⟩
      · simp only [Op.target]
        rw [e4]
        split
        · exact ⟨_, rfl⟩
        · exact ⟨[], by simp⟩
      · show _ <+: (st.watch r st.nc).slots q
        rw [e1]
        by_cases hq : q = r
        · subst hq; simp
        · simp [hq]
      · show (st.watch r st.nc).alive q = true
        rw [e6]; exact h
    · cases h
  case unbind r =>
    simp only [St.user] at h
    split at h
    · cases h
      obtain ⟨k1, k2, k3, k4⟩ := clear_inv i r
      refine ⟨fun n => ⟨[], ?_⟩, fun q hq => ?_, fun q h hq => ?_, fun q hq => ?_⟩
      · simp only [Op.target, List.append_nil]
        exact k4 n
      · rw [k2]
        have : q ≠ r := by intro e; subst e; exact hq rfl
        simp [this]
      · rw [(unlink_stack _ _).2.2.2.2.2.2.2.2.1]; exact h
      · simp only [Op.drops, Option.some.injEq] at hq
        subst hq
        rw [k2, k3]; simp
    · cases h
  case get r =>
    simp only [St.user] at h
    split at h
    · split at h <;>
      · cases h
        exact ⟨fun n => ⟨[], by simp [Op.target, St.say]⟩, fun q _ => List.prefix_refl _, fun q h _ => h,
          fun q h => by simp [Op.drops] at h⟩
    · cases h
  case set r v =>
    simp only [St.user] at h
    split at h
    · split at h <;>
      · cases h
        exact ⟨fun n => ⟨[], by simp [Op.target, St.say]⟩, fun q _ => List.prefix_refl _, fun q h _ => h,
          fun q h => by simp [Op.drops] at h⟩
    · cases h
  case change n v =>
    simp only [St.user, Option.some.injEq] at h
    subst h
    exact ⟨fun n => ⟨[], by simp [Op.target]⟩, fun q _ => List.prefix_refl _, fun q h _ => h,
      fun q h => by simp [Op.drops] at h⟩

/-- The operation detaches what is being called: a loop that calls a reader needs the hook of that reader to
stay, a loop in a callback of a reader needs that callback to stay, and `bind` needs the reader. -/
def St.hits (st : St) (op : Op) : Prop :=
  ∃ fr ∈ st.stack, match fr with
    | .node _ _ r => op.target = some r
    | .slot _ _ r _ _ => op.drops = some r
    | .bind r _ => op = .destroy r

/-- `bind` or `nudge` on a reader without a source. -/
def St.nulls (st : St) (op : Op) : Prop :=
  ∃ r, (op = .bind r ∨ op = .nudge r) ∧ st.node r = none

/-- The operation neither takes away what a loop is about, nor dereferences a null pointer. -/
def St.fine (st : St) (op : Op) : Prop := ¬ st.hits op ∧ ¬ st.nulls op

/-- The states that can be reached by such operations. -/
inductive SafeReach : St → Prop where
  | start : SafeReach Watch.start
  | step {st st' : St} (op : Op) : SafeReach st → st.fine op → step st op = some st' → SafeReach st'

/-- An execution with such operations. -/
inductive SafeRun : St → List Op → St → Prop where
  | nil (st : St) : SafeRun st [] st
  | cons {st st1 st2 : St} {op : Op} {ops : List Op} :
      st.fine op → step st op = some st1 → SafeRun st1 ops st2 → SafeRun st (op :: ops) st2

theorem SafeReach.reach {st : St} (h : SafeReach st) : Reach st := by
  induction h with
  | start => exact .start
  | step op _ _ h ih => exact ih.step op h

theorem SafeRun.run {st st' : St} {ops : List Op} (h : SafeRun st ops st') : Run st ops st' := by
  induction h with
  | nil => exact .nil _
  | cons _ h _ ih => exact .cons h ih

theorem SafeReach.run {st st' : St} {ops : List Op} (r : SafeReach st) (h : SafeRun st ops st') :
    SafeReach st' := by
  induction h with
  | nil => exact r
  | cons hf h _ ih => exact ih (r.step _ hf h)

/-- What is being called is there. -/
structure Sound (st : St) : Prop where
  frames : ∀ fr ∈ st.stack, match fr with
    | .node _ n r => st.linked r = some n
    | .slot _ _ r c _ => c ∈ st.slots r
    | .bind r _ => st.alive r = true
  ub : st.ub = false

theorem next_mem {x y : Nat} {l : List Nat} (h : next x l = some y) : y ∈ l := by
  induction l with
  | nil => cases h
  | cons a l ih =>
    unfold next at h
    split at h
    · cases l with
      | nil => cases h
      | cons b l => simp at h; simp [h]
    · exact List.mem_cons_of_mem _ (ih h)

theorem misc_keep {st st' : St} {op : Op} (g : Good st) (k : Good st') (hm : op.misc = true)
    (h : st.user op = some st') :
    (∀ q n, op.target ≠ some q → st.linked q = some n → st'.linked q = some n)
      ∧ (∀ q c, op.drops ≠ some q → c ∈ st.slots q → c ∈ st'.slots q) := by
  obtain ⟨e1, e2, e3, e4⟩ := misc_effect g.inv hm h
  constructor
  · intro q n hq hl
    rw [k.inv.link]
    rw [g.inv.link] at hl
    obtain ⟨a, ha⟩ := e1 n
    rw [ha]
    apply List.mem_append_left
    split
    · rename_i r hr
      rw [List.mem_erase_of_ne (by intro e; subst e; exact hq hr)]; exact hl
    · exact hl
  · intro q c hq hc
    exact (e2 q hq).subset hc

theorem kind_sound {st st' : St} {op : Op} (g : Good st) (s : Sound st) (hf : st.fine op)
    (k : Kind st op st') : Sound st' := by
  have g' := kind_good g k
  cases k with
  | misc hm hc hu h1 h2 h3 h4 h5 h6 =>
    obtain ⟨k1, k2, k3⟩ := misc_slots g.inv hm hu
    obtain ⟨l1, l2⟩ := misc_keep g g' hm hu
    have l3 := (misc_effect g.inv hm hu).2.2.1
    refine ⟨?_, by rw [k2]; exact s.ub⟩
    rw [h1]
    intro fr hfr
    have := s.frames fr hfr
    have hh : ¬ _ := fun e => hf.1 ⟨fr, hfr, e⟩
    cases fr with
    | node f n r => exact l1 r n hh this
    | slot f n r c b => exact l2 r c hh this
    | bind r c => exact l3 r this hh
  | null r hc ho hn => exact absurd ⟨r, ho, hn⟩ hf.2
  | bind r n hc ha hn =>
    refine ⟨?_, s.ub⟩
    intro fr hfr
    rcases List.mem_cons.1 hfr with rfl | hfr
    · exact ha
    · exact s.frames fr hfr
  | nudge0 r n hc ha hn hs => exact s
  | nudge r n c l hc ha hn hs =>
    refine ⟨?_, s.ub⟩
    intro fr hfr
    rcases List.mem_cons.1 hfr with rfl | hfr
    · show c ∈ st.slots r
      rw [hs]; simp
    · exact s.frames fr hfr
  | notify0 n hc hs => exact ⟨s.frames, s.ub⟩
  | notify n r l hc hs =>
    refine ⟨?_, s.ub⟩
    intro fr hfr
    rcases List.mem_cons.1 hfr with rfl | hfr
    · show st.linked r = some n
      rw [g.inv.link, hs]; simp
    · exact s.frames fr hfr
  | retSlot f n r c b fs hc hs => exact ⟨s.frames, s.ub⟩
  | retBind r c fs hc hs ha =>
    have hi : Inv ({ st with stack := fs } : St) := g.inv.same ⟨rfl, rfl, rfl, rfl, rfl, rfl⟩ (Nat.le_refl _)
    obtain ⟨e1, e2, e3, e4, e5, e6, e7, e8, e9, e10, e11, e12, e13⟩ := watch_eq hi (r := r) (c := c)
    refine ⟨?_, by rw [e2]; exact s.ub⟩
    rw [e9]
    intro fr hfr
    have hfr : fr ∈ fs := hfr
    have := s.frames fr (by rw [hs]; exact List.mem_cons_of_mem _ hfr)
    cases fr with
    | node f n q =>
      show (St.watch _ r c).linked q = some n
      rw [g'.inv.link, e4]
      have this : st.linked q = some n := this
      rw [g.inv.link] at this
      show q ∈ if st.slots r = [] ∧ st.node r = some n then st.obs n ++ [r] else st.obs n
      split
      · simp [this]
      · exact this
    | slot f n q d b =>
      show d ∈ (St.watch _ r c).slots q
      rw [e1]
      have this : d ∈ st.slots q := this
      show d ∈ upd st.slots r (st.slots r ++ [c]) q
      by_cases hq : q = r
      · subst hq; simp [this]
      · simp [hq, this]
    | bind q d =>
      show (St.watch _ r c).alive q = true
      rw [e6]; exact this
  | retDead r c fs hc hs ha =>
    have : st.alive r = true := s.frames (.bind r c) (by rw [hs]; simp)
    rw [ha] at this; cases this
  | enter0 f n q r fs hc hs hl => exact ⟨s.frames, s.ub⟩
  | enter f n q r c l fs hc hs hl =>
    refine ⟨?_, s.ub⟩
    intro fr hfr
    rcases List.mem_cons.1 hfr with rfl | hfr
    · show c ∈ st.slots r
      rw [hl]; simp
    · exact s.frames fr hfr
  | slotNext f n r c c' b fs hc hs hm hn =>
    refine ⟨?_, s.ub⟩
    intro fr hfr
    rcases List.mem_cons.1 hfr with rfl | hfr
    · exact next_mem hn
    · exact s.frames fr (by rw [hs]; exact List.mem_cons_of_mem _ hfr)
  | nudgeEnd f n r c fs hc hs hm hn =>
    exact ⟨fun fr hfr => s.frames fr (by rw [hs]; exact List.mem_cons_of_mem _ hfr), s.ub⟩
  | slotEnd f n r c fs hc hs hm hn =>
    exact ⟨fun fr hfr => s.frames fr (by rw [hs]; exact List.mem_cons_of_mem _ hfr), s.ub⟩
  | slotUb f n r c b fs hc hs hm =>
    exact absurd (s.frames (.slot f n r c b) (by rw [hs]; simp)) hm
  | nodeNext f n r m r' fs hc hs hl hn =>
    have hl' : st.linked r = some n := s.frames (.node f n r) (by rw [hs]; simp)
    rw [hl] at hl'
    cases hl'
    refine ⟨?_, s.ub⟩
    intro fr hfr
    rcases List.mem_cons.1 hfr with rfl | hfr
    · exact (g.inv.link _ _).2 (next_mem hn)
    · exact s.frames fr (by rw [hs]; exact List.mem_cons_of_mem _ hfr)
  | nodeEnd f n r fs hc hs hl hn =>
    exact ⟨fun fr hfr => s.frames fr (by rw [hs]; exact List.mem_cons_of_mem _ hfr), s.ub⟩
  | nodeUb f n r fs hc hs hl =>
    have hl' : st.linked r = some n := s.frames (.node f n r) (by rw [hs]; simp)
    rcases hl with hl | ⟨m, hm, hl⟩
    · rw [hl] at hl'; cases hl'
    · rw [hl] at hl'; cases hl'; exact absurd rfl hm

theorem SafeReach.sound {st : St} (h : SafeReach st) : Sound st := by
  induction h with
  | start => exact ⟨fun fr hfr => by simp [Watch.start] at hfr, rfl⟩
  | step op h hf hs ih => exact kind_sound h.reach.good ih hf (step_kind hs).2

/-- Library code can always go on. -/
theorem lib_goes_on {st : St} (g : Good st) (hu : st.ub = false) (hc : st.ctrl ≠ .user) :
    ∃ st', step st .lib = some st' := by
  unfold step
  simp only [hu, hc, if_false, if_true, Bool.false_eq_true]
  have sh := g.shape
  unfold St.lib
  cases hk : st.ctrl with
  | user => exact absurd hk hc
  | enter r =>
    rw [hk] at sh
    obtain ⟨f, n, fs, h, _⟩ := sh
    rw [h]
    dsimp only
    split <;> exact ⟨_, rfl⟩
  | back =>
    rw [hk] at sh
    rcases sh with ⟨_, f, n, r, c, b, fs, h⟩ | ⟨f, n, r, fs, h, _⟩
    · rw [h]
      dsimp only
      split
      · split
        · exact ⟨_, rfl⟩
        · split <;> exact ⟨_, rfl⟩
      · exact ⟨_, rfl⟩
    · rw [h]
      dsimp only
      split
      · exact ⟨_, rfl⟩
      · split
        · exact ⟨_, rfl⟩
        · split <;> exact ⟨_, rfl⟩

end Verif.Watch
