import Verif.Watch.FlatProps

/-!
No callback is called twice by one notification, unless its reader is assigned to meanwhile.
-/

namespace Verif.Watch

/-- What comes behind `x`. -/
def drp (x : Nat) : List Nat → List Nat
  | [] => []
  | y :: l => if y = x then l else drp x l

theorem drp_sub {x y : Nat} {l : List Nat} (h : y ∈ drp x l) : y ∈ l := by
  induction l with
  | nil => cases h
  | cons z l ih =>
    simp only [drp] at h
    split at h
    · exact List.mem_cons_of_mem _ h
    · exact List.mem_cons_of_mem _ (ih h)

theorem drp_append {x y : Nat} {l a : List Nat} (h : y ∈ drp x (l ++ a)) : y ∈ drp x l ∨ y ∈ a := by
  induction l with
  | nil => exact .inr (drp_sub h)
  | cons z l ih =>
    simp only [List.cons_append, drp] at h ⊢
    by_cases hz : z = x
    · rw [if_pos hz] at h ⊢; simpa using h
    · rw [if_neg hz] at h ⊢; exact ih h

theorem drp_erase {x y q : Nat} {l : List Nat} (hq : q ≠ x) (h : y ∈ drp x (l.erase q)) : y ∈ drp x l := by
  induction l with
  | nil => cases h
  | cons z l ih =>
    by_cases hz : z = q
    · subst hz
      rw [List.erase_cons_head] at h
      simpa [drp, hq] using h
    · rw [List.erase_cons_tail (by simpa using hz)] at h
      simp only [drp] at h ⊢
      by_cases hx : z = x
      · rw [if_pos hx] at h ⊢; exact List.mem_of_mem_erase h
      · rw [if_neg hx] at h ⊢; exact ih h

theorem drp_self {x : Nat} {l : List Nat} (h : l.Nodup) : x ∉ drp x l := by
  induction l with
  | nil => intro h; cases h
  | cons z l ih =>
    rw [List.nodup_cons] at h
    simp only [drp]
    split
    · rename_i hz; subst hz; exact h.1
    · exact ih h.2

theorem drp_next {x y : Nat} {l : List Nat} (hd : l.Nodup) (h : next x l = some y) :
    y ∈ drp x l ∧ ∀ z ∈ drp y l, z ∈ drp x l := by
  induction l with
  | nil => cases h
  | cons a l ih =>
    rw [List.nodup_cons] at hd
    simp only [next] at h
    split at h
    · rename_i ha
      subst ha
      have hy : y ∈ l := List.mem_of_mem_head? h
      simp only [drp, if_true]
      refine ⟨hy, fun z hz => ?_⟩
      rw [if_neg (fun e : a = y => hd.1 (e ▸ hy))] at hz
      exact drp_sub hz
    · rename_i ha
      obtain ⟨h1, h2⟩ := ih hd.2 h
      have hy : y ∈ l := drp_sub h1
      simp only [drp, if_neg ha]
      refine ⟨h1, fun z hz => h2 z ?_⟩
      rwa [if_neg (fun e : a = y => hd.1 (e ▸ hy))] at hz

/-- The callbacks of readers in `P` that loop `f` has called. -/
def called (P : Nat → Bool) (f : Nat) (log : List Ev) : List Nat := ((calls f log).filter fun p => P p.1).map Prod.snd

/-- Callback `x` of a reader in `P` is still to come in loop `f` over the observers of a source. -/
inductive Ahead (P : Nat → Bool) (st : St) (f x : Nat) : Prop where
  | enter (n r : Nat) (fs : List Frame) : P r = true → st.stack = .node f n r :: fs → st.ctrl = .enter r →
      x ∈ st.slots r → Ahead P st f x
  | node (n r y : Nat) : P y = true → Frame.node f n r ∈ st.stack → y ∈ drp r (st.obs n) → x ∈ st.slots y →
      Ahead P st f x
  | slot (n r c : Nat) (b : Bool) : P r = true → Frame.slot f n r c b ∈ st.stack → x ∈ drp c (st.slots r) →
      Ahead P st f x

/-- Of the proof: the invariant. -/
structure Once (P : Nat → Bool) (f : Nat) (st : St) : Prop where
  ahead : ∀ x, Ahead P st f x → x ∉ called P f st.log
  nodup : (called P f st.log).Nodup
  old : ∀ x ∈ called P f st.log, x < st.nc ∧ x ∉ st.stack.filterMap bindOf

theorem called_append (P : Nat → Bool) (f : Nat) (a b : List Ev) :
    called P f (a ++ b) = called P f a ++ called P f b := by
  simp [called, calls_append]

/-- Nothing is called, and nothing but `z` gets ahead. -/
theorem once_keep {P : Nat → Bool} {f : Nat} {st s : St} (o : Once P f st)
    (d : List Ev) (hl : s.log = st.log ++ d) (hd : called P f d = [])
    (hc : st.nc ≤ s.nc)
    (hb : ∀ x ∈ s.stack.filterMap bindOf, x ∈ st.stack.filterMap bindOf ∨ st.nc ≤ x)
    (ha : ∀ x, Ahead P s f x → Ahead P st f x ∨ st.nc ≤ x ∨ x ∈ st.stack.filterMap bindOf) : Once P f s := by
  have e : called P f s.log = called P f st.log := by rw [hl, called_append, hd, List.append_nil]
  refine ⟨?_, by rw [e]; exact o.nodup, ?_⟩
  · intro x hx hm
    rw [e] at hm
    rcases ha x hx with h | h | h
    · exact o.ahead x h hm
    · have := (o.old x hm).1; omega
    · exact (o.old x hm).2 h
  · intro x hx
    rw [e] at hx
    obtain ⟨h1, h2⟩ := o.old x hx
    refine ⟨by omega, fun h => ?_⟩
    rcases hb x h with h | h
    · exact h2 h
    · omega

/-- `c` is called, by loop `f` if it was the next one to come. -/
theorem once_call {P : Nat → Bool} {f f' n r c v : Nat} {st s : St} (o : Once P f st)
    (hl : s.log = st.log ++ [.called f' n r c v])
    (hc : s.nc = st.nc) (hlt : c < st.nc) (hbc : c ∉ st.stack.filterMap bindOf)
    (hb : s.stack.filterMap bindOf = st.stack.filterMap bindOf)
    (ha : ∀ x, Ahead P s f x → Ahead P st f x) (h1 : f' = f → P r = true → Ahead P st f c)
    (h2 : f' = f → ¬ Ahead P s f c) : Once P f s := by
  by_cases h : f' = f ∧ P r = true
  · have e : called P f s.log = called P f st.log ++ [c] := by
      rw [hl, called_append]
      simp [called, calls, callOf, h.1, h.2]
    refine ⟨?_, ?_, ?_⟩
    · intro x hx hm
      rw [e, List.mem_append, List.mem_singleton] at hm
      rcases hm with hm | rfl
      · exact o.ahead x (ha x hx) hm
      · exact h2 h.1 hx
    · rw [e, List.nodup_append]
      refine ⟨o.nodup, by simp, ?_⟩
      intro a hm b hb hab
      simp only [List.mem_singleton] at hb
      subst hab hb
      exact o.ahead _ (h1 h.1 h.2) hm
    · intro x hx
      rw [e, List.mem_append, List.mem_singleton] at hx
      rw [hc, hb]
      rcases hx with hx | rfl
      · exact o.old x hx
      · exact ⟨hlt, hbc⟩
  · refine once_keep o _ hl (by
        by_cases hf : f' = f
        · have : P r = false := by cases hp : P r <;> simp_all
          simp [called, calls, callOf, hf, this]
        · simp [called, calls, callOf, hf]) (by omega)
      (fun x hx => .inl (by rwa [hb] at hx)) (fun x hx => .inl (ha x hx))

/-- Attaching `c` only makes `c` come behind something. -/
theorem watch_behind {st : St} (i : Inv st) (q c : Nat) :
    (∀ n r y x, True → y ∈ drp r ((st.watch q c).obs n) → x ∈ (st.watch q c).slots y →
      (y ∈ drp r (st.obs n) ∧ x ∈ st.slots y) ∨ x = c) ∧
    (∀ r a x, x ∈ drp a ((st.watch q c).slots r) → x ∈ drp a (st.slots r) ∨ x = c) := by
  obtain ⟨e1, -, -, e4, -⟩ := watch_eq i (r := q) (c := c)
  refine ⟨fun n r y x _ hy hx => ?_, fun r a x hx => ?_⟩
  · rw [e1] at hx
    by_cases hq : y = q
    · subst hq
      simp only [upd_same, List.mem_append, List.mem_singleton] at hx
      rcases hx with hx | hx
      · left
        refine ⟨?_, hx⟩
        rw [e4, if_neg (fun h => by rw [h.1] at hx; cases hx)] at hy
        exact hy
      · exact .inr hx
    · rw [upd_ne _ _ hq] at hx
      left
      refine ⟨?_, hx⟩
      rw [e4] at hy
      split at hy
      · rcases drp_append hy with h | h
        · exact h
        · exact absurd (List.mem_singleton.1 h) hq
      · exact hy
  · rw [e1] at hx
    by_cases hq : r = q
    · subst hq
      rw [upd_same] at hx
      rcases drp_append hx with h | h
      · exact .inl h
      · exact .inr (List.mem_singleton.1 h)
    · rw [upd_ne _ _ hq] at hx
      exact .inl hx

/-- What assigning to a reader does to lists of observers. -/
theorem assign_obs {st s : St} {op : Op} (i : Inv st) {r r2 : Nat} (ho : op = .assign r r2 ∨ op = .moveAssign r r2)
    (h : st.user op = some s) (n : Nat) : s.slots = st.slots ∧
      (s.obs n = (st.obs n).erase r ∨ s.obs n = (st.obs n).erase r ++ [r]) := by
  obtain ⟨-, -, -, -, -, -, u7, u8, -⟩ := unlink_stack st r
  obtain ⟨ul, uo, -⟩ := unlink_linked i.link i.nodup r
  have hl : (st.unlink r).linked r = none := by rw [ul]; simp
  rcases ho with rfl | rfl <;> simp only [St.user] at h <;> split at h <;> cases h
  · refine ⟨by rw [(relink_stack _ _).2.2.2.2.2.1]; exact u7, ?_⟩
    rw [relink_at (t := { st.unlink r with node := upd (st.unlink r).node r ((st.unlink r).node r2) }) hl]
    split
    · exact .inr (by rw [← uo])
    · exact .inl (by rw [← uo])
  · refine ⟨by rw [(relink_stack _ _).2.2.2.2.2.1]; exact u7, ?_⟩
    rw [relink_at (t := { st.unlink r with node := (if r = r2 then (st.unlink r).node
        else upd (upd (st.unlink r).node r ((st.unlink r).node r2)) r2 none) }) hl]
    by_cases hz : (st.unlink r).slots r ≠ [] ∧ (if r = r2 then (st.unlink r).node
        else upd (upd (st.unlink r).node r ((st.unlink r).node r2)) r2 none) r = some n
    · rw [if_pos hz]; exact .inr (by rw [← uo])
    · rw [if_neg hz]; exact .inl (by rw [← uo])

/-- What operations on readers, other than assignments to readers in `P`, do to what comes behind something. -/
theorem misc_behind {P : Nat → Bool} {st s : St} {op : Op} (g : Good st) (hm : op.misc = true)
    (h : st.user op = some s) (ha : ∀ q, op.assigns = some q → P q = false) :
    (∀ n r y x, P y = true → op.target ≠ some r → y ∈ drp r (s.obs n) → x ∈ s.slots y →
      (y ∈ drp r (st.obs n) ∧ x ∈ st.slots y) ∨ x = st.nc) ∧
    (∀ r c x, x ∈ drp c (s.slots r) → x ∈ drp c (st.slots r) ∨ x = st.nc) := by
  have i := g.inv
  have same : ∀ {t : St}, t.obs = st.obs → t.slots = st.slots →
      (∀ n r y x, P y = true → op.target ≠ some r → y ∈ drp r (t.obs n) → x ∈ t.slots y →
        (y ∈ drp r (st.obs n) ∧ x ∈ st.slots y) ∨ x = st.nc) ∧
      (∀ r c x, x ∈ drp c (t.slots r) → x ∈ drp c (st.slots r) ∨ x = st.nc) := by
    intro t h1 h2
    rw [h1, h2]
    exact ⟨fun n r y x _ _ h h' => .inl ⟨h, h'⟩, fun r c x h => .inl h⟩
  have less : ∀ {t : St} {q : Nat}, (∀ n, t.obs n = st.obs n ∨ (op.target = some q ∧ t.obs n = (st.obs n).erase q)) →
      t.slots = upd st.slots q [] →
      (∀ n r y x, P y = true → op.target ≠ some r → y ∈ drp r (t.obs n) → x ∈ t.slots y →
        (y ∈ drp r (st.obs n) ∧ x ∈ st.slots y) ∨ x = st.nc) ∧
      (∀ r c x, x ∈ drp c (t.slots r) → x ∈ drp c (st.slots r) ∨ x = st.nc) := by
    intro t q h1 h2
    rw [h2]
    refine ⟨fun n r y x _ ht hy hx => .inl ⟨?_, ?_⟩, fun r c x hx => .inl ?_⟩
    · rcases h1 n with h | ⟨h, h'⟩
      · rwa [h] at hy
      · rw [h'] at hy
        exact drp_erase (fun e => ht (e ▸ h)) hy
    · by_cases hq : y = q
      · subst hq; simp at hx
      · rwa [upd_ne _ _ hq] at hx
    · by_cases hq : r = q
      · subst hq; simp [drp] at hx
      · rwa [upd_ne _ _ hq] at hx
  have moved : ∀ {p p2 : Nat}, op = .assign p p2 ∨ op = .moveAssign p p2 → st.user op = some s →
      op.target = some p → op.assigns = some p →
      (∀ n r y x, P y = true → op.target ≠ some r → y ∈ drp r (s.obs n) → x ∈ s.slots y →
        (y ∈ drp r (st.obs n) ∧ x ∈ st.slots y) ∨ x = st.nc) ∧
      (∀ r c x, x ∈ drp c (s.slots r) → x ∈ drp c (st.slots r) ∨ x = st.nc) := by
    intro p p2 ho h htp hap
    have hsl := (assign_obs i ho h 0).1
    rw [hsl]
    refine ⟨fun n r y x hP ht hy hx => .inl ⟨?_, hx⟩, fun r c x hx => .inl hx⟩
    have hpr : p ≠ r := fun e => ht (by rw [htp, e])
    have hpy : y ≠ p := fun e => by rw [e, ha p hap] at hP; cases hP
    rcases (assign_obs i ho h n).2 with e | e
    · rw [e] at hy
      exact drp_erase hpr hy
    · rw [e] at hy
      rcases drp_append hy with hy | hy
      · exact drp_erase hpr hy
      · exact absurd (List.mem_singleton.1 hy) hpy
  cases op <;> simp only [Op.misc, reduceCtorEq] at hm
  case mk n => simp only [St.user] at h; cases h; exact less (q := st.nr) (fun n => .inl rfl) rfl
  case copy r =>
    simp only [St.user] at h
    split at h <;> cases h
    exact less (q := st.nr) (fun n => .inl rfl) rfl
  case move r =>
    simp only [St.user] at h
    split at h <;> cases h
    exact less (q := st.nr) (fun n => .inl rfl) rfl
  case assign r r2 => exact moved (.inl rfl) h rfl rfl
  case moveAssign r r2 => exact moved (.inr rfl) h rfl rfl
  case destroy r =>
    simp only [St.user] at h
    split at h <;> cases h
    obtain ⟨-, -, -, -, -, -, u7, -⟩ := unlink_stack { st with slots := upd st.slots r [], node := upd st.node r none } r
    obtain ⟨-, uo, -⟩ := unlink_linked (st := { st with slots := upd st.slots r [], node := upd st.node r none })
      i.link i.nodup r
    exact less (q := r) (fun n => .inr ⟨rfl, uo n⟩) u7
  case unbind r =>
    simp only [St.user] at h
    split at h <;> cases h
    obtain ⟨-, -, -, -, -, -, u7, -⟩ := unlink_stack { st with slots := upd st.slots r [] } r
    obtain ⟨-, uo, -⟩ := unlink_linked (st := { st with slots := upd st.slots r [] }) i.link i.nodup r
    exact less (q := r) (fun n => .inr ⟨rfl, uo n⟩) u7
  case watch r =>
    simp only [St.user] at h
    split at h <;> cases h
    exact ⟨fun n q y x _ _ => (watch_behind i r st.nc).1 n q y x trivial, (watch_behind i r st.nc).2⟩
  case get r =>
    simp only [St.user] at h
    split at h
    · split at h <;> cases h <;> exact same rfl rfl
    · cases h
  case set r v =>
    simp only [St.user] at h
    split at h
    · split at h <;> cases h <;> exact same rfl rfl
    · cases h
  case change n v => simp only [St.user] at h; cases h; exact same rfl rfl

/-- Nothing gets ahead when frames are only removed. -/
theorem ahead_less {P : Nat → Bool} {f : Nat} {st s : St} {x : Nat} (h : Ahead P s f x)
    (hs : ∀ fr ∈ s.stack, fr ∈ st.stack ∨ ∃ r c, fr = .bind r c) (ho : s.obs = st.obs)
    (hl : s.slots = st.slots) (hc : ∀ r, s.ctrl ≠ .enter r) : Ahead P st f x := by
  cases h with
  | enter n r fs hP _ h => exact absurd h (hc r)
  | node n r y hP h1 h2 h3 =>
    rw [ho] at h2
    rw [hl] at h3
    rcases hs _ h1 with h | ⟨_, _, h⟩
    · exact .node n r y hP h h2 h3
    · cases h
  | slot n r c b hP h1 h2 =>
    rw [hl] at h2
    rcases hs _ h1 with h | ⟨_, _, h⟩
    · exact .slot n r c b hP h h2
    · cases h

theorem once_kind {P : Nat → Bool} {f : Nat} {st s : St} {op : Op} (g : Good st) (sd : Sound st) (hf : st.fine op)
    (ha : ∀ q, op.assigns = some q → P q = false) (ho0 : called P st.nf st.log = []) (k : Kind st op s) (o : Once P f st) :
    Once P f s := by
  have i := g.inv
  have free : ∀ {r c : Nat}, c ∈ st.slots r → c ∉ st.stack.filterMap bindOf := fun h hb => (g.binds _ hb).2 _ h
  have pop : ∀ {fr : Frame} {fs : List Frame}, st.stack = fr :: fs →
      ∀ x ∈ fs.filterMap bindOf, x ∈ st.stack.filterMap bindOf ∨ st.nc ≤ x := by
    intro fr fs h x hx
    left
    rw [h, List.filterMap_cons]
    split
    · exact hx
    · exact List.mem_cons_of_mem _ hx
  have none_old : ∀ fr ∈ st.stack, fid fr ≠ some st.nf := fun fr hm e => Nat.lt_irrefl _ (shape_lt g.shape fr hm _ e)
  cases k with
  | @misc _ _ d hm hc hu h1 h2 h3 h4 h5 h6 =>
    refine once_keep o d h4 ?_ h6 (fun x hx => .inl (by rwa [h1] at hx)) ?_
    · have : calls f d = [] := by
        simp only [calls, List.filterMap_eq_nil_iff]
        intro e he
        have := h5 e he
        cases e <;> simp_all [Ev.misc, callOf]
      rw [called, this]; rfl
    · obtain ⟨b1, b2⟩ := misc_behind g hm hu ha
      intro x hx
      cases hx with
      | enter n r fs hP _ h => rw [h2, hc] at h; cases h
      | node n r y hP e1 e2 e3 =>
        rw [h1] at e1
        have hh : op.target ≠ some r := fun e => hf.1 ⟨_, e1, e⟩
        rcases b1 n r y x hP hh e2 e3 with ⟨h, h'⟩ | h
        · exact .inl (.node n r y hP e1 h h')
        · exact .inr (.inl (by omega))
      | slot n r c b hP e1 e2 =>
        rw [h1] at e1
        rcases b2 r c x e2 with h | h
        · exact .inl (.slot n r c b hP e1 h)
        · exact .inr (.inl (by omega))
  | null r hc ho hn => exact absurd ⟨r, ho, hn⟩ hf.2
  | bind r n hc =>
    refine once_keep o [.bound r st.nc (st.val n)] rfl rfl (Nat.le_succ _) ?_ ?_
    · intro x hx
      simp only [List.filterMap_cons, bindOf, List.mem_cons] at hx
      rcases hx with rfl | hx
      · exact .inr (Nat.le_refl _)
      · exact .inl hx
    · intro x hx
      left
      refine ahead_less hx ?_ rfl rfl ?_
      · intro fr hm
        rcases List.mem_cons.1 hm with rfl | hm
        · exact .inr ⟨_, _, rfl⟩
        · exact .inl hm
      · intro q hq; have : st.ctrl = .enter q := hq; rw [hc] at this; cases this
  | nudge0 => exact o
  | nudge r n c l hc _ _ hs =>
    have hcm : c ∈ st.slots r := by rw [hs]; simp
    by_cases hne : st.nf = f ∧ P r = true
    · obtain ⟨rfl, hPr⟩ := hne
      have e : called P st.nf (st.log ++ [.called st.nf n r c (st.val n)]) = [c] := by
        rw [called_append, ho0]
        simp [called, calls, callOf, hPr]
      refine ⟨?_, ?_, ?_⟩
      · intro x hx hm
        have hm : x ∈ called P st.nf (st.log ++ [.called st.nf n r c (st.val n)]) := hm
        rw [e, List.mem_singleton] at hm
        subst hm
        cases hx with
        | enter n' r' fs hP h => cases h
        | node n' r' y hP e1 => exact none_old _ (by simpa using e1) rfl
        | slot n' r' c' b hP e1 e2 =>
          rcases List.mem_cons.1 e1 with e | e
          · cases e; exact drp_self (i.once r) e2
          · exact none_old _ e rfl
      · show (called P st.nf (st.log ++ [.called st.nf n r c (st.val n)])).Nodup
        rw [e]; simp
      · intro x hx
        have hx : x ∈ called P st.nf (st.log ++ [.called st.nf n r c (st.val n)]) := hx
        rw [e, List.mem_singleton] at hx
        subst hx
        exact ⟨i.fresh _ _ hcm, free hcm⟩
    refine once_keep o [.called st.nf n r c (st.val n)] rfl (by
        by_cases hf : st.nf = f
        · have : P r = false := by cases hp : P r <;> simp_all
          simp [called, calls, callOf, hf, this]
        · simp [called, calls, callOf, hf])
      (Nat.le_refl _) (fun x hx => .inl hx) ?_
    intro x hx
    left
    cases hx with
    | enter n' r' fs hP h => cases h
    | node n' r' y hP e1 e2 e3 => exact .node n' r' y hP (by simpa using e1) e2 e3
    | slot n' r' c' b hP e1 e2 =>
      rcases List.mem_cons.1 e1 with e | e
      · cases e; exact absurd ⟨rfl, hP⟩ hne
      · exact .slot n' r' c' b hP e e2
  | notify0 n hc hs =>
    refine once_keep o [.notify st.nf n, .done st.nf] (by simp [St.say]) rfl (Nat.le_refl _)
      (fun x hx => .inl hx) ?_
    intro x hx
    refine .inl (ahead_less hx (fun _ h => .inl h) rfl rfl ?_)
    intro q hq; have : st.ctrl = .enter q := hq; rw [hc] at this; cases this
  | notify n r l hc hs =>
    by_cases hne : st.nf = f
    · subst hne
      have e : called P st.nf (st.log ++ [.notify st.nf n] ++ [.turn st.nf r]) = [] := by
        rw [called_append, called_append, ho0]
        rfl
      have e : called P st.nf ({ (st.say (.notify st.nf n)).say (.turn st.nf r) with
        stack := .node st.nf n r :: st.stack, nf := st.nf + 1, ctrl := .enter r } : St).log = [] := e
      constructor
      · intro x _; rw [e]; simp
      · rw [e]; simp
      · intro x; rw [e]; simp
    refine once_keep o [.notify st.nf n, .turn st.nf r] (by simp [St.say]) rfl (Nat.le_refl _)
      (fun x hx => .inl hx) ?_
    intro x hx
    left
    cases hx with
    | enter n' r' fs hP h => cases h; exact absurd rfl hne
    | node n' r' y hP e1 e2 e3 =>
      rcases List.mem_cons.1 e1 with e | e
      · cases e; exact absurd rfl hne
      · exact .node n' r' y hP e e2 e3
    | slot n' r' c' b hP e1 e2 => exact .slot n' r' c' b hP (by simpa using e1) e2
  | retSlot f' n r c b fs hc hs =>
    exact once_keep o [] (by simp) rfl (Nat.le_refl _) (fun x hx => .inl hx)
      (fun x hx => .inl (ahead_less hx (fun _ h => .inl h) rfl rfl (fun q hq => by cases hq)))
  | retBind r c fs hc hs hal =>
    have hi : Inv ({ st with stack := fs } : St) := i.same ⟨rfl, rfl, rfl, rfl, rfl, rfl⟩ (Nat.le_refl _)
    obtain ⟨-, -, -, -, -, -, -, e8, e9, e10, e11, e12, -⟩ := watch_eq hi (r := r) (c := c)
    obtain ⟨b1, b2⟩ := watch_behind hi r c
    refine once_keep o [] (by rw [e12]; simp) rfl (by rw [e8]; exact Nat.le_refl _) ?_ ?_
    · intro x hx
      rw [e9] at hx
      exact pop hs x hx
    · have hcb : c ∈ st.stack.filterMap bindOf := by rw [hs]; simp [bindOf]
      intro x hx
      cases hx with
      | enter n' r' fs' hP _ h =>
        rw [e10] at h
        have : st.ctrl = .enter r' := h
        rw [hc] at this; cases this
      | node n' r' y hP h1 h2 h3 =>
        rw [e9] at h1
        rcases b1 n' r' y x trivial h2 h3 with ⟨h, h'⟩ | h
        · exact .inl (.node n' r' y hP (by rw [hs]; exact List.mem_cons_of_mem _ h1) h h')
        · subst h; exact .inr (.inr hcb)
      | slot n' r' c' b hP h1 h2 =>
        rw [e9] at h1
        rcases b2 r' c' x h2 with h | h
        · exact .inl (.slot n' r' c' b hP (by rw [hs]; exact List.mem_cons_of_mem _ h1) h)
        · subst h; exact .inr (.inr hcb)
  | retDead r c fs hc hs hd =>
    have : st.alive r = true := sd.frames (.bind r c) (by rw [hs]; simp)
    rw [hd] at this; cases this
  | enter0 f' n q r fs hc hs hsl =>
    exact once_keep o [] (by simp) rfl (Nat.le_refl _) (fun x hx => .inl hx)
      (fun x hx => .inl (ahead_less hx (fun _ h => .inl h) rfl rfl (fun q hq => by cases hq)))
  | enter f' n q r c l fs hc hs hsl =>
    have hcm : c ∈ st.slots r := by rw [hsl]; simp
    have hsh := g.shape
    rw [hc, hs] at hsh
    obtain ⟨f1, n1, fs1, he, hlt, hb⟩ := hsh
    have hq : r = q := by cases he; rfl
    have hb : Base f' fs := by cases he; exact hb
    clear he
    subst hq
    refine once_call o (f' := f') (n := n) (r := r) (c := c) rfl rfl (i.fresh _ _ hcm) (free hcm) rfl ?_ ?_ ?_
    · intro x hx
      cases hx with
      | enter n' r' fs' hP _ h => cases h
      | node n' r' y hP h1 h2 h3 => exact .node n' r' y hP (by simpa using h1) h2 h3
      | slot n' r' c' b hP h1 h2 =>
        rcases List.mem_cons.1 h1 with h | h
        · cases h
          exact .enter n r fs hP hs hc (drp_sub h2)
        · exact .slot n' r' c' b hP h h2
    · intro e hP
      subst e
      exact .enter n r fs hP hs hc hcm
    · intro e hx
      subst e
      cases hx with
      | enter n' r' fs' hP _ h => cases h
      | node n' r' y hP h1 h2 h3 =>
        have h1 : Frame.node f' n' r' ∈ st.stack := by simpa using h1
        rw [hs] at h1
        rcases List.mem_cons.1 h1 with h | h
        · cases h
          have := i.owner _ _ _ h3 hcm
          subst this
          exact drp_self (i.nodup n) h2
        · exact Nat.lt_irrefl _ (base_lt hb _ h f' rfl)
      | slot n' r' c' b hP h1 h2 =>
        rcases List.mem_cons.1 h1 with h | h
        · cases h
          exact drp_self (i.once r) h2
        · rw [hs] at h
          rcases List.mem_cons.1 h with h | h
          · cases h
          · exact Nat.lt_irrefl _ (base_lt hb _ h f' rfl)
  | slotNext f' n r c c' b fs hc hs hm hn =>
    have hcm : c' ∈ st.slots r := next_mem hn
    obtain ⟨d1, d2⟩ := drp_next (i.once r) hn
    have hsh := g.shape
    rw [hc, hs] at hsh
    have hfs : ∀ fr ∈ fs, fid fr = some f' → ∃ m, fr = .node f' m r := by
      rcases hsh with ⟨hb, -⟩ | ⟨f1, n1, r1, fs1, he, -⟩
      · cases hb with
        | nudge _ _ _ _ hb => exact fun fr hm he => absurd (base_lt hb _ hm f' he) (Nat.lt_irrefl _)
        | node _ _ _ _ hb =>
          intro fr hm he
          rcases List.mem_cons.1 hm with h | h
          · exact ⟨_, h⟩
          · exact absurd (base_lt hb _ h f' he) (Nat.lt_irrefl _)
      · cases he
    refine once_call o (f' := f') (n := n) (r := r) (c := c') rfl rfl (i.fresh _ _ hcm) (free hcm)
      (by rw [hs]; rfl) ?_ ?_ ?_
    · intro x hx
      cases hx with
      | enter n' r' fs' hP _ h => cases h
      | node n' r' y hP h1 h2 h3 =>
        exact .node n' r' y hP (by rw [hs]; exact List.mem_cons_of_mem _ (by simpa using h1)) h2 h3
      | slot n' r' c2 b' hP h1 h2 =>
        rcases List.mem_cons.1 h1 with h | h
        · cases h
          exact .slot n r c b hP (by rw [hs]; simp) (d2 x h2)
        · exact .slot n' r' c2 b' hP (by rw [hs]; exact List.mem_cons_of_mem _ h) h2
    · intro e hP
      subst e
      exact .slot n r c b hP (by rw [hs]; simp) d1
    · intro e hx
      subst e
      cases hx with
      | enter n' r' fs' hP _ h => cases h
      | node n' r' y hP h1 h2 h3 =>
        have h1 : Frame.node f' n' r' ∈ fs := by simpa using h1
        obtain ⟨m, hm'⟩ := hfs _ h1 rfl
        cases hm'
        have := i.owner _ _ _ h3 hcm
        subst this
        exact drp_self (i.nodup n') h2
      | slot n' r' c2 b' hP h1 h2 =>
        rcases List.mem_cons.1 h1 with h | h
        · cases h
          exact drp_self (i.once r) h2
        · obtain ⟨m, hm'⟩ := hfs _ h rfl
          cases hm'
  | nudgeEnd f' n r c fs hc hs =>
    exact once_keep o [.done f'] rfl rfl (Nat.le_refl _) (pop hs)
      (fun x hx => .inl (ahead_less hx (fun _ h => .inl (by rw [hs]; exact List.mem_cons_of_mem _ h)) rfl rfl
        (fun q hq => by cases hq)))
  | slotEnd f' n r c fs hc hs =>
    exact once_keep o [] (by simp) rfl (Nat.le_refl _) (pop hs)
      (fun x hx => .inl (ahead_less hx (fun _ h => .inl (by rw [hs]; exact List.mem_cons_of_mem _ h)) rfl rfl
        (fun q hq => by have : st.ctrl = .enter q := hq; rw [hc] at this; cases this)))
  | slotUb f' n r c b fs hc hs hm =>
    exact absurd (sd.frames (.slot f' n r c b) (by rw [hs]; simp)) hm
  | nodeNext f' n r m r' fs hc hs hl hn =>
    have hl' := sd.frames (.node f' n r) (by rw [hs]; simp)
    have hl' : st.linked r = some n := hl'
    rw [hl] at hl'
    cases hl'
    obtain ⟨d1, d2⟩ := drp_next (i.nodup n) hn
    refine once_keep o [.turn f' r'] rfl rfl (Nat.le_refl _)
      (fun x hx => .inl (by rw [hs]; simpa [bindOf] using hx)) ?_
    intro x hx
    left
    have top : Frame.node f' n r ∈ st.stack := by rw [hs]; simp
    cases hx with
    | enter n' r2 fs' hP h1 h2 h3 =>
      cases h1
      exact .node n r r' hP top d1 h3
    | node n' r2 y hP h1 h2 h3 =>
      rcases List.mem_cons.1 h1 with h | h
      · cases h
        exact .node n r y hP top (d2 y h2) h3
      · exact .node n' r2 y hP (by rw [hs]; exact List.mem_cons_of_mem _ h) h2 h3
    | slot n' r2 c2 b' hP h1 h2 =>
      exact .slot n' r2 c2 b' hP (by rw [hs]; exact List.mem_cons_of_mem _ (by simpa using h1)) h2
  | nodeEnd f' n r fs hc hs =>
    exact once_keep o [.done f'] rfl rfl (Nat.le_refl _) (pop hs)
      (fun x hx => .inl (ahead_less hx (fun _ h => .inl (by rw [hs]; exact List.mem_cons_of_mem _ h)) rfl rfl
        (fun q hq => by cases hq)))
  | nodeUb f' n r fs hc hs hl =>
    have hl' : st.linked r = some n := sd.frames (.node f' n r) (by rw [hs]; simp)
    rcases hl with h | ⟨m, hm, h⟩
    · rw [h] at hl'; cases hl'
    · rw [h] at hl'; cases hl'; exact absurd rfl hm

theorem run_once {P : Nat → Bool} {st s2 : St} (hr : SafeReach st) {ops : List Op} (hrun : SafeRun st ops s2)
    (ha : ∀ op ∈ ops, ∀ q, op.assigns = some q → P q = false) {f : Nat} (o : Once P f st) : Once P f s2 := by
  induction hrun with
  | nil => exact o
  | cons hf h _ ih =>
    exact ih (hr.step _ hf h) (fun op hm => ha op (List.mem_cons_of_mem _ hm))
      (once_kind hr.reach.good hr.sound hf (ha _ (List.mem_cons_self ..)) (by rw [called, calls_old hr.reach]; rfl)
        (step_kind h).2 o)

theorem called_nodup {P : Nat → Bool} {st s2 : St} (hr : SafeReach st) {ops : List Op} (hrun : SafeRun st ops s2)
    (ha : ∀ op ∈ ops, ∀ q, op.assigns = some q → P q = false) {f : Nat} (hf : st.nf ≤ f) :
    (called P f s2.log).Nodup := by
  have e : called P f st.log = [] := by
    have : calls f st.log = [] := by
      simp only [calls, List.filterMap_eq_nil_iff]
      intro e he
      cases e <;> simp only [callOf]
      rename_i f' n r c v
      rw [if_neg]
      have := hr.reach.called_lt f' n r c v he
      omega
    rw [called, this]; rfl
  have o : Once P f st := ⟨fun x _ => by rw [e]; simp, by rw [e]; exact .nil, fun x => by rw [e]; simp⟩
  exact (run_once hr hrun ha o).nodup

/-- C114: no notification, and no `nudge`, calls a callback twice, whatever is attached, detached and notified meanwhile,
as long as nothing is assigned to readers.  (Here `f` is any notification, or `nudge`, that begins in the course of
`ops`.) -/
theorem C114_at_most_once {st s2 : St} (hr : SafeReach st) {ops : List Op} (hrun : SafeRun st ops s2)
    (ha : ∀ op ∈ ops, op.assigns = none) {f : Nat} (hf : st.nf ≤ f) : ((calls f s2.log).map Prod.snd).Nodup := by
  have h := called_nodup (P := fun _ => true) hr hrun (fun op hm q hq => by rw [ha op hm] at hq; cases hq) hf
  rwa [called, List.filter_eq_self.2 (fun _ _ => rfl)] at h

/-- C114: no notification, and no `nudge`, calls a callback of a reader twice, as long as nothing is assigned to this
reader; it does not matter what is assigned to other readers. -/
theorem C114_reader_at_most_once {st s2 : St} (hr : SafeReach st) {ops : List Op} (hrun : SafeRun st ops s2) {r : Nat}
    (ha : ∀ op ∈ ops, op.assigns ≠ some r) {f : Nat} (hf : st.nf ≤ f) (c : Nat) :
    (calls f s2.log).count (r, c) ≤ 1 := by
  have h := called_nodup (P := fun q => decide (q = r)) hr hrun
    (fun op hm q hq => by simp only [decide_eq_false_iff_not]; intro e; exact ha op hm (e ▸ hq)) hf
  have h2 : ((calls f s2.log).filter fun p => decide (p.1 = r)).Nodup := by
    refine List.Pairwise.of_map (S := (· ≠ ·)) Prod.snd ?_ h
    intro a b hn e
    exact hn (by rw [e])
  have h3 := List.nodup_iff_count.1 h2 (r, c)
  rwa [List.count_filter (by simp)] at h3

/-- The first callback attaches callbacks, one callback detaches what comes behind it. -/
example : ((calls 0 (after (exOrder ++ [.notify 1, .lib, .watch 1, .watch 2, .ret, .lib, .unbind 0, .ret, .lib,
      .ret, .lib, .lib, .lib, .ret, .lib, .lib])).log).map Prod.snd) = [0, 3, 4, 5] ∧
    ((calls 0 (after (exOrder ++ [.notify 1, .lib, .watch 1, .watch 2, .ret, .lib, .unbind 0, .ret, .lib,
      .ret, .lib, .lib, .lib, .ret, .lib, .lib])).log).map Prod.snd).Nodup :=
  ⟨by decide +kernel, C114_at_most_once (safe_after (ops := exOrder) (by decide +kernel))
    (safeRun_after (by decide +kernel)) (by decide) (by decide +kernel)⟩

/-- The last callback assigns to the first reader: this calls the first callback twice, and the other one once. -/
example : (calls 0 (after ([.mk (some 1), .mk (some 1), .mk (some 1), .watch 0, .watch 1] ++
      [.notify 1, .lib, .ret, .lib, .lib, .lib, .assign 0 2, .ret, .lib, .lib, .lib, .ret, .lib, .lib])).log) =
      [(0, 0), (1, 1), (0, 0)] ∧
    (calls 0 (after ([.mk (some 1), .mk (some 1), .mk (some 1), .watch 0, .watch 1] ++
      [.notify 1, .lib, .ret, .lib, .lib, .lib, .assign 0 2, .ret, .lib, .lib, .lib, .ret, .lib, .lib])).log).count
      (1, 1) ≤ 1 :=
  ⟨by decide +kernel, C114_reader_at_most_once (safe_after
    (ops := [.mk (some 1), .mk (some 1), .mk (some 1), .watch 0, .watch 1]) (by decide +kernel))
    (safeRun_after (by decide +kernel)) (by decide) (by decide +kernel) 1⟩

/-- C114: a notification can call a callback twice: the last callback assigns to the reader of the first one, which was
called already, a reader of the same source. -/
theorem C114_twice_false : ∃ st s2 : St, SafeReach st ∧ ∃ ops, SafeRun st ops s2 ∧
    (calls st.nf s2.log).map Prod.snd = [0, 1, 0] ∧ s2.stack = [] ∧ Ev.done st.nf ∈ s2.log :=
  ⟨after [.mk (some 1), .mk (some 1), .mk (some 1), .watch 0, .watch 1],
    after ([.mk (some 1), .mk (some 1), .mk (some 1), .watch 0, .watch 1] ++
      [.notify 1, .lib, .ret, .lib, .lib, .lib, .assign 0 2, .ret, .lib, .lib, .lib, .ret, .lib, .lib]),
    safe_after (by decide +kernel), _, safeRun_after (by decide +kernel), by decide +kernel, by decide +kernel,
    by decide +kernel⟩

end Verif.Watch
