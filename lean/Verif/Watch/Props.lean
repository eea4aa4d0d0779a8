import Verif.Watch.Exec

/-!
Properties of watching readers.

Sources, readers, callbacks and loops have numbers.  A loop is one notification of a source or one `nudge`; its
number is `st.nf` in the state `st` in which it starts.  `Reach`, `Run` are about any sequence of operations,
including those in callbacks; `SafeReach` and `SafeRun` about those that are not of the kind that C20 calls undefined.
`st.obs n` is the list of readers linked to source `n`, `st.slots r` the list of callbacks attached to reader `r`.
-/

namespace Verif.Watch

/-! ## C18 -/

theorem user_of {st st' : St} {op : Op} (hm : op.misc = true) (h : step st op = some st') :
    st.user op = some st' ∧ st.ctrl = .user := by
  unfold step at h
  split at h
  · cases h
  · split at h
    · exact ⟨h, ‹_›⟩
    · split at h
      · rename_i he; subst he; cases hm
      · cases h

theorem Op.misc_of_drops {op : Op} {r : Nat} (h : op.drops = some r) : op.misc = true := by
  cases op <;> simp_all [Op.drops, Op.misc]

/-- C18: after `unbind` or destruction of a reader, no callback that was attached to it is called ever again, by any
source and whatever else happens. -/
theorem C18_gone {st s1 s2 : St} (hr : Reach st) {op : Op} {r : Nat} (ho : op = .unbind r ∨ op = .destroy r)
    (h : step st op = some s1) {ops : List Op} (hrun : Run s1 ops s2) {d : List Ev} (hd : s2.log = s1.log ++ d)
    {c : Nat} (hc : c ∈ st.slots r) : ∀ f n q v, Ev.called f n q c v ∉ d := by
  have g := hr.good
  have hdr : op.drops = some r := by rcases ho with rfl | rfl <;> rfl
  have hm := Op.misc_of_drops hdr
  obtain ⟨hu, hct⟩ := user_of hm h
  obtain ⟨_, _, e⟩ := misc_slots g.inv hm hu
  obtain ⟨_, _, _, e4⟩ := misc_effect g.inv hm hu
  have hlt := g.inv.fresh r c hc
  refine run_gone (step_good g h) hrun ⟨?_, ?_, ?_⟩ hd
  · have k := (step_kind h).2
    cases k with
    | misc _ _ _ _ _ _ _ _ h6 => omega
    | null _ _ hz => rcases hz with rfl | rfl <;> cases hm
    | _ => cases hm
  · intro q hq
    rcases e q c hq with h' | h'
    · have := g.inv.owner q r c h' hc
      subst this
      rw [(e4 q hdr).1] at hq; cases hq
    · omega
  · have k := (step_kind h).2
    cases k with
    | misc _ _ _ h1 =>
      rw [h1]; intro hb; exact (g.binds c hb).2 r hc
    | null _ _ hz => rcases hz with rfl | rfl <;> cases hm
    | _ => cases hm

/-- Source 1 has readers 0 and 1, with callbacks 0 and 1; reader 0 is unbound in the callback of reader 1 in a
notification, while there is another one to come. -/
def exGone : List Op :=
  [.change 1 7, .mk (some 1), .mk (some 1), .watch 1, .watch 0, .notify 1, .lib]

example : ∀ f n q v, Ev.called f n q 1 v ∉
    (after (exGone ++ [.unbind 0, .ret, .lib, .lib, .notify 1, .lib, .ret, .lib, .lib])).log.drop 3 := by
  have h1 : ok (exGone ++ [.unbind 0]) = true := by decide +kernel
  have h2 : ok ((exGone ++ [.unbind 0]) ++ [.ret, .lib, .lib, .notify 1, .lib, .ret, .lib, .lib]) = true := by
    decide +kernel
  refine C18_gone (c := 1) (reach_after (ops := exGone) (by decide +kernel)) (.inl rfl) (step_after h1) (run_after h2)
    ?_ (by decide +kernel)
  decide +kernel

theorem run_of {st s2 : St} (hr : SafeReach st) {ops : List Op} (hrun : SafeRun st ops s2) {r : Nat}
    {m : Option Nat} (hof : Of st r m) (ha : ∀ op ∈ ops, op.assigns ≠ some r) {d : List Ev}
    (hd : s2.log = st.log ++ d) {f n n' c v : Nat} (hc : Ev.called f n r c v ∈ d)
    (hn : Ev.notify f n' ∈ s2.log) : n = n' ∧ m = some n := by
  induction hrun generalizing d with
  | nil st =>
    have : d = [] := List.self_eq_append_right.1 hd
    subst this; cases hc
  | @cons st s1 s2 op ops hf h h' ih =>
    have g := hr.reach.good
    have k := (step_kind h).2
    obtain ⟨d1, hd1⟩ := kind_log g k
    have g1 := kind_good g k
    obtain ⟨d2, hd2⟩ := run_log g1 h'.run
    have : d = d1 ++ d2 := by
      rw [hd2, hd1, List.append_assoc] at hd
      exact (List.append_cancel_left hd).symm
    subst this
    have hr1 := hr.step op hf h
    rcases List.mem_append.1 hc with hc | hc
    · -- the number is of a loop that has started
      have hlt := hr1.reach.called_lt f n r c v (by rw [hd1]; exact List.mem_append_right _ hc)
      have hn1 : Ev.notify f n' ∈ s1.log := by
        have later : ∀ (a b : St) (ops : List Op), SafeReach a → SafeRun a ops b → f < a.nf →
            Ev.notify f n' ∈ b.log → Ev.notify f n' ∈ a.log := by
          intro a b ops hra hrn
          induction hrn with
          | nil => intro _ h; exact h
          | @cons x y z o os hf' hs' _ ih' =>
            intro hlt' hm
            have gx := hra.reach.good
            have kx := (step_kind hs').2
            have := ih' (hra.step o hf' hs') (Nat.lt_of_lt_of_le hlt' (kind_nf gx kx)) hm
            obtain ⟨e, he⟩ := kind_log gx kx
            rw [he] at this
            rcases List.mem_append.1 this with h | h
            · exact h
            · exfalso
              have none : ∀ {e' : List Ev}, y.log = x.log ++ e' → Ev.notify f n' ∈ e' := by
                intro e' he'
                rw [he] at he'
                rw [← List.append_cancel_left he']; exact h
              cases kx with
              | misc _ _ _ _ _ _ k4 k5 _ => have := k5 _ (none k4); cases this
              | null | nudge0 | retSlot | retDead | enter0 | slotEnd | slotUb | nodeUb =>
                have := none (e' := []) (by simp)
                cases this
              | bind | nudgeEnd | nodeNext | nodeEnd | nudge | enter | slotNext =>
                have := none (e' := [_]) rfl
                simp at this
              | notify0 m =>
                have := none (e' := [.notify x.nf m, .done x.nf]) (by simp [St.say])
                simp at this; omega
              | notify m q =>
                have := none (e' := [.notify x.nf m, .turn x.nf q]) (by simp [St.say])
                simp at this; omega
              | retBind q d' fs hc' hs ha =>
                have hi : Inv ({ x with stack := fs } : St) :=
                  gx.inv.same ⟨rfl, rfl, rfl, rfl, rfl, rfl⟩ (Nat.le_refl _)
                obtain ⟨e1, e2, e3, e4, e5, e6, e7, e8, e9, e10, e11, e12, e13⟩ :=
                  watch_eq hi (r := q) (c := d')
                have := none (e' := []) (by rw [e12]; simp)
                cases this
        exact later s1 s2 ops hr1 h' hlt hn
      obtain ⟨hl, hnn⟩ := called_linked hr h hd1 hc hn1
      exact ⟨hnn, hof.2.1 n hl⟩
    · exact ih hr1 (kind_of g k hof (ha op (by simp))) (fun op ho => ha op (List.mem_cons_of_mem _ ho)) hd2 hc hn

/-- What assignment does: the reader has the source of the other one, which is the only one it is linked to, and it
is linked if it has callbacks. -/
theorem assign_effect {st s1 : St} (g : Good st) {op : Op} {r r2 : Nat}
    (ho : op = .assign r r2 ∨ op = .moveAssign r r2) (h : step st op = some s1) :
    s1.node r = st.node r2 ∧ s1.linked r = (if st.slots r = [] then none else st.node r2)
      ∧ s1.slots = st.slots ∧ s1.nr = st.nr ∧ st.alive r = true ∧ s1.val = st.val := by
  have hm : op.misc = true := by rcases ho with rfl | rfl <;> rfl
  obtain ⟨hu, _⟩ := user_of hm h
  rcases ho with rfl | rfl
  · simp only [St.user] at hu
    split at hu
    · rename_i ha
      cases hu
      obtain ⟨_, _, k3, _⟩ := reset_inv g.inv ha.1 ((st.unlink r).node r2)
      obtain ⟨v1, v2, v3, v4, v5, v6, v7, v8, v9, v10⟩ :=
        relink_stack { st.unlink r with node := upd (st.unlink r).node r ((st.unlink r).node r2) } r
      obtain ⟨u1, u2, u3, u4, u5, u6, u7, u8, u9, u10, u11⟩ := unlink_stack st r
      refine ⟨?_, ?_, ?_, ?_, ha.1, ?_⟩
      · rw [v7]; simp [u8]
      · rw [k3]; simp [u8]
      · rw [v6]; exact u7
      · rw [v10]; exact u11
      · rw [v5]; exact u6
    · cases hu
  · simp only [St.user] at hu
    split at hu
    · rename_i ha
      cases hu
      obtain ⟨v1, v2, v3, v4, v5, v6, v7, v8, v9, v10⟩ :=
        relink_stack { st.unlink r with node := (if r = r2 then (st.unlink r).node
            else upd (upd (st.unlink r).node r ((st.unlink r).node r2)) r2 none) } r
      obtain ⟨u1, u2, u3, u4, u5, u6, u7, u8, u9, u10, u11⟩ := unlink_stack st r
      obtain ⟨ul, _⟩ := unlink_linked g.inv.link g.inv.nodup r
      have hn : (if r = r2 then (st.unlink r).node
            else upd (upd (st.unlink r).node r ((st.unlink r).node r2)) r2 none) r = st.node r2 := by
        by_cases hr : r = r2
        · subst hr; simp [u8]
        · simp [hr, u8]
      refine ⟨?_, ?_, ?_, ?_, ha.1, ?_⟩
      · rw [v7]; exact hn
      · generalize hq : ({ st.unlink r with node := (if r = r2 then (st.unlink r).node
            else upd (upd (st.unlink r).node r ((st.unlink r).node r2)) r2 none) } : St) = t
        have tn : t.node r = st.node r2 := by rw [← hq]; exact hn
        have tl : t.linked r = none := by rw [← hq]; show (st.unlink r).linked r = none; rw [ul]; simp
        have ts : t.slots = st.slots := by rw [← hq]; exact u7
        unfold St.relink
        rw [tn]
        cases hk : st.node r2 with
        | none => simp [tl]
        | some k =>
          simp only
          by_cases hs : st.slots r = []
          · simp [ts, hs, tl]
          · simp only [ts, ne_eq, hs, not_false_eq_true, if_true, if_false]
            unfold St.link
            rw [tl]
            simp
      · rw [v6]; exact u7
      · rw [v10]; exact u11
      · rw [v5]; exact u6
    · cases hu

/-- C18: after assigning another reader to `r`, its callbacks are called only for notifications of the source of
that other reader, until the next assignment to `r`.  Notifications of the old source that are going on are
included: `f` may be any loop. -/
theorem C18_assign {st s1 s2 : St} (hr : SafeReach st) {op : Op} {r r2 : Nat}
    (ho : op = .assign r r2 ∨ op = .moveAssign r r2) (hfine : st.fine op) (h : step st op = some s1)
    {ops : List Op} (hrun : SafeRun s1 ops s2) (ha : ∀ op ∈ ops, op.assigns ≠ some r) {d : List Ev}
    (hd : s2.log = s1.log ++ d) {f n n' c v : Nat} (hc : Ev.called f n r c v ∈ d)
    (hn : Ev.notify f n' ∈ s2.log) : n = n' ∧ st.node r2 = some n := by
  have g := hr.reach.good
  obtain ⟨e1, e2, e3, e4, e5, _⟩ := assign_effect g ho h
  refine run_of (hr.step op hfine h) hrun (m := st.node r2) ⟨?_, ?_, ?_⟩ ha hd hc hn
  · rw [e4]; exact g.inv.old r e5
  · intro k hk
    rw [e2] at hk
    split at hk
    · cases hk
    · exact hk
  · intro k hk; rw [e1] at hk; exact hk

def exAssign : List Op :=
  [.change 1 7, .mk (some 1), .mk (some 2), .watch 0]

example : SafeRun (after (exAssign ++ [.assign 0 1])) [.notify 1, .notify 2, .lib, .ret, .lib, .lib]
      (after ((exAssign ++ [.assign 0 1]) ++ [.notify 1, .notify 2, .lib, .ret, .lib, .lib]))
    ∧ Ev.called 1 2 0 0 0
      ∈ (after ((exAssign ++ [.assign 0 1]) ++ [.notify 1, .notify 2, .lib, .ret, .lib, .lib])).log
    ∧ (after exAssign).node 1 = some 2 := by
  have h2 : okSafe ((exAssign ++ [.assign 0 1]) ++ [.notify 1, .notify 2, .lib, .ret, .lib, .lib]) = true := by
    decide +kernel
  have h1 : ok (exAssign ++ [.assign 0 1]) = true := by decide +kernel
  have hc : Ev.called 1 2 0 0 0
      ∈ (after ((exAssign ++ [.assign 0 1]) ++ [.notify 1, .notify 2, .lib, .ret, .lib, .lib])).log := by
    decide +kernel
  refine ⟨safeRun_after h2, hc, ?_⟩
  exact (C18_assign (safe_after (ops := exAssign) (by decide +kernel)) (.inl rfl)
    (fine_of (by decide +kernel) (by decide +kernel)) (step_after h1) (safeRun_after h2)
    (by decide) (r := 0) (d := _) (by
      rw [show (after (exAssign ++ [.assign 0 1])).log = [] by decide +kernel]; exact (List.nil_append _).symm)
    (f := 1) (n := 2) (n' := 2) (c := 0) (v := 0) hc (by decide +kernel)).2

/-- C18: a new reader, in particular a copy and a moved-to one, has no callbacks and is not linked; nothing is
called for it until a callback is attached to it.  The callbacks of the others, in particular of the one
copied or moved from, stay where they are. -/
theorem C18_fresh {st s1 s2 : St} (hr : Reach st) {op : Op}
    (ho : (∃ n, op = .mk n) ∨ (∃ r, op = .copy r) ∨ ∃ r, op = .move r) (h : step st op = some s1)
    {ops : List Op} (hrun : Run s1 ops s2) (hw : ∀ op ∈ ops, op ≠ .watch st.nr ∧ op ≠ .bind st.nr)
    {d : List Ev} (hd : s2.log = s1.log ++ d) :
    s1.slots st.nr = [] ∧ (∀ n, st.nr ∉ s1.obs n) ∧ (∀ f n c v, Ev.called f n st.nr c v ∉ d)
      ∧ s1.slots = st.slots ∧ s1.obs = st.obs := by
  have g := hr.good
  have g1 := step_good g h
  have hm : op.misc = true := by rcases ho with ⟨n, rfl⟩ | ⟨n, rfl⟩ | ⟨n, rfl⟩ <;> rfl
  obtain ⟨hu, hct⟩ := user_of hm h
  have hdead : st.alive st.nr = false := by
    cases h : st.alive st.nr
    · rfl
    · exact absurd (g.inv.old _ h) (Nat.lt_irrefl _)
  have hs0 := (g.inv.dead _ hdead).1
  have hs : upd st.slots st.nr [] = st.slots := by
    funext q; by_cases hq : q = st.nr
    · subst hq; simp [hs0]
    · simp [hq]
  have key : s1.slots = st.slots ∧ s1.obs = st.obs := by
    rcases ho with ⟨n, rfl⟩ | ⟨r, rfl⟩ | ⟨r, rfl⟩ <;> simp only [St.user] at hu
    · cases hu; exact ⟨hs, rfl⟩
    · split at hu
      · cases hu; exact ⟨hs, rfl⟩
      · cases hu
    · split at hu
      · cases hu; exact ⟨hs, rfl⟩
      · cases hu
  have hsl : s1.slots st.nr = [] := by rw [key.1]; exact hs0
  have hno : ∀ n, st.nr ∉ s1.obs n := by
    intro n hn
    have := (g1.inv.link st.nr n).2 hn
    rw [g1.inv.unlinked hsl] at this; cases this
  refine ⟨hsl, hno, ?_, key.1, key.2⟩
  by_cases hb : ∃ c, Frame.bind st.nr c ∈ s1.stack
  · -- not possible: `bind` frames are about readers that exist
    exfalso
    obtain ⟨c, hb⟩ := hb
    have old : ∀ {s : St}, Reach s → ∀ r c, Frame.bind r c ∈ s.stack → r < s.nr := by
      intro s hr
      induction hr with
      | start => simp [Watch.start]
      | @step a b o hra hs ih =>
        have ga := hra.good
        have k := (step_kind hs).2
        intro r c hm
        have hnr : a.nr ≤ b.nr := by
          have hi : ∀ fs, Inv ({ a with stack := fs } : St) :=
            fun fs => ga.inv.same ⟨rfl, rfl, rfl, rfl, rfl, rfl⟩ (Nat.le_refl _)
          cases k with
          | misc hm hc hu =>
            cases o <;> simp only [Op.misc, reduceCtorEq] at hm <;> simp only [St.user] at hu
            case mk => cases hu; exact Nat.le_succ _
            case copy =>
              split at hu
              · cases hu; exact Nat.le_succ _
              · cases hu
            case move =>
              split at hu
              · cases hu; exact Nat.le_succ _
              · cases hu
            case assign q q2 =>
              exact Nat.le_of_eq (assign_effect ga (.inl rfl) hs).2.2.2.1.symm
            case moveAssign q q2 =>
              exact Nat.le_of_eq (assign_effect ga (.inr rfl) hs).2.2.2.1.symm
            case destroy q =>
              split at hu
              · cases hu
                show _ ≤ ((_ : St).unlink q).nr
                rw [(unlink_stack _ _).2.2.2.2.2.2.2.2.2.2]; exact Nat.le_refl _
              · cases hu
            case watch q =>
              split at hu
              · cases hu
                show _ ≤ (a.watch q a.nc).nr
                rw [(watch_eq ga.inv).2.2.2.2.2.2.1]; exact Nat.le_refl _
              · cases hu
            case unbind q =>
              split at hu
              · cases hu
                rw [(unlink_stack _ _).2.2.2.2.2.2.2.2.2.2]; exact Nat.le_refl _
              · cases hu
            case get q =>
              split at hu
              · split at hu <;>
                · cases hu
                  exact Nat.le_refl _
              · cases hu
            case set q v =>
              split at hu
              · split at hu <;>
                · cases hu
                  exact Nat.le_refl _
              · cases hu
            case change n v => cases hu; exact Nat.le_refl _
          | retBind q d fs => rw [(watch_eq (hi fs)).2.2.2.2.2.2.1]; exact Nat.le_refl _
          | _ => exact Nat.le_refl _
        refine Nat.lt_of_lt_of_le ?_ hnr
        cases k with
        | misc _ _ _ h1 => rw [h1] at hm; exact ih r c hm
        | bind q n hc ha hn =>
          rcases List.mem_cons.1 hm with hm | hm
          · cases hm; exact ga.inv.old _ ha
          · exact ih r c hm
        | null | nudge0 | notify0 | retSlot | enter0 | slotUb | nodeUb => exact ih r c hm
        | nudge | notify | enter =>
          rcases List.mem_cons.1 hm with hm | hm
          · cases hm
          · exact ih r c hm
        | retBind q d fs hc hs' ha =>
          have hi : Inv ({ a with stack := fs } : St) :=
            ga.inv.same ⟨rfl, rfl, rfl, rfl, rfl, rfl⟩ (Nat.le_refl _)
          rw [(watch_eq hi).2.2.2.2.2.2.2.2.1] at hm
          exact ih r c (by rw [hs']; exact List.mem_cons_of_mem _ hm)
        | retDead q d fs hc hs' ha => exact ih r c (by rw [hs']; exact List.mem_cons_of_mem _ hm)
        | slotNext f n q d d' b fs hc hs' =>
          rcases List.mem_cons.1 hm with hm | hm
          · cases hm
          · exact ih r c (by rw [hs']; exact List.mem_cons_of_mem _ hm)
        | nudgeEnd f n q d fs hc hs' => exact ih r c (by rw [hs']; exact List.mem_cons_of_mem _ hm)
        | slotEnd f n q d fs hc hs' => exact ih r c (by rw [hs']; exact List.mem_cons_of_mem _ hm)
        | nodeNext f n q m q' fs hc hs' =>
          rcases List.mem_cons.1 hm with hm | hm
          · cases hm
          · exact ih r c (by rw [hs']; exact List.mem_cons_of_mem _ hm)
        | nodeEnd f n q fs hc hs' => exact ih r c (by rw [hs']; exact List.mem_cons_of_mem _ hm)
    have k := (step_kind h).2
    cases k with
    | misc _ _ _ h1 =>
      rw [h1] at hb
      exact Nat.lt_irrefl _ (old hr st.nr c hb)
    | null _ _ hz => rcases hz with rfl | rfl <;> cases hm
    | _ => cases hm
  · exact run_bare g1 hrun ⟨hsl, fun c hc => hb ⟨c, hc⟩⟩ hw hd

example : (after (exGone ++ [.copy 0])).slots 2 = [] ∧ (after (exGone ++ [.copy 0])).slots 0 = [1]
    ∧ (after (exGone ++ [.move 0])).slots 2 = [] ∧ (after (exGone ++ [.move 0])).obs 1 = [1, 0] := by
  have h1 : ok (exGone ++ [.copy 0]) = true := by decide +kernel
  have h2 : ok (exGone ++ [.move 0]) = true := by decide +kernel
  have a := C18_fresh (reach_after (ops := exGone) (by decide +kernel)) (.inr (.inl ⟨0, rfl⟩)) (step_after h1)
    (.nil _) (by simp) (d := []) (by simp)
  have b := C18_fresh (reach_after (ops := exGone) (by decide +kernel)) (.inr (.inr ⟨0, rfl⟩)) (step_after h2)
    (.nil _) (by simp) (d := []) (by simp)
  refine ⟨a.1, ?_, b.1, ?_⟩
  · rw [a.2.2.2.1]; decide +kernel
  · rw [b.2.2.2.2]; decide +kernel

/-! ## C19 -/

/-- C19: a notification that is over, and in which nothing was detached, called the callbacks of linked readers in
the order in which the readers were linked, and for each reader from the first attached on.  The
readers and callbacks of the beginning are all among them; others are so only if attached since.
(`D` lists each reader with those of its callbacks that were called.) -/
theorem C19_order {st s1 s2 : St} (hr : Reach st) {n : Nat} (h : step st (.notify n) = some s1)
    {ops : List Op} (hrun : Run s1 ops s2) (ht : ∀ op ∈ ops, op.target = none)
    (hdone : Ev.done st.nf ∈ s2.log) :
    ∃ D : List (Nat × List Nat),
      calls st.nf s2.log = D.flatMap (fun p => p.2.map fun c => (p.1, c))
        ∧ st.obs n <+: D.map Prod.fst ∧ D.map Prod.fst <+: s2.obs n
        ∧ (∀ p ∈ D, st.slots p.1 <+: p.2 ∧ p.2 <+: s2.slots p.1)
        ∧ (calls st.nf s2.log).Nodup := by
  have g := hr.good
  have g1 := step_good g h
  have k := (step_kind h).2
  have hold := calls_old hr
  have hnd : Ev.done st.nf ∉ st.log := by
    intro hd; have := (hr.logOK.done _ hd).1; omega
  have l : Loop st st.nf n st.stack s1 := by
    cases k with
    | misc hm => cases hm
    | null r hc ho => rcases ho with ho | ho <;> cases ho
    | notify0 _ hc hs =>
      refine ⟨List.prefix_refl _, fun _ => List.prefix_refl _, Nat.lt_succ_self _, .done [] ?_ ?_ ?_ ?_ ?_⟩
      · intro fr hfr hf
        exact Nat.lt_irrefl _ (shape_lt g.shape fr hfr _ hf)
      · rw [hs]; simp
      · simp
      · show calls st.nf ((st.log ++ [_]) ++ [_]) = _
        rw [calls_append, calls_append, hold]
        simp [calls, callOf, flat]
      · intro p hp; cases hp
    | notify _ r L hc hs =>
      refine ⟨List.prefix_refl _, fun _ => List.prefix_refl _, Nat.lt_succ_self _,
        .enter [] r L rfl rfl hs ?_ ?_ ?_⟩
      · show calls st.nf ((st.log ++ [_]) ++ [_]) = _
        rw [calls_append, calls_append, hold]
        simp [calls, callOf, flat]
      · intro p hp; cases hp
      · simp [St.say, hnd]
  have l2 := run_loop g1 hrun ht l
  have g2 := run_good g1 hrun
  cases l2.prog with
  | enter D r L _ _ _ _ _ hd => exact absurd hdone hd
  | run D r L A c B pre _ _ _ _ _ hd => exact absurd hdone hd
  | back D r L K _ _ _ _ _ hd => exact absurd hdone hd
  | done D h1 h2 h3 h4 h5 =>
    refine ⟨D, h4, h2, h3, h5, ?_⟩
    rw [h4]
    have hnd : (D.map Prod.fst).Nodup := by
      obtain ⟨t, ht⟩ := h3
      have := g2.inv.nodup n
      rw [← ht] at this
      exact (List.nodup_append.1 this).1
    have hn2 : ∀ p ∈ D, p.2.Nodup := by
      intro p hp
      obtain ⟨t, ht⟩ := (h5 p hp).2
      have := g2.inv.once p.1
      rw [← ht] at this
      exact (List.nodup_append.1 this).1
    clear h2 h3 h4 h5 l2
    unfold flat
    induction D with
    | nil => simp
    | cons p D ih =>
      simp only [List.flatMap_cons, List.nodup_append]
      simp only [List.map_cons, List.nodup_cons] at hnd
      refine ⟨?_, ih hnd.2 fun q hq => hn2 q (List.mem_cons_of_mem _ hq), ?_⟩
      · have := hn2 p (by simp)
        rw [List.nodup_iff_pairwise_ne, List.pairwise_map]
        exact (List.nodup_iff_pairwise_ne.1 this).imp fun hab e => hab (by cases e; rfl)
      · intro a ha b hb e
        subst e
        simp only [List.mem_map] at ha
        obtain ⟨c, _, rfl⟩ := ha
        simp only [List.mem_flatMap, List.mem_map] at hb
        obtain ⟨q, hq, c', _, he⟩ := hb
        exact hnd.1 (List.mem_map.2 ⟨q, hq, congrArg (fun x : Nat × Nat => x.1) he⟩)

/-- Source 1 has readers 1 and 0, with callbacks 0, 3 and 1, 2.  The first callback attaches one more (4) to reader 1,
and one (5) to a reader (2) that had none. -/
def exOrder : List Op :=
  [.change 1 7, .mk (some 1), .mk (some 1), .mk (some 1), .watch 1, .watch 0, .watch 0, .watch 1]

def exOrderRun : List Op :=
  [.lib, .watch 1, .watch 2, .ret, .lib, .ret, .lib, .ret, .lib, .lib, .lib, .ret, .lib, .ret, .lib, .lib, .lib, .ret,
    .lib, .lib]

example : ∃ D : List (Nat × List Nat), [1, 0] <+: D.map Prod.fst
    ∧ calls 0 (after ((exOrder ++ [.notify 1]) ++ exOrderRun)).log
      = D.flatMap (fun p => p.2.map fun c => (p.1, c)) := by
  have h1 : ok (exOrder ++ [.notify 1]) = true := by decide +kernel
  have h2 : ok ((exOrder ++ [.notify 1]) ++ exOrderRun) = true := by decide +kernel
  obtain ⟨D, a, b, _⟩ := C19_order (reach_after (ops := exOrder) (by decide +kernel)) (step_after h1) (run_after h2)
    (by decide) (by decide +kernel)
  exact ⟨D, b, a⟩

example : calls 0 (after ((exOrder ++ [.notify 1]) ++ exOrderRun)).log
    = [(1, 0), (1, 3), (1, 4), (0, 1), (0, 2), (2, 5)] := by decide +kernel

theorem flat_of_fst {D : List (Nat × List Nat)} {f : Nat → List Nat} (h : ∀ p ∈ D, p.2 = f p.1) :
    D.flatMap (fun p => p.2.map fun c => (p.1, c)) = (D.map Prod.fst).flatMap fun r => (f r).map fun c => (r, c) := by
  induction D with
  | nil => rfl
  | cons p D ih =>
    simp only [List.flatMap_cons, List.map_cons]
    rw [h p (by simp), ih fun q hq => h q (List.mem_cons_of_mem _ hq)]

/-- C19: if nothing that concerns the readers of the source was attached either, the notification called exactly
the callbacks that there were, in order. -/
theorem C19_exact {st s1 s2 : St} (hr : Reach st) {n : Nat} (h : step st (.notify n) = some s1)
    {ops : List Op} (hrun : Run s1 ops s2) (ht : ∀ op ∈ ops, op.target = none)
    (hdone : Ev.done st.nf ∈ s2.log) (ho : s2.obs n = st.obs n) (hs : ∀ r ∈ st.obs n, s2.slots r = st.slots r) :
    calls st.nf s2.log = (st.obs n).flatMap fun r => (st.slots r).map fun c => (r, c) := by
  obtain ⟨D, h1, h2, h3, h4, _⟩ := C19_order hr h hrun ht hdone
  rw [ho] at h3
  have hfst : D.map Prod.fst = st.obs n := by
    obtain ⟨a, ha⟩ := h2
    obtain ⟨b, hb⟩ := h3
    have hl := congrArg List.length hb
    have hl' := congrArg List.length ha
    simp only [List.length_append] at hl hl'
    have : b = [] := List.eq_nil_of_length_eq_zero (by omega)
    subst this
    simpa using hb
  rw [h1, flat_of_fst (f := st.slots), hfst]
  intro p hp
  obtain ⟨⟨a, ha⟩, ⟨b, hb⟩⟩ := h4 p hp
  have hm : p.1 ∈ st.obs n := by rw [← hfst]; exact List.mem_map.2 ⟨p, hp, rfl⟩
  rw [hs _ hm] at hb
  have hl := congrArg List.length hb
  have hl' := congrArg List.length ha
  simp only [List.length_append] at hl hl'
  have : b = [] := List.eq_nil_of_length_eq_zero (by omega)
  subst this
  simpa using hb

example : calls 0 (after ((exOrder ++ [.notify 1])
      ++ [.lib, .ret, .lib, .ret, .lib, .lib, .lib, .ret, .lib, .ret, .lib, .lib])).log
    = [(1, 0), (1, 3), (0, 1), (0, 2)] := by
  have h1 : ok (exOrder ++ [.notify 1]) = true := by decide +kernel
  have h2 : ok ((exOrder ++ [.notify 1])
      ++ [.lib, .ret, .lib, .ret, .lib, .lib, .lib, .ret, .lib, .ret, .lib, .lib]) = true := by decide +kernel
  have := C19_exact (reach_after (ops := exOrder) (by decide +kernel)) (step_after h1) (run_after h2)
    (by decide) (by decide +kernel) (by decide +kernel) (by decide +kernel)
  rw [show (after exOrder).nf = 0 by decide +kernel] at this
  rw [this]; decide +kernel

/-- C18: after assigning a reader of source `m` to `r`, the next notification of `m` calls the callbacks that were
attached to `r` before. -/
theorem C18_again {st s1 s2 s3 : St} (hr : Reach st) {op : Op} {r r2 m : Nat}
    (ho : op = .assign r r2 ∨ op = .moveAssign r r2) (h : step st op = some s1) (hm : st.node r2 = some m)
    (hn : step s1 (.notify m) = some s2) {ops : List Op} (hrun : Run s2 ops s3)
    (ht : ∀ op ∈ ops, op.target = none) (hdone : Ev.done s1.nf ∈ s3.log) {c : Nat} (hc : c ∈ st.slots r) :
    (r, c) ∈ calls s1.nf s3.log := by
  have g := hr.good
  obtain ⟨e1, e2, e3, e4, e5, _⟩ := assign_effect g ho h
  have hr1 := hr.step op h
  have hne : st.slots r ≠ [] := by intro e; rw [e] at hc; cases hc
  have hl : s1.linked r = some m := by rw [e2, if_neg hne, hm]
  have hmem : r ∈ s1.obs m := (hr1.good.inv.link r m).1 hl
  obtain ⟨D, h1, h2, h3, h4, _⟩ := C19_order hr1 hn hrun ht hdone
  have hD := h2.subset hmem
  obtain ⟨p, hp, hpr⟩ := List.mem_map.1 hD
  rw [h1]
  refine List.mem_flatMap.2 ⟨p, hp, List.mem_map.2 ⟨c, ?_, by rw [hpr]⟩⟩
  refine (h4 p hp).1.subset ?_
  rw [hpr, e3]; exact hc

example : (0, 0) ∈ calls 1 (after ((((exAssign ++ [.notify 1, .lib, .ret, .lib, .lib]) ++ [.assign 0 1]) ++ [.notify 2])
      ++ [.lib, .ret, .lib, .lib])).log := by
  have h0 : ok (exAssign ++ [.notify 1, .lib, .ret, .lib, .lib]) = true := by decide +kernel
  have h1 : ok ((exAssign ++ [.notify 1, .lib, .ret, .lib, .lib]) ++ [.assign 0 1]) = true := by decide +kernel
  have h2 : ok (((exAssign ++ [.notify 1, .lib, .ret, .lib, .lib]) ++ [.assign 0 1]) ++ [.notify 2]) = true := by
    decide +kernel
  have h3 : ok ((((exAssign ++ [.notify 1, .lib, .ret, .lib, .lib]) ++ [.assign 0 1]) ++ [.notify 2])
      ++ [.lib, .ret, .lib, .lib]) = true := by decide +kernel
  exact C18_again (c := 0) (reach_after h0) (.inl rfl) (step_after h1) (by decide +kernel) (step_after h2)
    (run_after h3) (by decide) (by decide +kernel) (by decide +kernel)

/-- C19: what the callbacks get is the source's value at that time. -/
theorem C19_value {st s1 : St} (hr : Reach st) {op : Op} (h : step st op = some s1) {d : List Ev}
    (hd : s1.log = st.log ++ d) {f n r c v : Nat} (hc : Ev.called f n r c v ∈ d) : v = st.val n :=
  (kind_called hr.good (step_kind h).2 hd hc).2.1

/-! ## C20 -/

/-- C20: with anything done in callbacks except detaching what is being called (`St.hits`) and using `bind` or
`nudge` on a reader without a source (`St.nulls`), nothing undefined happens, and the library can always go on. -/
theorem C20_defined {st : St} (h : SafeReach st) :
    st.ub = false ∧ (st.ctrl ≠ .user → ∃ st', step st .lib = some st') :=
  ⟨h.sound.ub, fun hc => lib_goes_on h.reach.good h.sound.ub hc⟩

/-- In the first callback of reader 1, reader 0 (that comes next) is unbound and reader 2 (without callbacks) is
destroyed. -/
def exDetach : List Op :=
  [.change 1 7, .mk (some 1), .mk (some 1), .mk (some 1), .watch 1, .watch 0, .watch 0, .watch 1, .notify 1, .lib,
    .unbind 0, .destroy 2, .ret]

example : (after exDetach).ub = false ∧ ∃ st', step (after exDetach) .lib = some st' :=
  have h := C20_defined (safe_after (ops := exDetach) (by decide +kernel))
  ⟨h.1, h.2 (by decide +kernel)⟩

/-- C20: whatever is called is attached at that time, to a reader that exists, and in a notification the reader is
linked to the notifying source at that time.  So what was detached is not called. -/
theorem C20_attached_when_called {st s1 : St} (hr : SafeReach st) {op : Op} (h : step st op = some s1)
    {d : List Ev} (hd : s1.log = st.log ++ d) {f n r c v : Nat} (hc : Ev.called f n r c v ∈ d) :
    c ∈ st.slots r ∧ st.alive r = true ∧ ∀ m, Ev.notify f m ∈ s1.log → n = m ∧ r ∈ st.obs m := by
  have g := hr.reach.good
  have k := (step_kind h).2
  have hs := (kind_called g k hd hc).1
  refine ⟨hs, ?_, fun m hm => ?_⟩
  · cases ha : st.alive r
    · rw [(g.inv.dead r ha).1] at hs; cases hs
    · rfl
  · obtain ⟨h1, h2⟩ := called_linked hr h hd hc hm
    subst h2
    exact ⟨rfl, (g.inv.link r n).1 h1⟩

theorem run_todo {st s2 : St} (hr : SafeReach st) {ops : List Op} (hrun : SafeRun st ops s2) {f n r c : Nat}
    (ht : ∀ op ∈ ops, op.target ≠ some r) (h : Todo st f n r c) :
    Todo s2 f n r c ∨ ∃ v, Ev.called f n r c v ∈ s2.log := by
  induction hrun with
  | nil => exact .inl h
  | cons hf hs h' ih =>
    have g := hr.reach.good
    have k := (step_kind hs).2
    rcases kind_todo g hf k (ht _ (by simp)) h with h1 | ⟨v, h1⟩
    · exact ih (hr.step _ hf hs) (fun op ho => ht op (List.mem_cons_of_mem _ ho)) h1
    · obtain ⟨d, hd⟩ := run_log (kind_good g k) h'.run
      exact .inr ⟨v, by rw [hd]; exact List.mem_append_left _ h1⟩

/-- C20: a callback that is still to be called by a loop (see `Todo`: its reader comes later in the list of
observers, or it is that reader's turn, or that reader's loop is at an earlier callback) is called by the time
the loop is over, unless its reader was detached; no matter what else was attached or detached. -/
theorem C20_called {st s2 : St} (hr : SafeReach st) {ops : List Op} (hrun : SafeRun st ops s2) {f n r c : Nat}
    (ht : ∀ op ∈ ops, op.target ≠ some r) (h : Todo st f n r c) (hdone : Ev.done f ∈ s2.log) :
    ∃ v, Ev.called f n r c v ∈ s2.log := by
  rcases run_todo hr hrun ht h with h1 | h1
  · exfalso
    obtain ⟨fr, hm, hf⟩ := h1.frame
    exact ((hr.run hrun).reach.logOK.done f hdone).2 fr hm hf
  · exact h1

/-- Reader 0 is detached meanwhile; callback 4 is attached to reader 2 in the first callback and is called. -/
example : ∃ v, Ev.called 0 1 2 4 v ∈ (after ((exOrder ++ [.notify 1, .lib, .watch 2])
      ++ [.unbind 0, .ret, .lib, .ret, .lib, .lib, .lib, .ret, .lib, .lib])).log := by
  have h1 : okSafe (exOrder ++ [.notify 1, .lib, .watch 2]) = true := by decide +kernel
  have h2 : okSafe ((exOrder ++ [.notify 1, .lib, .watch 2])
      ++ [.unbind 0, .ret, .lib, .ret, .lib, .lib, .lib, .ret, .lib, .lib]) = true := by decide +kernel
  refine C20_called (safe_after h1) (safeRun_after h2) (by decide) ?_ (by decide +kernel)
  exact .later [.slot 0 1 1 0 false] [] 1 [] [0, 2] (by decide +kernel) (by decide +kernel) (by decide) (by decide +kernel)

theorem watch_step {st s1 : St} (g : Good st) {r : Nat} (h : step st (.watch r) = some s1) :
    s1.slots = upd st.slots r (st.slots r ++ [st.nc])
      ∧ (∀ m, s1.obs m = if st.slots r = [] ∧ st.node r = some m then st.obs m ++ [r] else st.obs m)
      ∧ s1.stack = st.stack := by
  obtain ⟨hu, _⟩ := user_of (op := .watch r) rfl h
  simp only [St.user] at hu
  split at hu
  · cases hu
    obtain ⟨e1, e2, e3, e4, e5, e6, e7, e8, e9, _⟩ := watch_eq g.inv (r := r) (c := st.nc)
    exact ⟨e1, e4, e9⟩
  · cases hu

/-- C20: attaching a callback in a notification of source `n` (loop `f`, at reader `cur`) makes it one that is
still to be called, if its reader is the one whose callbacks are being called, or is later in the list, or had
no callbacks and is a reader of the source. -/
theorem C20_attach {st s1 : St} (hr : SafeReach st) {r f n : Nat} (h : step st (.watch r) = some s1)
    {cur : Nat} (hf : Frame.node f n cur ∈ st.stack)
    (hcase : (∃ c0 b, Frame.slot f n r c0 b ∈ st.stack)
      ∨ (∃ A B, st.obs n = A ++ cur :: B ∧ r ∈ B)
      ∨ (st.slots r = [] ∧ st.node r = some n)) : Todo s1 f n r st.nc := by
  have g := hr.reach.good
  obtain ⟨e1, e2, e3⟩ := watch_step g h
  have hcur : st.linked cur = some n := hr.sound.frames _ hf
  rcases hcase with ⟨c0, b, hm⟩ | ⟨A, B, ho, hB⟩ | ⟨hs, hn⟩
  · have hc0 : c0 ∈ st.slots r := hr.sound.frames _ hm
    obtain ⟨pre, post, hsp⟩ := List.append_of_mem hm
    obtain ⟨A, B, hAB⟩ := List.append_of_mem hc0
    exact .mine pre post c0 b A (B ++ [st.nc]) (by rw [e3]; exact hsp) (by rw [e1]; simp [hAB]) (by simp)
  · obtain ⟨pre, post, hsp⟩ := List.append_of_mem hf
    have hmem : st.nc ∈ s1.slots r := by rw [e1]; simp
    by_cases hx : st.slots r = [] ∧ st.node r = some n
    · exact .later pre post cur A (B ++ [r]) (by rw [e3]; exact hsp) (by rw [e2, if_pos hx, ho]; simp) (by simp) hmem
    · exact .later pre post cur A B (by rw [e3]; exact hsp) (by rw [e2, if_neg hx, ho]) hB hmem
  · obtain ⟨pre, post, hsp⟩ := List.append_of_mem hf
    obtain ⟨A, B, hAB⟩ := List.append_of_mem ((g.inv.link cur n).1 hcur)
    refine .later pre post cur A (B ++ [r]) (by rw [e3]; exact hsp) ?_ (by simp) (by rw [e1]; simp)
    rw [e2, if_pos ⟨hs, hn⟩, hAB]; simp

example : Todo (after ((exOrder ++ [.notify 1, .lib]) ++ [.watch 1])) 0 1 1 4
    ∧ Todo (after ((exOrder ++ [.notify 1, .lib]) ++ [.watch 0])) 0 1 0 4
    ∧ Todo (after ((exOrder ++ [.notify 1, .lib]) ++ [.watch 2])) 0 1 2 4 := by
  have h0 : okSafe (exOrder ++ [.notify 1, .lib]) = true := by decide +kernel
  have h1 : ok ((exOrder ++ [.notify 1, .lib]) ++ [.watch 1]) = true := by decide +kernel
  have h2 : ok ((exOrder ++ [.notify 1, .lib]) ++ [.watch 0]) = true := by decide +kernel
  have h3 : ok ((exOrder ++ [.notify 1, .lib]) ++ [.watch 2]) = true := by decide +kernel
  have e : (after (exOrder ++ [.notify 1, .lib])).nc = 4 := by decide +kernel
  have hf : Frame.node 0 1 1 ∈ (after (exOrder ++ [.notify 1, .lib])).stack := by decide +kernel
  refine ⟨?_, ?_, ?_⟩
  · have := C20_attach (safe_after h0) (step_after h1) hf (.inl ⟨0, false, by decide +kernel⟩)
    rwa [e] at this
  · have := C20_attach (safe_after h0) (step_after h2) hf (.inr (.inl ⟨[], [0], by decide +kernel, by decide⟩))
    rwa [e] at this
  · have := C20_attach (safe_after h0) (step_after h3) hf (.inr (.inr (by decide +kernel)))
    rwa [e] at this

/-- C20: a callback attached to a reader that was visited before is not called by that notification. -/
theorem C20_visited_not_called :
    (after (exOrder ++ [.notify 1, .lib, .ret, .lib, .ret, .lib, .lib, .lib, .watch 1, .ret, .lib, .ret, .lib, .lib])).slots 1
        = [0, 3, 4]
      ∧ calls 0 (after (exOrder ++ [.notify 1, .lib, .ret, .lib, .ret, .lib, .lib, .lib, .watch 1, .ret, .lib, .ret,
          .lib, .lib])).log = [(1, 0), (1, 3), (0, 1), (0, 2)]
      ∧ Ev.done 0 ∈ (after (exOrder ++ [.notify 1, .lib, .ret, .lib, .ret, .lib, .lib, .lib, .watch 1, .ret, .lib, .ret,
          .lib, .lib])).log := by
  decide +kernel

theorem step_user {st : St} {op : Op} (hu : st.ub = false) (hc : st.ctrl = .user) : step st op = st.user op := by
  simp [step, hu, hc]

theorem step_lib {st : St} (hu : st.ub = false) (hc : st.ctrl ≠ .user) : step st .lib = st.lib := by
  simp [step, hu, hc]

/-- C20: detaching, with `unbind` or by destruction, the very reader whose callback is running is undefined: it is
once the callback returns. -/
theorem C20_self_undefined {st s1 s2 s3 : St} (hr : SafeReach st) {f n r c : Nat} {b : Bool} {fs : List Frame}
    (hs : st.stack = .slot f n r c b :: fs) {op : Op} (ho : op = .unbind r ∨ op = .destroy r)
    (h1 : step st op = some s1) (h2 : step s1 .ret = some s2) (h3 : step s2 .lib = some s3) : s3.ub = true := by
  have g := hr.reach.good
  have hdr : op.drops = some r := by rcases ho with rfl | rfl <;> rfl
  have hm := Op.misc_of_drops hdr
  obtain ⟨hu, hct⟩ := user_of hm h1
  have k := (step_kind h1).2
  cases k with
  | misc _ _ _ k1 k2 k3 k4 k5 k6 =>
    have e := (misc_effect g.inv hm hu).2.2.2 r hdr
    have hs1 : s1.stack = .slot f n r c b :: fs := by rw [k1]; exact hs
    obtain ⟨_, kk⟩ := step_kind h2
    cases kk with
    | misc hm' => cases hm'
    | null _ _ ho => rcases ho with ho | ho <;> cases ho
    | retSlot f' n' r' c' b' fs' hc' hs' =>
      obtain ⟨_, kl⟩ := step_kind h3
      have hs2 : s1.stack = .slot f n r c b :: fs := hs1
      cases kl with
      | misc hm' => cases hm'
      | null _ _ ho => rcases ho with ho | ho <;> cases ho
      | slotUb => rfl
      | slotNext f' n' r' c' c'' b' fs' hc' hs' hmm =>
        rw [show _ = _ from hs2] at hs'; cases hs'
        rw [show _ = _ from e.1] at hmm; cases hmm
      | nudgeEnd f' n' r' c' fs' hc' hs' hmm =>
        rw [show _ = _ from hs2] at hs'; cases hs'
        rw [show _ = _ from e.1] at hmm; cases hmm
      | slotEnd f' n' r' c' fs' hc' hs' hmm =>
        rw [show _ = _ from hs2] at hs'; cases hs'
        rw [show _ = _ from e.1] at hmm; cases hmm
      | enter0 _ _ _ _ _ hc' => cases hc'
      | enter _ _ _ _ _ _ _ hc' => cases hc'
      | nodeNext _ _ _ _ _ _ hc' hs' => rw [show _ = _ from hs2] at hs'; cases hs'
      | nodeEnd _ _ _ _ hc' hs' => rw [show _ = _ from hs2] at hs'; cases hs'
      | nodeUb => rfl
    | retBind r' c' fs' hc' hs' => rw [hs1] at hs'; cases hs'
    | retDead r' c' fs' hc' hs' => rw [hs1] at hs'; cases hs'
  | null _ _ hz => rcases hz with rfl | rfl <;> cases hm
  | _ => cases hm

example : (after (exGone ++ [.unbind 1, .ret, .lib])).ub = true := by
  have h0 : ok (exGone ++ [.unbind 1]) = true := by decide +kernel
  have h1 : ok ((exGone ++ [.unbind 1]) ++ [.ret]) = true := by decide +kernel
  have h2 : ok (((exGone ++ [.unbind 1]) ++ [.ret]) ++ [.lib]) = true := by decide +kernel
  have := C20_self_undefined (f := 0) (n := 1) (r := 1) (c := 0) (b := false) (fs := [.node 0 1 1])
    (safe_after (ops := exGone) (by decide +kernel)) (by decide +kernel) (.inl rfl) (step_after h0) (step_after h1)
    (step_after h2)
  exact this

/-- C20: assigning a reader, in its own callback, another reader of the same source is defined but moves it to the
end of the list, so that the notification ends without calling those that were to come. -/
theorem C20_reassigned_ends {st s1 : St} (hr : Reach st) {op : Op} {f n r r2 : Nat}
    (ho : op = .assign r r2 ∨ op = .moveAssign r r2) (h : step st op = some s1) (hn : st.node r2 = some n)
    (hne : st.slots r ≠ []) {s2 s3 : St} {ops : List Op} {fs : List Frame} (hrun : Run s1 ops s2)
    (hsame : s2.obs n = s1.obs n) (hs : s2.stack = .node f n r :: fs) (hc : s2.ctrl = .back)
    (h3 : step s2 .lib = some s3) : Ev.done f ∈ s3.log := by
  have g := hr.good
  have hr1 := hr.step op h
  have hr2 := hr1.run hrun
  obtain ⟨e1, e2, e3, e4, e5, _⟩ := assign_effect g ho h
  have hl : s1.linked r = some n := by rw [e2, if_neg hne, hn]
  -- it is at the end
  have hend : ∃ A, s1.obs n = A ++ [r] := by
    rcases ho with rfl | rfl
    · obtain ⟨hu, _⟩ := user_of (op := .assign r r2) rfl h
      simp only [St.user] at hu
      split at hu
      · rename_i ha
        cases hu
        obtain ⟨_, _, _, k4⟩ := reset_inv g.inv ha.1 ((st.unlink r).node r2)
        have hun : (st.unlink r).node r2 = some n := by rw [(unlink_stack st r).2.2.2.2.2.2.2.1]; exact hn
        exact ⟨_, by rw [k4, if_pos ⟨hne, hun⟩]⟩
      · cases hu
    · obtain ⟨hu, _⟩ := user_of (op := .moveAssign r r2) rfl h
      simp only [St.user] at hu
      split at hu
      · rename_i ha
        cases hu
        obtain ⟨u1, u2, u3, u4, u5, u6, u7, u8, u9, u10, u11⟩ := unlink_stack st r
        obtain ⟨ul, _⟩ := unlink_linked g.inv.link g.inv.nodup r
        have hnn : (if r = r2 then (st.unlink r).node
              else upd (upd (st.unlink r).node r ((st.unlink r).node r2)) r2 none) r = some n := by
          by_cases hr : r = r2
          · subst hr; simp [u8, hn]
          · simp [hr, u8, hn]
        generalize hq : ({ st.unlink r with node := (if r = r2 then (st.unlink r).node
            else upd (upd (st.unlink r).node r ((st.unlink r).node r2)) r2 none) } : St) = t
        have tn : t.node r = some n := by rw [← hq]; exact hnn
        have tl : t.linked r = none := by rw [← hq]; show (st.unlink r).linked r = none; rw [ul]; simp
        have ts : t.slots = st.slots := by rw [← hq]; exact u7
        unfold St.relink
        rw [tn]
        simp only [ts, ne_eq, hne, not_false_eq_true, if_true]
        unfold St.link
        rw [tl]
        exact ⟨t.obs n, by simp⟩
      · cases hu
  obtain ⟨A, hA⟩ := hend
  have g2 := hr2.good
  have ho2 : s2.obs n = A ++ [r] := by rw [hsame, hA]
  have hl2 : s2.linked r = some n := (g2.inv.link r n).2 (by rw [ho2]; simp)
  have hnext : next r (s2.obs n) = none := by
    have hnd := g2.inv.nodup n
    rw [ho2] at hnd ⊢
    rw [next_append hnd]; rfl
  obtain ⟨hub, k⟩ := step_kind h3
  rw [step_lib hub (by rw [hc]; simp)] at h3
  unfold St.lib at h3
  rw [hc, hs] at h3
  simp only [hl2, hnext, if_true, Option.some.injEq] at h3
  subst h3
  simp [St.say]

/-- Reader 0, which is to come, is not called. -/
example : Ev.done 0 ∈ (after (((exGone ++ [.assign 1 0]) ++ [.ret, .lib]) ++ [.lib])).log
    ∧ calls 0 (after (((exGone ++ [.assign 1 0]) ++ [.ret, .lib]) ++ [.lib])).log = [(1, 0)]
    ∧ (after exGone).obs 1 = [1, 0] ∧ (after exGone).slots 0 = [1] := by
  have h0 : ok (exGone ++ [.assign 1 0]) = true := by decide +kernel
  have h1 : ok ((exGone ++ [.assign 1 0]) ++ [.ret, .lib]) = true := by decide +kernel
  have h2 : ok (((exGone ++ [.assign 1 0]) ++ [.ret, .lib]) ++ [.lib]) = true := by decide +kernel
  refine ⟨?_, by decide +kernel, by decide +kernel, by decide +kernel⟩
  exact C20_reassigned_ends (f := 0) (n := 1) (fs := []) (reach_after (ops := exGone) (by decide +kernel)) (.inl rfl)
    (step_after h0) (by decide +kernel) (by decide +kernel) (run_after h1) (by decide +kernel) (by decide +kernel)
    (by decide +kernel) (step_after h2)

/-! ## C21 -/

/-- C21: `bind` calls the callback once at once with what `get` returns. -/
theorem C21_bind {st s1 s2 : St} {r : Nat} (h : step st (.bind r) = some s1)
    (hg : step st (.get r) = some s2) (hn : st.node r ≠ none) :
    ∃ v, s2.log = st.log ++ [.got r v] ∧ s1.log = st.log ++ [.bound r st.nc v] ∧ s1.ub = false := by
  obtain ⟨hub, k⟩ := step_kind h
  cases k with
  | misc hm => cases hm
  | null q hc ho hnn =>
    rcases ho with ho | ho <;> cases ho
    exact absurd hnn hn
  | bind _ n hc ha hnn =>
    rw [step_user hub hc] at hg
    simp only [St.user, ha, hnn, if_true, Option.some.injEq] at hg
    subst hg
    exact ⟨st.val n, rfl, rfl, hub⟩

example : ∃ v, (after (exAssign ++ [.get 0])).log = [.got 0 v] ∧ (after (exAssign ++ [.bind 0])).log = [.bound 0 1 v] := by
  have h1 : ok (exAssign ++ [.bind 0]) = true := by decide +kernel
  have h2 : ok (exAssign ++ [.get 0]) = true := by decide +kernel
  obtain ⟨v, a, b, _⟩ := C21_bind (step_after h1) (step_after h2) (by decide +kernel)
  rw [show (after exAssign).log = [] by decide +kernel] at a b
  rw [show (after exAssign).nc = 1 by decide +kernel] at b
  exact ⟨v, a, b⟩

/-- C21: `bind` with a callback that just returns does what `watch` with that callback does, apart from the call. -/
theorem C21_bind_watch {st s1 s2 s3 : St} (hr : Reach st) {r : Nat} (h1 : step st (.bind r) = some s1)
    (h2 : step s1 .ret = some s2) (h3 : step st (.watch r) = some s3) :
    ∃ v, s2 = { s3 with log := st.log ++ [.bound r st.nc v] } := by
  have g := hr.good
  obtain ⟨hub, k⟩ := step_kind h1
  cases k with
  | misc hm => cases hm
  | null q hc ho hnn =>
    exfalso
    unfold step at h2
    simp at h2
  | bind _ n hc ha hnn =>
    have h2' := h2
    rw [step_user (by exact hub) (by exact hc)] at h2'
    have e : ({ st.say (.bound r st.nc (st.val n)) with
        stack := .bind r st.nc :: st.stack, nc := st.nc + 1 } : St).user .ret
        = some (({ ({ st.say (.bound r st.nc (st.val n)) with
            stack := .bind r st.nc :: st.stack, nc := st.nc + 1 } : St) with stack := st.stack }).watch r st.nc) := by
      simp only [St.user]
      rw [if_pos (show ({ st.say (.bound r st.nc (st.val n)) with
        stack := .bind r st.nc :: st.stack, nc := st.nc + 1 } : St).alive r = true from ha)]
    rw [e] at h2'
    cases h2'
    rw [step_user hub hc] at h3
    simp only [St.user, ha, if_true, Option.some.injEq] at h3
    subst h3
    refine ⟨st.val n, ?_⟩
    unfold St.watch St.link St.say
    rw [hnn]
    dsimp only
    split
    · split <;> rfl
    · rfl

example : (after ((exAssign ++ [.bind 1]) ++ [.ret])).slots 1 = [1]
    ∧ (after ((exAssign ++ [.bind 1]) ++ [.ret])).obs 2 = [1] := by
  have h1 : ok (exAssign ++ [.bind 1]) = true := by decide +kernel
  have h2 : ok ((exAssign ++ [.bind 1]) ++ [.ret]) = true := by decide +kernel
  have h3 : ok (exAssign ++ [.watch 1]) = true := by decide +kernel
  obtain ⟨v, e⟩ := C21_bind_watch (reach_after (ops := exAssign) (by decide +kernel)) (step_after h1) (step_after h2)
    (step_after h3)
  rw [e]
  show (after (exAssign ++ [.watch 1])).slots 1 = [1] ∧ (after (exAssign ++ [.watch 1])).obs 2 = [1]
  decide +kernel

/-- C21: a `nudge` that is over, with nothing detached, called the callbacks of that reader and no others, in
order, from the first on: all those of the beginning, and no more than are attached at the end. -/
theorem C21_nudge {st s1 s2 : St} (hr : Reach st) {r n : Nat} (h : step st (.nudge r) = some s1)
    (hn : st.node r = some n) (hs : st.slots r ≠ []) {ops : List Op} (hrun : Run s1 ops s2)
    (ht : ∀ op ∈ ops, op.target = none) (hdone : Ev.done st.nf ∈ s2.log) :
    ∃ K, calls st.nf s2.log = K.map (fun c => (r, c)) ∧ st.slots r <+: K ∧ K <+: s2.slots r := by
  have g := hr.good
  have g1 := step_good g h
  have hold := calls_old hr
  have hnd : Ev.done st.nf ∉ st.log := by
    intro hd; have := (hr.logOK.done _ hd).1; omega
  have l : NLoop st st.nf n r s1 := by
    have k := (step_kind h).2
    cases k with
    | misc hm => cases hm
    | null q hc ho hnn =>
      rcases ho with ho | ho <;> cases ho
      rw [hn] at hnn; cases hnn
    | nudge0 _ _ _ _ _ hs0 => exact absurd hs0 hs
    | nudge _ m c l hc ha hnn hsl =>
      rw [hn] at hnn
      cases hnn
      refine ⟨List.prefix_refl _, Nat.lt_succ_self _, .run [] c l [] st.stack rfl hsl ?_ ?_⟩
      · show calls st.nf (st.log ++ [_]) = _
        rw [calls_append, hold]
        simp [calls, callOf]
      · simp [St.say, hnd]
  have l2 := run_nloop g1 hrun ht l
  cases l2.prog with
  | run A c B pre post _ _ _ hd => exact absurd hdone hd
  | done K h1 h2 h3 h4 => exact ⟨K, h4, h2, h3⟩

example : ∃ K, calls 0 (after ((exOrder ++ [.nudge 1]) ++ [.watch 1, .ret, .lib, .ret, .lib, .ret, .lib])).log
    = K.map (fun c => (1, c)) ∧ [0, 3] <+: K ∧ K <+: [0, 3, 4] := by
  have h1 : ok (exOrder ++ [.nudge 1]) = true := by decide +kernel
  have h2 : ok ((exOrder ++ [.nudge 1]) ++ [.watch 1, .ret, .lib, .ret, .lib, .ret, .lib]) = true := by decide +kernel
  exact C21_nudge (r := 1) (n := 1) (reach_after (ops := exOrder) (by decide +kernel)) (step_after h1)
    (by decide +kernel) (by decide +kernel) (run_after h2) (by decide) (by decide +kernel)

/-- C21: a `nudge` calls with what `get` returns, as any call does with the value of the source at that time. -/
theorem C21_nudge_value {st s1 s2 : St} {r : Nat} (h : step st (.nudge r) = some s1)
    (hg : step st (.get r) = some s2) (hn : st.node r ≠ none) (hs : st.slots r ≠ []) :
    ∃ v c f n, s2.log = st.log ++ [.got r v] ∧ s1.log = st.log ++ [.called f n r c v] ∧ s1.ub = false := by
  obtain ⟨hub, k⟩ := step_kind h
  cases k with
  | misc hm => cases hm
  | null q hc ho hnn =>
    rcases ho with ho | ho <;> cases ho
    exact absurd hnn hn
  | nudge0 _ _ _ _ _ hs0 => exact absurd hs0 hs
  | nudge _ m c l hc ha hnn hsl =>
    rw [step_user hub hc] at hg
    simp only [St.user, ha, hnn, if_true, Option.some.injEq] at hg
    subst hg
    exact ⟨st.val m, c, st.nf, m, rfl, rfl, hub⟩

example : ∃ v c f n, (after (exAssign ++ [.get 0])).log = [.got 0 v]
    ∧ (after (exAssign ++ [.nudge 0])).log = [.called f n 0 c v] := by
  have h1 : ok (exAssign ++ [.nudge 0]) = true := by decide +kernel
  have h2 : ok (exAssign ++ [.get 0]) = true := by decide +kernel
  obtain ⟨v, c, f, n, a, b, _⟩ := C21_nudge_value (step_after h1) (step_after h2) (by decide +kernel)
    (by decide +kernel)
  rw [show (after exAssign).log = [] by decide +kernel] at a b
  exact ⟨v, c, f, n, a, b⟩

/-! ## C23 -/

/-- C23: `get` and `set` on a reader without a source throw; nothing else changes and nothing undefined happens. -/
theorem C23_throws {st : St} (hu : st.ub = false) (hc : st.ctrl = .user) {r : Nat} (ha : st.alive r = true)
    (hn : st.node r = none) (v : Nat) :
    step st (.get r) = some (st.say (.threw r)) ∧ step st (.set r v) = some (st.say (.threw r)) := by
  rw [step_user hu hc, step_user hu hc]
  simp [St.user, ha, hn]

/-- Reader 0 is default constructed, reader 1 is moved from, reader 2 is the one moved to. -/
def exNull : List Op := [.mk none, .mk (some 1), .move 1]

example : step (after exNull) (.get 0) = some ((after exNull).say (.threw 0))
    ∧ step (after exNull) (.set 1 5) = some ((after exNull).say (.threw 1)) :=
  ⟨(C23_throws (by decide +kernel) (by decide +kernel) (by decide +kernel) (by decide +kernel) 0).1,
    (C23_throws (by decide +kernel) (by decide +kernel) (by decide +kernel) (by decide +kernel) 5).2⟩

/-- C23: default constructed and moved-from readers have no source. -/
theorem C23_empty {st : St} (hr : Reach st) {s1 : St} :
    (step st (.mk none) = some s1 → s1.node st.nr = none)
      ∧ (∀ r, step st (.move r) = some s1 → s1.node r = none ∧ s1.node st.nr = st.node r)
      ∧ (∀ r r2, r ≠ r2 → step st (.moveAssign r r2) = some s1 → s1.node r2 = none ∧ s1.node r = st.node r2) := by
  refine ⟨fun h => ?_, fun r h => ?_, fun r r2 hne h => ?_⟩
  · obtain ⟨hu, _⟩ := user_of (op := .mk none) rfl h
    simp only [St.user] at hu
    cases hu; simp [St.new]
  · obtain ⟨hu, _⟩ := user_of (op := .move r) rfl h
    simp only [St.user] at hu
    split at hu
    · rename_i ha
      cases hu
      have : st.nr ≠ r := by have := hr.good.inv.old r ha; omega
      simp [St.new, this]
    · cases hu
  · obtain ⟨e1, _⟩ := assign_effect hr.good (.inr rfl) h
    refine ⟨?_, e1⟩
    obtain ⟨hu, _⟩ := user_of (op := .moveAssign r r2) rfl h
    simp only [St.user] at hu
    split at hu
    · cases hu
      rw [(relink_stack _ _).2.2.2.2.2.2.1]
      simp
    · cases hu

/-- C23: `watch` on a reader without a source is defined, and the callback is called by the next notification of a
source assigned later. -/
theorem C23_later {st s1 s2 s3 s4 s5 : St} (hr : Reach st) {r r2 m : Nat} (hn : st.node r = none)
    (h1 : step st (.watch r) = some s1) {ops : List Op} (hrun : Run s1 ops s2)
    (ht : ∀ op ∈ ops, op.target ≠ some r)
    {op : Op} (ho : op = .assign r r2 ∨ op = .moveAssign r r2) (h2 : step s2 op = some s3)
    (hm : s2.node r2 = some m) (h3 : step s3 (.notify m) = some s4) {ops' : List Op} (hrun' : Run s4 ops' s5)
    (ht' : ∀ op ∈ ops', op.target = none) (hdone : Ev.done s3.nf ∈ s5.log) :
    s1.ub = false ∧ s1.node r = none ∧ (r, st.nc) ∈ calls s3.nf s5.log := by
  have g := hr.good
  have hr1 := hr.step _ h1
  have hu := (user_of (op := .watch r) rfl h1).1
  have hub := (misc_slots g.inv (op := .watch r) rfl hu).2.1
  have hst := (step_kind h1).1
  obtain ⟨e1, _, _⟩ := watch_step g h1
  refine ⟨by rw [hub]; exact hst, ?_, ?_⟩
  · simp only [St.user] at hu
    split at hu
    · cases hu
      show (st.watch r st.nc).node r = none
      rw [(watch_eq g.inv).2.2.2.2.1]; exact hn
    · cases hu
  · have hc : st.nc ∈ s1.slots r := by rw [e1]; simp
    have keep : ∀ {a b : St} {ops : List Op}, Good a → Run a ops b → (∀ op ∈ ops, op.target ≠ some r) →
        st.nc ∈ a.slots r → st.nc ∈ b.slots r := by
      intro a b ops ga hab
      induction hab with
      | nil => intro _ h; exact h
      | @cons x y z o os hs _ ih =>
        intro hto hx
        have k := (step_kind hs).2
        refine ih (kind_good ga k) (fun o ho => hto o (List.mem_cons_of_mem _ ho)) ?_
        have hto' := hto o (by simp)
        cases k with
        | misc hm _ hu' =>
          exact ((misc_effect ga.inv hm hu').2.1 r fun h => hto' (Op.target_of_drops h)).subset hx
        | retBind q d fs hc hs ha =>
          have hi : Inv ({ x with stack := fs } : St) :=
            ga.inv.same ⟨rfl, rfl, rfl, rfl, rfl, rfl⟩ (Nat.le_refl _)
          rw [(watch_eq hi).1]
          show st.nc ∈ upd x.slots q (x.slots q ++ [d]) r
          by_cases h : r = q
          · subst h; simp [hx]
          · simp [h, hx]
        | _ => exact hx
    exact C18_again (hr1.run hrun) ho h2 hm h3 hrun' ht' hdone (keep hr1.good hrun ht hc)

example : (0, 0) ∈ calls 0 (after (((((exNull ++ [.watch 0]) ++ [.change 1 3]) ++ [.assign 0 2]) ++ [.notify 1])
    ++ [.lib, .ret, .lib, .lib])).log := by
  have h1 : ok (exNull ++ [.watch 0]) = true := by decide +kernel
  have h2 : ok ((exNull ++ [.watch 0]) ++ [.change 1 3]) = true := by decide +kernel
  have h3 : ok (((exNull ++ [.watch 0]) ++ [.change 1 3]) ++ [.assign 0 2]) = true := by decide +kernel
  have h4 : ok ((((exNull ++ [.watch 0]) ++ [.change 1 3]) ++ [.assign 0 2]) ++ [.notify 1]) = true := by
    decide +kernel
  have h5 : ok (((((exNull ++ [.watch 0]) ++ [.change 1 3]) ++ [.assign 0 2]) ++ [.notify 1])
      ++ [.lib, .ret, .lib, .lib]) = true := by decide +kernel
  have := (C23_later (reach_after (ops := exNull) (by decide +kernel)) (by decide +kernel) (step_after h1)
    (run_after h2) (by decide) (.inl rfl) (step_after h3) (by decide +kernel) (step_after h4) (run_after h5) (by decide)
    (by decide +kernel)).2.2
  exact this

/-- C23: `bind` and `nudge` have no such check. -/
theorem C23_unchecked {st s1 : St} {op : Op} {r : Nat} (ho : op = .bind r ∨ op = .nudge r)
    (hn : st.node r = none) (h : step st op = some s1) : s1.ub = true := by
  obtain ⟨hub, k⟩ := step_kind h
  cases k with
  | misc hm => rcases ho with rfl | rfl <;> cases hm
  | null => rfl
  | bind q n hc ha hnn =>
    rcases ho with ho | ho <;> cases ho
    rw [hn] at hnn; cases hnn
  | nudge0 q n hc ha hnn =>
    rcases ho with ho | ho <;> cases ho
    rw [hn] at hnn; cases hnn
  | nudge q n c l hc ha hnn =>
    rcases ho with ho | ho <;> cases ho
    rw [hn] at hnn; cases hnn
  | _ => rcases ho with ho | ho <;> cases ho

example : (after (exNull ++ [.bind 0])).ub = true ∧ (after (exNull ++ [.nudge 1])).ub = true := by
  have h1 : ok (exNull ++ [.bind 0]) = true := by decide +kernel
  have h2 : ok (exNull ++ [.nudge 1]) = true := by decide +kernel
  exact ⟨C23_unchecked (.inl rfl) (by decide +kernel) (step_after h1),
    C23_unchecked (.inr rfl) (by decide +kernel) (step_after h2)⟩

end Verif.Watch
