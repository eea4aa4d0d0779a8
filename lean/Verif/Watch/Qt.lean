import Verif.Watch.Twice

/-!
Properties of Qt objects that are supported by readers and cursors: `extra/qt.hpp`.

The signal of a property is a callback that is attached to the reader, which is a member of the object, when the object is
constructed.  `READ` and `WRITE` functions are `get` and `set` of the reader, `extra/qt.hpp:62`, `:73`, `:74`.

Not modelled: what Qt makes of signals, and constant properties, `extra/qt.hpp:40-43`, which are plain members.
-/

namespace Verif.Watch

/-- The members of a property, initialised in this order: a reader of source `src`, or a default constructed one,
`extra/qt.hpp:60`, and then the helper, `:47-52`, whose initialiser watches the reader. -/
def St.property (st : St) (src : Option Nat) : Option St :=
  (step st (.mk src)).bind fun s => step s (.watch st.nr)

/-- Reader `r` with callback `c` is a property of an object that has been constructed and not destroyed, and that has not
used `unbind` on it. -/
structure HasProperty (st : St) (r c : Nat) : Prop where
  intro ::
  ex : ∃ s0 s1 src ops, SafeReach s0 ∧ s0.property src = some s1 ∧ r = s0.nr ∧ c = s0.nc ∧ SafeRun s1 ops st ∧
    ∀ op ∈ ops, op.drops ≠ some r

theorem property_steps {st s1 : St} {src : Option Nat} (h : st.property src = some s1) :
    ∃ s, step st (.mk src) = some s ∧ step s (.watch st.nr) = some s1 := by
  unfold St.property at h
  cases hs : step st (.mk src) with
  | none => rw [hs] at h; cases h
  | some s => rw [hs] at h; exact ⟨s, rfl, h⟩

theorem fine_mk (st : St) (src : Option Nat) : st.fine (.mk src) := by
  refine ⟨?_, ?_⟩
  · rintro ⟨fr, -, h⟩
    cases fr <;> simp [Op.target, Op.drops] at h
  · rintro ⟨r, h | h, -⟩ <;> cases h

theorem fine_watch (st : St) (r : Nat) : st.fine (.watch r) := by
  refine ⟨?_, ?_⟩
  · rintro ⟨fr, -, h⟩
    cases fr <;> simp [Op.target, Op.drops] at h
  · rintro ⟨r, h | h, -⟩ <;> cases h

theorem property_eq {st s1 : St} (hr : SafeReach st) {src : Option Nat} (h : st.property src = some s1) :
    SafeReach s1 ∧ s1.slots st.nr = [st.nc] ∧ s1.node st.nr = src ∧ s1.log = st.log ∧ s1.ctrl = .user ∧
      s1.stack = st.stack ∧ s1.val = st.val := by
  obtain ⟨s, h1, h2⟩ := property_steps h
  have r1 := hr.step _ (fine_mk st src) h1
  have r2 := r1.step _ (fine_watch s st.nr) h2
  obtain ⟨hu, hc⟩ := user_of (op := .mk src) rfl h1
  obtain ⟨hu2, hc2⟩ := user_of (op := .watch st.nr) rfl h2
  simp only [St.user, Option.some.injEq] at hu
  subst hu
  simp only [St.user] at hu2
  split at hu2
  · cases hu2
    obtain ⟨e1, e2, e3, e4, e5, e6, e7, e8, e9, e10, e11, e12, e13⟩ :=
      watch_eq r1.reach.good.inv (r := st.nr) (c := (st.new src).nc)
    refine ⟨r2, ?_, ?_, e12, e10.trans hc, e9, e13⟩
    · show ((st.new src).watch st.nr (st.new src).nc).slots st.nr = _
      rw [e1]
      simp [St.new]
    · show ((st.new src).watch st.nr (st.new src).nc).node st.nr = _
      rw [e5]
      simp [St.new]
  · cases hu2

theorem kind_prefix {st s : St} {op : Op} (g : Good st) (k : Kind st op s) {r : Nat} (hd : op.drops ≠ some r) :
    st.slots r <+: s.slots r := by
  cases k with
  | misc hm hc hu => exact (misc_effect g.inv hm hu).2.1 r hd
  | retBind q d fs hc hs ha =>
    have hi : Inv ({ st with stack := fs } : St) :=
      g.inv.same ⟨rfl, rfl, rfl, rfl, rfl, rfl⟩ (Nat.le_refl _)
    rw [(watch_eq hi (r := q) (c := d)).1]
    by_cases hq : r = q
    · subst hq; simp
    · simp [hq]
  | _ => exact List.prefix_refl _

theorem HasProperty.step {st s : St} {r c : Nat} (h : HasProperty st r c) {op : Op} (hf : st.fine op)
    (hs : Watch.step st op = some s) (hd : op.drops ≠ some r) : HasProperty s r c := by
  obtain ⟨s0, s1, src, ops, h0, h1, h2, h3, h4, h5⟩ := h.ex
  refine ⟨s0, s1, src, ops ++ [op], h0, h1, h2, h3, ?_, ?_⟩
  · clear h h5 h1
    induction h4 with
    | nil => exact .cons hf hs (.nil _)
    | cons a b _ ih => exact .cons a b (ih hf hs)
  · intro o ho
    rcases List.mem_append.1 ho with ho | ho
    · exact h5 o ho
    · rw [List.mem_singleton.1 ho]; exact hd

/-- Other callbacks can only come behind the signal. -/
theorem HasProperty.head {st : St} {r c : Nat} (h : HasProperty st r c) :
    SafeReach st ∧ ∃ l, st.slots r = c :: l := by
  obtain ⟨s0, s1, src, ops, h0, h1, h2, h3, h4, h5⟩ := h.ex
  obtain ⟨e1, e0, -⟩ := property_eq h0 h1
  rw [← h2, ← h3] at e0
  have e2 : ∃ l, s1.slots r = c :: l := ⟨[], e0⟩
  clear h h0 h1 e0
  induction h4 with
  | nil => exact ⟨e1, e2⟩
  | cons hf hs _ ih =>
    refine ih (fun op ho => h5 op (List.mem_cons_of_mem _ ho)) (e1.step _ hf hs) ?_
    obtain ⟨l, hl⟩ := e2
    obtain ⟨l', hl'⟩ := kind_prefix e1.reach.good (step_kind hs).2 (h5 _ (List.mem_cons_self ..))
    exact ⟨l ++ l', by rw [← hl', hl]; rfl⟩

theorem next_head {c x : Nat} {l : List Nat} (hn : (c :: l).Nodup) : next x (c :: l) ≠ some c := by
  intro h
  have hc : c ∉ l := (List.nodup_cons.1 hn).1
  simp only [next] at h
  split at h
  · cases l with
    | nil => cases h
    | cons a l => simp at h; exact hc (by simp [h])
  · exact hc (next_mem h)

theorem HasProperty.alive {st : St} {r c : Nat} (h : HasProperty st r c) : st.alive r = true := by
  obtain ⟨hr, l, hl⟩ := h.head
  cases ha : st.alive r
  · rw [(hr.reach.good.inv.dead r ha).1] at hl; cases hl
  · rfl

/-- C115: constructing an object is possible at any time, without a source too, and emits nothing; the property then
is one of that source. -/
theorem C115_construct {st : St} (hr : SafeReach st) (hc : st.ctrl = .user) (src : Option Nat) :
    ∃ s1, st.property src = some s1 ∧ s1.log = st.log ∧ s1.ub = false ∧ s1.node st.nr = src ∧
      HasProperty s1 st.nr st.nc := by
  have hu := hr.sound.ub
  have h1 : step st (.mk src) = some (st.new src) := by simp [step, hu, hc, St.user]
  have h2 : ∃ s1, step (st.new src) (.watch st.nr) = some s1 := by
    refine ⟨{ (st.new src).watch st.nr st.nc with nc := st.nc + 1 }, ?_⟩
    simp only [step, St.user]
    rw [if_neg (by show ¬ st.ub = true; rw [hu]; simp), if_pos (show (st.new src).ctrl = .user from hc),
      if_pos (by simp [St.new])]
    rfl
  obtain ⟨s1, h2⟩ := h2
  have h : st.property src = some s1 := by simp [St.property, h1, h2]
  obtain ⟨e1, -, e3, e4, -⟩ := property_eq hr h
  exact ⟨s1, h, e4, e1.sound.ub, e3, ⟨st, s1, src, [], hr, h, rfl, rfl, .nil _, by simp⟩⟩

/-- C115: the `READ` function returns the value of the source that the property reads, the `WRITE` function passes
the value on to that source; both throw if there is none.  They emit nothing by themselves. -/
theorem C115_access {st : St} {r c : Nat} (h : HasProperty st r c) (hc : st.ctrl = .user) (v : Nat) :
    (∀ n, st.node r = some n → step st (.get r) = some (st.say (.got r (st.val n))) ∧
      step st (.set r v) = some (st.say (.sent r n v))) ∧
    (st.node r = none → step st (.get r) = some (st.say (.threw r)) ∧
      step st (.set r v) = some (st.say (.threw r))) := by
  have hu := h.head.1.sound.ub
  have ha := h.alive
  refine ⟨fun n hn => ?_, fun hn => C23_throws hu hc ha hn v⟩
  simp [step, hu, hc, St.user, ha, hn]

/-- C115: a notification of the source that the property reads emits its signal exactly once by the time it is over,
whatever callbacks do, unless they assign to, unbind or destroy the property. -/
theorem C115_emits {st s1 s2 : St} {r c : Nat} (hp : HasProperty st r c) {n : Nat} (hn : st.node r = some n)
    (h : step st (.notify n) = some s1) {ops : List Op} (hrun : SafeRun s1 ops s2)
    (ht : ∀ op ∈ ops, op.target ≠ some r) (hdone : Ev.done st.nf ∈ s2.log) :
    (calls st.nf s2.log).count (r, c) = 1 := by
  obtain ⟨hr, l, hl⟩ := hp.head
  have i := hr.reach.good.inv
  have hf : st.fine (.notify n) := by
    refine ⟨?_, ?_⟩
    · rintro ⟨fr, -, h⟩
      cases fr <;> simp [Op.target, Op.drops] at h
    · rintro ⟨r, h | h, -⟩ <;> cases h
  have hob : r ∈ st.obs n := (i.link r n).1 (i.watched r n hn (by rw [hl]; simp))
  have hcm : c ∈ st.slots r := by rw [hl]; simp
  have todo : Todo s1 st.nf n r c := by
    have k := (step_kind h).2
    cases k with
    | misc hm => cases hm
    | null _ _ ho => rcases ho with ho | ho <;> cases ho
    | notify0 _ hc hs => rw [hs] at hob; cases hob
    | notify _ q l' hc hs =>
      rw [hs] at hob
      rcases List.mem_cons.1 hob with e | e
      · subst e; exact .turn st.stack rfl rfl hcm
      · exact .later [] st.stack q [] l' rfl hs e hcm
  obtain ⟨v, hv⟩ := C20_called (hr.step _ hf h) hrun ht todo hdone
  have h1 : (r, c) ∈ calls st.nf s2.log := by
    simp only [calls, List.mem_filterMap]
    exact ⟨_, hv, by simp [callOf]⟩
  have h2 := C114_reader_at_most_once hr (.cons hf h hrun) (r := r) (by
    intro op ho e
    rcases List.mem_cons.1 ho with ho | ho
    · rw [ho] at e; cases e
    · refine ht op ho ?_
      cases op <;> simp_all [Op.assigns, Op.target]) (Nat.le_refl st.nf) c
  have h3 := List.count_pos_iff.2 h1
  omega

/-- C115: when the signal is emitted, its argument is what the `READ` function returns at that time, if the property
has a source, and the notification, if it is one, is one of that source. -/
theorem C115_value {st s1 : St} {r c : Nat} (hp : HasProperty st r c) {op : Op} (h : step st op = some s1)
    {d : List Ev} (hd : s1.log = st.log ++ d) {f n v : Nat} (hc : Ev.called f n r c v ∈ d) (hn : s1.node r ≠ none) :
    step s1 (.get r) = some (s1.say (.got r v)) ∧ st.node r = some n ∧ ∀ m, Ev.notify f m ∈ s1.log → n = m := by
  obtain ⟨hr, l, hl⟩ := hp.head
  have i := hr.reach.good.inv
  have k := (step_kind h).2
  obtain ⟨-, hv, hcase⟩ := kind_called hr.reach.good k hd hc
  have hno := (C20_attached_when_called hr h hd hc).2.2
  have hnd := i.once r
  rw [hl] at hnd
  have none : ∀ {e : List Ev}, s1.log = st.log ++ e → Ev.called f n r c v ∈ e := by
    intro e he
    rw [hd] at he
    rw [← List.append_cancel_left he]; exact hc
  have key : s1.node = st.node ∧ s1.val = st.val ∧ s1.alive = st.alive ∧ s1.ctrl = .user ∧ s1.ub = st.ub ∧
      st.ctrl ≠ .back := by
    cases k with
    | misc hm hc' hu k1 k2 k3 k4 k5 k6 => have := k5 _ (none k4); cases this
    | null | nudge0 | retSlot | retDead | enter0 | slotEnd | slotUb | nodeUb =>
      have := none (e := []) (by simp)
      cases this
    | bind | nudgeEnd | nodeNext | nodeEnd =>
      have := none (e := [_]) rfl
      simp at this
    | nudge q m d l hc ha hn hs => exact ⟨rfl, rfl, rfl, hc, rfl, by rw [hc]; simp⟩
    | notify0 m =>
      have := none (e := [.notify st.nf m, .done st.nf]) (by simp [St.say])
      simp at this
    | notify m q =>
      have := none (e := [.notify st.nf m, .turn st.nf q]) (by simp [St.say])
      simp at this
    | retBind q d fs hc hs ha =>
      have hi : Inv ({ st with stack := fs } : St) :=
        i.same ⟨rfl, rfl, rfl, rfl, rfl, rfl⟩ (Nat.le_refl _)
      obtain ⟨e1, e2, e3, e4, e5, e6, e7, e8, e9, e10, e11, e12, e13⟩ := watch_eq hi (r := q) (c := d)
      have := none (e := []) (by rw [e12]; simp)
      cases this
    | enter f' m q q' d l fs hc' => exact ⟨rfl, rfl, rfl, rfl, rfl, by rw [hc']; simp⟩
    | slotNext f' m q d d' b' fs' hc' hs' hm hn' =>
      exfalso
      have := none (e := [_]) rfl
      simp at this
      obtain ⟨rfl, rfl, rfl, rfl, rfl⟩ := this
      rw [hl] at hn'
      exact next_head hnd hn'
  obtain ⟨k1, k2, k3, k4, k5, k6⟩ := key
  rw [k1] at hn
  have hsrc : st.node r = some n := by
    rcases hcase with ⟨-, h, -⟩ | ⟨c0, b, fs, hs, hct⟩ | ⟨fs, hs, -⟩
    · exact h
    · exact absurd hct k6
    · have hlk : st.linked r = some n := hr.sound.frames (.node f n r) (by rw [hs]; simp)
      cases hm : st.node r with
      | none => exact absurd hm hn
      | some m => rw [i.node r n m hlk hm]
  refine ⟨?_, hsrc, fun m hm => (hno m hm).1⟩
  have hu := hr.sound.ub
  simp [step, k5, hu, k4, St.user, k3, hp.alive, k1, hsrc, k2, hv]

/-- C115: assigning another reader to the property emits nothing, and from then on the property is one of the source of
the other reader. -/
theorem C115_assign {st s1 : St} {r c : Nat} (hp : HasProperty st r c) {op : Op} {r2 : Nat}
    (ho : op = .assign r r2 ∨ op = .moveAssign r r2) (hf : st.fine op) (h : step st op = some s1) :
    s1.log = st.log ∧ s1.node r = st.node r2 ∧ HasProperty s1 r c := by
  have hm : op.misc = true := by rcases ho with rfl | rfl <;> rfl
  refine ⟨?_, (assign_effect hp.head.1.reach.good ho h).1, hp.step hf h (by rcases ho with rfl | rfl <;> simp [Op.drops])⟩
  obtain ⟨hu, -⟩ := user_of hm h
  obtain ⟨-, -, -, u4, -⟩ := unlink_stack st r
  rcases ho with rfl | rfl <;> simp only [St.user] at hu <;> split at hu <;> cases hu
  · rw [(relink_stack _ _).2.2.2.1]; exact u4
  · rw [(relink_stack _ _).2.2.2.1]; exact u4

/-! ## Examples -/

theorem has_after {a b : List Op} {src : Option Nat} (ha : okSafe a = true)
    (h : okSafe (a ++ (.mk src :: .watch (after a).nr :: b)) = true) (hb : ∀ op ∈ b, op.drops ≠ some (after a).nr) :
    HasProperty (after (a ++ (.mk src :: .watch (after a).nr :: b))) (after a).nr (after a).nc := by
  have hrun := safeRun_after h
  cases hrun with
  | cons f1 h1 hrun =>
    cases hrun with
    | cons f2 h2 hrun =>
      exact ⟨after a, _, src, b, safe_after ha, by simp [St.property, h1, h2], rfl, rfl, hrun, hb⟩

/-- There is a reader with two callbacks; then an object with a property of the same source is constructed, which has
another callback. -/
def exQt : List Op :=
  [.change 1 5, .change 2 7, .mk (some 1), .watch 0, .watch 0, .mk (some 2)] ++ [.mk (some 1), .watch 2, .watch 2]

theorem exQt_has : HasProperty (after exQt) 2 2 :=
  has_after (a := [.change 1 5, .change 2 7, .mk (some 1), .watch 0, .watch 0, .mk (some 2)])
    (src := some 1) (b := [.watch 2]) (by decide +kernel) (by decide +kernel) (by decide)

example : ∃ s1, (after exQt).property (some 2) = some s1 ∧ s1.log = (after exQt).log ∧ s1.ub = false ∧
    s1.node 3 = some 2 ∧ HasProperty s1 3 4 :=
  C115_construct (safe_after (by decide +kernel)) (by decide +kernel) (some 2)

example : step (after exQt) (.get 2) = some ((after exQt).say (.got 2 5)) :=
  ((C115_access exQt_has (by decide +kernel) 0).1 1 (by decide +kernel)).1

/-- A callback assigns to another reader and constructs one more property meanwhile. -/
example : (calls 0 (after ((exQt ++ [.notify 1]) ++ [.lib, .ret, .lib, .assign 1 0, .mk (some 1), .watch 3, .ret, .lib,
      .lib, .lib, .ret, .lib, .ret, .lib, .lib, .lib, .ret, .lib, .lib])).log) = [(0, 0), (0, 1), (2, 2), (2, 3), (3, 4)] ∧
    (calls 0 (after ((exQt ++ [.notify 1]) ++ [.lib, .ret, .lib, .assign 1 0, .mk (some 1), .watch 3, .ret, .lib, .lib,
      .lib, .ret, .lib, .ret, .lib, .lib, .lib, .ret, .lib, .lib])).log).count (2, 2) = 1 :=
  ⟨by decide +kernel, C115_emits exQt_has (n := 1) (by decide +kernel) (step_after (ops := exQt) (by decide +kernel))
    (safeRun_after (by decide +kernel)) (by decide) (by decide +kernel)⟩

/-- The source changes before the signal is emitted. -/
example : step (after (exQt ++ [.notify 1, .lib, .ret, .lib, .change 1 6, .ret, .lib, .lib, .lib])) (.get 2) =
    some ((after (exQt ++ [.notify 1, .lib, .ret, .lib, .change 1 6, .ret, .lib, .lib, .lib])).say (.got 2 6)) := by
  have h : HasProperty (after (exQt ++ [.notify 1, .lib, .ret, .lib, .change 1 6, .ret, .lib, .lib])) 2 2 :=
    has_after (a := [.change 1 5, .change 2 7, .mk (some 1), .watch 0, .watch 0, .mk (some 2)])
      (src := some 1) (b := [.watch 2, .notify 1, .lib, .ret, .lib, .change 1 6, .ret, .lib, .lib])
      (by decide +kernel) (by decide +kernel) (by decide)
  have hs := step_after (ops := exQt ++ [.notify 1, .lib, .ret, .lib, .change 1 6, .ret, .lib, .lib]) (op := .lib)
    (by decide +kernel)
  exact (C115_value h hs (d := [.called 0 1 2 2 6]) (by decide +kernel) (List.mem_singleton.2 rfl) (by decide +kernel)).1

example : (after (exQt ++ [.assign 2 1])).log = (after exQt).log ∧ HasProperty (after (exQt ++ [.assign 2 1])) 2 2 :=
  have h := C115_assign exQt_has (.inl rfl) (fine_of (by decide +kernel) (by decide +kernel))
    (step_after (ops := exQt) (op := .assign 2 1) (by decide +kernel))
  ⟨h.1, h.2.2⟩

/-- C115: what the `READ` function returns can change without the signal being emitted: by assigning to the property.
It stays so until the next notification of the new source. -/
theorem C115_assign_false : ∃ st s1 : St, HasProperty st 2 2 ∧ step st (.assign 2 1) = some s1 ∧
    step st (.get 2) = some (st.say (.got 2 5)) ∧ step s1 (.get 2) = some (s1.say (.got 2 7)) ∧ s1.log = st.log := by
  have h := step_after (ops := exQt) (op := .assign 2 1) (by decide +kernel)
  have hf := fine_of (st := after exQt) (op := .assign 2 1) (by decide +kernel) (by decide +kernel)
  have ha := C115_assign exQt_has (.inl rfl) hf h
  have h1 := ((C115_access exQt_has (by decide +kernel) 0).1 1 (by decide +kernel)).1
  have h2 := ((C115_access ha.2.2 (by decide +kernel) 0).1 2 (by decide +kernel)).1
  rw [show (after exQt).val 1 = 5 by decide +kernel] at h1
  rw [show (after (exQt ++ [.assign 2 1])).val 2 = 7 by decide +kernel] at h2
  exact ⟨_, _, exQt_has, h, h1, h2, ha.1⟩

/-- C115: when the reader of a property was moved from, its signal is still emitted, while the `READ` function throws. -/
theorem C115_moved_false : ∃ st s1 : St, HasProperty st 2 2 ∧ step st .lib = some s1 ∧
    s1.log = st.log ++ [.called 0 1 2 2 5] ∧ step s1 (.get 2) = some (s1.say (.threw 2)) := by
  have h : HasProperty (after (exQt ++ [.move 2, .notify 1, .lib, .ret, .lib, .ret, .lib, .lib])) 2 2 :=
    has_after (a := [.change 1 5, .change 2 7, .mk (some 1), .watch 0, .watch 0, .mk (some 2)])
      (src := some 1) (b := [.watch 2, .move 2, .notify 1, .lib, .ret, .lib, .ret, .lib, .lib])
      (by decide +kernel) (by decide +kernel) (by decide)
  have hs := step_after (ops := exQt ++ [.move 2, .notify 1, .lib, .ret, .lib, .ret, .lib, .lib]) (op := .lib)
    (by decide +kernel)
  have h2 : HasProperty (after (exQt ++ [.move 2, .notify 1, .lib, .ret, .lib, .ret, .lib, .lib, .lib])) 2 2 :=
    has_after (a := [.change 1 5, .change 2 7, .mk (some 1), .watch 0, .watch 0, .mk (some 2)])
      (src := some 1) (b := [.watch 2, .move 2, .notify 1, .lib, .ret, .lib, .ret, .lib, .lib, .lib])
      (by decide +kernel) (by decide +kernel) (by decide)
  have h3 := ((C115_access h2 (by decide +kernel) 0).2 (by decide +kernel)).1
  exact ⟨_, _, h, hs, by decide +kernel, h3⟩

end Verif.Watch
