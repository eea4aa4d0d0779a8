import Verif.Doc.Identity

/-!
C145: actions that refer to things by index or by identity value.
-/

namespace Verif.Identity

/-! ### Specification -/

/-- The things that were added. -/
def added (l : List Wish) : List Nat := l.filterMap fun | .add k => some k | _ => none

/-- What the user has asked for: the things that were added and not removed, each toggled as often as it was wished. -/
def wanted (l : List Wish) : List Item :=
  ((added l).filter fun k => Wish.remove k ∉ l).map fun k => ⟨k, l.count (.toggle k) % 2 = 1⟩

/-- Every state that the program can be in. -/
inductive Reach (byKey : Bool) : Sys → Prop where
  | start : Reach byKey start
  | step {s s' : Sys} (o : Op) : Reach byKey s → s.step byKey o = some s' → Reach byKey s'

/-- The user does not see anything that they have removed. -/
def Gone (s : Sys) : Prop := ∀ t ∈ s.last, Wish.remove t.key ∉ s.wishes

/-- The same, if the user removes and toggles things only while they see nothing that they have removed. -/
inductive Polite (byKey : Bool) : Sys → Prop where
  | start : Polite byKey start
  | step {s s' : Sys} (o : Op) : Polite byKey s → o = .add ∨ o = .work ∨ Gone s → s.step byKey o = some s' → Polite byKey s'

/-! ### Lemmas -/

def Wish.id : Wish → Nat
  | .add k | .remove k | .toggle k => k

theorem mem_added {l : List Wish} {k : Nat} : k ∈ added l ↔ Wish.add k ∈ l := by
  simp only [added, List.mem_filterMap]
  constructor
  · rintro ⟨w, h, e⟩
    cases w <;> simp at e
    subst e; exact h
  · intro h; exact ⟨_, h, rfl⟩

theorem added_append (l l' : List Wish) : added (l ++ l') = added l ++ added l' := List.filterMap_append ..

theorem wanted_add {l : List Wish} {k : Nat} (h : ∀ w ∈ l, w.id < k) : wanted (l ++ [.add k]) = wanted l ++ [⟨k, false⟩] := by
  have hr : Wish.remove k ∉ l := fun m => Nat.lt_irrefl _ (h _ m)
  have ht : l.count (Wish.toggle k) = 0 := List.count_eq_zero.2 fun m => Nat.lt_irrefl _ (h _ m)
  have e : added (l ++ [.add k]) = added l ++ [k] := added_append ..
  simp [wanted, e, List.filter_append, hr, ht, List.count_append]

theorem wanted_remove (l : List Wish) (k : Nat) : wanted (l ++ [.remove k]) = (wanted l).filter fun t => t.key ≠ k := by
  have e : added (l ++ [.remove k]) = added l := by simp [added]
  simp only [wanted, e, List.filter_map, List.filter_filter]
  congr 1
  · funext j
    simp [List.count_append]
  · refine List.filter_congr fun j _ => ?_
    simp only [List.mem_append, List.mem_singleton, Wish.remove.injEq, Function.comp]
    by_cases h1 : Wish.remove j ∈ l <;> by_cases h2 : j = k <;> simp [h1, h2]

theorem wanted_toggle (l : List Wish) (k : Nat) : wanted (l ++ [.toggle k]) =
    (wanted l).map fun t => if t.key = k then { t with done := !t.done } else t := by
  have e : added (l ++ [.toggle k]) = added l := by simp [added]
  simp only [wanted, e, List.map_map]
  have hf : (fun j => decide (Wish.remove j ∉ l ++ [.toggle k])) = fun j => decide (Wish.remove j ∉ l) := by
    funext j; simp
  rw [hf]
  refine List.map_congr_left fun j _ => ?_
  simp only [Function.comp, List.count_append, List.count_singleton]
  by_cases h : j = k
  · subst h
    simp only [beq_self_eq_true, if_true, Item.mk.injEq, true_and]
    by_cases h2 : l.count (Wish.toggle j) % 2 = 1
    · have : ¬ (l.count (Wish.toggle j) + 1) % 2 = 1 := by omega
      simp [h2, this]
    · have : (l.count (Wish.toggle j) + 1) % 2 = 1 := by omega
      simp [h2, this]
  · have : ¬ k = j := fun e => h e.symm
    simp [h, this]

/-- The keys are what distinguishes things. -/
def Distinct (m : List Item) : Prop := (m.map Item.key).Nodup

theorem remove_at {m : List Item} {i : Nat} {t : Item} (hd : Distinct m) (h : m[i]?.map Item.key = some t.key) :
    apply m (.remove (.at i)) = some (m.filter fun u => u.key ≠ t.key) := by
  obtain ⟨u, hu, hk⟩ := Option.map_eq_some_iff.1 h
  obtain ⟨hi, -⟩ := List.getElem?_eq_some_iff.1 hu
  simp only [apply, hi, if_true, Option.some.injEq, ← hk]
  clear h hk hi
  induction m generalizing i with
  | nil => simp at hu
  | cons a m ih =>
    simp only [Distinct, List.map_cons, List.nodup_cons] at hd
    cases i with
    | zero =>
      simp at hu; subst hu
      have : m.filter (fun u => decide (u.key ≠ a.key)) = m :=
        List.filter_eq_self.2 fun v hv => by
          simp only [ne_eq, decide_eq_true_eq]
          exact fun e => hd.1 (e ▸ List.mem_map_of_mem hv)
      simp only [List.take_zero, List.drop_succ_cons, List.drop_zero, List.nil_append, List.filter_cons, ne_eq, not_true_eq_false,
        decide_false, Bool.false_eq_true, if_false]
      exact this.symm
    | succ i =>
      simp at hu
      have hne : a.key ≠ u.key := fun e => hd.1 (e ▸ List.mem_map_of_mem (List.mem_of_getElem? hu))
      have := ih hd.2 hu
      simp only [List.take_succ_cons, List.drop_succ_cons, List.cons_append, this, List.filter_cons, hne, ne_eq, not_false_eq_true,
        decide_true, if_true]

theorem toggle_at {m : List Item} {i : Nat} {t : Item} (hd : Distinct m) (h : m[i]?.map Item.key = some t.key) :
    apply m (.toggle (.at i)) = some (m.map fun u => if u.key = t.key then { u with done := !u.done } else u) := by
  obtain ⟨u, hu, hk⟩ := Option.map_eq_some_iff.1 h
  simp only [apply, hu, Option.some.injEq, ← hk]
  clear h hk
  induction m generalizing i with
  | nil => simp at hu
  | cons a m ih =>
    simp only [Distinct, List.map_cons, List.nodup_cons] at hd
    cases i with
    | zero =>
      simp at hu; subst hu
      simp only [List.set_cons_zero, List.map_cons, if_true, List.cons.injEq, true_and]
      refine (List.map_id m).symm.trans (List.map_congr_left fun v hv => ?_)
      have : v.key ≠ a.key := fun e => hd.1 (e ▸ List.mem_map_of_mem hv)
      simp [this]
    | succ i =>
      simp at hu
      have hne : a.key ≠ u.key := fun e => hd.1 (e ▸ List.mem_map_of_mem (List.mem_of_getElem? hu))
      have := ih hd.2 hu
      simp only [List.set_cons_succ, List.map_cons, hne, if_false, this]

theorem wanted_keys (l : List Wish) : (wanted l).map Item.key = (added l).filter fun k => Wish.remove k ∉ l := by
  simp [wanted, Function.comp_def]

/-- The tasks that wait do what is wished. -/
def Corr (p : List Wish) : List Task → List Wish → Prop
  | [], l => l = []
  | .publish :: q, l => Corr p q l
  | .eval a :: q, l => ∃ w l', l = w :: l' ∧ apply (wanted p) a = some (wanted (p ++ [w])) ∧ Corr (p ++ [w]) q l'

theorem Corr.publish {p : List Wish} {q : List Task} {l : List Wish} (h : Corr p q l) : Corr p (q ++ [.publish]) l := by
  induction q generalizing p l with
  | nil => exact h
  | cons t q ih =>
    cases t with
    | publish => exact ih h
    | eval a => obtain ⟨w, l', e, h1, h2⟩ := h; exact ⟨w, l', e, h1, ih h2⟩

theorem Corr.post {p : List Wish} {q : List Task} {l : List Wish} (h : Corr p q l) {a : Act} {w : Wish}
    (ha : apply (wanted (p ++ l)) a = some (wanted (p ++ l ++ [w]))) : Corr p (q ++ [.eval a]) (l ++ [w]) := by
  induction q generalizing p l with
  | nil =>
    cases (h : l = [])
    exact ⟨w, [], rfl, by simpa using ha, rfl⟩
  | cons t q ih =>
    cases t with
    | publish => exact ih h ha
    | eval b =>
      obtain ⟨v, l', e, h1, h2⟩ := h
      subst e
      exact ⟨v, l' ++ [w], rfl, h1, ih h2 (by simpa using ha)⟩

/-- What is seen, what is the model, and what waits. -/
structure Inv (s : Sys) (a b c : List Wish) : Prop where
  wishes : s.wishes = a ++ b ++ c
  last : s.last = wanted a
  model : s.model = wanted (a ++ b)
  queue : Corr (a ++ b) s.queue c
  clean : s.dirty = false → s.last = s.model
  dirty : s.dirty = true → Task.publish ∈ s.queue
  ub : s.ub = false
  fresh : ∀ w ∈ s.wishes, w.id < s.next
  nodup : (added s.wishes).Nodup

theorem Inv.distinct {s : Sys} {a b c : List Wish} (h : Inv s a b c) : Distinct (wanted s.wishes) := by
  simp only [Distinct, wanted_keys]
  exact h.nodup.filter _

theorem Inv.key {s : Sys} {a b c : List Wish} (h : Inv s a b c) (g : Gone s) {i : Nat} {t : Item} (ht : s.last[i]? = some t) :
    (wanted s.wishes)[i]?.map Item.key = some t.key := by
  have e1 : s.last.map Item.key = (added a).filter fun k => Wish.remove k ∉ s.wishes := by
    rw [h.last, wanted_keys]
    refine List.filter_congr fun k hk => ?_
    by_cases hr : Wish.remove k ∈ a
    · simp [hr, h.wishes]
    · have : k ∈ s.last.map Item.key := by
        rw [h.last, wanted_keys, List.mem_filter]; exact ⟨hk, by simpa using hr⟩
      obtain ⟨u, hu, rfl⟩ := List.mem_map.1 this
      simp [hr, g u hu]
  have e2 : (wanted s.wishes).map Item.key =
      s.last.map Item.key ++ (added (b ++ c)).filter fun k => Wish.remove k ∉ s.wishes := by
    rw [wanted_keys, e1, ← List.filter_append, ← added_append, ← List.append_assoc, ← h.wishes]
  rw [← List.getElem?_map, e2, List.getElem?_append_left, List.getElem?_map, ht]; rfl
  rw [List.length_map]
  exact (List.getElem?_eq_some_iff.1 ht).1

theorem Inv.post {s : Sys} {a b c : List Wish} (h : Inv s a b c) {x : Act} {w : Wish} (n : Nat) (hn : s.next ≤ n) (hw : w.id < n)
    (hd : (added (s.wishes ++ [w])).Nodup) (hx : apply (wanted s.wishes) x = some (wanted (s.wishes ++ [w]))) :
    Inv { s.post x w with next := n } a b (c ++ [w]) := by
  refine ⟨?_, h.last, h.model, ?_, h.clean, fun d => List.mem_append_left _ (h.dirty d), h.ub, ?_, hd⟩
  · simp [Sys.post, h.wishes]
  · exact h.queue.post (by rw [← h.wishes]; exact hx)
  · intro v hv
    rcases List.mem_append.1 hv with hv | hv
    · exact Nat.lt_of_lt_of_le (h.fresh v hv) hn
    · cases List.mem_singleton.1 hv; exact hw

theorem Inv.seen {s : Sys} {a b c : List Wish} (h : Inv s a b c) {t : Item} (ht : t ∈ s.last) : t.key < s.next := by
  have : t.key ∈ s.last.map Item.key := List.mem_map_of_mem ht
  rw [h.last, wanted_keys] at this
  have := mem_added.1 (List.mem_filter.1 this).1
  exact h.fresh (.add t.key) (by rw [h.wishes]; simp [this])

theorem Inv.step {s s' : Sys} {a b c : List Wish} (h : Inv s a b c) {byKey : Bool} {o : Op}
    (g : byKey = true ∨ o = .add ∨ o = .work ∨ Gone s) (hs : s.step byKey o = some s') : ∃ a b c, Inv s' a b c := by
  simp only [Sys.step, h.ub, Bool.false_eq_true, if_false] at hs
  cases o with
  | add =>
    cases hs
    refine ⟨a, b, _, h.post (w := .add s.next) (s.next + 1) (Nat.le_succ _) (Nat.lt_succ_self _) ?_ ?_⟩
    · rw [added_append]
      refine List.nodup_append.2 ⟨h.nodup, by simp [added], fun x hx y hy e => ?_⟩
      simp [added] at hy
      subst e hy
      exact Nat.lt_irrefl _ (h.fresh _ (mem_added.1 hx))
    · rw [wanted_add h.fresh]; rfl
  | remove i =>
    obtain ⟨t, ht, rfl⟩ := Option.map_eq_some_iff.1 hs
    have hw := h.seen (List.mem_of_getElem? ht)
    refine ⟨a, b, _, h.post (w := .remove t.key) s.next (Nat.le_refl _) hw ?_ ?_⟩
    · rw [added_append]; simpa [added] using h.nodup
    · rw [wanted_remove]
      cases byKey with
      | true => rfl
      | false =>
        have g : Gone s := by simpa using g
        exact remove_at h.distinct (h.key g ht)
  | toggle i =>
    obtain ⟨t, ht, rfl⟩ := Option.map_eq_some_iff.1 hs
    have hw := h.seen (List.mem_of_getElem? ht)
    refine ⟨a, b, _, h.post (w := .toggle t.key) s.next (Nat.le_refl _) hw ?_ ?_⟩
    · rw [added_append]; simpa [added] using h.nodup
    · rw [wanted_toggle]
      cases byKey with
      | true => rfl
      | false =>
        have g : Gone s := by simpa using g
        exact toggle_at h.distinct (h.key g ht)
  | work =>
    have hs : s.work = some s' := hs
    unfold Sys.work at hs
    split at hs
    · cases hs
    · rename_i x q hq
      cases hs
      have hc := h.queue
      rw [hq] at hc
      obtain ⟨w, l, e, h1, h2⟩ := hc
      subst e
      rw [← h.model] at h1
      refine ⟨a, b ++ [w], l, ?_⟩
      simp only [Sys.eval, h1]
      refine ⟨?_, h.last, ?_, ?_, ?_, fun _ => List.mem_append_right _ (List.mem_singleton.2 rfl), h.ub, h.fresh, h.nodup⟩
      · simp [h.wishes]
      · simp
      · rw [← List.append_assoc]; exact h2.publish
      · intro d
        simp only [Bool.or_eq_false_iff, decide_eq_false_iff_not, ne_eq, Decidable.not_not] at d
        rw [d.2]; exact h.clean d.1
    · rename_i q hq
      cases hs
      have hc := h.queue
      rw [hq] at hc
      have hc : Corr (a ++ b) q c := hc
      unfold Sys.publish
      split
      · refine ⟨a ++ b, [], c, ?_, h.model, ?_, ?_, fun _ => rfl, nofun, h.ub, h.fresh, h.nodup⟩
        · simp [h.wishes]
        · simp [h.model]
        · simpa using hc
      · rename_i hd
        exact ⟨a, b, c, h.wishes, h.last, h.model, hc, h.clean, fun d => absurd d hd, h.ub, h.fresh, h.nodup⟩

theorem start_inv : Inv start [] [] [] :=
  ⟨rfl, rfl, rfl, rfl, fun _ => rfl, nofun, rfl, nofun, List.nodup_nil⟩

theorem Inv.shown {s : Sys} {a b c : List Wish} (h : Inv s a b c) : s.ub = false ∧
    ∃ n, s.last = wanted (s.wishes.take n) ∧ (s.queue = [] → n = s.wishes.length) := by
  refine ⟨h.ub, ?_⟩
  by_cases hq : s.queue = []
  · refine ⟨s.wishes.length, ?_, fun _ => rfl⟩
    have hd : s.dirty = false := by
      cases hd : s.dirty with
      | false => rfl
      | true => have := h.dirty hd; rw [hq] at this; cases this
    have hc := h.queue
    rw [hq] at hc
    cases (hc : c = [])
    rw [List.take_length, h.clean hd, h.model, h.wishes, List.append_nil]
  · exact ⟨a.length, by rw [h.wishes, List.append_assoc, List.take_left]; exact h.last, fun e => absurd e hq⟩

/-! ### Properties -/

/-- C145: with identity values, the user always sees what the first so many of their wishes ask for, and when no task waits, what
all of them ask for; each is about the thing that they saw.  Nothing undefined happens. -/
theorem C145_key {s : Sys} (r : Reach true s) : s.ub = false ∧
    ∃ n, s.last = wanted (s.wishes.take n) ∧ (s.queue = [] → n = s.wishes.length) := by
  have : ∃ a b c, Inv s a b c := by
    induction r with
    | start => exact ⟨_, _, _, start_inv⟩
    | step o _ h ih => obtain ⟨a, b, c, i⟩ := ih; exact i.step (.inl rfl) h
  obtain ⟨a, b, c, i⟩ := this
  exact i.shown

/-- C145: indices are as good if the user removes and toggles things only while they see nothing that they have removed, also if
other tasks wait. -/
theorem C145_index {s : Sys} (r : Polite false s) : s.ub = false ∧
    ∃ n, s.last = wanted (s.wishes.take n) ∧ (s.queue = [] → n = s.wishes.length) := by
  have : ∃ a b c, Inv s a b c := by
    induction r with
    | start => exact ⟨_, _, _, start_inv⟩
    | step o _ g h ih => obtain ⟨a, b, c, i⟩ := ih; exact i.step (.inr g) h
  obtain ⟨a, b, c, i⟩ := this
  exact i.shown

/-! ### Examples -/

theorem Reach.exec {k : Bool} {s s' : Sys} (r : Reach k s) {os : List Op} (h : s.exec k os = some s') : Reach k s' := by
  induction os generalizing s with
  | nil => cases h; exact r
  | cons o os ih =>
    simp only [Sys.exec, Option.bind_eq_some_iff] at h
    obtain ⟨s1, h1, h2⟩ := h
    exact ih (.step o r h1) h2

/-- Three things, which the user sees. -/
def three : List Op := [.add, .add, .add, .work, .work, .work, .work, .work, .work]

/-- C145 is FALSE for indices otherwise: if the user clicks twice to remove the first thing, the second is removed, too. -/
theorem C145_twice_false : ∃ s, Reach false s ∧ s.queue = [] ∧ s.wishes = [.add 0, .add 1, .add 2, .remove 0, .remove 0] ∧
    s.last = [⟨2, false⟩] := by
  have h : start.exec false (three ++ [.remove 0, .remove 0, .work, .work, .work, .work]) =
      some ⟨[⟨2, false⟩], [⟨2, false⟩], false, [], false, 3, [.add 0, .add 1, .add 2, .remove 0, .remove 0]⟩ := by decide
  exact ⟨_, Reach.start.exec h, rfl, rfl, rfl⟩

/-- C145 is FALSE for indices otherwise: another thing is toggled than the one that the user saw. -/
theorem C145_other_false : ∃ s, Reach false s ∧ s.queue = [] ∧ s.wishes = [.add 0, .add 1, .add 2, .remove 0, .toggle 1] ∧
    s.last = [⟨1, false⟩, ⟨2, true⟩] := by
  have h : start.exec false (three ++ [.remove 0, .toggle 1, .work, .work, .work, .work]) =
      some ⟨[⟨1, false⟩, ⟨2, true⟩], [⟨1, false⟩, ⟨2, true⟩], false, [], false, 3,
        [.add 0, .add 1, .add 2, .remove 0, .toggle 1]⟩ := by decide
  exact ⟨_, Reach.start.exec h, rfl, rfl, rfl⟩

/-- C145 is FALSE for indices otherwise: clicking twice to remove the last thing is undefined, and so is removing it and then
toggling it. -/
theorem C145_undefined_false :
    (∃ s, Reach false s ∧ s.wishes = [.add 0, .remove 0, .remove 0] ∧ s.ub = true) ∧
    ∃ s, Reach false s ∧ s.wishes = [.add 0, .remove 0, .toggle 0] ∧ s.ub = true := by
  have h : start.exec false [.add, .work, .work, .remove 0, .remove 0, .work, .work] =
      some ⟨[], [⟨0, false⟩], true, [.publish], true, 1, [.add 0, .remove 0, .remove 0]⟩ := by decide
  have h' : start.exec false [.add, .work, .work, .remove 0, .toggle 0, .work, .work] =
      some ⟨[], [⟨0, false⟩], true, [.publish], true, 1, [.add 0, .remove 0, .toggle 0]⟩ := by decide
  exact ⟨⟨_, Reach.start.exec h, rfl, rfl⟩, _, Reach.start.exec h', rfl, rfl⟩

/-- The same with identity values. -/
example : ∃ s, Reach true s ∧ s.queue = [] ∧ s.wishes = [.add 0, .add 1, .add 2, .remove 0, .remove 0, .toggle 1] ∧
    s.last = [⟨1, true⟩, ⟨2, false⟩] := by
  have h : start.exec true (three ++ [.remove 0, .remove 0, .toggle 1, .work, .work, .work, .work, .work, .work]) =
      some ⟨[⟨1, true⟩, ⟨2, false⟩], [⟨1, true⟩, ⟨2, false⟩], false, [], false, 3,
        [.add 0, .add 1, .add 2, .remove 0, .remove 0, .toggle 1]⟩ := by decide
  exact ⟨_, Reach.start.exec h, rfl, rfl, rfl⟩

/-- Polite, with other tasks waiting. -/
example : ∃ s, Polite false s ∧ s.queue = [.eval (.add 1), .eval (.toggle (.at 0)), .eval (.remove (.at 0))] ∧
    s.wishes = [.add 0, .add 1, .toggle 0, .remove 0] := by
  have g : ∀ s : Sys, s.last = [⟨0, false⟩] → Wish.remove 0 ∉ s.wishes → Gone s := by
    intro s h h2 t ht
    rw [h] at ht
    cases List.mem_singleton.1 ht
    exact h2
  refine ⟨_, .step (.remove 0) (.step (.toggle 0) (.step .add (.step .work (.step .work (.step .add .start (.inl rfl) rfl)
    (.inr (.inl rfl)) rfl) (.inr (.inl rfl)) rfl) (.inl rfl) rfl) (.inr (.inr (g _ rfl (by decide)))) rfl)
    (.inr (.inr (g _ rfl (by decide)))) rfl, rfl, rfl⟩

end Verif.Identity
