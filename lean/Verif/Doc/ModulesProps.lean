import Verif.Doc.Modules

/-!
C128: the modules of the documentation.
-/

namespace Verif.Doc

variable {F B f b E M A : Type}

/-! ### Two modules in one -/

/-- C128, specification: the actions for each of the two. -/
def foos (l : List (AppAct f b)) : List f := l.filterMap fun | .foo a => some a | .bar _ => none
def bars (l : List (AppAct f b)) : List b := l.filterMap fun | .foo _ => none | .bar a => some a

/-- C128: a module made of two does what the two do, each with its own actions, in whatever way the actions of the two are
mixed. -/
theorem C128_parts (updateFoo : F → f → F) (updateBar : B → b → B) (l : List (AppAct f b)) : ∀ app : App F B,
    l.foldl (updateApp updateFoo updateBar) app =
      ⟨(foos l).foldl updateFoo app.foo, (bars l).foldl updateBar app.bar⟩ := by
  induction l with
  | nil => intro app; rfl
  | cons a l ih =>
    intro app
    rw [List.foldl_cons, ih]
    cases a <;> rfl

/-- C128, specification: effects by the module they came from. -/
def foosOf (l : List (AppAct f b)) (es : List E) : List E :=
  (l.zip es).filterMap fun | (.foo _, e) => some e | (.bar _, _) => none
def barsOf (l : List (AppAct f b)) (es : List E) : List E :=
  (l.zip es).filterMap fun | (.foo _, _) => none | (.bar _, e) => some e

/-- C128: the same with effects: there is one for each action, and those of a module are the ones it has on its own, in
order. -/
theorem C128_effects (updateFoo : F → f → F × E) (updateBar : B → b → B × E) (l : List (AppAct f b)) : ∀ app : App F B,
    (runEff (updateAppEff updateFoo updateBar) app l).2.length = l.length ∧
    runEff updateFoo app.foo (foos l) = ((runEff (updateAppEff updateFoo updateBar) app l).1.foo,
      foosOf l (runEff (updateAppEff updateFoo updateBar) app l).2) ∧
    runEff updateBar app.bar (bars l) = ((runEff (updateAppEff updateFoo updateBar) app l).1.bar,
      barsOf l (runEff (updateAppEff updateFoo updateBar) app l).2) := by
  induction l with
  | nil => intro app; exact ⟨rfl, rfl, rfl⟩
  | cons a l ih =>
    intro app
    cases a with
    | foo a =>
      obtain ⟨h0, h1, h2⟩ := ih { app with foo := (updateFoo app.foo a).1 }
      refine ⟨?_, ?_, ?_⟩
      · simp [runEff, updateAppEff, h0]
      · simp [foos, foosOf, runEff, updateAppEff] at h1 ⊢
        rw [h1]
        exact ⟨rfl, rfl⟩
      · simpa [bars, barsOf, runEff, updateAppEff] using h2
    | bar a =>
      obtain ⟨h0, h1, h2⟩ := ih { app with bar := (updateBar app.bar a).1 }
      refine ⟨?_, ?_, ?_⟩
      · simp [runEff, updateAppEff, h0]
      · simpa [foos, foosOf, runEff, updateAppEff] using h1
      · simp [bars, barsOf, runEff, updateAppEff] at h2 ⊢
        rw [h2]
        exact ⟨rfl, rfl⟩

/-! ### Undo -/

/-- C128, specification: a document with what was before, latest first, and what was undone, latest undone first. -/
structure Undo (M : Type) where
  past : List M
  present : M
  future : List M

/-- C128, specification: how an editor with undo works. -/
inductive Undo.Next (r : M → A → M) : Undo M → HAct A → Undo M → Prop
  /-- an edit that changes something can be undone, and what was undone before is gone -/
  | edit {p x f a} : r x a ≠ x → Next r ⟨p, x, f⟩ (.doc a) ⟨x :: p, r x a, []⟩
  /-- an edit that changes nothing is nothing -/
  | same {p x f a} : r x a = x → Next r ⟨p, x, f⟩ (.doc a) ⟨p, x, f⟩
  | undo {p x y f} : Next r ⟨y :: p, x, f⟩ .undo ⟨p, y, x :: f⟩
  | first {x f} : Next r ⟨[], x, f⟩ .undo ⟨[], x, f⟩
  | redo {p x y f} : Next r ⟨p, x, y :: f⟩ .redo ⟨x :: p, y, f⟩
  | last {p x} : Next r ⟨p, x, []⟩ .redo ⟨p, x, []⟩
  /-- going to a position does not lose anything -/
  | goto_ {p x f p' y f'} : p'.reverse ++ y :: f' = p.reverse ++ x :: f → Next r ⟨p, x, f⟩ (.goto_ p'.length) ⟨p', y, f'⟩
  | missing {p x f n} : p.length + 1 + f.length ≤ n → Next r ⟨p, x, f⟩ (.goto_ n) ⟨p, x, f⟩

/-- C128, specification: any number of actions. -/
inductive Undo.Runs (r : M → A → M) : Undo M → List (HAct A) → Undo M → Prop
  | nil {s} : Runs r s [] s
  | cons {s s' s'' a as} : Undo.Next r s a s' → Runs r s' as s'' → Runs r s (a :: as) s''

/-- The history that stands for it. -/
def Undo.hist (s : Undo M) : History M := ⟨s.past.reverse ++ s.present :: s.future, s.past.length⟩

theorem hist_shown (s : Undo M) : s.hist.shown = some s.present := by
  unfold History.shown Undo.hist
  simp

theorem goTo_hist (s : Undo M) {n : Nat} (h : n < s.past.length + 1 + s.future.length) :
    ∃ s' : Undo M, s'.past.length = n ∧ s'.past.reverse ++ s'.present :: s'.future = s.past.reverse ++ s.present :: s.future ∧
      s.hist.goTo n = s'.hist := by
  have hl : n < (s.past.reverse ++ s.present :: s.future).length := by
    simp only [List.length_append, List.length_reverse, List.length_cons]
    omega
  refine ⟨⟨((s.past.reverse ++ s.present :: s.future).take n).reverse, (s.past.reverse ++ s.present :: s.future)[n],
    (s.past.reverse ++ s.present :: s.future).drop (n + 1)⟩, ?_, ?_, ?_⟩
  · simp only [List.length_reverse, List.length_take]
    omega
  · simp only [List.reverse_reverse]
    rw [List.getElem_cons_drop hl, List.take_append_drop]
  · unfold History.goTo Undo.hist
    simp only
    rw [if_pos ⟨Nat.zero_le _, hl⟩]
    congr 1
    · rw [List.reverse_reverse, List.getElem_cons_drop hl, List.take_append_drop]
    · simp only [List.length_reverse, List.length_take]
      omega

theorem goTo_missing (m : History M) {n : Nat} (h : m.history.length ≤ n) : m.goTo n = m := by
  unfold History.goTo
  rw [if_neg (by omega)]

theorem next_hist [DecidableEq M] (r : M → A → M) (s : Undo M) (hs : s.past.length + 1 + s.future.length < 2 ^ 64)
    (a : HAct A) : ∃ s', Undo.Next r s a s' ∧ updateHistory r s.hist a = some s'.hist ∧
      s'.past.length + s'.future.length ≤ s.past.length + s.future.length + 1 := by
  obtain ⟨p, x, fu⟩ := s
  simp only at hs
  cases a with
  | doc a =>
    by_cases h : r x a = x
    · refine ⟨_, .same h, ?_, by omega⟩
      unfold updateHistory
      rw [hist_shown]
      simp [h]
    · refine ⟨_, .edit h, ?_, by simp⟩
      unfold updateHistory
      rw [hist_shown]
      simp only [ne_eq, h, not_false_eq_true, if_true]
      unfold Undo.hist
      simp [List.take_append, List.take_of_length_le]
  | undo =>
    cases p with
    | nil =>
      refine ⟨_, .first, ?_, by omega⟩
      show some _ = some _
      congr 1
      apply goTo_missing
      simp only [Undo.hist, List.reverse_nil, List.nil_append, List.length_cons, List.length_nil] at *
      have : sizeT (((0 : Nat) : Int) - 1) = 2 ^ 64 - 1 := by decide +kernel
      rw [this]
      omega
    | cons y p =>
      refine ⟨_, .undo, ?_, by simp only [List.length_cons]; omega⟩
      show some _ = some _
      congr 1
      simp only [List.length_cons] at hs
      have : sizeT (((y :: p).length : Int) - 1) = p.length := by
        unfold sizeT
        simp only [List.length_cons]
        omega
      unfold History.goTo Undo.hist
      simp only [this]
      rw [if_pos ⟨Nat.zero_le _, by simp⟩]
      simp
  | redo =>
    cases fu with
    | nil =>
      refine ⟨_, .last, ?_, by omega⟩
      show some _ = some _
      congr 1
      apply goTo_missing
      simp only [List.length_nil] at hs
      have : sizeT ((p.length : Int) + 1) = p.length + 1 := by
        unfold sizeT
        omega
      simp [Undo.hist, this]
    | cons y fu =>
      refine ⟨_, .redo, ?_, by simp only [List.length_cons]; omega⟩
      show some _ = some _
      congr 1
      simp only [List.length_cons] at hs
      have : sizeT ((p.length : Int) + 1) = p.length + 1 := by
        unfold sizeT
        omega
      unfold History.goTo Undo.hist
      simp only [this]
      rw [if_pos ⟨Nat.zero_le _, by simp⟩]
      simp
  | goto_ n =>
    by_cases h : n < p.length + 1 + fu.length
    · obtain ⟨⟨p', y, f'⟩, h1, h2, h3⟩ := goTo_hist ⟨p, x, fu⟩ h
      simp only at h1 h2
      subst h1
      refine ⟨_, .goto_ h2, congrArg some h3, ?_⟩
      have := congrArg List.length h2
      simp only [List.length_append, List.length_reverse, List.length_cons] at this
      simp only
      omega
    · refine ⟨_, .missing (Nat.le_of_not_lt h), ?_, by omega⟩
      show some _ = some _
      congr 1
      apply goTo_missing
      simp only [Undo.hist, List.length_append, List.length_reverse, List.length_cons]
      omega

/-- C128: a module with history works like an editor with undo, for all sequences of edits, undos, redos and jumps (as long as
a history fits into memory): it shows the present document, its position counts what is before, and it never accesses a
document out of range. -/
theorem C128_undo [DecidableEq M] (r : M → A → M) (init : M) (l : List (HAct A)) (hl : l.length + 1 < 2 ^ 64) :
    ∃ (m : History M) (s : Undo M), runHistory r (History.new init) l = some m ∧ Undo.Runs r ⟨[], init, []⟩ l s ∧
      m.shown = some s.present ∧ m.position = s.past.length ∧ m.history = s.past.reverse ++ s.present :: s.future := by
  suffices H : ∀ (l : List (HAct A)) (s : Undo M), s.past.length + s.future.length + l.length + 1 < 2 ^ 64 →
      ∃ s', runHistory r s.hist l = some s'.hist ∧ Undo.Runs r s l s' by
    obtain ⟨s, h1, h2⟩ := H l ⟨[], init, []⟩ (by simp only [List.length_nil]; omega)
    exact ⟨s.hist, s, h1, h2, hist_shown s, rfl, rfl⟩
  intro l
  induction l with
  | nil => exact fun s _ => ⟨s, rfl, .nil⟩
  | cons a l ih =>
    intro s h
    simp only [List.length_cons] at h
    obtain ⟨s1, h1, h2, h3⟩ := next_hist r s (by omega) a
    obtain ⟨s2, h4, h5⟩ := ih s1 (by omega)
    exact ⟨s2, by rw [runHistory, h2]; exact h4, .cons h1 h5⟩

/-- C128: an undo right after an edit that changed the document brings it back, and a redo then brings the edit back. -/
theorem C128_back [DecidableEq M] (r : M → A → M) (init : M) (l : List (HAct A)) (hl : l.length + 4 < 2 ^ 64)
    {m m' : History M} {x : M} {a : A} (h : runHistory r (History.new init) l = some m) (hx : m.shown = some x)
    (he : updateHistory r m (.doc a) = some m') (hne : r x a ≠ x) :
    m'.shown = some (r x a) ∧
    ∃ u v, updateHistory r m' .undo = some u ∧ u.shown = some x ∧ updateHistory r u .redo = some v ∧ v = m' := by
  obtain ⟨m1, s, h1, h2, h3, h4, h5⟩ := C128_undo r init l (by omega)
  rw [h] at h1
  cases h1
  rw [hx] at h3
  cases h3
  have hm : m = s.hist := by
    cases m
    simp only at h4 h5
    subst h4 h5
    rfl
  have hbound : ∀ (l : List (HAct A)) (s s' : Undo M), Undo.Runs r s l s' →
      s'.past.length + s'.future.length ≤ s.past.length + s.future.length + l.length := by
    intro l s s' hr
    induction hr with
    | nil => simp
    | cons hn _ ih =>
      have : ∀ {s s' : Undo M} {a}, Undo.Next r s a s' →
          s'.past.length + s'.future.length ≤ s.past.length + s.future.length + 1 := by
        intro s s' a hn
        cases hn with
        | goto_ he =>
          have := congrArg List.length he
          simp only [List.length_append, List.length_reverse, List.length_cons] at this
          simp only
          omega
        | _ => simp <;> omega
      have := this hn
      simp only [List.length_cons]
      omega
  have hb := hbound l _ _ h2
  simp only [List.length_nil] at hb
  obtain ⟨p, x, fu⟩ := s
  simp only at hne hb
  have e1 : updateHistory r m (.doc a) = some (Undo.hist ⟨x :: p, r x a, []⟩) := by
    obtain ⟨s', hn, hu, _⟩ := next_hist r ⟨p, x, fu⟩ (by simp only;  omega) (.doc a)
    rw [hm, hu]
    cases hn with
    | edit _ => rfl
    | same h => exact absurd h hne
  rw [e1] at he
  cases he
  obtain ⟨s1, hn1, hu1, _⟩ := next_hist r ⟨x :: p, r x a, []⟩
    (by simp only [List.length_cons, List.length_nil]; omega) (.undo : HAct A)
  cases hn1
  obtain ⟨s2, hn2, hu2, _⟩ := next_hist r ⟨p, x, [r x a]⟩
    (by simp only [List.length_cons, List.length_nil]; omega) (.redo : HAct A)
  cases hn2
  exact ⟨hist_shown _, _, _, hu1, hist_shown _, hu2, rfl⟩

/-- C128: FALSE of the variant with effects: after an undo and another edit, an undo does not bring back the document that
the edit was made to. -/
theorem C128_effects_false : ∃ (r : Nat → Nat → Nat × Unit) (l : List (HAct Nat)) (m m' m'' : History Nat × List Unit)
    (x : Nat),
    runHistoryEff r () (History.new 0) l = some m ∧ m.1.shown = some x ∧
    runHistoryEff r () (History.new 0) (l ++ [.doc 2]) = some m' ∧ m'.1.shown = some (r x 2).1 ∧ (r x 2).1 ≠ x ∧
    runHistoryEff r () (History.new 0) (l ++ [.doc 2, .undo]) = some m'' ∧ m''.1.shown ≠ some x :=
  ⟨fun m a => (10 * m + a, ()), [.doc 1, .undo], (⟨[0, 1], 0⟩, [(), ()]), (⟨[0, 1, 2], 2⟩, [(), (), ()]),
    (⟨[0, 1, 2], 1⟩, [(), (), (), ()]), 0, by decide +kernel, by decide +kernel, by decide +kernel, by decide +kernel,
    by decide +kernel, by decide +kernel, by decide +kernel⟩

/-- C128: still, this variant never accesses a document out of range either, and has the effects of the reducer for edits, and
none for undo, redo and jumps. -/
theorem C128_effects_run (r : M → A → M × E) (noop : E) (init : M) (l : List (HAct A)) :
    ∃ m es, runHistoryEff r noop (History.new init) l = some (m, es) ∧ (∃ x, m.shown = some x) ∧ es.length = l.length ∧
      ∀ i : Nat, (l[i]? = some HAct.undo ∨ l[i]? = some HAct.redo ∨ (∃ n, l[i]? = some (HAct.goto_ n)) →
          es[i]? = some noop) ∧
        ∀ a, l[i]? = some (HAct.doc a) → ∃ m' es' x, runHistoryEff r noop (History.new init) (l.take i) = some (m', es') ∧
          m'.shown = some x ∧ es[i]? = some (r x a).2 := by
  suffices H : ∀ (l : List (HAct A)) (m : History M), m.position < m.history.length →
      ∃ m' es, runHistoryEff r noop m l = some (m', es) ∧ m'.position < m'.history.length ∧ es.length = l.length ∧
        ∀ i : Nat, (l[i]? = some HAct.undo ∨ l[i]? = some HAct.redo ∨ (∃ n, l[i]? = some (HAct.goto_ n)) →
            es[i]? = some noop) ∧
          ∀ a, l[i]? = some (HAct.doc a) → ∃ m' es' x, runHistoryEff r noop m (l.take i) = some (m', es') ∧
            m'.shown = some x ∧ es[i]? = some (r x a).2 by
    obtain ⟨m, es, h1, h2, h3⟩ := H l (History.new init) (by simp [History.new])
    exact ⟨m, es, h1, ⟨_, List.getElem?_eq_getElem h2⟩, h3⟩
  have hgo : ∀ (m : History M) n, m.position < m.history.length → (m.goTo n).position < (m.goTo n).history.length := by
    intro m n h
    unfold History.goTo
    split
    · next h' => exact h'.2
    · exact h
  intro l
  induction l with
  | nil => exact fun m h => ⟨m, [], rfl, h, rfl, fun i => ⟨fun h => by simp at h, fun a h => by simp at h⟩⟩
  | cons a l ih =>
    intro m h
    have hstep : ∃ m1 e, updateHistoryEff r noop m a = some (m1, e) ∧ m1.position < m1.history.length ∧
        ((a = .undo ∨ a = .redo ∨ ∃ n, a = .goto_ n) → e = noop) ∧
        ∀ b, a = .doc b → ∃ x, m.shown = some x ∧ e = (r x b).2 := by
      cases a with
      | doc a =>
        refine ⟨_, _, by simp only [updateHistoryEff, History.shown, List.getElem?_eq_getElem h]; rfl, by simp, ?_, ?_⟩
        · rintro (h | h | ⟨n, h⟩) <;> cases h
        · rintro b h'
          cases h'
          exact ⟨_, List.getElem?_eq_getElem h, rfl⟩
      | undo => exact ⟨_, _, rfl, hgo _ _ h, fun _ => rfl, fun _ h => by cases h⟩
      | redo => exact ⟨_, _, rfl, hgo _ _ h, fun _ => rfl, fun _ h => by cases h⟩
      | goto_ n => exact ⟨_, _, rfl, hgo _ _ h, fun _ => rfl, fun _ h => by cases h⟩
    obtain ⟨m1, e, h1, h2, h3, h3'⟩ := hstep
    obtain ⟨m2, es, h4, h5, h6, h7⟩ := ih m1 h2
    refine ⟨m2, e :: es, by rw [runHistoryEff, h1]; simp [h4], h5, by simp [h6], ?_⟩
    intro i
    cases i with
    | zero =>
      simp only [List.getElem?_cons_zero, Option.some.injEq, List.take_zero]
      refine ⟨h3, fun b hb => ?_⟩
      obtain ⟨x, hx, he⟩ := h3' b hb
      exact ⟨m, [], x, rfl, hx, he⟩
    | succ i =>
      simp only [List.getElem?_cons_succ, List.take_succ_cons]
      refine ⟨(h7 i).1, fun b hb => ?_⟩
      obtain ⟨m', es', x, g1, g2, g3⟩ := (h7 i).2 b hb
      exact ⟨m', e :: es', x, by rw [runHistoryEff, h1]; simp [g1], g2, g3⟩

-- two counters
example : [AppAct.foo 1, .bar 2, .foo 3].foldl (updateApp (· + ·) (· * ·)) (⟨0, 5⟩ : App Nat Nat) = ⟨4, 10⟩ := by decide

-- two edits, three undos (of which the last does nothing), a redo, an edit that changes nothing, another edit
example : runHistory (fun m (a : Nat) => m + a) (History.new 0) [.doc 1, .doc 2, .undo, .undo, .undo, .redo, .doc 0] =
    some ⟨[0, 1, 3], 1⟩ ∧
    runHistory (fun m (a : Nat) => m + a) (History.new 0) [.doc 1, .doc 2, .undo, .undo, .undo, .redo, .doc 0, .doc 5] =
    some ⟨[0, 1, 6], 2⟩ := by decide +kernel

end Verif.Doc
