import Verif.Store.Props6
import Verif.Store.Props9

/-!
Properties C93 and C96 with reducers that throw.
-/

namespace Verif.Store

open Verif

variable {A Mo : Type}

/-- The actions for which the reducer has returned. -/
def evaluated : List (SEv A Mo) → List A
  | [] => []
  | .reduced _ _ a _ _ :: l => a :: evaluated l
  | _ :: l => evaluated l

theorem evaluated_append (l r : List (SEv A Mo)) : evaluated (l ++ r) = evaluated l ++ evaluated r := by
  induction l with
  | nil => rfl
  | cons e l ih => cases e <;> simp [evaluated, ih]

theorem evaluated_sub (l : List (SEv A Mo)) : (evaluated l).Sublist (reductions l) := by
  induction l with
  | nil => exact .slnil
  | cons e l ih =>
    cases e <;> simp only [evaluated, reductions] <;> first | exact ih | exact ih.cons_cons _ | exact ih.cons _

/-- Actions for which the reducer throws change nothing. -/
theorem fold_evaluated {c : Cfg A Mo} {R : List A → Mo → Prop} (h0 : R [] c.init) {log : List (SEv A Mo)} (hl : LogOK c log)
    (hs : ∀ d m a m' e as, SEv.reduced d m a m' e ∈ log → R as m → R (as ++ [a]) m') :
    R (evaluated log) (fold c (reductions log)) := by
  suffices h : ∀ l l1, log = l1 ++ l → R (evaluated l1) (fold c (reductions l1)) →
      R (evaluated (l1 ++ l)) (fold c (reductions (l1 ++ l))) from h log [] rfl h0
  intro l
  induction l with
  | nil => intro l1 _ h; simpa using h
  | cons e l ih =>
    intro l1 he h
    have hev := hl l1 e l he
    have := ih (l1 ++ [e]) (by simp [he]) (by
      rw [evaluated_append, reductions_append, fold_append]
      cases e with
      | reduced d m a m' x =>
        obtain ⟨h1, h2, h3⟩ := hev
        rw [← h1] at h ⊢
        have : fold c (reductions l1) = m := h1.symm
        simp only [evaluated, reductions, List.foldl_cons, List.foldl_nil, Cfg.next]
        have h4 : (c.reducer m a).1 = m' := (congrArg Prod.fst h2).symm
        rw [h3, h4]
        exact hs d m a m' x _ (by rw [he]; simp) h
      | reduceThrew d m a =>
        obtain ⟨h1, h2⟩ := hev
        rw [← h1] at h ⊢
        simp only [evaluated, reductions, List.foldl_cons, List.foldl_nil, Cfg.next, h2, List.append_nil]
        exact h
      | _ => simpa [evaluated, reductions] using h)
    simpa using this

theorem idle_reductions {c : Cfg A Mo} (hc : c.sound) {st : St A Mo} (r : Reach c st) (hi : st.idle) :
    dispatches st.log = reductions st.log := by
  have k := r.core hc
  rw [dispatches_disp, reductions_red, k.order, show st.queue = [] from hi]
  simp [pend]

section C93

variable (pid rid : Nat) {ch : DModel A Mo → DModel A Mo → Bool} {c : Cfg A Mo}

/-- C93: also for reducers that throw: when no tasks are left the model of the store is the one that the debugger has
after the actions that were dispatched, without those for which evaluation threw. -/
theorem C93_evaluated (hch : ∀ x y, ch x y = false → x = y) (ht : c.trans = false)
    {st : St (DAction A) (DModel A Mo)} (r : Reach (withDebugger pid rid ch c) st) (hi : st.idle) :
    (∃ es, Debugger.run (asReducer c) (Debugger.Model.start c.init) (evaluated st.log) = some (st.get, es)) ∧
    (evaluated st.log).Sublist (dispatches st.log) := by
  have k := Reach.core (c := withDebugger pid rid ch c) hch r
  have e := idle_reductions (c := withDebugger pid rid ch c) hch r hi
  rw [C48_fold (c := withDebugger pid rid ch c) hch ht r hi, e]
  refine ⟨fold_evaluated (c := withDebugger pid rid ch c)
    (R := fun as m => ∃ es, Debugger.run (asReducer c) (Debugger.Model.start c.init) as = some (m, es))
    ⟨[], rfl⟩ k.log ?_, evaluated_sub _⟩
  rintro d m a m' x as hm ⟨es, h⟩
  obtain ⟨es', h', -⟩ := C93_step pid rid hch r hm
  exact ⟨es ++ es', by rw [Debugger.run_append, h]; simp [Debugger.run, h']⟩

end C93

section C96

variable (pid rid : Nat) {ch : TModel A Mo → TModel A Mo → Bool} {c : Cfg A Mo}

/-- C96: also for reducers that throw: when no tasks are left the model of the store is the one that the tree debugger
has after the actions that were dispatched, without those for which evaluation threw. -/
theorem C96_evaluated (hch : ∀ x y, ch x y = false → x = y) (ht : c.trans = false)
    {st : St (TAction A) (TModel A Mo)} (r : Reach (withTree pid rid ch c) st) (hi : st.idle) :
    (∃ es, Tree.run (asReducer c) (Tree.Model.start c.init) (evaluated st.log) = some (st.get, es)) ∧
    (evaluated st.log).Sublist (dispatches st.log) := by
  have k := Reach.core (c := withTree pid rid ch c) hch r
  have e := idle_reductions (c := withTree pid rid ch c) hch r hi
  rw [C48_fold (c := withTree pid rid ch c) hch ht r hi, e]
  refine ⟨fold_evaluated (c := withTree pid rid ch c)
    (R := fun as m => ∃ es, Tree.run (asReducer c) (Tree.Model.start c.init) as = some (m, es))
    ⟨[], rfl⟩ k.log ?_, evaluated_sub _⟩
  rintro d m a m' x as hm ⟨es, h⟩
  obtain ⟨es', h', -⟩ := C96_step pid rid hch r hm
  exact ⟨es ++ es', by rw [Tree.run_append, h]; simp [Tree.run, h']⟩

end C96

/-- Action 3 throws; the others are evaluated. -/
example : Reach exStuck (exSt exStuck [.dispatch (.act 1), .dispatch (.act 3), .dispatch (.act 1), .loop, .loop, .loop,
      .loop, .loop]) ∧
    (exSt exStuck [.dispatch (.act 1), .dispatch (.act 3), .dispatch (.act 1), .loop, .loop, .loop,
      .loop, .loop]).queue = [] ∧
    evaluated (exSt exStuck [.dispatch (.act 1), .dispatch (.act 3), .dispatch (.act 1), .loop, .loop, .loop,
      .loop, .loop]).log = [.act 1, .act 1] ∧
    dispatches (exSt exStuck [.dispatch (.act 1), .dispatch (.act 3), .dispatch (.act 1), .loop, .loop, .loop,
      .loop, .loop]).log = [.act 1, .act 3, .act 1] := by
  refine ⟨exSt_reach (by decide +kernel), ?_⟩
  decide +kernel

end Verif.Store
