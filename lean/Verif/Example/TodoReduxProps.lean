import Verif.Example.TodoRedux
import Verif.Example.TodoProps

/-!
C135: actions for positions of a list.
-/

namespace Verif.Todo

variable {P : Type} [DecidableEq P]

/-- What the program can become after it was started with some app and some files. -/
def Win.Reach (ext : P → P) (w : Win P) : Prop :=
  ∃ app files es, w = Win.run ext ⟨⟨app, [], files, []⟩, app, []⟩ es

/-- The actions among the tasks that wait. -/
def waiting : List (Task P) → List (Act P)
  | [] => []
  | .act a :: q => a :: waiting q
  | _ :: q => waiting q

/-- One app after the other. -/
def after (ext : P → P) (s : App P) (as : List (Act P)) : App P := as.foldl (fun s a => (update ext s a).1) s

/-! ### The invariant -/

/-- What is evaluated is what is shown and the actions since; if there are some, a task that publishes waits. -/
def Win.Good (ext : P → P) (w : Win P) : Prop :=
  w.sys.app = after ext w.shown w.since ∧ (w.since = [] ∨ ∃ t ∈ w.sys.queue, ∀ a, t ≠ .act a)

theorem perform_app (s : Sys P) (d : Disk) (e : Eff P) : (perform s d e).app = s.app := by
  cases e with
  | save m f => cases d <;> rfl
  | load f => simp only [perform]; split <;> rfl

theorem Win.Good.step {ext : P → P} {w : Win P} (h : w.Good ext) (e : WEv P) : (w.step ext e).Good ext := by
  obtain ⟨h1, h2⟩ := h
  cases e with
  | click c =>
    refine ⟨h1, h2.imp id fun ⟨t, ht, hn⟩ => ⟨t, ?_, hn⟩⟩
    exact List.mem_append_left _ ht
  | outside f c => exact ⟨h1, h2⟩
  | work d =>
    cases hq : w.sys.queue with
    | nil => simp only [Win.step, hq]; exact ⟨h1, h2⟩
    | cons t q =>
      cases t with
      | act a =>
        simp only [Win.step, Sys.step, hq]
        refine ⟨?_, .inr ?_⟩
        · show (update ext w.sys.app a).1 = _
          rw [h1]
          simp [after, List.foldl_append]
        · exact ⟨_, List.mem_append_right _ (List.mem_singleton.2 rfl), by split <;> nofun⟩
      | notify =>
        simp only [Win.step, Sys.step, hq]
        exact ⟨rfl, .inl rfl⟩
      | eff e =>
        simp only [Win.step, Sys.step, hq]
        exact ⟨perform_app _ _ _, .inl rfl⟩

theorem Win.Reach.good {ext : P → P} {w : Win P} (h : w.Reach ext) : w.Good ext := by
  obtain ⟨app, files, es, rfl⟩ := h
  have : ∀ (es : List (WEv P)) (w : Win P), w.Good ext → (Win.run ext w es).Good ext := by
    intro es
    induction es with
    | nil => exact fun _ h => h
    | cons e es ih => exact fun w h => ih _ (h.step e)
  exact this es _ ⟨rfl, .inl rfl⟩

/-- How many tasks the event loop runs. -/
def wworks : List (WEv P) → Nat
  | [] => 0
  | .work _ :: es => wworks es + 1
  | _ :: es => wworks es

theorem reaches (ext : P → P) (es : List (WEv P)) : ∀ (w : Win P) (l : List (Task P)) (t : Task P) (r : List (Task P)),
    w.sys.queue = l ++ t :: r → wworks es = l.length →
    ∃ r', (w.run ext es).sys.queue = t :: r' ∧ (w.run ext es).sys.app = after ext w.sys.app (waiting l) := by
  induction es with
  | nil =>
    intro w l t r hq hw
    cases l with
    | nil => exact ⟨r, hq, rfl⟩
    | cons _ _ => cases hw
  | cons e es ih =>
    intro w l t r hq hw
    show ∃ r', ((w.step ext e).run ext es).sys.queue = t :: r' ∧ ((w.step ext e).run ext es).sys.app = _
    cases e with
    | click c => exact ih _ l t (r ++ [.act c.act]) (by simp [Win.step, Sys.step, hq]) hw
    | outside f c => exact ih _ l t r hq hw
    | work d =>
      cases l with
      | nil => cases hw
      | cons u l =>
        have hw' : wworks es = l.length := Nat.succ.inj hw
        rw [List.cons_append] at hq
        cases u with
        | notify =>
          have := ih (w.step ext (.work d)) l t r (by simp [Win.step, Sys.step, hq]) hw'
          simpa [Win.step, Sys.step, hq, waiting] using this
        | act a =>
          have hqu : ∃ r0, (w.step ext (.work d)).sys.queue = l ++ t :: r0 :=
            ⟨r ++ _, by simp only [Win.step, Sys.step, hq]; simp; rfl⟩
          obtain ⟨r0, hr0⟩ := hqu
          obtain ⟨r', h1, h2⟩ := ih (w.step ext (.work d)) l t r0 hr0 hw'
          refine ⟨r', h1, h2.trans ?_⟩
          simp [Win.step, Sys.step, hq, waiting, after]
        | eff e =>
          have happ : (w.step ext (.work d)).sys.app = w.sys.app := by
            simp only [Win.step, Sys.step, hq]
            exact perform_app _ _ _
          have hqu : ∃ r0, (w.step ext (.work d)).sys.queue = l ++ t :: r0 := by
            simp only [Win.step, Sys.step, hq]
            cases e with
            | save m f => exact ⟨r, by cases d <;> rfl⟩
            | load f =>
              simp only [perform]
              split
              · exact ⟨_, by simp; rfl⟩
              · exact ⟨r, rfl⟩
          obtain ⟨r0, hr0⟩ := hqu
          obtain ⟨r', h1, h2⟩ := ih (w.step ext (.work d)) l t r0 hr0 hw'
          exact ⟨r', h1, by rw [h2, happ]; rfl⟩

/-! ### C135 -/

/-- C135: a click acts on what is shown after the actions that were evaluated since that was published and those that wait: that
is the app when its turn comes, whatever happens until then. -/
theorem C135_target (ext : P → P) (w : Win P) (h : w.Reach ext) (c : Click P) (es : List (WEv P))
    (hw : wworks es = w.sys.queue.length) :
    ∃ r, ((w.step ext (.click c)).run ext es).sys.queue = .act c.act :: r ∧
      ((w.step ext (.click c)).run ext es).sys.app = after ext w.shown (w.since ++ waiting w.sys.queue) := by
  obtain ⟨r, h1, h2⟩ := reaches ext es (w.step ext (.click c)) w.sys.queue (.act c.act) [] rfl hw
  refine ⟨r, h1, h2.trans ?_⟩
  show after ext w.sys.app _ = _
  rw [h.good.1]
  simp [after, List.foldl_append]

/-- C135: when no task waits, what is shown is what is there. -/
theorem C135_shown (ext : P → P) (w : Win P) (h : w.Reach ext) (hq : w.sys.queue = []) : w.shown = w.sys.app := by
  obtain ⟨h1, h2⟩ := h.good
  rcases h2 with h2 | ⟨t, ht, _⟩
  · rw [h1, h2]; rfl
  · rw [hq] at ht; cases ht

theorem toggle_at (l : Doc) (x : Item) (r : Doc) :
    docUpdate (l ++ x :: r) (.item l.length .toggle) = l ++ ⟨!x.done, x.text⟩ :: r := by
  simp [docUpdate, Item.update, List.modify_eq_take_cons_drop]
  omega

theorem remove_at (l : Doc) (x : Item) (r : Doc) : docUpdate (l ++ x :: r) (.item l.length .remove) = l ++ r := by
  simp [docUpdate, List.eraseIdx_append_of_length_le]

/-- Two tasks: the action, and what publishes the result. -/
theorem two (ext : P → P) (w : Win P) (hq : w.sys.queue = []) (a : DocAct) (c : Click P) (hc : c.act = .doc a) (d d' : Disk) :
    (w.run ext [.click c, .work d, .work d']).sys.queue = [] ∧
    (w.run ext [.click c, .work d, .work d']).shown = ⟨docUpdate w.sys.app.doc a, w.sys.app.path⟩ := by
  simp [Win.run, Win.step, Sys.step, hq, hc, update]

/-- C135: when no task waits, a click acts on the item that is shown: it is toggled, or removed, all others stay, and that is
shown as soon as no task waits. -/
theorem C135_idle (ext : P → P) (w : Win P) (h : w.Reach ext) (hq : w.sys.queue = []) (l : Doc) (x : Item) (r : Doc)
    (hs : w.shown.doc = l ++ x :: r) (d d' : Disk) :
    w.row l.length = x ∧
    (w.run ext [.click (.item l.length .toggle), .work d, .work d']).sys.queue = [] ∧
    (w.run ext [.click (.item l.length .toggle), .work d, .work d']).shown =
      ⟨l ++ ⟨!x.done, x.text⟩ :: r, w.shown.path⟩ ∧
    (w.run ext [.click (.item l.length .remove), .work d, .work d']).sys.queue = [] ∧
    (w.run ext [.click (.item l.length .remove), .work d, .work d']).shown = ⟨l ++ r, w.shown.path⟩ := by
  have e := C135_shown ext w h hq
  obtain ⟨t1, t2⟩ := two ext w hq (.item l.length .toggle) (.item l.length .toggle) rfl d d'
  obtain ⟨r1, r2⟩ := two ext w hq (.item l.length .remove) (.item l.length .remove) rfl d d'
  rw [← e, hs] at t2 r2
  rw [toggle_at] at t2
  rw [remove_at] at r2
  exact ⟨by simp [Win.row, hs], t1, t2, r1, r2⟩

/-- An action that leaves the items where they are. -/
def Act.Still (a : Act P) : Prop := (∃ j, a = .doc (.item j .toggle)) ∨ (∃ f, a = .save f) ∨ ∃ f, a = .load f

theorem toggle_texts (s : Doc) (j : Nat) :
    (docUpdate s (.item j .toggle)).map Item.text = s.map Item.text := by
  apply List.ext_getElem?
  intro k
  obtain ⟨_, h1, h2, _⟩ := C124_toggle s j
  by_cases hk : k = j
  · subst hk
    cases hx : s[k]? with
    | none =>
      have : s.length ≤ k := List.getElem?_eq_none_iff.1 hx
      simp [docUpdate, this]
    | some x => simp [h2 x hx, hx]
  · simp [h1 k hk]

omit [DecidableEq P] in
theorem still_texts (ext : P → P) : ∀ (as : List (Act P)) (s : App P), (∀ a ∈ as, a.Still) →
    (after ext s as).doc.map Item.text = s.doc.map Item.text := by
  intro as
  induction as with
  | nil => intro s _; rfl
  | cons a as ih =>
    intro s h
    refine (ih _ fun b hb => h b (List.mem_cons_of_mem _ hb)).trans ?_
    rcases h a List.mem_cons_self with ⟨j, rfl⟩ | ⟨f, rfl⟩ | ⟨f, rfl⟩
    · exact toggle_texts s.doc j
    · rfl
    · rfl

/-- C135: if all actions that were evaluated since the app was published and all that wait toggle items, save, or ask for a
file, then a click acts on an item with the text that was shown. -/
theorem C135_still (ext : P → P) (w : Win P) (h : w.Reach ext) (i : Nat) (a : ItemAct) (es : List (WEv P))
    (hw : wworks es = w.sys.queue.length) (hs : ∀ b ∈ w.since ++ waiting w.sys.queue, b.Still) :
    ∃ r, ((w.step ext (.click (.item i a))).run ext es).sys.queue = .act (.doc (.item i a)) :: r ∧
      ((w.step ext (.click (.item i a))).run ext es).sys.app.doc.map Item.text = w.shown.doc.map Item.text := by
  obtain ⟨r, h1, h2⟩ := C135_target ext w h (.item i a) es hw
  exact ⟨r, h1, by rw [h2]; exact still_texts ext _ _ hs⟩

/-- C135: there is no item at a negative position; one behind the end shows an empty text, not done, and while no task waits its
buttons change nothing. -/
theorem C135_outside (ext : P → P) (w : Win P) (h : w.Reach ext) :
    (∀ index : Int, index < 0 → Win.item index = none) ∧
    (∀ n : Nat, Win.item n = some n) ∧
    ∀ i, w.shown.doc.length ≤ i → w.row i = ⟨false, ""⟩ ∧ (w.sys.queue = [] → ∀ a d d',
      (w.run ext [.click (.item i a), .work d, .work d']).shown = w.shown) := by
  refine ⟨fun index hi => by simp [Win.item, hi], fun n => ?_, fun i hi => ⟨by simp [Win.row, hi], fun hq a d d' => ?_⟩⟩
  · have : ¬ ((n : Int) < 0) := by omega
    simp [Win.item, this]
  · have e := C135_shown ext w h hq
    rw [(two ext w hq (.item i a) (.item i a) rfl d d').2, ← e]
    simp [docUpdate, hi]

/-- C135, refuted: a click acts on what is shown.  If an item is removed with two quick clicks, the item behind it is removed,
too. -/
theorem C135_double_false (ext : P → P) (w : Win P) (h : w.Reach ext) (hq : w.sys.queue = []) (l : Doc) (x y : Item)
    (r : Doc) (hs : w.shown.doc = l ++ x :: y :: r) (d : Disk) :
    (w.run ext [.click (.item l.length .remove), .click (.item l.length .remove), .work d, .work d, .work d, .work d]).shown =
      ⟨l ++ r, w.shown.path⟩ := by
  have e := C135_shown ext w h hq
  have h1 := remove_at l x (y :: r)
  have h2 := remove_at l y r
  simp [Win.run, Win.step, Sys.step, hq, update, Click.act, ← e, hs, h1, h2]

/-- C135, refuted: a click acts on what is shown.  If an item is added and the first one removed before that was handled, it is
the new one that is removed, and what was shown stays. -/
theorem C135_add_false (ext : P → P) (w : Win P) (h : w.Reach ext) (hq : w.sys.queue = []) (text : String) (ht : text ≠ "")
    (d : Disk) :
    (w.run ext [.click (.add text), .click (.item 0 .remove), .work d, .work d, .work d, .work d]).shown = w.shown := by
  have e := C135_shown ext w h hq
  have h1 := (C124_add w.sys.app.doc text).1 ht
  have h2 := remove_at [] ⟨false, text⟩ w.sys.app.doc
  simp only [List.nil_append, List.length_nil] at h2
  simp [Win.run, Win.step, Sys.step, hq, update, Click.act, h1, h2, e]

/-! A window with three items, and a toggle that waits. -/

def exWin : Win String := Win.run id ⟨⟨⟨[⟨false, "a"⟩, ⟨true, "b"⟩, ⟨false, "c"⟩], "f"⟩, [], fun _ => none, []⟩,
  ⟨[⟨false, "a"⟩, ⟨true, "b"⟩, ⟨false, "c"⟩], "f"⟩, []⟩ [.click (.item 1 .toggle), .work .ok, .click (.save "g")]

example : exWin.Reach id := ⟨_, _, _, rfl⟩
example : exWin.sys.queue = [.notify, .act (.save "g")] ∧ exWin.since = [.doc (.item 1 .toggle)] ∧
    exWin.row 1 = ⟨true, "b"⟩ ∧ exWin.sys.app.doc[1]? = some ⟨false, "b"⟩ := by decide +kernel
example : ∀ b ∈ exWin.since ++ waiting exWin.sys.queue, b.Still := by
  intro b hb
  have : b = .doc (.item 1 .toggle) ∨ b = .save "g" := by
    rw [show exWin.since ++ waiting exWin.sys.queue = [.doc (.item 1 .toggle), .save "g"] from by decide +kernel] at hb
    simpa using hb
  rcases this with rfl | rfl
  · exact .inl ⟨1, rfl⟩
  · exact .inr (.inl ⟨"g", rfl⟩)
example : wworks ([.work .ok, .click (.add "x"), .work .ok] : List (WEv String)) = exWin.sys.queue.length := by
  decide +kernel
example : (exWin.run id [.work .ok, .work .ok, .work .ok]).sys.queue = [] ∧
    (exWin.run id [.work .ok, .work .ok, .work .ok]).shown.doc = [⟨false, "a"⟩] ++ ⟨false, "b"⟩ :: ⟨false, "c"⟩ :: [] := by
  decide +kernel

end Verif.Todo
