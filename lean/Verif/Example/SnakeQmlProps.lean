import Verif.Example.SnakeQml

/-!
C141: the window of the snake example.
-/

namespace Verif.Snake

variable {G : Type}

/-! ### Spec -/

/-- What the program can become. -/
inductive Window.Reach (next : G → Int × G) (g : G) : Window G → Prop where
  | start : Window.Reach next g (.start next g)
  | step {w w'} (o : WOp) : Window.Reach next g w → w.step next o = some w' → Window.Reach next g w'

/-- A game as it is to be shown. -/
def Game.view (g : Game) : View := ⟨g.body, g.apple, g.over⟩

/-! ### Proofs -/

theorem setModel_eq (w : Window G) (g : Game) : w.setModel g =
    { w with view := g.view, dialog := w.dialog || (!w.view.over && g.over) } := by
  have hb : (if w.view.body ≠ g.body then g.body else w.view.body) = g.body := by
    split
    · rfl
    · rename_i h; simpa using h
  have ha : (if w.view.apple ≠ g.apple then g.apple else w.view.apple) = g.apple := by
    split
    · rfl
    · rename_i h; simpa using h
  simp only [Window.setModel, hb, ha, Game.view]
  by_cases h : w.view.over = g.over
  · simp [h]
  · rw [if_pos h]
    congr 1
    cases h1 : w.view.over <;> cases h2 : g.over <;> simp [h1, h2] at h ⊢

theorem update_over (next : G → Int × G) {m m' : App G} (hm : Inv m) {a : Act} (h : update next m a = some m')
    (ha : a ≠ .reset) (ho : m.game.over = true) : m'.game.over = true := by
  cases a with
  | tick =>
    match hb : m.game.body with
    | [] => exact absurd hm.snake.long (by rw [hb]; decide)
    | p :: ps =>
      rw [update, tick_cons next m hb] at h
      split at h
      · cases h; rfl
      · split at h <;> (cases h; exact ho)
  | reset => exact absurd rfl ha
  | _ => cases h; exact ho

theorem update_turn (next : G → Int × G) {m m' : App G} {a : Act} (h : update next m a = some m')
    (ha : a ≠ .reset) (ht : a ≠ .tick) : m'.game.view = m.game.view := by
  cases a with
  | tick => exact absurd rfl ht
  | reset => exact absurd rfl ha
  | _ => cases h; rfl

/-- The invariant. -/
structure Window.Good (next : G → Int × G) (g : G) (w : Window G) : Prop where
  app : run next (makeInitial next g) w.done = some w.app
  snake : Inv w.app
  clean : w.dirty = false → w.view = w.app.game.view
  will : w.dirty = true → .publish ∈ w.queue
  /-- what is shown was there after some of the actions -/
  was : ∃ l r m, w.done = l ++ r ∧ run next (makeInitial next g) l = some m ∧ w.view = m.game.view
  open_ : w.dialog = true → w.view.over = true ∧ w.app.game.over = true ∧ .eval .reset ∉ w.queue
  wait : .eval .reset ∈ w.queue → w.view.over = true ∧ w.app.game.over = true
  once : ∀ l r, w.queue = l ++ .eval .reset :: r → .eval .reset ∉ r ∧ .eval .tick ∉ r
  fresh : w.view.over = true → w.app.game.over = false → .eval .tick ∉ w.queue
  ended : w.dismissed = false → w.view.over = true → w.app.game.over = true →
    w.dialog = true ∨ .eval .reset ∈ w.queue
  resets : ∀ l r, w.done = l ++ .reset :: r → ∃ m, run next (makeInitial next g) l = some m ∧ m.game.over = true

theorem append_split {q l r : List Task} {x t : Task} (h : q ++ [x] = l ++ t :: r) (hx : x ≠ t) :
    ∃ r', r = r' ++ [x] ∧ q = l ++ t :: r' := by
  rcases List.eq_nil_or_concat r with rfl | ⟨r', y, rfl⟩
  · have := congrArg List.getLast? h
    simp at this
    exact absurd this hx
  · have h' : q ++ [x] = (l ++ t :: r') ++ [y] := by rw [h]; simp
    obtain ⟨h1, h2⟩ := List.append_inj' h' rfl
    cases h2
    exact ⟨r', by simp, h1⟩

theorem Window.Good.begin (next : G → Int × G) (g : G) : Window.Good next g (.start next g) := by
  unfold Window.start
  rw [setModel_eq]
  exact ⟨rfl, inv_initial next g, fun _ => rfl, nofun, ⟨[], [], _, rfl, rfl, rfl⟩, nofun, nofun,
    (fun l r h => absurd h (by simp)), (fun _ _ => nofun), (fun _ h => by cases h), fun l r h => absurd h (by simp)⟩

/-- Dispatching what is no reset, and a tick only if the game is not shown to be over. -/
theorem Window.Good.dispatch {next : G → Int × G} {g : G} {w : Window G} (i : w.Good next g) {a : Act} (ha : a ≠ .reset)
    (ht : a = .tick → w.view.over = false) : (w.dispatch a).Good next g := by
  have hm : ∀ {b}, b ≠ a → (.eval b ∈ w.queue ++ [.eval a] ↔ .eval b ∈ w.queue) := by
    intro b hb
    rw [List.mem_append, List.mem_singleton]
    constructor
    · rintro (h | h)
      · exact h
      · cases h; exact absurd rfl hb
    · exact .inl
  have hr : .eval .reset ∈ w.queue ++ [.eval a] ↔ .eval .reset ∈ w.queue := hm ha.symm
  refine ⟨i.app, i.snake, i.clean, fun h => List.mem_append_left _ (i.will h), i.was, fun h => ?_, fun h => i.wait (hr.1 h),
    fun l r h => ?_, fun h1 h2 h => ?_, fun h1 h2 h3 => (i.ended h1 h2 h3).imp_right hr.2, i.resets⟩
  · obtain ⟨h1, h2, h3⟩ := i.open_ h
    exact ⟨h1, h2, fun h => h3 (hr.1 h)⟩
  · obtain ⟨r', rfl, h2⟩ := append_split h (by intro h; cases h; exact ha rfl)
    obtain ⟨h3, h4⟩ := i.once l r' h2
    have hv := (i.wait (by rw [h2]; simp)).1
    refine ⟨fun h => ?_, fun h => ?_⟩
    · rcases List.mem_append.1 h with h | h
      · exact h3 h
      · cases List.mem_singleton.1 h; exact ha rfl
    · rcases List.mem_append.1 h with h | h
      · exact h4 h
      · cases List.mem_singleton.1 h
        rw [ht rfl] at hv; cases hv
  · rcases List.mem_append.1 h with h | h
    · exact i.fresh h1 h2 h
    · cases List.mem_singleton.1 h
      rw [show w.view.over = true from h1] at ht
      cases ht rfl

theorem Window.Good.work {next : G → Int × G} {g : G} {w : Window G} (i : w.Good next g) (hq : w.queue ≠ []) :
    ∃ w', w.work next = some w' ∧ w'.Good next g := by
  unfold Window.work
  cases hw : w.queue with
  | nil => exact absurd hw hq
  | cons t q =>
    have mem : ∀ {x}, x ∈ q → x ∈ w.queue := fun h => by rw [hw]; exact List.mem_cons_of_mem _ h
    have once' : ∀ l r, q = l ++ .eval .reset :: r → .eval .reset ∉ r ∧ .eval .tick ∉ r := fun l r h =>
      i.once (t :: l) r (by rw [hw, h]; rfl)
    cases t with
    | eval a =>
      obtain ⟨m, h1, h2⟩ := inv_update next i.snake a
      refine ⟨_, by simp only [h1, Option.map_some]; rfl, ?_⟩
      have hrun : run next (makeInitial next g) (w.done ++ [a]) = some m := by
        rw [run_append, i.app]; simp [run, h1]
      have qm : ∀ {b}, Task.eval b ∈ q ++ [.publish] ↔ .eval b ∈ q := by
        intro b
        rw [List.mem_append, List.mem_singleton]
        exact ⟨fun h => h.resolve_right (by intro h; cases h), .inl⟩
      have hwas : ∃ l r m, w.done ++ [a] = l ++ r ∧ run next (makeInitial next g) l = some m ∧ w.view = m.game.view := by
        obtain ⟨l, r, m, h3, h4, h5⟩ := i.was
        exact ⟨l, r ++ [a], m, by rw [h3]; simp, h4, h5⟩
      have honce : ∀ l r, q ++ [.publish] = l ++ .eval .reset :: r → .eval .reset ∉ r ∧ .eval .tick ∉ r := by
        intro l r h
        obtain ⟨r', rfl, h2⟩ := append_split h (by intro h; cases h)
        obtain ⟨h3, h4⟩ := once' l r' h2
        exact ⟨fun h => h3 ((List.mem_append.1 h).resolve_right (by intro h; cases List.mem_singleton.1 h)),
          fun h => h4 ((List.mem_append.1 h).resolve_right (by intro h; cases List.mem_singleton.1 h))⟩
      by_cases ha : a = .reset
      · subst ha
        have hv := i.wait (by rw [hw]; exact List.mem_cons_self ..)
        have ho := i.once [] q hw
        have hm : m.game.over = false := by
          obtain ⟨m', h3, h4, _⟩ := C123_reset next w.app
          rw [h1] at h3; cases h3; exact h4
        refine ⟨hrun, h2, nofun, fun _ => by simp, hwas, fun h => ?_, fun h => absurd (qm.1 h) ho.1, honce,
          fun _ _ h => ho.2 (qm.1 h), fun _ _ h => ?_, fun l r h => ?_⟩
        · exact absurd (show Task.eval .reset ∈ w.queue by rw [hw]; exact List.mem_cons_self ..) (i.open_ h).2.2
        · rw [hm] at h; cases h
        · rcases List.eq_nil_or_concat r with rfl | ⟨r', y, rfl⟩
          · obtain ⟨h3, _⟩ := List.append_inj' (show w.done ++ [Act.reset] = l ++ [.reset] from h) rfl
            subst h3
            exact ⟨_, i.app, hv.2⟩
          · have h' : w.done ++ [Act.reset] = (l ++ .reset :: r') ++ [y] := by
              rw [show w.done ++ [Act.reset] = _ from h]; simp
            exact i.resets l r' (List.append_inj' h' rfl).1
      · have hq' : ∀ {b}, (Task.eval b ∈ w.queue ∧ b ≠ a) → Task.eval b ∈ q := by
          intro b hb
          rw [hw] at hb
          rcases List.mem_cons.1 hb.1 with h | h
          · cases h; exact absurd rfl hb.2
          · exact h
        have hov : w.app.game.over = true → m.game.over = true := update_over next i.snake h1 ha
        refine ⟨hrun, h2, nofun, fun _ => by simp, hwas, fun h => ?_, fun h => ?_, honce, fun h3 h4 h => ?_,
          fun h3 h4 h5 => ?_, fun l r h => ?_⟩
        · obtain ⟨h3, h4, h5⟩ := i.open_ h
          exact ⟨h3, hov h4, fun h => h5 (mem (qm.1 h))⟩
        · obtain ⟨h3, h4⟩ := i.wait (mem (qm.1 h))
          exact ⟨h3, hov h4⟩
        · have h5 : w.app.game.over = false := by
            cases hc : w.app.game.over with
            | false => rfl
            | true => rw [show m.game.over = true from hov hc] at h4; cases h4
          exact i.fresh h3 h5 (mem (qm.1 h))
        · -- a tick that ends a new game would have been waiting while the old one was shown
          cases hc : w.app.game.over with
          | true =>
            rcases i.ended h3 h4 hc with h | h
            · exact .inl h
            · exact .inr (qm.2 (hq' ⟨h, fun h => ha h.symm⟩))
          | false =>
            have hnt : a ≠ .tick := by
              rintro rfl
              exact i.fresh h4 hc (by rw [hw]; exact List.mem_cons_self ..)
            have := congrArg View.over (update_turn next h1 ha hnt)
            rw [show m.game.view.over = m.game.over from rfl, show m.game.over = true from h5] at this
            rw [show w.app.game.view.over = w.app.game.over from rfl, hc] at this
            cases this
        · rcases List.eq_nil_or_concat r with rfl | ⟨r', y, rfl⟩
          · obtain ⟨_, h3⟩ := List.append_inj' (show w.done ++ [a] = l ++ [.reset] from h) rfl
            cases h3; exact absurd rfl ha
          · have h' : w.done ++ [a] = (l ++ .reset :: r') ++ [y] := by rw [show w.done ++ [a] = _ from h]; simp
            exact i.resets l r' (List.append_inj' h' rfl).1
    | publish =>
      have mem' : ∀ {b}, Task.eval b ∈ w.queue → Task.eval b ∈ q := by
        intro b hb
        rw [hw] at hb
        rcases List.mem_cons.1 hb with h | h
        · cases h
        · exact h
      cases hd : w.dirty with
      | true =>
        refine ⟨_, by simp only [if_true]; rfl, ?_⟩
        rw [setModel_eq]
        refine ⟨i.app, i.snake, fun _ => rfl, nofun, ⟨w.done, [], w.app, by simp, i.app, rfl⟩, fun h => ?_, fun h => ?_,
          once', fun h1 h2 => ?_, fun h1 h2 h3 => ?_, i.resets⟩
        · simp only [Bool.or_eq_true, Bool.and_eq_true, Bool.not_eq_true'] at h
          rcases h with h | ⟨h1, h2⟩
          · obtain ⟨_, h4, h5⟩ := i.open_ h
            exact ⟨h4, h4, fun h => h5 (mem h)⟩
          · refine ⟨h2, h2, fun h => ?_⟩
            rw [(i.wait (mem h)).1] at h1; cases h1
        · exact ⟨(i.wait (mem h)).2, (i.wait (mem h)).2⟩
        · exact absurd (h1.symm.trans h2) (by decide)
        · cases hv : w.view.over with
          | true =>
            rcases i.ended h1 hv h3 with h | h
            · left; simp [h]
            · exact .inr (mem' h)
          | false => left; simp [show w.app.game.over = true from h3]
      | false =>
        refine ⟨{ w with queue := q }, by simp [hd], ?_⟩
        exact ⟨i.app, i.snake, i.clean, (fun h => by rw [show w.dirty = true from h] at hd; cases hd), i.was,
          fun h => ⟨(i.open_ h).1, (i.open_ h).2.1, fun h' => (i.open_ h).2.2 (mem h')⟩, fun h => i.wait (mem h), once',
          fun h1 h2 h => i.fresh h1 h2 (mem h), fun h1 h2 h3 => (i.ended h1 h2 h3).imp_right mem', i.resets⟩

theorem Window.Good.step {next : G → Int × G} {g : G} {w w' : Window G} (i : w.Good next g) {o : WOp}
    (h : w.step next o = some w') : w'.Good next g := by
  cases o with
  | left => cases h; exact i.dispatch nofun nofun
  | right => cases h; exact i.dispatch nofun nofun
  | up => cases h; exact i.dispatch nofun nofun
  | down => cases h; exact i.dispatch nofun nofun
  | timer =>
    simp only [Window.step] at h
    split at h
    · rename_i hv
      cases h
      exact i.dispatch nofun fun _ => by simpa using hv
    · cases h
  | accept =>
    simp only [Window.step] at h
    split at h
    · rename_i hd
      cases h
      obtain ⟨h1, h2, h3⟩ := i.open_ hd
      refine ⟨i.app, i.snake, i.clean, fun h => List.mem_append_left _ (i.will h), i.was, nofun, fun _ => ⟨h1, h2⟩,
        fun l r h => ?_, fun _ h => ?_, fun _ _ _ => .inr (List.mem_append_right _ (List.mem_singleton.2 rfl)), i.resets⟩
      · rcases List.eq_nil_or_concat r with rfl | ⟨r', y, rfl⟩
        · exact ⟨nofun, nofun⟩
        · have h' : w.queue ++ [Task.eval .reset] = (l ++ .eval .reset :: r') ++ [y] := by
            rw [show w.queue ++ [Task.eval .reset] = _ from h]; simp
          exact absurd (by rw [(List.append_inj' h' rfl).1]; simp) h3
      · rw [show w.app.game.over = false from h] at h2; cases h2
    · cases h
  | dismiss =>
    simp only [Window.step] at h
    split at h
    · cases h
      exact ⟨i.app, i.snake, i.clean, i.will, i.was, nofun, i.wait, i.once, i.fresh, nofun, i.resets⟩
    · cases h
  | work =>
    have hq : w.queue ≠ [] := by
      intro hq
      simp only [Window.step, Window.work, hq] at h
      cases h
    obtain ⟨w1, h1, h2⟩ := i.work hq
    rw [show w.work next = some w' from h] at h1
    cases h1
    exact h2

theorem Window.Reach.good {next : G → Int × G} {g : G} {w : Window G} (r : Window.Reach next g w) : w.Good next g := by
  induction r with
  | start => exact .begin next g
  | step o _ h ih => exact ih.step h

/-! ### C141 -/

/-- C141: a task can always be run: there is no undefined behaviour. -/
theorem C141_safe {next : G → Int × G} {g : G} {w : Window G} (r : Window.Reach next g w) (hq : w.queue ≠ []) :
    ∃ w', w.step next .work = some w' := (r.good.work hq).imp fun _ h => h.1

/-- C141: the window shows the game as it was after some of the actions, and when no task waits, as it is. -/
theorem C141_shown {next : G → Int × G} {g : G} {w : Window G} (r : Window.Reach next g w) :
    (∃ l l' m, w.done = l ++ l' ∧ run next (makeInitial next g) l = some m ∧
      w.view = ⟨m.game.body, m.game.apple, m.game.over⟩) ∧
    (w.queue = [] → ∃ m, run next (makeInitial next g) w.done = some m ∧
      w.view = ⟨m.game.body, m.game.apple, m.game.over⟩) := by
  refine ⟨r.good.was, fun hq => ⟨w.app, r.good.app, ?_⟩⟩
  cases hd : w.dirty with
  | false => exact r.good.clean hd
  | true =>
    have := r.good.will hd
    rw [hq] at this; cases this

/-- The actions that wait. -/
def Task.acts : List Task → List Act
  | [] => []
  | .eval a :: q => a :: Task.acts q
  | .publish :: q => Task.acts q

/-- C141: if nothing else happens, then the loop gets done with all tasks, after at most twice as many as wait: then the actions
that waited have been evaluated, in their order, and no others. -/
theorem C141_all {next : G → Int × G} {g : G} {w : Window G} (r : Window.Reach next g w) :
    ∃ n w', n ≤ 2 * w.queue.length ∧ w.exec next (List.replicate n .work) = some w' ∧ w'.queue = [] ∧
      w'.done = w.done ++ Task.acts w.queue := by
  have acts_pub : ∀ q, Task.acts (q ++ [.publish]) = Task.acts q := by
    intro q
    induction q with
    | nil => rfl
    | cons t q ih => cases t <;> simp [Task.acts, ih]
  have acts_pub' : ∀ q, (Task.acts q).length ≤ q.length := by
    intro q
    induction q with
    | nil => simp [Task.acts]
    | cons t q ih => cases t <;> simp [Task.acts] <;> omega
  have key : ∀ n (w : Window G), Window.Reach next g w → w.queue.length + (Task.acts w.queue).length = n →
      ∃ w', w.exec next (List.replicate n .work) = some w' ∧ w'.queue = [] ∧ w'.done = w.done ++ Task.acts w.queue := by
    intro n
    induction n with
    | zero =>
      intro w _ hn
      have hq : w.queue = [] := List.length_eq_zero_iff.1 (by omega)
      exact ⟨w, rfl, hq, by simp [hq, Task.acts]⟩
    | succ n ih =>
      intro w r hn
      have hq : w.queue ≠ [] := by
        intro hq
        simp [hq, Task.acts] at hn
      obtain ⟨w1, h1, _⟩ := r.good.work hq
      have hs : w.step next .work = some w1 := h1
      have hw1 : w1.queue.length + (Task.acts w1.queue).length = n ∧
          w1.done ++ Task.acts w1.queue = w.done ++ Task.acts w.queue := by
        unfold Window.work at h1
        split at h1
        · cases h1
        · rename_i a q hw
          simp only [Option.map_eq_some_iff] at h1
          obtain ⟨m, _, rfl⟩ := h1
          rw [hw] at hn ⊢
          simp only [acts_pub, Task.acts, List.length_append, List.length_cons, List.length_nil] at hn ⊢
          exact ⟨by omega, by simp⟩
        · rename_i q hw
          rw [hw] at hn ⊢
          simp only [Task.acts, List.length_cons] at hn ⊢
          split at h1
          · rw [setModel_eq] at h1
            cases h1
            exact ⟨by dsimp only; omega, rfl⟩
          · cases h1
            exact ⟨by dsimp only; omega, rfl⟩
      obtain ⟨w', h3, h4, h5⟩ := ih w1 (.step _ r hs) hw1.1
      refine ⟨w', ?_, h4, h5.trans hw1.2⟩
      simp only [List.replicate_succ, Window.exec, hs, Option.bind_some]
      exact h3
  obtain ⟨w', h⟩ := key _ w r rfl
  exact ⟨_, w', by have := acts_pub' w.queue; omega, h⟩

/-- C141: a game is only ever reset when it is over. -/
theorem C141_reset {next : G → Int × G} {g : G} {w : Window G} (r : Window.Reach next g w) {l l' : List Act}
    (h : w.done = l ++ .reset :: l') : ∃ m, run next (makeInitial next g) l = some m ∧ m.game.over = true :=
  r.good.resets l l' h

/-- C141: the dialog is only open when the game is over, and is shown to be. -/
theorem C141_open {next : G → Int × G} {g : G} {w : Window G} (r : Window.Reach next g w) (hd : w.dialog = true) :
    w.view.over = true ∧ ∃ m, run next (makeInitial next g) w.done = some m ∧ m.game.over = true :=
  ⟨(r.good.open_ hd).1, w.app, r.good.app, (r.good.open_ hd).2.1⟩

/-- C141: if the user always accepts it, then, when no task waits, the dialog is open just if the game is over; and else the
timer runs. -/
theorem C141_dialog {next : G → Int × G} {g : G} {w : Window G} (r : Window.Reach next g w) (hn : w.dismissed = false)
    (hq : w.queue = []) : ∃ m, run next (makeInitial next g) w.done = some m ∧
      (w.dialog = true ↔ m.game.over = true) ∧ ((∃ w', w.step next .timer = some w') ↔ m.game.over = false) := by
  have i := r.good
  have hc : w.view = w.app.game.view := by
    cases hd : w.dirty with
    | false => exact i.clean hd
    | true => have := i.will hd; rw [hq] at this; cases this
  have hv : w.view.over = w.app.game.over := by rw [hc]; rfl
  refine ⟨w.app, i.app, ⟨fun h => (i.open_ h).2.1, fun h => ?_⟩, ?_⟩
  · rcases i.ended hn (hv.trans h) h with h | h
    · exact h
    · rw [hq] at h; cases h
  · simp only [Window.step, hv]
    cases w.app.game.over <;> simp

/-- C141: while the game is shown to be over and no task waits, nothing that is shown changes until the dialog is accepted,
whatever keys are pressed. -/
theorem C141_still {next : G → Int × G} {g : G} {w w' : Window G} (r : Window.Reach next g w) (ho : w.view.over = true)
    (hq : w.queue = []) {os : List WOp} (hx : w.exec next os = some w') (ha : .accept ∉ os) : w'.view = w.view := by
  have i := r.good
  have hd : w.dirty = true → False := fun h => by have := i.will h; rw [hq] at this; cases this
  have key : ∀ (os : List WOp) (w : Window G), w.exec next os = some w' → w.view.over = true → w.app.game.view = w.view →
      .accept ∉ os → (∀ a, .eval a ∈ w.queue → a ≠ .reset ∧ a ≠ .tick) → w'.view = w.view := by
    intro os
    induction os with
    | nil => intro w hx _ _ _ _; cases hx; rfl
    | cons o os ih =>
      intro w hx ho hv ha hn
      simp only [Window.exec, Option.bind_eq_some_iff] at hx
      obtain ⟨w1, h1, h2⟩ := hx
      have ha' : .accept ∉ os := fun h => ha (List.mem_cons_of_mem _ h)
      have turn : ∀ a, a ≠ .reset → a ≠ .tick → some (w.dispatch a) = some w1 → w'.view = w.view := by
        intro a hr ht h
        cases h
        have := ih (w.dispatch a) h2 ho hv ha' (by
          intro b hb
          rcases List.mem_append.1 hb with hb | hb
          · exact hn b hb
          · cases List.mem_singleton.1 hb; exact ⟨hr, ht⟩)
        exact this
      cases o with
      | left => exact turn .goLeft nofun nofun h1
      | right => exact turn .goRight nofun nofun h1
      | up => exact turn .goUp nofun nofun h1
      | down => exact turn .goDown nofun nofun h1
      | timer => simp [Window.step, ho] at h1
      | accept => exact absurd (List.mem_cons_self ..) ha
      | dismiss =>
        simp only [Window.step] at h1
        split at h1
        · cases h1
          have := ih _ h2 ho hv ha' hn
          exact this
        · cases h1
      | work =>
        simp only [Window.step, Window.work] at h1
        split at h1
        · cases h1
        · rename_i a q hw
          simp only [Option.map_eq_some_iff] at h1
          obtain ⟨m, h3, rfl⟩ := h1
          obtain ⟨hr, ht⟩ := hn a (by rw [hw]; exact List.mem_cons_self ..)
          have hm := update_turn next h3 hr ht
          have := ih _ h2 ho (hm.trans hv) ha' (by
            intro b hb
            rcases List.mem_append.1 hb with hb | hb
            · exact hn b (by rw [hw]; exact List.mem_cons_of_mem _ hb)
            · cases List.mem_singleton.1 hb)
          exact this
        · rename_i q hw
          have hn' : ∀ a, Task.eval a ∈ q → a ≠ .reset ∧ a ≠ .tick := fun a h =>
            hn a (by rw [hw]; exact List.mem_cons_of_mem _ h)
          split at h1
          · rw [setModel_eq] at h1
            cases h1
            have := ih _ h2 (show w.app.game.view.over = true by rw [hv]; exact ho) rfl ha' hn'
            exact this.trans hv
          · cases h1
            have := ih _ h2 ho hv ha' hn'
            exact this
  have hc : w.app.game.view = w.view := by
    cases h : w.dirty with
    | false => exact (i.clean h).symm
    | true => exact (hd h).elim
  exact key os w hx ho hc ha (by rw [hq]; nofun)

/-- C141: the interval of the timer is always between 10 and 100 milliseconds, 100 for up to seven cells, and shorter by 10 for
each five more. -/
theorem C141_interval {next : G → Int × G} {g : G} {w : Window G} (r : Window.Reach next g w) :
    10 ≤ interval w.view.body.length ∧ interval w.view.body.length ≤ 100 ∧
    (∀ n : Int, 3 ≤ n → n < 8 → interval n = 100) ∧ ∀ n : Int, 3 ≤ n → interval (n + 5) = max (interval n - 10) 10 := by
  obtain ⟨l, l', m, _, h2, h3⟩ := r.good.was
  have hl : 3 ≤ w.view.body.length := by
    obtain ⟨m', h4, h5, _⟩ := C123_snake next g l
    rw [h2] at h4; cases h4
    rw [h3]; exact h5.long
  refine ⟨?_, ?_, fun n h1 h2 => ?_, fun n hn => ?_⟩
  · unfold interval; omega
  · unfold interval; omega
  · unfold interval; omega
  · unfold interval; omega

/-- C141 is FALSE if the dialog is closed without being accepted: the game stays over for ever, whatever the user does. -/
theorem C141_dismiss_false {next : G → Int × G} {g : G} {w w' w'' : Window G} (r : Window.Reach next g w)
    (hd : w.dialog = true) (hq : w.queue = []) (hs : w.step next .dismiss = some w') {os : List WOp}
    (hx : w'.exec next os = some w'') : w''.view = w.view ∧ w''.dialog = false := by
  have r' : Window.Reach next g w' := .step _ r hs
  have hw : w' = { w with dialog := false, dismissed := true } := by
    simp only [Window.step, hd, if_true] at hs
    cases hs; rfl
  have ho : w'.view.over = true := by rw [hw]; exact (r.good.open_ hd).1
  have hq' : w'.queue = [] := by rw [hw]; exact hq
  have hv : w'.view = w.view := by rw [hw]
  have hd' : w'.dialog = false := by rw [hw]
  clear hw hs hd hq
  -- the dialog stays closed as long as the game is shown to be over, which it is until it is accepted
  have main : ∀ n (os : List WOp) (w'' : Window G), os.length = n → w'.exec next os = some w'' →
      w''.dialog = false ∧ .accept ∉ os ∧ Window.Reach next g w'' := by
    intro n
    induction n with
    | zero =>
      intro os w'' hn hx
      rw [List.length_eq_zero_iff.1 hn] at hx ⊢
      cases hx
      exact ⟨hd', nofun, r'⟩
    | succ n ih =>
      intro os w'' hn hx
      rcases List.eq_nil_or_concat os with rfl | ⟨os', o, rfl⟩
      · cases hn
      · have split : ∀ (l : List WOp) (w : Window G), w.exec next (l ++ [o]) = some w'' →
            ∃ w1, w.exec next l = some w1 ∧ w1.step next o = some w'' := by
          intro l
          induction l with
          | nil =>
            intro w h
            simp only [List.nil_append, Window.exec, Option.bind_eq_some_iff] at h
            obtain ⟨w1, h1, h2⟩ := h
            cases h2
            exact ⟨w, rfl, h1⟩
          | cons p l ihl =>
            intro w h
            simp only [List.cons_append, Window.exec, Option.bind_eq_some_iff] at h
            obtain ⟨w1, h1, h2⟩ := h
            obtain ⟨w2, h3, h4⟩ := ihl w1 h2
            exact ⟨w2, by simp only [Window.exec, h1, Option.bind_some]; exact h3, h4⟩
        rw [List.concat_eq_append] at hx hn ⊢
        obtain ⟨w1, h1, h2⟩ := split os' w' hx
        obtain ⟨h3, h4, h5⟩ := ih os' w1 (by simpa using hn) h1
        have hv1 : w1.view = w'.view := C141_still r' ho hq' h1 h4
        have ha : o ≠ .accept := by
          rintro rfl
          simp [Window.step, h3] at h2
        refine ⟨?_, fun h => ?_, .step o h5 h2⟩
        · cases o with
          | accept => exact absurd rfl ha
          | dismiss => simp [Window.step, h3] at h2
          | timer => simp [Window.step, hv1, ho] at h2
          | work =>
            simp only [Window.step, Window.work] at h2
            split at h2
            · cases h2
            · simp only [Option.map_eq_some_iff] at h2
              obtain ⟨m, _, rfl⟩ := h2
              exact h3
            · split at h2
              · rw [setModel_eq] at h2
                cases h2
                simp [h3, hv1, ho]
              · cases h2; exact h3
          | _ => cases h2; exact h3
        · rcases List.mem_append.1 h with h | h
          · exact h4 h
          · exact ha (List.mem_singleton.1 h).symm
  obtain ⟨h1, h2, _⟩ := main _ os w'' rfl hx
  exact ⟨(C141_still r' ho hq' hx h2).trans hv, h1⟩

/-! ### Examples -/

/-- One step of the game, shown at once. -/
def exStep : List WOp := [.timer, .work, .work]

/-- Thirteen steps to the right: the game is over. -/
def exOver : List WOp := (List.replicate 13 exStep).flatten

def exWin (os : List WOp) : Window (List Int) := ((Window.start draw []).exec draw os).getD (.start draw [])

theorem Window.Reach.exec {next : G → Int × G} {g : G} {w w' : Window G} (r : Window.Reach next g w) {os : List WOp}
    (h : w.exec next os = some w') : Window.Reach next g w' := by
  induction os generalizing w with
  | nil => cases h; exact r
  | cons o os ih =>
    simp only [Window.exec, Option.bind_eq_some_iff] at h
    obtain ⟨w1, h1, h2⟩ := h
    exact ih (.step o r h1) h2

theorem exWin_reach (os : List WOp) (h : ((Window.start draw []).exec draw os).isSome = true) :
    Window.Reach draw [] (exWin os) := by
  refine Window.Reach.start.exec (os := os) ?_
  unfold exWin
  cases hx : (Window.start draw []).exec draw os with
  | none => rw [hx] at h; cases h
  | some w => rfl

example : Window.Reach draw [] (exWin exOver) ∧ (exWin exOver).queue = [] ∧ (exWin exOver).dialog = true ∧
    (exWin exOver).dismissed = false ∧ (exWin exOver).view = ⟨[(24, 12), (23, 12), (22, 12)], (0, 0), true⟩ := by
  refine ⟨exWin_reach _ (by decide +kernel), by decide +kernel, by decide +kernel, by decide +kernel, by decide +kernel⟩

example : (exWin (exOver ++ [.accept, .work, .work])).view = ⟨[(12, 12), (11, 12), (10, 12)], (0, 0), false⟩ ∧
    (exWin (exOver ++ [.accept, .work, .work])).done = List.replicate 13 .tick ++ .reset :: [] := by decide +kernel

example : ((exWin exOver).step draw .dismiss).isSome = true ∧
    ((exWin exOver).exec draw [.dismiss, .up, .work, .work]).isSome = true := by decide +kernel

example : Task.acts (exWin [.timer, .up, .work, .timer]).queue = [.goUp, .tick] := by decide +kernel

/-- C141 is FALSE for what waits: if the timer has triggered twice before the tasks are run, the snake goes on after the end of the
game, behind the dialog. -/
theorem C141_late_false : ∃ w w' : Window (List Int), Window.Reach draw [] w ∧ w.dialog = true ∧ w.view.over = true ∧
    w.exec draw [.work, .work, .work, .work] = some w' ∧ w'.dialog = true ∧ w'.view.body ≠ w.view.body := by
  let os := (List.replicate 12 exStep).flatten ++ [.timer, .work, .up, .timer, .work]
  have h : ((exWin os).exec draw [.work, .work, .work, .work]).map (fun w => (w.dialog, w.view.body)) =
      some (true, [(24, 11), (24, 12), (23, 12)]) := by decide +kernel
  simp only [Option.map_eq_some_iff, Prod.mk.injEq] at h
  obtain ⟨w', h1, h2, h3⟩ := h
  refine ⟨exWin os, w', exWin_reach _ (by decide +kernel), by decide +kernel, by decide +kernel, h1, h2, ?_⟩
  rw [h3]
  decide +kernel

end Verif.Snake
