import Verif.Debugger.Props

/-!
C119: a debugger for the debugger.  `doc/time-travel.rst` suggests `with_debugger` twice, the second one "allows the
inspection of the state of the debugger itself".
-/

namespace Verif.Debugger

variable {A M E : Type}

/-! ## The model -/

/-- The reducer that the second `with_debugger` wraps is `update` of the first one,
`lager/debug/debugger.hpp:208-211`.  Its models are those of the first debugger, its actions are the actions of the first
debugger, and its effects are lists.  (It never throws, see `C119_genuine`.) -/
def metaReducer (r : Reducer M A E) : Reducer (Model A M) (Action A) (List (Atom E)) := fun m a =>
  match update r m a with
  | some (m', es) => (m', some es)
  | none => (m, none)

/-- What the effects do: those of the first debugger are effects for the second one,
`lager/debug/debugger.hpp:127-133`. -/
def flatten : List (Atom (List (Atom E))) → List (Atom E)
  | [] => []
  | .user es :: l => es ++ flatten l
  | .pause :: l => .pause :: flatten l
  | .resume :: l => .resume :: flatten l

/-- Whether the event loop is paused after these effects, if it can be: `loop().pause()` and `loop().resume()` set a flag,
as in `lager/event_loop/sdl.hpp:184-185`. -/
def loopPaused : Bool → List (Atom E) → Bool
  | b, [] => b
  | b, .user _ :: l => loopPaused b l
  | _, .pause :: l => loopPaused true l
  | _, .resume :: l => loopPaused false l

/-! ## Lemmas -/

theorem flatten_append (a b : List (Atom (List (Atom E)))) : flatten (a ++ b) = flatten a ++ flatten b := by
  induction a with
  | nil => rfl
  | cons x l ih => cases x <;> simp [flatten, ih]

theorem loopPaused_append (b : Bool) (k l : List (Atom E)) : loopPaused b (k ++ l) = loopPaused (loopPaused b k) l := by
  induction k generalizing b with
  | nil => rfl
  | cons x k ih => cases x <;> simp [loopPaused, ih]

theorem loopPaused_user (b : Bool) (e : Option E) : loopPaused b (userEff e) = b := by
  cases e <;> rfl

theorem metaReducer_eq {r : Reducer M A E} {m m' : Model A M} {a : Action A} {es : List (Atom E)}
    (h : update r m a = some (m', es)) : metaReducer r m a = (m', some es) := by
  simp [metaReducer, h]

/-- What is recorded in a genuine run of the first debugger. -/
theorem genuine_run {r : Reducer M A E} : ∀ {h : List (Step (Action A) (Model A M))} {d : Model A M}, Inv r d →
    Genuine (metaReducer r) d h → ∀ {k : Nat} {x : Model A M}, modelAfter d h k = some x →
    ∃ es, run r d ((h.take k).map Step.action) = some (x, es) := by
  intro h
  induction h with
  | nil =>
    intro d hd _ k x hx
    cases k with
    | zero => cases hx; exact ⟨[], rfl⟩
    | succ k => simp [modelAfter] at hx
  | cons s h ih =>
    intro d hd hg k x hx
    cases k with
    | zero => cases hx; exact ⟨[], rfl⟩
    | succ k =>
      obtain ⟨d', es, h1, h2, _⟩ := update_inv r d s.action hd
      have hs : s.model = d' := by rw [hg.1, metaReducer_eq h1]
      have hx' : modelAfter d' h k = some x := by
        cases k with
        | zero => simpa [modelAfter, hs] using hx
        | succ k => simpa [modelAfter] using hx
      obtain ⟨es', h3⟩ := ih h2 (hs ▸ hg.2) hx'
      refine ⟨es ++ es', ?_⟩
      simp only [List.take_succ_cons, List.map_cons, run, h1, h3]

/-! ## The theorems -/

/-- C119: whatever is done to the second debugger and, through it, to the first one, nothing throws, and what it shows is a
state that the first debugger has after the actions that the second one has recorded up to its cursor.  So C61 to C65 hold
for it. -/
theorem C119_genuine (r : Reducer M A E) (i : M) (cmds : List (Action (Action A))) :
    ∃ mm es d ds, run (metaReducer r) (Model.start (Model.start i)) cmds = some (mm, es) ∧ mm.shown = some d ∧
      run r (Model.start i) ((mm.history.take mm.cursor).map Step.action) = some (d, ds) ∧
      ∃ x, d.shown = some x := by
  obtain ⟨mm, es, h1, h2, h3⟩ := run_inv (metaReducer r) cmds _ (start_inv (metaReducer r) (Model.start i))
  obtain ⟨d, hd⟩ := shown_isSome mm h2.cursor
  have h3 : mm.init = Model.start i := h3
  have hg := h2.genuine
  have hd' := hd
  rw [shown_eq mm h2.cursor, h3] at hd'
  rw [h3] at hg
  obtain ⟨ds, h4⟩ := genuine_run (start_inv r i) hg hd'
  obtain ⟨d', ds', h5, h6, _⟩ := run_inv r ((mm.history.take mm.cursor).map Step.action) _ (start_inv r i)
  rw [h4] at h5
  cases h5
  exact ⟨mm, es, d, ds, h1, hd, h4, shown_isSome d h6.cursor⟩

/-- C119: the second debugger takes back any action on the first one, and with it the whole state of that, including its
history, its pending actions and whether it is paused; and redo does it again, without its effects. -/
theorem C119_undo (r : Reducer M A E) {mm : Model (Action A) (Model A M)} (hm : Reachable (metaReducer r) mm)
    (hp : mm.paused = false) {d : Model A M} (hd : mm.shown = some d) (c : Action A) {d' : Model A M}
    {ds : List (Atom E)} (hc : update r d c = some (d', ds)) :
    ∃ m1 m2 es, update (metaReducer r) mm (.act c) = some (m1, es) ∧ flatten es = ds ∧ m1.shown = some d' ∧
      update (metaReducer r) m1 .undo = some (m2, []) ∧ m2.shown = some d ∧
      update (metaReducer r) m2 .redo = some (m1, []) := by
  have hi := reachable_inv _ mm hm
  have hl := updateAct_live (metaReducer r) mm c hp d hd
  rw [metaReducer_eq hc] at hl
  have hlen : (mm.history.take mm.cursor).length = mm.cursor := by
    rw [List.length_take, Nat.min_eq_left hi.cursor]
  rw [hlen] at hl
  refine ⟨{ mm with history := mm.history.take mm.cursor ++ [⟨c, d'⟩], cursor := mm.cursor + 1 },
    { mm with history := mm.history.take mm.cursor ++ [⟨c, d'⟩], cursor := mm.cursor }, _, hl, ?_, ?_, ?_, ?_, ?_⟩
  · simp [userEff, flatten]
  · rw [shown_eq _ (by simp [hlen])]
    simp [modelAfter, hlen]
  · simp [update]
  · rw [shown_eq _ (by simp [hlen]), ← hd, shown_eq mm hi.cursor]
    cases hk : mm.cursor with
    | zero => rfl
    | succ k =>
      have hc := hi.cursor
      simp only [modelAfter]
      rw [List.getElem?_append_left (by rw [List.length_take]; omega), List.getElem?_take]
      simp
  · simp [update, hlen]

/-- C119: as long as nobody uses the second debugger, it is as if it were not there: it shows what the first one has, and
the same effects are called. -/
theorem C119_plain (r : Reducer M A E) (i : M) (cmds : List (Action A)) :
    ∃ d ds mm es, run r (Model.start i) cmds = some (d, ds) ∧
      run (metaReducer r) (Model.start (Model.start i)) (cmds.map .act) = some (mm, es) ∧
      mm.shown = some d ∧ flatten es = ds := by
  obtain ⟨mm, h1, h2⟩ := C60_transparent (metaReducer r) (Model.start i) cmds
  suffices h : ∀ (cmds : List (Action A)) (d : Model A M), Inv r d →
      ∃ ds, run r d cmds = some ((plain (metaReducer r) d cmds).1, ds) ∧
        flatten ((plain (metaReducer r) d cmds).2.map .user) = ds by
    obtain ⟨ds, h3, h4⟩ := h cmds _ (start_inv r i)
    exact ⟨_, ds, mm, _, h3, h1, h2, h4⟩
  intro cmds
  induction cmds with
  | nil => intro d _; exact ⟨[], rfl, rfl⟩
  | cons c cmds ih =>
    intro d hd
    obtain ⟨d', es, k1, k2, _⟩ := update_inv r d c hd
    obtain ⟨ds, k3, k4⟩ := ih d' k2
    refine ⟨es ++ ds, ?_, ?_⟩
    · simp only [run, k1, k3, plain, metaReducer_eq k1]
    · simp only [plain, metaReducer_eq k1, Option.toList, List.map_append, flatten_append]
      simp only [List.map_cons, List.map_nil, flatten, List.append_nil]
      rw [k4]

theorem updateAct_loop {r : Reducer M A E} {m m' : Model A M} {a : A} {es : List (Atom E)}
    (h : updateAct r m a = some (m', es)) (b : Bool) : m'.paused = m.paused ∧ loopPaused b es = b := by
  unfold updateAct at h
  split at h
  · cases h; exact ⟨rfl, rfl⟩
  · split at h
    · cases h
    · cases h; exact ⟨rfl, loopPaused_user _ _⟩

theorem resumeLoop_loop {r : Reducer M A E} {as : List A} : ∀ {m m' : Model A M} {e es : List (Atom E)},
    resumeLoop r as (m, e) = some (m', es) → ∀ b, m'.paused = m.paused ∧ loopPaused b es = loopPaused b e := by
  induction as with
  | nil => intro m m' e es h b; cases h; exact ⟨rfl, rfl⟩
  | cons a as ih =>
    intro m m' e es h b
    simp only [resumeLoop] at h
    split at h
    · cases h
    · rename_i m1 e1 h1
      obtain ⟨k1, k2⟩ := ih h b
      obtain ⟨k3, k4⟩ := updateAct_loop h1 (loopPaused b e)
      exact ⟨k1.trans k3, by rw [k2, loopPaused_append, k4]⟩

/-- C119: with one debugger, whatever is done, the event loop is paused exactly if the debugger says so. -/
theorem C119_one (r : Reducer M A E) (i : M) (cmds : List (Action A)) :
    ∃ m es, run r (Model.start i) cmds = some (m, es) ∧ loopPaused false es = m.paused := by
  suffices h : ∀ (cmds : List (Action A)) (m : Model A M), Inv r m →
      ∃ m' es, run r m cmds = some (m', es) ∧ loopPaused m.paused es = m'.paused from
    h cmds _ (start_inv r i)
  intro cmds
  induction cmds with
  | nil => intro m _; exact ⟨m, [], rfl, rfl⟩
  | cons c cmds ih =>
    intro m hm
    obtain ⟨m1, e1, h1, h2, _⟩ := update_inv r m c hm
    obtain ⟨m2, e2, h3, h4⟩ := ih m1 h2
    refine ⟨m2, e1 ++ e2, by simp only [run, h1, h3], ?_⟩
    rw [loopPaused_append, ← h4]
    congr 1
    cases c with
    | act a =>
      have := updateAct_loop h1 m.paused
      rw [this.1, this.2]
    | goto_ k => simp only [update] at h1; cases h1; split <;> rfl
    | undo => simp only [update] at h1; cases h1; split <;> rfl
    | redo => simp only [update] at h1; cases h1; split <;> rfl
    | pause => simp only [update] at h1; cases h1; rfl
    | resume =>
      simp only [update] at h1
      split at h1
      · cases h1
      · rename_i m' eff hl
        cases h1
        have := resumeLoop_loop hl false
        rw [this.1]
        simpa [loopPaused] using this.2

/-! ## What is false -/

/-- The state of the first debugger that is shown, and whether the loop is paused. -/
def metaSees (r : Reducer M A E) (i : M) (cmds : List (Action (Action A))) : Option (Bool × Bool) :=
  match run (metaReducer r) (Model.start (Model.start i)) cmds with
  | none => none
  | some (mm, es) => mm.shown.map fun d => (d.paused, loopPaused false (flatten es))

/-- C119: with two, as long as the second debugger is paused, the event loop is. -/
theorem C119_outer (r : Reducer M A E) (i : M) (cmds : List (Action (Action A))) {mm : Model (Action A) (Model A M)}
    {es : List (Atom (List (Atom E)))} (h : run (metaReducer r) (Model.start (Model.start i)) cmds = some (mm, es))
    (hp : mm.paused = true) : loopPaused false (flatten es) = true := by
  suffices key : ∀ (cmds : List (Action (Action A))) (m : Model (Action A) (Model A M)) (b : Bool)
      (es : List (Atom (List (Atom E)))), (m.paused = true → b = true) → run (metaReducer r) m cmds = some (mm, es) →
      loopPaused b (flatten es) = true from
    key cmds _ false es (by intro h; cases h) h
  intro cmds
  induction cmds with
  | nil => intro m b es hb h; cases h; exact hb hp
  | cons c cmds ih =>
    intro m b es hb h
    simp only [run] at h
    split at h
    · cases h
    · rename_i m1 e1 h1
      split at h
      · cases h
      · rename_i m2 e2 h2
        cases h
        rw [flatten_append, loopPaused_append]
        refine ih m1 _ e2 (fun hm => ?_) h2
        cases c with
        | act a =>
          simp only [update, updateAct] at h1
          split at h1
          · rename_i hmp
            cases h1; exact hb hmp
          · rename_i hmp
            split at h1
            · cases h1
            · cases h1; exact absurd hm hmp
        | goto_ n =>
          simp only [update] at h1
          cases h1
          refine hb ?_
          split at hm <;> exact hm
        | undo =>
          simp only [update] at h1
          cases h1
          refine hb ?_
          split at hm <;> exact hm
        | redo =>
          simp only [update] at h1
          cases h1
          refine hb ?_
          split at hm <;> exact hm
        | pause => simp only [update] at h1; cases h1; rfl
        | resume =>
          simp only [update] at h1
          split at h1
          · cases h1
          · rename_i m3 e3 h3
            cases h1
            have := (resumeLoop_loop h3 b).1
            rw [this] at hm; cases hm

/-- Three commands after which the second debugger is paused. -/
example : (run (metaReducer fun (x : Nat) (a : Nat) => (x + a, some ())) (Model.start (Model.start 0))
    [.act (.act 3), .pause, .act .resume]).map (fun x => (x.1.paused, x.2.length)) = some (true, 2) := by decide

/-- C119: it is false with two: the loop stays paused when pausing the first debugger is taken back, with whatever reducer and
model; and it goes on when the second debugger is resumed although the first one is paused. -/
theorem C119_loop_false (r : Reducer M A E) (i : M) :
    metaSees r i [.act .pause, .undo] = some (false, true) ∧
    metaSees r i [.act .pause, .pause, .resume] = some (true, false) :=
  ⟨rfl, rfl⟩

/-! ## Examples -/

example : ∃ mm es d ds, run (metaReducer exRed) (Model.start (Model.start 0))
      [.act (.act 1), .act (.act 2), .act .undo, .undo, .act .pause, .act (.act 4)] = some (mm, es) ∧ mm.shown = some d ∧
      run exRed (Model.start 0) ((mm.history.take mm.cursor).map Step.action) = some (d, ds) ∧
      ∃ x, d.shown = some x :=
  C119_genuine exRed 0 _

/-- The second debugger has taken back that the first one was paused: this has its pending actions no more. -/
example : (run (metaReducer exRed) (Model.start (Model.start 0))
      [.act (.act 1), .act .pause, .act (.act 2), .undo, .undo]).bind (fun p => p.1.shown) =
    some { cursor := 1, paused := false, init := 0, history := [⟨1, 1⟩], pending := [] } := by decide +kernel

example : ∃ m1 m2 es, update (metaReducer exRed) (Model.start (Model.start 0)) (.act .pause) = some (m1, es) ∧
      flatten es = [.pause] ∧
      m1.shown = some { cursor := 0, paused := true, init := 0, history := [], pending := [] } ∧
      update (metaReducer exRed) m1 .undo = some (m2, []) ∧ m2.shown = some (Model.start 0) ∧
      update (metaReducer exRed) m2 .redo = some (m1, []) :=
  C119_undo exRed ⟨_, [], [], rfl⟩ rfl rfl .pause rfl

example : ∃ m es, run exRed (Model.start 0) [.act 1, .pause, .act 2, .undo, .resume, .pause] = some (m, es) ∧
    loopPaused false es = m.paused := C119_one exRed 0 _

end Verif.Debugger
