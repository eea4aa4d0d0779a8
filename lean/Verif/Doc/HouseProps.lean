import Verif.Doc.House

/-!
C137: components that know their data by a key.
-/

namespace Verif.House

open Verif.Store

theorem cfg_sound (init : House) : (cfg init).sound := nofun

/-! ### Labels -/

theorem see_label (k : Component) (es : List (SEv Act House)) (v : House) (h1 : k.on = light k.id v)
    (h2 : k.label = lightState k.on) :
    (es.foldl Component.see k).id = k.id ∧
    (es.foldl Component.see k).on = light k.id (lastShown v es) ∧
    (es.foldl Component.see k).label = lightState (light k.id (lastShown v es)) := by
  induction es generalizing k v with
  | nil => exact ⟨rfl, h1, h2.trans (by rw [h1]; rfl)⟩
  | cons e es ih =>
    cases e with
    | shown h =>
      rw [List.foldl_cons]
      by_cases he : light k.id h = k.on
      · have : k.see (.shown h) = k := by simp [Component.see, he]
        rw [this]
        exact ih k h he.symm h2
      · have : k.see (.shown h) = ⟨k.id, light k.id h, lightState (light k.id h)⟩ := by simp [Component.see, he]
        rw [this]
        exact ih ⟨k.id, light k.id h, lightState (light k.id h)⟩ h rfl rfl
    | _ => exact ih k v h1 h2

/-- C137: a component that is made at any time between tasks has the label for the room with its id, as the store has it, again
at any later time between tasks, whatever is dispatched by anybody. -/
theorem C137_label {init : House} {p q : Par Act House} (hp : Par.Reach (cfg init) 1 p) (hj : p.jobs = [])
    (hq : Par.Reach (cfg init) 1 q) (hj' : q.jobs = []) {es : List (SEv Act House)} (hl : q.st.log = p.st.log ++ es)
    (id : String) :
    (es.foldl Component.see (Component.make id p.st.get)).label =
      if ((q.st.get id).getD ⟨false⟩).lightOn then "light is on" else "light is off" := by
  have seen : ∀ {p : Par Act House}, Par.Reach (cfg init) 1 p → p.jobs = [] → lastShown init p.st.log = p.st.get := by
    intro p hp hj
    obtain ⟨s, hs, k⟩ := C94_serial (cfg_sound init) hp hj
    have := (C50_last (cfg_sound init) hs).1
    rw [← lastShown_filter, ← k.log.1, lastShown_filter]
    exact this.trans k.last
  obtain ⟨_, _, h⟩ := see_label (Component.make id p.st.get) es p.st.get rfl rfl
  rw [h]
  have : lastShown p.st.get es = q.st.get := by
    rw [← seen hq hj', hl, ← seen hp hj]
    clear hl h
    generalize init = v
    induction p.st.log generalizing v with
    | nil => rfl
    | cons e l ih => cases e <;> exact ih _
  rw [this]
  rfl

/-! ### Rooms -/

/-- C137: whatever is dispatched before and meanwhile, when the click of a component is handled, it changes the light of the room
with its id, as it is then, and no other room. -/
theorem C137_click {init : House} {p : Par Act House} (hp : Par.Reach (cfg init) 1 p) {l1 l2 : List (SEv Act House)}
    {d : Nat} {h h' : House} {e : Eff} (k : Component) (hl : p.st.log = l1 ++ .reduced d h k.click h' e :: l2) :
    h = fold (cfg init) (reductions l1) ∧
    h' k.id = some ⟨!((h k.id).getD ⟨false⟩).lightOn⟩ ∧ ∀ id, id ≠ k.id → h' id = h id := by
  obtain ⟨h1, h2, _⟩ := (C94_order (cfg_sound init) hp).2.1 l1 l2 d h k.click h' e hl
  cases h2
  refine ⟨h1, ?_, fun id hi => ?_⟩
  · simp [update, Component.click, House.set, updateRoom, noRoom]
  · simp [update, Component.click, House.set, hi]

/-- Number of clicks for a room. -/
def clicks (id : String) (as : List Act) : Nat := as.countP (· = .change id .toggle)

theorem flips (id : String) (as : List Act) (hn : ∀ r, .add id r ∉ as) (h : House) (b : Bool) (hb : h id = some ⟨b⟩) :
    (as.foldl update h) id = some ⟨b ^^ decide (clicks id as % 2 = 1)⟩ := by
  induction as generalizing h b with
  | nil => simpa [clicks] using hb
  | cons a as ih =>
    have hn' : ∀ r, .add id r ∉ as := fun r hr => hn r (List.mem_cons_of_mem _ hr)
    rw [List.foldl_cons]
    cases a with
    | add id' r =>
      have hi : id ≠ id' := fun e => hn r (by rw [e]; exact List.mem_cons_self)
      rw [ih hn' _ b (by simp [update, House.set, hi, hb])]
      have : clicks id (.add id' r :: as) = clicks id as := by simp [clicks]
      rw [this]
    | change id' a =>
      cases a
      by_cases hi : id = id'
      · subst hi
        rw [ih hn' _ (!b) (by simp [update, House.set, hb, updateRoom])]
        have : clicks id (.change id .toggle :: as) = clicks id as + 1 := by simp [clicks]
        rw [this]
        have h2 : clicks id as % 2 = 0 ∨ clicks id as % 2 = 1 := by omega
        rcases h2 with h2 | h2
        · have : (clicks id as + 1) % 2 = 1 := by omega
          rw [h2, this]; cases b <;> rfl
        · have : (clicks id as + 1) % 2 = 0 := by omega
          rw [h2, this]; cases b <;> rfl
      · rw [ih hn' _ b (by simp [update, House.set, hi, hb])]
        have hi' : ¬ (id' = id) := fun e => hi e.symm
        have : clicks id (.change id' .toggle :: as) = clicks id as := by simp [clicks, hi']
        rw [this]

theorem fold_update (init : House) (as : List Act) : fold (cfg init) as = as.foldl update init := by
  have : (cfg init).next = update := rfl
  unfold fold
  rw [this]
  rfl

/-- C137: when no tasks are left, the light in a room is as it was when the room was last added, or at first, switched as often
as there were clicks for it since. -/
theorem C137_room {init : House} {p : Par Act House} (hp : Par.Reach (cfg init) 1 p) (hj : p.jobs = [])
    (hi : p.st.idle) (id : String) (b : Bool) (as : List Act) (hn : ∀ r, .add id r ∉ as)
    (h : (dispatches p.st.log = as ∧ init id = some ⟨b⟩) ∨ ∃ bs, dispatches p.st.log = bs ++ .add id ⟨b⟩ :: as) :
    p.st.get id = some ⟨b ^^ decide (clicks id as % 2 = 1)⟩ := by
  have hg := C94_fold (cfg_sound init) rfl hp hj hi
  rw [hg, fold_update]
  rcases h with ⟨h1, h2⟩ | ⟨bs, h1⟩
  · rw [h1]; exact flips id as hn init b h2
  · rw [h1, List.foldl_append, List.foldl_cons]
    exact flips id as hn _ b (by simp [update, House.set])

/-- C137: actions for other rooms do not matter. -/
theorem C137_others {init : House} {p : Par Act House} (hp : Par.Reach (cfg init) 1 p) (hj : p.jobs = [])
    (hi : p.st.idle) (id : String) :
    p.st.get id = ((dispatches p.st.log).filter (fun a => match a with
      | .change id' _ => id' = id
      | .add id' _ => id' = id)).foldl update init id := by
  have hg := C94_fold (cfg_sound init) rfl hp hj hi
  rw [hg, fold_update]
  have key : ∀ (as : List Act) (h h' : House), h id = h' id → as.foldl update h id =
      (as.filter (fun a => match a with
        | .change id' _ => id' = id
        | .add id' _ => id' = id)).foldl update h' id := by
    intro as
    induction as with
    | nil => exact fun _ _ h => h
    | cons a as ih =>
      intro h h' he
      rw [List.filter_cons, List.foldl_cons]
      cases a with
      | change id' a =>
        by_cases hid : id' = id
        · subst hid
          simp only [decide_true, if_true, List.foldl_cons]
          exact ih _ _ (by simp [update, House.set, he])
        · simp only [hid, decide_false, Bool.false_eq_true, if_false]
          refine ih _ _ ?_
          have : ¬ (id = id') := fun e => hid e.symm
          simp [update, House.set, this, he]
      | add id' r =>
        by_cases hid : id' = id
        · subst hid
          simp only [decide_true, if_true, List.foldl_cons]
          exact ih _ _ (by simp [update, House.set])
        · simp only [hid, decide_false, Bool.false_eq_true, if_false]
          refine ih _ _ ?_
          have : ¬ (id = id') := fun e => hid e.symm
          simp [update, House.set, this, he]
  exact key _ _ _ rfl

/-- C137 is FALSE for rooms that are not there: a click of a component for such a room, which shows that the light is off, adds
it to the house, with the light on. -/
theorem C137_missing_false (init : House) (id : String) (hn : init id = none) :
    (Component.make id init).label = "light is off" ∧
    ∃ p : Par Act House, Par.Reach (cfg init) 1 p ∧ p.jobs = [] ∧ p.st.idle ∧
      dispatches p.st.log = [(Component.make id init).click] ∧ p.st.get id = some ⟨true⟩ := by
  refine ⟨by simp [Component.make, light, lightState, hn, noRoom], ?_⟩
  refine ⟨exPar (cfg init) 1 [.user (.dispatch (.change id .toggle)), .begin, .go 0, .go 0, .begin, .go 0, .go 0, .go 0],
    exPar_reach rfl, rfl, rfl, rfl, ?_⟩
  show update init (.change id .toggle) id = some ⟨true⟩
  simp [update, House.set, hn, noRoom, updateRoom]

/-! A house with a kitchen; a bathroom is added, and both lights are switched. -/

def exHouse : House := fun id => if id = "kitchen" then some ⟨false⟩ else if id = "bedroom" then some ⟨true⟩ else none

def exOps : List (POp Act) :=
  [.user (.dispatch (.add "bath" ⟨true⟩)), .user (.dispatch (.change "kitchen" .toggle)), .begin, .go 0, .go 0, .begin,
   .user (.dispatch (.change "bath" .toggle)), .go 0, .go 0, .begin, .go 0, .go 0, .go 0, .begin, .go 0, .go 0, .begin, .go 0, .go 0, .go 0,
   .begin, .go 0, .go 0, .go 0]

/-- The same up to the time when only the bathroom has been added and shown. -/
def exOps' : List (POp Act) :=
  exOps.take 13

example : Par.Reach (cfg exHouse) 1 (exPar (cfg exHouse) 1 exOps) := exPar_reach (by decide +kernel)

example : Par.Reach (cfg exHouse) 1 (exPar (cfg exHouse) 1 exOps') := exPar_reach (by decide +kernel)

/-- `C137_room` and `C137_others`: nothing is left, there were clicks, and a room that was added. -/
example : (exPar (cfg exHouse) 1 exOps).jobs.isEmpty = true ∧ (exPar (cfg exHouse) 1 exOps).st.queue.isEmpty = true ∧
    dispatches (exPar (cfg exHouse) 1 exOps).st.log =
      [.add "bath" ⟨true⟩, .change "kitchen" .toggle, .change "bath" .toggle] ∧
    (exPar (cfg exHouse) 1 exOps).st.get "bath" = some ⟨false⟩ ∧
    (exPar (cfg exHouse) 1 exOps).st.get "kitchen" = some ⟨true⟩ ∧
    (exPar (cfg exHouse) 1 exOps).st.get "bedroom" = some ⟨true⟩ ∧
    (exPar (cfg exHouse) 1 exOps).st.get "attic" = none := by decide +kernel

/-- `C137_label`: a component that is made while tasks wait, and one that is made at first. -/
example : (exPar (cfg exHouse) 1 exOps').jobs.isEmpty = true ∧ (exPar (cfg exHouse) 1 exOps').st.queue.isEmpty = false ∧
    (Component.make "bath" (exPar (cfg exHouse) 1 exOps').st.get).label = "light is on" ∧
    (((exPar (cfg exHouse) 1 exOps).st.log.drop (exPar (cfg exHouse) 1 exOps').st.log.length).foldl Component.see
      (Component.make "bath" (exPar (cfg exHouse) 1 exOps').st.get)).label = "light is off" ∧
    ((exPar (cfg exHouse) 1 exOps).st.log.foldl Component.see (Component.make "kitchen" exHouse)).label = "light is on" := by
  decide +kernel

/-- `C137_click`: the clicks are in the log. -/
example : reductions (exPar (cfg exHouse) 1 exOps).st.log =
    [.add "bath" ⟨true⟩, (Component.make "kitchen" exHouse).click, (Component.make "bath" exHouse).click] := by decide +kernel

end Verif.House
