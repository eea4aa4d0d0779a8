import Verif.Example.Snake

/-!
C123: the example `snake`.
-/

namespace Verif.Snake

variable {G : Type}

/-- Specification: on the board. -/
def OnBoard (p : Pt) : Prop := 0 ≤ p.1 ∧ p.1 < 25 ∧ 0 ≤ p.2 ∧ p.2 < 25

/-- Specification: next to each other. -/
def Near (p q : Pt) : Prop := (p.1 - q.1).natAbs + (p.2 - q.2).natAbs = 1

/-- Specification: a snake of at least three cells, each next to the one before it. -/
structure Snake (body : List Pt) : Prop where
  long : 3 ≤ body.length
  path : ∀ (i : Nat) (p q : Pt), body[i]? = some p → body[i + 1]? = some q → Near p q

theorem inBounds_iff (p : Pt) : inBounds p = true ↔ OnBoard p := by
  simp [inBounds, OnBoard, width, height]

theorem near_forward (p : Pt) (d : Dir) : Near (forward p d) p := by
  cases d <;> simp only [Near, forward] <;> omega

theorem path_cons {p q : Pt} {l : List Pt} (hn : Near p q)
    (h : ∀ (i : Nat) (p q : Pt), l[i]? = some p → l[i + 1]? = some q → Near p q) (hl : l.head? = some q) :
    ∀ (i : Nat) (x y : Pt), (p :: l)[i]? = some x → (p :: l)[i + 1]? = some y → Near x y := by
  intro i x y hx hy
  cases i with
  | zero =>
    simp only [List.getElem?_cons_zero, Option.some.injEq] at hx
    simp only [Nat.zero_add, List.getElem?_cons_succ] at hy
    rw [List.head?_eq_getElem?] at hl
    rw [hl] at hy
    cases hy
    exact hx ▸ hn
  | succ i => exact h i x y (by simpa using hx) (by simpa using hy)

theorem getElem?_of_dropLast {l : List Pt} {i : Nat} {x : Pt} (h : l.dropLast[i]? = some x) : l[i]? = some x := by
  rw [List.dropLast_eq_take, List.getElem?_take] at h
  split at h
  · exact h
  · cases h

theorem onBoard_start (next : G → Int × G) (g : G) :
    ∀ p ∈ (makeGame next g).1.body, OnBoard p := by
  intro p hp
  simp only [makeGame, width, height] at hp
  simp only [List.mem_cons, List.not_mem_nil, or_false] at hp
  rcases hp with rfl | rfl | rfl <;> simp [OnBoard]

theorem snake_start (next : G → Int × G) (g : G) : Snake (makeGame next g).1.body := by
  refine ⟨by simp [makeGame], ?_⟩
  have h : (makeGame next g).1.body = [(12, 12), (11, 12), (10, 12)] := by
    simp [makeGame, width, height]
  rw [h]
  intro i p q hp hq
  match i with
  | 0 => cases hp; cases hq; simp [Near]
  | 1 => cases hp; cases hq; simp [Near]
  | n + 2 => simp at hq

/-- What holds after any actions. -/
structure Inv (m : App G) : Prop where
  board : ∀ p ∈ m.game.body, OnBoard p
  snake : Snake m.game.body

theorem inv_tick (next : G → Int × G) {m : App G} (h : Inv m) : ∃ m', tick next m = some m' ∧ Inv m' := by
  match hb : m.game.body with
  | [] => exact absurd h.snake.long (by rw [hb]; decide)
  | [_] => exact absurd h.snake.long (by rw [hb]; simp)
  | p :: q :: ps =>
    rw [tick_cons next m hb]
    split
    · exact ⟨_, rfl, ⟨h.board, h.snake⟩⟩
    · rename_i h1
      have hin : OnBoard (forward p m.game.dir) := by
        rw [← inBounds_iff]
        cases hi : inBounds (forward p m.game.dir) with
        | true => rfl
        | false => exact absurd (.inr hi) h1
      have hl := h.snake.long
      have hp := h.snake.path
      have hbo := h.board
      rw [hb] at hl hp hbo
      split
      · refine ⟨_, rfl, ⟨?_, ⟨?_, ?_⟩⟩⟩
        · intro x hx
          rcases List.mem_cons.1 hx with rfl | hx
          · exact hin
          · exact hbo x hx
        · simp only [List.length_cons] at hl ⊢
          omega
        · exact path_cons (near_forward p _) hp rfl
      · refine ⟨_, rfl, ⟨?_, ⟨?_, ?_⟩⟩⟩
        · intro x hx
          rcases List.mem_cons.1 hx with rfl | hx
          · exact hin
          · exact hbo x ((List.dropLast_sublist _).mem hx)
        · simp only [List.length_cons, List.length_dropLast] at hl ⊢
          omega
        · refine path_cons (near_forward p _) ?_ (by simp)
          intro i x y hx hy
          exact hp i x y (getElem?_of_dropLast hx) (getElem?_of_dropLast hy)

theorem inv_update (next : G → Int × G) {m : App G} (h : Inv m) (a : Act) : ∃ m', update next m a = some m' ∧ Inv m' := by
  cases a with
  | tick => exact inv_tick next h
  | reset => exact ⟨_, rfl, ⟨onBoard_start next m.gen, snake_start next m.gen⟩⟩
  | _ => exact ⟨_, rfl, ⟨h.board, h.snake⟩⟩

theorem inv_run (next : G → Int × G) (as : List Act) {m : App G} (h : Inv m) : ∃ m', run next m as = some m' ∧ Inv m' := by
  induction as generalizing m with
  | nil => exact ⟨m, rfl, h⟩
  | cons a as ih =>
    obtain ⟨m', h1, h2⟩ := inv_update next h a
    rw [run, h1]
    exact ih h2

theorem inv_initial (next : G → Int × G) (g : G) : Inv (makeInitial next g) :=
  ⟨onBoard_start next g, snake_start next g⟩

/-- C123: whatever the player does, there is no undefined behaviour, the snake has at least three cells, each next to the one
before it, and all of them are on the board. -/
theorem C123_snake (next : G → Int × G) (g : G) (as : List Act) :
    ∃ m, run next (makeInitial next g) as = some m ∧ Snake m.game.body ∧ ∀ p ∈ m.game.body, OnBoard p := by
  obtain ⟨m, h1, h2⟩ := inv_run next as (inv_initial next g)
  exact ⟨m, h1, h2.snake, h2.board⟩

/-- Random numbers from a list. -/
def draw : List Int → Int × List Int
  | [] => (0, [])
  | x :: xs => (x, xs)

/-- What is on the board. -/
def App.look (m : App G) : List Pt × Pt × Bool := (m.game.body, m.game.apple, m.game.over)

example : (run draw (makeInitial draw [11, 12, 3, 4]) [.tick, .goDown, .tick]).map (·.look) =
    some ([(13, 13), (13, 12), (12, 12), (11, 12)], (11, 12), false) := by decide +kernel

/-- C123: if the random numbers are from 0 to 24, the apple is on the board. -/
theorem C123_apple (next : G → Int × G) (hn : ∀ g, 0 ≤ (next g).1 ∧ (next g).1 < 25) (g : G) (as : List Act) {m : App G}
    (h : run next (makeInitial next g) as = some m) : OnBoard m.game.apple := by
  have rnd : ∀ g, OnBoard (randomApple next g).1 := fun g => ⟨(hn _).1, (hn _).2, (hn _).1, (hn _).2⟩
  suffices key : ∀ (m0 : App G), OnBoard m0.game.apple → Inv m0 → run next m0 as = some m → OnBoard m.game.apple from
    key _ (rnd g) (inv_initial next g) h
  clear h
  induction as with
  | nil => intro m0 h0 _ h; cases h; exact h0
  | cons a as ih =>
    intro m0 h0 hi h
    obtain ⟨m1, h1, h2⟩ := inv_update next hi a
    rw [run, h1] at h
    refine ih m1 ?_ h2 h
    cases a with
    | tick =>
      match hb : m0.game.body with
      | [] => exact absurd hi.snake.long (by rw [hb]; decide)
      | p :: ps =>
        simp only [update, tick_cons next m0 hb] at h1
        split at h1
        · cases h1; exact h0
        · split at h1
          · cases h1; exact rnd _
          · cases h1; exact h0
    | reset => cases h1; exact rnd _
    | _ => cases h1; exact h0

example : ∀ n : Nat, 0 ≤ ((fun n => (((n % 25 : Nat) : Int), n + 1)) n : Int × Nat).1 ∧
    ((fun n => (((n % 25 : Nat) : Int), n + 1)) n : Int × Nat).1 < 25 := by
  intro n
  dsimp only
  omega

/-- C123: a tick ends the game, and then the snake stays where it is, or the head goes one step; the last cell is left, unless
it was on the apple.  Other actions do not move the snake, except `reset`. -/
theorem C123_tick (next : G → Int × G) (g : G) (as : List Act) {m m' : App G}
    (h : run next (makeInitial next g) as = some m) (h' : update next m .tick = some m') :
    ∃ head rest last, m.game.body = head :: rest ∧ (head :: rest).getLast? = some last ∧ m'.game.dir = m.game.dir ∧
      ((m'.game.body = m.game.body ∧ m'.game.over = true ∧ m'.game.apple = m.game.apple ∧
          (¬ OnBoard (forward head m.game.dir) ∨ forward head m.game.dir ∈ (head :: rest).dropLast)) ∨
       (OnBoard (forward head m.game.dir) ∧ forward head m.game.dir ∉ (head :: rest).dropLast ∧
          m'.game.over = m.game.over ∧
          ((last = m.game.apple ∧ m'.game.body = forward head m.game.dir :: m.game.body ∧
              m'.game.apple = ((next m.gen).1, (next (next m.gen).2).1)) ∨
           (last ≠ m.game.apple ∧ m'.game.body = forward head m.game.dir :: m.game.body.dropLast ∧
              m'.game.apple = m.game.apple)))) := by
  obtain ⟨m1, h1, hi⟩ := inv_run next as (inv_initial next g)
  rw [h] at h1
  cases h1
  match hb : m.game.body with
  | [] => exact absurd hi.snake.long (by rw [hb]; decide)
  | p :: ps =>
    refine ⟨p, ps, (p :: ps).getLast (by simp), rfl, List.getLast?_eq_some_getLast _, ?_⟩
    simp only [update, tick_cons next m hb] at h'
    have hin : inBounds (forward p m.game.dir) = false ↔ ¬ OnBoard (forward p m.game.dir) := by
      rw [← inBounds_iff]; simp
    split at h'
    · rename_i h2
      cases h'
      exact ⟨rfl, .inl ⟨hb, rfl, rfl, (h2.symm.imp hin.1 id)⟩⟩
    · rename_i h2
      have ho : OnBoard (forward p m.game.dir) := Classical.byContradiction fun hn => h2 (.inr (hin.2 hn))
      have hm : forward p m.game.dir ∉ (p :: ps).dropLast := fun hm => h2 (.inl hm)
      split at h'
      · rename_i h3
        cases h'
        exact ⟨rfl, .inr ⟨ho, hm, rfl, .inl ⟨h3, rfl, rfl⟩⟩⟩
      · rename_i h3
        cases h'
        exact ⟨rfl, .inr ⟨ho, hm, rfl, .inr ⟨h3, rfl, rfl⟩⟩⟩

/-- C123: … and turns change nothing but the direction. -/
theorem C123_turn (next : G → Int × G) (m : App G) {a : Act} (ht : a ≠ .tick) (hr : a ≠ .reset) :
    ∃ d, update next m a = some { m with game := { m.game with dir := d } } ∧
      -- not back
      ∀ p, forward (forward p m.game.dir) d ≠ p := by
  have back : ∀ (d e : Dir) (p : Pt), (match d, e with
      | .left, .right => False
      | .right, .left => False
      | .up, .down => False
      | .down, .up => False
      | _, _ => True) → forward (forward p d) e ≠ p := by
    intro d e p hd
    obtain ⟨x, y⟩ := p
    cases d <;> cases e <;> first | exact absurd hd id | (simp only [forward, ne_eq, Prod.mk.injEq]; omega)
  cases a with
  | tick => exact absurd rfl ht
  | reset => exact absurd rfl hr
  | goLeft => exact ⟨_, rfl, fun p => back _ _ p (by cases m.game.dir <;> trivial)⟩
  | goRight => exact ⟨_, rfl, fun p => back _ _ p (by cases m.game.dir <;> trivial)⟩
  | goUp => exact ⟨_, rfl, fun p => back _ _ p (by cases m.game.dir <;> trivial)⟩
  | goDown => exact ⟨_, rfl, fun p => back _ _ p (by cases m.game.dir <;> trivial)⟩

example : (run draw (makeInitial draw [1, 2]) [.goLeft]).map (·.game.dir) = some .right ∧
    (run draw (makeInitial draw [1, 2]) [.goUp]).map (·.game.dir) = some .up := by decide +kernel

/-- C123: but two turns between ticks turn the snake back, so that it runs into itself. -/
theorem C123_back_false (next : G → Int × G) (g : G) :
    ∃ m m', run next (makeInitial next g) [.goUp, .goLeft] = some m ∧ m.game.over = false ∧
      update next m .tick = some m' ∧ m'.game.over = true := by
  have h : update next { makeInitial next g with game := { (makeInitial next g).game with dir := .left } } .tick =
      some { makeInitial next g with game := { (makeInitial next g).game with dir := .left, over := true } } := by
    rw [update, tick_cons next _ (p := (12, 12)) (ps := [(11, 12), (10, 12)]) rfl, if_pos (.inl (show forward (12, 12) .left ∈ _ by decide))]
  exact ⟨_, _, rfl, rfl, h, rfl⟩

/-- C123: a game that is over stays so until it is reset. -/
theorem C123_over (next : G → Int × G) (g : G) (as bs : List Act) {m m' : App G}
    (h : run next (makeInitial next g) as = some m) (h' : run next m bs = some m') (hr : Act.reset ∉ bs)
    (ho : m.game.over = true) : m'.game.over = true := by
  obtain ⟨m1, h1, hi⟩ := inv_run next as (inv_initial next g)
  rw [h] at h1
  cases h1
  clear h
  induction bs generalizing m with
  | nil => cases h'; exact ho
  | cons a bs ih =>
    obtain ⟨m1, h1, h2⟩ := inv_update next hi a
    rw [run, h1] at h'
    refine ih h' (fun hm => hr (List.mem_cons_of_mem _ hm)) ?_ h2
    cases a with
    | tick =>
      match hb : m.game.body with
      | [] => exact absurd hi.snake.long (by rw [hb]; decide)
      | p :: ps =>
        simp only [update, tick_cons next m hb] at h1
        split at h1
        · cases h1; rfl
        · split at h1
          · cases h1; exact ho
          · cases h1; exact ho
    | reset => exact absurd (List.mem_cons_self ..) hr
    | _ => cases h1; exact ho

example : (run draw (makeInitial draw [1, 2]) [.goUp, .goLeft, .tick, .goDown, .tick]).map (·.game.over) = some true := by
  decide +kernel

/-- C123: `reset` begins a new game, from any state. -/
theorem C123_reset (next : G → Int × G) (m : App G) :
    ∃ m', update next m .reset = some m' ∧ m'.game.over = false ∧ m'.game.body = [(12, 12), (11, 12), (10, 12)] ∧
      m'.game.dir = .right ∧ m'.game.apple = ((next m.gen).1, (next (next m.gen).2).1) :=
  ⟨_, rfl, rfl, rfl, rfl, rfl⟩

/-- C123: but a game that is over goes on: the snake can be turned and moves. -/
theorem C123_over_moves_false : ∃ (as : List Act) (m m' : App (List Int)),
    run draw (makeInitial draw []) as = some m ∧ m.game.over = true ∧ run draw m [.goUp, .tick] = some m' ∧
    m'.game.body ≠ m.game.body :=
  ⟨List.replicate 13 .tick, ⟨[], ⟨[(24, 12), (23, 12), (22, 12)], .right, (0, 0), true⟩⟩,
    ⟨[], ⟨[(24, 11), (24, 12), (23, 12)], .up, (0, 0), true⟩⟩, rfl, rfl, rfl, by decide⟩

/-- C123: the cells of the snake stay different, unless the head moves to where the tail is just when the snake grows. -/
theorem C123_different (next : G → Int × G) (g : G) (as : List Act) {m m' : App G}
    (h : run next (makeInitial next g) as = some m) (h' : update next m .tick = some m') (hd : m.game.body.Nodup) :
    m'.game.body.Nodup ∨ (m'.game.body.head? = m.game.body.getLast? ∧ m.game.body.getLast? = some m.game.apple) := by
  obtain ⟨p, ps, last, hb, hl, _, h1 | ⟨_, hm, _, ⟨h2, h3, _⟩ | ⟨_, h3, _⟩⟩⟩ := C123_tick next g as h h'
  · rw [h1.1]; exact .inl hd
  · rw [h3]
    by_cases hlast : forward p m.game.dir = last
    · refine .inr ⟨?_, by rw [hb, hl, h2]⟩
      rw [hb, hl, ← hlast]
      rfl
    · refine .inl (List.nodup_cons.2 ⟨fun hmem => ?_, hd⟩)
      rw [hb] at hmem
      have hg : (p :: ps).dropLast ++ [last] = p :: ps := by
        have := List.dropLast_concat_getLast (l := p :: ps) (by simp)
        rw [List.getLast?_eq_some_getLast (by simp)] at hl
        rw [← Option.some.inj hl]
        exact this
      rw [← hg, List.mem_append, List.mem_singleton] at hmem
      rcases hmem with hmem | hmem
      · exact hm hmem
      · exact hlast hmem
  · rw [h3, List.nodup_cons]
    rw [← hb] at hm
    exact .inl ⟨hm, (List.dropLast_sublist _).nodup hd⟩

/-- C123: and then it happens: two cells are the same. -/
theorem C123_different_false : ∃ (gen : List Int) (as : List Act) (m : App (List Int)),
    run draw (makeInitial draw gen) as = some m ∧ m.game.over = false ∧ ¬ m.game.body.Nodup :=
  ⟨[11, 12, 11, 12, 14, 12], [.tick, .tick, .tick, .tick, .goDown, .tick, .goLeft, .tick, .tick, .goUp, .tick],
    ⟨[], ⟨[(14, 12), (14, 13), (15, 13), (16, 13), (16, 12), (15, 12), (14, 12)], .up, (0, 0), false⟩⟩, rfl, rfl,
    by decide⟩

/-- C123: the second apple is always where the first one was, since the generator is copied before the first apple is made. -/
theorem C123_same_apple_false (next : G → Int × G) (g : G) (as : List Act) {m : App G}
    (h : run next (makeInitial next g) as = some m) (hr : Act.reset ∉ as) (hl : m.game.body.length = 4) :
    m.game.apple = (makeInitial next g).game.apple := by
  suffices key : ∀ (m0 : App G), Inv m0 → m0.game.apple = (randomApple next g).1 →
      (m0.game.body.length = 3 ∧ m0.gen = g ∨ 4 ≤ m0.game.body.length) → ∀ (as : List Act), Act.reset ∉ as →
      run next m0 as = some m → m.game.apple = (randomApple next g).1 by
    exact key _ (inv_initial next g) rfl (.inl ⟨rfl, rfl⟩) as hr h
  clear h hr as
  intro m0 hi ha hg as hr h
  have grow : ∀ (as : List Act) (m0 : App G), Inv m0 → Act.reset ∉ as → run next m0 as = some m → 5 ≤ m0.game.body.length →
      5 ≤ m.game.body.length := by
    intro as
    induction as with
    | nil => intro m0 _ _ h h5; cases h; exact h5
    | cons a as ih =>
      intro m0 hi hr h h5
      obtain ⟨m1, h1, h2⟩ := inv_update next hi a
      rw [run, h1] at h
      refine ih m1 h2 (fun hm => hr (List.mem_cons_of_mem _ hm)) h ?_
      cases a with
      | tick =>
        match hb : m0.game.body with
        | [] => exact absurd hi.snake.long (by rw [hb]; decide)
        | p :: ps =>
          rw [hb] at h5
          simp only [update, tick_cons next m0 hb] at h1
          split at h1
          · cases h1; rw [← hb] at h5; exact h5
          · split at h1
            · cases h1; simp only [List.length_cons] at h5 ⊢; omega
            · cases h1; simp only [List.length_cons, List.length_dropLast] at h5 ⊢; omega
      | reset => exact absurd (List.mem_cons_self ..) hr
      | _ => cases h1; exact h5
  induction as generalizing m0 with
  | nil => cases h; exact ha
  | cons a as ih =>
    obtain ⟨m1, h1, h2⟩ := inv_update next hi a
    have hr' : Act.reset ∉ as := fun hm => hr (List.mem_cons_of_mem _ hm)
    rw [run, h1] at h
    have h : run next m1 as = some m := h
    cases a with
    | tick =>
      match hb : m0.game.body with
      | [] => exact absurd hi.snake.long (by rw [hb]; decide)
      | p :: ps =>
        rw [hb] at hg
        simp only [update, tick_cons next m0 hb] at h1
        split at h1
        · cases h1
          exact ih _ h2 ha (by rw [← hb] at hg; exact hg) hr' h
        · split at h1
          · cases h1
            rcases hg with ⟨h3, rfl⟩ | h4
            · exact ih _ h2 rfl (.inr (by simp only [List.length_cons] at h3 ⊢; omega)) hr' h
            · have := grow as _ h2 hr' h (by simp only [List.length_cons] at h4 ⊢; omega)
              omega
          · cases h1
            refine ih _ h2 ha ?_ hr' h
            refine hg.imp (fun h3 => ⟨?_, h3.2⟩) fun h4 => ?_
            · have := h3.1
              simp only [List.length_cons, List.length_dropLast] at this ⊢
              omega
            · simp only [List.length_cons, List.length_dropLast] at h4 ⊢
              omega
    | reset => exact absurd (List.mem_cons_self ..) hr
    | _ => cases h1; exact ih _ h2 ha hg hr' h

example : (run draw (makeInitial draw [11, 12, 3, 4]) [.tick, .tick]).map (·.look) =
    some ([(14, 12), (13, 12), (12, 12), (11, 12)], (11, 12), false) := by decide +kernel

end Verif.Snake
