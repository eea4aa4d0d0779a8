/-!
The model of the example `snake`, `example/snake/model.hpp` and `example/snake/model.cpp`.  Integers are unbounded (all
coordinates stay small).  The generator of random numbers and its distribution are a state `G` and a function `next`.
`none` stands for undefined behaviour.
-/

namespace Verif.Snake

/-- `direction`, `example/snake/model.hpp:43-49`. -/
inductive Dir where
  | left
  | up
  | right
  | down
deriving DecidableEq

/-- `action_t`, `example/snake/model.hpp:22-34`. -/
inductive Act where
  | goLeft
  | goRight
  | goUp
  | goDown
  | reset
  | tick
deriving DecidableEq

/-- `point_t`, `example/snake/model.hpp:36`. -/
abbrev Pt := Int × Int

/-- `snake_model` and `game_model`, `example/snake/model.hpp:51-66`. -/
structure Game where
  body : List Pt
  dir : Dir
  apple : Pt
  over : Bool
deriving DecidableEq

/-- `game_model::width`, `game_model::height`, `example/snake/model.hpp:64-65`. -/
def width : Int := 25
/-- `game_model::height`, `example/snake/model.hpp:65`. -/
def height : Int := 25

/-- `app_model`, `example/snake/model.hpp:68-74`. -/
structure App (G : Type) where
  gen : G
  game : Game

variable {G : Type}

/-- `random_apple_pos`, `example/snake/model.hpp:76-80`: braces, so the first number is drawn first. -/
def randomApple (next : G → Int × G) (g : G) : Pt × G :=
  let (x, g) := next g
  let (y, g) := next g
  ((x, y), g)

/-- `left`, `right`, `up`, `down`, `example/snake/model.cpp:24-50`. -/
def Dir.goLeft (d : Dir) : Dir := if d = .up ∨ d = .down then .left else d
/-- `right`, `example/snake/model.cpp:31-36`. -/
def Dir.goRight (d : Dir) : Dir := if d = .up ∨ d = .down then .right else d
/-- `up`, `example/snake/model.cpp:38-43`. -/
def Dir.goUp (d : Dir) : Dir := if d = .left ∨ d = .right then .up else d
/-- `down`, `example/snake/model.cpp:45-50`. -/
def Dir.goDown (d : Dir) : Dir := if d = .left ∨ d = .right then .down else d

/-- `move_forward` of a point, `example/snake/model.cpp:52-66`. -/
def forward (p : Pt) : Dir → Pt
  | .left => (p.1 - 1, p.2)
  | .up => (p.1, p.2 - 1)
  | .right => (p.1 + 1, p.2)
  | .down => (p.1, p.2 + 1)

/-- `std::rotate(body.begin(), body.end() - 1, body.end())`: the last one goes to the front. -/
def rotate (body : List Pt) : List Pt := body.drop (body.length - 1) ++ body.take (body.length - 1)

/-- `move_forward` of a body, `example/snake/model.cpp:68-74`. -/
def forwardBody (body : List Pt) (d : Dir) : Option (List Pt) :=
  match body with
  | [] => none
  | p :: ps => some ((rotate (p :: ps)).set 0 (forward p d))

/-- `in_bounds`, `example/snake/model.cpp:76-80`. -/
def inBounds (p : Pt) : Bool := decide (p.1 ≥ 0 ∧ p.1 < width ∧ p.2 ≥ 0 ∧ p.2 < height)

/-- `make_game`, `example/snake/model.cpp:82-93`. -/
def makeGame (next : G → Int × G) (g : G) : Game × G :=
  let head : Pt := (width / 2, height / 2)
  let (apple, g) := randomApple next g
  (⟨[head, (head.1 - 1, head.2), (head.1 - 2, head.2)], .right, apple, false⟩, g)

/-- `make_initial`, `example/snake/model.cpp:97-103`: the generator is copied into the model before it is used to make the
game. -/
def makeInitial (next : G → Int × G) (g : G) : App G := ⟨g, (makeGame next g).1⟩

/-- `update` for `tick`, `example/snake/model.cpp:125-145`. -/
def tick (next : G → Int × G) (m : App G) : Option (App G) :=
  match m.game.body.getLast?, forwardBody m.game.body m.game.dir with
  | some back, some (head :: rest) =>
    if rest.any (· == head) || !inBounds head then some { m with game := { m.game with over := true } }
    else if back = m.game.apple then
      let (apple, gen) := randomApple next m.gen
      some ⟨gen, { m.game with body := head :: rest ++ [back], apple := apple }⟩
    else some { m with game := { m.game with body := head :: rest } }
  | _, _ => none

/-- `update`, `example/snake/model.cpp:105-151`. -/
def update (next : G → Int × G) (m : App G) : Act → Option (App G)
  | .goLeft => some { m with game := { m.game with dir := m.game.dir.goLeft } }
  | .goRight => some { m with game := { m.game with dir := m.game.dir.goRight } }
  | .goUp => some { m with game := { m.game with dir := m.game.dir.goUp } }
  | .goDown => some { m with game := { m.game with dir := m.game.dir.goDown } }
  | .tick => tick next m
  | .reset => let (game, gen) := makeGame next m.gen; some ⟨gen, game⟩

/-- Actions one after another. -/
def run (next : G → Int × G) : App G → List Act → Option (App G)
  | m, [] => some m
  | m, a :: as => (update next m a).bind (run next · as)

/-! ### Lemmas -/

/-- A body goes forward: a new head, and the last one is gone. -/
theorem forwardBody_cons (p : Pt) (ps : List Pt) (d : Dir) :
    forwardBody (p :: ps) d = some (forward p d :: (p :: ps).dropLast) := by
  have hl : ((p :: ps).drop ((p :: ps).length - 1)).length = 1 := by simp
  obtain ⟨x, hx⟩ := List.length_eq_one_iff.1 hl
  simp only [forwardBody, rotate, hx, List.dropLast_eq_take, List.cons_append, List.nil_append, List.set_cons_zero]

theorem run_append (next : G → Int × G) (m : App G) (as bs : List Act) :
    run next m (as ++ bs) = (run next m as).bind (run next · bs) := by
  induction as generalizing m with
  | nil => rfl
  | cons a as ih =>
    simp only [List.cons_append, run]
    cases update next m a with
    | none => rfl
    | some m' => exact ih m'

/-- What a tick does, of a snake that has a head. -/
theorem tick_cons (next : G → Int × G) (m : App G) {p : Pt} {ps : List Pt} (hb : m.game.body = p :: ps) :
    tick next m =
      if forward p m.game.dir ∈ (p :: ps).dropLast ∨ inBounds (forward p m.game.dir) = false then
        some { m with game := { m.game with over := true } }
      else if (p :: ps).getLast (by simp) = m.game.apple then
        some ⟨(randomApple next m.gen).2,
          { m.game with body := forward p m.game.dir :: p :: ps, apple := (randomApple next m.gen).1 }⟩
      else some { m with game := { m.game with body := forward p m.game.dir :: (p :: ps).dropLast } } := by
  have hlast : m.game.body.getLast? = some ((p :: ps).getLast (by simp)) := by
    rw [hb]; exact List.getLast?_eq_some_getLast _
  have hglue : (p :: ps).dropLast ++ [(p :: ps).getLast (by simp)] = p :: ps := List.dropLast_concat_getLast (by simp)
  have hcond : (((p :: ps).dropLast.any (· == forward p m.game.dir) || !inBounds (forward p m.game.dir)) = true) ↔
      (forward p m.game.dir ∈ (p :: ps).dropLast ∨ inBounds (forward p m.game.dir) = false) := by
    simp
  rw [tick, hlast]
  simp only [hb, forwardBody_cons]
  by_cases h1 : forward p m.game.dir ∈ (p :: ps).dropLast ∨ inBounds (forward p m.game.dir) = false
  · rw [if_pos (hcond.2 h1), if_pos h1]
  · rw [if_neg (fun h => h1 (hcond.1 h)), if_neg h1]
    split
    · simp only [List.cons_append, hglue]
    · rfl

end Verif.Snake
