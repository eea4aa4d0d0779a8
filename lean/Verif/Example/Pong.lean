/-!
The examples `autopong`, `example/autopong/autopong.hpp` and `example/autopong/autopong.cpp`, and `counter`,
`example/counter/counter.hpp`.
-/

namespace Verif.Pong

/-- The operations on `float` that are used.  Comparisons are all that is assumed something about, see `Floats.ok`. -/
structure Floats (F : Type) where
  lt : F → F → Bool
  add : F → F → F
  sub : F → F → F
  mul : F → F → F
  neg : F → F
  /-- literals, and what follows from the constants in `example/autopong/autopong.hpp:29-44` -/
  zero : F
  one : F
  /-- `(float) window_width - paddle_width` -/
  right : F
  paddleSens : F
  deathSpeed : F
  bounceSpeed : F
  ballA : F
  initVx : F
  initVy : F
  /-- the paddle in the middle -/
  middle : F

/-- What is assumed: `<` is asymmetric (with infinities and NaN, too); the signs of the constants, and of `-x` and `x * 1.1f`. -/
structure Floats.ok {F : Type} (f : Floats F) : Prop where
  asymm : ∀ x y, f.lt x y = true → f.lt y x = false
  right : f.lt f.zero f.right = true
  one : f.lt f.zero f.one = true
  middle : f.lt f.zero f.middle = true ∧ f.lt f.middle f.right = true
  neg : ∀ x, f.lt f.zero x = true → f.lt (f.neg x) f.zero = true
  grow : ∀ x, f.lt x f.zero = true → f.lt (f.mul x f.ballA) f.zero = true

variable {F : Type}

/-- `std::max(a, b)` is `(a < b) ? b : a`, `std::min(a, b)` is `(b < a) ? b : a`. -/
def Floats.max (f : Floats F) (a b : F) : F := if f.lt a b then b else a
/-- `std::min(a, b)` is `(b < a) ? b : a`. -/
def Floats.min (f : Floats F) (a b : F) : F := if f.lt b a then b else a

/-- `model`, `example/autopong/autopong.hpp:46-55`. -/
structure Model (F : Type) where
  score : Nat
  maxScore : Nat
  ball : F × F
  ballV : F × F
  paddle : F
  death : F
  bounce : F

/-- `action`, `example/autopong/autopong.hpp:57-67`; with a tick, the place where the ball starts again, which is made with
`std::rand`. -/
inductive Act (F : Type) where
  | move (delta : F)
  | tick (delta : F) (start : F × F)

/-- What the positions are compared with: is the ball beyond the wall on the left, on the right, at the top; does it meet the
paddle, on its way from one position to the other (`segment_squared_distance`); is it below the window?  Any functions. -/
structure Walls (F : Type) where
  left : F × F → Bool
  right : F × F → Bool
  top : F × F → Bool
  paddle : F × F → F × F → F → Bool
  below : F × F → Bool

/-- What happened in a tick. -/
inductive Out where
  | hit
  | lost
  | fly
deriving DecidableEq

/-- The velocity after the walls, `example/autopong/autopong.cpp:91-96`. -/
def bounceWalls (f : Floats F) (w : Walls F) (v ball : F × F) : F × F :=
  let vx := if (f.lt v.1 f.zero && w.left ball) || (f.lt f.zero v.1 && w.right ball) then f.neg v.1 else v.1
  let vy := if f.lt v.2 f.zero && w.top ball then f.neg v.2 else v.2
  (vx, vy)

/-- `update` for `tick_action`, `example/autopong/autopong.cpp:85-124`. -/
def tick (f : Floats F) (w : Walls F) (g : Model F) (delta : F) (start : F × F) : Model F × Out :=
  let ball := (f.add g.ball.1 (f.mul g.ballV.1 delta), f.add g.ball.2 (f.mul g.ballV.2 delta))
  let g := { g with
    death := f.max f.zero (f.sub g.death (f.mul delta f.deathSpeed))
    bounce := f.max f.zero (f.sub g.bounce (f.mul delta f.bounceSpeed))
    ballV := bounceWalls f w g.ballV ball }
  if f.lt f.zero g.ballV.2 && w.paddle g.ball ball g.paddle then
    ({ g with
      ballV := (f.mul g.ballV.1 f.ballA, f.mul (f.neg g.ballV.2) f.ballA)
      score := g.score + 1
      bounce := f.one }, .hit)
  else if f.lt f.zero g.ballV.2 && w.below ball then
    ({ g with
      maxScore := Nat.max g.maxScore g.score
      score := 0
      ballV := (f.initVx, f.initVy)
      ball := start
      death := f.one }, .lost)
  else ({ g with ball := ball }, .fly)

/-- `update` for `paddle_move_action`, `example/autopong/autopong.cpp:78-84`. -/
def move (f : Floats F) (g : Model F) (delta : F) : Model F :=
  { g with paddle := f.max f.zero (f.min f.right (f.add g.paddle (f.mul delta f.paddleSens))) }

/-- `update`, `example/autopong/autopong.cpp:74-127`, with what happened. -/
def update (f : Floats F) (w : Walls F) (g : Model F) : Act F → Model F × List Out
  | .move d => (move f g d, [])
  | .tick d s => let (g, o) := tick f w g d s; (g, [o])

/-- Actions one after another, with what happened. -/
def run (f : Floats F) (w : Walls F) : Model F → List (Act F) → Model F × List Out
  | g, [] => (g, [])
  | g, a :: as =>
    let (g, os) := update f w g a
    let (g, ps) := run f w g as
    (g, os ++ ps)

/-- A new game, `example/autopong/autopong.hpp:46-55`. -/
def new (f : Floats F) (start : F × F) : Model F :=
  ⟨0, 0, start, (f.initVx, f.initVy), f.middle, f.zero, f.zero⟩

end Verif.Pong

namespace Verif.Counter

/-- `action`, `example/counter/counter.hpp:26-35`. -/
inductive Act where
  | increment
  | decrement
  | reset (n : Int)
deriving DecidableEq

/-- A number that fits into an `int`. -/
def isInt (n : Int) : Bool := decide (-2147483648 ≤ n ∧ n ≤ 2147483647)

/-- Overflow of `int` is undefined behaviour: `none`. -/
def toInt (n : Int) : Option Int := if isInt n then some n else none

/-- `update`, `example/counter/counter.hpp:37-45`. -/
def update (c : Int) : Act → Option Int
  | .increment => toInt (c + 1)
  | .decrement => toInt (c - 1)
  | .reset n => some n

/-- Several actions, one after the other. -/
def run : Int → List Act → Option Int
  | c, [] => some c
  | c, a :: as => (update c a).bind (run · as)

end Verif.Counter
