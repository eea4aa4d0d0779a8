/-!
Frames of the SDL loop: `constant_fps_step` in `event_loop/sdl.hpp:41-72`, which `run(handler, tick)` calls before each
`tick`, and the time that the variant for Emscripten gives to `tick`.

Time is in milliseconds.  What is assumed of SDL: `SDL_GetTicks()` never goes back, and `SDL_Delay(d)` takes `d`
milliseconds or more.

Simplifications: numbers are exact, where the program computes with `float`; times do not wrap around, as they do
after seven weeks.  A time in units of `1 / rate` milliseconds is a natural number, so that one frame takes
`1000` of them; what `tick` gets is in units of `1 / minRate` milliseconds.
-/

namespace Verif.Loop.Fps

/-- The arguments of the constructor, `sdl.hpp:51-55`. -/
structure Cfg where
  rate : Nat
  minRate : Nat

/-- What is remembered, `sdl.hpp:47-49`. -/
structure Fps where
  ticks : Nat
  last : Nat
  count : Nat
deriving DecidableEq

/-- The target, `sdl.hpp:61`, in units of `1 / rate`. -/
def Fps.target (c : Cfg) (s : Fps) : Nat := s.last * c.rate + 1000 * s.count

/-- A call, as it is observed. -/
structure Frame where
  /-- when it was made -/
  cur : Nat
  /-- whether it was made after the target -/
  late : Bool
  /-- the argument of `SDL_Delay` -/
  delay : Nat
  /-- what the call takes beyond that -/
  over : Nat
  /-- when it returns -/
  ret : Nat
  /-- what it returns, in units of `1 / minRate` -/
  delta : Nat
deriving DecidableEq

/-- The call, `sdl.hpp:57-71`, at time `cur`.  The other call of `SDL_GetTicks()`, if it is made, returns `a` more, and
`SDL_Delay` and the rest take `b` more than they should. -/
def Fps.call (c : Cfg) (s : Fps) (cur a b : Nat) : Fps × Frame :=
  let delta := min ((cur - s.ticks) * c.minRate) 1000
  if cur * c.rate ≤ s.target c then
    let d := (s.target c - cur * c.rate) / c.rate
    ({ s with ticks := cur, count := s.count + 1 }, ⟨cur, false, d, b, cur + d + b, delta⟩)
  else
    (⟨cur, cur + a, 1⟩, ⟨cur, true, 0, a + b, cur + a + b, delta⟩)

/-- The frames so far, and the clock. -/
structure St where
  fps : Fps
  now : Nat
  log : List Frame
deriving DecidableEq

/-- The loop begins at time `t`, `sdl.hpp:145`. -/
def start (t : Nat) : St := ⟨⟨t, 0, 0⟩, t, []⟩

/-- What happens. -/
inductive Op where
  /-- time passes, in handlers and `tick` -/
  | pass (d : Nat)
  | frame (a b : Nat)
deriving DecidableEq

/-- One step. -/
def step (c : Cfg) (s : St) : Op → St
  | .pass d => { s with now := s.now + d }
  | .frame a b =>
    let r := s.fps.call c s.now a b
    ⟨r.1, r.2.ret, s.log ++ [r.2]⟩

/-- What can happen in a loop that began at time `t`. -/
inductive Reach (c : Cfg) (t : Nat) : St → Prop where
  | start : Reach c t (start t)
  | step {s : St} (op : Op) : Reach c t s → Reach c t (step c s op)

/-! ## Emscripten -/

/-- `step()` for Emscripten, `sdl.hpp:85-102`: it begins at time `b`, and the events have been handled at time `e`.  `last`
is `last_ticks` before it.  The new `last_ticks`, and what `tick` gets. -/
def emStep (_last b e : Nat) : Nat × Nat :=
  let last := b
  let ticks := e
  (ticks, ticks - last)

/-- What `tick` gets in a sequence of steps. -/
def emRun : Nat → List (Nat × Nat) → List Nat
  | _, [] => []
  | last, (b, e) :: l => (emStep last b e).2 :: emRun (emStep last b e).1 l

end Verif.Loop.Fps
