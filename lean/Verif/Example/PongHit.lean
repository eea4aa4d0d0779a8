import Verif.Example.Pong
import Mathlib.Algebra.Order.Field.Basic
import Mathlib.Tactic.Linarith
import Mathlib.Tactic.Ring
import Mathlib.Tactic.FieldSimp
import Mathlib.Tactic.Positivity
import Mathlib.Tactic.NormNum

/-!
Collisions in `example/autopong`, with exact arithmetic in an ordered field instead of `float`.
-/

namespace Verif.Pong

variable {K : Type} [Field K] [LinearOrder K] [IsStrictOrderedRing K]

/-- `point`, `example/autopong/autopong.hpp:21`: `std::complex<float>`. -/
abbrev Pt (K : Type) := K × K

/-- `a - b` of complex numbers. -/
def psub (a b : Pt K) : Pt K := (a.1 - b.1, a.2 - b.2)

/-- `dot`, `example/autopong/autopong.hpp:27`: the real part of `conj(a) * b`. -/
def dot (a b : Pt K) : K := a.1 * b.1 + a.2 * b.2

/-- The numerators and denominators `sN`, `sD`, `tN`, `tD` after the first part,
`example/autopong/autopong.cpp:27-47`. -/
def firstPart (ε a b c d e : K) : K × K × K × K :=
  let D := a * c - b * b
  if D < ε then (0, 1, e, c)
  else
    let sN := b * e - c * d
    let tN := a * e - b * d
    if sN < 0 then (0, D, e, c)
    else if sN > D then (D, D, e + b, c)
    else (sN, D, tN, D)

/-- They after the second part, `example/autopong/autopong.cpp:48-68`. -/
def secondPart (a b d : K) : K × K × K × K → K × K × K × K
  | (sN, sD, tN, tD) =>
    if tN < 0 then
      if -d < 0 then (0, sD, 0, tD)
      else if -d > a then (sD, sD, 0, tD)
      else (-d, a, 0, tD)
    else if tN > tD then
      if -d + b < 0 then (0, sD, tD, tD)
      else if -d + b > a then (sD, sD, tD, tD)
      else (-d + b, a, tD, tD)
    else (sN, sD, tN, tD)

/-- `std::abs(n) < epsilon ? 0.0 : n / d`, `example/autopong/autopong.cpp:69-70`. -/
def quot (ε n d : K) : K := if |n| < ε then 0 else n / d

/-- `segment_squared_distance`, `example/autopong/autopong.cpp:19-73`, with any `epsilon`. -/
def segDist (ε : K) (p1 p2 q1 q2 : Pt K) : K :=
  let u := psub p2 p1
  let v := psub q2 q1
  let w := psub p1 q1
  let a := dot u u
  let b := dot u v
  let c := dot v v
  let d := dot u w
  let e := dot v w
  let r := secondPart a b d (firstPart ε a b c d e)
  let sc := quot ε r.1 r.2.1
  let tc := quot ε r.2.2.1 r.2.2.2
  let dP := psub (w.1 + u.1 * sc, w.2 + u.2 * sc) (v.1 * tc, v.2 * tc)
  dot dP dP

/-- The constants, `example/autopong/autopong.hpp:29-44`. -/
def exactFloats (K : Type) [Field K] [LinearOrder K] : Floats K where
  lt x y := decide (x < y)
  add := (· + ·)
  sub := (· - ·)
  mul := (· * ·)
  neg := (- ·)
  zero := 0
  one := 1
  right := 800 - 100
  paddleSens := 1 / 2
  deathSpeed := 1 / 1000
  bounceSpeed := 2 / 1000
  ballA := 11 / 10
  initVx := 2 / 10
  initVy := 2 / 10
  middle := 800 / 2 - 100 / 2

/-- The comparisons of positions, `example/autopong/autopong.cpp:91-95, 98-105, 110-111`. -/
def exactWalls (ε : K) : Walls K where
  left b := decide (b.1 - 4 ≤ 20)
  right b := decide (b.1 + 4 ≥ 800 - 20)
  top b := decide (b.2 - 4 ≤ 20)
  paddle b b' p := decide (4 * 4 > segDist ε b b' (p - 4, 600 - 2 * 20 - 10) (p + 100 + 4, 600 - 2 * 20 - 10))
  below b := decide (b.2 - 4 ≥ 600 - 20)

end Verif.Pong
