import Verif.LensMove.Model

/-
The dynamic lenses of `doc/lenses.rst:408-497`: lenses into a recursive type, made in a loop with type erasure
(`lager/lens.hpp:11-67`).  The loops count an `int` down; here the index is an unbounded integer (the decrement of the
least `int` is left out).
-/

namespace Verif.Doc

open Verif.Lens (VL Box)
open Verif.LensMove (MLens Husk husk)

/-- `Tail`, `doc/lenses.rst:421-424`. -/
inductive Tail where
  | mk (position : Int) (tail : Option (Box Tail))

/-- `Tail::position`, `doc/lenses.rst:422`. -/
def Tail.position : Tail → Int
  | .mk p _ => p

/-- `Tail::tail`, `doc/lenses.rst:423`. -/
def Tail.tail : Tail → Option (Box Tail)
  | .mk _ t => t

/-- `attr(&Tail::position)`, `doc/lenses.rst:427`, `lager/lenses/attr.hpp:17-29`: the member is read, and in a copy of
the whole it is assigned. -/
def positionAttr : VL Tail Int := Lens.getset Tail.position fun t p => .mk p t.tail

/-- `attr(&Tail::tail)`, `doc/lenses.rst:426`, `lager/lenses/attr.hpp:17-29`. -/
def tailAttr : VL Tail (Option (Box Tail)) := Lens.getset Tail.tail fun t b => .mk t.position b

/-- `tail`, `doc/lenses.rst:426`: `attr(&Tail::tail) | value_or() | unbox`; the default of `value_or()` is a box with a
default constructed `Tail` (`lager/lenses/optional.hpp:130-139`). -/
def tailLens : VL Tail Tail := Lens.comp tailAttr (Lens.comp (Lens.valueOr ⟨.mk 0 none⟩) Lens.unbox)

/-- `lens<Whole, Part>` made from a lens, `lager/lens.hpp:11-67`. -/
def erase {S A : Type} (l : VL S A) : VL S A := Lens.erased (Lens.hold l)

/-- The loop of the first `tail_position_at`, `doc/lenses.rst:457-463`, after as many rounds as given. -/
def tailPositions : Nat → VL Tail Int
  | 0 => erase positionAttr
  | n + 1 => erase (Lens.comp tailLens (tailPositions n))

/-- The first `tail_position_at`, `doc/lenses.rst:457-463`: the loop is left when the index is not positive. -/
def tailPositionAt (index : Int) : VL Tail Int := tailPositions index.toNat

/-- `tail`, `doc/lenses.rst:484`: `attr(&Tail::tail) | map_opt(unbox)`. -/
def tailOptLens : VL Tail (Option Tail) := Lens.comp tailAttr (Lens.mapOpt Lens.unbox)

/-- The loop of the second `tail_position_at`, `doc/lenses.rst:487-493`; `position` is
`attr(&Tail::position) | force_opt`, line 485. -/
def tailPositionsOpt : Nat → VL Tail (Option Int)
  | 0 => erase (Lens.comp positionAttr Lens.forceOpt)
  | n + 1 => erase (Lens.comp tailOptLens (Lens.bindOpt (tailPositionsOpt n)))

/-- The second `tail_position_at`, `doc/lenses.rst:487-493`. -/
def tailPositionAtOpt (index : Int) : VL Tail (Option Int) := tailPositionsOpt index.toNat

/-! The same lenses with what they do to wholes that are moved in. -/

/-- A moved-from number is unchanged. -/
instance : Husk Int := ⟨id⟩

/-- A moved-from `immer::box` holds nothing; here it holds some given node, as it is not read any more. -/
instance : Husk (Box Tail) := ⟨fun _ => ⟨.mk 0 none⟩⟩

/-- `attr(&Tail::position)` on lvalues and rvalues, `lager/lenses/attr.hpp:17-29`. -/
def positionAttrM : MLens Tail Int where
  view := Tail.position
  set t p := .mk p t.tail
  rset t p := .mk p t.tail
  rest t r := .mk (r t.position) t.tail
  tempL := false
  tempR := true

/-- `attr(&Tail::tail)` on lvalues and rvalues, `lager/lenses/attr.hpp:17-29`. -/
def tailAttrM : MLens Tail (Option (Box Tail)) where
  view := Tail.tail
  set t b := .mk t.position b
  rset t b := .mk t.position b
  rest t r := .mk t.position (r t.tail)
  tempL := false
  tempR := true

/-- What is left of a moved-from node. -/
instance : Husk Tail := ⟨fun t => .mk t.position (t.tail.map husk)⟩

/-- The first `tail_position_at` with moves, `doc/lenses.rst:457-463`. -/
def tailPositionsM : Nat → MLens Tail Int
  | 0 => LensMove.erased positionAttrM
  | n + 1 => LensMove.erased (LensMove.comp
      (LensMove.comp tailAttrM (LensMove.comp (LensMove.valueOr ⟨.mk 0 none⟩) LensMove.unbox)) (tailPositionsM n))

/-- The second `tail_position_at` with moves, `doc/lenses.rst:487-493`. -/
def tailPositionsOptM : Nat → MLens Tail (Option Int)
  | 0 => LensMove.erased (LensMove.comp positionAttrM LensMove.forceOpt)
  | n + 1 => LensMove.erased (LensMove.comp
      (LensMove.comp tailAttrM (LensMove.mapOpt LensMove.unbox)) (LensMove.bindOpt (tailPositionsOptM n)))

end Verif.Doc
