import Verif.LensMove.Model

/-
Model of subscripts of readers and cursors, `cursor[k1][k2]...`: `lager/detail/smart_lens.hpp`
and the `operator[]` of `lager/with.hpp`, `lager/reader.hpp` and `lager/writer.hpp`.

Which lens a subscript stands for depends on the type of the value, so there is a small universe
of types here.  The lenses are expressions of `LensMove`: cursors pass the whole as a temporary
(`set(lens_, current_from(parents()), value)`, `lager/detail/lens_nodes.hpp:87-98`), so it matters
what is moved.
-/

namespace Verif.Smart

open Verif.Lens (Style seqCont mapCont)
open Verif.LensMove (Expr Husk husk)

/-- Types of values: numbers and text (which have neither members nor `at`), structs, sequences and maps
(`std::` or `immer::`, see `Style`), and `std::optional`.  Simplification: keys of maps are natural
numbers. -/
inductive Ty where
  | num
  | text
  | struct (n : Nat) (fields : Fin n → Ty)
  | seq (style : Style) (elem : Ty)
  | map (style : Style) (elem : Ty)
  | opt (t : Ty)

/-- The values of a type. -/
def Ty.den : Ty → Type
  | .num => Nat
  | .text => String
  | .struct _ fs => ∀ i, (fs i).den
  | .seq _ t => List t.den
  | .map _ t => Nat → Option t.den
  | .opt t => Option t.den

/-- What moving leaves behind: numbers stay, text and containers become empty, structs and optionals
are moved member by member (as in `LensMove`). -/
def Ty.husk : (t : Ty) → t.den → t.den
  | .num, v => v
  | .text, _ => ""
  | .struct _ fs, v => fun i => (fs i).husk ((v : ∀ i, (fs i).den) i)
  | .seq _ t, _ => ([] : List t.den)
  | .map _ t, _ => (fun _ => none : Nat → Option t.den)
  | .opt t, v => (v : Option t.den).map t.husk

instance (t : Ty) : Husk t.den := ⟨t.husk⟩

/-- A lens on values of type `t`, with the type of its part. -/
structure Typed (t : Ty) : Type 1 where
  part : Ty
  lens : Expr t.den part.den

/-- What can be between the brackets: a key or index, a pointer to a member (number `i` of the
struct), or a lens.  A lens is a generic function object; it is given by the types of wholes it can
be called with, and what it is there. -/
inductive Key : Type 1 where
  | at (k : Nat)
  | member (i : Nat)
  | lens (l : (t : Ty) → Option (Typed t))

/-- `lenses::with_opt`, `lager/lenses/optional.hpp:104-111`: `opt_impl<to_opt>`, lines 19-46, where
the type of the part is the optional of the part of the lens, unless that is optional already
(`to_opt`, 61-65). -/
def withOpt {W : Type} : (a : Ty) → Expr W a.den → Σ b : Ty, Expr (Option W) b.den
  | .opt c, l => ⟨.opt c, .bindOpt l⟩
  | .num, l => ⟨.opt .num, .mapOpt (P := Ty.num.den) l⟩
  | .text, l => ⟨.opt .text, .mapOpt (P := Ty.text.den) l⟩
  | .struct n fs, l => ⟨.opt (.struct n fs), .mapOpt (P := (Ty.struct n fs).den) l⟩
  | .seq s t, l => ⟨.opt (.seq s t), .mapOpt (P := (Ty.seq s t).den) l⟩
  | .map s t, l => ⟨.opt (.map s t), .mapOpt (P := (Ty.map s t).den) l⟩

/-- `with_opt` of a lens with the type of its part. -/
def Typed.lift {t : Ty} (l : Typed t) : Typed (.opt t) :=
  let r := withOpt l.part l.lens
  ⟨r.1, r.2⟩

/-- `smart_lens<T>::make`, `lager/detail/smart_lens.hpp:29-80`; `none` if it does not compile.

For types other than optionals (29-50): a pointer to a member is `attr`, something that `T::at` takes
is `at`, anything else is taken as a lens.  For optionals (67-80): a lens that can be called with
the optional itself is left alone, everything else is made into a lens for the content and lifted
with `with_opt`.

Simplification: lines 74 and 33 test whether an expression compiles; some lenses of the library fail
in their body instead, which is an error of the whole program. -/
def smart : (t : Ty) → Key → Option (Typed t)
  | .opt t, k =>
    match k with
    | .lens l => (l (.opt t)).orElse fun _ => (smart t (.lens l)).map Typed.lift
    | .at i => (smart t (.at i)).map Typed.lift
    | .member i => (smart t (.member i)).map Typed.lift
  | .seq s t, k =>
    match k with
    | .at i => some ⟨.opt t, Expr.at' (seqCont t.den s) i⟩
    | .member _ => none
    | .lens l => l (.seq s t)
  | .map s t, k =>
    match k with
    | .at i => some ⟨.opt t, Expr.at' (mapCont Nat t.den s) i⟩
    | .member _ => none
    | .lens l => l (.map s t)
  | .struct n fs, k =>
    match k with
    | .member i => if h : i < n then some ⟨fs ⟨i, h⟩, Expr.attr (T := fun j => (fs j).den) ⟨i, h⟩⟩ else none
    | .at _ => none
    | .lens l => l (.struct n fs)
  | .num, k =>
    match k with
    | .lens l => l .num
    | .at _ => none
    | .member _ => none
  | .text, k =>
    match k with
    | .lens l => l .text
    | .at _ => none
    | .member _ => none

/-- `expr[k]` for an expression that has the lens `l` already: `operator[]`,
`lager/with.hpp:166-173`, makes the lens for the type of value the expression shows and zooms, which
composes the lenses (`with_lens_expr::zoom`, `lager/with.hpp:441-447`). -/
def Typed.sub {t : Ty} (l : Typed t) (k : Key) : Option (Typed t) :=
  (smart l.part k).map fun m => ⟨m.part, .comp l.lens m.lens⟩

/-- `cursor[k1]...[kn]`: the lens of the expression, `lager/reader.hpp:39-43`,
`lager/writer.hpp:43-47`. -/
def chain (t : Ty) (ks : List Key) : Option (Typed t) :=
  ks.foldlM Typed.sub ⟨t, .ident⟩

end Verif.Smart
