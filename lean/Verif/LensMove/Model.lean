import Verif.Lens.Model

/-
Lenses applied to a whole that is passed as an rvalue, as zoomed cursors do
(`set(lens_, current_from(parents()), value)` in `lager/detail/lens_nodes.hpp:87-98`
passes a temporary).  Reading a part out of such a whole may move it, and what
stays behind is a moved-from value.
-/

namespace Verif.LensMove

open Verif.Lens (assign Variant VL Box Cont)

/-- What a moved-from object of the type holds: `husk x` is left behind when `x`
is moved.  Trivially copyable types have `husk x = x`; strings and vectors are
left empty by the common implementations. -/
class Husk (T : Type) where
  husk : T → T

export Husk (husk)

/-- A lens with its behaviour on lvalues (`view`, `set`) and on rvalues.

* `rset s a`: the result of `set(l, std::move(s), a)`.
* `rest s r`: what is left of `s` after the lens, applied to `std::move(s)`, has
  evaluated the argument it passes to its continuation, when a continuation that
  receives the part by reference changes it by `r`.
* `tempL`, `tempR`: whether the part is passed to the continuation as an rvalue (a
  temporary, or a reference into a moved-in whole) when the whole is an lvalue, and when
  it is an rvalue.  This is what makes the lens that follows see an lvalue or an rvalue. -/
structure MLens (S A : Type) where
  view : S → A
  set : S → A → S
  rset : S → A → S
  rest : S → (A → A) → S
  tempL : Bool
  tempR : Bool

/-- What is left of the whole after `view(l, std::move(s))`: `const_functor` holds
the part by value, so it is moved out (`lager/lenses.hpp:27-43, 71-78`). -/
def MLens.viewed {S A : Type} [Husk A] (l : MLens S A) (s : S) : S := l.rest s husk

/-- `attr`, `lager/lenses/attr.hpp:17-29`: the part is passed as an rvalue reference into the
whole; the setter moves the whole and overwrites the member.  `element<N>`,
`lager/lenses/tuple.hpp:116-130`, is the same on tuples. -/
def attr {ι : Type} [DecidableEq ι] {T : ι → Type} (m : ι) : MLens (∀ i, T i) (T m) where
  view s := s m
  set s a := assign s m a
  rset s a := assign s m a
  rest s r := assign s m (r (s m))
  tempL := false
  tempR := true

/-- `alternative<T>`, `lager/lenses/variant.hpp:16-40`: the part is a new optional, move-constructed
from `std::get<T>(std::move(p))`; the setter returns the part if there is one, and otherwise
what is left of the whole. -/
def alternative {ι : Type} [DecidableEq ι] {T : ι → Type} [∀ i, Husk (T i)] (i : ι) :
    MLens (Variant ι T) (Option (T i)) where
  view p := if h : p.1 = i then some (h ▸ p.2) else none
  set p x := match x with
    | some v => if p.1 = i then ⟨i, v⟩ else p
    | none => p
  rset p x := match x with
    | some v => if p.1 = i then ⟨i, v⟩ else p
    | none => if p.1 = i then ⟨p.1, husk p.2⟩ else p
  rest p _ := if p.1 = i then ⟨p.1, husk p.2⟩ else p
  tempL := true
  tempR := true

/-- `map_opt(l)`, `lager/lenses/optional.hpp:19-46`: on an engaged rvalue the part is
`view(l, std::move(whole).value())`; the setter is `set(l, std::move(whole).value(), part)` on
what is left, or returns what is left. -/
def mapOpt {W P : Type} [Husk P] (l : MLens W P) : MLens (Option W) (Option P) where
  view w := w.map l.view
  set w q := match w, q with
    | some w, some p => some (l.set w p)
    | w, _ => w
  rset w q := match w, q with
    | some w, some p => some (l.rset (l.viewed w) p)
    | some w, none => some (l.viewed w)
    | none, _ => none
  rest w _ := w.map l.viewed
  tempL := true
  tempR := true

/-- `bind_opt(l)`, `lager/lenses/optional.hpp:19-46`. -/
def bindOpt {W P : Type} [Husk P] (l : MLens W (Option P)) : MLens (Option W) (Option P) where
  view w := w.bind l.view
  set w q := match w, q with
    | some w, some p => some (l.set w (some p))
    | w, _ => w
  rset w q := match w, q with
    | some w, some p => some (l.rset (l.rest w (Option.map husk)) (some p))
    | some w, none => some (l.rest w (Option.map husk))
    | none, _ => none
  rest w _ := w.map (fun w => l.rest w (Option.map husk))
  tempL := true
  tempR := true

/-- `zug::identity` as a lens: the continuation gets the whole itself. -/
def ident {S : Type} : MLens S S where
  view s := s
  set _ a := a
  rset _ a := a
  rest s r := r s
  tempL := false
  tempR := true

/-- `getset(g, p)`, `lager/lenses.hpp:105-116`, for functions that take the whole by value or by
constant reference and return the part by value.  The whole is passed on as an rvalue, so a getter
that takes it by value would consume it: only getters that take a constant reference are
modelled. -/
def getset {S A : Type} (g : S → A) (p : S → A → S) : MLens S A where
  view := g
  set := p
  rset := p
  rest s _ := s
  tempL := true
  tempR := true

/-- `unbox`, `lager/lenses/unbox.hpp:17-22`: `get()` of a box gives a constant reference also
when the box is an rvalue, and the setter makes a new box. -/
def unbox {T : Type} : MLens (Box T) T where
  view p := p.get
  set _ a := ⟨a⟩
  rset _ a := ⟨a⟩
  rest p _ := p
  tempL := false
  tempR := false

/-- `at(key)`, `lager/lenses/at.hpp:123-140`: the part is a new optional.  `at()` of the standard
containers and of those of immer gives a reference to an lvalue also when the container is an
rvalue, so the element is copied; the setter then has the whole intact. -/
def at' {C K X : Type} (ct : Cont C K X) (key : K) : MLens C (Option X) where
  view c := ct.at? c key
  set c q := Lens.atSetter ct c q key
  rset c q := Lens.atSetter ct c q key
  rest c _ := c
  tempL := true
  tempR := true

/-- `at(key)` on containers with `insert(value)`, `lager/lenses/at.hpp:96-113`. -/
def atInsert {C K X : Type} (at? : C → K → Option X) (insert : C → X → C) (key : K) :
    MLens C (Option X) where
  view c := at? c key
  set c q := match q with
    | some v => insert c v
    | none => c
  rset c q := match q with
    | some v => insert c v
    | none => c
  rest c _ := c
  tempL := true
  tempR := true

/-- `at_or(key, d)`, `lager/lenses/at_or.hpp:23-103`: as `at`. -/
def atOr {C K X : Type} (ct : Cont C K X) (key : K) (d : X) : MLens C X where
  view c := match ct.at? c key with
    | some x => x
    | none => d
  set c x := Lens.atOrSetter ct c x key
  rset c x := Lens.atOrSetter ct c x key
  rest c _ := c
  tempL := true
  tempR := true

/-- `value_or(t)`, `lager/lenses/optional.hpp:116-144`: `std::move(whole).value_or(t)` moves the
content out; the setter ignores the whole. -/
def valueOr {T : Type} [Husk T] (t : T) : MLens (Option T) T where
  view w := match w with
    | some v => v
    | none => t
  set _ x := some x
  rset _ x := some x
  rest w _ := w.map husk
  tempL := true
  tempR := true

/-- `force_opt`, `lager/lenses/optional.hpp:149-160`: the whole is moved into an optional, which is
passed on as an rvalue; the setter falls back to what is left in that optional.  The fallback is
only reached when the lenses that follow give `nullopt` back, which those of the library do only
when they have not taken the optional apart; so what is left is the value itself. -/
def forceOpt {T : Type} [Husk T] : MLens T (Option T) where
  view p := some p
  set p x := match x with
    | some v => v
    | none => p
  rset p x := match x with
    | some v => v
    | none => p
  rest p _ := husk p
  tempL := true
  tempR := true

/-- `zip(l0, …)`, `lager/lenses/tuple.hpp:142-159`: the elements of an rvalue tuple are forwarded
as rvalues both to the `view`s, which move the parts into a new tuple, and to the `set`s. -/
def zip {n : Nat} {S A : Fin n → Type} [∀ i, Husk (A i)] (ls : ∀ i, MLens (S i) (A i)) :
    MLens (∀ i, S i) (∀ i, A i) where
  view s := fun i => (ls i).view (s i)
  set s a := fun i => (ls i).set (s i) (a i)
  rset s a := fun i => (ls i).rset ((ls i).viewed (s i)) (a i)
  rest s _ := fun i => (ls i).viewed (s i)
  tempL := true
  tempR := true

/-- `set_fold`, `lager/lenses/tuple.hpp:59-95`: the last lens is applied first, to the whole as it
was given; the others are applied to temporaries. -/
def fold {S : Type} (rv : Bool) : {n : Nat} → {A : Fin n → Type} → (∀ i, MLens S (A i)) →
    S → (∀ i, A i) → S
  | 0, _, _, s, _ => s
  | 1, _, ls, s, a => if rv then (ls 0).rset s (a 0) else (ls 0).set s (a 0)
  | _ + 2, _, ls, s, a =>
    (ls 0).rset (fold rv (fun i => ls i.succ) s (fun i => a i.succ)) (a 0)

/-- `fan(l0, …)`, `lager/lenses/tuple.hpp:167-183`: `dup` (97-109) takes the whole by constant
reference, so the parts are copied. -/
def fan {S : Type} {n : Nat} {A : Fin n → Type} (ls : ∀ i, MLens S (A i)) :
    MLens S (∀ i, A i) where
  view s := fun i => (ls i).view s
  set s a := fold false ls s a
  rset s a := fold true ls s a
  rest s _ := s
  tempL := true
  tempR := true

/-- A lens behind `lens<Whole, Part>`, `lager/lens.hpp:11-67`: `view` and `set` of the holder take
the whole by constant reference. -/
def erased {S A : Type} (l : MLens S A) : MLens S A where
  view := l.view
  set := l.set
  rset := l.set
  rest s _ := s
  tempL := true
  tempR := true

/-- `l | m`: the part of `l` is the whole of `m`, as an lvalue or as an rvalue. -/
def comp {S A B : Type} (l : MLens S A) (m : MLens A B) : MLens S B where
  view s := m.view (l.view s)
  set s b := l.set s (if l.tempL then m.rset (l.view s) b else m.set (l.view s) b)
  rset s b := l.rset s (if l.tempR then m.rset (l.view s) b else m.set (l.view s) b)
  rest s r := l.rest s (fun a => m.rest a r)
  tempL := if l.tempL then m.tempR else m.tempL
  tempR := if l.tempR then m.tempR else m.tempL

/-- A string-like type: moving leaves the empty string. -/
instance : Husk String := ⟨fun _ => ""⟩
/-- A trivially copyable type. -/
instance : Husk Nat := ⟨id⟩
/-- A moved-from struct is the struct of its moved-from members. -/
instance {ι : Type} {T : ι → Type} [∀ i, Husk (T i)] : Husk (∀ i, T i) := ⟨fun s i => husk (s i)⟩
/-- A moved-from optional still has a value, a moved-from one. -/
instance {T : Type} [Husk T] : Husk (Option T) := ⟨Option.map husk⟩

/-- A lens as a user writes it. -/
inductive Expr : Type → Type → Type 1 where
  | ident {S : Type} : Expr S S
  | attr {ι : Type} [DecidableEq ι] {T : ι → Type} (m : ι) : Expr (∀ i, T i) (T m)
  | getset {S A : Type} (g : S → A) (p : S → A → S) : Expr S A
  | unbox {T : Type} : Expr (Box T) T
  | at' {C K X : Type} (ct : Cont C K X) (key : K) : Expr C (Option X)
  | atInsert {C K X : Type} (at? : C → K → Option X) (insert : C → X → C) (key : K) :
      Expr C (Option X)
  | atOr {C K X : Type} (ct : Cont C K X) (key : K) (d : X) : Expr C X
  | valueOr {T : Type} [Husk T] (t : T) : Expr (Option T) T
  | forceOpt {T : Type} [Husk T] : Expr T (Option T)
  | alternative {ι : Type} [DecidableEq ι] {T : ι → Type} [∀ i, Husk (T i)] (i : ι) :
      Expr (Variant ι T) (Option (T i))
  | mapOpt {W P : Type} [Husk P] (e : Expr W P) : Expr (Option W) (Option P)
  | bindOpt {W P : Type} [Husk P] (e : Expr W (Option P)) : Expr (Option W) (Option P)
  | zip {n : Nat} {S A : Fin n → Type} [∀ i, Husk (A i)] (es : ∀ i, Expr (S i) (A i)) :
      Expr (∀ i, S i) (∀ i, A i)
  | fan {S : Type} {n : Nat} {A : Fin n → Type} (es : ∀ i, Expr S (A i)) : Expr S (∀ i, A i)
  | erased {S A : Type} (e : Expr S A) : Expr S A
  | comp {S A B : Type} (e : Expr S A) (e' : Expr A B) : Expr S B

/-- The lens of `Verif.Lens` that an expression denotes: no moves. -/
def Expr.pure : {S A : Type} → Expr S A → VL S A
  | _, _, .ident => Lens.ident
  | _, _, @Expr.attr _ _ _ m => Lens.attr m
  | _, _, .getset g p => Lens.getset g p
  | _, _, .unbox => Lens.unbox
  | _, _, .at' ct key => Lens.at' ct key
  | _, _, .atInsert at? insert key => Lens.atInsert at? insert key
  | _, _, .atOr ct key d => Lens.atOr ct key d
  | _, _, @Expr.valueOr _ _ t => Lens.valueOr t
  | _, _, @Expr.forceOpt _ _ => Lens.forceOpt
  | _, _, @Expr.alternative _ _ _ _ i => Lens.alternative i
  | _, _, @Expr.mapOpt _ _ _ e => Lens.mapOpt e.pure
  | _, _, @Expr.bindOpt _ _ _ e => Lens.bindOpt e.pure
  | _, _, @Expr.zip _ _ _ _ es => Lens.zip (fun i => (es i).pure)
  | _, _, .fan es => Lens.fan (fun i => (es i).pure)
  | _, _, .erased e => Lens.erased (Lens.hold e.pure)
  | _, _, .comp e e' => Lens.comp e.pure e'.pure

/-- The same expression with value categories and moves. -/
def Expr.move : {S A : Type} → Expr S A → MLens S A
  | _, _, .ident => LensMove.ident
  | _, _, @Expr.attr _ _ _ m => LensMove.attr m
  | _, _, .getset g p => LensMove.getset g p
  | _, _, .unbox => LensMove.unbox
  | _, _, .at' ct key => LensMove.at' ct key
  | _, _, .atInsert at? insert key => LensMove.atInsert at? insert key
  | _, _, .atOr ct key d => LensMove.atOr ct key d
  | _, _, @Expr.valueOr _ _ t => LensMove.valueOr t
  | _, _, @Expr.forceOpt _ _ => LensMove.forceOpt
  | _, _, @Expr.alternative _ _ _ _ i => LensMove.alternative i
  | _, _, @Expr.mapOpt _ _ _ e => LensMove.mapOpt e.move
  | _, _, @Expr.bindOpt _ _ _ e => LensMove.bindOpt e.move
  | _, _, @Expr.zip _ _ _ _ es => LensMove.zip (fun i => (es i).move)
  | _, _, .fan es => LensMove.fan (fun i => (es i).move)
  | _, _, .erased e => LensMove.erased e.move
  | _, _, .comp e e' => LensMove.comp e.move e'.move

end Verif.LensMove
