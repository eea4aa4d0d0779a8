/-
Model of lager's lenses: `lager/lenses.hpp`, `lager/lenses/*.hpp`, `lager/lens.hpp`.

A lens of the library is a function that takes `f`, a function from the part to a
functor value, and returns a function from the whole to a functor value.  The
functor value is called with the setter to rebuild the whole: in C++ the "map" of
a functor value `x` with `fn` is written `x(fn)`.  This is the van Laarhoven
encoding, so a lens is modelled as a function polymorphic in the functor.

Simplification: value categories (lvalue/rvalue, moves) are ignored here; they
are the subject of `Verif.LensMove`.
-/

namespace Verif.Lens

/-- A van Laarhoven lens from wholes `S` to parts `A`.  `lager/lenses.hpp:71-96`
(the shape in which `view`, `set` and `over` call a lens). -/
def VL (S A : Type) : Type 1 :=
  ∀ (F : Type → Type) [Functor F], (A → F A) → S → F S

/-- `const_functor`, `lager/lenses.hpp:33-43`: mapping leaves the value alone. -/
structure ConstF (A : Type) (X : Type) where
  value : A

instance (A : Type) : Functor (ConstF A) where
  map _ c := ⟨c.value⟩

/-- `identity_functor`, `lager/lenses.hpp:54-65`: mapping applies the function. -/
structure IdF (X : Type) where
  value : X

instance : Functor IdF where
  map f c := ⟨f c.value⟩

/-- `view`, `lager/lenses.hpp:71-78`. -/
def view {S A : Type} (l : VL S A) (x : S) : A :=
  (l (ConstF A) (fun v => ⟨v⟩) x).value

/-- `set`, `lager/lenses.hpp:80-86`. -/
def set {S A : Type} (l : VL S A) (x : S) (v : A) : S :=
  (l IdF (fun _ => ⟨v⟩) x).value

/-- `over`, `lager/lenses.hpp:88-96`. -/
def over {S A : Type} (l : VL S A) (x : S) (fn : A → A) : S :=
  (l IdF (fun v => ⟨fn v⟩) x).value

/-- `lenses::getset`, `lager/lenses.hpp:105-116`. -/
def getset {S A : Type} (getter : S → A) (setter : S → A → S) : VL S A :=
  fun _ _ f p => (fun x => setter p x) <$> f (getter p)

/-- The identity function used as a lens (`zug::identity`), see
`lager/lenses/tuple.hpp:137-141`. -/
def ident {S : Type} : VL S S := fun _ _ f p => f p

/-- `l1 | l2`, i.e. `zug::comp(l1, l2)`: plain function composition. -/
def comp {S A B : Type} (l1 : VL S A) (l2 : VL A B) : VL S B :=
  fun F _ f => l1 F (l2 F f)

/-- Assigning one field of a struct or tuple.  A C++ struct with fields `ι` is a
dependent function from field names to field values. -/
def assign {ι : Type} [DecidableEq ι] {T : ι → Type} (r : ∀ i, T i) (i : ι) (x : T i) :
    ∀ j, T j :=
  fun j => if h : i = j then h ▸ x else r j

/-- `lenses::attr`, `lager/lenses/attr.hpp:17-29`: `auto r = p; r.*member = x; return r`. -/
def attr {ι : Type} [DecidableEq ι] {T : ι → Type} (m : ι) : VL (∀ i, T i) (T m) :=
  fun _ _ f p => (fun x => assign p m x) <$> f (p m)

/-- `lenses::element<N>`, `lager/lenses/tuple.hpp:116-130`. -/
def element {n : Nat} {T : Fin n → Type} (i : Fin n) : VL (∀ i, T i) (T i) :=
  fun _ _ f whole => (fun part => assign whole i part) <$> f (whole i)

/-- `immer::box<T>`. -/
structure Box (T : Type) where
  get : T

/-- `lenses::unbox`, `lager/lenses/unbox.hpp:17-22`. -/
def unbox {T : Type} : VL (Box T) T :=
  fun _ _ f p => (fun x => Box.mk x) <$> f p.get

/-- How a container stores an element, the three overloads of `at_setter_impl`. -/
inductive Style where
  /-- no `set(key, value)` and no `insert(value)` member: `lager/lenses/at.hpp:56-74`. -/
  | inPlace
  /-- has `set(key, value)`: `lager/lenses/at.hpp:76-94`. -/
  | persistent

/-- What the lenses need of a keyed container: `at` (`none` is the `out_of_range`
exception), assignment through `at`, and for persistent ones `set`.  `store c k x`
is the content after `c.at(k) = x`, or the result of `c.set(k, x)`; both are only
called by the code on present keys. -/
structure Cont (C K X : Type) where
  style : Style
  at? : C → K → Option X
  store : C → K → X → C

/-- `at_setter_impl`, `lager/lenses/at.hpp:56-94`. -/
def atSetter {C K X : Type} (ct : Cont C K X) (whole : C) (part : Option X) (key : K) : C :=
  match ct.style with
  | .inPlace =>
    -- auto r = whole; if (part.has_value()) try { r.at(key) = part.value(); } catch (out_of_range) {}
    match part with
    | none => whole
    | some v =>
      match ct.at? whole key with
      | none => whole
      | some _ => ct.store whole key v
  | .persistent =>
    -- if (part.has_value()) try { whole.at(key); return whole.set(key, value); } catch {}  return whole;
    match part with
    | none => whole
    | some v =>
      match ct.at? whole key with
      | none => whole
      | some _ => ct.store whole key v

/-- `lenses::at`, `lager/lenses/at.hpp:123-140`. -/
def at' {C K X : Type} (ct : Cont C K X) (key : K) : VL C (Option X) :=
  fun _ _ f whole => (fun part => atSetter ct whole part key) <$> f (ct.at? whole key)

/-- `at_setter_impl` for containers with `insert(value)` and no `set(key, value)`
(`immer::table`), `lager/lenses/at.hpp:96-113`: the key is ignored when writing. -/
def atInsert {C K X : Type} (at? : C → K → Option X) (insert : C → X → C) (key : K) :
    VL C (Option X) :=
  fun _ _ f whole =>
    (fun part => match part with
      | some v => insert whole v
      | none => whole) <$> f (at? whole key)

/-- `at_or_setter_impl`, `lager/lenses/at_or.hpp:23-57`. -/
def atOrSetter {C K X : Type} (ct : Cont C K X) (whole : C) (part : X) (key : K) : C :=
  match ct.style with
  | .inPlace =>
    match ct.at? whole key with
    | none => whole
    | some _ => ct.store whole key part
  | .persistent =>
    match ct.at? whole key with
    | none => whole
    | some _ => ct.store whole key part

/-- `lenses::at_or(key, def)`, `lager/lenses/at_or.hpp:86-103` (and `at_or(key)`,
64-81, with the default-constructed value for `dflt`). -/
def atOr {C K X : Type} (ct : Cont C K X) (key : K) (dflt : X) : VL C X :=
  fun _ _ f whole =>
    (fun part => atOrSetter ct whole part key) <$>
      f (match ct.at? whole key with
         | some x => x
         | none => dflt)

/-- `lenses::value_or(t)` (116-125), `value_or()` (130-139) and `or_default` (144)
of `lager/lenses/optional.hpp`.  The C++ setter returns the plain part, which is
converted to the optional whole where it is used; here it is converted at once. -/
def valueOr {T : Type} (t : T) : VL (Option T) T :=
  fun _ _ f whole =>
    (fun x => some x) <$>
      f (match whole with
         | some v => v
         | none => t)

/-- `opt_impl<add_opt>` = `map_opt`, `lager/lenses/optional.hpp:19-46, 89-93`. -/
def mapOpt {W P : Type} (l : VL W P) : VL (Option W) (Option P) :=
  fun _ _ f whole =>
    match whole with
    | some w =>
      (fun part => match part with
        | some p => some (set l w p)
        | none => whole) <$> f (some (view l w))
    | none => (fun _ => whole) <$> f none

/-- `opt_impl<identity>` = `bind_opt`, `lager/lenses/optional.hpp:19-46, 98-102`.
The value handed to the inner `set` is the content of the part, which converts
implicitly to the inner lens' optional part. -/
def bindOpt {W P : Type} (l : VL W (Option P)) : VL (Option W) (Option P) :=
  fun _ _ f whole =>
    match whole with
    | some w =>
      (fun part => match part with
        | some p => some (set l w (some p))
        | none => whole) <$> f (view l w)
    | none => (fun _ => whole) <$> f none

/-- `force_opt`, `lager/lenses/optional.hpp:149-160` (the overload used with an
optional part). -/
def forceOpt {T : Type} : VL T (Option T) :=
  fun _ _ f p =>
    (fun x => match x with
      | some v => v
      | none => p) <$> f (some p)

/-- A `std::variant` with alternatives `T i`. -/
abbrev Variant (ι : Type) (T : ι → Type) := Σ i, T i

/-- `lenses::alternative<T>`, `lager/lenses/variant.hpp:16-40` (lvalue whole). -/
def alternative {ι : Type} [DecidableEq ι] {T : ι → Type} (i : ι) :
    VL (Variant ι T) (Option (T i)) :=
  fun _ _ f p =>
    (fun x => match x with
      | some v => if p.1 = i then ⟨i, v⟩ else p
      | none => p) <$>
      f (if h : p.1 = i then some (h ▸ p.2) else none)

/-- `lenses::zip`, `lager/lenses/tuple.hpp:142-159`, `apply_zip` 33-48, for as many
lenses as the tuple has elements. -/
def zip {n : Nat} {S A : Fin n → Type} (ls : ∀ i, VL (S i) (A i)) :
    VL (∀ i, S i) (∀ i, A i) :=
  fun _ _ f whole =>
    (fun parts => fun i => set (ls i) (whole i) (parts i)) <$>
      f (fun i => view (ls i) (whole i))

/-- `set_fold_iteration`, `lager/lenses/tuple.hpp:59-73`: the first lens is applied
last, to the result of setting the others. -/
def setFold {S : Type} {n : Nat} {A : Fin n → Type} (ls : ∀ i, VL S (A i))
    (whole : S) (parts : ∀ i, A i) : S :=
  Fin.foldr n (fun i acc => set (ls i) acc (parts i)) whole

/-- `lenses::fan`, `lager/lenses/tuple.hpp:167-183` (`dup`, 97-109, copies the whole
once per lens); `attr(m1, ..., mn)`, 191-195, is `fan` of `attr`s. -/
def fan {S : Type} {n : Nat} {A : Fin n → Type} (ls : ∀ i, VL S (A i)) :
    VL S (∀ i, A i) :=
  fun _ _ f whole =>
    (fun parts => setFold ls whole parts) <$> f (fun i => view (ls i) whole)

/-- `lens_i` / `lens_holder`, `lager/lens.hpp:11-35`: the virtual `view` and `set`. -/
structure Holder (S A : Type) where
  view : S → A
  set : S → A → S

/-- `lens_holder`, `lager/lens.hpp:19-35`. -/
def hold {S A : Type} (l : VL S A) : Holder S A :=
  { view := fun w => Lens.view l w, set := fun w p => Lens.set l w p }

/-- `lens::operator()`, `lager/lens.hpp:57-67`. -/
def erased {S A : Type} (h : Holder S A) : VL S A :=
  fun _ _ f p => (fun x => h.set p x) <$> f (h.view p)

/-- Lists as `std::vector`/`std::array` (`inPlace`) or `immer::vector` (`persistent`). -/
def seqCont (X : Type) (style : Style) : Cont (List X) Nat X where
  style := style
  at? l k := l[k]?
  store l k x := l.set k x

/-- Maps as `std::map`/`std::unordered_map` (`inPlace`) or `immer::map` (`persistent`). -/
def mapCont (K X : Type) [DecidableEq K] (style : Style) : Cont (K → Option X) K X where
  style := style
  at? m k := m k
  store m k x := fun j => if j = k then some x else m j

end Verif.Lens
