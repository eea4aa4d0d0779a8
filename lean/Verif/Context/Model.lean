/-!
Contexts, `context.hpp`: dispatchers and their conversions, and merged lists of actions.

The types of C++ are an arbitrary `Ty`, whose values are `Val`; `conv x y` is the implicit conversion from
`x` to `y` if there is one (`std::is_convertible`).  The conversion of a type to itself is the identity.
What calling a function does is an arbitrary `R`, as functions from states to states and futures.

Not modelled: the dependencies of contexts, which have a model of their own, null functions, and the ranking of
implicit conversions in overload resolution: calls are with the exact type, or there is only one candidate.
-/

namespace Verif.Context

/-- The types of a program. -/
structure World where
  Ty : Type
  Val : Ty → Type
  eq : DecidableEq Ty
  conv : ∀ x y : Ty, Option (Val x → Val y)
  conv_refl : ∀ x, conv x x = some id

instance (W : World) : DecidableEq W.Ty := W.eq

variable {W : World} {R : Type}

/-- `std::function<future(Action)>` for some action. -/
abbrev Fn (W : World) (R : Type) := Σ t : W.Ty, W.Val t → R

/-- `dispatcher<actions<...>>`, `context.hpp:152-153`: one function for each action. -/
abbrev Dispatcher (W : World) (R : Type) := List (Fn W R)

/-- The actions of a dispatcher. -/
def types (d : Dispatcher W R) : List W.Ty := d.map (·.1)

/-- `find_convertible_action_aux`, `context.hpp:72-84`, and the conversion of the function that it finds, which
takes `x` instead: the first candidate that `x` converts to. -/
def find (x : W.Ty) : Dispatcher W R → Option (W.Val x → R)
  | [] => none
  | ⟨t, fn⟩ :: d =>
    match W.conv x t with
    | some c => some (fun v => fn (c v))
    | none => find x d

/-- `f` for each element; `none` is a program that does not compile. -/
def each {α β : Type} (f : α → Option β) : List α → Option (List β)
  | [] => some []
  | x :: l => (f x).bind fun y => (each f l).map (y :: ·)

/-- The conversion of dispatchers, `context.hpp:159-163`.  Between equal types it is not used, but the implicit copy
constructor. -/
def convert (as : List W.Ty) (d : Dispatcher W R) : Option (Dispatcher W R) :=
  if as = types d then some d else each (fun x => (find x d).map fun fn => ⟨x, fn⟩) as

/-- A converter: for the types that it accepts, the type of its result and the function. -/
abbrev Converter (W : World) := ∀ x : W.Ty, Option (Σ y : W.Ty, W.Val x → W.Val y)

/-- `dispatcher_fn_aux` and the constructor with a converter, `context.hpp:170-185`. -/
def convertWith (k : Converter W) (as : List W.Ty) (d : Dispatcher W R) : Option (Dispatcher W R) :=
  each (fun x => (k x).bind fun y => (find y.1 d).map fun fn => ⟨x, fun v => fn (y.2 v)⟩) as

/-- A call of `dispatch` with an action of type `x`, `context.hpp:155`, `:307-311`.  If there is no function
for exactly this type, there must be only one that it converts to. -/
def dispatch (d : Dispatcher W R) (x : W.Ty) (v : W.Val x) : Option R :=
  match d.find? (fun f => f.1 = x) with
  | some ⟨t, fn⟩ => (W.conv x t).map fun c => fn (c v)
  | none =>
    match d.filter (fun f => (W.conv x f.1).isSome) with
    | [⟨t, fn⟩] => (W.conv x t).map fun c => fn (c v)
    | _ => none

/-- `are_compatible_actions_aux`, `context.hpp:86-97`, with the converter `identity`. -/
def compatible (W : World) (as bs : List W.Ty) : Bool :=
  as.all fun x => bs.any fun t => (W.conv x t).isSome

/-- A context, `context.hpp:266-321`: a dispatcher and the loop. -/
structure Ctx (W : World) (R : Type) where
  dispatcher : Dispatcher W R
  loop : Nat

/-- `context.hpp:274-284`.  The constructor takes part only if the actions are compatible. -/
def Ctx.convert (as : List W.Ty) (c : Ctx W R) : Option (Ctx W R) :=
  if compatible W as (types c.dispatcher) then
    (Context.convert as c.dispatcher).map fun d => ⟨d, c.loop⟩
  else none

/-- `context.hpp:286-298`. -/
def Ctx.convertWith (k : Converter W) (as : List W.Ty) (c : Ctx W R) : Option (Ctx W R) :=
  (Context.convertWith k as c.dispatcher).map fun d => ⟨d, c.loop⟩

/-- `merge_actions_aux`, `context.hpp:107-143`.  `conv` is `std::is_convertible`.  Not modelled: a list with
one action is the action itself, which `as_actions_t` undoes. -/
def merge {Ty : Type} (conv : Ty → Ty → Bool) (a1 a2 : List Ty) : List Ty :=
  a1.foldl (fun acc x =>
    if acc.any (fun t => conv x t) then acc
    else (acc.filter fun t => !conv x t) ++ [x]) a2

end Verif.Context
