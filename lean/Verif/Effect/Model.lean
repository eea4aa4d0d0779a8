import Verif.Context.Model
import Verif.Deps.Model

/-!
Effects with their types, `effect.hpp` and `context.hpp`: how an effect of a nested reducer becomes an effect of the
store, and on which contexts its functions are called.

Simplified: futures that effects return are ready at once (when they are not, see the store model), and functions do
not throw.
-/

namespace Verif.Effect

open Verif.Context (World Ctx types compatible)
open Verif.Deps (Shape Specs Bag Entry Stored)

variable {W : World} {R K T V S : Type}

/-- The template arguments of `context<...>` and of `effect<...>`.  `as_actions`, `context.hpp:47-66`: `A` counts as
`actions<A>`, and `void` as `actions<>`. -/
structure Sig (W : World) (K T : Type) where
  actions : List W.Ty
  deps : Specs K T

/-- `context<...>`, `context.hpp:266-321`. -/
structure Full (W : World) (R K T V S : Type) where
  ctx : Ctx W R
  deps : Bag K T V S

/-- The template arguments of a context, `context.hpp:266-321`. -/
def Full.sig (c : Full W R K T V S) : Sig W K T := ⟨types c.ctx.dispatcher, c.deps.specs⟩

variable [DecidableEq K] [DecidableEq T]

/-- The types that compile: a class does not have a base class twice, `context.hpp:152-153`, and keys are not used
twice, `deps.hpp:318-320`. -/
def Sig.ok (s : Sig W K T) : Prop := s.actions.Nodup ∧ (s.deps.map (·.1)).Nodup

instance (s : Sig W K T) : Decidable s.ok := inferInstanceAs (Decidable (_ ∧ _))

/-- `context.hpp:274-284`. -/
def Full.convert (s : Sig W K T) (c : Full W R K T V S) : Option (S → Full W R K T V S × S) :=
  (c.ctx.convert s.actions).bind fun x => (Deps.convert s.deps c.deps).map fun F => fun st =>
    (⟨x, (F st).1⟩, (F st).2)

/-- Can a dependency specified as `s` be made from one specified as `s'`?  As `Deps.extract`. -/
def takes : Shape T → Shape T → Bool
  | .ref t, .fn (.ref t') => decide (t = t')
  | .opt s, s' => decide (s' = .opt s) || decide (s' = s)
  | .fn (.opt s), .fn s' => decide (s' = .opt s) || decide (s' = s)
  | s, s' => decide (s = s')

/-- Can dependency `x` be made from those of `f`?  `deps.hpp:446-461`. -/
def found (f : Specs K T) (x : K × Shape T) : Bool :=
  match f.find? (fun y => y.1 = x.1) with
  | some y => takes x.2 y.2
  | none => !x.2.required

/-- Does the conversion of `deps` from `f` to `t` compile?  `deps.hpp:336-350`. -/
def depsFit (t f : Specs K T) : Bool :=
  (Deps.required t).all (fun k => decide (k ∈ Deps.required f)) && t.all (found f)

/-- Does the conversion of contexts from `f` to `t` compile?  `context.hpp:274-284`. -/
def fits (t f : Sig W K T) : Bool := compatible W t.actions f.actions && depsFit t.deps f.deps

/-- Ways to make effects.  `fn id s` is the effect of type `effect<s>` made from user function number `id`, which
takes `context<s>`, `effect.hpp:60-80`; `null s` is a null one; `conv s e` is `e` converted to `effect<s>`, `:50-58`;
`seq a b` is `sequence(a, b)`, `:240-258`. -/
inductive Eff (W : World) (K T : Type) where
  | fn (id : Nat) (s : Sig W K T)
  | null (s : Sig W K T)
  | conv (s : Sig W K T) (e : Eff W K T)
  | seq (a b : Eff W K T)

/-- The type of `sequence`, `effect.hpp:243-245`. -/
def joined (s s' : Sig W K T) : Sig W K T :=
  ⟨Context.merge (fun x y => (W.conv x y).isSome) s.actions s'.actions, Deps.unionSpecs s.deps s'.deps⟩

/-- The type of an effect, if it compiles.  `conv`: `are_compatible_actions_v<A2, Action>` and
`std::is_convertible_v<Deps, D2>`, `effect.hpp:52-55`.  `seq`: there are actions on both sides, `context.hpp:110-111`,
and the closure calls both with its own context, `effect.hpp:252-257`. -/
def Eff.sig : Eff W K T → Option (Sig W K T)
  | .fn _ s => if s.ok then some s else none
  | .null s => if s.ok then some s else none
  | .conv s e => e.sig.bind fun s' => if s.ok ∧ fits s' s = true then some s else none
  | .seq a b => a.sig.bind fun s => b.sig.bind fun s' =>
    if s.actions ≠ [] ∧ s'.actions ≠ [] ∧ fits s (joined s s') = true ∧ fits s' (joined s s') = true then
      some (joined s s')
    else none

/-- What a call does: it does not compile; it calls user functions, with these contexts, and returns; or it throws
`std::bad_function_call` after these calls. -/
inductive Out (W : World) (R K T V S : Type) where
  | stuck
  | done (calls : List (Nat × Full W R K T V S)) (st : S)
  | threw (calls : List (Nat × Full W R K T V S)) (st : S)

/-- One call and then another one, as in `effect.hpp:252-257`; the second one is not reached if the first one throws. -/
def Out.andThen (o : Out W R K T V S) (k : S → Out W R K T V S) : Out W R K T V S :=
  match o with
  | .done l st =>
    match k st with
    | .done l' st' => .done (l ++ l') st'
    | .threw l' st' => .threw (l ++ l') st'
    | .stuck => .stuck
  | o => o

/-- The conversion of the argument to the type of the parameter. -/
def enter (o : Option (Sig W K T)) (c : Full W R K T V S) (st : S)
    (k : Full W R K T V S → S → Out W R K T V S) : Out W R K T V S :=
  match o.bind fun s => c.convert s with
  | some F => k (F st).1 (F st).2
  | none => .stuck

/-- A call of an effect with a context.  `code id c` is what user function number `id` does when it is called with
`c`. -/
def run (code : Nat → Full W R K T V S → S → S) : Eff W K T → Full W R K T V S → S → Out W R K T V S
  | .fn id s, c, st => enter (Eff.fn id s).sig c st fun c st => .done [(id, c)] (code id c st)
  | .null s, c, st => enter (Eff.null s).sig c st fun _ st => .threw [] st
  | .conv s e, c, st => enter (Eff.conv s e).sig c st fun c st => run code e c st
  | .seq a b, c, st => enter (Eff.seq a b).sig c st fun c st =>
    (run code a c st).andThen fun st => run code b c st

end Verif.Effect
