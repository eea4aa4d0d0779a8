/-!
Dependency bags, `deps.hpp`.

`K` are the types that are used as keys, `T` the types of dependencies, `V` their values; references are the
addresses of objects, and `S` is the state of the program, which functions may change.

Simplified: conversions between the storages of different types, as from `reference_wrapper<Derived>` to
`reference_wrapper<Base>`, do not exist.  `none` is a program that does not compile.
-/

namespace Verif.Deps

variable {K T V S : Type}

/-- A dependency specification without its key: `val`, `deps.hpp:84-110`, `ref`, `:115-136`, `opt`, `:156-179`,
and `fn`, `:185-198`, of another specification. -/
inductive Shape (T : Type) where
  | val (t : T)
  | ref (t : T)
  | opt (s : Shape T)
  | fn (s : Shape T)
deriving DecidableEq

/-- A dependency specification.  The type `t` is used as the key `k` by default, `deps.hpp:88`, `:120`; `key`,
`:203-208`, replaces it. -/
inductive Spec (K T : Type) where
  | val (k : K) (t : T)
  | ref (k : K) (t : T)
  | opt (s : Spec K T)
  | fn (s : Spec K T)
  | key (k : K) (s : Spec K T)

/-- `key_type`, which is inherited. -/
def Spec.keyOf : Spec K T → K
  | .val k _ => k
  | .ref k _ => k
  | .opt s => s.keyOf
  | .fn s => s.keyOf
  | .key k _ => k

/-- A specification without its key: `key` only changes that, `deps.hpp:84-195`. -/
def Spec.shape : Spec K T → Shape T
  | .val _ t => .val t
  | .ref _ t => .ref t
  | .opt s => .opt s.shape
  | .fn s => .fn s.shape
  | .key _ s => s.shape

/-- `is_required`, `deps.hpp:66`, `:161`; the other specifications inherit it. -/
def Shape.required : Shape T → Bool
  | .val _ => true
  | .ref _ => true
  | .opt _ => false
  | .fn s => s.required

/-- The storages, `deps.hpp:91-100`, `:121`, `:160`, `:189`.  A function has a result and changes the state. -/
inductive Stored (V S : Type) where
  | val (v : V)
  | ref (a : Nat)
  | none
  | some (x : Stored V S)
  | fn (f : S → Stored V S) (after : S → S)
  /-- a null function -/
  | null

/-- The storages of a specification. -/
def Stored.fits : Shape T → Stored V S → Prop
  | .val _, .val _ => True
  | .ref _, .ref _ => True
  | .opt _, .none => True
  | .opt s, .some x => x.fits s
  | .fn s, .fn f _ => ∀ st, (f st).fits s
  | .fn _, .null => True
  | _, _ => False

/-- What `get` does: it returns a value or a reference, or it throws `missing_dependency_error`, or calls a
null function, which throws, too. -/
inductive Got (V : Type) where
  | value (v : V)
  | reference (a : Nat)
  | missing
  | badCall
deriving DecidableEq

/-- `Spec::get`: `deps.hpp:102-106`, `:123-127`, `:163-170`, `:191-195`.  Other cases do not fit. -/
def getS : Shape T → Stored V S → S → Got V × S
  | .val _, .val v, st => (.value v, st)
  | .ref _, .ref a, st => (.reference a, st)
  | .opt _, .none, st => (.missing, st)
  | .opt s, .some x, st => getS s x st
  | .fn s, .fn f after, st => getS s (f st) (after st)
  | _, _, st => (.badCall, st)

/-- `Spec::has`: `deps.hpp:68-72`, `:172-176`, inherited by `fn` and `key`. -/
def hasS : Shape T → Stored V S → Bool
  | .val _, _ => true
  | .ref _, _ => true
  | .opt _, .none => false
  | .opt _, .null => false
  | .opt _, _ => true
  | .fn s, x => hasS s x

/-- A dependency in a bag. -/
structure Entry (K T V S : Type) where
  key : K
  shape : Shape T
  stored : Stored V S

/-- `deps<...>`: the specifications with their storages, `deps.hpp:293-464`. -/
abbrev Bag (K T V S : Type) := List (Entry K T V S)

/-- The template arguments. -/
abbrev Specs (K T : Type) := List (K × Shape T)

/-- The template arguments of `deps<...>`, `deps.hpp:293-464`. -/
def Bag.specs (b : Bag K T V S) : Specs K T := b.map fun e => (e.key, e.shape)

variable [DecidableEq K] [DecidableEq T]

/-- `with`, `deps.hpp:328-334`. -/
def «with» : List (Spec K T) → List (Stored V S) → Option (Bag K T V S)
  | [], [] => some []
  | s :: ss, x :: xs => («with» ss xs).map fun b => ⟨s.keyOf, s.shape, x⟩ :: b
  | _, _ => none

/-- `storage_[key]`, and `hana::find`. -/
def find (k : K) (b : Bag K T V S) : Option (Entry K T V S) := b.find? fun e => e.key = k

/-- `get`, `deps.hpp:384-389`. -/
def get (k : K) (b : Bag K T V S) (st : S) : Option (Got V × S) :=
  (find k b).map fun e => getS e.shape e.stored st

/-- `has`, `deps.hpp:396-401`. -/
def has (k : K) (b : Bag K T V S) : Option Bool := (find k b).map fun e => hasS e.shape e.stored

/-- `required_key_set`, `deps.hpp:307-313`. -/
def required (ss : Specs K T) : List K := (ss.filter fun s => s.2.required).map (·.1)

/-- A storage for a specification from one for another: `Spec::extract`, `deps.hpp:108-109`, `:129-130`, `:178`,
`:197`, for those that are required, and implicit conversions for those that are not, `:454-461`.  A
`std::function` that returns a reference is called to make a reference. -/
def extract : Shape T → Shape T → Option (Stored V S → S → Stored V S × S)
  | .ref t, .fn (.ref t') => if t = t' then some fun x st =>
      match x with
      | .fn f after => (f st, after st)
      | x => (x, st)
    else none
  | .opt s, s' =>
    if s' = .opt s then some fun x st => (x, st)
    else if s' = s then some fun x st => (.some x, st) else none
  | .fn (.opt s), .fn s' =>
    if s' = .opt s then some fun x st => (x, st)
    else if s' = s then some fun x st => (match x with
      | .fn f after => .fn (fun st => .some (f st)) after
      | x => x, st)
    else none
  | s, s' => if s = s' then some fun x st => (x, st) else none

/-- The default storage of a specification that is not required. -/
def default : Shape T → Stored V S
  | .fn _ => .null
  | _ => .none

/-- `extract_from_storage_`, `deps.hpp:446-461`. -/
def pick (k : K) (s : Shape T) (b : Bag K T V S) : Option (S → Stored V S × S) :=
  match find k b with
  | some e => (extract s e.shape).map fun f => f e.stored
  | none => if s.required then none else some fun st => (default s, st)

/-- `make_storage_from_`, `deps.hpp:437-444`, in the order of the specifications. -/
def pickAll : Specs K T → Bag K T V S → Option (S → Bag K T V S × S)
  | [], _ => some fun st => ([], st)
  | (k, s) :: ss, b => (pick k s b).bind fun f => (pickAll ss b).map fun g => fun st =>
    let (x, st1) := f st
    let (r, st2) := g st1
    (⟨k, s, x⟩ :: r, st2)

/-- The converting constructor, `deps.hpp:336-350`. -/
def convert (ss : Specs K T) (b : Bag K T V S) : Option (S → Bag K T V S × S) :=
  if (required ss).all fun k => k ∈ required b.specs then pickAll ss b else none

/-- `hana::union_` of maps: the second one wins. -/
def union (a b : Bag K T V S) : Bag K T V S := b ++ a.filter fun e => (find e.key b).isNone

/-- … for the specifications. -/
def unionSpecs (a b : Specs K T) : Specs K T := b ++ a.filter fun s => (b.find? fun x => x.1 = s.1).isNone

/-- The constructor from two bags, `deps.hpp:352-373`. -/
def convert2 (ss : Specs K T) (a b : Bag K T V S) : Option (S → Bag K T V S × S) :=
  if (required ss).all fun k => k ∈ required a.specs ++ required b.specs then pickAll ss (union a b) else none

/-- `merge`, `deps.hpp:408-418`. -/
def merge (a b : Bag K T V S) : Option (S → Bag K T V S × S) :=
  convert2 (unionSpecs a.specs b.specs) a b

/-- `static_assert` on duplicate keys, `deps.hpp:318-320`. -/
def Bag.valid (b : Bag K T V S) : Prop := (b.map (·.key)).Nodup ∧ ∀ e ∈ b, e.stored.fits e.shape

end Verif.Deps
