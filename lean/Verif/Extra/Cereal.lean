/-
Model of serialisation, `lager/extra/cereal/*.hpp`, `lager/extra/derive/cereal.hpp`.

A document is a tree: a value of the archive, or a node with the size tag that was written to it, if any, and its
children in the order in which they were written, each with its name, if any.  This is what a JSON document is for
`cereal::JSONOutputArchive`.  A binary archive has no names; that its bytes are those of the children one after the other
is not modelled.  `cereal` itself is not in the repository: what is assumed of it is in `size`, `next`, `named`, `hasName`.
-/

namespace Verif.Extra

/-- The archives: binary ones, text ones, and text ones with `hasName` (`lager/extra/cereal/optional_nvp.hpp:21-44`). -/
inductive Kind where
  | binary
  | text
  | json
  deriving DecidableEq

/-- Exceptions: of the archive, of `lager` (`std::runtime_error`), of `lager` (`cereal::Exception`). -/
inductive Err where
  | archive
  | runtime (what : String)
  | cereal (what : String)
  deriving DecidableEq

/-- A document; `P` are the primitive values. -/
inductive Node (P : Type) where
  | leaf (p : P)
  | node (size : Option Nat) (children : List (Option String × Node P))

/-- Reading a node: its children and the position of the next one. -/
structure Rd (P : Type) where
  all : List (Option String × Node P)
  idx : Nat

/-- `make_size_tag` when loading: text archives count the children, binary ones read what was written. -/
def size {P : Type} (k : Kind) : Node P → Except Err Nat
  | .leaf _ => .error .archive
  | .node s ch =>
    match k with
    | .binary => match s with
      | some n => .ok n
      | none => .error .archive
    | _ => .ok ch.length

/-- The children of a node. -/
def Node.start {P : Type} : Node P → Except Err (Rd P)
  | .leaf _ => .error .archive
  | .node _ ch => .ok ⟨ch, 0⟩

/-- `ar(x)` when loading: the next child. -/
def Rd.next {P : Type} (r : Rd P) : Except Err (Node P × Rd P) :=
  match r.all[r.idx]? with
  | some x => .ok (x.2, { r with idx := r.idx + 1 })
  | none => .error .archive

/-- The position from which a name is read: the next child if it has that name, else the first child with that name. -/
def Rd.find {P : Type} (r : Rd P) (name : String) : Option Nat :=
  match r.all[r.idx]? with
  | some x => if x.1 = some name then some r.idx else r.all.findIdx? fun x => x.1 = some name
  | none => r.all.findIdx? fun x => x.1 = some name

/-- `ar(make_nvp(name, x))` when loading: binary archives ignore the name. -/
def Rd.named {P : Type} (r : Rd P) (k : Kind) (name : String) : Except Err (Node P × Rd P) :=
  match k with
  | .binary => r.next
  | _ => match r.find name with
    | some i => { r with idx := i }.next
    | none => .error .archive

/-- `ar.hasName(name)`. -/
def Rd.hasName {P : Type} (r : Rd P) (name : String) : Bool := r.all.any fun x => x.1 = some name

/-- Two lists have the same length and are related element by element. -/
def Pointwise {A : Type} (R : A → A → Prop) : List A → List A → Prop
  | [], [] => True
  | x :: xs, y :: ys => R x y ∧ Pointwise R xs ys
  | _, _ => False

/-- How a type is serialised.  `fresh` is what a variable declared `T x;` holds, for primitive types an arbitrary value.
`load` gets the target and the document, and gives the target afterwards and the exception, if one was thrown.
`valid`, `eq` and `init` specify the type: the values it has, its `==`, and the values an object that was just made may hold,
by `T x;` or by `T{}`. -/
structure Codec (P A : Type) where
  fresh : A
  save : A → Node P
  load : Kind → A → Node P → A × Option Err
  valid : A → Prop
  eq : A → A → Prop
  init : A → Prop

variable {P A K : Type}

/-- Primitive types: numbers, strings, enumerations with names.  `inj` and `proj` say how they are represented among the
values of the archive. -/
def prim (inj : A → P) (proj : P → Option A) (junk : A) : Codec P A where
  fresh := junk
  save x := .leaf (inj x)
  load _ t n := match n with
    | .leaf p => match proj p with
      | some x => (x, none)
      | none => (t, some .archive)
    | .node _ _ => (t, some .archive)
  valid _ := True
  eq := Eq
  init _ := True

/-- `std::monostate`, `lager/extra/cereal/variant_with_name.hpp:89-91`. -/
def mono : Codec P Unit where
  fresh := ()
  save _ := .node none []
  load _ _ _ := ((), none)
  valid _ := True
  eq := Eq
  init _ := True

/-- `T x; ar(x);`: a variable is declared and loaded. -/
def Codec.loadNew (c : Codec P A) (k : Kind) (n : Node P) : Except Err A :=
  match c.load k c.fresh n with
  | (x, none) => .ok x
  | (_, some e) => .error e

/-- `T x; ar(make_nvp(name, x));`. -/
def Codec.loadNamed (c : Codec P A) (k : Kind) (name : String) (r : Rd P) : Except Err (A × Rd P) :=
  match r.named k name with
  | .ok (n, r) => match c.loadNew k n with
    | .ok x => .ok (x, r)
    | .error e => .error e
  | .error e => .error e

/-- The loop that loads the elements of a sequence, `lager/extra/cereal/immer_vector.hpp:54-58`. -/
def loadSeq (c : Codec P A) (k : Kind) : Nat → Rd P → List A → Except Err (List A)
  | 0, _, l => .ok l
  | i + 1, r, l =>
    match r.next with
    | .ok (n, r) => match c.loadNew k n with
      | .ok x => loadSeq c k i r (l ++ [x])
      | .error e => .error e
    | .error e => .error e

/-- `immer::vector`, `lager/extra/cereal/immer_vector.hpp:27-62`; `immer::flex_vector`,
`lager/extra/cereal/immer_flex_vector.hpp`, and `immer::array`, `lager/extra/cereal/immer_array.hpp`, are the same. -/
def seq (c : Codec P A) : Codec P (List A) where
  fresh := []
  save l := .node (some l.length) (l.map fun x => (none, c.save x))
  load k t n :=
    match size k n, n.start with
    | .ok 0, _ => (t, none)
    | .ok s, .ok r => match loadSeq c k s r [] with
      | .ok l => (l, none)
      | .error e => (t, some e)
    | .error e, _ => (t, some e)
    | _, .error e => (t, some e)
  valid l := ∀ x ∈ l, c.valid x
  eq l l' := Pointwise c.eq l l'
  init l := l = []

/-- `immer::box`. -/
structure Box (A : Type) where
  get : A

/-- `lager/extra/cereal/immer_box.hpp:21-33`. -/
def box (c : Codec P A) : Codec P (Box A) where
  fresh := ⟨c.fresh⟩
  save b := .node none [(some "value", c.save b.get)]
  load k t n :=
    match n.start with
    | .ok r => match c.loadNamed k "value" r with
      | .ok (x, _) => (⟨x⟩, none)
      | .error e => (t, some e)
    | .error e => (t, some e)
  valid b := c.valid b.get
  eq b b' := c.eq b.get b'.get
  init _ := True

/-- `immer::vector` of boxes, `lager/extra/cereal/immer_vector.hpp:64-100`: what is in the boxes is saved. -/
def boxSeq (c : Codec P A) : Codec P (List (Box A)) where
  fresh := []
  save l := (seq c).save (l.map (·.get))
  load k t n :=
    match (seq c).load k (t.map (·.get)) n with
    | (l, none) => (l.map (⟨·⟩), none)
    | (_, some e) => (t, some e)
  valid l := ∀ x ∈ l, c.valid x.get
  eq l l' := Pointwise (fun b b' => c.eq b.get b'.get) l l'
  init l := l = []

/-- `immer::map` with keys `K` and values `A`, of which only this is assumed.  The order of `entries` is that of the
iteration. -/
structure MapImpl (K A : Type) [DecidableEq K] where
  M : Type
  empty : M
  set : M → K → A → M
  get : M → K → Option A
  entries : M → List (K × A)
  nodup : ∀ m, ((entries m).map (·.1)).Nodup
  mem_entries : ∀ m k x, (k, x) ∈ entries m ↔ get m k = some x
  get_empty : ∀ k, get empty k = none
  get_set : ∀ m k x k', get (set m k x) k' = if k' = k then some x else get m k'

/-- The number of elements. -/
def MapImpl.size [DecidableEq K] (I : MapImpl K A) (m : I.M) : Nat := (I.entries m).length

/-- The loop that loads a map, `lager/extra/cereal/immer_map.hpp:51-56, 89-94`; `item` loads a key and a value. -/
def loadMap [DecidableEq K] (I : MapImpl K A) (item : Node P → Except Err (K × A)) : Nat → Rd P → I.M → I.M × Option Err
  | 0, _, m => (m, none)
  | i + 1, r, m =>
    match r.next with
    | .ok (n, r) => match item n with
      | .ok (k, x) => loadMap I item i r (I.set m k x)
      | .error e => (m, some e)
    | .error e => (m, some e)

/-- The rest of both functions that load a map: `lager/extra/cereal/immer_map.hpp:48-58, 86-96`. -/
def loadMapAll [DecidableEq K] (I : MapImpl K A) (item : Node P → Except Err (K × A)) (k : Kind) (t : I.M) (n : Node P) :
    I.M × Option Err :=
  match size k n, n.start with
  | .ok s, .ok r => match loadMap I item s r t with
    | (m, none) => if s ≠ I.size m then (m, some (.runtime "duplicate ids?")) else (m, none)
    | (m, some e) => (m, some e)
  | .error e, _ => (t, some e)
  | _, .error e => (t, some e)

/-- Two maps are equal if they have the same keys, with equal values. -/
def MapImpl.Same [DecidableEq K] (I : MapImpl K A) (eq : A → A → Prop) (m m' : I.M) : Prop :=
  ∀ k, match I.get m k, I.get m' k with
    | some x, some x' => eq x x'
    | none, none => True
    | _, _ => False

/-- `make_map_item`, when loading: a node with a key and a value. -/
def loadItem (ck : Codec P K) (c : Codec P A) (k : Kind) (n : Node P) : Except Err (K × A) :=
  match n.start with
  | .ok r => match ck.loadNamed k "key" r with
    | .ok (key, r) => match c.loadNamed k "value" r with
      | .ok (x, _) => .ok (key, x)
      | .error e => .error e
    | .error e => .error e
  | .error e => .error e

/-- `immer::map` without automatic ids, `lager/extra/cereal/immer_map.hpp:76-112`. -/
def map [DecidableEq K] (I : MapImpl K A) (ck : Codec P K) (c : Codec P A) : Codec P I.M where
  fresh := I.empty
  save m := .node (some (I.size m)) ((I.entries m).map fun e =>
    (none, .node none [(some "key", ck.save e.1), (some "value", c.save e.2)]))
  load k t n := loadMapAll I (loadItem ck c k) k t n
  valid m := ∀ k x, I.get m k = some x → ck.valid k ∧ c.valid x
  eq := I.Same c.eq
  init m := ∀ k, I.get m k = none

/-- `immer::map` with automatic ids, `lager/extra/cereal/immer_map.hpp:23-74`: only the values are saved, `id` is
`get_auto_id`. -/
def idMap [DecidableEq K] (I : MapImpl K A) (id : A → K) (c : Codec P A) : Codec P I.M where
  fresh := I.empty
  save m := .node (some (I.size m)) ((I.entries m).map fun e => (none, c.save e.2))
  load k t n := loadMapAll I (fun n => (c.loadNew k n).map fun x => (id x, x)) k t n
  valid m := ∀ k x, I.get m k = some x → k = id x ∧ c.valid x
  eq := I.Same c.eq
  init m := ∀ k, I.get m k = none

/-- `immer::set`, of which only this is assumed. -/
structure SetImpl (K : Type) [DecidableEq K] where
  M : Type
  empty : M
  insert : M → K → M
  mem : M → K → Prop
  elems : M → List K
  nodup : ∀ m, (elems m).Nodup
  mem_elems : ∀ m k, k ∈ elems m ↔ mem m k
  mem_empty : ∀ k, ¬ mem empty k
  mem_insert : ∀ m k k', mem (insert m k) k' ↔ k' = k ∨ mem m k'

/-- The number of elements. -/
def SetImpl.size [DecidableEq K] (I : SetImpl K) (m : I.M) : Nat := (I.elems m).length

/-- The loop that loads a set, `lager/extra/cereal/immer_set.hpp:34-38`. -/
def loadSet [DecidableEq K] (I : SetImpl K) (ck : Codec P K) (k : Kind) : Nat → Rd P → I.M → I.M × Option Err
  | 0, _, m => (m, none)
  | i + 1, r, m =>
    match r.next with
    | .ok (n, r) => match ck.loadNew k n with
      | .ok x => loadSet I ck k i r (I.insert m x)
      | .error e => (m, some e)
    | .error e => (m, some e)

/-- `immer::set`, `lager/extra/cereal/immer_set.hpp:23-54`. -/
def set [DecidableEq K] (I : SetImpl K) (ck : Codec P K) : Codec P I.M where
  fresh := I.empty
  save m := .node (some (I.size m)) ((I.elems m).map fun x => (none, ck.save x))
  load k t n :=
    match size k n, n.start with
    | .ok s, .ok r => match loadSet I ck k s r t with
      | (m, none) => if s ≠ I.size m then (m, some (.runtime "duplicate items?")) else (m, none)
      | (m, some e) => (m, some e)
    | .error e, _ => (t, some e)
    | _, .error e => (t, some e)
  valid m := ∀ x, I.mem m x → ck.valid x
  eq m m' := ∀ x, I.mem m x ↔ I.mem m' x
  init m := ∀ x, ¬ I.mem m x

/-- A type with its serialisation. -/
structure Any (P : Type) where
  A : Type
  c : Codec P A

/-- Tuples. -/
def Tup : List (Any P) → Type
  | [] => Unit
  | a :: as => a.A × Tup as

/-- A tuple before it is loaded. -/
def Tup.fresh : (l : List (Any P)) → Tup l
  | [] => ()
  | a :: as => (a.c.fresh, Tup.fresh as)

/-- Of the specification: all components are valid. -/
def Tup.valid : (l : List (Any P)) → Tup l → Prop
  | [], _ => True
  | a :: as, t => a.c.valid t.1 ∧ Tup.valid as t.2

/-- Of the specification: the components are equal. -/
def Tup.eq : (l : List (Any P)) → Tup l → Tup l → Prop
  | [], _, _ => True
  | a :: as, t, t' => a.c.eq t.1 t'.1 ∧ Tup.eq as t.2 t'.2

/-- Of the specification: all components are as they are made. -/
def Tup.init : (l : List (Any P)) → Tup l → Prop
  | [], _ => True
  | a :: as, t => a.c.init t.1 ∧ Tup.init as t.2

/-- `detail::serialize::apply` when saving, `lager/extra/cereal/tuple.hpp:22-39`. -/
def Tup.save : (l : List (Any P)) → Tup l → List (Node P)
  | [], _ => []
  | a :: as, t => a.c.save t.1 :: Tup.save as t.2

/-- `detail::serialize::apply` when loading: the elements of the target are loaded in place. -/
def Tup.load (k : Kind) : (l : List (Any P)) → Tup l → Rd P → Tup l × Option Err
  | [], t, _ => (t, none)
  | a :: as, t, r =>
    match r.next with
    | .ok (n, r) => match a.c.load k t.1 n with
      | (x, none) => match Tup.load k as t.2 r with
        | (y, e) => ((x, y), e)
      | (x, some e) => ((x, t.2), some e)
    | .error e => (t, some e)

/-- `std::tuple`, `lager/extra/cereal/tuple.hpp:43-51`.  The assertion on the size is not modelled: a document with more
elements is read as far as needed, one with fewer makes the archive throw. -/
def tuple (l : List (Any P)) : Codec P (Tup l) where
  fresh := Tup.fresh l
  save t := .node (some l.length) ((Tup.save l t).map fun n => (none, n))
  load k t n :=
    match size k n, n.start with
    | .ok _, .ok r => Tup.load k l t r
    | .error e, _ => (t, some e)
    | _, .error e => (t, some e)
  valid := Tup.valid l
  eq := Tup.eq l
  init := Tup.init l

/-- The types of the members of a struct. -/
def types (l : List (String × Any P)) : List (Any P) := l.map (·.2)

/-- The members of a struct with their names. -/
abbrev Fields (l : List (String × Any P)) := Tup (types l)

/-- The members, one after the other, when saving. -/
def Fields.save (l : List (String × Any P)) (t : Fields l) : List (Option String × Node P) :=
  (l.map fun f => some f.1).zip (Tup.save (types l) t)

/-- The members, one after the other, when loading: `serialize_optional_nvp`, `lager/extra/cereal/optional_nvp.hpp:32-49`,
if `opt`, else `ar(make_nvp(name, x))`. -/
def Fields.load (opt : Bool) (k : Kind) : (l : List (String × Any P)) → Fields l → Rd P → Fields l × Option Err
  | [], t, _ => (t, none)
  | f :: fs, t, r =>
    if opt && k == .json && !r.hasName f.1 then
      match Fields.load opt k fs t.2 r with
      | (y, e) => ((t.1, y), e)
    else
      match r.named k f.1 with
      | .ok (n, r) => match f.2.c.load k t.1 n with
        | (x, none) => match Fields.load opt k fs t.2 r with
          | (y, e) => ((x, y), e)
        | (x, some e) => ((x, t.2), some e)
      | .error e => (t, some e)

/-- Structs: with `opt`, those known to Boost.Hana, `lager/extra/cereal/struct.hpp:65-85`, without it those with derived
serialisation, `lager/extra/derive/cereal.hpp:23-65`. -/
def struct (opt : Bool) (l : List (String × Any P)) : Codec P (Fields l) where
  fresh := Tup.fresh (types l)
  save t := .node none (Fields.save l t)
  load k t n :=
    match n.start with
    | .ok r => Fields.load opt k l t r
    | .error e => (t, some e)
  valid := Tup.valid (types l)
  eq := Tup.eq (types l)
  init := Tup.init (types l)

/-- Values of a variant. -/
def Alt : List (String × Any P) → Type
  | [] => Empty
  | a :: as => a.2.A ⊕ Alt as

/-- Of the specification: the alternative is valid. -/
def Alt.valid : (l : List (String × Any P)) → Alt l → Prop
  | [], _ => True
  | a :: _, .inl x => a.2.c.valid x
  | _ :: as, .inr y => Alt.valid as y

/-- Of the specification: the same alternative with equal values. -/
def Alt.eq : (l : List (String × Any P)) → Alt l → Alt l → Prop
  | [], _, _ => True
  | a :: _, .inl x, .inl y => a.2.c.eq x y
  | _ :: as, .inr x, .inr y => Alt.eq as x y
  | _ :: _, _, _ => False

/-- `get_type_name` of the type of the alternative, `lager/extra/cereal/variant_with_name.hpp:36-41, 71-74`. -/
def Alt.name : (l : List (String × Any P)) → Alt l → String
  | [], _ => ""
  | a :: _, .inl _ => a.1
  | _ :: as, .inr y => Alt.name as y

/-- `variant_save_visitor`, `lager/extra/cereal/variant_with_name.hpp:24-34`. -/
def Alt.save : (l : List (String × Any P)) → Alt l → Node P
  | [], _ => .node none []
  | a :: _, .inl x => a.2.c.save x
  | _ :: as, .inr y => Alt.save as y

/-- `load_variant`, `lager/extra/cereal/variant_with_name.hpp:43-63`. -/
def Alt.load (k : Kind) (target : String) (r : Rd P) : (l : List (String × Any P)) → Except Err (Alt l)
  | [] => .error (.cereal "Invalid variant type name")
  | a :: as =>
    if a.1 = target then
      match a.2.c.loadNamed k "data" r with
      | .ok (x, _) => .ok (.inl x)
      | .error e => .error e
    else (Alt.load k target r as).map .inr

/-- `std::variant` with at least one alternative, `lager/extra/cereal/variant_with_name.hpp:67-87`; `cs` serialises
strings.  A default-constructed variant holds the first alternative. -/
def variant (cs : Codec P String) (a : String × Any P) (l : List (String × Any P)) : Codec P (Alt (a :: l)) where
  fresh := .inl a.2.c.fresh
  save v := .node none [(some "type", cs.save (Alt.name (a :: l) v)), (some "data", Alt.save (a :: l) v)]
  load k t n :=
    match n.start with
    | .ok r => match cs.loadNamed k "type" r with
      | .ok (target, r) => match Alt.load k target r (a :: l) with
        | .ok v => (v, none)
        | .error e => (t, some e)
      | .error e => (t, some e)
    | .error e => (t, some e)
  valid := Alt.valid (a :: l)
  eq := Alt.eq (a :: l)
  init _ := True

/-- `to_json`, then `from_json`, `lager/extra/cereal/json.hpp:24-43`: `inline` saving and loading leave out the outer node
only, which is not modelled.  `zero` is `T{}`. -/
def Codec.fromTo (c : Codec P A) (zero x : A) : A × Option Err := c.load .json zero (c.save x)

end Verif.Extra
