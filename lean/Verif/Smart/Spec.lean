import Verif.Smart.Model

/-
Specification of subscripts: places in values.
-/

namespace Verif.Smart

open Verif.Lens (Style)

/-- A place of type `a` in values of type `t`: where one gets with members, positions, keys, and into
optionals. -/
inductive Path : Ty → Ty → Type where
  | nil {t : Ty} : Path t t
  | inside {t a : Ty} : Path t a → Path (.opt t) a
  | pos {s : Style} {t a : Ty} (k : Nat) : Path t a → Path (.seq s t) a
  | key {s : Style} {t a : Ty} (k : Nat) : Path t a → Path (.map s t) a
  | mem {n : Nat} {fs : Fin n → Ty} {a : Ty} (i : Fin n) : Path (fs i) a → Path (.struct n fs) a

/-- The element at a position. -/
def nth {X : Type} (l : List X) (k : Nat) : Option X := l[k]?

/-- What is at the place; nothing, if a position or key or the content of an optional is missing on
the way. -/
def find : {t a : Ty} → Path t a → t.den → Option a.den
  | _, _, .nil, v => some v
  | _, _, .inside (t := t) p, v =>
    match (v : Option t.den) with
    | none => none
    | some w => find p w
  | _, _, .pos (t := t) k p, v =>
    match nth (X := t.den) v k with
    | none => none
    | some w => find p w
  | _, _, .key (t := t) k p, v =>
    match (v : Nat → Option t.den) k with
    | none => none
    | some w => find p w
  | _, _, .mem (fs := fs) i p, v => find p ((v : ∀ j, (fs j).den) i)

/-- The value with what is at the place replaced; the value itself if something is missing on the
way. -/
def put : {t a : Ty} → Path t a → t.den → a.den → t.den
  | _, _, .nil, _, x => x
  | _, _, .inside (t := t) p, v, x =>
    match (v : Option t.den) with
    | none => (none : Option t.den)
    | some w => (some (put p w x) : Option t.den)
  | _, _, .pos (t := t) k p, v, x =>
    match nth (X := t.den) v k with
    | none => v
    | some w => List.set (α := t.den) v k (put p w x)
  | _, _, .key (t := t) k p, v, x =>
    match (v : Nat → Option t.den) k with
    | none => v
    | some w =>
      (fun j => if j = k then some (put p w x) else (v : Nat → Option t.den) j : Nat → Option t.den)
  | _, _, .mem (fs := fs) i p, v, x =>
    (fun j => if h : i = j then h ▸ put p ((v : ∀ j, (fs j).den) i) x else (v : ∀ j, (fs j).den) j :
      ∀ j, (fs j).den)

/-- The subscripts of the place.  One does not write anything for going into an optional. -/
def Path.keys : {t a : Ty} → Path t a → List Key
  | _, _, .nil => []
  | _, _, .inside p => p.keys
  | _, _, .pos k p => .at k :: p.keys
  | _, _, .key k p => .at k :: p.keys
  | _, _, .mem i p => .member i :: p.keys

/-- Going there can fail. -/
def Path.fails : {t a : Ty} → Path t a → Bool
  | _, _, .nil => false
  | _, _, .inside _ => true
  | _, _, .pos _ _ => true
  | _, _, .key _ _ => true
  | _, _, .mem _ p => p.fails

/-- The place ends with a subscript: it does not go into an optional last. -/
def Path.tight : {t a : Ty} → Path t a → Prop
  | _, _, .nil => True
  | _, _, .inside p => p.keys ≠ [] ∧ p.tight
  | _, _, .pos _ p => p.tight
  | _, _, .key _ p => p.tight
  | _, _, .mem _ p => p.tight

/-- Two places that part ways at different members, positions or keys. -/
inductive Apart : {t a b : Ty} → Path t a → Path t b → Prop where
  | pos {s : Style} {t a b : Ty} {k j : Nat} (p : Path t a) (q : Path t b) :
      k ≠ j → Apart (.pos (s := s) k p) (.pos j q)
  | key {s : Style} {t a b : Ty} {k j : Nat} (p : Path t a) (q : Path t b) :
      k ≠ j → Apart (.key (s := s) k p) (.key j q)
  | mem {n : Nat} {fs : Fin n → Ty} {a b : Ty} {i j : Fin n} (p : Path (fs i) a) (q : Path (fs j) b) :
      i ≠ j → Apart (.mem i p) (.mem j q)
  | inside {t a b : Ty} {p : Path t a} {q : Path t b} : Apart p q → Apart (.inside p) (.inside q)
  | samePos {s : Style} {t a b : Ty} (k : Nat) {p : Path t a} {q : Path t b} :
      Apart p q → Apart (.pos (s := s) k p) (.pos k q)
  | sameKey {s : Style} {t a b : Ty} (k : Nat) {p : Path t a} {q : Path t b} :
      Apart p q → Apart (.key (s := s) k p) (.key k q)
  | sameMem {n : Nat} {fs : Fin n → Ty} {a b : Ty} (i : Fin n) {p : Path (fs i) a} {q : Path (fs i) b} :
      Apart p q → Apart (.mem i p) (.mem i q)

/-- The last subscript is a key or an index. -/
def Path.keyLast {t a : Ty} (p : Path t a) : Bool :=
  match p.keys.getLast? with
  | some (.at _) => true
  | _ => false

/-- What is left when the content of a place is moved out of it. -/
def emptied {t a : Ty} (p : Path t a) (v : t.den) : t.den :=
  match find p v with
  | none => v
  | some w => put p v (a.husk w)

/-- Reading with `get` and writing with `set` is reading from and writing to the place `p`.  What is
read and written has the type of the place if going there cannot fail, and otherwise an optional of
it; a place that is an optional itself is not made one twice if the last subscript is a member.
Writing `nullopt` (to a place one can fail to get to) is a different matter: if the last subscript is
a key or an index it has no effect, otherwise the content is lost, but the place stays. -/
inductive Stands : {t a : Ty} → Path t a → (b : Ty) → (t.den → b.den) → (t.den → b.den → t.den) → Prop where
  | always {t a : Ty} (p : Path t a) (get : t.den → a.den) (set : t.den → a.den → t.den)
      (fails : p.fails = false) (read : ∀ v, find p v = some (get v))
      (write : ∀ v x, set v x = put p v x) : Stands p a get set
  | perhaps {t a : Ty} (p : Path t a) (get : t.den → (Ty.opt a).den)
      (set : t.den → (Ty.opt a).den → t.den) (fails : p.fails = true) (read : ∀ v, get v = find p v)
      (write : ∀ v x, set v (some x) = put p v x)
      (null : ∀ v, set v none = if p.keyLast then v else emptied p v) : Stands p (.opt a) get set
  | nullable {t c : Ty} (p : Path t (.opt c)) (get : t.den → (Ty.opt c).den)
      (set : t.den → (Ty.opt c).den → t.den) (fails : p.fails = true) (member : p.keyLast = false)
      (read : ∀ v x, get v = some x ↔ find p v = some (some x : Option c.den))
      (write : ∀ v x, set v (some x) = put p v (some x : Option c.den))
      (null : ∀ v, set v none = emptied p v) : Stands p (.opt c) get set

/-- The value is not `nullopt`. -/
def present : (b : Ty) → b.den → Prop
  | .opt c, x => (x : Option c.den).isSome
  | _, _ => True

end Verif.Smart
