import Verif.Lens.Model

/-
Specification of lenses: pairs of functions, and the three laws.
-/

namespace Verif.Lens

/-- The three lens laws for a lens used through `view` and `set` only. -/
structure Lawful {S A : Type} (l : VL S A) : Prop where
  /-- what was set is what is viewed -/
  set_view : ∀ s a, view l (set l s a) = a
  /-- setting what is viewed changes nothing -/
  view_set : ∀ s, set l s (view l s) = s
  /-- a second set overrides the first -/
  set_set : ∀ s a b, set l (set l s a) b = set l s b

/-- The lens laws restricted to wholes in `P`, parts in `Q`, with `P` preserved by writing. -/
structure LawfulOn {S A : Type} (l : VL S A) (P : S → Prop) (Q : A → Prop) : Prop where
  stays : ∀ s a, P s → Q a → P (set l s a)
  set_view : ∀ s a, P s → Q a → view l (set l s a) = a
  view_set : ∀ s, P s → set l s (view l s) = s
  set_set : ∀ s a b, P s → Q a → Q b → set l (set l s a) b = set l s b

/-- Two lenses on the same whole touch different parts: writing one does not change
what the other sees, and the order of two writes is irrelevant. -/
structure Independent {S A B : Type} (l : VL S A) (m : VL S B) : Prop where
  view_left : ∀ s b, view l (set m s b) = view l s
  view_right : ∀ s a, view m (set l s a) = view m s
  comm : ∀ s a b, set l (set m s b) a = set m (set l s a) b

/-- Laws of a keyed container: reading what was stored, not touching other keys, not
changing which keys are present, storing what is there is no change, last store wins.
They are proved below for lists and for maps. -/
structure ContLaws {C K X : Type} (ct : Cont C K X) : Prop where
  at_store : ∀ c k x, (ct.at? c k).isSome → ct.at? (ct.store c k x) k = some x
  at_other : ∀ c k j x, j ≠ k → ct.at? (ct.store c k x) j = ct.at? c j
  store_same : ∀ c k x, ct.at? c k = some x → ct.store c k x = c
  store_store : ∀ c k x y, ct.store (ct.store c k x) k y = ct.store c k y

/-- Lenses that a user can build with the library. -/
inductive LibLens : {S A : Type} → VL S A → Prop where
  | getset {S A} (g : S → A) (p : S → A → S) : LibLens (getset g p)
  | ident {S : Type} : LibLens (ident (S := S))
  | comp {S A B} {l : VL S A} {m : VL A B} : LibLens l → LibLens m → LibLens (comp l m)
  | attr {ι : Type} [DecidableEq ι] {T : ι → Type} (m : ι) : LibLens (attr (T := T) m)
  | element {n : Nat} {T : Fin n → Type} (i : Fin n) : LibLens (element (T := T) i)
  | unbox {T : Type} : LibLens (unbox (T := T))
  | at' {C K X : Type} (ct : Cont C K X) (k : K) : LibLens (at' ct k)
  | atInsert {C K X : Type} (a : C → K → Option X) (ins : C → X → C) (k : K) :
      LibLens (atInsert a ins k)
  | atOr {C K X : Type} (ct : Cont C K X) (k : K) (d : X) : LibLens (atOr ct k d)
  | valueOr {T : Type} (t : T) : LibLens (valueOr t)
  | mapOpt {W P : Type} {l : VL W P} : LibLens l → LibLens (mapOpt l)
  | bindOpt {W P : Type} {l : VL W (Option P)} : LibLens l → LibLens (bindOpt l)
  | forceOpt {T : Type} : LibLens (forceOpt (T := T))
  | alternative {ι : Type} [DecidableEq ι] {T : ι → Type} (i : ι) :
      LibLens (alternative (T := T) i)
  | zip {n : Nat} {S A : Fin n → Type} (ls : ∀ i, VL (S i) (A i)) :
      (∀ i, LibLens (ls i)) → LibLens (zip ls)
  | fan {S : Type} {n : Nat} {A : Fin n → Type} (ls : ∀ i, VL S (A i)) :
      (∀ i, LibLens (ls i)) → LibLens (fan ls)
  | erased {S A : Type} {l : VL S A} : LibLens l → LibLens (erased (hold l))

end Verif.Lens
