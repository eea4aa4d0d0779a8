import Verif.Smart.Spec

/-
Places: what reading and replacing do to each other; places in places.
-/

namespace Verif.Smart

open Verif.Lens (Style)
open Verif.LensMove (Expr Husk husk MLens)

theorem nth_set_same {X : Type} {l : List X} {k : Nat} {w : X} (x : X) (h : nth l k = some w) :
    nth (l.set k x) k = some x := by
  unfold nth at *
  have hk : k < l.length := by
    rcases Nat.lt_or_ge k l.length with hk | hk
    · exact hk
    · rw [List.getElem?_eq_none hk] at h
      exact nomatch h
  simp [hk]

theorem nth_set_ne {X : Type} (l : List X) {k j : Nat} (x : X) (h : k ≠ j) :
    nth (l.set k x) j = nth l j := by
  unfold nth
  simp [h]

theorem set_nth {X : Type} {l : List X} {k : Nat} {w : X} (h : nth l k = some w) : l.set k w = l := by
  unfold nth at h
  apply List.ext_getElem?
  intro i
  rw [List.getElem?_set]
  split
  · rename_i hi
    subst hi
    split
    · exact h.symm
    · rename_i hk
      rw [List.getElem?_eq_none (by omega)]
  · rfl

/-- Nothing is there: replacing does nothing. -/
theorem put_missing {t a : Ty} (p : Path t a) (v : t.den) (x : a.den) (h : find p v = none) :
    put p v x = v := by
  induction p with
  | nil => exact nomatch h
  | @inside t a p ih =>
    cases (v : Option t.den) with
    | none => rfl
    | some w => exact congrArg some (ih w x h)
  | @pos s t a k p ih =>
    simp only [find] at h
    simp only [put]
    cases hk : nth (X := t.den) v k with
    | none => rfl
    | some w =>
      rw [hk] at h
      dsimp only
      rw [ih w x h]
      exact set_nth hk
  | @key s t a k p ih =>
    simp only [find] at h
    simp only [put]
    cases hk : (v : Nat → Option t.den) k with
    | none => rfl
    | some w =>
      rw [hk] at h
      dsimp only
      rw [ih w x h]
      funext j
      by_cases hj : j = k
      · rw [if_pos hj, hj, hk]
      · rw [if_neg hj]
  | @mem n fs a i p ih =>
    simp only [find] at h
    simp only [put]
    rw [ih _ x h]
    funext j
    by_cases hj : i = j
    · subst hj
      simp
    · simp [hj]

/-- Replacing something by itself does nothing. -/
theorem put_same {t a : Ty} (p : Path t a) (v : t.den) (x : a.den) (h : find p v = some x) :
    put p v x = v := by
  induction p with
  | nil =>
    simp only [find, Option.some.injEq] at h
    exact h.symm
  | @inside t a p ih =>
    cases (v : Option t.den) with
    | none => exact nomatch h
    | some w => exact congrArg some (ih w x h)
  | @pos s t a k p ih =>
    simp only [find] at h
    simp only [put]
    cases hk : nth (X := t.den) v k with
    | none => rfl
    | some w =>
      rw [hk] at h
      dsimp only
      rw [ih w x h]
      exact set_nth hk
  | @key s t a k p ih =>
    simp only [find] at h
    simp only [put]
    cases hk : (v : Nat → Option t.den) k with
    | none => rfl
    | some w =>
      rw [hk] at h
      dsimp only
      rw [ih w x h]
      funext j
      by_cases hj : j = k
      · rw [if_pos hj, hj, hk]
      · rw [if_neg hj]
  | @mem n fs a i p ih =>
    simp only [find] at h
    simp only [put]
    rw [ih _ x h]
    funext j
    by_cases hj : i = j
    · subst hj
      simp
    · simp [hj]

/-- What was put is there. -/
theorem find_put {t a : Ty} (p : Path t a) (v : t.den) (x : a.den) (h : (find p v).isSome) :
    find p (put p v x) = some x := by
  induction p with
  | nil => rfl
  | @inside t a p ih =>
    cases (v : Option t.den) with
    | none => exact nomatch h
    | some w => exact ih w x h
  | @pos s t a k p ih =>
    simp only [find] at h
    simp only [put]
    cases hk : nth (X := t.den) v k with
    | none =>
      rw [hk] at h
      exact nomatch h
    | some w =>
      rw [hk] at h
      simp only [find]
      rw [nth_set_same _ hk]
      exact ih w x h
  | @key s t a k p ih =>
    simp only [find] at h
    simp only [put]
    cases hk : (v : Nat → Option t.den) k with
    | none =>
      rw [hk] at h
      exact nomatch h
    | some w =>
      rw [hk] at h
      simp only [find, if_pos]
      exact ih w x h
  | @mem n fs a i p ih =>
    simp only [find] at h
    simp only [put, find, dite_true]
    exact ih _ x h

/-- The second replacement wins. -/
theorem put_put {t a : Ty} (p : Path t a) (v : t.den) (x y : a.den) :
    put p (put p v x) y = put p v y := by
  induction p with
  | nil => rfl
  | @inside t a p ih =>
    cases (v : Option t.den) with
    | none => rfl
    | some w => exact congrArg some (ih w x y)
  | @pos s t a k p ih =>
    simp only [put]
    cases hk : nth (X := t.den) v k with
    | none =>
      dsimp only
      rw [hk]
    | some w =>
      dsimp only
      rw [nth_set_same _ hk]
      dsimp only
      rw [ih]
      exact List.set_set ..
  | @key s t a k p ih =>
    simp only [put]
    cases hk : (v : Nat → Option t.den) k with
    | none =>
      dsimp only
      rw [hk]
    | some w =>
      simp only [if_true]
      rw [ih]
      funext j
      by_cases hj : j = k <;> simp [hj]
  | @mem n fs a i p ih =>
    simp only [put, dite_true]
    rw [ih]
    funext j
    by_cases hj : i = j <;> simp [hj]

/-- Replacing something does not change what is elsewhere. -/
theorem find_apart {t a b : Ty} {p : Path t a} {q : Path t b} (h : Apart p q) (v : t.den) (x : a.den) :
    find q (put p v x) = find q v := by
  induction h with
  | @pos s t a b k j p q hne =>
    simp only [find, put]
    cases hk : nth (X := t.den) v k with
    | none => rfl
    | some w =>
      dsimp only
      rw [nth_set_ne (X := t.den) v _ hne]
  | @key s t a b k j p q hne =>
    simp only [find, put]
    cases hk : (v : Nat → Option t.den) k with
    | none => rfl
    | some w =>
      dsimp only
      rw [if_neg (fun e => hne e.symm)]
  | @mem n fs a b i j p q hne =>
    simp only [find, put, dif_neg hne]
  | @inside t a b p q _ ih =>
    cases (v : Option t.den) with
    | none => rfl
    | some w => exact ih w x
  | @samePos s t a b k p q _ ih =>
    simp only [find, put]
    cases hk : nth (X := t.den) v k with
    | none =>
      dsimp only
      rw [hk]
    | some w =>
      dsimp only
      rw [nth_set_same _ hk]
      exact ih w x
  | @sameKey s t a b k p q _ ih =>
    simp only [find, put]
    cases hk : (v : Nat → Option t.den) k with
    | none =>
      dsimp only
      rw [hk]
    | some w =>
      simp only [if_true]
      exact ih w x
  | @sameMem n fs a b i p q _ ih =>
    simp only [find, put, dite_true]
    exact ih _ x

/-- A place in a place. -/
def Path.app : {t a b : Ty} → Path t a → Path a b → Path t b
  | _, _, _, .nil, q => q
  | _, _, _, .inside p, q => .inside (p.app q)
  | _, _, _, .pos k p, q => .pos k (p.app q)
  | _, _, _, .key k p, q => .key k (p.app q)
  | _, _, _, .mem i p, q => .mem i (p.app q)

theorem keys_app {t a b : Ty} (p : Path t a) (q : Path a b) : (p.app q).keys = p.keys ++ q.keys := by
  induction p with
  | nil => rfl
  | inside p ih => exact ih q
  | pos k p ih | key k p ih | mem i p ih => simp [Path.app, Path.keys, ih]

theorem fails_app {t a b : Ty} (p : Path t a) (q : Path a b) :
    (p.app q).fails = (p.fails || q.fails) := by
  induction p with
  | nil => simp [Path.app, Path.fails]
  | inside p ih => rfl
  | pos k p ih | key k p ih => rfl
  | mem i p ih => simp [Path.app, Path.fails, ih]

theorem tight_app {t a b : Ty} (p : Path t a) (q : Path a b) (hk : q.keys ≠ []) (hq : q.tight) :
    (p.app q).tight := by
  induction p with
  | nil => exact hq
  | inside p ih =>
    refine ⟨?_, ih q hk hq⟩
    rw [keys_app]
    simp [hk]
  | pos k p ih | key k p ih | mem i p ih => exact ih q hk hq

theorem find_app {t a b : Ty} (p : Path t a) (q : Path a b) (v : t.den) :
    find (p.app q) v = (find p v).bind (find q) := by
  induction p with
  | nil => rfl
  | @inside t a p ih =>
    cases (v : Option t.den) with
    | none => rfl
    | some w => exact ih q w
  | @pos s t a k p ih =>
    simp only [find, Path.app]
    cases hk : nth (X := t.den) v k with
    | none => rfl
    | some w => exact ih q w
  | @key s t a k p ih =>
    simp only [find, Path.app]
    cases hk : (v : Nat → Option t.den) k with
    | none => rfl
    | some w => exact ih q w
  | @mem n fs a i p ih => exact ih q _

theorem put_app {t a b : Ty} (p : Path t a) (q : Path a b) (v : t.den) (x : b.den) :
    put (p.app q) v x = match find p v with
      | none => v
      | some w => put p v (put q w x) := by
  cases h : find p v with
  | none =>
    apply put_missing
    rw [find_app, h]
    rfl
  | some w =>
    dsimp only
    induction p with
    | nil =>
      simp only [find, Option.some.injEq] at h
      subst h
      rfl
    | @inside t a p ih =>
      cases (v : Option t.den) with
      | none => exact nomatch h
      | some u => exact congrArg some (ih q u w h)
    | @pos s t a k p ih =>
      simp only [find] at h
      simp only [put, Path.app]
      cases hk : nth (X := t.den) v k with
      | none => rfl
      | some u =>
        rw [hk] at h
        dsimp only
        rw [ih q u w h]
    | @key s t a k p ih =>
      simp only [find] at h
      simp only [put, Path.app]
      cases hk : (v : Nat → Option t.den) k with
      | none => rfl
      | some u =>
        rw [hk] at h
        dsimp only
        rw [ih q u w h]
    | @mem n fs a i p ih =>
      simp only [find] at h
      simp only [put, Path.app]
      rw [ih q _ w h]

end Verif.Smart
