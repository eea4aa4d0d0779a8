import Verif.LensMove.Safe

/-
Properties C35 and C86: lenses and value categories.
-/

namespace Verif.LensMove

open Verif.Lens (assign Variant Box Cont)

/-- A struct with two strings. -/
abbrev Two := Fin 2 → String

/-- **C35 is false** for `alternative<T>`: writing `nullopt` into a moved-in variant that holds
`T` does not give the variant back, it gives its moved-from remains. -/
theorem C35_alternative_false :
    ∃ v : Variant Bool (fun _ => String),
      (alternative (T := fun _ : Bool => String) true).set v none = v ∧
      (alternative (T := fun _ : Bool => String) true).rset v none = ⟨true, ""⟩ ∧
      (alternative (T := fun _ : Bool => String) true).rset v none ≠ v :=
  ⟨⟨true, "important"⟩, rfl, rfl, by decide⟩

/-- **C35 is false** for `map_opt(attr(..))`: writing `nullopt` into a moved-in engaged optional
empties the member. -/
theorem C35_map_opt_false :
    ∃ w : Option Two,
      (mapOpt (attr (T := fun _ : Fin 2 => String) 0)).set w none = w ∧
      (mapOpt (attr (T := fun _ : Fin 2 => String) 0)).rset w none ≠ w := by
  refine ⟨some fun _ => "important", rfl, ?_⟩
  intro h
  have := congrFun (Option.some.inj h) 0
  revert this
  decide

/-- **C35 is false** for `bind_opt(attr(..))` on an optional member: writing `nullopt` into a moved-in
engaged optional empties the content of the member (and does not disengage it). -/
theorem C35_bind_opt_false :
    ∃ w : Option (Fin 1 → Option String),
      (bindOpt (attr (T := fun _ : Fin 1 => Option String) 0)).set w none = w ∧
      (bindOpt (attr (T := fun _ : Fin 1 => Option String) 0)).rset w none = some (fun _ => some "") ∧
      w = some (fun _ => some "important") := by
  refine ⟨some fun _ => some "important", rfl, ?_, rfl⟩
  show some _ = some _
  congr 1
  funext i
  match i with
  | 0 => rfl

/-- **C35 is false** for `zip`: a `nullopt` for one of the elements of a moved-in tuple empties it,
while the other is written. -/
theorem C35_zip_false :
    ∃ t : Fin 2 → Variant Bool (fun _ => String),
      (zip (fun _ : Fin 2 => alternative (T := fun _ : Bool => String) true)).rset t
        (fun i => if i = 0 then none else some "new") =
        (fun i => if i = 0 then ⟨true, ""⟩ else ⟨true, "new"⟩) ∧
      t = fun _ => ⟨true, "important"⟩ := by
  refine ⟨fun _ => ⟨true, "important"⟩, ?_, rfl⟩
  funext i
  match i with
  | 0 => rfl
  | 1 => rfl

/-- A variant holding a two-string struct on both sides. -/
abbrev Var := Variant Bool (fun _ => Two)

/-- `with_opt(alternative<Two> | map_opt(attr(0)))`. -/
def deep : MLens (Option Var) (Option String) :=
  bindOpt (comp (alternative (T := fun _ : Bool => Two) true)
    (mapOpt (attr (T := fun _ : Fin 2 => String) 0)))

/-- **C35 is false** also for engaged parts: writing a *value* into one member, through an
optional-lifted alternative, of a moved-in whole empties the sibling member. -/
theorem C35_value_write_false :
    ∃ (w : Option Var) (s s' : Two),
      w = some ⟨true, s⟩ ∧ s 1 = "sibling" ∧
      deep.rset w (some "new") = some ⟨true, s'⟩ ∧ s' 0 = "new" ∧ s' 1 = "" := by
  refine ⟨some ⟨true, fun i => if i = 0 then "old" else "sibling"⟩, _,
    assign (fun _ => "") 0 "new", rfl, by decide, ?_, by decide, by decide⟩
  show some (Sigma.mk true _) = _
  congr 2
  funext i
  match i with
  | 0 => rfl
  | 1 => rfl

/-- **C35, the part that holds**, for every lens expression: `Expr.ok` computes from the expression,
the whole and the new part when a write is covered.  A covered write to an lvalue and a covered
write to a moved-in whole both give what the lens without moves gives. -/
theorem C35_agrees {S A : Type} (e : Expr S A) (s : S) (a : A) :
    (e.ok .lval s a → e.move.set s a = Lens.set e.pure s a) ∧
    (e.ok .rval s a → e.move.rset s a = Lens.set e.pure s a) :=
  ⟨(e.ok_sound s a).1, (e.ok_sound s a).2.1⟩

/-- What is covered by `C35_agrees`, in plain words.  For a moved-in whole: `attr`, `element`,
`unbox`, `at`, `at_or`, `value_or`, `force_opt` and `getset`, always; `alternative` unless
`nullopt` is written over a value; a type-erased lens whenever the write is covered for an lvalue;
a composition if both writes it consists of are. -/
theorem C35_covered :
    (∀ {ι : Type} [DecidableEq ι] {T : ι → Type} (m : ι) (s : ∀ i, T i) (a : T m),
      (Expr.attr m).ok .rval s a) ∧
    (∀ {C K X : Type} (ct : Cont C K X) (k : K) (c : C) (q : Option X),
      (Expr.at' ct k).ok .rval c q) ∧
    (∀ {C K X : Type} (ct : Cont C K X) (k : K) (d : X) (c : C) (x : X),
      (Expr.atOr ct k d).ok .rval c x) ∧
    (∀ {T : Type} (b : Box T) (x : T), Expr.unbox.ok .rval b x) ∧
    (∀ {T : Type} [Husk T] (d : T) (w : Option T) (x : T), (Expr.valueOr d).ok .rval w x) ∧
    (∀ {T : Type} [Husk T] (x : T) (q : Option T), Expr.forceOpt.ok .rval x q) ∧
    (∀ {ι : Type} [DecidableEq ι] {T : ι → Type} [∀ i, Husk (T i)] (i : ι) (v : Variant ι T)
      (x : T i), (Expr.alternative i).ok .rval v (some x)) ∧
    (∀ {ι : Type} [DecidableEq ι] {T : ι → Type} [∀ i, Husk (T i)] (i : ι) (v : Variant ι T)
      (q : Option (T i)), v.1 ≠ i → (Expr.alternative i).ok .rval v q) ∧
    (∀ {S A : Type} (e : Expr S A) (s : S) (a : A), e.ok .lval s a →
      (Expr.erased e).ok .rval s a) ∧
    (∀ {S A B : Type} (e : Expr S A) (e' : Expr A B) (s : S) (b : B), e.move.tempR = true →
      e'.ok .rval (Lens.view e.pure s) b →
      e.ok .rval s (Lens.set e'.pure (Lens.view e.pure s) b) →
      (Expr.comp e e').ok .rval s b) :=
  ⟨fun _ _ _ => trivial, fun _ _ _ _ => trivial, fun _ _ _ _ _ => trivial, fun _ _ => trivial,
   fun _ _ _ => trivial, fun _ _ => trivial, fun _ _ _ _ => rfl, fun _ _ _ h h' => absurd h' h,
   fun _ _ _ h => h, fun e e' s b ht h h' => ⟨by rw [ht]; exact h, h'⟩⟩

/-- The same for chains of members lifted to optionals, `map_opt(attr(m1) | attr(m2) | …)`: every
write to an lvalue, and every write of a value to a moved-in whole. -/
theorem C35_map_opt_covered {W P : Type} [Husk P] (e : Expr W P) (hin : e.place = .inside)
    (w : Option W) (q : Option P) :
    (Expr.mapOpt e).ok .lval w q ∧ (q.isSome → (Expr.mapOpt e).ok .rval w q) := by
  have hall : ∀ {S A : Type} (e : Expr S A), e.place = .inside → ∀ s a,
      e.ok .lval s a ∧ e.ok .rval s a ∧ e.ok .left s a := by
    intro S A e
    induction e with
    | ident => exact fun _ _ _ => ⟨trivial, trivial, trivial⟩
    | attr m => exact fun _ _ _ => ⟨trivial, trivial, trivial⟩
    | comp e e' ih ih' =>
      intro hp s a
      cases he : e.place with
      | taken => simp [Expr.place, he] at hp
      | copied => simp [Expr.place, he] at hp
      | inside =>
        have hp' : e'.place = .inside := by simpa [Expr.place, he] using hp
        have hi := ih he s (Lens.set e'.pure (Lens.view e.pure s) a)
        have hi' := ih' hp' (Lens.view e.pure s) a
        refine ⟨⟨?_, hi.1⟩, ⟨?_, hi.2.1⟩, ?_⟩
        · split
          · exact hi'.2.1
          · exact hi'.1
        · split
          · exact hi'.2.1
          · exact hi'.1
        · simp only [Expr.ok, he]
          exact hi'.2.2
    | mapOpt e ih => intro hp; revert hp; simp only [Expr.place]; split <;> simp
    | bindOpt e ih => intro hp; revert hp; simp only [Expr.place]; split <;> simp
    | _ => intro hp; simp [Expr.place] at hp
  refine ⟨fun w p _ _ => (hall e hin w p).1, fun hq => ⟨fun w p _ _ => (hall e hin w p).2.2, ?_⟩⟩
  intro _ hn
  rw [hn] at hq
  simp at hq

/-- An instance: `attr(0) | alternative<Two> | map_opt(attr(1))` on a moved-in whole, writing a
value. -/
example (s : Fin 1 → Var) (x : String) :
    (Expr.comp (.attr (T := fun _ : Fin 1 => Var) 0)
      (.comp (.alternative (T := fun _ : Bool => Two) true)
        (.mapOpt (.attr (T := fun _ : Fin 2 => String) 1)))).ok .rval s (some x) := by
  refine ⟨⟨⟨fun _ _ _ _ => trivial, fun _ h => by simp at h⟩, fun h => ?_⟩, trivial⟩
  obtain ⟨v, hv⟩ : ∃ v, Lens.view (Expr.alternative (T := fun _ : Bool => Two) true).pure
      (s 0) = some v := ⟨_, dif_pos h⟩
  show (Lens.set _ (Lens.view (Expr.alternative (T := fun _ : Bool => Two) true).pure (s 0)) _).isSome
  rw [hv]
  rfl

/-! ### C86 -/

/-- A vector of two-string structs. -/
abbrev People := Verif.Lens.seqCont Two .inPlace

/-- `at(0) | map_opt(attr(name))`. -/
def name0 : Expr (List Two) (Option String) :=
  .comp (.at' People 0) (.mapOpt (.attr (T := fun _ : Fin 2 => String) 0))

/-- **C86 is false in general**: `set(at(0) | map_opt(attr(name)), people, nullopt)` with `people` an
*lvalue* empties the name of the first person, although the lens without moves leaves the whole as
it is: `at` hands a copy of the person to `map_opt` as a temporary, `map_opt` moves the name out to
show it, and then gives the remains back to be stored. -/
theorem C86_nullopt_false :
    ∃ people : List Two,
      Lens.set name0.pure people none = people ∧
      (name0.move.set people none)[0]?.map (fun p => (p 0, p 1)) = some ("", "Lovelace") ∧
      people[0]?.map (fun p => (p 0, p 1)) = some ("Ada", "Lovelace") :=
  ⟨[fun i => if i = 0 then "Ada" else "Lovelace"], rfl, rfl, rfl⟩

/-- **C86 is false in general** also for values: writing a new value through
`with_opt(alternative<T> | map_opt(attr(m)))` after a lens that makes a temporary, here `at(0)`,
empties the sibling members, with an lvalue whole. -/
theorem C86_value_false :
    ∃ (vs : List Var) (s s' : Two),
      vs = [⟨true, s⟩] ∧ s 1 = "sibling" ∧
      (Expr.comp (.at' (Verif.Lens.seqCont Var .inPlace) 0)
        (.bindOpt (.comp (.alternative (T := fun _ : Bool => Two) true)
          (.mapOpt (.attr (T := fun _ : Fin 2 => String) 0))))).move.set vs (some "new") =
        [⟨true, s'⟩] ∧ s' 0 = "new" ∧ s' 1 = "" := by
  refine ⟨[⟨true, fun i => if i = 0 then "old" else "sibling"⟩], _,
    assign (fun _ => "") 0 "new", rfl, by decide, ?_, by decide, by decide⟩
  show [Sigma.mk true _] = _
  congr 2
  funext i
  match i with
  | 0 => rfl
  | 1 => rfl

/-- **C86**: with an lvalue whole, every write that `Expr.ok` covers does what the lens without moves
does.  A single lens of the library is always covered, and so is everything behind a lens that
passes an lvalue on, and the writes behind one that makes a temporary if they are covered for
moved-in wholes. -/
theorem C86_lvalue {S A : Type} (e : Expr S A) (s : S) (a : A) (h : e.ok .lval s a) :
    e.move.set s a = Lens.set e.pure s a :=
  (C35_agrees e s a).1 h

theorem C86_covered :
    (∀ {W P : Type} [Husk P] (e : Expr W P) (w : Option W) (q : Option P),
      (∀ w p, e.ok .lval w p) → (Expr.mapOpt e).ok .lval w q) ∧
    (∀ {W P : Type} [Husk P] (e : Expr W (Option P)) (w : Option W) (q : Option P),
      (∀ w p, e.ok .lval w p) → (Expr.bindOpt e).ok .lval w q) ∧
    (∀ {ι : Type} [DecidableEq ι] {T : ι → Type} [∀ i, Husk (T i)] (i : ι) (v : Variant ι T)
      (q : Option (T i)), (Expr.alternative i).ok .lval v q) ∧
    (∀ {S A B : Type} (e : Expr S A) (e' : Expr A B) (s : S) (b : B),
      (if e.move.tempL then e'.ok .rval (Lens.view e.pure s) b
        else e'.ok .lval (Lens.view e.pure s) b) →
      e.ok .lval s (Lens.set e'.pure (Lens.view e.pure s) b) → (Expr.comp e e').ok .lval s b) := by
  refine ⟨fun e w q h w' p _ _ => h w' p, fun e w q h w' p _ _ => h w' (some p),
    fun _ _ _ => trivial, ?_⟩
  intro S A B e e' s b h h'
  refine ⟨?_, h'⟩
  cases ht : e.move.tempL with
  | true => simpa [ht] using h
  | false => simpa [ht] using h

/-- **C86**: behind members, `unbox` and the identity, lvalues stay lvalues, so whatever is right there
for lvalues is right behind them; behind `unbox` this is so for moved-in boxes too. -/
theorem C86_members {ι : Type} [DecidableEq ι] {T : ι → Type} (m : ι) {B : Type} (e : Expr (T m) B)
    (s : ∀ i, T i) (b : B) (h : e.ok .lval (s m) b) :
    (Expr.comp (.attr m) e).move.set s b = Lens.set (Expr.comp (.attr m) e).pure s b :=
  C86_lvalue _ _ _ ⟨h, trivial⟩

theorem C86_unbox {T B : Type} (e : Expr T B) (x : Box T) (b : B) (h : e.ok .lval x.get b) :
    (Expr.comp .unbox e).move.set x b = Lens.set (Expr.comp .unbox e).pure x b ∧
    (Expr.comp .unbox e).move.rset x b = Lens.set (Expr.comp .unbox e).pure x b :=
  ⟨(C35_agrees _ _ _).1 ⟨h, trivial⟩, (C35_agrees _ _ _).2 ⟨h, trivial⟩⟩

/-- In particular writing `nullopt` through `attr(m) | map_opt(attr(..))` to an lvalue leaves it as
it is. -/
example (s : Fin 1 → Option Two) :
    (Expr.comp (.attr (T := fun _ : Fin 1 => Option Two) 0)
      (.mapOpt (.attr (T := fun _ : Fin 2 => String) 0))).move.set s none = s := by
  have hok : Expr.ok .lval (.mapOpt (.attr (T := fun _ : Fin 2 => String) 0)) (s 0) none :=
    fun _ _ _ _ => trivial
  have h := C86_members (T := fun _ : Fin 1 => Option Two) 0
    (.mapOpt (.attr (T := fun _ : Fin 2 => String) 0)) s none hok
  rw [h]
  show assign s 0 (Lens.set (Lens.mapOpt (Lens.attr (T := fun _ : Fin 2 => String) 0)) (s 0) none) = s
  have : Lens.set (Lens.mapOpt (Lens.attr (T := fun _ : Fin 2 => String) 0)) (s 0) none = s 0 := by
    cases h : s 0 <;> rfl
  rw [this]
  exact Lens.assign_self s 0

/-- **C86**: writing a value, or writing to a key that is not there, through `at(k) | map_opt(attr)`
is right. -/
theorem C86_at_member (k : Nat) (people : List Two) (q : Option String)
    (h : q.isSome ∨ people[k]? = none) :
    (Expr.comp (.at' People k) (.mapOpt (.attr (T := fun _ : Fin 2 => String) 0))).move.set people q =
      Lens.set (Expr.comp (.at' People k)
        (.mapOpt (.attr (T := fun _ : Fin 2 => String) 0))).pure people q := by
  refine C86_lvalue _ _ _ ⟨⟨fun _ _ _ _ => trivial, fun hs hn => ?_⟩, trivial⟩
  rcases h with h | h
  · rw [hn] at h; simp at h
  · have hv : Lens.view (Expr.at' People k).pure people = none := h
    rw [hv] at hs
    simp at hs

example : (name0.move.set [fun i => if i = 0 then "Ada" else "Lovelace"] (some "Augusta"))[0]?.map
    (fun p => (p 0, p 1)) = some ("Augusta", "Lovelace") := rfl

/-- **C86**: a lens behind `lager::lens<W, P>` gives for a moved-in whole what it gives for an
lvalue.  This differs from the bare lens: for `alternative<T>` and `nullopt` the erased lens leaves
the moved-in whole as it is. -/
theorem C86_erased {S A : Type} (e : Expr S A) (s : S) (a : A) :
    (Expr.erased e).move.rset s a = (Expr.erased e).move.set s a ∧
    (Expr.erased e).move.set s a = e.move.set s a ∧
    (e.ok .lval s a → (Expr.erased e).move.rset s a = Lens.set e.pure s a) :=
  ⟨rfl, rfl, (C35_agrees e s a).1⟩

example : ∃ v : Variant Bool (fun _ => String),
    (Expr.erased (.alternative (T := fun _ : Bool => String) true)).move.rset v none = v ∧
    (Expr.alternative (T := fun _ : Bool => String) true).move.rset v none ≠ v :=
  ⟨⟨true, "important"⟩, rfl, by decide⟩

/-- Reading never gives anything but what the lens without moves gives, for lvalues and moved-in
wholes. -/
theorem C86_view {S A : Type} (e : Expr S A) (s : S) : e.move.view s = Lens.view e.pure s :=
  e.view_eq s

end Verif.LensMove
