import Verif.Lens.Lemmas

/-
Property theorems C28-C34, C36, C37 about lenses.
-/

namespace Verif.Lens

/-! ### C28 -/

/-- **C28** (first half): `over(l, s, f) = set(l, s, f(view(l, s)))`. -/
theorem C28_over {S A : Type} {l : VL S A} (h : LibLens l) (s : S) (f : A → A) :
    over l s f = set l s (f (view l s)) :=
  h.implements.over_eq s f

/-- **C28** (second half): composing lenses composes the views and nests the sets. -/
theorem C28_comp {S A B : Type} {l : VL S A} {m : VL A B} (hl : LibLens l) (hm : LibLens m) :
    (∀ s, view (comp l m) s = view m (view l s)) ∧
    (∀ s b, set (comp l m) s b = set l s (set m (view l s) b)) :=
  ⟨(implements_comp hl.implements hm.implements).view_eq,
   (implements_comp hl.implements hm.implements).set_eq⟩

/-- A library lens seen through any lawful functor is determined by its `view` and `set`. -/
theorem C28_functor {S A : Type} {l : VL S A} (h : LibLens l) (F : Type → Type) [Functor F]
    [LawfulFunctor F] (f : A → F A) (s : S) :
    l F f s = (fun a => set l s a) <$> f (view l s) :=
  h.implements F f s

/-- Composition of lenses is associative and `ident` is its unit. -/
theorem C28_category {S A B C : Type} (l : VL S A) (m : VL A B) (n : VL B C) :
    comp (comp l m) n = comp l (comp m n) ∧ comp ident l = l ∧ comp l ident = l :=
  ⟨rfl, rfl, rfl⟩

/-- `vector<optional<..>>` style composition: `at(1) | value_or(7)`. -/
def exLens : VL (List Nat) Nat := comp (at' (seqCont Nat .inPlace) 1) (valueOr 7)

example : LibLens exLens := .comp (.at' _ _) (.valueOr _)
example : view exLens [1, 2, 3] = 2 ∧ set exLens [1, 2, 3] 9 = [1, 9, 3] ∧
    over exLens [1, 2, 3] (· + 5) = [1, 7, 3] ∧ view exLens [1] = 7 := by decide

/-! ### C29 -/

/-- **C29**: `attr` satisfies the lens laws. -/
theorem C29_attr {ι : Type} [DecidableEq ι] {T : ι → Type} (m : ι) : Lawful (attr (T := T) m) where
  set_view s a := assign_same s m a
  view_set s := assign_self s m
  set_set s a b := assign_assign s m a b

/-- **C29**: `attr` writes no other field. -/
theorem C29_attr_frame {ι : Type} [DecidableEq ι] {T : ι → Type} (m j : ι) (h : m ≠ j)
    (s : ∀ i, T i) (a : T m) : set (attr m) s a j = s j :=
  assign_ne s a h

/-- **C29**: `element<N>` satisfies the lens laws and writes no other element. -/
theorem C29_element {n : Nat} {T : Fin n → Type} (i : Fin n) :
    Lawful (element (T := T) i) ∧
    ∀ (s : ∀ i, T i) (a : T i) (j : Fin n), i ≠ j → set (element i) s a j = s j :=
  ⟨{ set_view := fun s a => assign_same s i a
     view_set := fun s => assign_self s i
     set_set := fun s a b => assign_assign s i a b },
   fun s a _ h => assign_ne s a h⟩

/-- **C29**: `unbox` satisfies the lens laws. -/
theorem C29_unbox {T : Type} : Lawful (unbox (T := T)) where
  set_view _ _ := rfl
  view_set _ := rfl
  set_set _ _ _ := rfl

/-- **C29**: the identity lens satisfies the lens laws. -/
theorem C29_ident {T : Type} : Lawful (ident (S := T)) where
  set_view _ _ := rfl
  view_set _ := rfl
  set_set _ _ _ := rfl

/-- **C29**: compositions of lawful library lenses are lawful. -/
theorem C29_comp {S A B : Type} {l : VL S A} {m : VL A B} (hl : LibLens l) (hm : LibLens m)
    (ll : Lawful l) (lm : Lawful m) : Lawful (comp l m) := by
  obtain ⟨hv, hs⟩ := C28_comp hl hm
  constructor
  · intro s b; rw [hv, hs, ll.set_view, lm.set_view]
  · intro s; rw [hv, hs, lm.view_set, ll.view_set]
  · intro s a b; rw [hs, hs, hs, ll.set_view, lm.set_set, ll.set_set]

/-- **C29**: `zip` of lawful lenses is lawful. -/
theorem C29_zip {n : Nat} {S A : Fin n → Type} (ls : ∀ i, VL (S i) (A i))
    (h : ∀ i, Lawful (ls i)) : Lawful (zip ls) where
  set_view s a := funext fun i => (h i).set_view (s i) (a i)
  view_set s := funext fun i => (h i).view_set (s i)
  set_set s a b := funext fun i => (h i).set_set (s i) (a i) (b i)

/-- `zip` works component by component. -/
theorem C29_zip_pointwise {n : Nat} {S A : Fin n → Type} (ls : ∀ i, VL (S i) (A i))
    (s : ∀ i, S i) (a : ∀ i, A i) (i : Fin n) :
    view (zip ls) s i = view (ls i) (s i) ∧ set (zip ls) s a i = set (ls i) (s i) (a i) :=
  ⟨rfl, rfl⟩

/-- A three-field struct in a box in a struct: depth three composition. -/
example : Lawful (comp (attr (T := fun _ : Bool => Box (Fin 3 → Nat)) true)
    (comp unbox (element 1))) :=
  C29_comp (.attr _) (.comp .unbox (.element _)) (C29_attr _)
    (C29_comp .unbox (.element _) C29_unbox (C29_element 1).1)
example : (set (attr (T := fun _ : Fin 3 => Nat) 1) (fun i => i.val) 9) 1 = 9 ∧
    (set (attr (T := fun _ : Fin 3 => Nat) 1) (fun i => i.val) 9) 2 = 2 := by decide

/-! ### C30 -/

/-- **C30**, for any container that obeys the container laws: what `at(k)` shows; that a write
to a present key replaces exactly that element; that a write to an absent key or of `nullopt`
is inert; that no write makes a key present or absent. -/
theorem C30_at {C K X : Type} [DecidableEq K] (ct : Cont C K X) (hc : ContLaws ct) (k : K)
    (c : C) :
    (view (at' ct k) c = ct.at? c k) ∧
    (∀ x, (ct.at? c k).isSome →
      ct.at? (set (at' ct k) c (some x)) k = some x ∧
      ∀ j, j ≠ k → ct.at? (set (at' ct k) c (some x)) j = ct.at? c j) ∧
    (∀ v, ct.at? c k = none → set (at' ct k) c v = c) ∧
    (set (at' ct k) c none = c) ∧
    (∀ v j, (ct.at? (set (at' ct k) c v) j).isSome = (ct.at? c j).isSome) := by
  refine ⟨rfl, ?_, ?_, ?_, ?_⟩
  · intro x hx
    rw [at_set_eq]
    obtain ⟨y, hy⟩ := Option.isSome_iff_exists.mp hx
    simp only [hy]
    exact ⟨hc.at_store c k x hx, fun j hj => hc.at_other c k j x hj⟩
  · intro v hv
    rw [at_set_eq]
    cases v <;> simp [hv]
  · rw [at_set_eq]
  · intro v j
    rw [at_set_eq]
    cases v with
    | none => rfl
    | some x =>
      cases h : ct.at? c k with
      | none => rfl
      | some y =>
        simp only
        by_cases hj : j = k
        · subst hj; rw [hc.at_store c j x (by simp [h]), h]; rfl
        · rw [hc.at_other c k j x hj]

/-- **C30** for sequences, in terms of lists. -/
theorem C30_at_seq {X : Type} (style : Style) (k : Nat) (l : List X) :
    (view (at' (seqCont X style) k) l = l[k]?) ∧
    (∀ x, k < l.length → set (at' (seqCont X style) k) l (some x) = l.set k x) ∧
    (∀ v, l.length ≤ k → set (at' (seqCont X style) k) l v = l) ∧
    (set (at' (seqCont X style) k) l none = l) ∧
    (∀ v, (set (at' (seqCont X style) k) l v).length = l.length) := by
  have key : ∀ v, set (at' (seqCont X style) k) l v = match v with
      | some x => l.set k x
      | none => l := by
    intro v
    rw [at_set_eq]
    cases v with
    | none => rfl
    | some x =>
      by_cases h : k < l.length
      · have e : (seqCont X style).at? l k = some l[k] := List.getElem?_eq_getElem h
        simp only [e]; rfl
      · have e : (seqCont X style).at? l k = none := List.getElem?_eq_none (by omega)
        simp only [e]
        exact (List.set_eq_of_length_le (by omega)).symm
  refine ⟨rfl, fun x _ => key (some x), ?_, key none, ?_⟩
  · intro v hv
    rw [key]
    cases v with
    | none => rfl
    | some x => exact List.set_eq_of_length_le hv
  · intro v
    rw [key]
    cases v with
    | none => rfl
    | some x => exact List.length_set

/-- **C30** for maps, in terms of finite-map lookup. -/
theorem C30_at_map {K X : Type} [DecidableEq K] (style : Style) (k : K) (m : K → Option X) :
    (view (at' (mapCont K X style) k) m = m k) ∧
    (∀ x, (m k).isSome →
      set (at' (mapCont K X style) k) m (some x) = fun j => if j = k then some x else m j) ∧
    (∀ v, m k = none → set (at' (mapCont K X style) k) m v = m) ∧
    (set (at' (mapCont K X style) k) m none = m) := by
  have h := C30_at (mapCont K X style) (mapCont_laws K X style) k m
  refine ⟨rfl, ?_, h.2.2.1, h.2.2.2.1⟩
  intro x hx
  rw [at_set_eq]
  obtain ⟨y, hy⟩ := Option.isSome_iff_exists.mp hx
  have : (mapCont K X style).at? m k = some y := hy
  simp only [this]
  rfl

/-- **C30**: on present keys and engaged parts `at(k)` obeys all lens laws. -/
theorem C30_at_lawful {C K X : Type} (ct : Cont C K X) (hc : ContLaws ct) (k : K) :
    LawfulOn (at' ct k) (fun c => (ct.at? c k).isSome) (fun v => v.isSome) := by
  have hset : ∀ c x, (ct.at? c k).isSome → set (at' ct k) c (some x) = ct.store c k x := by
    intro c x h
    rw [at_set_eq]
    obtain ⟨y, hy⟩ := Option.isSome_iff_exists.mp h
    simp only [hy]
  constructor
  · intro c v hs hv
    obtain ⟨x, rfl⟩ := Option.isSome_iff_exists.mp hv
    rw [hset c x hs, hc.at_store c k x hs]; rfl
  · intro c v hs hv
    obtain ⟨x, rfl⟩ := Option.isSome_iff_exists.mp hv
    rw [hset c x hs]; exact hc.at_store c k x hs
  · intro c hs
    obtain ⟨y, hy⟩ := Option.isSome_iff_exists.mp hs
    rw [at_view_eq, hy, hset c y hs]; exact hc.store_same c k y hy
  · intro c v w hs hv hw
    obtain ⟨x, rfl⟩ := Option.isSome_iff_exists.mp hv
    obtain ⟨y, rfl⟩ := Option.isSome_iff_exists.mp hw
    rw [hset c x hs, hset c y hs, hset _ y (by rw [hc.at_store c k x hs]; rfl)]
    exact hc.store_store c k x y

/-- **C30**: "setting what is viewed changes nothing" and "a second set of a value overrides
the first" hold for *every* key, but "what was set is viewed" fails on absent keys. -/
theorem C30_at_law_limits {C K X : Type} (ct : Cont C K X) (hc : ContLaws ct) (k : K) (c : C) :
    set (at' ct k) c (view (at' ct k) c) = c ∧
    (∀ x, ct.at? c k = none → view (at' ct k) (set (at' ct k) c (some x)) = none) := by
  constructor
  · rw [at_view_eq]
    cases h : ct.at? c k with
    | none => rw [at_set_eq]
    | some y => rw [at_set_eq]; simp only [h]; exact hc.store_same c k y h
  · intro x h
    rw [at_set_eq]; simp only [h]; exact h

/-- **C30**, the third kind of container (`insert(value)`, as in `immer::table`): the key is
ignored when writing, so a write to an absent key inserts. -/
theorem C30_at_insert_not_inert :
    ∃ (C K X : Type) (at? : C → K → Option X) (insert : C → X → C) (k : K) (c : C) (x : X),
      at? c k = none ∧ set (atInsert at? insert k) c (some x) ≠ c ∧
      at? (set (atInsert at? insert k) c (some x)) k = some x :=
  ⟨List Nat, Nat, Nat, fun l k => l.find? (· == k), fun l x => x :: l, 3, [], 3, by decide⟩

example : ((seqCont Nat .persistent).at? [4, 5] 1).isSome := by decide
example : set (at' (seqCont Nat .persistent) 1) [4, 5] (some 8) = [4, 8] ∧
    set (at' (seqCont Nat .persistent) 2) [4, 5] (some 8) = [4, 5] := by decide

/-! ### C31 -/

/-- **C31**, for any container that obeys the container laws. -/
theorem C31_at_or {C K X : Type} (ct : Cont C K X) (hc : ContLaws ct) (k : K) (d : X) (c : C) :
    (∀ x, ct.at? c k = some x → view (atOr ct k d) c = x) ∧
    (ct.at? c k = none → view (atOr ct k d) c = d) ∧
    (∀ x, (ct.at? c k).isSome →
      ct.at? (set (atOr ct k d) c x) k = some x ∧
      ∀ j, j ≠ k → ct.at? (set (atOr ct k d) c x) j = ct.at? c j) ∧
    (∀ x, ct.at? c k = none → set (atOr ct k d) c x = c) := by
  refine ⟨?_, ?_, ?_, ?_⟩
  · intro x h; rw [atOr_view_eq, h]
  · intro h; rw [atOr_view_eq, h]
  · intro x hx
    rw [atOr_set_eq]
    obtain ⟨y, hy⟩ := Option.isSome_iff_exists.mp hx
    simp only [hy]
    exact ⟨hc.at_store c k x hx, fun j hj => hc.at_other c k j x hj⟩
  · intro x h; rw [atOr_set_eq]; simp only [h]

/-- **C31** for sequences: a list lookup with default, and a write that never extends. -/
theorem C31_at_or_seq {X : Type} (style : Style) (k : Nat) (d : X) (l : List X) :
    (view (atOr (seqCont X style) k d) l = if h : k < l.length then l[k] else d) ∧
    (∀ x, set (atOr (seqCont X style) k d) l x = l.set k x) := by
  constructor
  · rw [atOr_view_eq]
    show (match l[k]? with | some x => x | none => d) = _
    by_cases h : k < l.length
    · rw [List.getElem?_eq_getElem h]; simp [h]
    · rw [List.getElem?_eq_none (by omega)]; simp [h]
  · intro x
    rw [atOr_set_eq]
    show (match l[k]? with | some _ => l.set k x | none => l) = _
    by_cases h : k < l.length
    · rw [List.getElem?_eq_getElem h]
    · have hk : l.length ≤ k := by omega
      rw [List.getElem?_eq_none hk]
      exact (List.set_eq_of_length_le hk).symm

/-- **C31**: `at_or` is lawful on present keys; viewing then setting is always inert. -/
theorem C31_at_or_lawful {C K X : Type} (ct : Cont C K X) (hc : ContLaws ct) (k : K) (d : X) :
    LawfulOn (atOr ct k d) (fun c => (ct.at? c k).isSome) (fun _ => True) ∧
    ∀ c, set (atOr ct k d) c (view (atOr ct k d) c) = c := by
  have hset : ∀ c x, (ct.at? c k).isSome → set (atOr ct k d) c x = ct.store c k x := by
    intro c x h
    rw [atOr_set_eq]
    obtain ⟨y, hy⟩ := Option.isSome_iff_exists.mp h
    simp only [hy]
  refine ⟨⟨?_, ?_, ?_, ?_⟩, ?_⟩
  · intro c x hs _
    rw [hset c x hs, hc.at_store c k x hs]; rfl
  · intro c x hs _
    rw [hset c x hs, atOr_view_eq, hc.at_store c k x hs]
  · intro c hs
    obtain ⟨y, hy⟩ := Option.isSome_iff_exists.mp hs
    rw [hset c _ hs, atOr_view_eq, hy]; exact hc.store_same c k y hy
  · intro c x y hs _ _
    rw [hset c x hs, hset c y hs, hset _ y (by rw [hc.at_store c k x hs]; rfl)]
    exact hc.store_store c k x y
  · intro c
    rw [atOr_set_eq, atOr_view_eq]
    cases h : ct.at? c k with
    | none => rfl
    | some y => exact hc.store_same c k y h

example : view (atOr (seqCont Nat .inPlace) 5 42) [1, 2] = 42 ∧
    set (atOr (seqCont Nat .inPlace) 5 42) [1, 2] 7 = [1, 2] ∧
    set (atOr (seqCont Nat .inPlace) 0 42) [1, 2] 7 = [7, 2] := by decide

/-! ### C32 -/

/-- **C32**: `value_or(d)`. -/
theorem C32_value_or {T : Type} (d : T) :
    (∀ v, view (valueOr d) (some v) = v) ∧
    (view (valueOr d) none = d) ∧
    (∀ w x, set (valueOr d) w x = some x) ∧
    (∀ w x, view (valueOr d) (set (valueOr d) w x) = x) ∧
    (∀ w x y, set (valueOr d) (set (valueOr d) w x) y = set (valueOr d) w y) ∧
    (∀ w, set (valueOr d) w (view (valueOr d) w) = w ↔ w.isSome) := by
  refine ⟨fun _ => rfl, rfl, fun _ _ => rfl, fun _ _ => rfl, fun _ _ _ => rfl, ?_⟩
  intro w
  cases w with
  | none => simp [set, valueOr, view]
  | some v => simp; rfl

example : set (valueOr 3) (some 8) (view (valueOr 3) (some 8)) = some 8 := by decide

/-! ### C33 -/

/-- **C33**: `map_opt` (and `with_opt` of a lens with a plain part). -/
theorem C33_map_opt {W P : Type} {l : VL W P} :
    (∀ w, view (mapOpt l) (some w) = some (view l w)) ∧
    (view (mapOpt l) none = none) ∧
    (∀ w p, set (mapOpt l) (some w) (some p) = some (set l w p)) ∧
    (∀ w, set (mapOpt l) w none = w) ∧
    (∀ q, set (mapOpt l) none q = none) ∧
    (∀ w q, (set (mapOpt l) w q).isSome = w.isSome) := by
  refine ⟨fun _ => rfl, rfl, fun _ _ => rfl, ?_, fun _ => rfl, ?_⟩
  · intro w; cases w <;> rfl
  · intro w q; cases w <;> cases q <;> rfl

/-- **C33**: `bind_opt` (and `with_opt` of a lens with an optional part). -/
theorem C33_bind_opt {W P : Type} {l : VL W (Option P)} :
    (∀ w, view (bindOpt l) (some w) = view l w) ∧
    (view (bindOpt l) none = none) ∧
    (∀ w p, set (bindOpt l) (some w) (some p) = some (set l w (some p))) ∧
    (∀ w, set (bindOpt l) w none = w) ∧
    (∀ q, set (bindOpt l) none q = none) ∧
    (∀ w q, (set (bindOpt l) w q).isSome = w.isSome) := by
  refine ⟨fun _ => rfl, rfl, fun _ _ => rfl, ?_, fun _ => rfl, ?_⟩
  · intro w; cases w <;> rfl
  · intro w q; cases w <;> cases q <;> rfl

/-- **C33**: lawful inner lenses give lifted lenses that are lawful on engaged wholes and parts. -/
theorem C33_map_opt_lawful {W P : Type} {l : VL W P} (h : Lawful l) :
    LawfulOn (mapOpt l) (fun w => w.isSome) (fun p => p.isSome) := by
  constructor
  · intro w q hw hq; cases w <;> cases q <;> first | rfl | cases hw | cases hq
  · intro w q hw hq
    cases w with
    | none => cases hw
    | some w =>
      cases q with
      | none => cases hq
      | some q => exact congrArg some (h.set_view w q)
  · intro w hw
    cases w with
    | none => cases hw
    | some w => exact congrArg some (h.view_set w)
  · intro w q r hw hq hr
    cases w with
    | none => cases hw
    | some w =>
      cases q with
      | none => cases hq
      | some q =>
        cases r with
        | none => cases hr
        | some r => exact congrArg some (h.set_set w q r)

/-- **C33**: the same for `bind_opt` of a partial lens. -/
theorem C33_bind_opt_lawful {W P : Type} {l : VL W (Option P)} {A : W → Prop}
    (h : LawfulOn l A (fun p => p.isSome)) (hv : ∀ w, A w → (view l w).isSome) :
    LawfulOn (bindOpt l) (fun w => ∃ x, w = some x ∧ A x) (fun p => p.isSome) := by
  constructor
  · rintro w q ⟨x, rfl, hx⟩ hq
    cases q with
    | none => cases hq
    | some q => exact ⟨_, rfl, h.stays x (some q) hx rfl⟩
  · rintro w q ⟨x, rfl, hx⟩ hq
    cases q with
    | none => cases hq
    | some q => exact h.set_view x (some q) hx rfl
  · rintro w ⟨x, rfl, hx⟩
    have h1 := hv x hx
    have h2 := h.view_set x hx
    obtain ⟨y, hy⟩ := Option.isSome_iff_exists.mp h1
    rw [hy] at h2
    show set (bindOpt l) (some x) (view l x) = some x
    rw [hy]
    exact congrArg some h2
  · rintro w q r ⟨x, rfl, hx⟩ hq hr
    cases q with
    | none => cases hq
    | some q =>
      cases r with
      | none => cases hr
      | some r => exact congrArg some (h.set_set x (some q) (some r) hx rfl rfl)

/-- C33: `force_opt` shows the part as present, replaces it on a present write, keeps it on an absent one; it is a lens
on present parts. -/
theorem C33_force_opt {T : Type} :
    (∀ t : T, view forceOpt t = some t) ∧ (∀ t v : T, set forceOpt t (some v) = v) ∧
    (∀ t : T, set forceOpt t none = t) ∧
    LawfulOn (forceOpt (T := T)) (fun _ => True) (fun p => p.isSome) := by
  refine ⟨fun _ => rfl, fun _ _ => rfl, fun _ => rfl, fun _ _ _ _ => trivial, ?_, fun _ _ => rfl, ?_⟩
  · intro s a _ ha
    cases a with
    | none => cases ha
    | some v => rfl
  · intro s a b _ ha hb
    cases a with
    | none => cases ha
    | some v =>
      cases b with
      | none => cases hb
      | some w => rfl

example : view forceOpt 3 = some 3 ∧ set forceOpt 3 (some 5) = 5 ∧ set forceOpt 3 none = 3 := ⟨rfl, rfl, rfl⟩

/-- **C33**: lifting commutes with composition. -/
theorem C33_map_opt_comp {W P Q : Type} {l : VL W P} {m : VL P Q} (hl : LibLens l)
    (hm : LibLens m) (hl' : ∀ w, set l w (view l w) = w) :
    (∀ w, view (mapOpt (comp l m)) w = view (comp (mapOpt l) (mapOpt m)) w) ∧
    (∀ w q, set (mapOpt (comp l m)) w q = set (comp (mapOpt l) (mapOpt m)) w q) := by
  obtain ⟨hv, hs⟩ := C28_comp hl hm
  obtain ⟨hv', hs'⟩ := C28_comp (.mapOpt hl) (.mapOpt hm)
  constructor
  · intro w
    rw [hv']
    cases w with
    | none => rfl
    | some w => exact congrArg some (hv w)
  · intro w q
    rw [hs']
    cases w with
    | none => rfl
    | some w =>
      cases q with
      | none =>
        exact congrArg some (hl' w).symm
      | some q => exact congrArg some (hs w q)

example : (view (mapOpt (element (T := fun _ : Fin 2 => Nat) 1)) (some fun i => i.val + 4)) = some 5 := by
  decide

/-! ### C34 -/

/-- **C34**: `alternative<T>` (the variant is not an rvalue; see C35 for rvalues). -/
theorem C34_alternative {ι : Type} [DecidableEq ι] {T : ι → Type} (i : ι) :
    (∀ x : T i, view (alternative (T := T) i) ⟨i, x⟩ = some x) ∧
    (∀ v : Variant ι T, v.1 ≠ i → view (alternative i) v = none) ∧
    (∀ x y : T i, set (alternative (T := T) i) ⟨i, x⟩ (some y) = ⟨i, y⟩) ∧
    (∀ (v : Variant ι T) q, v.1 ≠ i → set (alternative i) v q = v) ∧
    (∀ v : Variant ι T, set (alternative i) v none = v) ∧
    (∀ (v : Variant ι T) q, (set (alternative i) v q).1 = v.1) := by
  have hne : ∀ (v : Variant ι T) q, v.1 ≠ i → set (alternative i) v q = v := by
    intro v q h
    cases q with
    | none => rfl
    | some x => show (if v.1 = i then _ else v) = v; simp [h]
  have heq : ∀ x y : T i, set (alternative (T := T) i) ⟨i, x⟩ (some y) = ⟨i, y⟩ := by
    intro x y
    show (if i = i then _ else _) = _
    simp
  refine ⟨?_, ?_, heq, hne, fun _ => rfl, ?_⟩
  · intro x
    show (if h : i = i then _ else _) = _
    simp
  · intro v h
    show (if h : v.1 = i then _ else _) = _
    simp [h]
  · rintro ⟨j, x⟩ q
    by_cases h : j = i
    · subst h
      cases q with
      | none => rfl
      | some y => rw [heq]
    · rw [hne _ _ h]

/-- **C34**: on variants that hold `T` and engaged parts all lens laws hold. -/
theorem C34_alternative_lawful {ι : Type} [DecidableEq ι] {T : ι → Type} (i : ι) :
    LawfulOn (alternative (T := T) i) (fun v => v.1 = i) (fun q => q.isSome) := by
  obtain ⟨h1, _, h3, _, _, h6⟩ := C34_alternative (T := T) i
  constructor
  · intro v q hv _; rw [h6]; exact hv
  · rintro ⟨j, x⟩ q hv hq
    cases q with
    | none => cases hq
    | some y => subst hv; rw [h3, h1]
  · rintro ⟨j, x⟩ hv
    subst hv; rw [h1, h3]
  · rintro ⟨j, x⟩ q r hv hq hr
    cases q with
    | none => cases hq
    | some y =>
      cases r with
      | none => cases hr
      | some z => subst hv; rw [h3, h3, h3]

example : set (alternative true) (⟨true, 5⟩ : Variant Bool (fun _ => Nat)) (some 6) = ⟨true, 6⟩ ∧
    set (alternative true) (⟨false, 5⟩ : Variant Bool (fun _ => Nat)) (some 6) = ⟨false, 5⟩ := by
  decide

/-! ### C36 -/

/-- **C36**: what `fan` shows is the tuple of views. -/
theorem C36_fan_view {S : Type} {n : Nat} {A : Fin n → Type} (ls : ∀ i, VL S (A i)) (s : S)
    (i : Fin n) : view (fan ls) s i = view (ls i) s := rfl

/-- **C36**: `fan` of lawful, pairwise independent lenses is lawful. -/
theorem C36_fan_lawful {S : Type} {n : Nat} {A : Fin n → Type} (ls : ∀ i, VL S (A i))
    (hl : ∀ i, Lawful (ls i)) (hi : ∀ i j, i ≠ j → Independent (ls i) (ls j)) :
    Lawful (fan ls) where
  set_view s p := funext fun i =>
    setFold_view ls i (hl i) (fun j hj => hi j i (Fin.ne_of_lt hj)) s p
  view_set s := setFold_view_set ls hl s
  set_set s p q := setFold_set_set ls hl hi s p q

/-- **C36**: on overlapping lenses the first listed lens wins; more generally a lens wins as
soon as no lens listed before it overlaps with it. -/
theorem C36_fan_first_wins {S : Type} {n : Nat} {A : Fin n → Type} (ls : ∀ i, VL S (A i))
    (i : Fin n) (hl : Lawful (ls i)) (hi : ∀ j, j < i → Independent (ls j) (ls i))
    (s : S) (p : ∀ i, A i) : view (ls i) (set (fan ls) s p) = p i :=
  setFold_view ls i hl hi s p

/-- **C36**: different members of a struct are independent, so `attr(m1, ..., mn)` with
different members is lawful. -/
theorem C36_attr_independent {ι : Type} [DecidableEq ι] {T : ι → Type} (m n : ι) (h : m ≠ n) :
    Independent (attr (T := T) m) (attr (T := T) n) where
  view_left s b := assign_ne s b (Ne.symm h)
  view_right s a := assign_ne s a h
  comm s a b := assign_comm s b a (Ne.symm h)

example : Lawful (fan (S := Fin 3 → Nat) (A := fun _ : Fin 2 => Nat)
    (fun i => attr (T := fun _ : Fin 3 => Nat) (i.castSucc))) :=
  C36_fan_lawful _ (fun _ => C29_attr _)
    (fun _ _ h => C36_attr_independent _ _ (fun e => h (Fin.castSucc_inj.mp e)))

/-! ### C37 -/

/-- **C37**: a type-erased lens has the same `view`, `set` and `over` as the lens it wraps. -/
theorem C37_erased {S A : Type} {l : VL S A} (h : LibLens l) :
    (∀ s, view (erased (hold l)) s = view l s) ∧
    (∀ s a, set (erased (hold l)) s a = set l s a) ∧
    (∀ s f, over (erased (hold l)) s f = over l s f) :=
  ⟨fun _ => rfl, fun _ _ => rfl, fun s f => (C28_over h s f).symm⟩

/-- **C37**: the same inside compositions, on both sides. -/
theorem C37_erased_comp {S A B : Type} {l : VL S A} {m : VL A B} (hl : LibLens l)
    (hm : LibLens m) :
    (∀ s, view (comp (erased (hold l)) (erased (hold m))) s = view (comp l m) s) ∧
    (∀ s b, set (comp (erased (hold l)) (erased (hold m))) s b = set (comp l m) s b) ∧
    (∀ s f, over (comp (erased (hold l)) (erased (hold m))) s f = over (comp l m) s f) := by
  obtain ⟨hv, hs⟩ := C28_comp hl hm
  obtain ⟨hv', hs'⟩ := C28_comp (.erased hl) (.erased hm)
  have e1 : ∀ s, view (comp (erased (hold l)) (erased (hold m))) s = view (comp l m) s := by
    intro s; rw [hv', hv]; rfl
  have e2 : ∀ s b, set (comp (erased (hold l)) (erased (hold m))) s b = set (comp l m) s b := by
    intro s b; rw [hs', hs]; rfl
  refine ⟨e1, e2, ?_⟩
  intro s f
  rw [C28_over (.comp (.erased hl) (.erased hm)), C28_over (.comp hl hm), e1, e2]

example : view (erased (hold exLens)) [1, 2, 3] = 2 := by decide

end Verif.Lens
