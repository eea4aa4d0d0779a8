import Verif.Lens.Spec

/- Helper lemmas about lenses. -/

namespace Verif.Lens

instance (A : Type) : LawfulFunctor (ConstF A) where
  map_const := rfl
  id_map _ := rfl
  comp_map _ _ _ := rfl

instance : LawfulFunctor IdF where
  map_const := rfl
  id_map _ := rfl
  comp_map _ _ _ := rfl

/-- `l` is, for every lawful functor, the lens with getter `g` and setter `p`. -/
def Implements {S A : Type} (l : VL S A) (g : S → A) (p : S → A → S) : Prop :=
  ∀ (F : Type → Type) [Functor F] [LawfulFunctor F] (f : A → F A) (s : S),
    l F f s = (fun a => p s a) <$> f (g s)

theorem Implements.view_eq {S A : Type} {l : VL S A} {g p} (h : Implements l g p) (s : S) :
    view l s = g s := by
  simp only [view, h (ConstF A)]; rfl

theorem Implements.set_eq {S A : Type} {l : VL S A} {g p} (h : Implements l g p) (s : S) (a : A) :
    set l s a = p s a := by
  simp only [set, h IdF]; rfl

theorem Implements.over_eq {S A : Type} {l : VL S A} {g p} (h : Implements l g p) (s : S)
    (fn : A → A) : over l s fn = p s (fn (g s)) := by
  simp only [over, h IdF]; rfl

/-- The getter and setter of a lens that implements a pair are its `view` and `set`. -/
theorem Implements.canonical {S A : Type} {l : VL S A} {g p} (h : Implements l g p) :
    Implements l (view l) (set l) := by
  intro F _ _ f s
  rw [h F f s, h.view_eq]
  congr 1
  funext a
  rw [h.set_eq]

theorem implements_comp {S A B : Type} {l : VL S A} {m : VL A B} {g p g' p'}
    (h : Implements l g p) (h' : Implements m g' p') :
    Implements (comp l m) (fun s => g' (g s)) (fun s b => p s (p' (g s) b)) := by
  intro F _ _ f s
  simp only [comp]
  rw [h F, h' F, ← comp_map]
  rfl

theorem implements_getset {S A : Type} (g : S → A) (p : S → A → S) :
    Implements (getset g p) g p := fun _ _ _ _ _ => rfl

theorem implements_ident {S : Type} : Implements (ident (S := S)) id (fun _ a => a) := by
  intro F _ _ f s
  simp only [ident, id]
  exact (id_map (f s)).symm

theorem implements_mapOpt {W P : Type} (l : VL W P) :
    Implements (mapOpt l) (fun w => w.map (view l))
      (fun w q => match w, q with
        | some w, some p => some (set l w p)
        | w, _ => w) := by
  intro F _ _ f s
  cases s with
  | none =>
    simp only [mapOpt, Option.map_none]
  | some w =>
    simp only [mapOpt, Option.map_some]
    congr 1
    funext a; cases a <;> rfl

theorem implements_bindOpt {W P : Type} (l : VL W (Option P)) :
    Implements (bindOpt l) (fun w => w.bind (view l))
      (fun w q => match w, q with
        | some w, some p => some (set l w (some p))
        | w, _ => w) := by
  intro F _ _ f s
  cases s with
  | none =>
    simp only [bindOpt, Option.bind_none]
  | some w =>
    simp only [bindOpt, Option.bind_some]
    congr 1
    funext a; cases a <;> rfl

/-- Every library lens is a getter/setter lens. -/
theorem LibLens.implements {S A : Type} {l : VL S A} (h : LibLens l) :
    Implements l (view l) (set l) := by
  induction h with
  | getset g p => exact (implements_getset g p).canonical
  | ident => exact implements_ident.canonical
  | comp _ _ h h' => exact (implements_comp h h').canonical
  | attr m => exact fun _ _ _ _ _ => rfl
  | element i => exact fun _ _ _ _ _ => rfl
  | unbox => exact fun _ _ _ _ _ => rfl
  | at' ct k => exact fun _ _ _ _ _ => rfl
  | atInsert a i k => exact fun _ _ _ _ _ => rfl
  | atOr ct k d => exact fun _ _ _ _ _ => rfl
  | valueOr t => exact fun _ _ _ _ _ => rfl
  | mapOpt _ _ => exact (implements_mapOpt _).canonical
  | bindOpt _ _ => exact (implements_bindOpt _).canonical
  | forceOpt => exact fun _ _ _ _ _ => rfl
  | alternative i => exact fun _ _ _ _ _ => rfl
  | zip ls _ _ => exact fun _ _ _ _ _ => rfl
  | fan ls _ _ => exact fun _ _ _ _ _ => rfl
  | erased _ _ => exact fun _ _ _ _ _ => rfl

theorem assign_same {ι : Type} [DecidableEq ι] {T : ι → Type} (r : ∀ i, T i) (i : ι) (x : T i) :
    assign r i x i = x := by simp [assign]

theorem assign_ne {ι : Type} [DecidableEq ι] {T : ι → Type} (r : ∀ i, T i) {i j : ι} (x : T i)
    (h : i ≠ j) : assign r i x j = r j := by simp [assign, h]

theorem assign_self {ι : Type} [DecidableEq ι] {T : ι → Type} (r : ∀ i, T i) (i : ι) :
    assign r i (r i) = r := by
  funext j
  by_cases h : i = j
  · subst h; simp [assign]
  · simp [assign, h]

theorem assign_assign {ι : Type} [DecidableEq ι] {T : ι → Type} (r : ∀ i, T i) (i : ι)
    (x y : T i) : assign (assign r i x) i y = assign r i y := by
  funext j
  by_cases h : i = j
  · subst h; simp [assign]
  · simp [assign, h]

theorem assign_comm {ι : Type} [DecidableEq ι] {T : ι → Type} (r : ∀ i, T i) {i j : ι}
    (x : T i) (y : T j) (h : i ≠ j) :
    assign (assign r i x) j y = assign (assign r j y) i x := by
  funext k
  by_cases hi : i = k <;> by_cases hj : j = k
  · subst hi; subst hj; exact absurd rfl h
  · subst hi; simp [assign, hj]
  · subst hj; simp [assign, hi]
  · simp [assign, hi, hj]

theorem seqCont_laws (X : Type) (style : Style) : ContLaws (seqCont X style) where
  at_store := by
    intro c k x h
    simp only [seqCont] at *
    rw [List.getElem?_set_self]
    simpa using h
  at_other := by
    intro c k j x h
    simp only [seqCont]
    exact List.getElem?_set_ne (Ne.symm h)
  store_same := by
    intro c k x h
    simp only [seqCont] at *
    obtain ⟨hk, rfl⟩ := List.getElem?_eq_some_iff.mp h
    exact List.set_getElem_self hk
  store_store := by
    intro c k x y
    simp only [seqCont]
    exact List.set_set ..

theorem mapCont_laws (K X : Type) [DecidableEq K] (style : Style) :
    ContLaws (mapCont K X style) where
  at_store := by intro c k x _; simp [mapCont]
  at_other := by intro c k j x h; simp [mapCont, h]
  store_same := by
    intro c k x h
    simp only [mapCont] at *
    funext j
    by_cases hj : j = k
    · subst hj; simp [h]
    · simp [hj]
  store_store := by
    intro c k x y
    simp only [mapCont]
    funext j
    by_cases hj : j = k <;> simp [hj]

theorem at_set_eq {C K X : Type} (ct : Cont C K X) (k : K) (c : C) (v : Option X) :
    set (at' ct k) c v = match v, ct.at? c k with
      | some x, some _ => ct.store c k x
      | _, _ => c := by
  show atSetter ct c v k = _
  unfold atSetter
  cases ct.style <;> cases v <;> cases ct.at? c k <;> rfl

theorem at_view_eq {C K X : Type} (ct : Cont C K X) (k : K) (c : C) :
    view (at' ct k) c = ct.at? c k := rfl

theorem atOr_set_eq {C K X : Type} (ct : Cont C K X) (k : K) (d : X) (c : C) (v : X) :
    set (atOr ct k d) c v = match ct.at? c k with
      | some _ => ct.store c k v
      | none => c := by
  show atOrSetter ct c v k = _
  unfold atOrSetter
  cases ct.style <;> cases ct.at? c k <;> rfl

theorem atOr_view_eq {C K X : Type} (ct : Cont C K X) (k : K) (d : X) (c : C) :
    view (atOr ct k d) c = match ct.at? c k with
      | some x => x
      | none => d := rfl

theorem setFold_succ {S : Type} {n : Nat} {A : Fin (n + 1) → Type} (ls : ∀ i, VL S (A i))
    (s : S) (p : ∀ i, A i) :
    setFold ls s p =
      set (ls 0) (setFold (fun i : Fin n => ls i.succ) s (fun i => p i.succ)) (p 0) := by
  simp only [setFold, Fin.foldr_succ]

theorem Independent.symm {S A B : Type} {l : VL S A} {m : VL S B} (h : Independent l m) :
    Independent m l :=
  ⟨h.view_right, h.view_left, fun s b a => (h.comm s a b).symm⟩

theorem setFold_view_other {S B : Type} (m : VL S B) :
    ∀ {n : Nat} {A : Fin n → Type} (ls : ∀ i, VL S (A i)),
      (∀ i, Independent (ls i) m) → ∀ (s : S) (p : ∀ i, A i),
      view m (setFold ls s p) = view m s
  | 0, _, _, _, _, _ => by simp [setFold]
  | n + 1, _, ls, h, s, p => by
    rw [setFold_succ, (h 0).view_right]
    exact setFold_view_other m (fun i : Fin n => ls i.succ) (fun i => h i.succ) s _

theorem setFold_set_other {S B : Type} (m : VL S B) :
    ∀ {n : Nat} {A : Fin n → Type} (ls : ∀ i, VL S (A i)),
      (∀ i, Independent (ls i) m) → ∀ (s : S) (p : ∀ i, A i) (b : B),
      setFold ls (set m s b) p = set m (setFold ls s p) b
  | 0, _, _, _, _, _, _ => by simp [setFold]
  | n + 1, _, ls, h, s, p, b => by
    rw [setFold_succ, setFold_succ,
      setFold_set_other m (fun i : Fin n => ls i.succ) (fun i => h i.succ) s _ b,
      (h 0).comm]

theorem setFold_view {S : Type} :
    ∀ {n : Nat} {A : Fin n → Type} (ls : ∀ i, VL S (A i)) (i : Fin n),
      Lawful (ls i) → (∀ j, j < i → Independent (ls j) (ls i)) → ∀ (s : S) (p : ∀ i, A i),
      view (ls i) (setFold ls s p) = p i
  | 0, _, _, i, _, _, _, _ => i.elim0
  | n + 1, A, ls, i, hl, hi, s, p => by
    rw [setFold_succ]
    induction i using Fin.cases with
    | zero => exact hl.set_view _ _
    | succ j =>
      rw [(hi 0 (Fin.succ_pos j)).view_right]
      exact setFold_view (fun i : Fin n => ls i.succ) j hl
        (fun k hk => hi k.succ (Fin.succ_lt_succ_iff.mpr hk)) s _

theorem setFold_view_set {S : Type} :
    ∀ {n : Nat} {A : Fin n → Type} (ls : ∀ i, VL S (A i)),
      (∀ i, Lawful (ls i)) → ∀ (s : S), setFold ls s (fun i => view (ls i) s) = s
  | 0, _, _, _, _ => by simp [setFold]
  | n + 1, _, ls, h, s => by
    rw [setFold_succ, setFold_view_set (fun i : Fin n => ls i.succ) (fun i => h i.succ) s]
    exact (h 0).view_set s

theorem setFold_set_set {S : Type} :
    ∀ {n : Nat} {A : Fin n → Type} (ls : ∀ i, VL S (A i)),
      (∀ i, Lawful (ls i)) → (∀ i j, i ≠ j → Independent (ls i) (ls j)) →
      ∀ (s : S) (p q : ∀ i, A i), setFold ls (setFold ls s p) q = setFold ls s q
  | 0, _, _, _, _, _, _, _ => by simp [setFold]
  | n + 1, _, ls, h, hi, s, p, q => by
    rw [setFold_succ, setFold_succ, setFold_succ,
      setFold_set_other (ls 0) (fun i : Fin n => ls i.succ)
        (fun i => hi i.succ 0 (Fin.succ_ne_zero i)),
      setFold_set_set (fun i : Fin n => ls i.succ) (fun i => h i.succ)
        (fun i j hij => hi i.succ j.succ (fun e => hij (Fin.succ_inj.mp e))),
      (h 0).set_set]

end Verif.Lens
