import Verif.Smart.Lemmas

/-
The lens of a chain of subscripts stands for a place.
-/

namespace Verif.Smart

open Verif.Lens (Style)
open Verif.LensMove (Expr Husk husk MLens)

/-- What is left when `nullopt` is written to a place. -/
def wipe' {t a : Ty} (p : Path t a) (v : t.den) : t.den :=
  if p.keyLast then v else emptied p v

/-- The lens shows, and writes to, the place: as it is, or as an optional if going there can fail, or
as it is if it is an optional anyway. -/
inductive Shows : {t a : Ty} → Path t a → (b : Ty) → MLens t.den b.den → Prop where
  | plain {t a : Ty} (p : Path t a) (l : MLens t.den a.den) (ht : l.tempR = true) (hf : p.fails = false)
      (hv : ∀ v, find p v = some (l.view v)) (hs : ∀ v x, l.rset v x = put p v x) : Shows p a l
  | opt {t a : Ty} (p : Path t a) (l : MLens t.den (Ty.opt a).den) (ht : l.tempR = true)
      (hf : p.fails = true) (hv : ∀ v, l.view v = find p v)
      (hs : ∀ v x, l.rset v (some x) = put p v x) (hn : ∀ v, l.rset v none = wipe' p v) :
      Shows p (.opt a) l
  | flat {t c : Ty} (p : Path t (.opt c)) (l : MLens t.den (Ty.opt c).den) (ht : l.tempR = true)
      (hf : p.fails = true) (hm : p.keyLast = false) (hv : ∀ v, l.view v = (find p v).bind id)
      (hs : ∀ v x, l.rset v (some x) = put p v (some x)) (hn : ∀ v, l.rset v none = wipe' p v) :
      Shows p (.opt c) l

/-- One subscript: also what reading leaves behind is known. -/
def Single {t a : Ty} (p : Path t a) (b : Ty) (l : MLens t.den b.den) : Prop :=
  Shows p b l ∧ ∀ v, l.rest v husk = wipe' p v

/-- A place that one can always get to has no key and no index. -/
theorem keyLast_safe {t a : Ty} (p : Path t a) (h : p.fails = false) : p.keyLast = false := by
  have hm : ∀ k, k ∈ p.keys → ∃ i, k = .member i := by
    induction p with
    | nil => intro k hk; exact nomatch hk
    | inside p ih => exact nomatch h
    | pos j p ih => exact nomatch h
    | key j p ih => exact nomatch h
    | mem i p ih =>
      intro k hk
      rcases List.mem_cons.mp hk with rfl | hk
      · exact ⟨_, rfl⟩
      · exact ih h k hk
  unfold Path.keyLast
  cases hl : p.keys.getLast? with
  | none => rfl
  | some k =>
    obtain ⟨i, rfl⟩ := hm k (List.mem_of_getLast? hl)
    rfl

theorem keyLast_inside {t a : Ty} (p : Path t a) : (Path.inside p).keyLast = p.keyLast := rfl

theorem wipe_key {t a : Ty} (p : Path t a) (v : t.den) (h : p.keyLast = true) : wipe' p v = v :=
  if_pos h

theorem wipe_nokey {t a : Ty} (p : Path t a) (v : t.den) (h : p.keyLast = false) :
    wipe' p v = emptied p v :=
  if_neg (by simp [h])

theorem wipe_inside {t a : Ty} (p : Path t a) (w : t.den) :
    wipe' (.inside p) (some w : Option t.den) = (some (wipe' p w) : Option t.den) := by
  cases h : p.keyLast with
  | true =>
    rw [wipe_key p w h]
    exact wipe_key (.inside p) _ h
  | false =>
    rw [wipe_nokey p w h]
    refine (wipe_nokey (.inside p) _ h).trans ?_
    unfold emptied
    simp only [find]
    cases find p w <;> rfl

theorem wipe_none {t a : Ty} (p : Path t a) :
    wipe' (.inside p) (none : Option t.den) = (none : Option t.den) := by
  cases h : p.keyLast with
  | true => exact wipe_key (.inside p) _ h
  | false => exact wipe_nokey (.inside p) _ h

theorem put_wipe {t a : Ty} (p : Path t a) (v : t.den) (x : a.den) : put p (wipe' p v) x = put p v x := by
  unfold wipe' emptied
  split
  · rfl
  · cases find p v with
    | none => rfl
    | some w => exact put_put p v _ x

/-- `map_opt` of a lens that shows its place as it is. -/
theorem lift_map {t a : Ty} (p : Path t a) (l : MLens t.den a.den)
    (hv : ∀ v, find p v = some (l.view v)) (hs : ∀ v x, l.rset v x = put p v x)
    (hr : ∀ v, l.rest v husk = wipe' p v) :
    Single (.inside p) (.opt a) (LensMove.mapOpt (W := t.den) (P := a.den) l) := by
  refine ⟨.opt _ _ rfl rfl ?_ ?_ ?_, ?_⟩
  · intro v
    cases (v : Option t.den) with
    | none => rfl
    | some w => exact (hv w).symm
  · intro v x
    cases (v : Option t.den) with
    | none => rfl
    | some w =>
      refine congrArg some ((hs _ x).trans ?_)
      rw [show l.viewed w = wipe' p w from hr w]
      exact put_wipe p w x
  · intro v
    cases (v : Option t.den) with
    | none => exact (wipe_none p).symm
    | some w => exact (congrArg some (hr w)).trans (wipe_inside p w).symm
  · intro v
    cases (v : Option t.den) with
    | none => exact (wipe_none p).symm
    | some w => exact (congrArg some (hr w)).trans (wipe_inside p w).symm

/-- `bind_opt` of a lens that shows its place as it is, which is an optional. -/
theorem lift_bind_plain {t c : Ty} (p : Path t (.opt c)) (l : MLens t.den (Ty.opt c).den)
    (hf : p.fails = false)
    (hv : ∀ v, find p v = some (l.view v)) (hs : ∀ v x, l.rset v x = put p v x)
    (hr : ∀ v, l.rest v husk = wipe' p v) :
    Single (.inside p) (.opt c) (LensMove.bindOpt (W := t.den) (P := c.den) l) := by
  refine ⟨.flat _ _ rfl rfl (keyLast_safe p hf) ?_ ?_ ?_, ?_⟩
  · intro v
    cases (v : Option t.den) with
    | none => rfl
    | some w =>
      simp only [find]
      rw [hv w]
      rfl
  · intro v x
    cases (v : Option t.den) with
    | none => rfl
    | some w =>
      refine congrArg some ((hs _ _).trans ?_)
      rw [show l.rest w (Option.map husk) = wipe' p w from hr w]
      exact put_wipe p w _
  · intro v
    cases (v : Option t.den) with
    | none => exact (wipe_none p).symm
    | some w => exact (congrArg some (hr w)).trans (wipe_inside p w).symm
  · intro v
    cases (v : Option t.den) with
    | none => exact (wipe_none p).symm
    | some w => exact (congrArg some (hr w)).trans (wipe_inside p w).symm

/-- `bind_opt` of a lens that shows its place as an optional. -/
theorem lift_bind_opt {t a : Ty} (p : Path t a) (l : MLens t.den (Ty.opt a).den)
    (hv : ∀ v, l.view v = find p v) (hs : ∀ v x, l.rset v (some x) = put p v x)
    (hr : ∀ v, l.rest v husk = wipe' p v) :
    Single (.inside p) (.opt a) (LensMove.bindOpt (W := t.den) (P := a.den) l) := by
  refine ⟨.opt _ _ rfl rfl ?_ ?_ ?_, ?_⟩
  · intro v
    cases (v : Option t.den) with
    | none => rfl
    | some w => exact hv w
  · intro v x
    cases (v : Option t.den) with
    | none => rfl
    | some w =>
      refine congrArg some ((hs _ _).trans ?_)
      rw [show l.rest w (Option.map husk) = wipe' p w from hr w]
      exact put_wipe p w _
  · intro v
    cases (v : Option t.den) with
    | none => exact (wipe_none p).symm
    | some w => exact (congrArg some (hr w)).trans (wipe_inside p w).symm
  · intro v
    cases (v : Option t.den) with
    | none => exact (wipe_none p).symm
    | some w => exact (congrArg some (hr w)).trans (wipe_inside p w).symm

/-- `bind_opt` of a lens whose place is an optional. -/
theorem lift_bind_flat {t c : Ty} (p : Path t (.opt c)) (l : MLens t.den (Ty.opt c).den)
    (hm : p.keyLast = false)
    (hv : ∀ v, l.view v = (find p v).bind id) (hs : ∀ v x, l.rset v (some x) = put p v (some x))
    (hr : ∀ v, l.rest v husk = wipe' p v) :
    Single (.inside p) (.opt c) (LensMove.bindOpt (W := t.den) (P := c.den) l) := by
  refine ⟨.flat _ _ rfl rfl hm ?_ ?_ ?_, ?_⟩
  · intro v
    cases (v : Option t.den) with
    | none => rfl
    | some w => exact hv w
  · intro v x
    cases (v : Option t.den) with
    | none => rfl
    | some w =>
      refine congrArg some ((hs _ _).trans ?_)
      rw [show l.rest w (Option.map husk) = wipe' p w from hr w]
      exact put_wipe p w _
  · intro v
    cases (v : Option t.den) with
    | none => exact (wipe_none p).symm
    | some w => exact (congrArg some (hr w)).trans (wipe_inside p w).symm
  · intro v
    cases (v : Option t.den) with
    | none => exact (wipe_none p).symm
    | some w => exact (congrArg some (hr w)).trans (wipe_inside p w).symm

/-- Lifting a lens over an optional goes into it. -/
theorem Single.lift {t a : Ty} {p : Path t a} {l : Typed t} (h : Single p l.part l.lens.move) :
    Single (.inside p) l.lift.part l.lift.lens.move := by
  obtain ⟨b, e⟩ := l
  obtain ⟨h, hr⟩ := h
  dsimp only [Typed.lift] at *
  generalize hl : e.move = l at h hr
  cases h with
  | plain p l ht hf hv hs =>
    subst hl
    cases a with
    | opt c => exact lift_bind_plain p e.move hf hv hs hr
    | num | text | struct n fs | seq s t | map s t => exact lift_map p e.move hv hs hr
  | opt p l ht hf hv hs hn =>
    subst hl
    exact lift_bind_opt p e.move hv hs hr
  | flat p l ht hf hm hv hs hn =>
    subst hl
    exact lift_bind_flat p e.move hm hv hs hr

/-- The keys that are not lenses. -/
def Key.plain : Key → Prop
  | .lens _ => False
  | _ => True

/-- One subscript stands for a place of one subscript. -/
theorem smart_single {k : Key} (hk : k.plain) : ∀ {t : Ty} {m : Typed t}, smart t k = some m →
    ∃ (a : Ty) (p : Path t a), p.keys = [k] ∧ p.tight ∧ Single p m.part m.lens.move := by
  intro t
  induction t with
  | num => intro m h; cases k <;> first | exact hk.elim | (simp [smart] at h)
  | text => intro m h; cases k <;> first | exact hk.elim | (simp [smart] at h)
  | struct n fs _ =>
    intro m h
    cases k with
    | lens l => exact hk.elim
    | «at» k => exact nomatch h
    | member i =>
      simp only [smart] at h
      split at h
      · rename_i hi
        cases h
        refine ⟨_, .mem ⟨i, hi⟩ .nil, rfl, trivial, .plain _ _ rfl rfl (fun v => rfl) (fun v x => rfl), ?_⟩
        intro v
        rfl
      · exact nomatch h
  | seq s t _ =>
    intro m h
    cases k with
    | lens l => exact hk.elim
    | member k => exact nomatch h
    | «at» k =>
      cases h
      refine ⟨_, .pos k .nil, rfl, trivial, .opt _ _ rfl rfl ?_ ?_ ?_, fun v => rfl⟩
      · intro v
        show _ = find (.pos k .nil) v
        simp only [find]
        show nth (X := t.den) v k = _
        cases nth (X := t.den) v k <;> rfl
      · intro v x
        show Lens.atSetter (Lens.seqCont t.den s) v (some x) k = put (.pos k .nil) v x
        simp only [put]
        cases s <;> simp only [Lens.atSetter, Lens.seqCont] <;>
          (cases hk : nth (X := t.den) v k <;> simp only [nth] at hk <;> rw [hk])
      · intro v
        show Lens.atSetter (Lens.seqCont t.den s) v none k = v
        cases s <;> rfl
  | map s t _ =>
    intro m h
    cases k with
    | lens l => exact hk.elim
    | member k => exact nomatch h
    | «at» k =>
      cases h
      refine ⟨_, .key k .nil, rfl, trivial, .opt _ _ rfl rfl ?_ ?_ ?_, fun v => rfl⟩
      · intro v
        show _ = find (.key k .nil) v
        simp only [find]
        show (v : Nat → Option t.den) k = _
        cases (v : Nat → Option t.den) k <;> rfl
      · intro v x
        show Lens.atSetter (Lens.mapCont Nat t.den s) v (some x) k = put (.key k .nil) v x
        simp only [put]
        cases s <;> simp only [Lens.atSetter, Lens.mapCont] <;>
          (cases hk : (v : Nat → Option t.den) k <;> rfl)
      · intro v
        show Lens.atSetter (Lens.mapCont Nat t.den s) v none k = v
        cases s <;> rfl
  | opt t ih =>
    intro m h
    have h' : (smart t k).map Typed.lift = some m := by
      cases k with
      | lens l => exact hk.elim
      | «at» k => exact h
      | member k => exact h
    cases hm : smart t k with
    | none =>
      rw [hm] at h'
      exact nomatch h'
    | some m0 =>
      rw [hm] at h'
      cases h'
      obtain ⟨a, p, hp, ht, hs⟩ := ih hm
      exact ⟨a, .inside p, hp, ⟨by rw [hp]; simp, ht⟩, hs.lift⟩

end Verif.Smart
