import Verif.LensMove.Model
import Verif.Lens.Props

/-
Which writes lose nothing, computed from the lens expression, and the proof that they do not.
-/

namespace Verif.LensMove

open Verif.Lens (assign Variant VL Box Cont)

/-- How the whole reaches a lens: as an lvalue, as an rvalue, or as an rvalue that has already been
read once or more through this very lens (the whole of a lens inside `map_opt` or `zip`, when its
`set` is called). -/
inductive Mode where
  | lval
  | rval
  | left

/-- What reading the part does to an rvalue whole. -/
inductive Place where
  /-- the continuation gets a reference into the whole -/
  | inside
  /-- the part is copied, the whole stays as it is -/
  | copied
  /-- the part is moved out -/
  | taken
deriving DecidableEq

/-- What reading through the lens does to an rvalue whole. -/
def Expr.place : {S A : Type} → Expr S A → Place
  | _, _, .ident => .inside
  | _, _, @Expr.attr _ _ _ _ => .inside
  | _, _, .getset _ _ => .copied
  | _, _, .unbox => .copied
  | _, _, .at' _ _ => .copied
  | _, _, .atInsert _ _ _ => .copied
  | _, _, .atOr _ _ _ => .copied
  | _, _, @Expr.valueOr _ _ _ => .taken
  | _, _, @Expr.forceOpt _ _ => .taken
  | _, _, @Expr.alternative _ _ _ _ _ => .taken
  | _, _, @Expr.mapOpt _ _ _ e => match e.place with
    | .copied => .copied
    | _ => .taken
  | _, _, @Expr.bindOpt _ _ _ e => match e.place with
    | .copied => .copied
    | _ => .taken
  | _, _, @Expr.zip _ _ _ _ _ => .taken
  | _, _, .fan _ => .copied
  | _, _, .erased _ => .copied
  | _, _, .comp e e' => match e.place with
    | .inside => e'.place
    | .copied => .copied
    | .taken => .taken

/-- The writes of `a` into `s` that lose nothing. -/
def Expr.ok : {S A : Type} → Mode → Expr S A → S → A → Prop
  | _, _, _, .ident, _, _ => True
  | _, _, _, @Expr.attr _ _ _ _, _, _ => True
  | _, _, _, .getset _ _, _, _ => True
  | _, _, _, .unbox, _, _ => True
  | _, _, _, .at' _ _, _, _ => True
  | _, _, _, .atInsert _ _ _, _, _ => True
  | _, _, _, .atOr _ _ _, _, _ => True
  | _, _, _, @Expr.valueOr _ _ _, _, _ => True
  | _, _, .left, @Expr.forceOpt _ _, _, a => a.isSome
  | _, _, _, @Expr.forceOpt _ _, _, _ => True
  | _, _, .lval, @Expr.alternative _ _ _ _ _, _, _ => True
  | _, _, _, @Expr.alternative _ _ _ _ i, s, a => s.1 = i → a.isSome
  | _, _, .lval, @Expr.mapOpt _ _ _ e, s, a => ∀ w p, s = some w → a = some p → e.ok .lval w p
  | _, _, _, @Expr.mapOpt _ _ _ e, s, a =>
    (∀ w p, s = some w → a = some p → e.ok .left w p) ∧
    (s.isSome → a = none → e.place = .copied)
  | _, _, .lval, @Expr.bindOpt _ _ _ e, s, a =>
    ∀ w p, s = some w → a = some p → e.ok .lval w (some p)
  | _, _, _, @Expr.bindOpt _ _ _ e, s, a =>
    (∀ w p, s = some w → a = some p → e.ok .left w (some p)) ∧
    (s.isSome → a = none → e.place = .copied)
  | _, _, .lval, @Expr.zip _ _ _ _ es, s, a => ∀ i, (es i).ok .lval (s i) (a i)
  | _, _, _, @Expr.zip _ _ _ _ es, s, a => ∀ i, (es i).ok .left (s i) (a i)
  | _, _, _, .fan es, _, a => ∀ i s', (es i).ok .lval s' (a i) ∧ (es i).ok .rval s' (a i)
  | _, _, _, .erased e, s, a => e.ok .lval s a
  | _, _, .lval, .comp e e', s, b =>
    e'.ok (if e.move.tempL then .rval else .lval) (Lens.view e.pure s) b ∧
    e.ok .lval s (Lens.set e'.pure (Lens.view e.pure s) b)
  | _, _, .rval, .comp e e', s, b =>
    e'.ok (if e.move.tempR then .rval else .lval) (Lens.view e.pure s) b ∧
    e.ok .rval s (Lens.set e'.pure (Lens.view e.pure s) b)
  | _, _, .left, .comp e e', s, b => match e.place with
    | .inside => e'.ok .left (Lens.view e.pure s) b
    | .copied =>
      e'.ok (if e.move.tempR then .rval else .lval) (Lens.view e.pure s) b ∧
      e.ok .rval s (Lens.set e'.pure (Lens.view e.pure s) b)
    | .taken => False

theorem Expr.lib {S A : Type} (e : Expr S A) : Lens.LibLens e.pure := by
  induction e with
  | ident => exact .ident
  | attr m => exact .attr m
  | getset g p => exact .getset g p
  | unbox => exact .unbox
  | at' ct k => exact .at' ct k
  | atInsert a i k => exact .atInsert a i k
  | atOr ct k d => exact .atOr ct k d
  | valueOr t => exact .valueOr t
  | forceOpt => exact .forceOpt
  | alternative i => exact .alternative i
  | mapOpt e ih => exact .mapOpt ih
  | bindOpt e ih => exact .bindOpt ih
  | zip es ih => exact .zip _ ih
  | fan es ih => exact .fan _ ih
  | erased e ih => exact .erased ih
  | comp e e' ih ih' => exact .comp ih ih'

/-- Reading gives what the lens without moves gives. -/
theorem Expr.view_eq {S A : Type} (e : Expr S A) (s : S) : e.move.view s = Lens.view e.pure s := by
  induction e with
  | ident | attr m | getset g p | unbox | at' ct k | atInsert a i k | atOr ct k d | forceOpt
  | alternative i => rfl
  | valueOr t => cases s <;> rfl
  | mapOpt e ih =>
    cases s with
    | none => rfl
    | some w => exact congrArg some (ih w)
  | bindOpt e ih =>
    cases s with
    | none => rfl
    | some w => exact ih w
  | zip es ih => exact funext fun i => ih i (s i)
  | fan es ih => exact funext fun i => ih i s
  | erased e ih => exact ih s
  | comp e e' ih ih' =>
    rw [Expr.pure, (Lens.C28_comp e.lib e'.lib).1, ← ih, ← ih']
    rfl

/-- A lens that copies leaves the whole as it is. -/
theorem Expr.copied_rest {S A : Type} (e : Expr S A) :
    (e.place = .copied → ∀ s r, e.move.rest s r = s) ∧
    (e.place = .inside → (∀ s r, e.move.view (e.move.rest s r) = r (e.move.view s)) ∧
      (∀ s r r', e.move.rest (e.move.rest s r) r' = e.move.rest s (fun a => r' (r a))) ∧
      (∀ s, e.move.rest s (fun a => a) = s) ∧
      (∀ s r a, e.move.rset (e.move.rest s r) a = Lens.set e.pure s a) ∧
      (∀ s a, e.move.set s a = Lens.set e.pure s a) ∧ e.move.tempR = true) := by
  induction e with
  | getset g p | unbox | at' ct k | atInsert a i k | atOr ct k d =>
    exact ⟨fun _ _ _ => rfl, fun h => by simp [place] at h⟩
  | fan es ih => exact ⟨fun _ _ _ => rfl, fun h => by simp [place] at h⟩
  | erased e ih => exact ⟨fun _ _ _ => rfl, fun h => by simp [place] at h⟩
  | valueOr t | forceOpt | alternative i =>
    exact ⟨fun h => by simp [place] at h, fun h => by simp [place] at h⟩
  | zip es ih => exact ⟨fun h => by simp [place] at h, fun h => by simp [place] at h⟩
  | ident => exact ⟨fun h => by simp [place] at h,
      fun _ => ⟨fun _ _ => rfl, fun _ _ _ => rfl, fun _ => rfl, fun _ _ _ => rfl, fun _ _ => rfl,
        rfl⟩⟩
  | attr m =>
    exact ⟨fun h => by simp [place] at h, fun _ =>
      ⟨fun s r => Lens.assign_same s m _,
       fun s r r' => by
        simp only [move, LensMove.attr]
        rw [Lens.assign_assign, Lens.assign_same],
       fun s => Lens.assign_self s m,
       fun s r a => Lens.assign_assign s m _ a,
       fun _ _ => rfl, rfl⟩⟩
  | mapOpt e ih =>
    refine ⟨fun h s r => ?_, fun h => ?_⟩
    · have hp : e.place = .copied := by
        revert h; simp only [place]; split <;> simp_all
      cases s with
      | none => rfl
      | some w => exact congrArg some (ih.1 hp w _)
    · revert h; simp only [place]; split <;> simp
  | bindOpt e ih =>
    refine ⟨fun h s r => ?_, fun h => ?_⟩
    · have hp : e.place = .copied := by
        revert h; simp only [place]; split <;> simp_all
      cases s with
      | none => rfl
      | some w => exact congrArg some (ih.1 hp w _)
    · revert h; simp only [place]; split <;> simp
  | comp e e' ih ih' =>
    cases hp : e.place with
    | taken => exact ⟨fun h => by simp [place, hp] at h, fun h => by simp [place, hp] at h⟩
    | copied =>
      exact ⟨fun _ s r => ih.1 hp s _, fun h => by simp [place, hp] at h⟩
    | inside =>
      obtain ⟨h1, h2, h3, h4, h5, h6⟩ := ih.2 hp
      refine ⟨fun h s r => ?_, fun h => ?_⟩
      · have hp' : e'.place = .copied := by simpa [place, hp] using h
        have : (fun a => e'.move.rest a r) = fun a => a := funext fun a => ih'.1 hp' a r
        simp only [move, LensMove.comp, this]
        exact h3 s
      · have hp' : e'.place = .inside := by simpa [place, hp] using h
        obtain ⟨k1, k2, k3, k4, k5, k6⟩ := ih'.2 hp'
        have hset := (Lens.C28_comp e.lib e'.lib).2
        refine ⟨?_, ?_, ?_, ?_, ?_, ?_⟩
        · intro s r; simp only [move, LensMove.comp, h1, k1]
        · intro s r r'; simp only [move, LensMove.comp, h2, k2]
        · intro s
          have : (fun a => e'.move.rest a (fun a => a)) = fun a => a := funext fun a => k3 a
          simp only [move, LensMove.comp, this]
          exact h3 s
        · intro s r b
          simp only [move, LensMove.comp, h6, if_true, h1, k4, h4]
          rw [Expr.pure, hset, Expr.view_eq]
        · intro s b
          have k4' : ∀ a, e'.move.rset a b = Lens.set e'.pure a b := by
            intro a
            have := k4 a (fun a => a) b
            rwa [k3] at this
          simp only [move, LensMove.comp, h5]
          rw [Expr.pure, hset, Expr.view_eq]
          split
          · rw [k4']
          · rw [k5]
        · simp [move, LensMove.comp, h6, k6]

/-- Reading the whole `n` times. -/
def again {S : Type} (f : S → S) : Nat → S → S
  | 0, s => s
  | n + 1, s => again f n (f s)

theorem again_id {S : Type} (f : S → S) (h : ∀ s, f s = s) (n : Nat) (s : S) : again f n s = s := by
  induction n generalizing s with
  | zero => rfl
  | succ n ih => rw [again, h, ih]

theorem again_map {W : Type} (f : W → W) (n : Nat) (w : Option W) :
    again (Option.map f) n w = w.map (again f n) := by
  induction n generalizing w with
  | zero => cases w <;> rfl
  | succ n ih => rw [again, ih]; cases w <;> rfl

theorem again_last {S : Type} (f : S → S) (n : Nat) (s : S) : f (again f n s) = again f (n + 1) s := by
  induction n generalizing s with
  | zero => rfl
  | succ n ih => rw [again, ih]; rfl

theorem again_pi {n : Nat} {S : Fin n → Type} (f : ∀ i, S i → S i) (k : Nat) (s : ∀ i, S i)
    (i : Fin n) : again (fun s i => f i (s i)) k s i = again (f i) k (s i) := by
  induction k generalizing s with
  | zero => rfl
  | succ k ih => rw [again, ih]; rfl

/-- One fold is the fold of the lenses without moves. -/
theorem fold_eq {S : Type} (rv : Bool) : ∀ {n : Nat} {A : Fin n → Type} (es : ∀ i, Expr S (A i))
    (s : S) (a : ∀ i, A i),
    (∀ i s', (es i).move.set s' (a i) = Lens.set (es i).pure s' (a i) ∧
      (es i).move.rset s' (a i) = Lens.set (es i).pure s' (a i)) →
    fold rv (fun i => (es i).move) s a = Lens.setFold (fun i => (es i).pure) s a
  | 0, _, _, _, _, _ => rfl
  | 1, _, es, s, a, h => by
    show (if rv then _ else _) = _
    rw [(h 0 s).1, (h 0 s).2, ite_self, Lens.setFold_succ]
    rfl
  | n + 2, _, es, s, a, h => by
    show (es 0).move.rset (fold rv (fun i => (es i.succ).move) s (fun i => a i.succ)) (a 0) = _
    rw [fold_eq rv (fun i => es i.succ) s (fun i => a i.succ) (fun i s' => h i.succ s'),
      (h 0 _).2]
    exact (Lens.setFold_succ (fun i => (es i).pure) s a).symm

/-- A write that is `ok` for the way the whole reaches the lens does what the lens without moves
does. -/
theorem Expr.ok_sound {S A : Type} (e : Expr S A) (s : S) (a : A) :
    (e.ok .lval s a → e.move.set s a = Lens.set e.pure s a) ∧
    (e.ok .rval s a → e.move.rset s a = Lens.set e.pure s a) ∧
    (e.ok .left s a → ∀ r n,
      e.move.rset (again (fun s => e.move.rest s r) n s) a = Lens.set e.pure s a) := by
  have cop : ∀ {S A : Type} (e : Expr S A) (s : S) (a : A), e.place = .copied →
      e.move.rset s a = Lens.set e.pure s a → ∀ r n,
      e.move.rset (again (fun s => e.move.rest s r) n s) a = Lens.set e.pure s a := by
    intro S A e s a hc h r n
    rw [again_id _ (fun s => e.copied_rest.1 hc s r), h]
  induction e with
  | ident => exact ⟨fun _ => rfl, fun _ => rfl, fun _ _ _ => rfl⟩
  | attr m =>
    refine ⟨fun _ => rfl, fun _ => rfl, fun _ r n => ?_⟩
    induction n generalizing s with
    | zero => rfl
    | succ n ih =>
      rw [again, ih _ trivial]
      exact Lens.assign_assign s m _ a
  | getset g p => exact ⟨fun _ => rfl, fun _ => rfl, fun _ => cop _ _ _ rfl rfl⟩
  | unbox => exact ⟨fun _ => rfl, fun _ => rfl, fun _ => cop _ _ _ rfl rfl⟩
  | at' ct k => exact ⟨fun _ => rfl, fun _ => rfl, fun _ => cop _ _ _ rfl rfl⟩
  | atInsert g i k => exact ⟨fun _ => rfl, fun _ => rfl, fun _ => cop _ _ _ rfl rfl⟩
  | atOr ct k d => exact ⟨fun _ => rfl, fun _ => rfl, fun _ => cop _ _ _ rfl rfl⟩
  | valueOr t => exact ⟨fun _ => rfl, fun _ => rfl, fun _ _ _ => rfl⟩
  | forceOpt =>
    refine ⟨fun _ => rfl, fun _ => rfl, fun h r n => ?_⟩
    cases a with
    | none => simp [ok] at h
    | some v => rfl
  | alternative i =>
    have key : ∀ s, (s.1 = i → a.isSome) →
        (LensMove.alternative i).rset s a = Lens.set (Lens.alternative i) s a := by
      intro s h
      cases a with
      | some v => rfl
      | none =>
        have hn : ¬ s.1 = i := fun hs => by simpa using h hs
        show (if _ then _ else s) = s
        rw [if_neg hn]
    refine ⟨fun _ => by cases a <;> rfl, fun h => key s h, fun h r n => ?_⟩
    by_cases hs : s.1 = i
    · obtain ⟨v, rfl⟩ := Option.isSome_iff_exists.mp (h hs)
      have h1 : ∀ n (s : Variant _ _), s.1 = i →
          (again (fun s => (Expr.alternative i).move.rest s r) n s).1 = i := by
        intro n
        induction n with
        | zero => exact fun s hs => hs
        | succ n ih =>
          intro s hs
          refine ih _ ?_
          show (if s.1 = i then (⟨s.1, husk s.2⟩ : Variant _ _) else s).1 = i
          rw [if_pos hs]; exact hs
      show (if _ then _ else _) = (if _ then _ else _)
      rw [if_pos (h1 n s hs), if_pos hs]
    · have h1 : again (fun s => (Expr.alternative i).move.rest s r) n s = s := by
        induction n with
        | zero => rfl
        | succ n ih =>
          rw [again]
          have : (Expr.alternative i).move.rest s r = s := if_neg hs
          rw [this, ih]
      rw [h1]
      exact key s h
  | mapOpt e ih =>
    have main : (ok .left (Expr.mapOpt e) s a → ∀ r n,
        (Expr.mapOpt e).move.rset (again (fun s => (Expr.mapOpt e).move.rest s r) n s) a =
          Lens.set (Expr.mapOpt e).pure s a) := by
      intro h r n
      have hr : (fun s => (Expr.mapOpt e).move.rest s r) = Option.map e.move.viewed := rfl
      rw [hr, again_map]
      cases s with
      | none => cases a <;> rfl
      | some w =>
        cases a with
        | none =>
          have hc := h.2 rfl rfl
          show some (e.move.viewed (again e.move.viewed n w)) = some w
          rw [again_last e.move.viewed, again_id e.move.viewed (fun s => e.copied_rest.1 hc s _)]
        | some p =>
          show some (e.move.rset (e.move.viewed (again e.move.viewed n w)) p) = some _
          rw [again_last e.move.viewed]
          exact congrArg some ((ih w p).2.2 (h.1 w p rfl rfl) husk (n + 1))
    refine ⟨fun h => ?_, fun h => main h (fun a => a) 0, main⟩
    cases s with
    | none => cases a <;> rfl
    | some w =>
      cases a with
      | none => rfl
      | some p => exact congrArg some ((ih w p).1 (h w p rfl rfl))
  | bindOpt e ih =>
    have main : (ok .left (Expr.bindOpt e) s a → ∀ r n,
        (Expr.bindOpt e).move.rset (again (fun s => (Expr.bindOpt e).move.rest s r) n s) a =
          Lens.set (Expr.bindOpt e).pure s a) := by
      intro h r n
      have hr : (fun s => (Expr.bindOpt e).move.rest s r) = Option.map e.move.viewed := rfl
      rw [hr, again_map]
      cases s with
      | none => cases a <;> rfl
      | some w =>
        cases a with
        | none =>
          have hc := h.2 rfl rfl
          show some (e.move.viewed (again e.move.viewed n w)) = some w
          rw [again_last e.move.viewed, again_id e.move.viewed (fun s => e.copied_rest.1 hc s _)]
        | some p =>
          show some (e.move.rset (e.move.viewed (again e.move.viewed n w)) (some p)) = some _
          rw [again_last e.move.viewed]
          exact congrArg some ((ih w (some p)).2.2 (h.1 w p rfl rfl) husk (n + 1))
    refine ⟨fun h => ?_, fun h => main h (fun a => a) 0, main⟩
    cases s with
    | none => cases a <;> rfl
    | some w =>
      cases a with
      | none => rfl
      | some p => exact congrArg some ((ih w (some p)).1 (h w p rfl rfl))
  | zip es ih =>
    have main : (ok .left (Expr.zip es) s a → ∀ r n,
        (Expr.zip es).move.rset (again (fun s => (Expr.zip es).move.rest s r) n s) a =
          Lens.set (Expr.zip es).pure s a) := by
      intro h r n
      funext i
      show (es i).move.rset ((es i).move.viewed
        (again (fun s i => (es i).move.viewed (s i)) n s i)) (a i) = Lens.set (es i).pure (s i) (a i)
      rw [again_pi (fun i => (es i).move.viewed), again_last (es i).move.viewed]
      exact (ih i (s i) (a i)).2.2 (h i) husk (n + 1)
    exact ⟨fun h => funext fun i => (ih i (s i) (a i)).1 (h i),
      fun h => main h (fun a => a) 0, main⟩
  | fan es ih =>
    have hf : (ok .rval (Expr.fan es) s a) → ∀ rv, fold rv (fun i => (es i).move) s a =
        Lens.setFold (fun i => (es i).pure) s a := by
      intro h rv
      exact fold_eq rv es s a (fun i s' =>
        ⟨(ih i s' (a i)).1 (h i s').1, (ih i s' (a i)).2.1 (h i s').2⟩)
    exact ⟨fun h => hf h false, fun h => hf h true, fun h => cop _ _ _ rfl (hf h true)⟩
  | erased e ih =>
    exact ⟨(ih s a).1, (ih s a).1, fun h => cop (.erased e) _ _ rfl ((ih s a).1 h)⟩
  | comp e e' ih ih' =>
    have hset := (Lens.C28_comp e.lib e'.lib).2
    have hr : ok .rval (Expr.comp e e') s a →
        (Expr.comp e e').move.rset s a = Lens.set (Expr.comp e e').pure s a := by
      intro h
      rw [Expr.pure, hset]
      rw [← (ih s _).2.1 h.2]
      simp only [move, LensMove.comp, view_eq]
      cases ht : e.move.tempR with
      | true =>
        rw [if_pos rfl, (ih' _ _).2.1 (by simpa [ht] using h.1)]
      | false =>
        rw [if_neg (by simp), (ih' _ _).1 (by simpa [ht] using h.1)]
    refine ⟨fun h => ?_, hr, fun h r n => ?_⟩
    · rw [Expr.pure, hset]
      rw [← (ih s _).1 h.2]
      simp only [move, LensMove.comp, view_eq]
      cases ht : e.move.tempL with
      | true =>
        rw [if_pos rfl, (ih' _ _).2.1 (by simpa [ht] using h.1)]
      | false =>
        rw [if_neg (by simp), (ih' _ _).1 (by simpa [ht] using h.1)]
    · cases hp : e.place with
      | taken => simp [ok, hp] at h
      | copied =>
        simp only [ok, hp] at h
        exact cop (.comp e e') _ _ (by simp [place, hp]) (hr h) r n
      | inside =>
        simp only [ok, hp] at h
        obtain ⟨h1, h2, h3, h4, h5, h6⟩ := e.copied_rest.2 hp
        have hag : again (fun s => (Expr.comp e e').move.rest s r) n s =
            e.move.rest s (again (fun a => e'.move.rest a r) n) := by
          have : ∀ n g, again (fun s => (Expr.comp e e').move.rest s r) n (e.move.rest s g) =
              e.move.rest s (fun a => again (fun a => e'.move.rest a r) n (g a)) := by
            intro n
            induction n with
            | zero => exact fun g => rfl
            | succ n ihn =>
              intro g
              rw [again]
              have : (Expr.comp e e').move.rest (e.move.rest s g) r =
                  e.move.rest s (fun a => e'.move.rest (g a) r) := h2 s g _
              rw [this, ihn]
              rfl
          have := this n (fun a => a)
          rwa [h3] at this
        rw [hag]
        simp only [move, LensMove.comp, h6, if_true, h1, h4]
        rw [Expr.pure, hset, view_eq, (ih' _ _).2.2 h]

end Verif.LensMove
