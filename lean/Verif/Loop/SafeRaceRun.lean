import Verif.Loop.SafeRaceProps

/-! C102: which calls have taken effect, and that they return. -/

namespace Verif.Loop.Safe

/-- Thread `t` is in `post`, before the task is in a queue. -/
def R.posting (r : R) (t : Nat) : Bool :=
  match r.pc t with
  | some .check => true
  | some .own => true
  | some .lock => true
  | some .push => true
  | _ => false

/-- Thread `t` is in `adopt`. -/
def R.adopting (r : R) (t : Nat) : Bool :=
  match r.pc t with
  | some .adoptCheck => true
  | some .adoptWrite => true
  | _ => false

/-- The owner has called `step` and is about to check that it is the owner. -/
def R.entering (r : R) : Bool := r.pc r.st.owner == some .stepCheck

/-- A schedule from the start, with calm adoptions. -/
inductive R.Calmly (dbg : Bool) (o : Nat) : List ROp → R → Prop where
  | init : Calmly dbg o [] (R.init o)
  | step {ops r r'} (op : ROp) : Calmly dbg o ops r → r.Calm op → r.step dbg op = some r' → Calmly dbg o (ops ++ [op]) r'

theorem R.Calmly.reach {dbg : Bool} {o : Nat} {ops : List ROp} {r : R} (h : R.Calmly dbg o ops r) : R.ReachCalm dbg r := by
  induction h with
  | init => exact .init o
  | step op _ hc he ih => exact .step op ih hc he

/-- The step of `Loop/SafeQueue.lean` that a step here is. -/
def R.effect (dbg : Bool) (r : R) : ROp → Option Op
  | .post _ => none
  | .adopt _ => none
  | .step => if dbg then none else some .step
  | .tick => match r.st.ctl with | .loop _ _ => some .tick | _ => none
  | .ret => some .ret
  | .throw => some .throw
  | .go t =>
    match r.pc t with
    | some .own => some (.post t)
    | some .push => some (.post t)
    | some .swap => some .tick
    | some .stepCheck => some .step
    | some .adoptWrite => some (.adopt t)
    | _ => none

theorem setPc_self (f : Nat → Option Pc) (t : Nat) (p : Option Pc) : setPc f t p t = p := by simp [setPc]

theorem setPc_ne (f : Nat → Option Pc) {t u : Nat} (p : Option Pc) (h : u ≠ t) : setPc f t p u = f u := by
  simp [setPc, h]

/-- What a step does, seen from outside. -/
theorem step_effect {dbg : Bool} {r r' : R} {op : ROp} (v : RInv r) (h : r.step dbg op = some r') :
    (match r.effect dbg op with
      | none => r'.st = r.st
      | some op' => Safe.step r.st op' = some r'.st) := by
  cases op with
  | post t =>
    simp only [R.step] at h
    split at h
    · cases h; rfl
    · cases h
  | step =>
    simp only [R.step] at h
    split at h
    · cases dbg with
      | true => simp only [if_true] at h; cases h; rfl
      | false =>
        cases hs : Safe.step r.st .step with
        | none => simp [hs] at h
        | some s => simp only [hs, Option.map_some, Bool.false_eq_true, if_false, Option.some.injEq] at h; subst h; exact hs
    · cases h
  | adopt t =>
    simp only [R.step] at h
    split at h
    · cases h; rfl
    · cases h
  | tick =>
    simp only [R.step] at h
    split at h
    · cases hcl : r.st.ctl with
      | loop p i =>
        simp only [hcl] at h
        cases hs : Safe.step r.st .tick with
        | none => simp [hs] at h
        | some s =>
          simp only [hs, Option.map_some, Option.some.injEq] at h; subst h
          simp only [R.effect, hcl]; exact hs
      | swap => simp only [hcl] at h; cases h; simp only [R.effect, hcl]
      | idle => simp [hcl] at h
      | task p i n => simp [hcl] at h
    · cases h
  | ret =>
    simp only [R.step] at h
    split at h
    · cases hs : Safe.step r.st .ret with
      | none => simp [hs] at h
      | some s => simp only [hs, Option.map_some, Option.some.injEq] at h; subst h; exact hs
    · cases h
  | throw =>
    simp only [R.step] at h
    split at h
    · cases hs : Safe.step r.st .throw with
      | none => simp [hs] at h
      | some s => simp only [hs, Option.map_some, Option.some.injEq] at h; subst h; exact hs
    · cases h
  | go t =>
    simp only [R.step] at h
    simp only [R.effect]
    cases hp : r.pc t with
    | none => simp [hp] at h
    | some p =>
      simp only [hp] at h
      cases p with
      | check => cases h; rfl
      | own =>
        cases h
        obtain ⟨e, hu⟩ := v.own t hp
        simp only [Safe.step, e, if_true]
        cases hcl : r.st.ctl with
        | idle => simp only [St.pushLocal, hcl]
        | task p i n => simp only [St.pushLocal, hcl]
        | loop p i => rw [hcl] at hu; cases hu
        | swap => rw [hcl] at hu; cases hu
      | lock =>
        dsimp only at h
        split at h
        · cases h; rfl
        · cases h
      | swapLock =>
        dsimp only at h
        split at h
        · cases h; rfl
        · cases h
      | push =>
        cases h
        have e := v.push t hp
        simp only [Safe.step, e, if_false]
        rfl
      | swap =>
        dsimp only at h ⊢
        cases hs : Safe.step r.st .tick with
        | none => simp [hs] at h
        | some s => simp only [hs, Option.map_some, Option.some.injEq] at h; subst h; rfl
      | unlock => cases h; rfl
      | stepCheck =>
        dsimp only at h ⊢
        cases hs : Safe.step r.st .step with
        | none => simp [hs] at h
        | some s => simp only [hs, Option.map_some, Option.some.injEq] at h; subst h; rfl
      | adoptCheck =>
        cases h
        obtain ⟨_, h2, _⟩ := v.adopts t _ hp rfl
        have ea : (r.st.assertion || !r.st.loc.isEmpty) = r.st.assertion := by simp [h2]
        show ({ r.st with assertion := r.st.assertion || !r.st.loc.isEmpty } : St) = r.st
        rw [ea]
      | adoptWrite =>
        cases h
        obtain ⟨h1, h2, _⟩ := v.adopts t _ hp rfl
        simp [Safe.step, h1, h2]

/-- One more if it is. -/
def one (b : Bool) : Nat := if b then 1 else 0

/-- How often an action is in a schedule. -/
def times {α : Type} [DecidableEq α] (a : α) (l : List α) : Nat := l.countP fun x => decide (x = a)

theorem times_snoc {α : Type} [DecidableEq α] (a b : α) (l : List α) : times a (l ++ [b]) = times a l + one (decide (b = a)) := by
  by_cases h : b = a <;> simp [times, one, h]

/-- Who moves in a step, and to where. -/
def R.moves (dbg : Bool) (r : R) : ROp → Option (Nat × Option Pc)
  | .post t => some (t, some .check)
  | .adopt t => some (t, some (if dbg then .adoptCheck else .adoptWrite))
  | .step => if dbg then some (r.st.owner, some .stepCheck) else none
  | .tick => match r.st.ctl with | .loop _ _ => none | _ => some (r.st.owner, some .swapLock)
  | .ret => none
  | .throw => none
  | .go t =>
    match r.pc t with
    | some .check => some (t, some (if t = r.st.owner then .own else .lock))
    | some .lock => some (t, some .push)
    | some .push => some (t, some .unlock)
    | some .swapLock => some (t, some .swap)
    | some .swap => some (t, some .unlock)
    | some .adoptCheck => some (t, some .adoptWrite)
    | _ => some (t, none)

theorem step_moves {dbg : Bool} {r r' : R} {op : ROp} (h : r.step dbg op = some r') :
    (match r.moves dbg op with
      | none => r'.pc = r.pc
      | some (t, q) => r'.pc = setPc r.pc t q) := by
  cases op with
  | post t =>
    simp only [R.step] at h
    split at h
    · cases h; rfl
    · cases h
  | step =>
    simp only [R.step] at h
    split at h
    · cases dbg with
      | true => simp only [if_true] at h; cases h; rfl
      | false =>
        cases hs : Safe.step r.st .step with
        | none => simp [hs] at h
        | some s => simp only [hs, Option.map_some, Bool.false_eq_true, if_false, Option.some.injEq] at h; subst h; rfl
    · cases h
  | adopt t =>
    simp only [R.step] at h
    split at h
    · cases h; rfl
    · cases h
  | tick =>
    simp only [R.step] at h
    split at h
    · cases hcl : r.st.ctl with
      | loop p i =>
        simp only [hcl] at h
        cases hs : Safe.step r.st .tick with
        | none => simp [hs] at h
        | some s =>
          simp only [hs, Option.map_some, Option.some.injEq] at h; subst h
          simp only [R.moves, hcl]
      | swap => simp only [hcl] at h; cases h; simp only [R.moves, hcl]
      | idle => simp [hcl] at h
      | task p i n => simp [hcl] at h
    · cases h
  | ret =>
    simp only [R.step] at h
    split at h
    · cases hs : Safe.step r.st .ret with
      | none => simp [hs] at h
      | some s => simp only [hs, Option.map_some, Option.some.injEq] at h; subst h; rfl
    · cases h
  | throw =>
    simp only [R.step] at h
    split at h
    · cases hs : Safe.step r.st .throw with
      | none => simp [hs] at h
      | some s => simp only [hs, Option.map_some, Option.some.injEq] at h; subst h; rfl
    · cases h
  | go t =>
    simp only [R.step] at h
    simp only [R.moves]
    cases hp : r.pc t with
    | none => simp [hp] at h
    | some p =>
      simp only [hp] at h
      cases p with
      | lock =>
        dsimp only at h
        split at h
        · cases h; rfl
        · cases h
      | swapLock =>
        dsimp only at h
        split at h
        · cases h; rfl
        · cases h
      | swap =>
        dsimp only at h ⊢
        cases hs : Safe.step r.st .tick with
        | none => simp [hs] at h
        | some s => simp only [hs, Option.map_some, Option.some.injEq] at h; subst h; rfl
      | stepCheck =>
        dsimp only at h ⊢
        cases hs : Safe.step r.st .step with
        | none => simp [hs] at h
        | some s => simp only [hs, Option.map_some, Option.some.injEq] at h; subst h; rfl
      | _ => cases h; rfl

/-- Who begins a call is not in one. -/
theorem step_idle {dbg : Bool} {r r' : R} {op : ROp} (h : r.step dbg op = some r') :
    (match op with
      | .post t => r.pc t = none
      | .adopt t => r.pc t = none
      | .go t => r.pc t ≠ none
      | _ => r.pc r.st.owner = none) := by
  cases op with
  | post t =>
    simp only [R.step] at h
    split at h
    · rename_i hf
      simp only [R.free, Bool.and_eq_true, Option.isNone_iff_eq_none] at hf
      exact hf.1
    · cases h
  | step =>
    simp only [R.step] at h
    split at h
    · rename_i hi; exact hi.2
    · cases h
  | adopt t =>
    simp only [R.step] at h
    split at h
    · rename_i hi; exact hi.2
    · cases h
  | go t =>
    simp only [R.step] at h
    intro e
    simp [e] at h
  | _ =>
    simp only [R.step] at h
    split at h
    · assumption
    · cases h

theorem count_post {dbg : Bool} {r r' : R} {op : ROp} (h : r.step dbg op = some r') (t : Nat) :
    one (decide (op = .post t)) + one (r.posting t) =
      one (decide (r.effect dbg op = some (.post t))) + one (r'.posting t) := by
  have hm := step_moves h
  have hi := step_idle h
  unfold R.posting
  cases op with
  | post u =>
    simp only [R.moves] at hm
    rw [hm]
    by_cases e : t = u
    · subst e; simp [setPc, R.effect, one, hi]
    · simp [setPc, R.effect, one, e, Ne.symm e]
  | step =>
    simp only [R.moves] at hm
    cases dbg
    · simp only [Bool.false_eq_true, if_false] at hm; rw [hm]; simp [R.effect, one]
    · simp only [if_true] at hm
      rw [hm]
      by_cases e : t = r.st.owner
      · subst e; simp at hi; simp [setPc, R.effect, one, hi]
      · simp [setPc, R.effect, one, e]
  | adopt u =>
    simp only [R.moves] at hm
    rw [hm]
    by_cases e : t = u
    · subst e; cases dbg <;> simp [setPc, R.effect, one, hi]
    · simp [setPc, R.effect, one, e]
  | tick =>
    simp only [R.moves] at hm
    simp at hi
    cases hcl : r.st.ctl <;> simp only [hcl] at hm <;> rw [hm] <;> by_cases e : t = r.st.owner <;>
      first
      | (subst e; simp [setPc, R.effect, one, hi, hcl]; done)
      | simp [setPc, R.effect, one, e, hcl]
  | ret => simp only [R.moves] at hm; rw [hm]; simp [R.effect, one]
  | throw => simp only [R.moves] at hm; rw [hm]; simp [R.effect, one]
  | go u =>
    simp only [R.moves] at hm
    cases hp : r.pc u with
    | none => exact (hi hp).elim
    | some p =>
      by_cases e : t = u
      · subst e
        cases p with
        | check => simp only [hp] at hm; rw [hm]; by_cases eo : t = r.st.owner <;> simp [setPc, R.effect, one, hp, eo] <;> simp [← eo, hp]
        | _ => simp only [hp] at hm; rw [hm]; simp [setPc, R.effect, one, hp]
      · cases p <;> simp only [hp] at hm <;> rw [hm] <;> simp [setPc, R.effect, one, hp, e, Ne.symm e]

theorem count_adopt {dbg : Bool} {r r' : R} {op : ROp} (h : r.step dbg op = some r') (t : Nat) :
    one (decide (op = .adopt t)) + one (r.adopting t) =
      one (decide (r.effect dbg op = some (.adopt t))) + one (r'.adopting t) := by
  have hm := step_moves h
  have hi := step_idle h
  unfold R.adopting
  cases op with
  | post u =>
    simp only [R.moves] at hm
    rw [hm]
    by_cases e : t = u
    · subst e; simp [setPc, R.effect, one, hi]
    · simp [setPc, R.effect, one, e]
  | step =>
    simp only [R.moves] at hm
    cases dbg
    · simp only [Bool.false_eq_true, if_false] at hm; rw [hm]; simp [R.effect, one]
    · simp only [if_true] at hm
      rw [hm]
      by_cases e : t = r.st.owner
      · subst e; simp at hi; simp [setPc, R.effect, one, hi]
      · simp [setPc, R.effect, one, e]
  | adopt u =>
    simp only [R.moves] at hm
    rw [hm]
    by_cases e : t = u
    · subst e; cases dbg <;> simp [setPc, R.effect, one, hi]
    · simp [setPc, R.effect, one, e, Ne.symm e]
  | tick =>
    simp only [R.moves] at hm
    simp at hi
    cases hcl : r.st.ctl <;> simp only [hcl] at hm <;> rw [hm] <;> by_cases e : t = r.st.owner <;>
      first
      | (subst e; simp [setPc, R.effect, one, hi, hcl]; done)
      | simp [setPc, R.effect, one, e, hcl]
  | ret => simp only [R.moves] at hm; rw [hm]; simp [R.effect, one]
  | throw => simp only [R.moves] at hm; rw [hm]; simp [R.effect, one]
  | go u =>
    simp only [R.moves] at hm
    cases hp : r.pc u with
    | none => exact (hi hp).elim
    | some p =>
      by_cases e : t = u
      · subst e
        cases p with
        | check => simp only [hp] at hm; rw [hm]; by_cases eo : t = r.st.owner <;> simp [setPc, R.effect, one, hp, eo] <;> simp [← eo, hp]
        | _ => simp only [hp] at hm; rw [hm]; simp [setPc, R.effect, one, hp]
      · cases p <;> simp only [hp] at hm <;> rw [hm] <;> simp [setPc, R.effect, one, hp, e, Ne.symm e]

/-- The owner changes only when a thread has adopted the loop, and then no one is in a call. -/
theorem owner_step {dbg : Bool} {r r' : R} {op : ROp} (v : RInv r) (h : r.step dbg op = some r') :
    r'.st.owner = r.st.owner ∨ ∃ t, op = .go t ∧ r.pc t = some .adoptWrite := by
  have he := step_effect v h
  cases hx : r.effect dbg op with
  | none => rw [hx] at he; dsimp only at he; rw [he]; exact Or.inl rfl
  | some op' =>
    rw [hx] at he
    dsimp only at he
    cases op' with
    | adopt t =>
      refine Or.inr ⟨t, ?_⟩
      cases op with
      | go u =>
        simp only [R.effect] at hx
        cases hp : r.pc u with
        | none => rw [hp] at hx; cases hx
        | some p => rw [hp] at hx; cases p <;> cases hx; exact ⟨rfl, hp⟩
      | step => simp only [R.effect] at hx; split at hx <;> cases hx
      | tick => simp only [R.effect] at hx; split at hx <;> cases hx
      | _ => cases hx
    | tick => exact Or.inl (tick_owner he)
    | _ =>
      refine Or.inl ?_
      simp only [Safe.step] at he
      repeat' split at he
      all_goals first | (simp only [Option.some.injEq] at he; rw [← he]) | cases he

theorem count_step {dbg : Bool} {r r' : R} {op : ROp} (v : RInv r) (h : r.step dbg op = some r') :
    one (decide (op = .step)) + one r.entering = one (decide (r.effect dbg op = some .step)) + one r'.entering := by
  have hm := step_moves h
  have hi := step_idle h
  unfold R.entering
  rcases owner_step v h with ho | ⟨t, rfl, hw⟩
  · rw [ho]
    cases op with
    | post u =>
      simp only [R.moves] at hm
      rw [hm]
      by_cases e : r.st.owner = u
      · simp only at hi; rw [← e] at hi; simp [setPc, R.effect, one, e.symm, hi]
      · simp [setPc, R.effect, one, e]
    | step =>
      simp only [R.moves] at hm
      simp only at hi
      cases dbg
      · simp only [Bool.false_eq_true, if_false] at hm; rw [hm]; simp [R.effect, one]
      · simp only [if_true] at hm; rw [hm]; simp [setPc, R.effect, one, hi]
    | adopt u =>
      simp only [R.moves] at hm
      rw [hm]
      by_cases e : r.st.owner = u
      · simp only at hi; rw [← e] at hi; cases dbg <;> simp [setPc, R.effect, one, e.symm, hi]
      · simp [setPc, R.effect, one, e]
    | tick =>
      simp only [R.moves] at hm
      simp only at hi
      cases hcl : r.st.ctl <;> simp only [hcl] at hm <;> rw [hm] <;> simp [setPc, R.effect, one, hi, hcl]
    | ret => simp only [R.moves] at hm; rw [hm]; simp [R.effect, one]
    | throw => simp only [R.moves] at hm; rw [hm]; simp [R.effect, one]
    | go u =>
      simp only [R.moves] at hm
      cases hp : r.pc u with
      | none => exact (hi hp).elim
      | some p =>
        by_cases e : r.st.owner = u
        · subst e
          cases p <;> simp only [hp] at hm <;> rw [hm] <;> simp [setPc, R.effect, one, hp]
        · cases p with
          | stepCheck => exact (e (v.stepCheck u hp).1.symm).elim
          | _ => simp only [hp] at hm; rw [hm]; simp [setPc, R.effect, one, hp, e]
  · obtain ⟨_, _, h3⟩ := v.adopts t _ hw rfl
    simp only [R.moves, hw] at hm
    have hn : ∀ u, setPc r.pc t none u = none := by
      intro u
      by_cases e : u = t
      · rw [e]; exact setPc_self ..
      · rw [setPc_ne _ _ e]; exact h3 u e
    rw [hm, hn]
    by_cases e : r.st.owner = t
    · rw [e, hw]; simp [R.effect, hw, one]
    · rw [h3 _ e]; simp [R.effect, hw, one]

theorem run_snoc {s s' s'' : St} {ops : List Op} {op : Op} (h : run s ops = some s') (he : Safe.step s' op = some s'') :
    run s (ops ++ [op]) = some s'' := by
  induction ops generalizing s with
  | nil => cases h; simp [run, he]
  | cons o os ih =>
    simp only [run] at h
    cases hs : Safe.step s o with
    | none => simp [hs] at h
    | some s1 =>
      rw [hs] at h
      simp only [List.cons_append, run, hs]
      exact ih h

/-- C102: the state of the loop is that after a sequence of whole calls, in which every call that has returned
counts once; a post counts from when its task is in a queue. -/
theorem C102_calls {dbg : Bool} {o : Nat} {ops : List ROp} {r : R} (h : R.Calmly dbg o ops r) :
    ∃ calls : List Op, run (init o) calls = some r.st ∧
      (∀ t, times (.post t) ops = times (.post t) calls + one (r.posting t)) ∧
      (∀ t, times (.adopt t) ops = times (.adopt t) calls + one (r.adopting t)) ∧
      times .step ops = times .step calls + one r.entering ∧
      times .ret ops = times .ret calls ∧ times .throw ops = times .throw calls := by
  induction h with
  | init => exact ⟨[], rfl, fun _ => rfl, fun _ => rfl, rfl, rfl, rfl⟩
  | @step ops r r' op h0 hc hs ih =>
    obtain ⟨calls, h1, h2, h3, h4, h5, h6⟩ := ih
    have v := (rinv_calm h0.reach).1
    have he := step_effect v hs
    have cp := count_post hs
    have ca := count_adopt hs
    have cs := count_step v hs
    have cr : ∀ {x y}, (x = ROp.ret ∧ y = Op.ret) ∨ (x = ROp.throw ∧ y = Op.throw) →
        one (decide (op = x)) = one (decide (r.effect dbg op = some y)) := by
      intro x y hxy
      congr 1
      rw [decide_eq_decide]
      cases op with
      | go u =>
        cases hp : r.pc u with
        | none => rcases hxy with ⟨rfl, rfl⟩ | ⟨rfl, rfl⟩ <;> simp [R.effect, hp]
        | some p => rcases hxy with ⟨rfl, rfl⟩ | ⟨rfl, rfl⟩ <;> cases p <;> simp [R.effect, hp]
      | tick =>
        rcases hxy with ⟨rfl, rfl⟩ | ⟨rfl, rfl⟩ <;> cases hcl : r.st.ctl <;> simp [R.effect, hcl]
      | step => rcases hxy with ⟨rfl, rfl⟩ | ⟨rfl, rfl⟩ <;> cases dbg <;> simp [R.effect]
      | _ => rcases hxy with ⟨rfl, rfl⟩ | ⟨rfl, rfl⟩ <;> simp [R.effect]
    have crr := cr (Or.inl ⟨rfl, rfl⟩)
    have crt := cr (Or.inr ⟨rfl, rfl⟩)
    cases hx : r.effect dbg op with
    | none =>
      rw [hx] at he crr crt cs
      simp only [hx] at cp ca
      dsimp only at he
      refine ⟨calls, by rw [he]; exact h1, ?_, ?_, ?_, ?_, ?_⟩
      · intro t; rw [times_snoc, h2]; have := cp t; simp [one] at this ⊢; omega
      · intro t; rw [times_snoc, h3]; have := ca t; simp [one] at this ⊢; omega
      · rw [times_snoc, h4]; simp [one] at cs ⊢; omega
      · rw [times_snoc, h5, crr]; simp [one]
      · rw [times_snoc, h6, crt]; simp [one]
    | some op' =>
      rw [hx] at he crr crt cs
      simp only [hx, Option.some.injEq] at cp ca cs crr crt
      dsimp only at he
      refine ⟨calls ++ [op'], run_snoc h1 he, ?_, ?_, ?_, ?_, ?_⟩
      · intro t; rw [times_snoc, times_snoc, h2]; have := cp t; omega
      · intro t; rw [times_snoc, times_snoc, h3]; have := ca t; omega
      · rw [times_snoc, times_snoc, h4]; omega
      · rw [times_snoc, times_snoc, h5, crr]
      · rw [times_snoc, times_snoc, h6, crt]

/-! ### Calls return -/

theorem held_inside {dbg : Bool} {r : R} (h : R.ReachCalm dbg r) :
    ∀ t, r.held = some t → r.pc t = some .push ∨ r.pc t = some .swap ∨ r.pc t = some .unlock := by
  induction h with
  | init o => intro t h; cases h
  | @step r r' op _ hc hs ih =>
    have hm := step_moves hs
    have hi := step_idle hs
    intro t ht
    cases op with
    | go u =>
      simp only [R.step] at hs
      simp only [R.moves] at hm
      cases hp : r.pc u with
      | none => exact (hi hp).elim
      | some p =>
        simp only [hp] at hs hm
        have hother : t ≠ u → r.held = some t → r'.pc t = some .push ∨ r'.pc t = some .swap ∨ r'.pc t = some .unlock := by
          intro e h
          have : r'.pc t = r.pc t := by
            cases p <;> simp only at hm <;> rw [hm] <;> exact setPc_ne _ _ e
          rw [this]; exact ih t h
        cases p with
        | lock =>
          dsimp only at hs
          split at hs
          · cases hs; cases ht; rw [hm]; exact Or.inl (setPc_self ..)
          · cases hs
        | swapLock =>
          dsimp only at hs
          split at hs
          · cases hs; cases ht; rw [hm]; exact Or.inr (Or.inl (setPc_self ..))
          · cases hs
        | unlock => cases hs; cases ht
        | push =>
          cases hs
          by_cases e : t = u
          · subst e; rw [hm]; exact Or.inr (Or.inr (setPc_self ..))
          · exact hother e ht
        | swap =>
          dsimp only at hs
          cases hss : Safe.step r.st .tick with
          | none => simp [hss] at hs
          | some s =>
            simp only [hss, Option.map_some, Option.some.injEq] at hs; subst hs
            by_cases e : t = u
            · subst e; exact Or.inr (Or.inr (setPc_self ..))
            · exact hother e ht
        | stepCheck =>
          dsimp only at hs
          cases hss : Safe.step r.st .step with
          | none => simp [hss] at hs
          | some s =>
            simp only [hss, Option.map_some, Option.some.injEq] at hs; subst hs
            by_cases e : t = u
            · subst e; rcases ih t ht with h | h | h <;> rw [hp] at h <;> cases h
            · exact hother e ht
        | _ =>
          cases hs
          by_cases e : t = u
          · subst e; rcases ih t ht with h | h | h <;> rw [hp] at h <;> cases h
          · exact hother e ht
    | _ =>
      -- no one else changes who holds the mutex, and who begins a call does not hold it
      have hheld : r'.held = r.held := by
        simp only [R.step] at hs
        repeat' split at hs
        all_goals first
          | (cases hs; rfl)
          | (simp only [Option.map_eq_some_iff] at hs; obtain ⟨s, _, hs⟩ := hs; subst hs; rfl)
          | cases hs
      rw [hheld] at ht
      have hin := ih t ht
      have hne : r.pc t ≠ none := by rcases hin with h | h | h <;> rw [h] <;> simp
      have hpc : r'.pc t = r.pc t := by
        cases hmv : r.moves dbg _ with
        | none => rw [hmv] at hm; dsimp only at hm; rw [hm]
        | some x =>
          obtain ⟨u, q⟩ := x
          rw [hmv] at hm
          dsimp only at hm
          rw [hm]
          refine setPc_ne _ _ ?_
          rintro rfl
          simp only [R.moves] at hmv
          first
          | (simp only [Option.some.injEq, Prod.mk.injEq] at hmv; rw [hmv.1] at hi; exact hne hi)
          | (repeat' split at hmv
             all_goals first
               | (simp only [Option.some.injEq, Prod.mk.injEq] at hmv; rw [← hmv.1] at hne; exact hne hi)
               | cases hmv)
          | cases hmv
      rw [hpc]; exact hin

/-- C102: as long as some thread is in a call, some thread can go on: they do not wait for each other for ever. -/
theorem C102_progress {dbg : Bool} {r : R} (h : R.ReachCalm dbg r) {t : Nat} (ht : r.pc t ≠ none) :
    ∃ u r', r.pc u ≠ none ∧ r.step dbg (.go u) = some r' := by
  have v := (rinv_calm h).1
  -- who does not wait for the mutex can go on
  have key : ∀ u p, r.pc u = some p → p ≠ .lock → p ≠ .swapLock → ∃ r', r.step dbg (.go u) = some r' := by
    intro u p hp h1 h2
    cases p with
    | lock => exact (h1 rfl).elim
    | swapLock => exact (h2 rfl).elim
    | swap => obtain ⟨_, hc⟩ := v.swap u hp; simp [R.step, hp, Safe.step, hc]
    | stepCheck => obtain ⟨_, hc⟩ := v.stepCheck u hp; simp [R.step, hp, Safe.step, hc]
    | _ => simp [R.step, hp]
  cases hh : r.held with
  | some u =>
    rcases held_inside h u hh with hp | hp | hp
    all_goals
      obtain ⟨r', h'⟩ := key u _ hp (by simp) (by simp)
      exact ⟨u, r', by rw [hp]; simp, h'⟩
  | none =>
    cases hp : r.pc t with
    | none => exact (ht hp).elim
    | some p =>
      refine ⟨t, ?_⟩
      by_cases h1 : p = .lock
      · subst h1; simp [R.step, hp, hh]
      · by_cases h2 : p = .swapLock
        · subst h2; simp [R.step, hp, hh]
        · obtain ⟨r', h'⟩ := key t p hp h1 h2
          exact ⟨r', by rw [hp]; simp, h'⟩

/-- How many more steps a call takes at most. -/
def Pc.left : Pc → Nat
  | .check => 4
  | .own => 1
  | .lock => 3
  | .push => 2
  | .swapLock => 3
  | .swap => 2
  | .unlock => 1
  | .stepCheck => 1
  | .adoptCheck => 2
  | .adoptWrite => 1

/-- Of the proof: how many accesses the call of thread `t` has still to do. -/
def R.left (r : R) (t : Nat) : Nat := match r.pc t with | some p => p.left | none => 0

/-- C102: and every call returns after at most four steps of its thread. -/
theorem C102_returns {dbg : Bool} {o : Nat} {ops : List ROp} {r : R} (h : R.Calmly dbg o ops r) (t : Nat) :
    times (.go t) ops + r.left t ≤ 4 * (times (.post t) ops + times (.adopt t) ops + times .step ops + times .tick ops) := by
  induction h with
  | init => simp [times, R.left, R.init]
  | @step ops r r' op _ hc hs ih =>
    have hm := step_moves hs
    have hi := step_idle hs
    simp only [times_snoc]
    unfold R.left at ih ⊢
    cases op with
    | go u =>
      simp only [R.moves] at hm
      by_cases e : t = u
      · subst e
        cases hp : r.pc t with
        | none => exact (hi hp).elim
        | some p =>
          rw [hp] at ih
          cases p with
          | check =>
            simp only [hp] at hm; rw [hm, setPc_self]
            by_cases eo : t = r.st.owner <;> simp [eo, one, Pc.left] at ih ⊢ <;> omega
          | _ => simp only [hp] at hm; rw [hm, setPc_self]; simp [one, Pc.left] at ih ⊢; omega
      · have : r'.pc t = r.pc t := by
          cases hp : r.pc u with
          | none => exact (hi hp).elim
          | some p => cases p <;> simp only [hp] at hm <;> rw [hm] <;> exact setPc_ne _ _ e
        rw [this]
        simp [one, Ne.symm e]; omega
    | post u =>
      simp only [R.moves] at hm
      rw [hm]
      by_cases e : t = u
      · subst e; rw [setPc_self]; simp only at hi; rw [hi] at ih; simp [one, Pc.left] at ih ⊢; omega
      · rw [setPc_ne _ _ e]; simp [one, Ne.symm e]; omega
    | adopt u =>
      simp only [R.moves] at hm
      rw [hm]
      by_cases e : t = u
      · subst e; rw [setPc_self]; simp only at hi; rw [hi] at ih; cases dbg <;> simp [one, Pc.left] at ih ⊢ <;> omega
      · rw [setPc_ne _ _ e]; simp [one, Ne.symm e]; omega
    | step =>
      simp only [R.moves] at hm
      cases dbg
      · simp only [Bool.false_eq_true, if_false] at hm; rw [hm]; simp [one]; omega
      · simp only [if_true] at hm; rw [hm]
        by_cases e : t = r.st.owner
        · subst e; rw [setPc_self]; simp only at hi; rw [hi] at ih; simp [one, Pc.left] at ih ⊢; omega
        · rw [setPc_ne _ _ e]; simp [one]; omega
    | tick =>
      simp only [R.moves] at hm
      simp only at hi
      cases hcl : r.st.ctl <;> simp only [hcl] at hm <;> rw [hm] <;> by_cases e : t = r.st.owner <;>
        first
        | (simp [one]; omega; done)
        | (subst e; rw [setPc_self]; rw [hi] at ih; simp [one, Pc.left] at ih ⊢; omega; done)
        | (rw [setPc_ne _ _ e]; simp [one]; omega)
    | ret => simp only [R.moves] at hm; rw [hm]; simp [one]; omega
    | throw => simp only [R.moves] at hm; rw [hm]; simp [one]; omega

/-! ### An example -/

-- thread 1 posts while the owner, thread 0, is in `step`; thread 1 has not returned
example : ∃ r, R.Calmly false 0 [.post 1, .go 1, .step, .go 1, .go 1, .tick] r ∧ r.pc 1 ≠ none ∧
    r.st.log = [.enter, .post 1 0] ∧ r.posting 1 = false := by
  refine ⟨_, .step .tick (.step (.go 1) (.step (.go 1) (.step .step (.step (.go 1) (.step (.post 1) .init ?_ rfl)
    trivial rfl) ?_ rfl) trivial rfl) trivial rfl) trivial rfl, ?_, ?_, ?_⟩
  · intro u p _ h; cases h
  · intro u p _ h
    by_cases e : u = 1
    · subst e; cases h; rfl
    · simp [setPc, e, R.init] at h
  · decide
  · decide
  · decide

end Verif.Loop.Safe
