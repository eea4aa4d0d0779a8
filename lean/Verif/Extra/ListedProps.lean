import Verif.Extra.Listed

/-!
C146: states of structs whose declaration may leave members out.
-/

namespace Verif.Listed

open Verif.Extra

variable {n : Nat} {V : Type} [DecidableEq V]

/-! ### Specification -/

/-- Two values have the same members `ls`. -/
def Agree (ls : List (Fin n)) (a b : Value n V) : Prop := ∀ i ∈ ls, a i = b i

instance (ls : List (Fin n)) (a b : Value n V) : Decidable (Agree ls a b) := inferInstanceAs (Decidable (∀ i ∈ ls, a i = b i))

/-- The value written last, or else the first one. -/
def lastWritten (v : Value n V) (ws : List (Value n V)) : Value n V := ws.getLastD v

/-- The values that differ in a member of `ls` from the one written before. -/
def news (ls : List (Fin n)) : Value n V → List (Value n V) → List (Value n V)
  | _, [] => []
  | v, w :: ws => if Agree ls v w then news ls w ws else w :: news ls w ws

/-! ### Proofs -/

omit [DecidableEq V] in
theorem Agree.refl (ls : List (Fin n)) (a : Value n V) : Agree ls a a := fun _ _ => rfl

omit [DecidableEq V] in
theorem Agree.symm {ls : List (Fin n)} {a b : Value n V} (h : Agree ls a b) : Agree ls b a := fun i hi => (h i hi).symm

omit [DecidableEq V] in
theorem Agree.trans {ls : List (Fin n)} {a b c : Value n V} (h : Agree ls a b) (h' : Agree ls b c) : Agree ls a c :=
  fun i hi => (h i hi).trans (h' i hi)

theorem equal_iff (ls : List (Fin n)) (a b : Value n V) : equal ls a b = true ↔ Agree ls a b := by
  simp [equal, derivedEq_all, member, Agree]

theorem changed_iff (ls : List (Fin n)) (a b : Value n V) : changed ls a b = true ↔ ¬ Agree ls a b := by
  rw [← equal_iff, changed]; simp

omit [DecidableEq V] in
theorem lastWritten_append (v w : Value n V) (ws : List (Value n V)) : lastWritten v (ws ++ [w]) = w := by
  simp [lastWritten]

theorem news_append (ls : List (Fin n)) (v w : Value n V) (ws : List (Value n V)) :
    news ls v (ws ++ [w]) = news ls v ws ++ (if Agree ls (lastWritten v ws) w then [] else [w]) := by
  induction ws generalizing v with
  | nil => show (if Agree ls v w then [] else [w]) = [] ++ (if Agree ls v w then [] else [w]); rfl
  | cons x ws ih =>
    simp only [List.cons_append, news, ih, lastWritten, List.getLastD_cons]
    split <;> simp

/-- What is kept: the node holds the first of the values written last that agree. -/
structure Inv (ls : List (Fin n)) (v : Value n V) (s : St n V) : Prop where
  split : ∃ xs ys, v :: s.written = xs ++ s.current :: ys ∧ (∀ y ∈ ys, Agree ls s.current y) ∧
    ∀ x, xs.getLast? = some x → ¬ Agree ls x s.current
  near : Agree ls (lastWritten v s.written) s.current
  same : s.dirty = false → s.last = s.current

omit [DecidableEq V] in
theorem inv_publish {ls : List (Fin n)} {v : Value n V} {s : St n V} (i : Inv ls v s) : Inv ls v s.publish := by
  unfold St.publish
  split
  · exact ⟨i.split, i.near, fun _ => rfl⟩
  · exact i

omit [DecidableEq V] in
theorem publish_last {ls : List (Fin n)} {v : Value n V} {s : St n V} (i : Inv ls v s) :
    s.publish.last = s.current ∧ s.publish.current = s.current ∧ s.publish.written = s.written ∧ s.publish.dirty = false := by
  unfold St.publish
  split
  · exact ⟨rfl, rfl, rfl, rfl⟩
  · rename_i h
    have h : s.dirty = false := by simpa using h
    exact ⟨i.same h, rfl, rfl, h⟩

omit [DecidableEq V] in
theorem getLast_cons (v : Value n V) (ws : List (Value n V)) : (v :: ws).getLast? = some (lastWritten v ws) := by
  simp [lastWritten, List.getLast?_cons]

theorem inv_push {ls : List (Fin n)} {v : Value n V} {s : St n V} (i : Inv ls v s) (w : Value n V) :
    Inv ls v (St.pushDown ls { s with written := s.written ++ [w] } w) := by
  unfold St.pushDown
  split
  · rename_i h
    have h : ¬ Agree ls w s.current := (changed_iff ..).1 h
    refine ⟨⟨v :: s.written, [], by simp, by simp, ?_⟩, ?_, by simp⟩
    · intro x hx ha
      rw [getLast_cons] at hx
      cases hx
      exact h (Agree.trans (Agree.symm ha) i.near)
    · show Agree ls (lastWritten v (s.written ++ [w])) w
      rw [lastWritten_append]; exact Agree.refl ls w
  · rename_i h
    have h : Agree ls w s.current := Decidable.not_not.1 fun hn => h ((changed_iff ..).2 hn)
    obtain ⟨xs, ys, h1, h2, h3⟩ := i.split
    refine ⟨⟨xs, ys ++ [w], ?_, ?_, h3⟩, ?_, i.same⟩
    · show v :: (s.written ++ [w]) = _
      rw [← List.cons_append, h1]; simp
    · intro y hy
      rcases List.mem_append.1 hy with hy | hy
      · exact h2 y hy
      · rw [List.mem_singleton.1 hy]; exact h.symm
    · show Agree ls (lastWritten v (s.written ++ [w])) s.current
      rw [lastWritten_append]; exact h

theorem inv_send {ls : List (Fin n)} {v : Value n V} {auto : Bool} {s : St n V} (i : Inv ls v s) (w : Value n V) :
    Inv ls v (s.sendUp ls auto w) := by
  unfold St.sendUp
  dsimp only
  split
  · exact inv_publish (inv_push i w)
  · exact inv_push i w

theorem inv_step {ls : List (Fin n)} {v : Value n V} {auto : Bool} {s : St n V} (i : Inv ls v s) (o : Op n V) :
    Inv ls v (s.step ls auto o) := by
  cases o with
  | set w => exact inv_send i w
  | update f => exact inv_send i _
  | commit => exact inv_publish i

theorem inv_exec {ls : List (Fin n)} {v : Value n V} {auto : Bool} (os : List (Op n V)) {s : St n V} (i : Inv ls v s) :
    Inv ls v (s.exec ls auto os) := by
  induction os generalizing s with
  | nil => exact i
  | cons o os ih => exact ih (inv_step i o)

omit [DecidableEq V] in
theorem inv_start (ls : List (Fin n)) (v : Value n V) : Inv ls v (start v) :=
  ⟨⟨[], [], rfl, by simp, by simp⟩, Agree.refl ls v, fun _ => rfl⟩

theorem exec_append (ls : List (Fin n)) (auto : Bool) (s : St n V) (a b : List (Op n V)) :
    s.exec ls auto (a ++ b) = (s.exec ls auto a).exec ls auto b := by
  simp [St.exec]

theorem pushDown_written (ls : List (Fin n)) (s : St n V) (w : Value n V) :
    (s.pushDown ls w).written = s.written ∧ (s.pushDown ls w).told = s.told ∧ (s.pushDown ls w).last = s.last := by
  unfold St.pushDown
  split <;> exact ⟨rfl, rfl, rfl⟩

/-- An automatic state. -/
structure Auto (ls : List (Fin n)) (v : Value n V) (s : St n V) : Prop where
  inv : Inv ls v s
  clean : s.dirty = false
  told : s.told = news ls v s.written

theorem auto_send {ls : List (Fin n)} {v : Value n V} {s : St n V} (a : Auto ls v s) (w : Value n V) :
    Auto ls v (s.sendUp ls true w) := by
  have i := inv_send (auto := true) a.inv w
  have hp := inv_push a.inv w
  refine ⟨i, (publish_last hp).2.2.2, ?_⟩
  have hn : ∀ x, Agree ls (lastWritten v s.written) x ↔ Agree ls x s.current := fun x =>
    ⟨fun h => h.symm.trans a.inv.near, fun h => a.inv.near.trans h.symm⟩
  by_cases h : Agree ls w s.current
  · have hc : changed ls w s.current = false := by
      rw [← Bool.not_eq_true, changed_iff]; exact fun hh => hh h
    have : s.sendUp ls true w = { s with written := s.written ++ [w] } := by
      simp [St.sendUp, St.pushDown, hc, St.publish, a.clean]
    rw [this]
    show s.told = news ls v (s.written ++ [w])
    rw [news_append, if_pos ((hn w).2 h), List.append_nil, a.told]
  · have hc : changed ls w s.current = true := (changed_iff ..).2 h
    have : s.sendUp ls true w = ⟨w, w, false, s.written ++ [w], s.told ++ [w]⟩ := by
      simp [St.sendUp, St.pushDown, hc, St.publish]
    rw [this]
    show s.told ++ [w] = news ls v (s.written ++ [w])
    rw [news_append, if_neg fun hh => h ((hn w).1 hh), a.told]

theorem auto_exec {ls : List (Fin n)} {v : Value n V} (os : List (Op n V)) {s : St n V} (a : Auto ls v s) :
    Auto ls v (s.exec ls true os) := by
  induction os generalizing s with
  | nil => exact a
  | cons o os ih =>
    refine ih ?_
    cases o with
    | set w => exact auto_send a w
    | update f => exact auto_send a _
    | commit =>
      have : s.publish = s := by simp [St.publish, a.clean]
      show Auto ls v s.publish
      rw [this]; exact a

theorem auto_start (ls : List (Fin n)) (v : Value n V) : Auto ls v (start v) := ⟨inv_start ls v, rfl, rfl⟩

/-! ### Properties -/

/-- C146: whatever is written to a state and committed, what it shows has those members that the declaration lists as they were
written last. -/
theorem C146_listed (ls : List (Fin n)) (auto : Bool) (v : Value n V) (os : List (Op n V)) :
    let s := (start v).exec ls auto (os ++ [.commit])
    ∀ i ∈ ls, s.last i = (s.written.getLastD v) i := by
  intro s i hi
  have iv : Inv ls v ((start v).exec ls auto os) := inv_exec os (inv_start ls v)
  have hs : s = ((start v).exec ls auto os).publish := by
    show (start v).exec ls auto (os ++ [.commit]) = _
    rw [exec_append]; rfl
  obtain ⟨h1, _, h3, _⟩ := publish_last iv
  rw [hs, h1, h3]
  exact (iv.near i hi).symm

/-- C146: if a declaration with `LAGER_STRUCT` compiles, with Boost.PFR, and lists no member twice, then what is shown after a
commit is what was written last. -/
theorem C146_checked {ls : List (Fin n)} (hc : compiles true .struct n ls = true) (hd : ls.Nodup) (auto : Bool) (v : Value n V)
    (os : List (Op n V)) :
    let s := (start v).exec ls auto (os ++ [.commit])
    s.last = s.written.getLastD v := by
  intro s
  funext i
  refine C146_listed ls auto v os i ?_
  have hl : n = ls.length := by simpa [compiles] using hc
  -- a list of n different members has all of them
  have hp : ∀ (m : Nat) (l : List (Fin m)), l.Nodup → m ≤ l.length → ∀ j, j ∈ l := by
    intro m l hl hm j
    refine Decidable.byContradiction fun hj => ?_
    have h1 : (j :: l).Nodup := List.nodup_cons.2 ⟨hj, hl⟩
    have h2 : (j :: l) ⊆ List.finRange m := fun x _ => List.mem_finRange x
    have h3 := h1.length_le_of_subset h2
    simp at h3
    omega
  exact hp n ls hd (Nat.le_of_eq hl) i

/-- C146: exactly what is shown after a commit: the first of the values written last that agree in the members that are listed. -/
theorem C146_shown (ls : List (Fin n)) (auto : Bool) (v : Value n V) (os : List (Op n V)) :
    let s := (start v).exec ls auto (os ++ [.commit])
    ∃ xs ys, v :: s.written = xs ++ s.last :: ys ∧ (∀ y ∈ ys, ∀ i ∈ ls, s.last i = y i) ∧
      ∀ x, xs.getLast? = some x → ∃ i ∈ ls, x i ≠ s.last i := by
  intro s
  have iv : Inv ls v ((start v).exec ls auto os) := inv_exec os (inv_start ls v)
  have hs : s = ((start v).exec ls auto os).publish := by
    show (start v).exec ls auto (os ++ [.commit]) = _
    rw [exec_append]; rfl
  obtain ⟨h1, _, h3, _⟩ := publish_last iv
  rw [hs, h1, h3]
  obtain ⟨xs, ys, a, b, c⟩ := iv.split
  refine ⟨xs, ys, a, b, fun x hx => ?_⟩
  have := c x hx
  refine Decidable.byContradiction fun hn => this fun i hi => Decidable.byContradiction fun he => hn ⟨i, hi, he⟩

/-- C146: the watcher of an automatic state is told exactly the values that differ, in a member that is listed, from the one written
before. -/
theorem C146_told (ls : List (Fin n)) (v : Value n V) (os : List (Op n V)) :
    let s := (start v).exec ls true os
    s.told = (((v :: s.written).zip s.written).filter fun p => decide (∃ i ∈ ls, p.1 i ≠ p.2 i)).map (·.2) := by
  intro s
  have h : s.told = news ls v s.written := (auto_exec os (auto_start ls v)).told
  rw [h]
  generalize s.written = ws
  clear h s
  induction ws generalizing v with
  | nil => rfl
  | cons w ws ih =>
    simp only [news, List.zip_cons_cons, List.filter_cons]
    by_cases hw : Agree ls v w
    · have : ¬ ∃ i ∈ ls, v i ≠ w i := fun ⟨i, hi, he⟩ => he (hw i hi)
      rw [if_pos hw, if_neg (by simpa using this), ih]
    · have : ∃ i ∈ ls, v i ≠ w i :=
        Decidable.byContradiction fun hn => hw fun i hi => Decidable.byContradiction fun he => hn ⟨i, hi, he⟩
      rw [if_neg hw, if_pos (by simpa using this), List.map_cons, ih]

/-- C146: what counts as written: the value given to `set`, and for `update` what the function makes of a value that agrees with the
one written last in the members that are listed; a commit writes nothing. -/
theorem C146_written (ls : List (Fin n)) (auto : Bool) (v : Value n V) (os : List (Op n V)) :
    let s := (start v).exec ls auto os
    (∀ w, ((start v).exec ls auto (os ++ [.set w])).written = s.written ++ [w]) ∧
    (∀ f, ∃ x, ((start v).exec ls auto (os ++ [.update f])).written = s.written ++ [f x] ∧
      ∀ i ∈ ls, x i = (s.written.getLastD v) i) ∧
    ((start v).exec ls auto (os ++ [.commit])).written = s.written ∧ (start v).written = [] := by
  intro s
  have iv : Inv ls v s := inv_exec os (inv_start ls v)
  have hw : ∀ w, (s.sendUp ls auto w).written = s.written ++ [w] := by
    intro w
    unfold St.sendUp
    dsimp only
    split
    · rw [(publish_last (inv_push iv w)).2.2.1, (pushDown_written ..).1]
    · rw [(pushDown_written ..).1]
  refine ⟨fun w => ?_, fun f => ⟨s.current, ?_, fun i hi => (iv.near i hi).symm⟩, ?_, rfl⟩
  · rw [exec_append]; exact hw w
  · rw [exec_append]; exact hw _
  · rw [exec_append]; exact (publish_last iv).2.2.1

/-- C146: writes to a transactional state show nothing, and tell nobody, until the next commit; writes to an automatic one are shown
as if a commit followed. -/
theorem C146_until (ls : List (Fin n)) (v : Value n V) (os ws : List (Op n V)) (h : ∀ o ∈ ws, o ≠ .commit) :
    (let s := (start v).exec ls false os
     let t := (start v).exec ls false (os ++ ws)
     t.last = s.last ∧ t.told = s.told) ∧
    (start v).exec ls true (os ++ [.commit]) = (start v).exec ls true os := by
  constructor
  · dsimp only
    rw [exec_append]
    generalize (start v).exec ls false os = s
    induction ws generalizing s with
    | nil => exact ⟨rfl, rfl⟩
    | cons o ws ih =>
      have ho := h o (List.mem_cons_self ..)
      obtain ⟨h1, h2⟩ := ih (fun o ho => h o (List.mem_cons_of_mem _ ho)) (s.step ls false o)
      have key : ∀ w, (s.sendUp ls false w).last = s.last ∧ (s.sendUp ls false w).told = s.told := fun w =>
        ⟨(pushDown_written ls { s with written := s.written ++ [w] } w).2.2,
          (pushDown_written ls { s with written := s.written ++ [w] } w).2.1⟩
      have hk : (s.step ls false o).last = s.last ∧ (s.step ls false o).told = s.told := by
        cases o with
        | set w => exact key w
        | update f => exact key _
        | commit => exact absurd rfl ho
      exact ⟨h1.trans hk.1, h2.trans hk.2⟩
  · rw [exec_append]
    have := (auto_exec os (auto_start ls v)).clean
    show ((start v).exec ls true os).publish = _
    simp [St.publish, this]

theorem news_ne_nil (ls : List (Fin n)) (v : Value n V) (ws : List (Value n V)) :
    news ls v ws ≠ [] ↔ ∃ p ∈ (v :: ws).zip ws, ∃ i ∈ ls, p.1 i ≠ p.2 i := by
  induction ws generalizing v with
  | nil => simp [news]
  | cons w ws ih =>
    rw [List.zip_cons_cons]
    by_cases hw : Agree ls v w
    · rw [news, if_pos hw, ih]
      constructor
      · rintro ⟨p, hp, h⟩; exact ⟨p, List.mem_cons_of_mem _ hp, h⟩
      · rintro ⟨p, hp, i, hi, he⟩
        rcases List.mem_cons.1 hp with rfl | hp
        · exact absurd (hw i hi) he
        · exact ⟨p, hp, i, hi, he⟩
    · rw [news, if_neg hw]
      refine ⟨fun _ => ⟨(v, w), List.mem_cons_self .., ?_⟩, fun _ => by simp⟩
      exact Decidable.byContradiction fun hn => hw fun i hi => Decidable.byContradiction fun he => hn ⟨i, hi, he⟩

theorem dirty_exec (ls : List (Fin n)) (v : Value n V) (ws : List (Op n V)) (h : ∀ o ∈ ws, o ≠ .commit) {s : St n V}
    (iv : Inv ls v s) : ∃ new, (s.exec ls false ws).written = s.written ++ new ∧ (s.exec ls false ws).told = s.told ∧
      ((s.exec ls false ws).dirty = true ↔ s.dirty = true ∨ news ls (lastWritten v s.written) new ≠ []) := by
  induction ws generalizing s with
  | nil => exact ⟨[], by simp [St.exec], rfl, by simp [St.exec, news]⟩
  | cons o ws ih =>
    have key : ∀ w, s.step ls false o = s.sendUp ls false w →
        ∃ new, ((s.step ls false o).exec ls false ws).written = s.written ++ new ∧
          ((s.step ls false o).exec ls false ws).told = s.told ∧
          (((s.step ls false o).exec ls false ws).dirty = true ↔ s.dirty = true ∨ news ls (lastWritten v s.written) new ≠ []) := by
      intro w hw
      rw [hw]
      obtain ⟨new, h1, h2, h3⟩ := ih (fun o ho => h o (List.mem_cons_of_mem _ ho)) (inv_send (auto := false) iv w)
      obtain ⟨g1, g2, _⟩ := pushDown_written ls { s with written := s.written ++ [w] } w
      have e1 : (s.sendUp ls false w).written = s.written ++ [w] := g1
      have e2 : (s.sendUp ls false w).told = s.told := g2
      have e3 : (s.sendUp ls false w).dirty = true ↔ s.dirty = true ∨ ¬ Agree ls (lastWritten v s.written) w := by
        have hn : Agree ls (lastWritten v s.written) w ↔ Agree ls w s.current :=
          ⟨fun h => Agree.trans (Agree.symm h) iv.near, fun h => Agree.trans iv.near (Agree.symm h)⟩
        rw [hn, ← changed_iff]
        cases hc : changed ls w s.current <;> simp [St.sendUp, St.pushDown, hc]
      refine ⟨w :: new, by rw [h1, e1]; simp, h2.trans e2, ?_⟩
      rw [h3, e3, e1, lastWritten_append, news]
      by_cases hA : Agree ls (lastWritten v s.written) w
      · rw [if_pos hA]; simp [hA]
      · rw [if_neg hA]; simp [hA]
    cases o with
    | set w => exact key w rfl
    | update f => exact key _ rfl
    | commit => exact absurd rfl (h _ (List.mem_cons_self ..))

/-- C146: a commit of a transactional state tells the watcher once, what is shown then, if a value written since the last commit
differs, in a member that is listed, from the one written before it; otherwise not at all. -/
theorem C146_commit (ls : List (Fin n)) (v : Value n V) (os ws : List (Op n V)) (h : ∀ o ∈ ws, o ≠ .commit) :
    let s := (start v).exec ls false (os ++ [.commit])
    let t := (start v).exec ls false (os ++ [.commit] ++ ws ++ [.commit])
    ∃ new, t.written = s.written ++ new ∧
      t.told = s.told ++ (if ∃ p ∈ (s.written.getLastD v :: new).zip new, ∃ i ∈ ls, p.1 i ≠ p.2 i then [t.last] else []) := by
  intro s t
  have iv : Inv ls v s := inv_exec _ (inv_start ls v)
  have hd : s.dirty = false := by
    show ((start v).exec ls false (os ++ [.commit])).dirty = false
    rw [exec_append]
    exact (publish_last (inv_exec os (inv_start ls v))).2.2.2
  obtain ⟨new, h1, h2, h3⟩ := dirty_exec ls v ws h iv
  have ht : t = (s.exec ls false ws).publish := by
    show (start v).exec ls false (os ++ [.commit] ++ ws ++ [.commit]) = _
    rw [exec_append, exec_append]; rfl
  obtain ⟨p1, _, p3, _⟩ := publish_last (inv_exec (auto := false) ws iv)
  refine ⟨new, by rw [ht, p3, h1], ?_⟩
  have h4 : (s.exec ls false ws).dirty = true ↔ ∃ p ∈ (s.written.getLastD v :: new).zip new, ∃ i ∈ ls, p.1 i ≠ p.2 i := by
    rw [h3, ← news_ne_nil, hd]
    simp [lastWritten]
  rw [ht, p1]
  by_cases hq : (s.exec ls false ws).dirty = true
  · rw [if_pos (h4.1 hq), ← h2]
    simp [St.publish, hq]
  · rw [if_neg fun hh => hq (h4.2 hh), ← h2]
    simp [St.publish, hq]

/-- C146: functions that change only members that are not listed change nothing, however often they are used. -/
theorem C146_stuck (ls : List (Fin n)) (auto : Bool) (v : Value n V) {os : List (Op n V)}
    (h : ∀ o ∈ os, o = .commit ∨ ∃ f, o = .update f ∧ ∀ x, ∀ i ∈ ls, f x i = x i) :
    ((start v).exec ls auto os).last = v ∧ ((start v).exec ls auto os).told = [] := by
  have key : ∀ (os : List (Op n V)) (s : St n V), s.current = v → s.last = v → s.dirty = false → s.told = [] →
      (∀ o ∈ os, o = .commit ∨ ∃ f, o = .update f ∧ ∀ x, ∀ i ∈ ls, f x i = x i) →
      (s.exec ls auto os).last = v ∧ (s.exec ls auto os).told = [] := by
    intro os
    induction os with
    | nil => intro s _ hl _ ht _; exact ⟨hl, ht⟩
    | cons o os ih =>
      intro s hc hl hd ht ho
      refine ih (s.step ls auto o) ?_ ?_ ?_ ?_ fun o ho' => ho o (List.mem_cons_of_mem _ ho')
      all_goals
        rcases ho o (List.mem_cons_self ..) with rfl | ⟨f, rfl, hf⟩
        · simp [St.step, St.publish, *]
        · have : changed ls (f s.current) s.current = false := by
            rw [← Bool.not_eq_true, changed_iff]; exact fun hn => hn (hf _)
          rw [hc] at this
          cases auto <;> simp [St.step, St.sendUp, St.pushDown, St.publish, *]
  exact key os (start v) rfl rfl rfl rfl h

/-- C146 is FALSE if a member is not listed: a write that changes only that one is lost, and nobody is told.  The declaration
compiles with `LAGER_STRUCT_TEMPLATE` and `LAGER_STRUCT_NESTED`, and with `LAGER_STRUCT` if Boost.PFR is missing. -/
theorem C146_lost_false : ∃ (ls : List (Fin 2)) (v w : Value 2 Nat), compiles true .template 2 ls = true ∧
    compiles true .nested 2 ls = true ∧ compiles false .struct 2 ls = true ∧ compiles true .struct 2 ls = false ∧ v ≠ w ∧
    ∀ auto, ((start v).exec ls auto [.set w, .commit]).last = v ∧ ((start v).exec ls auto [.set w, .commit]).told = [] := by
  refine ⟨[0], fun _ => 1, fun i => if i = 0 then 1 else 7, rfl, rfl, rfl, rfl, ?_, ?_⟩
  · intro h
    have := congrFun h 1
    revert this; decide
  · intro auto; cases auto <;> exact ⟨rfl, rfl⟩

/-- C146 is FALSE even with the check if another member is listed twice. -/
theorem C146_twice_false : ∃ (ls : List (Fin 2)) (v w : Value 2 Nat), compiles true .struct 2 ls = true ∧ v ≠ w ∧
    ((start v).exec ls true [.set w]).last = v ∧ ((start v).exec ls true [.set w]).told = [] := by
  refine ⟨[0, 0], fun _ => 1, fun i => if i = 0 then 1 else 7, rfl, ?_, rfl, rfl⟩
  intro h
  have := congrFun h 1
  revert this; decide

/-! ### Examples -/

/-- A struct with two members, of which the second one is not listed. -/
def exWrites : List (Op 2 Nat) :=
  [.set fun i => if i = 0 then 1 else 5, .set fun i => if i = 0 then 1 else 6, .update fun x i => if i = 0 then x i + 1 else x i + 1,
    .update fun x i => if i = 0 then x i else 9]

/-- Of the four values that are written, two are shown. -/
example : let s := (start fun _ => 0).exec [0] true exWrites
    (s.written.map fun w => (w 0, w 1)) = [(1, 5), (1, 6), (2, 6), (2, 9)] ∧
    (s.told.map fun w => (w 0, w 1)) = [(1, 5), (2, 6)] ∧ (s.last 0, s.last 1) = (2, 6) := by decide

/-- All of them, if both members are listed. -/
example : compiles true .struct 2 [0, 1] = true ∧ ([0, 1] : List (Fin 2)).Nodup ∧
    let s := (start fun _ => 0).exec [0, 1] true exWrites
    (s.told.map fun w => (w 0, w 1)) = [(1, 5), (1, 6), (2, 7), (2, 9)] ∧ (s.last 0, s.last 1) = (2, 9) := by decide

/-- A transactional state shows nothing until it is committed. -/
example : (∀ o ∈ exWrites, o matches .set _ | .update _) ∧
    let s := (start fun _ => 0).exec [0] false exWrites
    let t := (start fun _ => 0).exec [0] false (exWrites ++ [.commit])
    (s.last 0, s.last 1) = (0, 0) ∧ s.told.length = 0 ∧ (t.last 0, t.last 1) = (2, 6) ∧ t.told.length = 1 := by
  refine ⟨?_, by decide⟩
  simp [exWrites]

/-- A commit tells the watcher a value that it has been told before, if there was another one in between. -/
example : let ws : List (Op 2 Nat) := [.set fun _ => 2, .set fun _ => 1]
    let t := (start fun _ => 0).exec [0] false ([.set fun _ => 1] ++ [.commit] ++ ws ++ [.commit])
    (t.told.map fun w => (w 0, w 1)) = [(1, 1), (1, 1)] ∧ t.written.length = 3 := by decide

/-- It tells nothing if only a member changed that is not listed. -/
example : let ws : List (Op 2 Nat) := [.set fun i => if i = 0 then 1 else 3]
    let t := (start fun _ => 0).exec [0] false ([.set fun _ => 1] ++ [.commit] ++ ws ++ [.commit])
    (t.told.map fun w => (w 0, w 1)) = [(1, 1)] ∧ t.written.length = 2 := by decide

/-- A counter that is not listed. -/
example : ∀ o ∈ ([.update fun x i => if i = 0 then x i else x i + 1, .commit] : List (Op 2 Nat)),
    o = .commit ∨ ∃ f, o = .update f ∧ ∀ x, ∀ i ∈ ([0] : List (Fin 2)), f x i = x i := by
  intro o ho
  simp at ho
  rcases ho with rfl | rfl
  · exact .inr ⟨_, rfl, by simp⟩
  · exact .inl rfl

end Verif.Listed
