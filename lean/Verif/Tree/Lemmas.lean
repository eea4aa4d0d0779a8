import Verif.Tree.Spec

namespace Verif.Tree

open Verif.Debugger (Atom Reducer userEff)

variable {A M E : Type}

theorem stepAt_cons (b : List (List (Step A M))) (p : Pos) (rest : Cursor) :
    stepAt b (p :: rest) = (b[p.branch]?).bind fun h => (h[p.step]?).bind fun s =>
      if rest = [] then some s else stepAt s.branches rest := by
  conv => lhs; unfold stepAt

theorem doLookup_eq (b : List (List (Step A M))) (c : Cursor) :
    doLookup b c = (stepAt b c).map fun s => (s.action, s.model) := by
  induction c generalizing b with
  | nil => rfl
  | cons p rest ih =>
    rw [stepAt_cons]
    cases rest with
    | nil =>
      simp only [doLookup]
      cases b[p.branch]? with
      | none => rfl
      | some h => cases h' : h[p.step]? <;> simp [h']
    | cons q rest =>
      simp only [doLookup]
      cases b[p.branch]? with
      | none => rfl
      | some h => cases h' : h[p.step]? <;> simp [h', ih]

theorem look_cons (b : List (List (Step A M))) (p : Pos) (rest : Cursor) :
    doLookup b (p :: rest) = (b[p.branch]?).bind fun h => (h[p.step]?).bind fun s =>
      if rest = [] then some (s.action, s.model) else doLookup s.branches rest := by
  rw [doLookup_eq, stepAt_cons]
  cases b[p.branch]? with
  | none => rfl
  | some h =>
    simp only [Option.bind_some]
    cases h[p.step]? with
    | none => rfl
    | some s =>
      simp only [Option.bind_some]
      split
      · rfl
      · rw [doLookup_eq]

theorem stepAt_cons_some {b : List (List (Step A M))} {p : Pos} {rest : Cursor} {s : Step A M}
    (h : stepAt b (p :: rest) = some s) :
    ∃ hist node, b[p.branch]? = some hist ∧ hist[p.step]? = some node ∧
      ((rest = [] ∧ s = node) ∨ (rest ≠ [] ∧ stepAt node.branches rest = some s)) := by
  rw [stepAt_cons] at h
  cases hb : b[p.branch]? with
  | none => rw [hb] at h; cases h
  | some hist =>
    rw [hb] at h
    simp only [Option.bind_some] at h
    cases hs : hist[p.step]? with
    | none => rw [hs] at h; cases h
    | some node =>
      rw [hs] at h
      simp only [Option.bind_some] at h
      refine ⟨hist, node, rfl, hs, ?_⟩
      split at h
      · exact .inl ⟨‹_›, (Option.some.inj h).symm⟩
      · exact .inr ⟨‹_›, h⟩

theorem nextInBranch_single (p : Pos) : nextInBranch [p] = [⟨p.branch, p.step + 1⟩] := rfl

theorem nextInBranch_cons (p q : Pos) (rest : Cursor) :
    nextInBranch (p :: q :: rest) = p :: nextInBranch (q :: rest) := by
  unfold nextInBranch
  rw [List.getLast?_cons_cons]
  cases h : (q :: rest).getLast? with
  | none => simp at h
  | some x => simp

theorem nextInBranch_ne_nil (p : Pos) (rest : Cursor) : nextInBranch (p :: rest) ≠ [] := by
  cases rest with
  | nil => simp [nextInBranch_single]
  | cons q rest => simp [nextInBranch_cons]

theorem stepAt_deep {b : List (List (Step A M))} {p q : Pos} {rest : Cursor} {hist node}
    (hb : b[p.branch]? = some hist) (hs : hist[p.step]? = some node) :
    stepAt b (p :: q :: rest) = stepAt node.branches (q :: rest) := by
  rw [stepAt_cons, hb]
  simp [hs]

theorem newPos_deep {b : List (List (Step A M))} {p q : Pos} {rest : Cursor} {hist node}
    (hb : b[p.branch]? = some hist) (hs : hist[p.step]? = some node)
    {s : Step A M} (h : stepAt node.branches (q :: rest) = some s) :
    newPos b (p :: q :: rest) = p :: newPos node.branches (q :: rest) := by
  unfold newPos
  rw [stepAt_deep hb hs, h]
  simp only [nextInBranch_cons]
  have h1 : stepAt b (p :: nextInBranch (q :: rest)) =
      stepAt node.branches (nextInBranch (q :: rest)) := by
    rw [stepAt_cons, hb]
    simp [hs, nextInBranch_ne_nil]
  rw [h1]
  cases stepAt node.branches (nextInBranch (q :: rest)) <;> rfl

theorem newPos_single {b : List (List (Step A M))} {p : Pos} {hist node}
    (hb : b[p.branch]? = some hist) (hs : hist[p.step]? = some node) :
    newPos b [p] = if p.step + 1 = hist.length then [⟨p.branch, p.step + 1⟩]
      else [p, ⟨node.branches.length, 0⟩] := by
  have h0 : stepAt b [p] = some node := by rw [stepAt_cons, hb]; simp [hs]
  have hlt : p.step < hist.length := by
    rw [List.getElem?_eq_some_iff] at hs; exact hs.1
  unfold newPos
  rw [h0]
  simp only [nextInBranch_single]
  rw [stepAt_cons, hb]
  simp only [Option.bind_some, if_true]
  by_cases h : p.step + 1 = hist.length
  · rw [if_pos h, List.getElem?_eq_none (by omega)]
    rfl
  · rw [if_neg h, List.getElem?_eq_getElem (show p.step + 1 < hist.length by omega)]
    rfl

/-- The effect of `do_append` on lookups: exactly one new position. -/
theorem doAppend_spec (cursor : Cursor) (act : A) (m : M) :
    ∀ (c : Cursor) (index : Nat) (b : List (List (Step A M))) (s : Step A M),
      stepAt b c = some s →
      ∃ b' cur', doAppend cursor act m index c b = some (b', cur') ∧
        (∀ d, doLookup b' d = if d = newPos b c then some (act, m) else doLookup b d) := by
  intro c
  induction c with
  | nil => intro index b s h; cases h
  | cons p rest ih =>
    intro index b s h
    obtain ⟨hist, node, hb, hs, hrest⟩ := stepAt_cons_some h
    have hblt : p.branch < b.length := by
      rw [List.getElem?_eq_some_iff] at hb; exact hb.1
    have hslt : p.step < hist.length := by
      rw [List.getElem?_eq_some_iff] at hs; exact hs.1
    cases rest with
    | nil =>
      rw [newPos_single hb hs]
      simp only [doAppend, hb]
      split
      · rename_i htip
        refine ⟨_, _, rfl, ?_⟩
        intro d
        cases d with
        | nil => rfl
        | cons q rs =>
          rw [look_cons, look_cons]
          by_cases hq : q.branch = p.branch
          · rw [hq, List.getElem?_set_self hblt, hb]
            simp only [Option.bind_some]
            by_cases hlt : q.step < hist.length
            · rw [List.getElem?_append_left hlt]
              have : ¬ (q :: rs = [⟨p.branch, p.step + 1⟩]) := by
                intro e
                have := (List.cons.inj e).1
                rw [this] at hlt
                simp only at hlt
                omega
              rw [if_neg this]
            · by_cases heq : q.step = hist.length
              · rw [heq, List.getElem?_concat_length, List.getElem?_eq_none (Nat.le_refl _)]
                simp only [Option.bind_some, Option.bind_none]
                cases rs with
                | nil =>
                  have : [q] = [(⟨p.branch, p.step + 1⟩ : Pos)] := by
                    cases q; simp only at hq heq; rw [hq, heq, htip]
                  rw [if_pos this]; rfl
                | cons r rs =>
                  have : ¬ (q :: r :: rs = [(⟨p.branch, p.step + 1⟩ : Pos)]) := by simp
                  rw [if_neg this, if_neg (by simp)]
                  show doLookup [] _ = none
                  rw [look_cons]; rfl
              · have h1 : (hist ++ [Step.mk act m []]).length ≤ q.step := by simp; omega
                rw [List.getElem?_eq_none h1, List.getElem?_eq_none (by omega : hist.length ≤ q.step)]
                have : ¬ (q :: rs = [⟨p.branch, p.step + 1⟩]) := by
                  intro e
                  have := (List.cons.inj e).1
                  rw [this] at heq
                  simp only at heq
                  omega
                rw [if_neg this]
          · rw [List.getElem?_set_ne (Ne.symm hq)]
            have : ¬ (q :: rs = [⟨p.branch, p.step + 1⟩]) := by
              intro e
              have := (List.cons.inj e).1
              rw [this] at hq
              exact hq rfl
            rw [if_neg this]
      · rename_i htip
        simp only [hs]
        refine ⟨_, _, rfl, ?_⟩
        intro d
        cases d with
        | nil => rfl
        | cons q rs =>
          rw [look_cons, look_cons]
          by_cases hq : q.branch = p.branch
          · rw [hq, List.getElem?_set_self hblt, hb]
            simp only [Option.bind_some]
            by_cases hst : q.step = p.step
            · rw [hst, List.getElem?_set_self hslt, hs]
              have hqp : q = p := by cases q; cases p; simp only at hq hst; rw [hq, hst]
              subst hqp
              simp only [Option.bind_some]
              cases rs with
              | nil => simp [Step.action, Step.model]
              | cons t rs =>
                simp only [reduceCtorEq, if_false]
                rw [show (Step.mk node.action node.model (node.branches ++ [[Step.mk act m []]])).branches = node.branches ++ [[Step.mk act m []]] from rfl]
                rw [look_cons, look_cons]
                by_cases hlt : t.branch < node.branches.length
                · have hlt' : t.branch < node.branches.length := hlt
                  rw [List.getElem?_append_left hlt']
                  have : ¬ (q :: t :: rs = [q, ⟨node.branches.length, 0⟩]) := by
                    intro e
                    have := (List.cons.inj (List.cons.inj e).2).1
                    rw [this] at hlt
                    simp at hlt
                  rw [if_neg this]
                · have hge : node.branches.length ≤ t.branch := Nat.le_of_not_lt hlt
                  rw [List.getElem?_append_right hge, List.getElem?_eq_none hge]
                  simp only [Option.bind_none]
                  by_cases hte : t.branch = node.branches.length
                  · have : t.branch - node.branches.length = 0 := by
                      rw [hte]; exact Nat.sub_self _
                    rw [this]
                    simp only [List.getElem?_cons_zero, Option.bind_some]
                    by_cases hts : t.step = 0
                    · rw [hts]
                      simp only [List.getElem?_cons_zero, Option.bind_some]
                      cases rs with
                      | nil =>
                        have : t = ⟨node.branches.length, 0⟩ := by
                          cases t; simp only at hte hts; rw [hte, hts]
                        subst this
                        simp [Step.action, Step.model, Step.branches]
                      | cons u us =>
                        rw [if_neg (by simp), if_neg (by simp)]
                        show doLookup [] _ = none
                        rw [look_cons]; rfl
                    · rw [List.getElem?_eq_none (by simp; omega)]
                      simp only [Option.bind_none]
                      rw [if_neg]
                      intro e
                      have := (List.cons.inj (List.cons.inj e).2).1
                      rw [this] at hts
                      exact hts rfl
                  · have : ¬ (q :: t :: rs = [q, ⟨node.branches.length, 0⟩]) := by
                      intro e
                      have := (List.cons.inj (List.cons.inj e).2).1
                      rw [this] at hte
                      exact hte rfl
                    rw [if_neg this]
                    have hge2 : 1 ≤ t.branch - node.branches.length := by
                      have : node.branches.length ≠ t.branch := fun e => hte e.symm
                      have h2 : node.branches.length ≤ t.branch := hge
                      show 1 ≤ t.branch - node.branches.length
                      omega
                    rw [List.getElem?_eq_none (by simpa using hge2)]
                    rfl
            · rw [List.getElem?_set_ne (Ne.symm hst)]
              rw [if_neg]
              intro e
              have := (List.cons.inj e).1
              rw [this] at hst
              exact hst rfl
          · rw [List.getElem?_set_ne (Ne.symm hq)]
            rw [if_neg]
            intro e
            have := (List.cons.inj e).1
            rw [this] at hq
            exact hq rfl
    | cons q rest =>
      rcases hrest with ⟨h0, _⟩ | ⟨_, hdeep⟩
      · cases h0
      obtain ⟨nb, cur', hA, hL⟩ := ih (index + 1) node.branches s hdeep
      rw [newPos_deep hb hs hdeep]
      simp only [doAppend, hb, hs, hA]
      refine ⟨_, _, rfl, ?_⟩
      intro d
      cases d with
      | nil => rfl
      | cons t rs =>
        rw [look_cons, look_cons]
        by_cases htb : t.branch = p.branch
        · rw [htb, List.getElem?_set_self hblt, hb]
          simp only [Option.bind_some]
          by_cases hts : t.step = p.step
          · rw [hts, List.getElem?_set_self hslt, hs]
            have htp : t = p := by cases t; cases p; simp only at htb hts; rw [htb, hts]
            subst htp
            simp only [Option.bind_some]
            cases rs with
            | nil =>
              have hne : newPos node.branches (q :: rest) ≠ [] := by
                unfold newPos; rw [hdeep]; simp only
                cases stepAt node.branches (nextInBranch (q :: rest)) with
                | none => exact nextInBranch_ne_nil _ _
                | some _ => simp
              rw [if_neg (c := [t] = _)]
              · simp [Step.action, Step.model]
              · intro e; exact hne (List.cons.inj e).2.symm
            | cons u us =>
              have e1 : (Step.mk node.action node.model nb).branches = nb := rfl
              rw [if_neg (by simp), if_neg (c := u :: us = []) (by simp), e1, hL]
              by_cases he : u :: us = newPos node.branches (q :: rest)
              · rw [if_pos he, if_pos (by rw [he])]
              · rw [if_neg he, if_neg (fun e => he (List.cons.inj e).2)]
          · rw [List.getElem?_set_ne (Ne.symm hts)]
            rw [if_neg]
            intro e
            exact hts (congrArg Pos.step (List.cons.inj e).1)
        · rw [List.getElem?_set_ne (Ne.symm htb)]
          rw [if_neg]
          intro e
          exact htb (congrArg Pos.branch (List.cons.inj e).1)

/-- The cursor computed by `do_append`. -/
theorem doAppend_cursor (act : A) (m : M) :
    ∀ (c pre : Cursor) (b b' : List (List (Step A M))) (cur' : Cursor),
      doAppend (pre ++ c) act m pre.length c b = some (b', cur') →
      cur' = match stepAt b (nextInBranch c) with
        | none => pre ++ nextInBranch c
        | some _ => pre ++ c ++ [⟨0, 0⟩] := by
  intro c
  induction c with
  | nil => intro pre b b' cur' h; cases h
  | cons p rest ih =>
    intro pre b b' cur' h
    cases rest with
    | nil =>
      simp only [doAppend] at h
      rw [nextInBranch_single, stepAt_cons]
      cases hb : b[p.branch]? with
      | none => rw [hb] at h; cases h
      | some hist =>
        rw [hb] at h
        simp only [Option.bind_some, if_true] at h ⊢
        split at h
        · rename_i ht
          rw [List.getElem?_eq_none (by omega)]
          have := (Prod.mk.inj (Option.some.inj h)).2
          rw [← this]
          simp
        · rename_i ht
          cases hs : hist[p.step]? with
          | none => rw [hs] at h; cases h
          | some node =>
            rw [hs] at h
            have hlt := (List.getElem?_eq_some_iff.mp hs).1
            rw [List.getElem?_eq_getElem (show p.step + 1 < hist.length by omega)]
            exact (Prod.mk.inj (Option.some.inj h)).2.symm
    | cons q rest =>
      simp only [doAppend] at h
      cases hb : b[p.branch]? with
      | none => rw [hb] at h; cases h
      | some hist =>
        rw [hb] at h
        simp only at h
        cases hs : hist[p.step]? with
        | none => rw [hs] at h; cases h
        | some node =>
          rw [hs] at h
          simp only at h
          cases hA : doAppend (pre ++ p :: q :: rest) act m (pre.length + 1) (q :: rest)
              node.branches with
          | none => rw [hA] at h; cases h
          | some r =>
            obtain ⟨nb, cur⟩ := r
            rw [hA] at h
            have hc : cur = cur' := (Prod.mk.inj (Option.some.inj h)).2
            have := ih (pre ++ [p]) node.branches nb cur (by
              simpa [List.append_assoc] using hA)
            rw [nextInBranch_cons]
            have h1 : stepAt b (p :: nextInBranch (q :: rest)) =
                stepAt node.branches (nextInBranch (q :: rest)) := by
              rw [stepAt_cons, hb]
              simp [hs, nextInBranch_ne_nil]
            rw [h1, ← hc, this]
            simp [List.append_assoc]

theorem stepAt_isSome_iff (b : List (List (Step A M))) (c : Cursor) :
    (∃ s, stepAt b c = some s) ↔ ∃ p, doLookup b c = some p := by
  rw [doLookup_eq]
  cases stepAt b c <;> simp

theorem lookup_nil (m : Model A M) : m.lookup [] = some (none, m.init) := rfl

theorem lookup_ne (m : Model A M) (c : Cursor) (h : c ≠ []) :
    m.lookup c = (doLookup m.branches c).map fun p => (some p.1, p.2) := by
  unfold Model.lookup
  cases c with
  | nil => exact absurd rfl h
  | cons p r => rfl

theorem look_root_new (b : List (List (Step A M))) (act : A) (x : M) (d : Cursor) :
    doLookup (b ++ [[.mk act x []]]) d =
      if d = [⟨b.length, 0⟩] then some (act, x) else doLookup b d := by
  cases d with
  | nil => rfl
  | cons q rs =>
    rw [look_cons, look_cons]
    by_cases hlt : q.branch < b.length
    · rw [List.getElem?_append_left hlt, if_neg]
      intro e
      have := congrArg Pos.branch (List.cons.inj e).1
      simp only at this
      omega
    · rw [List.getElem?_append_right (by omega), List.getElem?_eq_none (by omega : b.length ≤ q.branch)]
      simp only [Option.bind_none]
      by_cases he : q.branch = b.length
      · rw [he, Nat.sub_self]
        simp only [List.getElem?_cons_zero, Option.bind_some]
        by_cases hs : q.step = 0
        · rw [hs]
          simp only [List.getElem?_cons_zero, Option.bind_some]
          have hq : q = ⟨b.length, 0⟩ := by cases q; simp only at he hs; rw [he, hs]
          subst hq
          cases rs with
          | nil => simp [Step.action, Step.model]
          | cons t ts =>
            simp only [reduceCtorEq, if_false]
            rw [if_neg (by simp)]
            show doLookup [] _ = none
            rw [look_cons]; rfl
        · rw [List.getElem?_eq_none (by simp; omega)]
          rw [if_neg]; rfl
          intro e
          exact hs (congrArg Pos.step (List.cons.inj e).1)
      · rw [List.getElem?_eq_none (by simp; omega), if_neg]; rfl
        intro e
        exact he (congrArg Pos.branch (List.cons.inj e).1)

/-- On a step that is not the last of its branch, `do_append` always makes the cursor `{0, 0}` below it. -/
theorem doAppend_branch_cursor (cursor : Cursor) (act : A) (m : M) : ∀ (c : Cursor) (index : Nat) (b b' : List (List (Step A M)))
    (cur' : Cursor) (t : Step A M), doAppend cursor act m index c b = some (b', cur') →
    stepAt b (nextInBranch c) = some t → cur' = cursor ++ [⟨0, 0⟩] := by
  intro c
  induction c with
  | nil => intro index b b' cur' t h; cases h
  | cons p rest ih =>
    intro index b b' cur' t h ht
    cases rest with
    | nil =>
      rw [nextInBranch_single] at ht
      obtain ⟨hist, node, hb, hs, _⟩ := stepAt_cons_some ht
      have hlt : p.step + 1 < hist.length := (List.getElem?_eq_some_iff.mp hs).1
      have hb : b[p.branch]? = some hist := hb
      simp only [doAppend, hb] at h
      rw [if_neg (by omega), List.getElem?_eq_getElem (show p.step < hist.length by omega)] at h
      exact (congrArg Prod.snd (Option.some.inj h)).symm
    | cons q rest =>
      rw [nextInBranch_cons] at ht
      obtain ⟨hist, node, hb, hs, hr⟩ := stepAt_cons_some ht
      simp only [doAppend, hb, hs] at h
      rcases hr with ⟨hr, _⟩ | ⟨_, hr⟩
      · exact absurd hr (nextInBranch_ne_nil _ _)
      · split at h
        · cases h
        · next nb nc he =>
          rw [← ih _ _ _ _ _ he hr]
          exact (congrArg Prod.snd (Option.some.inj h)).symm

/-- The effect of `append` on lookups and on the cursor. -/
theorem append_spec (m : Model A M) (act : A) (x : M) (h : ∃ p, m.lookup m.cursor = some p) :
    ∃ m', m.append act x = some m' ∧
      m'.init = m.init ∧ m'.paused = m.paused ∧ m'.pending = m.pending ∧
      (∀ d, m'.lookup d = if d = newPos m.branches m.cursor then some (some act, x)
        else m.lookup d) ∧
      (m'.cursor = newPos m.branches m.cursor ∨
        (∃ s, stepAt m.branches m.cursor = some s ∧
          (∃ t, stepAt m.branches (nextInBranch m.cursor) = some t) ∧
          m'.cursor = m.cursor ++ [⟨0, 0⟩])) := by
  cases hc : m.cursor with
  | nil =>
    refine ⟨{ m with branches := m.branches ++ [[.mk act x []]],
                     cursor := [⟨m.branches.length, 0⟩] },
      by simp [Model.append, hc], rfl, rfl, rfl, ?_, ?_⟩
    · intro d
      have hn : newPos m.branches [] = [⟨m.branches.length, 0⟩] := rfl
      rw [hn]
      cases d with
      | nil => rfl
      | cons q rs =>
        rw [lookup_ne _ _ (by simp), lookup_ne _ _ (by simp)]
        simp only
        rw [look_root_new]
        split <;> rfl
    · left
      simp [newPos, stepAt]
  | cons p rest =>
    rw [hc] at h
    obtain ⟨r, hr⟩ := h
    rw [lookup_ne _ _ (by simp)] at hr
    have : ∃ s, stepAt m.branches (p :: rest) = some s := by
      rw [stepAt_isSome_iff]
      cases hl : doLookup m.branches (p :: rest) with
      | none => rw [hl] at hr; cases hr
      | some q => exact ⟨q, rfl⟩
    obtain ⟨s, hs⟩ := this
    obtain ⟨b', cur', hA, hL⟩ := doAppend_spec m.cursor act x (p :: rest) 0 m.branches s hs
    have hcur := doAppend_cursor act x (p :: rest) [] m.branches b' cur' (by
      simpa [hc] using hA)
    refine ⟨{ m with branches := b', cursor := cur' }, ?_, rfl, rfl, rfl, ?_, ?_⟩
    · simp only [Model.append, hc, List.isEmpty_cons, Bool.false_eq_true, if_false]
      rw [hc] at hA
      rw [hA]
    · intro d
      cases d with
      | nil =>
        rw [if_neg]; rfl
        unfold newPos
        rw [hs]
        simp only
        cases stepAt m.branches (nextInBranch (p :: rest)) with
        | none => exact (nextInBranch_ne_nil p rest).symm
        | some t => simp
      | cons t ts =>
        rw [lookup_ne _ _ (by simp), lookup_ne _ _ (by simp)]
        simp only
        rw [hL]
        split <;> rfl
    · simp only [List.nil_append] at hcur
      cases hn : stepAt m.branches (nextInBranch (p :: rest)) with
      | none =>
        left
        rw [hn] at hcur
        simp only at hcur
        unfold newPos
        rw [hs]
        simp only [hn, hcur]
      | some t =>
        right
        rw [hn] at hcur
        exact ⟨s, hs, ⟨t, rfl⟩, hcur⟩

theorem undoCursor_nil : undoCursor [] = [] := rfl

theorem undoCursor_snoc (c : Cursor) (p : Pos) :
    undoCursor (c ++ [p]) = if p.step > 0 then c ++ [⟨p.branch, p.step - 1⟩] else c := by
  unfold undoCursor
  simp

theorem undo_nextInBranch (c : Cursor) (h : c ≠ []) : undoCursor (nextInBranch c) = c := by
  have : c = c.dropLast ++ [c.getLast h] := (List.dropLast_concat_getLast h).symm
  rw [this]
  unfold nextInBranch
  simp only [List.getLast?_concat, List.dropLast_concat]
  rw [undoCursor_snoc]
  simp

/-- Undoing the position of the new step gives the position the step was taken in. -/
theorem undo_newPos (b : List (List (Step A M))) (c : Cursor)
    (h : c = [] ∨ ∃ s, stepAt b c = some s) : undoCursor (newPos b c) = c := by
  rcases h with rfl | ⟨s, hs⟩
  · rfl
  · have hne : c ≠ [] := by rintro rfl; cases hs
    unfold newPos
    rw [hs]
    simp only
    cases stepAt b (nextInBranch c) with
    | none => exact undo_nextInBranch c hne
    | some t => rw [undoCursor_snoc]; simp

theorem newPos_ne_nil (b : List (List (Step A M))) (c : Cursor) : newPos b c ≠ [] := by
  unfold newPos
  cases hs : stepAt b c with
  | none => simp
  | some s =>
    have hne : c ≠ [] := by rintro rfl; cases hs
    simp only
    cases stepAt b (nextInBranch c) with
    | none =>
      cases c with
      | nil => exact absurd rfl hne
      | cons p r => exact nextInBranch_ne_nil p r
    | some t => simp

/-- The new position does not exist yet. -/
theorem newPos_fresh (b : List (List (Step A M))) (c : Cursor) :
    stepAt b (newPos b c) = none := by
  unfold newPos
  cases hs : stepAt b c with
  | none => simp [stepAt_cons]
  | some s =>
    simp only
    cases hn : stepAt b (nextInBranch c) with
    | none => exact hn
    | some t =>
      simp only
      clear hn t
      induction c generalizing b with
      | nil => cases hs
      | cons p rest ih =>
        obtain ⟨hist, node, hb, hh, hr⟩ := stepAt_cons_some hs
        rw [List.cons_append, stepAt_cons, hb]
        simp only [Option.bind_some, hh]
        rw [if_neg (by simp)]
        rcases hr with ⟨rfl, rfl⟩ | ⟨_, hd⟩
        · simp [stepAt_cons]
        · exact ih _ hd

/-- No history in the tree is empty. -/
inductive Full : List (List (Step A M)) → Prop where
  | intro {b : List (List (Step A M))} : (∀ h ∈ b, h ≠ []) →
      (∀ h ∈ b, ∀ s ∈ h, Full s.branches) → Full b

theorem Full.out {b : List (List (Step A M))} (h : Full b) :
    ∀ h ∈ b, h ≠ [] ∧ ∀ s ∈ h, Full s.branches := by
  cases h with
  | intro h1 h2 => exact fun x hx => ⟨h1 x hx, h2 x hx⟩

theorem Full.mk {b : List (List (Step A M))}
    (h : ∀ h ∈ b, h ≠ [] ∧ ∀ s ∈ h, Full s.branches) : Full b :=
  .intro (fun x hx => (h x hx).1) (fun x hx => (h x hx).2)

theorem full_nil : Full ([] : List (List (Step A M))) := .mk (by simp)

theorem full_new (act : A) (x : M) (b : List (List (Step A M))) (h : Full b) :
    Full (b ++ [[Step.mk act x []]]) := by
  refine .mk ?_
  intro hist hm
  rcases List.mem_append.mp hm with hm | hm
  · exact h.out hist hm
  · simp only [List.mem_singleton] at hm
    subst hm
    refine ⟨by simp, ?_⟩
    intro s hs
    simp only [List.mem_singleton] at hs
    subst hs
    exact full_nil

theorem stepAt_full (c : Cursor) (b : List (List (Step A M))) (s : Step A M) (h : Full b)
    (hs : stepAt b c = some s) : Full s.branches := by
  induction c generalizing b with
  | nil => cases hs
  | cons p rest ih =>
    obtain ⟨hist, node, hb, hh, hr⟩ := stepAt_cons_some hs
    have hf := (h.out hist (List.mem_of_getElem? hb)).2 node (List.mem_of_getElem? hh)
    rcases hr with ⟨_, rfl⟩ | ⟨_, hd⟩
    · exact hf
    · exact ih _ hf hd

theorem full_set {b : List (List (Step A M))} (h : Full b) (i : Nat) (hist : List (Step A M))
    (hne : hist ≠ []) (hf : ∀ s ∈ hist, Full s.branches) : Full (b.set i hist) := by
  refine .mk ?_
  intro x hx
  rcases List.mem_or_eq_of_mem_set hx with hx | rfl
  · exact h.out x hx
  · exact ⟨hne, hf⟩

theorem set_ne_nil {α : Type} (l : List α) (i : Nat) (x : α) (h : l ≠ []) : l.set i x ≠ [] := by
  cases l with
  | nil => exact absurd rfl h
  | cons a l => cases i <;> simp

theorem doAppend_full (cursor : Cursor) (act : A) (m : M) :
    ∀ (c : Cursor) (index : Nat) (b b' : List (List (Step A M))) (cur' : Cursor), Full b →
      doAppend cursor act m index c b = some (b', cur') → Full b' := by
  intro c
  induction c with
  | nil => intro _ _ _ _ _ h; cases h
  | cons p rest ih =>
    intro index b b' cur' hfull h
    cases rest with
    | nil =>
      simp only [doAppend] at h
      cases hb : b[p.branch]? with
      | none => rw [hb] at h; cases h
      | some hist =>
        have hm := hfull.out hist (List.mem_of_getElem? hb)
        rw [hb] at h
        simp only at h
        split at h
        · have := (Prod.mk.inj (Option.some.inj h)).1
          rw [← this]
          refine full_set hfull _ _ (by simp) ?_
          intro s hs
          rcases List.mem_append.mp hs with hs | hs
          · exact hm.2 s hs
          · simp only [List.mem_singleton] at hs
            subst hs
            exact full_nil
        · cases hs : hist[p.step]? with
          | none => rw [hs] at h; cases h
          | some node =>
            rw [hs] at h
            have := (Prod.mk.inj (Option.some.inj h)).1
            rw [← this]
            refine full_set hfull _ _ (set_ne_nil _ _ _ hm.1) ?_
            intro s hs'
            rcases List.mem_or_eq_of_mem_set hs' with hs' | rfl
            · exact hm.2 s hs'
            · exact full_new act m _ (hm.2 node (List.mem_of_getElem? hs))
    | cons q rest =>
      simp only [doAppend] at h
      cases hb : b[p.branch]? with
      | none => rw [hb] at h; cases h
      | some hist =>
        have hm := hfull.out hist (List.mem_of_getElem? hb)
        rw [hb] at h
        simp only at h
        cases hs : hist[p.step]? with
        | none => rw [hs] at h; cases h
        | some node =>
          rw [hs] at h
          simp only at h
          cases hA : doAppend cursor act m (index + 1) (q :: rest) node.branches with
          | none => rw [hA] at h; cases h
          | some r =>
            obtain ⟨nb, cur⟩ := r
            rw [hA] at h
            have := (Prod.mk.inj (Option.some.inj h)).1
            rw [← this]
            refine full_set hfull _ _ (set_ne_nil _ _ _ hm.1) ?_
            intro s hs'
            rcases List.mem_or_eq_of_mem_set hs' with hs' | rfl
            · exact hm.2 s hs'
            · exact ih _ _ _ _ (hm.2 node (List.mem_of_getElem? hs)) hA

theorem append_full (m m' : Model A M) (act : A) (x : M) (h : Full m.branches)
    (he : m.append act x = some m') : Full m'.branches := by
  unfold Model.append at he
  split at he
  · cases he
    exact full_new act x _ h
  · cases hA : doAppend m.cursor act x 0 m.cursor m.branches with
    | none => rw [hA] at he; cases he
    | some r =>
      rw [hA] at he
      cases he
      exact doAppend_full _ _ _ _ _ _ _ _ h hA

theorem stepAt_snoc (b : List (List (Step A M))) (c : Cursor) (s : Step A M) (p : Pos)
    (h : stepAt b c = some s) : stepAt b (c ++ [p]) = stepAt s.branches [p] := by
  induction c generalizing b with
  | nil => cases h
  | cons q rest ih =>
    obtain ⟨hist, node, hb, hh, hr⟩ := stepAt_cons_some h
    rw [List.cons_append, stepAt_cons, hb]
    simp only [Option.bind_some, hh]
    rw [if_neg (by simp)]
    rcases hr with ⟨rfl, rfl⟩ | ⟨_, hd⟩
    · rfl
    · exact ih _ hd

/-- The invariant: the shown position exists, every existing position but the root was reached from
the position that undo leads to, by the step's own action. -/
structure Inv (r : Reducer M A E) (m : Model A M) : Prop where
  valid : ∃ p, m.lookup m.cursor = some p
  genuine : ∀ c a x, m.lookup c = some (some a, x) →
    ∃ o y, m.lookup (undoCursor c) = some (o, y) ∧ x = (r y a).1
  pending : m.paused = false → m.pending = []
  full : Full m.branches

theorem lookup_newPos_none (m : Model A M) : m.lookup (newPos m.branches m.cursor) = none := by
  rw [lookup_ne _ _ (newPos_ne_nil _ _), doLookup_eq, newPos_fresh]; rfl

theorem lookup_stepAt (m : Model A M) (c : Cursor) (p) (h : m.lookup c = some p) :
    c = [] ∨ ∃ s, stepAt m.branches c = some s ∧ p = (some s.action, s.model) := by
  cases c with
  | nil => exact .inl rfl
  | cons q r =>
    right
    rw [lookup_ne _ _ (by simp), doLookup_eq] at h
    cases hs : stepAt m.branches (q :: r) with
    | none => rw [hs] at h; cases h
    | some s => rw [hs] at h; exact ⟨s, rfl, (Option.some.inj h).symm⟩

theorem stepAt_lookup (m : Model A M) (c : Cursor) (s) (h : stepAt m.branches c = some s) :
    m.lookup c = some (some s.action, s.model) := by
  cases c with
  | nil => cases h
  | cons q r => rw [lookup_ne _ _ (by simp), doLookup_eq, h]; rfl

/-- One ordinary action, not paused. -/
theorem act_spec (r : Reducer M A E) (m : Model A M) (a : A) (h : Inv r m)
    (hp : m.paused = false) :
    ∃ x m', m.shown = some x ∧ updateAct r m a = .ok m' (userEff (r x a).2) ∧ Inv r m' ∧
      m'.paused = false ∧ m'.init = m.init ∧
      (∀ d, m'.lookup d = if d = newPos m.branches m.cursor then some (some a, (r x a).1)
        else m.lookup d) ∧
      (m'.cursor = newPos m.branches m.cursor ∨
        (∃ s, stepAt m.branches m.cursor = some s ∧ s.branches ≠ [] ∧
          (∃ t, stepAt m.branches (nextInBranch m.cursor) = some t) ∧
          m'.cursor = m.cursor ++ [⟨0, 0⟩])) := by
  obtain ⟨⟨o, x⟩, hx⟩ := h.valid
  have hshown : m.shown = some x := by unfold Model.shown; rw [hx]; rfl
  obtain ⟨m', hA, hinit, hpaused, hpend, hlook, hcur⟩ := append_spec m a (r x a).1 ⟨_, hx⟩
  have hfull := append_full m m' a _ h.full hA
  have hundo : undoCursor (newPos m.branches m.cursor) = m.cursor := by
    apply undo_newPos
    rcases lookup_stepAt m _ _ hx with h | ⟨s, h, _⟩
    · exact .inl h
    · exact .inr ⟨s, h⟩
  have hcne : m.cursor ≠ newPos m.branches m.cursor := by
    intro e
    have := lookup_newPos_none m
    rw [← e, hx] at this
    cases this
  have hcur' : m'.cursor = newPos m.branches m.cursor ∨
        (∃ s, stepAt m.branches m.cursor = some s ∧ s.branches ≠ [] ∧
          (∃ t, stepAt m.branches (nextInBranch m.cursor) = some t) ∧
          m'.cursor = m.cursor ++ [⟨0, 0⟩]) := by
    rcases hcur with h1 | ⟨s, hs, ⟨t, ht⟩, h2⟩
    · exact .inl h1
    · by_cases hb : s.branches = []
      · left
        rw [h2]
        unfold newPos
        rw [hs]
        simp only [ht, hb]
        rfl
      · exact .inr ⟨s, hs, hb, ⟨t, ht⟩, h2⟩
  refine ⟨x, m', hshown, ?_, ⟨?_, ?_, ?_, hfull⟩, hpaused.trans hp, hinit, hlook, hcur'⟩
  · unfold updateAct
    rw [if_neg (by simp [hp]), hshown]
    simp only [hA]
  · rcases hcur' with h1 | ⟨s, hs, hb, _, h2⟩
    · exact ⟨(some a, (r x a).1), by rw [hlook, if_pos h1]⟩
    · rw [h2, hlook]
      split
      · exact ⟨_, rfl⟩
      · have hf := stepAt_full _ _ _ h.full hs
        have : ∃ t, stepAt m.branches (m.cursor ++ [⟨0, 0⟩]) = some t := by
          rw [stepAt_snoc _ _ _ _ hs, stepAt_cons]
          cases hsb : s.branches with
          | nil => exact absurd hsb hb
          | cons hist bs =>
            simp only [List.getElem?_cons_zero, Option.bind_some, if_true]
            have hne := (hf.out hist (by rw [hsb]; exact List.mem_cons_self)).1
            cases hist with
            | nil => exact absurd rfl hne
            | cons t ts => exact ⟨t, rfl⟩
        obtain ⟨t, ht⟩ := this
        exact ⟨_, stepAt_lookup m _ _ ht⟩
  · intro c b y hl
    rw [hlook] at hl
    split at hl
    · rename_i hc
      cases hl
      rw [hc, hundo, hlook, if_neg hcne]
      exact ⟨o, x, hx, rfl⟩
    · obtain ⟨o', y', h1, h2⟩ := h.genuine c b y hl
      refine ⟨o', y', ?_, h2⟩
      rw [hlook, if_neg, h1]
      intro e
      rw [e, lookup_newPos_none] at h1
      cases h1
  · intro _; rw [hpend]; exact h.pending hp

theorem act_paused (r : Reducer M A E) (m : Model A M) (a : A) (hp : m.paused = true) :
    updateAct r m a = .ok { m with pending := m.pending ++ [a] } [] := by
  unfold updateAct; rw [if_pos hp]

/-- `m'` extends `m`: everything recorded in `m` is still there. -/
def Extends (m m' : Model A M) : Prop :=
  ∀ c p, m.lookup c = some p → m'.lookup c = some p

theorem updateAct_inv (r : Reducer M A E) (m : Model A M) (a : A) (h : Inv r m) :
    ∃ m' e, updateAct r m a = .ok m' e ∧ Inv r m' ∧ Extends m m' ∧ m'.paused = m.paused := by
  cases hp : m.paused with
  | true =>
    refine ⟨_, _, act_paused r m a hp, ⟨h.valid, h.genuine, ?_, h.full⟩, fun _ _ h => h, hp⟩
    intro hf
    simp only at hf
    rw [hp] at hf
    cases hf
  | false =>
    obtain ⟨x, m', _, hu, hi, hp', _, hl, _⟩ := act_spec r m a h hp
    refine ⟨m', _, hu, hi, ?_, hp'⟩
    intro c p hc
    rw [hl, if_neg, hc]
    intro e
    rw [e, lookup_newPos_none] at hc
    cases hc

theorem resumeLoop_inv (r : Reducer M A E) (as : List A) (m : Model A M) (e : List (Atom E))
    (h : Inv r m) : ∃ m' e', resumeLoop r as m e = .ok m' e' ∧ Inv r m' ∧ Extends m m' := by
  induction as generalizing m e with
  | nil => exact ⟨m, e, rfl, h, fun _ _ h => h⟩
  | cons a as ih =>
    obtain ⟨m', e', h1, h2, h3, _⟩ := updateAct_inv r m a h
    obtain ⟨m'', e'', k1, k2, k3⟩ := ih m' (e ++ e') h2
    refine ⟨m'', e'', ?_, k2, fun c p hc => k3 c p (h3 c p hc)⟩
    simp only [resumeLoop, h1, k1]

theorem undo_valid (r : Reducer M A E) (m : Model A M) (h : Inv r m) (c : Cursor) (p)
    (hc : m.lookup c = some p) : ∃ q, m.lookup (undoCursor c) = some q := by
  obtain ⟨o, x⟩ := p
  cases o with
  | none =>
    rcases lookup_stepAt m c _ hc with rfl | ⟨s, _, h2⟩
    · exact ⟨_, hc⟩
    · cases h2
  | some a =>
    obtain ⟨o, y, h1, _⟩ := h.genuine c a x hc
    exact ⟨_, h1⟩

theorem update_inv (r : Reducer M A E) (m : Model A M) (a : Action A) (h : Inv r m) :
    (update r m a = .threw ∧ a = .redo) ∨
    (∃ m' e, update r m a = .ok m' e ∧ Inv r m' ∧ Extends m m') := by
  cases a with
  | act a =>
    obtain ⟨m', e, h1, h2, h3, _⟩ := updateAct_inv r m a h
    exact .inr ⟨m', e, h1, h2, h3⟩
  | goto_ c =>
    refine .inr ⟨_, _, rfl, ?_, ?_⟩
    · split
      · rename_i hc
        exact ⟨Option.isSome_iff_exists.mp hc, h.genuine, h.pending, h.full⟩
      · exact h
    · split <;> exact fun _ _ h => h
  | undo =>
    refine .inr ⟨_, _, rfl, ?_, fun _ _ h => h⟩
    obtain ⟨p, hp⟩ := h.valid
    exact ⟨undo_valid r m h _ p hp, h.genuine, h.pending, h.full⟩
  | redo => exact .inl ⟨rfl, rfl⟩
  | pause => exact .inr ⟨_, _, rfl, ⟨h.valid, h.genuine, by simp, h.full⟩, fun _ _ h => h⟩
  | resume =>
    obtain ⟨m', e, h1, h2, h3⟩ := resumeLoop_inv r m.pending
      { m with paused := false, pending := [] } [] ⟨h.valid, h.genuine, by simp, h.full⟩
    refine .inr ⟨m', [.resume] ++ e, ?_, h2, h3⟩
    simp only [update, h1]

theorem run_inv (r : Reducer M A E) (as : List (Action A)) (m : Model A M) (h : Inv r m) :
    ∃ m' e, run r m as = some (m', e) ∧ Inv r m' ∧ Extends m m' := by
  induction as generalizing m with
  | nil => exact ⟨m, [], rfl, h, fun _ _ h => h⟩
  | cons a as ih =>
    rcases update_inv r m a h with ⟨h1, _⟩ | ⟨m', e, h1, h2, h3⟩
    · obtain ⟨m'', e', k1, k2, k3⟩ := ih m h
      exact ⟨m'', e', by simp only [run, h1, k1], k2, k3⟩
    · obtain ⟨m'', e', k1, k2, k3⟩ := ih m' h2
      exact ⟨m'', e ++ e', by simp only [run, h1, k1], k2, fun c p hc => k3 c p (h3 c p hc)⟩

theorem start_inv (r : Reducer M A E) (i : M) : Inv r (Model.start (A := A) i) := by
  refine ⟨⟨_, rfl⟩, ?_, fun _ => rfl, full_nil⟩
  intro c a x h
  cases c with
  | nil => cases h
  | cons p rest =>
    rw [lookup_ne _ _ (by simp), look_cons] at h
    cases h

theorem reachable_inv (r : Reducer M A E) (m : Model A M) (h : Reachable r m) : Inv r m := by
  obtain ⟨i, as, es, he⟩ := h
  obtain ⟨m', e, h1, h2, _⟩ := run_inv r as _ (start_inv r i)
  rw [he] at h1
  cases h1
  exact h2

theorem run_append (r : Reducer M A E) (as bs : List (Action A)) (m : Model A M) :
    run r m (as ++ bs) = (match run r m as with
      | none => none
      | some (m', e) => match run r m' bs with
        | none => none
        | some (m'', e') => some (m'', e ++ e')) := by
  induction as generalizing m with
  | nil => simp only [List.nil_append, run]; cases run r m bs <;> rfl
  | cons a as ih =>
    simp only [List.cons_append, run]
    cases update r m a with
    | ub => rfl
    | threw => simp only [ih]
    | ok m' e =>
      simp only [ih]
      cases run r m' as with
      | none => rfl
      | some p =>
        obtain ⟨m'', e'⟩ := p
        simp only
        cases run r m'' bs with
        | none => rfl
        | some p => simp [List.append_assoc]

/-- The resume loop is a run of ordinary actions. -/
theorem resumeLoop_eq_run (r : Reducer M A E) (as : List A) (m m' : Model A M)
    (e e' : List (Atom E)) (h : Inv r m) (hr : run r m (as.map .act) = some (m', e')) :
    resumeLoop r as m e = .ok m' (e ++ e') := by
  induction as generalizing m e e' with
  | nil => cases hr; simp [resumeLoop]
  | cons a as ih =>
    obtain ⟨m1, e1, h1, h2, _, _⟩ := updateAct_inv r m a h
    simp only [List.map_cons, run, update, h1] at hr
    cases hr' : run r m1 (as.map .act) with
    | none => rw [hr'] at hr; cases hr
    | some p =>
      obtain ⟨m2, e2⟩ := p
      rw [hr'] at hr
      cases hr
      simp only [resumeLoop, h1, ih m1 (e ++ e1) e2 h2 hr', List.append_assoc]

end Verif.Tree
