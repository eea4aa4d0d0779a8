import Verif.Graph.Silent

/-
Each callback is called at most once by a commit or a set whose callbacks write nothing.
-/

set_option linter.unusedSectionVars false

namespace Verif.Graph

variable {V S : Type} [DecidableEq V]

/-- Frames in which nothing is propagated. -/
def Frame.idle : Frame V → Bool
  | .up _ _ => false
  | .ups [] => true
  | .ups _ => false
  | .setterRest _ _ => false
  | _ => true

/-- Is this frame in the callbacks loop of `n`? -/
def Frame.inObs (n : Nat) : Frame V → Bool
  | .obs m _ _ => m == n
  | _ => false

/-- The invariant: above the stack `b`, with which the call was made, nothing is propagated; every
node enters its callbacks loop at most once; a callback that was called is not going to be called
again. -/
structure Once (g0 : Graph V S) (b : List (Frame V)) (l0 : List (Ev V)) (fs : List (Frame V))
    (l : List (Ev V)) (m : M V S) : Prop where
  size : g0.size ≤ m.g.size
  last : ∀ n, n < g0.size → (m.g.node n).last = (g0.node n).last
  told : ∀ n, n < m.g.size → (m.g.node n).needsNotify = true ∨ 0 < fs.countP (Frame.inObs n) →
    n < g0.size ∧ (g0.node n).needsNotify = true
  news : ∀ w n v, Ev.call w n v ∈ l → n < g0.size ∧ (g0.node n).needsNotify = true ∧
    v = (g0.node n).last
  stack : m.stack = fs ++ b
  log : m.log = l0 ++ l
  idle : ∀ f ∈ fs, f.idle = true
  curs : ∀ n c prev, Frame.obs n (some c) prev ∈ fs → c < m.nextW
  single : ∀ n, fs.countP (Frame.inObs n) ≤ (if (m.g.node n).needsNotify then 0 else 1)
  called : ∀ w, 0 < calls w l → w < m.nextW ∧ calls w l = 1 ∧ ∀ n, w ∈ (m.g.node n).obs →
    (m.g.node n).needsNotify = false ∧
      ∀ cur prev, Frame.obs n cur prev ∈ fs → ∀ rest, remaining cur (m.g.node n).obs = some rest →
        w ∉ rest

theorem calls_append (w : Nat) (l l' : List (Ev V)) :
    calls w (l ++ l') = calls w l + calls w l' := by
  unfold calls; rw [List.countP_append]

theorem Once.le {g0 : Graph V S} {b : List (Frame V)} {l0 : List (Ev V)} {fs l} {m : M V S}
    (h : Once g0 b l0 fs l m) (w : Nat) : calls w l ≤ 1 := by
  rcases Nat.eq_zero_or_pos (calls w l) with h1 | h1
  · omega
  · have := (h.called w h1).2.1; omega

/-- Only the stack changes, and no callbacks loop appears. -/
theorem Once.restack {g0 : Graph V S} {b : List (Frame V)} {l0 : List (Ev V)} {fs fs' l} {m : M V S}
    (h : Once g0 b l0 fs l m) (g' : Graph V S) (hsz : g'.size = m.g.size)
    (hlast : ∀ n, (g'.node n).last = (m.g.node n).last)
    (hobs : ∀ n, (g'.node n).obs = (m.g.node n).obs)
    (hnn : ∀ n, (g'.node n).needsNotify = (m.g.node n).needsNotify)
    (hi : ∀ f ∈ fs', f.idle = true)
    (hc : ∀ n, fs'.countP (Frame.inObs n) ≤ fs.countP (Frame.inObs n))
    (hm : ∀ n cur prev, Frame.obs n cur prev ∈ fs' → Frame.obs n cur prev ∈ fs)
    (ub : Bool) : Once g0 b l0 fs' l { m with g := g', stack := fs' ++ b, ub := ub } := by
  refine ⟨by simp only [hsz]; exact h.size, fun n hn => (hlast n).trans (h.last n hn), ?_, h.news,
    rfl, h.log, hi, fun n c prev hf => h.curs n c prev (hm n _ prev hf), fun n => ?_,
    fun w hw => ?_⟩
  · intro n hn hh
    simp only [hsz, hnn] at hn hh
    refine h.told n hn (hh.imp id fun h1 => ?_)
    have := hc n
    omega
  · simp only [hnn]; exact Nat.le_trans (hc n) (h.single n)
  · obtain ⟨h1, h2, h3⟩ := h.called w hw
    refine ⟨h1, h2, fun n hn => ?_⟩
    simp only [hobs] at hn ⊢
    simp only [hnn]
    obtain ⟨h4, h5⟩ := h3 n hn
    exact ⟨h4, fun cur prev hf => h5 cur prev (hm n cur prev hf)⟩

theorem inObs_pos {n : Nat} {cur : Option Nat} {prev : Bool} {fs : List (Frame V)}
    (h : Frame.obs n cur prev ∈ fs) : 0 < fs.countP (Frame.inObs n) :=
  List.countP_pos_iff.2 ⟨_, h, by simp [Frame.inObs]⟩

theorem after_self {w : Nat} {l rest : List Nat} (hn : l.Nodup) (h : after w l = some rest) :
    w ∉ rest := by
  induction l with
  | nil => cases h
  | cons x l ih =>
    rw [List.nodup_cons] at hn
    simp only [after] at h
    split at h
    · rename_i e; subst e; cases h; exact hn.1
    · exact ih hn.2 h

theorem istep_once {g0 : Graph V S} {b : List (Frame V)} {l0 : List (Ev V)} {fs l} {m m' : M V S}
    (hi : Inv m) (h : Once g0 b l0 fs l m) (hne : fs ≠ []) (he : istep m = some m') :
    ∃ fs' l', Once g0 b l0 fs' l' m' := by
  obtain ⟨f, fs, rfl⟩ := List.exists_cons_of_ne_nil hne
  have hst : m.stack = f :: (fs ++ b) := h.stack
  have hidle := h.idle f (List.mem_cons_self ..)
  have hit : ∀ f ∈ fs, f.idle = true := fun f' hf' => h.idle f' (List.mem_cons_of_mem _ hf')
  have hct : ∀ n, fs.countP (Frame.inObs n) ≤ (f :: fs).countP (Frame.inObs n) := fun n => by
    rw [List.countP_cons]; omega
  -- popping the frame
  have pop : ∀ (g' : Graph V S), g'.size = m.g.size →
      (∀ n, (g'.node n).last = (m.g.node n).last) → (∀ n, (g'.node n).obs = (m.g.node n).obs) →
      (∀ n, (g'.node n).needsNotify = (m.g.node n).needsNotify) →
      Once g0 b l0 fs l { m with g := g', stack := fs ++ b } := fun g' h1 h2 h3 h4 =>
    h.restack g' h1 h2 h3 h4 hit hct (fun n cur prev hf => List.mem_cons_of_mem _ hf) m.ub
  -- replacing it by frames that are not callback loops
  have repl : ∀ (gs : List (Frame V)), (∀ f ∈ gs, f.idle = true ∧ ∀ n, f.inObs n = false) →
      Once g0 b l0 (gs ++ fs) l { m with stack := gs ++ (fs ++ b) } := by
    intro gs hgs
    have := h.restack (fs' := gs ++ fs) m.g rfl (fun _ => rfl) (fun _ => rfl) (fun _ => rfl)
      (fun f' hf' => by
        rcases List.mem_append.1 hf' with h1 | h1
        · exact (hgs f' h1).1
        · exact hit f' h1)
      (fun n => by
        rw [List.countP_append, List.countP_eq_zero.2 fun f' hf' => by simp [(hgs f' hf').2 n]]
        have := hct n
        omega)
      (fun n cur prev hf => by
        rcases List.mem_append.1 hf with h1 | h1
        · have := (hgs _ h1).2 n
          simp [Frame.inObs] at this
        · exact List.mem_cons_of_mem _ h1) m.ub
    rw [List.append_assoc] at this
    exact this
  unfold istep at he
  split at he
  · cases he
  rename_i hub
  cases f with
  | user => rw [hst] at he; cases he
  | notify n =>
    rw [hst] at he
    simp only at he
    split at he
    · rename_i hcond
      rw [Bool.and_eq_true] at hcond
      cases he
      have hz : (Frame.notify n :: fs).countP (Frame.inObs n) = 0 := by
        have := h.single n
        rw [if_pos hcond.1] at this
        omega
      have hnone : ∀ cur prev, Frame.obs n cur prev ∉ fs := fun cur prev hf => by
        have h1 := inObs_pos hf
        have h2 := hct n
        omega
      refine ⟨.obs n none (m.g.node n).notifying :: fs, l, h.size, fun k hk => ?_, fun k hk hh => ?_,
        h.news, rfl, h.log, ?_, ?_, fun k => ?_, fun w hw => ?_⟩
      · by_cases hkn : k = n
        · subst hkn; simp only [Graph.mod_self]; exact h.last k hk
        · simp only [Graph.mod_ne _ _ hkn]; exact h.last k hk
      · by_cases hkn : k = n
        · subst hkn; exact h.told k hk (.inl hcond.1)
        · simp only [Graph.mod_ne _ _ hkn] at hh
          refine h.told k hk (hh.imp id fun h1 => ?_)
          rw [List.countP_cons] at h1 ⊢
          have : Frame.inObs k (Frame.obs n none (m.g.node n).notifying : Frame V) = false := by
            simp [Frame.inObs, Ne.symm hkn]
          rw [this] at h1
          simp at h1
          have := List.countP_pos_iff.2 h1
          omega
      · intro f' hf'
        rcases List.mem_cons.1 hf' with rfl | h1
        · rfl
        · exact hit f' h1
      · intro k c prev hf
        rcases List.mem_cons.1 hf with h1 | h1
        · cases h1
        · exact h.curs k c prev (List.mem_cons_of_mem _ h1)
      · by_cases hk : k = n
        · subst hk
          simp only [Graph.mod_self]
          have h1 := hct k
          rw [List.countP_cons, show fs.countP (Frame.inObs k) = 0 by omega]
          simp [Frame.inObs]
        · simp only [Graph.mod_ne _ _ hk]
          rw [List.countP_cons]
          have h1 := hct k
          have h2 := h.single k
          have : Frame.inObs k (Frame.obs n none (m.g.node n).notifying : Frame V) = false := by
            simp [Frame.inObs, Ne.symm hk]
          rw [this]
          simp
          omega
      · obtain ⟨h1, h2, h3⟩ := h.called w hw
        refine ⟨h1, h2, fun k hk => ?_⟩
        by_cases hkn : k = n
        · subst hkn
          simp only [Graph.mod_self] at hk
          have := (h3 k hk).1
          rw [hcond.1] at this
          cases this
        · simp only [Graph.mod_ne _ _ hkn] at hk ⊢
          refine ⟨(h3 k hk).1, fun cur prev hf => ?_⟩
          rcases List.mem_cons.1 hf with h4 | h4
          · cases h4; exact absurd rfl hkn
          · exact (h3 k hk).2 cur prev (List.mem_cons_of_mem _ h4)
    · cases he
      exact ⟨fs, l, pop m.g rfl (fun _ => rfl) (fun _ => rfl) (fun _ => rfl)⟩
  | obs n cur prev =>
    rw [hst] at he
    simp only at he
    split at he
    · cases he
      refine ⟨.obs n cur prev :: fs, l, ?_⟩
      have := h.restack (fs' := .obs n cur prev :: fs) m.g rfl (fun _ => rfl) (fun _ => rfl) (fun _ => rfl) h.idle
        (fun _ => Nat.le_refl _) (fun _ _ _ hf => hf) true
      exact this
    · cases he
      exact ⟨_, l, repl [.kids n 0 (m.g.node n).children.length prev false] (by
        intro f' hf'
        rw [List.mem_singleton] at hf'
        subst hf'
        exact ⟨rfl, fun _ => rfl⟩)⟩
    · rename_i w rest hrem
      cases he
      have hpos : 0 < (Frame.obs n cur prev :: fs).countP (Frame.inObs n) :=
        inObs_pos (List.mem_cons_self ..)
      have hn0 : (m.g.node n).needsNotify = false := by
        cases hnn : (m.g.node n).needsNotify with
        | false => rfl
        | true =>
          have := h.single n
          rw [hnn] at this
          simp at this
          simp [Frame.inObs] at this
      have hwobs : w ∈ (m.g.node n).obs := remaining_mem hrem (List.mem_cons_self ..)
      have hw0 : calls w l = 0 := by
        rcases Nat.eq_zero_or_pos (calls w l) with h1 | h1
        · exact h1
        · exact absurd (List.mem_cons_self ..)
            (((h.called w h1).2.2 n hwobs).2 cur prev (List.mem_cons_self ..) _ hrem)
      have hnd := hi.obs.nodup n
      have hstep : remaining (some w) (m.g.node n).obs = some rest := remaining_step hnd hrem
      have hwr : w ∉ rest := by
        intro hmem
        have : after w (m.g.node n).obs = some rest := hstep
        exact after_self hnd this hmem
      have hfsn : ∀ c p, Frame.obs n c p ∉ fs := by
        intro c p hf
        have h1 := inObs_pos hf
        have h2 := h.single n
        rw [List.countP_cons, hn0] at h2
        simp [Frame.inObs] at h2
        have := h2 _ hf
        simp at this
      have halive : (m.g.node n).alive = true :=
        hi.stack.holds (.obs n cur prev) (by rw [hst]; exact List.mem_cons_self ..) n
          (List.mem_cons_self ..)
      have htold := h.told n (hi.wf.alive_lt halive) (.inr hpos)
      refine ⟨.user :: .obs n (some w) prev :: fs, l ++ [.call w n (m.g.node n).last], h.size,
        h.last, fun k hk hh => ?_, fun w' k v' hmem => ?_, rfl, by simp [h.log], ?_, ?_, fun k => ?_, fun w' hw' => ?_⟩
      · refine h.told k hk (hh.imp id fun h1 => ?_)
        rw [List.countP_cons, List.countP_cons] at h1
        rw [List.countP_cons]
        have e : Frame.inObs k (Frame.obs n (some w) prev : Frame V) =
          Frame.inObs k (Frame.obs n cur prev : Frame V) := rfl
        rw [e] at h1
        simp only [Frame.inObs] at h1 ⊢
        simpa using h1
      · rcases List.mem_append.1 hmem with h1 | h1
        · exact h.news w' k v' h1
        · rw [List.mem_singleton] at h1
          cases h1
          exact ⟨htold.1, htold.2, h.last n htold.1⟩
      · intro f' hf'
        rcases List.mem_cons.1 hf' with rfl | h1
        · rfl
        · rcases List.mem_cons.1 h1 with rfl | h2
          · rfl
          · exact hit f' h2
      · intro k c p hf
        rcases List.mem_cons.1 hf with h1 | h1
        · cases h1
        · rcases List.mem_cons.1 h1 with h2 | h2
          · cases h2; exact hi.obs.lt n w hwobs
          · exact h.curs k c p (List.mem_cons_of_mem _ h2)
      · have := h.single k
        rw [List.countP_cons] at this
        rw [List.countP_cons, List.countP_cons]
        have e : Frame.inObs k (Frame.obs n (some w) prev : Frame V) =
          Frame.inObs k (Frame.obs n cur prev : Frame V) := rfl
        rw [e]
        simp only [Frame.inObs] at this ⊢
        simpa using this
      · rw [calls_append] at hw' ⊢
        by_cases hww : w' = w
        · subst hww
          refine ⟨hi.obs.lt n w' hwobs, ?_, fun k hk => ?_⟩
          · rw [hw0]; simp [calls]
          · have hkn : k = n := hi.obs.uniq k n w' hk hwobs
            subst hkn
            refine ⟨hn0, fun c p hf rest' hr' => ?_⟩
            rcases List.mem_cons.1 hf with h4 | h4
            · cases h4
            · rcases List.mem_cons.1 h4 with h5 | h5
              · cases h5
                simp only at hr'
                rw [hstep] at hr'
                cases hr'
                exact hwr
              · exact absurd h5 (hfsn c p)
        · have e0 : calls w' [Ev.call w n (m.g.node n).last] = 0 := by
            simp [calls, Ne.symm hww]
          rw [e0, Nat.add_zero] at hw' ⊢
          obtain ⟨h1, h2, h3⟩ := h.called w' hw'
          refine ⟨h1, h2, fun k hk => ⟨(h3 k hk).1, fun c p hf rest' hr' => ?_⟩⟩
          rcases List.mem_cons.1 hf with h4 | h4
          · cases h4
          · rcases List.mem_cons.1 h4 with h5 | h5
            · cases h5
              simp only at hr'
              rw [hstep] at hr'
              cases hr'
              intro hmem
              exact (h3 n hk).2 cur prev (List.mem_cons_self ..) _ hrem
                (List.mem_cons_of_mem _ hmem)
            · exact (h3 k hk).2 c p (List.mem_cons_of_mem _ h5) rest' hr'
  | kids n i size prev garbage =>
    rw [hst] at he
    simp only at he
    split at he
    · split at he
      · cases he
        refine ⟨.kids n i size prev garbage :: fs, l, ?_⟩
        have := h.restack (fs' := .kids n i size prev garbage :: fs) m.g rfl
          (fun _ => rfl) (fun _ => rfl) (fun _ => rfl) h.idle (fun _ => Nat.le_refl _) (fun _ _ _ hf => hf) true
        exact this
      · split at he
        · cases he
          exact ⟨_, l, repl [.notify _, .kids n (i + 1) size prev garbage] (by
            intro f' hf'
            rcases List.mem_cons.1 hf' with rfl | h1
            · exact ⟨rfl, fun _ => rfl⟩
            · rw [List.mem_singleton] at h1
              subst h1
              exact ⟨rfl, fun _ => rfl⟩)⟩
        · cases he
          exact ⟨_, l, repl [.kids n (i + 1) size prev true] (by
            intro f' hf'
            rw [List.mem_singleton] at hf'
            subst hf'
            exact ⟨rfl, fun _ => rfl⟩)⟩
    · cases he
      refine ⟨fs, l, pop _ ?_ (fun k => ?_) (fun k => ?_) (fun k => ?_)⟩
      · split <;> rfl
      · by_cases hk : k = n
        · subst hk; rw [Graph.mod_self]; split
          · rw [Graph.collect, Graph.mod_self]
          · rfl
        · rw [Graph.mod_ne _ _ hk]; split
          · rw [Graph.collect, Graph.mod_ne _ _ hk]
          · rfl
      · by_cases hk : k = n
        · subst hk; rw [Graph.mod_self]; split
          · rw [Graph.collect, Graph.mod_self]
          · rfl
        · rw [Graph.mod_ne _ _ hk]; split
          · rw [Graph.collect, Graph.mod_ne _ _ hk]
          · rfl
      · by_cases hk : k = n
        · subst hk; rw [Graph.mod_self]; split
          · rw [Graph.collect, Graph.mod_self]
          · rfl
        · rw [Graph.mod_ne _ _ hk]; split
          · rw [Graph.collect, Graph.mod_ne _ _ hk]
          · rfl
  | roots rs =>
    rw [hst] at he
    cases rs with
    | nil => cases he; exact ⟨fs, l, pop m.g rfl (fun _ => rfl) (fun _ => rfl) (fun _ => rfl)⟩
    | cons r rs =>
      cases he
      exact ⟨_, l, repl [.notify r, .roots rs] (by
        intro f' hf'
        rcases List.mem_cons.1 hf' with rfl | h1
        · exact ⟨rfl, fun _ => rfl⟩
        · rw [List.mem_singleton] at h1
          subst h1
          exact ⟨rfl, fun _ => rfl⟩)⟩
  | up n v => cases hidle
  | ups l' =>
    cases l' with
    | nil => rw [hst] at he; cases he; exact ⟨fs, l, pop m.g rfl (fun _ => rfl) (fun _ => rfl) (fun _ => rfl)⟩
    | cons x l' => cases hidle
  | setterRest n v => cases hidle

/-- What remains after an insertion remained before, except for the new element. -/
theorem after_inserted {w x : Nat} (hwx : w ≠ x) (l : List Nat) (i : Nat) {rest' : List Nat}
    (h : after w (l.take i ++ x :: l.drop i) = some rest') :
    ∃ rest, after w l = some rest ∧ ∀ y ∈ rest', y = x ∨ y ∈ rest := by
  induction l generalizing i with
  | nil =>
    have e : ([] : List Nat).take i ++ x :: ([] : List Nat).drop i = [x] := by simp
    rw [e] at h
    simp [after, Ne.symm hwx] at h
  | cons a l ih =>
    cases i with
    | zero =>
      simp only [List.take_zero, List.nil_append, List.drop_zero, after, Ne.symm hwx, if_false] at h
      exact ⟨rest', h, fun y hy => .inr hy⟩
    | succ i =>
      simp only [List.take_succ_cons, List.cons_append, List.drop_succ_cons, after] at h ⊢
      split at h
      · rename_i e
        cases h
        rw [if_pos e]
        refine ⟨l, rfl, fun y hy => ?_⟩
        rcases List.mem_append.1 hy with h1 | h1
        · exact .inr (List.mem_of_mem_take h1)
        · rcases List.mem_cons.1 h1 with h2 | h2
          · exact .inl h2
          · exact .inr (List.mem_of_mem_drop h2)
      · rename_i e
        rw [if_neg e]
        exact ih i h

theorem remaining_inserted {cur : Option Nat} {x : Nat} (hx : ∀ c, cur = some c → c ≠ x)
    (l : List Nat) (i : Nat) {rest' : List Nat}
    (h : remaining cur (l.take i ++ x :: l.drop i) = some rest') :
    ∃ rest, remaining cur l = some rest ∧ ∀ y ∈ rest', y = x ∨ y ∈ rest := by
  cases cur with
  | none =>
    cases h
    refine ⟨l, rfl, fun y hy => ?_⟩
    rcases List.mem_append.1 hy with h1 | h1
    · exact .inr (List.mem_of_mem_take h1)
    · rcases List.mem_cons.1 h1 with h2 | h2
      · exact .inl h2
      · exact .inr (List.mem_of_mem_drop h2)
  | some c => exact after_inserted (hx c rfl) l i h

theorem remaining_filter {cur : Option Nat} {x : Nat} {l rest' : List Nat}
    (h : remaining cur (l.filter (· ≠ x)) = some rest') :
    ∃ rest, remaining cur l = some rest ∧ ∀ y ∈ rest', y ∈ rest := by
  cases cur with
  | none => cases h; exact ⟨l, rfl, fun y hy => (List.mem_filter.1 hy).1⟩
  | some c =>
    obtain ⟨rest, h1, h2⟩ := after_filter h
    exact ⟨rest, h1, fun y hy => by rw [h2] at hy; exact (List.mem_filter.1 hy).1⟩

/-- The callbacks of a node change so that what remains to be called is new or remained before. -/
theorem Once.obsChange {g0 : Graph V S} {b : List (Frame V)} {l0 : List (Ev V)} {fs l} {m : M V S}
    (h : Once g0 b l0 fs l m) (m' : M V S) (hst : m'.stack = m.stack) (hlog : m'.log = m.log)
    (hw : m.nextW ≤ m'.nextW) (hsz : m.g.size ≤ m'.g.size)
    (hlast : ∀ n, n < m.g.size → (m'.g.node n).last = (m.g.node n).last)
    (hnew : ∀ n, m.g.size ≤ n → n < m'.g.size → (m'.g.node n).needsNotify = false)
    (hfs : ∀ n cur prev, Frame.obs n cur prev ∈ fs → n < m.g.size)
    (hnn : ∀ n, (m'.g.node n).needsNotify = (m.g.node n).needsNotify ∨ (m'.g.node n).obs = [] ∧
      (m'.g.node n).needsNotify = false)
    (hobs : ∀ n w, w ∈ (m'.g.node n).obs → w < m.nextW → w ∈ (m.g.node n).obs)
    (hrem : ∀ n cur prev, Frame.obs n cur prev ∈ fs → ∀ rest',
      remaining cur (m'.g.node n).obs = some rest' →
      ∃ rest, remaining cur (m.g.node n).obs = some rest ∧
        ∀ y ∈ rest', y < m.nextW → y ∈ rest) : Once g0 b l0 fs l m' := by
  have hnn' : ∀ n, (m'.g.node n).needsNotify = true → (m.g.node n).needsNotify = true := by
    intro n hn
    rcases hnn n with h1 | ⟨_, h1⟩
    · rw [← h1]; exact hn
    · rw [h1] at hn; cases hn
  refine ⟨Nat.le_trans h.size hsz, fun n hn =>
      (hlast n (Nat.lt_of_lt_of_le hn h.size)).trans (h.last n hn), fun n hn hh => ?_, h.news,
    hst.trans h.stack, hlog.trans h.log, h.idle,
    fun n c prev hf => Nat.lt_of_lt_of_le (h.curs n c prev hf) hw, fun n => ?_, fun w hww => ?_⟩
  · by_cases hlt : n < m.g.size
    · exact h.told n hlt (hh.imp (hnn' n) id)
    · rcases hh with h1 | h1
      · rw [hnew n (by omega) hn] at h1; cases h1
      · obtain ⟨f, hf, hp⟩ := List.countP_pos_iff.1 h1
        cases f <;> simp [Frame.inObs] at hp
        subst hp
        exact absurd (hfs _ _ _ hf) hlt
  · rcases hnn n with h1 | ⟨_, h1⟩
    · rw [h1]; exact h.single n
    · have := h.single n
      rw [h1]
      simp only [Bool.false_eq_true, if_false]
      split at this <;> omega
  · obtain ⟨h1, h2, h3⟩ := h.called w hww
    refine ⟨Nat.lt_of_lt_of_le h1 hw, h2, fun n hn => ?_⟩
    obtain ⟨h4, h5⟩ := h3 n (hobs n w hn h1)
    refine ⟨?_, fun cur prev hf rest' hr' hmem => ?_⟩
    · rcases hnn n with h6 | ⟨_, h6⟩
      · rw [h6]; exact h4
      · exact h6
    · obtain ⟨rest, h6, h7⟩ := hrem n cur prev hf rest' hr'
      exact h5 cur prev hf rest h6 (h7 w hmem h1)

theorem Once.add {g0 : Graph V S} {b : List (Frame V)} {l0 : List (Ev V)} {fs l} {m : M V S}
    (h : Once g0 b l0 fs l m) (x : Node V S) (hp : ∀ p ∈ x.parents, p < m.g.size)
    (ho : x.obs = []) (hn : x.needsNotify = false)
    (hb : ∀ n cur prev, Frame.obs n cur prev ∈ fs → n < m.g.size) :
    Once g0 b l0 fs l { m with g := m.g.add x } := by
  have hold : ∀ n, n ≠ m.g.size → ((m.g.add x).node n).obs = (m.g.node n).obs ∧
      ((m.g.add x).node n).needsNotify = (m.g.node n).needsNotify ∧
      ((m.g.add x).node n).last = (m.g.node n).last := by
    intro n hnn
    obtain ⟨k, hk, _⟩ := add_old m.g x hnn
    rw [hk]; exact ⟨rfl, rfl, rfl⟩
  refine h.obsChange _ rfl rfl (Nat.le_refl _) (by simp only [add_size]; omega)
    (fun n hnn => (hold n (by omega)).2.2) (fun n h1 h2 => ?_) hb (fun n => ?_) (fun n w hw _ => ?_)
    (fun n cur prev hf rest' hr' => ?_)
  · simp only [add_size] at h2
    have : n = m.g.size := by omega
    subst this
    simp only; rw [add_new m.g x hp]; exact hn
  · by_cases hnn : n = m.g.size
    · subst hnn; right; simp only; rw [add_new m.g x hp]; exact ⟨ho, hn⟩
    · exact .inl (hold n hnn).2.1
  · by_cases hnn : n = m.g.size
    · subst hnn
      simp only at hw
      rw [add_new m.g x hp, ho] at hw
      cases hw
    · rw [← (hold n hnn).1]; exact hw
  · by_cases hnn : n = m.g.size
    · subst hnn; exact absurd (hb _ cur prev hf) (Nat.lt_irrefl _)
    · simp only at hr'
      rw [(hold n hnn).1] at hr'
      exact ⟨rest', hr', fun y hy _ => hy⟩

theorem ustep_once [Inhabited S] {g0 : Graph V S} {b : List (Frame V)} {l0 : List (Ev V)} {fs l} {m m' : M V S}
    (hi : Inv m) (h : Once g0 b l0 fs l m) (hne : fs ≠ []) {op : Op V S} (hq : op.quiet = true)
    (he : ustep m op = some m') :
    ∃ fs', Once g0 b l0 fs' l m' := by
  obtain ⟨f, fs, rfl⟩ := List.exists_cons_of_ne_nil hne
  have hst : m.stack = f :: (fs ++ b) := h.stack
  have hb : ∀ n cur prev, Frame.obs n cur prev ∈ f :: fs → n < m.g.size := by
    intro n cur prev hf
    have := hi.stack.holds (.obs n cur prev)
      (by rw [h.stack]; exact List.mem_append_left _ hf) n (List.mem_cons_self ..)
    exact hi.wf.alive_lt this
  have hml : ∀ (k : Nat) (F : Node V S → Node V S), (F (m.g.node k)).last = (m.g.node k).last →
      ∀ n, n < m.g.size → ((m.g.mod k F).node n).last = (m.g.node n).last := by
    intro k F hF n _
    by_cases hn : n = k
    · subst hn; rw [Graph.mod_self]; exact hF
    · rw [Graph.mod_ne _ _ hn]
  have hsame : ∀ n, m.g.size ≤ n → n < m.g.size → ∀ {P : Prop}, P := fun n h1 h2 =>
    absurd h2 (by omega)
  unfold ustep at he
  split at he
  · cases he
  · split at he
    case h_2 => cases he
    rename_i st hst'
    have hpl : ∀ (ps : List Nat), ps.all m.g.valid = true → ∀ p ∈ ps, p < m.g.size :=
      fun ps hps p hp => (valid_alive (List.all_eq_true.1 hps p hp)).1
    cases op with
    | newState auto cmp v =>
      cases he
      exact ⟨_, h.add _ (fun p hp => by simp [freshNode] at hp) rfl rfl hb⟩
    | newSensor cmp ext =>
      cases he
      exact ⟨_, h.add _ (fun p hp => by simp [freshNode] at hp) rfl rfl hb⟩
    | newConstant cmp v =>
      cases he
      exact ⟨_, h.add _ (fun p hp => by simp [freshNode] at hp) rfl rfl hb⟩
    | newCalc cmp ps view put refreshes dflt =>
      simp only at he
      split at he
      · rename_i hc
        cases he
        exact ⟨_, h.add _ (hpl ps hc.2.1) rfl rfl hb⟩
      · cases he
    | newXform cmp ps s0 u0 down up dflt =>
      simp only at he
      split at he
      · rename_i hc
        cases he
        refine ⟨_, h.add _ ?_ ?_ ?_ hb⟩
        · exact hpl ps hc.2.1
        · rfl
        · rfl
      · cases he
    | newSetter cmp p auto =>
      simp only at he
      split at he
      · rename_i hc
        cases he
        refine ⟨_, h.add _ (fun q hq => ?_) rfl rfl hb⟩
        have : q = p := by simpa [freshNode] using hq
        subst this
        exact (valid_alive hc).1
      · cases he
    | set k v => cases hq
    | update k f => cases hq
    | commit rs => cases hq
    | attach k i =>
      simp only at he
      split at he
      · cases he
        refine ⟨_, h.obsChange _ rfl rfl (Nat.le_succ _) (Nat.le_refl _)
          (fun n hn => by dsimp only; refine hml k _ ?_ n hn; rfl) (fun n h1 h2 => hsame n h1 h2) hb (fun n => .inl ?_) (fun n w hw hlt => ?_)
          (fun n cur prev hf rest' hr' => ?_)⟩
        · by_cases hn : n = k
          · subst hn; simp only [Graph.mod_self]
          · simp only [Graph.mod_ne _ _ hn]
        · by_cases hn : n = k
          · subst hn
            simp only [Graph.mod_self] at hw
            rcases List.mem_append.1 hw with h1 | h1
            · exact List.mem_of_mem_take h1
            · rcases List.mem_cons.1 h1 with h2 | h2
              · omega
              · exact List.mem_of_mem_drop h2
          · simpa only [Graph.mod_ne _ _ hn] using hw
        · by_cases hn : n = k
          · subst hn
            simp only [Graph.mod_self] at hr'
            obtain ⟨rest, h1, h2⟩ := remaining_inserted (x := m.nextW) (fun c hc => by
              subst hc
              have := h.curs n c prev hf
              omega) _ i hr'
            refine ⟨rest, h1, fun y hy hlt => ?_⟩
            rcases h2 y hy with h3 | h3
            · omega
            · exact h3
          · simp only [Graph.mod_ne _ _ hn] at hr'
            exact ⟨rest', hr', fun y hy _ => hy⟩
      · cases he
    | detach k w =>
      cases he
      refine ⟨_, h.obsChange _ rfl rfl (Nat.le_refl _) (Nat.le_refl _)
          (fun n hn => by dsimp only; refine hml k _ ?_ n hn; rfl) (fun n h1 h2 => hsame n h1 h2) hb (fun n => .inl ?_) (fun n w' hw hlt => ?_)
        (fun n cur prev hf rest' hr' => ?_)⟩
      · by_cases hn : n = k
        · subst hn; simp only [Graph.mod_self]
        · simp only [Graph.mod_ne _ _ hn]
      · by_cases hn : n = k
        · subst hn
          simp only [Graph.mod_self] at hw
          exact (List.mem_filter.1 hw).1
        · simpa only [Graph.mod_ne _ _ hn] using hw
      · by_cases hn : n = k
        · subst hn
          simp only [Graph.mod_self] at hr'
          obtain ⟨rest, h1, h2⟩ := remaining_filter hr'
          exact ⟨rest, h1, fun y hy _ => h2 y hy⟩
        · simp only [Graph.mod_ne _ _ hn] at hr'
          exact ⟨rest', hr', fun y hy _ => hy⟩
    | kill k =>
      simp only at he
      split at he
      · rename_i hc
        cases he
        refine ⟨_, h.obsChange _ rfl rfl (Nat.le_refl _) (Nat.le_refl _)
          (fun n hn => by dsimp only; refine hml k _ ?_ n hn; rfl) (fun n h1 h2 => hsame n h1 h2) hb (fun n => .inl ?_) (fun n w' hw hlt => ?_)
          (fun n cur prev hf rest' hr' => ?_)⟩
        · by_cases hn : n = k
          · subst hn; simp only [Graph.mod_self]
          · simp only [Graph.mod_ne _ _ hn]
        · by_cases hn : n = k
          · subst hn; simp only [Graph.mod_self] at hw; cases hw
          · simpa only [Graph.mod_ne _ _ hn] using hw
        · by_cases hn : n = k
          · subst hn
            exact absurd (List.mem_cons_self ..) (hc.2.2 (.obs n cur prev)
              (by rw [h.stack]; exact List.mem_append_left _ hf))
          · simp only [Graph.mod_ne _ _ hn] at hr'
            exact ⟨rest', hr', fun y hy _ => hy⟩
      · cases he
    | ret =>
      simp only at he
      split at he
      · cases he
      · cases he
        rw [hst] at hst'
        cases hst'
        exact ⟨fs, h.restack m.g rfl (fun _ => rfl) (fun _ => rfl) (fun _ => rfl)
          (fun f' hf' => h.idle f' (List.mem_cons_of_mem _ hf'))
          (fun n => by rw [List.countP_cons]; omega)
          (fun _ _ _ hf => List.mem_cons_of_mem _ hf) m.ub⟩

theorem QRun.runs [Inhabited S] {d : Nat} {a b : M V S} (h : QRun d a b) : Runs a b := by
  induction h with
  | refl m => exact .refl m
  | lib he _ ih => exact .step (.lib he) ih
  | user op _ _ he _ ih => exact .step (.user op he) ih

/-- From a state with the invariant until the call returns. -/
theorem QRun.once [Inhabited S] {g0 : Graph V S} {b : List (Frame V)} (hb : ∃ st, b = .user :: st)
    {l0 : List (Ev V)} {fs l} {m m' : M V S}
    (hr : QRun b.length m m') (hi : Inv m) (h : Once g0 b l0 fs l m) (hub : m'.ub = false)
    (hend : m'.stack = b) : ∃ l', m'.log = l0 ++ l' ∧ (∀ w, calls w l' ≤ 1) ∧
      (∀ n, n < g0.size → (m'.g.node n).last = (g0.node n).last) ∧
      ∀ w n v, Ev.call w n v ∈ l' → n < g0.size ∧ (g0.node n).needsNotify = true ∧
        v = (g0.node n).last := by
  induction hr generalizing fs l with
  | refl m => exact ⟨l, h.log, h.le, h.last, h.news⟩
  | lib he hr ih =>
    have hne : fs ≠ [] := by
      intro e
      subst e
      obtain ⟨st, rfl⟩ := hb
      rw [istep_user h.stack] at he
      cases he
    obtain ⟨fs', l', h'⟩ := istep_once hi h hne he
    exact ih (step_inv hi (.lib he) (hr.runs.ub hub)) h' hub hend
  | user op hd hq he hr ih =>
    have hne : fs ≠ [] := by
      intro e
      subst e
      rw [h.stack] at hd
      exact Nat.lt_irrefl _ hd
    obtain ⟨fs', h'⟩ := ustep_once hi h hne hq he
    exact ih (step_inv hi (.user op he) (hr.runs.ub hub)) h' hub hend

/-- The invariant holds at the beginning. -/
theorem once_start {b fs : List (Frame V)} {m : M V S} (hst : m.stack = fs ++ b)
    (hidle : ∀ f ∈ fs, f.idle = true ∧ ∀ n, f.inObs n = false) : Once m.g b m.log fs [] m := by
  refine ⟨Nat.le_refl _, fun _ _ => rfl, fun n hn hh => ?_, by simp, hst, by simp, fun f hf => (hidle f hf).1, fun n c prev hf => ?_, fun n => ?_,
    fun w hw => absurd hw (by simp [calls])⟩
  · rcases hh with h1 | h1
    · exact ⟨hn, h1⟩
    · rw [List.countP_eq_zero.2 fun f hf => by simp [(hidle f hf).2 n]] at h1
      omega
  · have := (hidle _ hf).2 n
    simp [Frame.inObs] at this
  · rw [List.countP_eq_zero.2 fun f hf => by simp [(hidle f hf).2 n]]
    omega

theorem Chain.same {g g' : Graph V S} (hk : ∀ n, (g'.node n).kind = (g.node n).kind)
    (hp : ∀ n, (g'.node n).parents = (g.node n).parents) {n r : Nat} (h : Chain g n r) :
    Chain g' n r := by
  induction h with
  | state h => exact .state ((hk _).trans h)
  | comp h1 h2 _ ih => exact .comp ((hk _).trans h1) ((hp _).trans h2) ih

/-- Before a write has arrived at the state. -/
def Upward (b : List (Frame V)) (m : M V S) : Prop :=
  ∃ f fs, m.stack = f :: fs ++ b ∧ (∀ f' ∈ fs, f' = .ups []) ∧
    ((∃ n v r, f = .up n v ∧ Chain m.g n r) ∨ ∃ n v r, f = .ups [(n, v)] ∧ Chain m.g n r)

/-- A write has arrived at an automatic state (or has been dropped). -/
def Arrived (g g' : Graph V S) : Prop := Recomputes g g' ∨ ∃ r v, (g.node r).kind = .state true ∧
  g' = (g.pushDown r v).sendDown r

theorem Recomputes.trans {a b c : Graph V S} (h : Recomputes a b) (k : Recomputes b c) :
    Recomputes a c := by
  induction k with
  | refl => exact h
  | step n _ ih => exact .step n ih

theorem istep_upward {b : List (Frame V)} {m m' : M V S} (h : Upward b m)
    (he : istep m = some m') :
    m'.log = m.log ∧ ((Recomputes m.g m'.g ∧ Upward b m') ∨
      (Arrived m.g m'.g ∧ ∃ fs l, Once m'.g b m'.log fs l m')) := by
  obtain ⟨f, fs, hst, hfs, hf⟩ := h
  have hfs' : ∀ f ∈ fs, f.idle = true ∧ ∀ n, f.inObs n = false := fun f hf => by
    rw [hfs f hf]; exact ⟨rfl, fun _ => rfl⟩
  unfold istep at he
  split at he
  · cases he
  rw [hst] at he
  rcases hf with ⟨n, v, r, rfl, hc⟩ | ⟨n, v, r, rfl, hc⟩
  · simp only [List.cons_append] at he
    cases hc with
    | state hk =>
      rw [hk] at he
      simp only [if_true] at he
      cases he
      exact ⟨rfl, .inr ⟨.inr ⟨n, v, hk, rfl⟩, .notify n :: fs, [], once_start rfl (by
        intro f hf
        rcases List.mem_cons.1 hf with rfl | h1
        · exact ⟨rfl, fun _ => rfl⟩
        · exact hfs' f h1)⟩⟩
    | comp hk hp hc =>
      rename_i p view put refr
      rw [hk] at he
      simp only at he
      cases he
      refine ⟨rfl, ?_⟩
      have hre : Recomputes m.g (if refr = true then m.g.refresh n else m.g) := by
        split
        · exact refresh_recomputes m.g n
        · exact .refl _
      have hs := hre.same
      generalize hg : (if refr = true then m.g.refresh n else m.g) = g at *
      have hp' : (g.node n).parents = [p] := (hs.parents n).trans hp
      rw [hp']
      cases hv : put (g.currents [p]) v with
      | nil =>
        right
        refine ⟨.inl hre, .ups [] :: fs, [], once_start ?_ ?_⟩
        · simp only [List.zip_nil_right, Graph.order]
          split <;> rfl
        · intro f hf
          rcases List.mem_cons.1 hf with rfl | h1
          · exact ⟨rfl, fun _ => rfl⟩
          · exact hfs' f h1
      | cons u us =>
        left
        refine ⟨hre, .ups [(p, u)], fs, ?_, hfs, .inr ⟨p, u, r, rfl, hc.same hs.kind hs.parents⟩⟩
        simp only [List.zip_cons_cons, List.zip_nil_left, Graph.order]
        split <;> rfl
  · cases he
    exact ⟨rfl, .inl ⟨.refl _, .up n v, .ups [] :: fs, rfl, fun f' hf' => by
      rcases List.mem_cons.1 hf' with h1 | h1
      · exact h1
      · exact hfs f' h1, .inl ⟨n, v, r, rfl, hc⟩⟩⟩

theorem QRun.upward [Inhabited S] {b : List (Frame V)} (hb : ∃ st, b = .user :: st)
    {m m' : M V S} (hr : QRun b.length m m') (hi : Inv m) (h : Upward b m) (hub : m'.ub = false)
    (hend : m'.stack = b) : ∃ g1 g2, Recomputes m.g g1 ∧ Arrived g1 g2 ∧
      ∃ l', m'.log = m.log ++ l' ∧ (∀ w, calls w l' ≤ 1) ∧
      (∀ n, n < g2.size → (m'.g.node n).last = (g2.node n).last) ∧
      ∀ w n v, Ev.call w n v ∈ l' → n < g2.size ∧ (g2.node n).needsNotify = true ∧
        v = (g2.node n).last := by
  induction hr with
  | refl m =>
    obtain ⟨f, fs, hst, _⟩ := h
    rw [hst] at hend
    have := congrArg List.length hend
    simp at this
    omega
  | lib he hr ih =>
    have hi' := step_inv hi (.lib he) (hr.runs.ub hub)
    obtain ⟨h1, ⟨h3, h2⟩ | ⟨h3, fs, l, h2⟩⟩ := istep_upward h he
    · rw [← h1]
      obtain ⟨g1, g2, k1, k2⟩ := ih hi' h2 hub hend
      exact ⟨g1, g2, h3.trans k1, k2⟩
    · rw [← h1]
      exact ⟨_, _, .refl _, h3, hr.once hb hi' h2 hub hend⟩
  | user op hd hq he hr ih =>
    obtain ⟨st, hst⟩ := ustep_user he
    obtain ⟨f, fs, hst', _, hf⟩ := h
    rw [hst] at hst'
    rcases hf with ⟨n, v, r, rfl, _⟩ | ⟨n, v, r, rfl, _⟩ <;> cases hst'

end Verif.Graph
