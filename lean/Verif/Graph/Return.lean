import Verif.Graph.Exec

/-
Do calls into the library return?  Library code and whole callbacks as steps, and why there are only
finitely many of them.
-/

set_option linter.unusedSectionVars false

namespace Verif.Graph

variable {V S : Type} [DecidableEq V]

/-- Does the call attach a callback? -/
def Op.attaches : Op V S → Bool
  | .attach _ _ => true
  | _ => false

/-- A step of a call that was made with a stack of depth `d`: a step of library code, or all that a
callback (or setter function) does until it returns.  It can call anything, with everything that follows
from it, but attaches no callbacks; with `cb = false` it may not be called. -/
inductive Next [Inhabited S] (cb : Bool) (d : Nat) (m : M V S) : M V S → Prop where
  | lib {m'} : d < m.stack.length → istep m = some m' → Next cb d m m'
  | callback {m1 m' st ops} : cb = true → d < m.stack.length → m.stack = .user :: st →
      Trace m ops m1 → (∀ op ∈ ops, op.attaches = false) → m1.stack = m.stack →
      ustep m1 .ret = some m' → Next cb d m m'

/-- Any number of them. -/
inductive Nexts [Inhabited S] (cb : Bool) (d : Nat) : M V S → M V S → Prop where
  | refl (m) : Nexts cb d m m
  | head {m m1 m2} : Next cb d m m1 → Nexts cb d m1 m2 → Nexts cb d m m2

/-- No infinite sequence of steps begins in `m`. -/
def Ends [Inhabited S] (cb : Bool) (d : Nat) (m : M V S) : Prop :=
  Acc (fun b a => Next cb d a b) m

theorem Ends.none [Inhabited S] {cb : Bool} {d : Nat} {m : M V S} (h : Ends cb d m) :
    ¬ ∃ f : Nat → M V S, f 0 = m ∧ ∀ i, Next cb d (f i) (f (i + 1)) := by
  induction h with
  | intro m _ ih =>
    rintro ⟨f, rfl, hf⟩
    exact ih (f 1) (hf 0) ⟨fun i => f (i + 1), rfl, fun i => hf (i + 1)⟩

theorem Ends.short [Inhabited S] {cb : Bool} {d : Nat} {m : M V S} (h : m.stack.length ≤ d) :
    Ends cb d m := by
  refine Acc.intro m fun m' hn => ?_
  cases hn with
  | lib h1 _ => omega
  | callback _ h1 => omega

theorem ustep_notUb [Inhabited S] {m m' : M V S} {op : Op V S} (h : ustep m op = some m') :
    m.ub = false := step_ub (.user op h)

theorem Trace.notUb [Inhabited S] {m m' m'' : M V S} {ops : List (Op V S)} {op : Op V S}
    (h : Trace m ops m') (hu : ustep m' op = some m'') : m.ub = false := by
  cases h with
  | refl => exact ustep_notUb hu
  | lib h1 _ => exact step_ub (.lib h1)
  | user h1 _ => exact ustep_notUb h1

theorem Next.notUb [Inhabited S] {cb : Bool} {d : Nat} {m m' : M V S} (h : Next cb d m m') :
    m.ub = false := by
  cases h with
  | lib _ he => exact step_ub (.lib he)
  | callback _ _ _ ht _ _ hu => exact ht.notUb hu

/-- A step of library code, if it is one. -/
theorem Next.lib_eq [Inhabited S] {cb : Bool} {d : Nat} {m m' m1 : M V S} (h : Next cb d m m')
    (he : istep m = some m1) : m' = m1 := by
  cases h with
  | lib _ h1 => rw [he] at h1; exact (Option.some.inj h1).symm
  | callback _ _ hst =>
    unfold istep at he
    rw [hst] at he
    split at he <;> cases he

/-- Library code goes on in one way. -/
theorem Ends.lib [Inhabited S] {cb : Bool} {d : Nat} {m m1 : M V S} (he : istep m = some m1)
    (h : Ends cb d m1) : Ends cb d m :=
  Acc.intro m fun _ hn => by rw [hn.lib_eq he]; exact h

/-- What happens in `m` may end in another call frame first. -/
theorem Ends.comp [Inhabited S] {cb : Bool} {d e : Nat} {m : M V S} (h : Ends cb e m)
    (k : ∀ m', Nexts cb e m m' → m'.stack.length ≤ e → Ends cb d m') : Ends cb d m := by
  induction h with
  | intro m _ ih =>
    by_cases hl : m.stack.length ≤ e
    · exact k m (.refl m) hl
    · refine Acc.intro m fun m1 hn => ?_
      have hn' : Next cb e m m1 := by
        cases hn with
        | lib _ h1 => exact .lib (by omega) h1
        | callback h0 _ h1 h2 h3 h4 h5 => exact .callback h0 (by omega) h1 h2 h3 h4 h5
      exact ih m1 hn' fun m' hs => k m' (.head hn' hs)

/-! ### Steps and the stack -/

theorem istep_base {m m' : M V S} (he : istep m = some m') {f : Frame V} {st : List (Frame V)}
    (hst : m.stack = f :: st) : m'.ub = true ∨ ∃ fs, m'.stack = fs ++ st := by
  unfold istep at he
  rw [hst] at he
  split at he
  · cases he
  · split at he
    · rename_i n st' hs; cases hs
      split at he
      · cases he; exact .inr ⟨[_], rfl⟩
      · cases he; exact .inr ⟨[], rfl⟩
    · rename_i n cur prev st' hs; cases hs
      split at he
      · cases he; exact .inl rfl
      · cases he; exact .inr ⟨[_], rfl⟩
      · cases he; exact .inr ⟨[_, _], rfl⟩
    · rename_i hs; cases hs
      split at he
      · split at he
        · cases he; exact .inl rfl
        · split at he
          · cases he; exact .inr ⟨[_, _], rfl⟩
          · cases he; exact .inr ⟨[_], rfl⟩
      · cases he; exact .inr ⟨[], rfl⟩
    · rename_i hs; cases hs; cases he; exact .inr ⟨[], rfl⟩
    · rename_i hs; cases hs; cases he; exact .inr ⟨[_, _], rfl⟩
    · rename_i hs; cases hs
      split at he
      · split at he
        · cases he; exact .inr ⟨[_], rfl⟩
        · cases he; exact .inr ⟨[], rfl⟩
      · cases he; exact .inr ⟨[_], rfl⟩
      · cases he; exact .inr ⟨[_], rfl⟩
      · cases he; exact .inr ⟨[_, _], rfl⟩
      · cases he; exact .inr ⟨[], rfl⟩
    · rename_i hs; cases hs; cases he; exact .inr ⟨[], rfl⟩
    · rename_i hs; cases hs; cases he; exact .inr ⟨[_, _], rfl⟩
    · rename_i hs; cases hs
      split at he
      · cases he; exact .inr ⟨[_], rfl⟩
      · cases he; exact .inr ⟨[], rfl⟩
    · cases he
    · cases he

theorem ret_stack [Inhabited S] {m m' : M V S} {st : List (Frame V)} (hst : m.stack = .user :: st)
    (h : ustep m .ret = some m') : m' = { m with stack := st } := by
  unfold ustep at h
  rw [hst] at h
  split at h
  · cases h
  · simp only at h
    split at h
    · cases h
    · cases h; rfl

/-- Frames below `d` stay. -/
theorem Next.base [Inhabited S] {cb : Bool} {b : List (Frame V)} {m m' : M V S}
    (h : Next cb b.length m m') {fs : List (Frame V)} (hst : m.stack = fs ++ b) :
    m'.ub = true ∨ ∃ fs', m'.stack = fs' ++ b := by
  have hl : b.length < m.stack.length := by cases h <;> assumption
  cases fs with
  | nil => rw [hst] at hl; simp at hl
  | cons f fs =>
    cases h with
    | lib _ he =>
      rcases istep_base he (st := fs ++ b) hst with h1 | ⟨fs', h1⟩
      · exact .inl h1
      · exact .inr ⟨fs' ++ fs, by rw [h1, List.append_assoc]⟩
    | callback _ _ hst' ht _ hst1 hu =>
      rw [hst'] at hst hst1
      cases hst
      rw [ret_stack hst1 hu]
      exact .inr ⟨fs, rfl⟩

theorem Nexts.base [Inhabited S] {cb : Bool} {b : List (Frame V)} {m m' : M V S}
    (h : Nexts cb b.length m m') : ∀ {fs : List (Frame V)}, m.stack = fs ++ b →
    m'.ub = true ∨ ∃ fs', m'.stack = fs' ++ b := by
  induction h with
  | refl => intro fs hst; exact .inr ⟨fs, hst⟩
  | head h1 h2 ih =>
    intro fs hst
    rcases h1.base hst with h3 | ⟨fs', h3⟩
    · cases h2 with
      | refl => exact .inl h3
      | head h4 _ => rw [h4.notUb] at h3; cases h3
    · exact ih h3

theorem Trace.runs [Inhabited S] {a b : M V S} {ops : List (Op V S)} (h : Trace a ops b) : Runs a b := by
  induction h with
  | refl => exact .refl _
  | lib he _ ih => exact .step (.lib he) ih
  | user he _ ih => exact .step (.user _ he) ih

theorem Trace.append [Inhabited S] {a b c : M V S} {ops ops' : List (Op V S)} (h : Trace a ops b)
    (k : Trace b ops' c) : Trace a (ops ++ ops') c := by
  induction h with
  | refl => exact k
  | lib he _ ih => exact .lib he (ih k)
  | user he _ ih => exact .user he (ih k)

theorem Next.runs [Inhabited S] {cb : Bool} {d : Nat} {m m' : M V S} (h : Next cb d m m') :
    Runs m m' := by
  cases h with
  | lib _ he => exact .step (.lib he) (.refl _)
  | callback _ _ _ ht _ _ hu => exact ht.runs.trans (.step (.user .ret hu) (.refl _))

theorem Nexts.runs [Inhabited S] {cb : Bool} {d : Nat} {m m' : M V S} (h : Nexts cb d m m') :
    Runs m m' := by
  induction h with
  | refl => exact .refl _
  | head h1 _ ih => exact h1.runs.trans ih

theorem Ends.ub [Inhabited S] {cb : Bool} {d : Nat} {m : M V S} (h : m.ub = true) : Ends cb d m :=
  Acc.intro m fun _ hn => by rw [hn.notUb] at h; cases h

/-! ### Callbacks are only detached -/

/-- No callbacks were attached. -/
def Shrinks (g g' : Graph V S) : Prop := ∀ n, (g'.node n).obs.Sublist (g.node n).obs

theorem Shrinks.refl (g : Graph V S) : Shrinks g g := fun _ => .refl _

theorem Shrinks.trans {a b c : Graph V S} (h : Shrinks a b) (k : Shrinks b c) : Shrinks a c :=
  fun n => (k n).trans (h n)

theorem Same.shrinks {g g' : Graph V S} (h : Same g g') : Shrinks g g' := fun n => by
  rw [h.obs n]; exact .refl _

theorem shrinks_mod (g : Graph V S) (k : Nat) (f : Node V S → Node V S)
    (h : (f (g.node k)).obs.Sublist (g.node k).obs) : Shrinks g (g.mod k f) := by
  intro n
  by_cases hk : n = k
  · subst hk; rw [Graph.mod_self]; exact h
  · rw [Graph.mod_ne _ _ hk]; exact .refl _

theorem shrinks_add (g : Graph V S) (x : Node V S) (hx : x.obs = []) (hp : ∀ p ∈ x.parents, p < g.size) :
    Shrinks g (g.add x) := by
  intro n
  by_cases hn : n = g.size
  · subst hn; rw [add_new g x hp, hx]; exact List.nil_sublist _
  · obtain ⟨k, hk, _⟩ := add_old g x hn
    rw [hk]; exact .refl _

theorem istep_obs {m m' : M V S} (he : istep m = some m') (n : Nat) :
    (m'.g.node n).obs = (m.g.node n).obs := by
  have hm : ∀ (g : Graph V S) (k : Nat) (f : Node V S → Node V S),
      (f (g.node k)).obs = (g.node k).obs → ((g.mod k f).node n).obs = (g.node n).obs := by
    intro g k f hf
    by_cases hk : n = k
    · subst hk; rw [Graph.mod_self]; exact hf
    · rw [Graph.mod_ne _ _ hk]
  unfold istep at he
  split at he
  · cases he
  · split at he
    · split at he
      · cases he
        dsimp only
        rw [hm _ _ _ rfl]
      · cases he; rfl
    · split at he <;> (cases he; rfl)
    · split at he
      · split at he
        · cases he; rfl
        · split at he <;> (cases he; rfl)
      · cases he
        dsimp only
        rw [hm _ _ _ rfl]
        split
        · unfold Graph.collect; rw [hm _ _ _ rfl]
        · rfl
    · cases he; rfl
    · cases he; rfl
    · rename_i k v st hst
      split at he
      · split at he
        · cases he
          exact ((pushDown_touch m.g k v).same.trans (sendDown_moves _ k).same).obs n
        · cases he; exact (pushDown_touch m.g k v).same.obs n
      · cases he
        simp only
        split
        · exact (refresh_recomputes m.g k).same.obs n
        · rfl
      · cases he
        dsimp only
        rw [hm _ _ _ rfl]
      · cases he; rfl
      · cases he; rfl
    · cases he; rfl
    · cases he; rfl
    · rename_i k v st hst
      split at he
      · cases he
        dsimp only
        rw [(sendDown_moves _ k).same.obs n, hm _ _ _ rfl]
        exact (pushDown_touch m.g k v).same.obs n
      · cases he; exact (pushDown_touch m.g k v).same.obs n
    · cases he
    · cases he

theorem istep_shrinks {m m' : M V S} (he : istep m = some m') : Shrinks m.g m'.g := fun n => by
  rw [istep_obs he n]; exact .refl _

theorem created_obs [Inhabited S] {m m' : M V S} {x : Node V S} (h : Created m m' x) : x.obs = [] := by
  rcases h.2.2 with ⟨_, _, _, rfl⟩ | ⟨_, _, rfl⟩ | ⟨_, _, rfl⟩ | ⟨_, _, _, _, _, _, rfl⟩ |
    ⟨_, _, _, _, _, _, _, rfl⟩ | ⟨_, _, _, rfl⟩ <;> rfl

theorem ustep_shrinks [Inhabited S] {m m' : M V S} {op : Op V S} (he : ustep m op = some m')
    (ha : op.attaches = false) : Shrinks m.g m'.g := by
  rcases step_size (.user op he) with hs | ⟨x, hx⟩
  · have hne : ∀ x, m'.g ≠ m.g.add x := fun x h => by
      have := add_size m.g x
      rw [← h] at this; omega
    unfold ustep at he
    split at he
    · cases he
    · split at he
      case h_2 => cases he
      cases op with
      | newState auto cmp v => cases he; exact absurd rfl (hne _)
      | newSensor cmp ext => cases he; exact absurd rfl (hne _)
      | newConstant cmp v => cases he; exact absurd rfl (hne _)
      | newCalc cmp ps view put refreshes dflt =>
        simp only at he
        split at he
        · cases he; exact absurd rfl (hne _)
        · cases he
      | newXform cmp ps s0 u0 down up dflt =>
        simp only at he
        split at he
        · cases he; exact absurd rfl (hne _)
        · cases he
      | newSetter cmp p auto =>
        simp only at he
        split at he
        · cases he; exact absurd rfl (hne _)
        · cases he
      | set k v =>
        simp only at he
        split at he
        · cases he; exact .refl _
        · cases he
      | update k f =>
        simp only at he
        split at he
        · cases he; exact .refl _
        · cases he
      | commit rs =>
        simp only at he
        split at he
        · cases he; exact (sendAll_same rs m.g).shrinks
        · cases he
      | attach k i => cases ha
      | detach k w =>
        cases he; dsimp only; refine shrinks_mod _ _ _ ?_; exact List.filter_sublist
      | kill k =>
        simp only at he
        split at he
        · cases he; dsimp only; refine shrinks_mod _ _ _ ?_; exact List.nil_sublist _
        · cases he
      | ret =>
        simp only at he
        split at he
        · cases he
        · cases he; exact .refl _
  · rw [hx.1]
    exact shrinks_add _ _ (created_obs hx) hx.2.1

theorem Trace.shrinks [Inhabited S] {m m' : M V S} {ops : List (Op V S)} (h : Trace m ops m')
    (ha : ∀ op ∈ ops, op.attaches = false) : Shrinks m.g m'.g := by
  induction h with
  | refl => exact .refl _
  | lib he _ ih => exact (istep_shrinks he).trans (ih ha)
  | user he _ ih =>
    exact (ustep_shrinks he (ha _ (List.mem_cons_self ..))).trans
      (ih fun op hop => ha op (List.mem_cons_of_mem _ hop))

theorem Next.shrinks [Inhabited S] {cb : Bool} {d : Nat} {m m' : M V S} (h : Next cb d m m') :
    Shrinks m.g m'.g := by
  cases h with
  | lib _ he => exact istep_shrinks he
  | callback _ _ _ ht ha _ hu => exact (ht.shrinks ha).trans (ustep_shrinks hu rfl)

/-- There are no callbacks on what has not been created. -/
theorem reach_unused [Inhabited S] {m : M V S} (h : Reach m) :
    ∀ n, m.g.size ≤ n → (m.g.node n).obs = [] := by
  induction h with
  | start ltr dummy hd => intro n _; exact hd.2.2.2.1
  | step hr hs ih =>
    rename_i m m'
    intro n hn
    have hsz := step_size_le hs
    have h0 := ih n (by omega)
    by_cases hat : ∃ k i, ustep m (.attach k i) = some m'
    · obtain ⟨k, i, he⟩ := hat
      unfold ustep at he
      split at he
      · cases he
      · split at he
        case h_2 => cases he
        simp only at he
        split at he
        · rename_i hv
          cases he
          dsimp only at hn ⊢
          rw [Graph.mod_ne]
          · exact h0
          · rintro rfl
            simp only [Graph.valid, Bool.and_eq_true, decide_eq_true_eq] at hv
            simp only [Graph.mod_size] at hn
            omega
        · cases he
    · have hs' : Shrinks m.g m'.g := by
        cases hs with
        | lib he => exact istep_shrinks he
        | user op he =>
          cases hop : op.attaches with
          | false => exact ustep_shrinks he hop
          | true =>
            cases op with
            | attach k i => exact absurd ⟨k, i, he⟩ hat
            | _ => cases hop
      have := hs' n
      rw [h0] at this
      exact List.sublist_nil.1 this

/-! ### Loops over callbacks -/

theorem after_self_mem {w : Nat} {l r : List Nat} (h : after w l = some r) : w ∈ l := by
  induction l with
  | nil => cases h
  | cons a l ih =>
    unfold after at h
    split at h
    · rename_i ha; subst ha; exact List.mem_cons_self ..
    · exact List.mem_cons_of_mem _ (ih h)

theorem after_sublist {w : Nat} {l l' : List Nat} (h : l'.Sublist l) (hn : l.Nodup) {r r' : List Nat}
    (h1 : after w l = some r) (h2 : after w l' = some r') : r'.Sublist r := by
  induction h with
  | slnil => cases h1
  | cons a hs ih =>
    rename_i l1 l2
    have hnd := List.nodup_cons.1 hn
    unfold after at h1
    split at h1
    · rename_i ha
      subst ha
      exact absurd (hs.subset (after_self_mem h2)) hnd.1
    · exact ih hnd.2 h1 h2
  | cons_cons a hs ih =>
    have hnd := List.nodup_cons.1 hn
    unfold after at h1 h2
    split at h1
    · rename_i ha
      rw [if_pos ha] at h2
      cases h1; cases h2; exact hs
    · rename_i ha
      rw [if_neg ha] at h2
      exact ih hnd.2 h1 h2

/-! ### The frames of a call -/

/-- `P` holds throughout. -/
structure Stays [Inhabited S] (cb : Bool) (P : M V S → Prop) : Prop where
  reach : ∀ m, P m → Reach m
  next : ∀ d m m', P m → Next cb d m m' → P m'

theorem Stays.nexts [Inhabited S] {cb : Bool} {P : M V S → Prop} (h : Stays cb P) {d : Nat} {m m' : M V S}
    (hs : Nexts cb d m m') : P m → P m' := by
  induction hs with
  | refl => exact id
  | head h1 _ ih => exact fun hp => ih (h.next _ _ _ hp h1)

/-- What the frame `f` has to do ends. -/
def EndsAt [Inhabited S] (cb : Bool) (P : M V S → Prop) (f : Frame V) : Prop :=
  ∀ m b, P m → m.stack = f :: b → Ends cb b.length m

/-- One frame after another. -/
theorem EndsAt.comp [Inhabited S] {cb : Bool} {P : M V S → Prop} (hP : Stays cb P) {f : Frame V}
    (h : EndsAt cb P f) {m : M V S} {b : List (Frame V)} {d : Nat} (hp : P m) (hst : m.stack = f :: b)
    (k : ∀ m', P m' → m'.stack = b → Ends cb d m') : Ends cb d m := by
  refine Ends.comp (h m b hp hst) fun m' hs hl => ?_
  rcases hs.base (fs := [f]) (by rw [hst]; rfl) with h1 | ⟨fs, h1⟩
  · exact .ub h1
  · refine k m' (hP.nexts hs hp) ?_
    cases fs with
    | nil => exact h1
    | cons f fs =>
      have := congrArg List.length h1
      simp only [List.length_append, List.length_cons] at this
      omega

/-- A callback, and what follows. -/
theorem Ends.callback [Inhabited S] {cb : Bool} {P : M V S → Prop} (hP : Stays cb P) {m : M V S}
    {b : List (Frame V)} {d : Nat} (hp : P m) (hst : m.stack = .user :: b)
    (k : ∀ m', P m' → Shrinks m.g m'.g → m'.stack = b → Ends cb d m') : Ends cb d m := by
  refine Acc.intro m fun m' hn => ?_
  have hp' := hP.next _ _ _ hp hn
  have hs := hn.shrinks
  refine k m' hp' hs ?_
  cases hn with
  | lib _ he =>
    unfold istep at he
    rw [hst] at he
    split at he <;> cases he
  | callback _ _ hst' _ _ hst1 hu =>
    rw [hst] at hst1
    rw [ret_stack hst1 hu]

/-- A step of library code, when the stack is known. -/
theorem Ends.step [Inhabited S] {cb : Bool} {P : M V S → Prop} (hP : Stays cb P) {m : M V S}
    {d : Nat} (hp : P m) (hd : d < m.stack.length)
    (k : m.ub = false → Inv m → ∃ m', istep m = some m' ∧ (P m' → m'.ub = false → Ends cb d m')) :
    Ends cb d m := by
  cases hub : m.ub with
  | true => exact .ub hub
  | false =>
    obtain ⟨m', he, hk⟩ := k hub (reach_inv (hP.reach m hp) hub)
    refine .lib he ?_
    cases hub' : m'.ub with
    | true => exact .ub hub'
    | false => exact hk (hP.next _ _ _ hp (.lib hd he)) hub'

section
variable [Inhabited S] {cb : Bool} {P : M V S → Prop}

theorem kids_ends (hP : Stays cb P) {n : Nat}
    (ih : ∀ c m b, n < c → c < m.g.size → P m → m.stack = .notify c :: b → Ends cb b.length m) :
    ∀ (j : Nat) (m : M V S) (b : List (Frame V)) (i size : Nat) (prev garbage : Bool), size - i ≤ j →
      P m → m.stack = .kids n i size prev garbage :: b → Ends cb b.length m := by
  intro j
  induction j with
  | zero =>
    intro m b i size prev garbage hj hp hst
    refine Ends.step hP hp (by rw [hst]; exact Nat.lt_succ_self _) fun hub hi => ?_
    refine ⟨_, by unfold istep; rw [hub, hst]; dsimp only; rw [if_neg (by simp), if_neg (by omega)], ?_⟩
    intro _ _
    exact .short (Nat.le_refl _)
  | succ j ihj =>
    intro m b i size prev garbage hj hp hst
    refine Ends.step hP hp (by rw [hst]; exact Nat.lt_succ_self _) fun hub hi => ?_
    by_cases hlt : i < size
    · cases hc : (m.g.node n).children[i]? with
      | none =>
        refine ⟨_, by
          unfold istep; rw [hub, hst]; dsimp only; rw [if_neg (by simp), if_pos hlt, hc], ?_⟩
        intro _ h; cases h
      | some c =>
        have hcm : c ∈ (m.g.node n).children := List.mem_of_getElem? hc
        cases ha : (m.g.node c).alive with
        | true =>
          refine ⟨_, by
            unfold istep; rw [hub, hst]; dsimp only
            rw [if_neg (by simp), if_pos hlt, hc]; dsimp only; rw [if_pos ha], ?_⟩
          intro hp' _
          refine Ends.comp (e := (Frame.kids n (i + 1) size prev garbage :: b).length)
            (ih c _ _ (hi.wf.child_lt hcm).1 (hi.wf.child_lt hcm).2 hp' rfl) fun m' hs hl => ?_
          rcases hs.base (fs := [.notify c]) rfl with h1 | ⟨fs, h1⟩
          · exact .ub h1
          · have hst' : m'.stack = .kids n (i + 1) size prev garbage :: b := by
              cases fs with
              | nil => exact h1
              | cons f fs =>
                have := congrArg List.length h1
                simp only [List.length_append, List.length_cons] at this hl
                omega
            exact ihj m' b (i + 1) size prev garbage (by omega) (hP.nexts hs hp') hst'
        | false =>
          refine ⟨_, by
            unfold istep; rw [hub, hst]; dsimp only
            rw [if_neg (by simp), if_pos hlt, hc]; dsimp only; rw [if_neg (by rw [ha]; simp)], ?_⟩
          intro hp' _
          exact ihj _ b (i + 1) size prev true (by omega) hp' rfl
    · refine ⟨_, by unfold istep; rw [hub, hst]; dsimp only; rw [if_neg (by simp), if_neg hlt], ?_⟩
      intro _ _
      exact .short (Nat.le_refl _)

theorem obs_ends (hP : Stays cb P) {n : Nat}
    (ih : ∀ c m b, n < c → c < m.g.size → P m → m.stack = .notify c :: b → Ends cb b.length m) :
    ∀ (j : Nat) (m : M V S) (b : List (Frame V)) (cur : Option Nat) (prev : Bool),
      (∀ rest, remaining cur (m.g.node n).obs = some rest → rest.length ≤ j) →
      P m → m.stack = .obs n cur prev :: b → Ends cb b.length m := by
  intro j
  induction j with
  | zero =>
    intro m b cur prev hj hp hst
    refine Ends.step hP hp (by rw [hst]; exact Nat.lt_succ_self _) fun hub hi => ?_
    cases hr : remaining cur (m.g.node n).obs with
    | none =>
      refine ⟨_, by unfold istep; rw [hub, hst]; dsimp only; rw [if_neg (by simp), hr], ?_⟩
      intro _ h; cases h
    | some rest =>
      have := hj rest hr
      cases rest with
      | cons w rest => simp at this
      | nil =>
        refine ⟨_, by unfold istep; rw [hub, hst]; dsimp only; rw [if_neg (by simp), hr], ?_⟩
        intro hp' _
        exact kids_ends hP ih _ _ b 0 _ prev false (Nat.le_refl _) hp' rfl
  | succ j ihj =>
    intro m b cur prev hj hp hst
    refine Ends.step hP hp (by rw [hst]; exact Nat.lt_succ_self _) fun hub hi => ?_
    cases hr : remaining cur (m.g.node n).obs with
    | none =>
      refine ⟨_, by unfold istep; rw [hub, hst]; dsimp only; rw [if_neg (by simp), hr], ?_⟩
      intro _ h; cases h
    | some rest =>
      have hlen := hj rest hr
      cases rest with
      | nil =>
        refine ⟨_, by unfold istep; rw [hub, hst]; dsimp only; rw [if_neg (by simp), hr], ?_⟩
        intro hp' _
        exact kids_ends hP ih _ _ b 0 _ prev false (Nat.le_refl _) hp' rfl
      | cons w rest =>
        refine ⟨_, by unfold istep; rw [hub, hst]; dsimp only; rw [if_neg (by simp), hr], ?_⟩
        intro hp' _
        refine Ends.callback hP (b := .obs n (some w) prev :: b) hp' rfl fun m' hpm hs hst' => ?_
        refine ihj m' b (some w) prev (fun rest' hr' => ?_) hpm hst'
        have hw : after w (m.g.node n).obs = some rest := remaining_step (hi.obs.nodup n) hr
        have := (after_sublist (hs n) (hi.obs.nodup n) hw hr').length_le
        simp only [List.length_cons] at hlen
        omega

theorem notify_ends (hP : Stays cb P) {n : Nat}
    (ih : ∀ c m b, n < c → c < m.g.size → P m → m.stack = .notify c :: b → Ends cb b.length m) :
    ∀ (m : M V S) (b : List (Frame V)), P m → m.stack = .notify n :: b → Ends cb b.length m := by
  intro m b hp hst
  refine Ends.step hP hp (by rw [hst]; exact Nat.lt_succ_self _) fun hub hi => ?_
  by_cases hn : ((m.g.node n).needsNotify && !(m.g.node n).dirty) = true
  · refine ⟨_, by unfold istep; rw [hub, hst]; dsimp only; rw [if_neg (by simp), if_pos hn], ?_⟩
    intro hp' _
    refine obs_ends hP ih (m.g.node n).obs.length _ b none _ (fun rest hr => ?_) hp' rfl
    cases hr
    dsimp only
    rw [Graph.mod_self]
    exact Nat.le_refl _
  · refine ⟨_, by unfold istep; rw [hub, hst]; dsimp only; rw [if_neg (by simp), if_neg hn], ?_⟩
    intro _ _
    exact .short (Nat.le_refl _)

theorem roots_ends (hP : Stays cb P)
    (hn : ∀ n m b, P m → m.stack = .notify n :: b → Ends cb b.length m) (rs : List Nat) :
    EndsAt cb P (.roots rs) := by
  induction rs with
  | nil =>
    intro m b hp hst
    refine Ends.step hP hp (by rw [hst]; exact Nat.lt_succ_self _) fun hub hi => ?_
    refine ⟨_, by unfold istep; rw [hub, hst]; dsimp only; rw [if_neg (by simp)], fun _ _ => ?_⟩
    exact .short (Nat.le_refl _)
  | cons r rs ih =>
    intro m b hp hst
    refine Ends.step hP hp (by rw [hst]; exact Nat.lt_succ_self _) fun hub hi => ?_
    refine ⟨_, by unfold istep; rw [hub, hst]; dsimp only; rw [if_neg (by simp)], fun hp' _ => ?_⟩
    exact EndsAt.comp hP (hn r) hp' rfl fun m' h1 h2 => ih m' b h1 h2

theorem ups_ends (hP : Stays cb P) (l : List (Nat × V))
    (hl : ∀ x ∈ l, ∀ v, EndsAt cb P (.up x.1 v)) : EndsAt cb P (.ups l) := by
  induction l with
  | nil =>
    intro m b hp hst
    refine Ends.step hP hp (by rw [hst]; exact Nat.lt_succ_self _) fun hub hi => ?_
    refine ⟨_, by unfold istep; rw [hub, hst]; dsimp only; rw [if_neg (by simp)], fun _ _ => ?_⟩
    exact .short (Nat.le_refl _)
  | cons x l ih =>
    intro m b hp hst
    refine Ends.step hP hp (by rw [hst]; exact Nat.lt_succ_self _) fun hub hi => ?_
    refine ⟨_, by unfold istep; rw [hub, hst]; dsimp only; rw [if_neg (by simp)], fun hp' _ => ?_⟩
    exact EndsAt.comp hP (hl x (List.mem_cons_self ..) x.2) hp' rfl fun m' h1 h2 =>
      ih (fun y hy => hl y (List.mem_cons_of_mem _ hy)) m' b h1 h2

theorem setterRest_ends (hP : Stays cb P)
    (hn : ∀ n m b, P m → m.stack = .notify n :: b → Ends cb b.length m) (n : Nat) (v : V) :
    EndsAt cb P (.setterRest n v) := by
  intro m b hp hst
  refine Ends.step hP hp (by rw [hst]; exact Nat.lt_succ_self _) fun hub hi => ?_
  have he : ∃ m', istep m = some m' ∧ (m'.stack = .notify n :: b ∨ m'.stack = b) := by
    unfold istep
    rw [hub, hst]
    simp only [Bool.false_eq_true, if_false]
    split
    · exact ⟨_, rfl, .inl rfl⟩
    · exact ⟨_, rfl, .inr rfl⟩
  obtain ⟨m', he, h1⟩ := he
  refine ⟨m', he, fun hp' _ => ?_⟩
  rcases h1 with h1 | h1
  · exact hn n m' b hp' h1
  · exact .short (by rw [h1]; exact Nat.le_refl _)

theorem up_ends (hP : Stays cb P)
    (hn : ∀ n m b, P m → m.stack = .notify n :: b → Ends cb b.length m) (k : Nat) :
    ∀ n, n < k → ∀ v, EndsAt cb P (.up n v) := by
  induction k with
  | zero => intro n h; omega
  | succ k ih =>
    intro n hnk v m b hp hst
    refine Ends.step hP hp (by rw [hst]; exact Nat.lt_succ_self _) fun hub hi => ?_
    have hpar : ∀ (g : Graph V S), (∀ j, (g.node j).parents = (m.g.node j).parents) →
        ∀ (vs : List V) x, x ∈ g.order ((g.node n).parents.zip vs) → x.1 < k := by
      intro g hg vs x hx
      rw [mem_order, hg] at hx
      have := hi.wf.lt n x.1 (List.of_mem_zip (a := x.1) (b := x.2) hx).1
      omega
    have he : ∃ m', istep m = some m' ∧ (m'.stack = .notify n :: b ∨ m'.stack = b ∨
        (∃ l : List (Nat × V), m'.stack = .ups l :: b ∧ ∀ x ∈ l, x.1 < k) ∨
        m'.stack = .user :: .setterRest n v :: b) := by
      unfold istep
      rw [hub, hst]
      simp only [Bool.false_eq_true, if_false]
      split
      · split
        · exact ⟨_, rfl, .inl rfl⟩
        · exact ⟨_, rfl, .inr (.inl rfl)⟩
      · refine ⟨_, rfl, .inr (.inr (.inl ⟨_, rfl, ?_⟩))⟩
        refine hpar _ (fun j => ?_) _
        split
        · exact (refresh_recomputes _ _).same.parents j
        · rfl
      · refine ⟨_, rfl, .inr (.inr (.inl ⟨_, rfl, ?_⟩))⟩
        intro x hx
        obtain ⟨vs, _, h1⟩ := List.mem_flatMap.1 hx
        refine hpar _ (fun j => ?_) vs x h1
        by_cases hj : j = n
        · subst hj; rw [Graph.mod_self]
        · rw [Graph.mod_ne _ _ hj]
      · exact ⟨_, rfl, .inr (.inr (.inr rfl))⟩
      · exact ⟨_, rfl, .inr (.inl rfl)⟩
    obtain ⟨m', he, h1⟩ := he
    refine ⟨m', he, fun hp' _ => ?_⟩
    rcases h1 with h1 | h1 | ⟨l, h1, h2⟩ | h1
    · exact hn n m' b hp' h1
    · exact .short (by rw [h1]; exact Nat.le_refl _)
    · exact ups_ends hP l (fun x hx v => ih x.1 (h2 x hx) v) m' b hp' h1
    · exact Ends.callback hP hp' h1 fun m2 hp2 _ h2 => setterRest_ends hP hn n v m2 b hp2 h2

end

/-! ### Nodes without callbacks -/

theorem stays_size [Inhabited S] (s : Nat) :
    Stays false fun m : M V S => Reach m ∧ m.g.size = s := by
  refine ⟨fun m h => h.1, fun d m m' h hn => ?_⟩
  cases hn with
  | lib _ he => exact ⟨.step h.1 (.lib he), (istep_size he).trans h.2⟩
  | callback h0 => cases h0

theorem notify_ends_lib [Inhabited S] (s k : Nat) : ∀ (n : Nat) (m : M V S) (b : List (Frame V)),
    s - n ≤ k → Reach m ∧ m.g.size = s → m.stack = .notify n :: b → Ends false b.length m := by
  induction k with
  | zero =>
    intro n m b hk hp hst
    exact notify_ends (stays_size s) (fun c m b h1 h2 hp _ => by rw [hp.2] at h2; omega) m b hp hst
  | succ k ih =>
    intro n m b hk hp hst
    exact notify_ends (stays_size s)
      (fun c m b h1 h2 hp h3 => ih c m b (by rw [hp.2] at h2; omega) hp h3) m b hp hst

/-- A frame that notifies one of the nodes from `N` on. -/
def Frame.high (N : Nat) : Frame V → Prop
  | .notify n => N ≤ n
  | .obs n cur _ => N ≤ n ∧ cur = none
  | .kids n _ _ _ _ => N ≤ n
  | _ => False

theorem istep_high {m m' : M V S} (hi : Inv m) {N : Nat} (ho : ∀ n, N ≤ n → (m.g.node n).obs = [])
    (he : istep m = some m') {f : Frame V} {st : List (Frame V)} (hst : m.stack = f :: st)
    (hf : f.high N) : m'.ub = true ∨ ∃ fs, m'.stack = fs ++ st ∧ ∀ f ∈ fs, f.high N := by
  unfold istep at he
  rw [hst] at he
  split at he
  · cases he
  · cases f with
    | notify n =>
      simp only at he
      split at he
      · cases he; exact .inr ⟨[_], rfl, by simpa using ⟨hf, rfl⟩⟩
      · cases he; exact .inr ⟨[], rfl, by simp⟩
    | obs n cur prev =>
      obtain ⟨h1, rfl⟩ := hf
      simp only [remaining, ho n h1] at he
      cases he
      refine .inr ⟨[_], rfl, ?_⟩
      intro f hf
      rw [List.mem_singleton] at hf
      subst hf
      exact h1
    | kids n i size prev garbage =>
      simp only at he
      split at he
      · split at he
        · cases he; exact .inl rfl
        · rename_i c hc
          have hcm := (hi.wf.child_lt (List.mem_of_getElem? hc)).1
          have hN : N ≤ n := hf
          split at he
          · cases he
            refine .inr ⟨[_, _], rfl, ?_⟩
            intro f hf
            rcases List.mem_cons.1 hf with rfl | hf
            · show N ≤ c; omega
            · rw [List.mem_singleton] at hf; subst hf; exact hN
          · cases he
            refine .inr ⟨[_], rfl, ?_⟩
            intro f hf
            rw [List.mem_singleton] at hf; subst hf; exact hN
      · cases he; exact .inr ⟨[], rfl, by simp⟩
    | user => cases hf
    | roots _ => cases hf
    | up _ _ => cases hf
    | ups _ => cases hf
    | setterRest _ _ => cases hf

theorem high_ends [Inhabited S] {N : Nat} {b : List (Frame V)} {m : M V S} (h : Ends false b.length m) :
    Reach m → (∀ n, N ≤ n → (m.g.node n).obs = []) → ∀ fs, m.stack = fs ++ b → (∀ f ∈ fs, f.high N) →
    Ends true b.length m := by
  induction h with
  | intro m _ ih =>
    intro hr ho fs hst hf
    refine Acc.intro m fun m' hn => ?_
    have hub := hn.notUb
    have hi := reach_inv hr hub
    cases fs with
    | nil =>
      have : b.length < m.stack.length := by cases hn <;> assumption
      rw [hst] at this
      simp at this
    | cons f fs =>
      have hff := hf f (List.mem_cons_self ..)
      cases hn with
      | callback _ _ hst' =>
        rw [hst] at hst'
        cases hst'
        cases hff
      | lib hd he =>
        rcases istep_high hi ho he (st := fs ++ b) hst hff with h1 | ⟨fs', h1, h2⟩
        · exact Ends.ub h1
        · refine ih m' (.lib hd he) (.step hr (.lib he)) (fun n hn => ?_) (fs' ++ fs)
            (by rw [h1, List.append_assoc]) ?_
          · have := istep_shrinks he n
            rw [ho n hn] at this
            exact List.sublist_nil.1 this
          · intro f hf'
            rcases List.mem_append.1 hf' with h | h
            · exact h2 f h
            · exact hf f (List.mem_cons_of_mem _ h)

/-! ### All nodes -/

theorem stays_high [Inhabited S] (N : Nat) :
    Stays true fun m : M V S => Reach m ∧ ∀ n, N ≤ n → (m.g.node n).obs = [] := by
  refine ⟨fun m h => h.1, fun d m m' h hn => ⟨hn.runs.reach h.1, fun n hN => ?_⟩⟩
  have := hn.shrinks n
  rw [h.2 n hN] at this
  exact List.sublist_nil.1 this

theorem notify_ends_all [Inhabited S] (N k : Nat) : ∀ (n : Nat) (m : M V S) (b : List (Frame V)),
    N - n ≤ k → (Reach m ∧ ∀ n, N ≤ n → (m.g.node n).obs = []) → m.stack = .notify n :: b →
    Ends true b.length m := by
  induction k with
  | zero =>
    intro n m b hk hp hst
    refine high_ends (notify_ends_lib m.g.size (m.g.size - n) n m b (Nat.le_refl _) ⟨hp.1, rfl⟩ hst)
      hp.1 hp.2 [.notify n] hst ?_
    intro f hf
    rw [List.mem_singleton] at hf
    subst hf
    show N ≤ n
    omega
  | succ k ih =>
    intro n m b hk hp hst
    exact notify_ends (stays_high N) (fun c m b h1 _ hp h3 => ih c m b (by omega) hp h3) m b hp hst

/-- Every call ends. -/
theorem call_ends [Inhabited S] {m m1 : M V S} (h : Reach m) {op : Op V S}
    (hop : ustep m op = some m1) (hna : op.attaches = false) : Ends true m.stack.length m1 := by
  have hr : Reach m1 := .step h (.user op hop)
  have hs := stays_high (V := V) (S := S) m.g.size
  have hn : ∀ n (m' : M V S) b, (Reach m' ∧ ∀ n, m.g.size ≤ n → (m'.g.node n).obs = []) →
      m'.stack = .notify n :: b → Ends true b.length m' :=
    fun n m' b hp hst => notify_ends_all m.g.size _ n m' b (Nat.le_refl _) hp hst
  have hp : Reach m1 ∧ ∀ n, m.g.size ≤ n → (m1.g.node n).obs = [] := by
    refine ⟨hr, fun n hN => ?_⟩
    have := ustep_shrinks hop hna n
    rw [reach_unused h n hN] at this
    exact List.sublist_nil.1 this
  by_cases hl : m1.stack.length ≤ m.stack.length
  · exact .short hl
  · have hst : (∃ n v, m1.stack = .up n v :: m.stack) ∨ ∃ rs, m1.stack = .roots rs :: m.stack := by
      unfold ustep at hop
      split at hop
      · cases hop
      · split at hop
        case h_2 => cases hop
        rename_i hstk
        cases op with
        | newState auto cmp v => cases hop; exact absurd (Nat.le_refl _) hl
        | newSensor cmp ext => cases hop; exact absurd (Nat.le_refl _) hl
        | newConstant cmp v => cases hop; exact absurd (Nat.le_refl _) hl
        | newCalc cmp ps view put refreshes dflt =>
          simp only at hop
          split at hop
          · cases hop; exact absurd (Nat.le_refl _) hl
          · cases hop
        | newXform cmp ps s0 u0 down up dflt =>
          simp only at hop
          split at hop
          · cases hop; exact absurd (Nat.le_refl _) hl
          · cases hop
        | newSetter cmp p auto =>
          simp only at hop
          split at hop
          · cases hop; exact absurd (Nat.le_refl _) hl
          · cases hop
        | set k v =>
          simp only at hop
          split at hop
          · cases hop; exact .inl ⟨_, _, rfl⟩
          · cases hop
        | update k f =>
          simp only at hop
          split at hop
          · cases hop; exact .inl ⟨_, _, rfl⟩
          · cases hop
        | commit rs =>
          simp only at hop
          split at hop
          · cases hop; exact .inr ⟨_, rfl⟩
          · cases hop
        | attach k i =>
          simp only at hop
          split at hop
          · cases hop; exact absurd (Nat.le_refl _) hl
          · cases hop
        | detach k w => cases hop; exact absurd (Nat.le_refl _) hl
        | kill k =>
          simp only at hop
          split at hop
          · cases hop; exact absurd (Nat.le_refl _) hl
          · cases hop
        | ret =>
          simp only at hop
          split at hop
          · cases hop
          · cases hop
            rw [hstk] at hl
            exact absurd (Nat.le_succ _) hl
    rcases hst with ⟨n, v, hst⟩ | ⟨rs, hst⟩
    · exact up_ends hs hn (n + 1) n (Nat.lt_succ_self _) v m1 m.stack hp hst
    · exact roots_ends hs hn rs m1 m.stack hp hst

end Verif.Graph
