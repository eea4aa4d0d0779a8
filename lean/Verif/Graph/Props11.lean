import Verif.Graph.Return
import Verif.Graph.Props2

/-
C107: calls into the library return.
-/

set_option linter.unusedSectionVars false

namespace Verif.Graph

variable {V S : Type} [DecidableEq V]

/-- A call that was made with a stack of depth `d` proceeds: library code makes a step, or a callback (or
setter function) that it has called runs until it returns.  That can make any calls that satisfy `ok`, with
everything that follows from them. -/
inductive Proceeds [Inhabited S] (ok : Op V S → Prop) (d : Nat) (m : M V S) : M V S → Prop where
  | lib {m'} : d < m.stack.length → istep m = some m' → Proceeds ok d m m'
  | callback {m1 m' st ops} : d < m.stack.length → m.stack = .user :: st → Trace m ops m1 →
      (∀ op ∈ ops, ok op) → m1.stack = m.stack → ustep m1 .ret = some m' → Proceeds ok d m m'

/-- It proceeds any number of times. -/
inductive ProceedsTo [Inhabited S] (ok : Op V S → Prop) (d : Nat) : M V S → M V S → Prop where
  | refl (m) : ProceedsTo ok d m m
  | head {m m1 m2} : Proceeds ok d m m1 → ProceedsTo ok d m1 m2 → ProceedsTo ok d m m2

/-- It attaches no callback. -/
def Op.NoAttach (op : Op V S) : Prop := ∀ n i, op ≠ .attach n i

theorem Op.NoAttach.attaches {op : Op V S} (h : op.NoAttach) : op.attaches = false := by
  cases op with
  | attach n i => exact absurd rfl (h n i)
  | _ => rfl

theorem Proceeds.next [Inhabited S] {d : Nat} {m m' : M V S} (h : Proceeds Op.NoAttach d m m') :
    Next true d m m' := by
  cases h with
  | lib h1 h2 => exact .lib h1 h2
  | callback h1 h2 h3 h4 h5 h6 =>
    exact .callback rfl h1 h2 h3 (fun op hop => (h4 op hop).attaches) h5 h6

theorem ProceedsTo.nexts [Inhabited S] {d : Nat} {m m' : M V S} (h : ProceedsTo Op.NoAttach d m m') :
    Nexts true d m m' := by
  induction h with
  | refl => exact .refl _
  | head h1 _ ih => exact .head h1.next ih

theorem istep_some {m : M V S} (hub : m.ub = false) {f : Frame V} {st : List (Frame V)}
    (hst : m.stack = f :: st) (hf : f ≠ .user) : ∃ m', istep m = some m' := by
  unfold istep
  rw [hub, hst]
  simp only [Bool.false_eq_true, if_false]
  cases f with
  | user => exact absurd rfl hf
  | notify n => dsimp only; split <;> exact ⟨_, rfl⟩
  | obs n cur prev => dsimp only; split <;> exact ⟨_, rfl⟩
  | kids n i size prev garbage =>
    dsimp only
    split
    · split
      · exact ⟨_, rfl⟩
      · split <;> exact ⟨_, rfl⟩
    · exact ⟨_, rfl⟩
  | roots rs => cases rs <;> exact ⟨_, rfl⟩
  | up n v =>
    dsimp only
    split
    · split <;> exact ⟨_, rfl⟩
    all_goals exact ⟨_, rfl⟩
  | ups l =>
    cases l with
    | nil => exact ⟨_, rfl⟩
    | cons x l => exact ⟨_, rfl⟩
  | setterRest n v => dsimp only; split <;> exact ⟨_, rfl⟩

/-- No call goes on for ever, if every callback that it calls returns and attaches no callbacks: there is no
infinite sequence of steps of the library and of whole callbacks.  Callbacks can write, commit, derive and
destroy. -/
theorem C107_returns [Inhabited S] {m m1 : M V S} (h : Reach m) {op : Op V S}
    (hop : ustep m op = some m1) :
    ¬ ∃ f : Nat → M V S, f 0 = m1 ∧ ∀ i, Proceeds Op.NoAttach m.stack.length (f i) (f (i + 1)) := by
  rintro ⟨f, h0, hf⟩
  refine Ends.none (cb := true) (d := m.stack.length) (m := m1) ?_ ⟨f, h0, fun i => (hf i).next⟩
  by_cases ha : op.NoAttach
  · exact call_ends h hop ha.attaches
  · cases op with
    | attach n i =>
      refine .short ?_
      unfold ustep at hop
      split at hop
      · cases hop
      · split at hop
        · simp only at hop
          split at hop
          · cases hop; exact Nat.le_refl _
          · cases hop
        · cases hop
    | _ => exact absurd (fun n i => by simp) ha

/-- A call that is not over can go on. -/
theorem can_proceed [Inhabited S] {ok : Op V S → Prop} {m : M V S} (hub : m.ub = false)
    {b fs : List (Frame V)} (hb : b ≠ []) (hst : m.stack = fs ++ b) (hfs : fs ≠ []) :
    ∃ m', Proceeds ok b.length m m' ∧ pstep b.length m = some m' := by
  cases fs with
  | nil => exact absurd rfl hfs
  | cons f fs =>
    have hl : b.length < m.stack.length := by rw [hst]; simp; omega
    by_cases hf : f = .user
    · subst hf
      obtain ⟨f', st', hne⟩ : ∃ f' st', fs ++ b = f' :: st' := by
        cases fs with
        | cons f' fs => exact ⟨f', fs ++ b, rfl⟩
        | nil =>
          cases b with
          | nil => exact absurd rfl hb
          | cons f' b => exact ⟨f', b, rfl⟩
      have he : ustep m .ret = some { m with stack := fs ++ b } := by
        have hst' : m.stack = .user :: f' :: st' := by rw [hst, ← hne]; rfl
        unfold ustep
        rw [hub, hst', hne]
        rfl
      refine ⟨_, .callback hl hst (.refl m) (by simp) rfl he, ?_⟩
      unfold pstep
      rw [if_neg (by omega), hst]
      exact he
    · obtain ⟨m', he⟩ := istep_some hub hst hf
      refine ⟨m', .lib hl he, ?_⟩
      unfold pstep
      rw [if_neg (by omega), hst]
      cases f with
      | user => exact absurd rfl hf
      | _ => exact he

/-- The stack when a call begins. -/
theorem ustep_push [Inhabited S] {m m1 : M V S} {op : Op V S} (hop : ustep m op = some m1)
    (hret : op ≠ .ret) : ∃ fs, m1.stack = fs ++ m.stack ∧ ∀ f ∈ fs, ∀ n cur prev, f ≠ .obs n cur prev := by
  unfold ustep at hop
  split at hop
  · cases hop
  · split at hop
    case h_2 => cases hop
    cases op with
    | newState auto cmp v => cases hop; exact ⟨[], rfl, by simp⟩
    | newSensor cmp ext => cases hop; exact ⟨[], rfl, by simp⟩
    | newConstant cmp v => cases hop; exact ⟨[], rfl, by simp⟩
    | newCalc cmp ps view put refreshes dflt =>
      simp only at hop
      split at hop
      · cases hop; exact ⟨[], rfl, by simp⟩
      · cases hop
    | newXform cmp ps s0 u0 down up dflt =>
      simp only at hop
      split at hop
      · cases hop; exact ⟨[], rfl, by simp⟩
      · cases hop
    | newSetter cmp p auto =>
      simp only at hop
      split at hop
      · cases hop; exact ⟨[], rfl, by simp⟩
      · cases hop
    | set k v =>
      simp only at hop
      split at hop
      · cases hop; exact ⟨[_], rfl, by simp⟩
      · cases hop
    | update k f =>
      simp only at hop
      split at hop
      · cases hop; exact ⟨[_], rfl, by simp⟩
      · cases hop
    | commit rs =>
      simp only at hop
      split at hop
      · cases hop; exact ⟨[_], rfl, by simp⟩
      · cases hop
    | attach k i =>
      simp only at hop
      split at hop
      · cases hop; exact ⟨[], rfl, by simp⟩
      · cases hop
    | detach k w => cases hop; exact ⟨[], rfl, by simp⟩
    | kill k =>
      simp only at hop
      split at hop
      · cases hop; exact ⟨[], rfl, by simp⟩
      · cases hop
    | ret => exact absurd rfl hret

theorem ustep_base_ne [Inhabited S] {m m1 : M V S} {op : Op V S} (hop : ustep m op = some m1) :
    m.stack ≠ [] := by
  intro h
  unfold ustep at hop
  rw [h] at hop
  split at hop <;> cases hop

/-- A call that is in progress is over, and user code goes on where it was made, or it can go on, or the
behaviour is undefined.  So by `C107_returns` it returns. -/
theorem C107_goes_on [Inhabited S] {m m1 m2 : M V S} {op : Op V S} (hop : ustep m op = some m1)
    (hret : op ≠ .ret) (hp : ProceedsTo Op.NoAttach m.stack.length m1 m2) :
    m2.ub = true ∨ m2.stack = m.stack ∨ ∃ m3, Proceeds Op.NoAttach m.stack.length m2 m3 := by
  obtain ⟨fs, hfs, _⟩ := ustep_push hop hret
  rcases hp.nexts.base hfs with h1 | ⟨fs', h1⟩
  · exact .inl h1
  · cases hub : m2.ub with
    | true => exact .inl rfl
    | false =>
      cases fs' with
      | nil => exact .inr (.inl h1)
      | cons f fs' =>
        obtain ⟨m3, h3, _⟩ := can_proceed (ok := Op.NoAttach) hub (ustep_base_ne hop) h1 (by simp)
        exact .inr (.inr ⟨m3, h3⟩)

/-- The callbacks that are being called are attached. -/
def Watching (g : Graph V S) (fs : List (Frame V)) : Prop :=
  ∀ n w prev, Frame.obs n (some w) prev ∈ fs → w ∈ (g.node n).obs

theorem istep_watching {m m' : M V S} (he : istep m = some m') {f : Frame V} {fs b : List (Frame V)}
    (hst : m.stack = f :: (fs ++ b)) (hub : m'.ub = false) (hw : Watching m.g (f :: fs)) :
    ∃ fs', m'.stack = fs' ++ b ∧ Watching m'.g fs' := by
  have ho := istep_obs he
  have keep : ∀ gs, (∀ f ∈ gs, ∀ n w prev, f = .obs n (some w) prev → w ∈ (m.g.node n).obs) →
      Watching m'.g (gs ++ fs) := by
    intro gs hgs n w prev hm
    rw [ho]
    rcases List.mem_append.1 hm with h | h
    · exact hgs _ h n w prev rfl
    · exact hw n w prev (List.mem_cons_of_mem _ h)
  unfold istep at he
  rw [hst] at he
  split at he
  · cases he
  · cases f with
    | user => cases he
    | notify n =>
      simp only at he
      split at he
      · cases he; exact ⟨_ :: fs, rfl, keep [_] (by simp)⟩
      · cases he; exact ⟨fs, rfl, keep [] (by simp)⟩
    | obs n cur prev =>
      simp only at he
      split at he
      · cases he; cases hub
      · cases he; exact ⟨_ :: fs, rfl, keep [_] (by simp)⟩
      · rename_i w rest hr
        cases he
        refine ⟨_ :: _ :: fs, rfl, keep [_, _] ?_⟩
        intro f hf n' w' prev' hfe
        subst hfe
        simp only [List.mem_cons, List.not_mem_nil, or_false, reduceCtorEq, false_or] at hf
        cases hf
        exact remaining_mem hr (List.mem_cons_self ..)
    | kids n i size prev garbage =>
      simp only at he
      split at he
      · split at he
        · cases he; cases hub
        · split at he
          · cases he; exact ⟨_ :: _ :: fs, rfl, keep [_, _] (by simp)⟩
          · cases he; exact ⟨_ :: fs, rfl, keep [_] (by simp)⟩
      · cases he; exact ⟨fs, rfl, keep [] (by simp)⟩
    | roots rs =>
      cases rs with
      | nil => cases he; exact ⟨fs, rfl, keep [] (by simp)⟩
      | cons r rs => cases he; exact ⟨_ :: _ :: fs, rfl, keep [_, _] (by simp)⟩
    | up n v =>
      simp only at he
      split at he
      · split at he
        · cases he; exact ⟨_ :: fs, rfl, keep [_] (by simp)⟩
        · cases he; exact ⟨fs, rfl, keep [] (by simp)⟩
      · cases he; exact ⟨_ :: fs, rfl, keep [_] (by simp)⟩
      · cases he; exact ⟨_ :: fs, rfl, keep [_] (by simp)⟩
      · cases he; exact ⟨_ :: _ :: fs, rfl, keep [_, _] (by simp)⟩
      · cases he; exact ⟨fs, rfl, keep [] (by simp)⟩
    | ups l =>
      cases l with
      | nil => cases he; exact ⟨fs, rfl, keep [] (by simp)⟩
      | cons x l => cases he; exact ⟨_ :: _ :: fs, rfl, keep [_, _] (by simp)⟩
    | setterRest n v =>
      simp only at he
      split at he
      · cases he; exact ⟨_ :: fs, rfl, keep [_] (by simp)⟩
      · cases he; exact ⟨fs, rfl, keep [] (by simp)⟩

theorem prun_exists [Inhabited S] {b : List (Frame V)} (hb : b ≠ []) {m : M V S}
    (h : Ends true b.length m) : Reach m → m.ub = false → ∀ fs, m.stack = fs ++ b → Watching m.g fs →
    ∃ m', PRun b.length m m' ∧ m'.stack = b ∧ m'.ub = false := by
  induction h with
  | intro m _ ih =>
    intro hr hub fs hst hw
    cases fs with
    | nil => exact ⟨m, .refl m, hst, hub⟩
    | cons f fs =>
      obtain ⟨m', hp, hps⟩ := can_proceed (ok := Op.NoAttach) hub hb hst (by simp)
      have hn := hp.next
      have hnext : m'.ub = false ∧ ∃ fs', m'.stack = fs' ++ b ∧ Watching m'.g fs' := by
        by_cases hf : f = .user
        · subst hf
          unfold pstep at hps
          rw [hst] at hps
          split at hps
          · cases hps
          · rw [ret_stack hst hps]
            exact ⟨hub, fs, rfl, fun n w prev hm => hw n w prev (List.mem_cons_of_mem _ hm)⟩
        · have he : istep m = some m' := by
            obtain ⟨m'', he⟩ := istep_some hub hst hf
            rw [he, hn.lib_eq he]
          have hub' : m'.ub = false := by
            cases hu : m'.ub with
            | false => rfl
            | true =>
              obtain ⟨n, w, prev, st, hs, hno⟩ := C17_no_overrun hr he hu
              rw [hst] at hs
              cases hs
              exact absurd (hw n w prev (List.mem_cons_self ..)) hno
          exact ⟨hub', istep_watching he hst hub' hw⟩
      obtain ⟨hub', fs', h1, h2⟩ := hnext
      obtain ⟨m2, h3, h4, h5⟩ := ih m' hn (hn.runs.reach hr) hub' fs' h1 h2
      exact ⟨m2, .step hps h3, h4, h5⟩

/-- If callbacks do nothing then every call returns, whatever the graph is and wherever the call is made, and
nothing undefined happens. -/
theorem C107_plain [Inhabited S] {m m1 : M V S} (h : Reach m) {op : Op V S} (hop : ustep m op = some m1)
    (hret : op ≠ .ret) : ∃ m2, PCall m op m2 ∧ m2.ub = false := by
  have hub1 : m1.ub = false := (ustep_ub hop).2
  obtain ⟨fs, hfs, hno⟩ := ustep_push hop hret
  by_cases ha : op.NoAttach
  · obtain ⟨m2, h2, h3, h4⟩ := prun_exists (ustep_base_ne hop) (call_ends h hop ha.attaches)
      (.step h (.user op hop)) hub1 fs hfs (fun n w prev hm => absurd rfl (hno _ hm n (some w) prev))
    exact ⟨m2, ⟨m1, hop, h2, h3⟩, h4⟩
  · cases op with
    | attach n i =>
      refine ⟨m1, ⟨m1, hop, .refl _, ?_⟩, hub1⟩
      unfold ustep at hop
      split at hop
      · cases hop
      · split at hop
        · simp only at hop
          split at hop
          · cases hop; rfl
          · cases hop
        · cases hop
    | _ => exact absurd (fun n i => by simp) ha

/-! ### A callback that writes -/

/-- Library code goes on until the call is over or a callback is called. -/
def libTo (d : Nat) : Nat → M V S → M V S
  | 0, m => m
  | k + 1, m => if d < m.stack.length then match istep m with
    | some m' => libTo d k m'
    | none => m else m

theorem libTo_proceeds [Inhabited S] (ok : Op V S → Prop) (d k : Nat) (m : M V S) :
    ProceedsTo ok d m (libTo d k m) := by
  induction k generalizing m with
  | zero => exact .refl m
  | succ k ih =>
    simp only [libTo]
    split
    · rename_i hd
      split
      · rename_i m' he; exact .head (.lib hd he) (ih m')
      · exact .refl m
    · exact .refl m

/-- Two states, with a callback on each. -/
def exTwo : M Nat Nat := exec [.newState true true 0, .newState true true 0, .attach 0 0, .attach 1 0] boot

/-- 1 is set, and the callback of the first state is called. -/
def exTwoCalled : M Nat Nat := libTo 1 200 ((ustep exTwo (.set 0 1)).getD exTwo)

/-- It sets the second state, whose callback returns. -/
def exTwoSet : M Nat Nat := exec [.set 1 5, .ret] exTwoCalled

/-- The callback returns, and `set` goes on. -/
def exTwoDone : M Nat Nat := libTo 1 200 ((ustep exTwoSet .ret).getD exTwoSet)

theorem ProceedsTo.trans [Inhabited S] {ok : Op V S → Prop} {d : Nat} {a b c : M V S}
    (h : ProceedsTo ok d a b) (k : ProceedsTo ok d b c) : ProceedsTo ok d a c := by
  induction h with
  | refl => exact k
  | head h1 _ ih => exact .head h1 (ih k)

/-- A call in the course of which a callback sets another state, whose callback is called. -/
example : Reach exTwo ∧ ∃ m1, ustep exTwo (.set 0 1) = some m1 ∧
    ProceedsTo Op.NoAttach exTwo.stack.length m1 exTwoCalled ∧ exTwoCalled.stack.length = 3 ∧
    ProceedsTo Op.NoAttach exTwo.stack.length m1 exTwoDone ∧
    exTwoDone.stack = exTwo.stack ∧ exTwoDone.ub = false ∧ exTwoDone.get 0 = 1 ∧ exTwoDone.get 1 = 5 := by
  refine ⟨exec_reach _, _, some_getD exTwo (by decide +kernel), libTo_proceeds _ _ _ _, by decide +kernel, ?_,
    by decide +kernel, by decide +kernel, by decide +kernel, by decide +kernel⟩
  refine (libTo_proceeds _ 1 200 _).trans (.head (m1 := (ustep exTwoSet .ret).getD exTwoSet) ?_
    (libTo_proceeds _ 1 200 _))
  refine .callback (m1 := exTwoSet) (st := [.obs 0 (some 0) false, .user]) (ops := [.set 1 5, .ret])
    (by decide +kernel) (by decide +kernel) (exec_trace _ _ (by decide +kernel)) ?_ (by decide +kernel)
    (some_getD exTwoSet (by decide +kernel))
  intro op hop n i hc
  simp only [List.mem_cons, List.not_mem_nil, or_false] at hop
  rcases hop with rfl | rfl <;> cases hc

/-- A graph to which `C107_plain` applies. -/
example : Reach exTwo ∧ (ustep exTwo (.set 0 1)).isSome = true ∧ (exTwo.g.node 0).obs ≠ [] :=
  ⟨exec_reach _, by decide +kernel, by decide +kernel⟩

/-! ### Callbacks that attach callbacks -/

/-- A state with a callback, and 1 is set. -/
def exAttach : M Nat Nat := exec [.newState true true 0, .attach 0 0] boot

/-- What happens next, when every callback attaches another one to the state and returns. -/
def attachNext (m : M Nat Nat) : M Nat Nat :=
  match m.stack with
  | .user :: _ => (((ustep m (.attach 0 m.nextW)).bind fun m => ustep m .ret)).getD m
  | _ => (istep m).getD m

def attachSeq : Nat → M Nat Nat
  | 0 => (ustep exAttach (.set 0 1)).getD exAttach
  | i + 1 => attachNext (attachSeq i)

theorem after_range (k : Nat) : ∀ j l, after (j + k) (List.range' j (k + 1) ++ l) = some l := by
  induction k with
  | zero => intro j l; simp [List.range'_succ, after]
  | succ k ih =>
    intro j l
    rw [List.range'_succ, List.cons_append, after, if_neg (by omega)]
    have := ih (j + 1) l
    rw [show j + 1 + k = j + (k + 1) by omega] at this
    exact this

theorem attach_range (k : Nat) : (List.range' 0 (k + 1)).take (k + 1) ++ (k + 1) ::
    (List.range' 0 (k + 1)).drop (k + 1) = List.range' 0 (k + 1) ++ [k + 1] := by
  rw [List.take_of_length_le (by simp), List.drop_of_length_le (by simp)]

/-- Callback `k` is running. -/
structure AttachUser (k : Nat) (m : M Nat Nat) : Prop where
  ub : m.ub = false
  valid : m.g.valid 0 = true
  nextW : m.nextW = k + 1
  obs : (m.g.node 0).obs = List.range' 0 (k + 1)
  stack : m.stack = [.user, .obs 0 (some k) false, .user]

theorem attach_lib {k : Nat} {m : M Nat Nat} (hub : m.ub = false)
    (hst : m.stack = [.obs 0 (some k) false, .user])
    (hrem : remaining (some k) (m.g.node 0).obs = some [k + 1]) :
    istep m = some { m with
      stack := [.user, .obs 0 (some (k + 1)) false, .user]
      seen := fun w' => if w' = k + 1 then some (m.g.node 0).last else m.seen w'
      log := m.log ++ [.call (k + 1) 0 (m.g.node 0).last] } ∧
    attachNext m = { m with
      stack := [.user, .obs 0 (some (k + 1)) false, .user]
      seen := fun w' => if w' = k + 1 then some (m.g.node 0).last else m.seen w'
      log := m.log ++ [.call (k + 1) 0 (m.g.node 0).last] } := by
  have e : istep m = some { m with
      stack := [.user, .obs 0 (some (k + 1)) false, .user]
      seen := fun w' => if w' = k + 1 then some (m.g.node 0).last else m.seen w'
      log := m.log ++ [.call (k + 1) 0 (m.g.node 0).last] } := by
    unfold istep
    simp only [hub, hst, hrem, Bool.false_eq_true, if_false]
  refine ⟨e, ?_⟩
  unfold attachNext
  simp only [hst]
  rw [e]
  rfl

theorem attach_user {k : Nat} {m : M Nat Nat} (h : AttachUser k m) :
    Proceeds (fun _ => True) 1 m (attachNext m) ∧
    Proceeds (fun _ => True) 1 (attachNext m) (attachNext (attachNext m)) ∧
    AttachUser (k + 1) (attachNext (attachNext m)) := by
  have e1 : ustep m (.attach 0 m.nextW) = some { m with
      g := m.g.mod 0 fun x => { x with obs := x.obs.take m.nextW ++ m.nextW :: x.obs.drop m.nextW }
      nextW := m.nextW + 1
      seen := fun w => if w = m.nextW then some (m.g.node 0).last else m.seen w } := by
    unfold ustep
    rw [h.ub, h.stack]
    simp only [Bool.false_eq_true, if_false]
    rw [if_pos h.valid]
  have e2 : attachNext m = { m with
      g := m.g.mod 0 fun x => { x with obs := x.obs.take m.nextW ++ m.nextW :: x.obs.drop m.nextW }
      nextW := m.nextW + 1
      seen := fun w => if w = m.nextW then some (m.g.node 0).last else m.seen w
      stack := [.obs 0 (some k) false, .user] } := by
    unfold attachNext
    rw [h.stack]
    simp only
    rw [e1]
    unfold ustep
    simp only [Option.bind_some, h.stack, h.ub, Bool.false_eq_true, if_false]
    rfl
  have hobs : ((attachNext m).g.node 0).obs = List.range' 0 (k + 1) ++ [k + 1] := by
    rw [e2]
    simp only [Graph.mod_self]
    rw [h.obs, h.nextW, attach_range]
  have hst : (attachNext m).stack = [.obs 0 (some k) false, .user] := by rw [e2]
  have hub : (attachNext m).ub = false := by rw [e2]; exact h.ub
  have hrem : remaining (some k) ((attachNext m).g.node 0).obs = some [k + 1] := by
    rw [hobs]
    have := after_range k 0 [k + 1]
    rw [Nat.zero_add] at this
    exact this
  obtain ⟨e3, e4⟩ := attach_lib hub hst hrem
  refine ⟨?_, ?_, ?_⟩
  · refine .callback (by rw [h.stack]; exact Nat.lt_succ_of_lt (Nat.lt_succ_self _)) h.stack (.user e1 (.refl _)) (fun _ _ => trivial) rfl ?_
    rw [e2]
    unfold ustep
    simp only [h.stack, h.ub, Bool.false_eq_true, if_false]
  · rw [e4]
    exact .lib (by rw [hst]; exact Nat.lt_succ_self _) e3
  · rw [e4]
    refine ⟨hub, ?_, ?_, ?_, rfl⟩
    · show (attachNext m).g.valid 0 = true
      rw [e2]
      have := h.valid
      simp only [Graph.valid, Graph.mod_size, Graph.mod_self] at this ⊢
      exact this
    · show (attachNext m).nextW = _
      rw [e2]
      simp only [h.nextW]
    · show ((attachNext m).g.node 0).obs = _
      rw [hobs, List.range'_concat (s := 0) (n := k + 1)]
      simp

theorem attach_start : AttachUser 0 (attachSeq 3) :=
  ⟨by decide +kernel, by decide +kernel, by decide +kernel, by decide +kernel, by decide +kernel⟩

theorem attach_all (k : Nat) : AttachUser k (attachSeq (3 + 2 * k)) := by
  induction k with
  | zero => exact attach_start
  | succ k ih => exact (attach_user ih).2.2

theorem attach_proceeds (i : Nat) : Proceeds (fun _ => True) 1 (attachSeq i) (attachSeq (i + 1)) := by
  match i with
  | 0 => exact .lib (by decide +kernel) (some_getD (attachSeq 0) (by decide +kernel))
  | 1 => exact .lib (by decide +kernel) (some_getD (attachSeq 1) (by decide +kernel))
  | 2 => exact .lib (by decide +kernel) (some_getD (attachSeq 2) (by decide +kernel))
  | i + 3 =>
    obtain ⟨k, hk⟩ : ∃ k, i = 2 * k ∨ i = 2 * k + 1 := ⟨i / 2, by omega⟩
    rcases hk with rfl | rfl
    · have := (attach_user (attach_all k)).1
      rw [show 2 * k + 3 = 3 + 2 * k by omega]
      exact this
    · have := (attach_user (attach_all k)).2.1
      rw [show 2 * k + 1 + 3 = 3 + 2 * k + 1 by omega]
      exact this

/-- With callbacks that attach callbacks this is false: every callback returns, but `set` does not. -/
theorem C107_attach_false : ∃ m m1 : M Nat Nat, Reach m ∧ m.AtRest ∧ ustep m (.set 0 1) = some m1 ∧
    ∃ f : Nat → M Nat Nat, f 0 = m1 ∧ ∀ i, Proceeds (fun _ => True) m.stack.length (f i) (f (i + 1)) :=
  ⟨exAttach, attachSeq 0, exec_reach _, ⟨by decide +kernel, by decide +kernel⟩,
    some_getD _ (by decide +kernel), attachSeq, rfl, attach_proceeds⟩

end Verif.Graph
