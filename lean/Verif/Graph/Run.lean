import Verif.Graph.Reach
import Verif.Graph.Spec

/-
Complete runs: writes that call no user code, and calls with callbacks that only return.
-/

set_option linter.unusedSectionVars false

namespace Verif.Graph

variable {V S : Type} [DecidableEq V]

theorem LibRun.trans {a b c : M V S} (h : LibRun a b) (k : LibRun b c) : LibRun a c := by
  induction h with
  | refl => exact k
  | step he _ ih => exact .step he (ih k)

theorem PRun.trans [Inhabited S] {d : Nat} {a b c : M V S} (h : PRun d a b) (k : PRun d b c) :
    PRun d a c := by
  induction h with
  | refl => exact k
  | step he _ ih => exact .step he (ih k)

theorem Runs.trans [Inhabited S] {a b c : M V S} (h : Runs a b) (k : Runs b c) : Runs a c := by
  induction h with
  | refl => exact k
  | step he _ ih => exact .step he (ih k)

theorem LibRun.runs [Inhabited S] {a b : M V S} (h : LibRun a b) : Runs a b := by
  induction h with
  | refl => exact .refl _
  | step he _ ih => exact .step (.lib he) ih

theorem pstep_step [Inhabited S] {d : Nat} {a b : M V S} (h : pstep d a = some b) : Step a b := by
  unfold pstep at h
  split at h
  · cases h
  · split at h
    · exact .user .ret h
    · exact .lib h

theorem PRun.runs [Inhabited S] {d : Nat} {a b : M V S} (h : PRun d a b) : Runs a b := by
  induction h with
  | refl => exact .refl _
  | step he _ ih => exact .step (pstep_step he) ih

theorem Runs.reach [Inhabited S] {a b : M V S} (h : Runs a b) (hr : Reach a) : Reach b := by
  induction h with
  | refl => exact hr
  | step he _ ih => exact ih (.step hr he)

theorem ustep_ub [Inhabited S] {m m' : M V S} {op : Op V S} (h : ustep m op = some m') :
    m.ub = false ∧ m'.ub = false := by
  have h0 : m.ub = false := by
    cases hu : m.ub with
    | false => rfl
    | true => unfold ustep at h; rw [if_pos hu] at h; cases h
  refine ⟨h0, ?_⟩
  unfold ustep at h
  split at h
  · cases h
  · split at h
    case h_2 => cases h
    cases op <;> simp only at h <;> first
      | (cases h; exact h0)
      | (split at h
         · first | (cases h; exact h0) | cases h
         · first | (cases h; exact h0) | cases h)

theorem step_ub [Inhabited S] {m m' : M V S} (h : Step m m') : m.ub = false := by
  cases h with
  | lib he =>
    cases hu : m.ub with
    | false => rfl
    | true => unfold istep at he; rw [if_pos hu] at he; cases he
  | user op he => exact (ustep_ub he).1

theorem step_inv [Inhabited S] {m m' : M V S} (h : Inv m) (hs : Step m m') (hub : m'.ub = false) :
    Inv m' := by
  cases hs with
  | lib he => exact istep_inv h he hub
  | user op he => exact ustep_inv h op he

theorem Runs.ub [Inhabited S] {m m' : M V S} (h : Runs m m') (hub : m'.ub = false) :
    m.ub = false := by
  induction h with
  | refl => exact hub
  | step he _ _ => exact step_ub he

theorem Runs.inv [Inhabited S] {m m' : M V S} (hr : Runs m m') (h : Inv m) (hub : m'.ub = false) :
    Inv m' := by
  induction hr with
  | refl => exact h
  | step he hr ih => exact ih (step_inv h he (hr.ub hub)) hub

/-! ### Writes that call no user code -/

/-- The effect of `send_up` on the heap, when it runs no user code. -/
def Graph.sendUpN : Nat → Graph V S → Nat → V → Graph V S
  | 0, g, _, _ => g
  | k + 1, g, n, v =>
    match (g.node n).kind with
    | .state _ => g.pushDown n v
    | .calc _ (some put) refreshes =>
      let g := if refreshes then g.refresh n else g
      (g.order ((g.node n).parents.zip (put (g.currents (g.node n).parents) v))).foldl
        (fun g x => sendUpN k g x.1 x.2) g
    | .xform _ (some up) =>
      let r := up (g.node n).upSt v
      let g := g.mod n fun x => { x with upSt := r.1 }
      (r.2.flatMap fun vs => g.order ((g.node n).parents.zip vs)).foldl
        (fun g x => sendUpN k g x.1 x.2) g
    | _ => g

theorem mem_order {α : Type} {g : Graph V S} {l : List α} {x : α} : x ∈ g.order l ↔ x ∈ l := by
  unfold Graph.order
  split
  · rfl
  · exact List.mem_reverse

theorem Lazy.same {g g' : Graph V S} (hk : ∀ n, (g'.node n).kind = (g.node n).kind)
    (hp : ∀ n, (g'.node n).parents = (g.node n).parents) {n : Nat} (h : Lazy g n) : Lazy g' n := by
  induction h with
  | state h => exact .state ((hk _).trans h)
  | comp h _ ih => exact .comp ((hk _).trans h) (fun p hpm => ih p (by rw [hp] at hpm; exact hpm))
  | xform h _ ih =>
    exact .xform ((hk _).trans h) (fun p hpm => ih p (by rw [hp] at hpm; exact hpm))

/-- Nothing that `get()` shows or that leads to notifications is changed. -/
structure Hidden (g g' : Graph V S) : Prop where
  same : Same g g'
  last : ∀ n, (g'.node n).last = (g.node n).last
  needsNotify : ∀ n, (g'.node n).needsNotify = (g.node n).needsNotify

theorem Hidden.refl (g : Graph V S) : Hidden g g := ⟨.refl g, fun _ => rfl, fun _ => rfl⟩

theorem Hidden.trans {a b c : Graph V S} (h : Hidden a b) (k : Hidden b c) : Hidden a c :=
  ⟨h.same.trans k.same, fun n => (k.last n).trans (h.last n),
    fun n => (k.needsNotify n).trans (h.needsNotify n)⟩

theorem Touch.hidden {n : Nat} {g g' : Graph V S} (h : Touch n g g') : Hidden g g' :=
  ⟨h.same, fun m => (h.last_all m).1, fun m => (h.last_all m).2⟩

theorem Recomputes.hidden {g g' : Graph V S} (h : Recomputes g g') : Hidden g g' :=
  ⟨h.same, fun m => (h.last m).1, fun m => (h.last m).2⟩

theorem hidden_foldl {α : Type} {f : Graph V S → α → Graph V S} (hf : ∀ g x, Hidden g (f g x))
    (l : List α) (g : Graph V S) : Hidden g (l.foldl f g) := by
  induction l generalizing g with
  | nil => exact .refl g
  | cons x l ih => exact (hf g x).trans (ih _)

theorem sendUpN_hidden (k : Nat) (g : Graph V S) (n : Nat) (v : V) :
    Hidden g (g.sendUpN k n v) := by
  induction k generalizing g n v with
  | zero => exact .refl g
  | succ k ih =>
    simp only [Graph.sendUpN]
    split
    · exact (pushDown_touch g n v).hidden
    · refine Hidden.trans ?_ (hidden_foldl (fun g (x : Nat × V) => ih g x.1 x.2) _ _)
      split
      · exact (refresh_recomputes g n).hidden
      · exact .refl g
    · refine Hidden.trans ?_ (hidden_foldl (fun g (x : Nat × V) => ih g x.1 x.2) _ _)
      exact (touch_mod (same_mod rfl rfl rfl rfl rfl rfl rfl) rfl rfl rfl rfl rfl).hidden
    · exact .refl g

/-- The machine computes `sendUpN`. -/
theorem up_run (k : Nat) : ∀ (m : M V S) (n : Nat) (v : V) (st : List (Frame V)), n < k →
    WF m.g → m.ub = false → Lazy m.g n → m.stack = .up n v :: st →
    LibRun m { m with g := m.g.sendUpN k n v, stack := st } := by
  induction k with
  | zero => intro m n v st h; omega
  | succ k ih =>
    intro m n v st hn w hub hl hst
    have walk : ∀ (l : List (Nat × V)) (m : M V S), WF m.g → m.ub = false →
        (∀ x ∈ l, x.1 < k ∧ Lazy m.g x.1) → m.stack = .ups l :: st →
        LibRun m { m with g := l.foldl (fun g x => g.sendUpN k x.1 x.2) m.g, stack := st } := by
      intro l
      induction l with
      | nil =>
        intro m w hub _ hst
        refine .step (m1 := { m with stack := st }) ?_ (.refl _)
        unfold istep
        rw [hub, hst]; rfl
      | cons x l ihl =>
        intro m w hub hx hst
        obtain ⟨p, u⟩ := x
        have h1 := hx (p, u) (List.mem_cons_self ..)
        refine .step (m1 := { m with stack := .up p u :: .ups l :: st }) ?_ ?_
        · unfold istep
          rw [hub, hst]; rfl
        · refine LibRun.trans (ih { m with stack := .up p u :: .ups l :: st } p u (.ups l :: st)
            h1.1 w hub h1.2 rfl) ?_
          have hs := (sendUpN_hidden k m.g p u).same
          refine ihl { m with g := m.g.sendUpN k p u, stack := .ups l :: st } (hs.wf w) hub ?_ rfl
          intro y hy
          have := hx y (List.mem_cons_of_mem _ hy)
          exact ⟨this.1, this.2.same hs.kind hs.parents⟩
    cases hl with
    | state hk =>
      refine .step (m1 := { m with g := m.g.pushDown n v, stack := st }) ?_ ?_
      · unfold istep
        rw [hub, hst]; simp [hk]
      · simp only [Graph.sendUpN, hk]
        exact .refl _
    | @comp _ view put r hk hp =>
      cases put with
      | none =>
        refine .step (m1 := { m with stack := st }) ?_ ?_
        · unfold istep
          rw [hub, hst]; simp [hk]
        · simp only [Graph.sendUpN, hk]
          exact .refl _
      | some put =>
        have hs : Same m.g (if r = true then m.g.refresh n else m.g) := by
          split
          · exact (refresh_recomputes m.g n).same
          · exact .refl _
        generalize hg : (if r = true then m.g.refresh n else m.g) = g1 at hs
        refine .step (m1 := { m with g := g1, stack := .ups (g1.order ((g1.node n).parents.zip
            (put (g1.currents (g1.node n).parents) v))) :: st }) ?_ ?_
        · unfold istep
          rw [hub, hst]; simp [hk, hg]
        · refine cast ?_ (walk _ { m with g := g1, stack := .ups (g1.order ((g1.node n).parents.zip
            (put (g1.currents (g1.node n).parents) v))) :: st } (hs.wf w) hub ?_ rfl)
          · simp only [Graph.sendUpN, hk, hg]
          · intro x hx
            have hx' := (List.of_mem_zip (mem_order.1 hx)).1
            rw [hs.parents] at hx'
            exact ⟨by have := w.lt n x.1 hx'; omega, (hp x.1 hx').same hs.kind hs.parents⟩
    | @xform _ down up hk hp =>
      cases up with
      | none =>
        refine .step (m1 := { m with stack := st }) ?_ ?_
        · unfold istep
          rw [hub, hst]; simp [hk]
        · simp only [Graph.sendUpN, hk]
          exact .refl _
      | some up =>
        have hs : Same m.g (m.g.mod n fun x => { x with upSt := (up (m.g.node n).upSt v).1 }) :=
          same_mod rfl rfl rfl rfl rfl rfl rfl
        generalize hg : (m.g.mod n fun x => { x with upSt := (up (m.g.node n).upSt v).1 }) = g1 at hs
        refine .step (m1 := { m with g := g1, stack := .ups ((up (m.g.node n).upSt v).2.flatMap
            fun vs => g1.order ((g1.node n).parents.zip vs)) :: st }) ?_ ?_
        · unfold istep
          rw [hub, hst]; simp [hk, hg]
        · refine cast ?_ (walk _ { m with g := g1, stack := .ups ((up (m.g.node n).upSt v).2.flatMap
            fun vs => g1.order ((g1.node n).parents.zip vs)) :: st } (hs.wf w) hub ?_ rfl)
          · simp only [Graph.sendUpN, hk, hg]
          · intro x hx
            obtain ⟨vs, _, hx⟩ := List.mem_flatMap.1 hx
            have hx' := (List.of_mem_zip (mem_order.1 hx)).1
            rw [hs.parents] at hx'
            exact ⟨by have := w.lt n x.1 hx'; omega, (hp x.1 hx').same hs.kind hs.parents⟩

/-! ### Notification with callbacks that only return -/

theorem pstep_lib [Inhabited S] {d : Nat} {m m' : M V S} {f : Frame V} {st : List (Frame V)}
    (hst : m.stack = f :: st) (hf : f ≠ .user) (hd : d ≤ st.length) (he : istep m = some m') :
    pstep d m = some m' := by
  unfold pstep
  rw [if_neg (by rw [hst, List.length_cons]; omega)]
  split
  · rename_i h; rw [hst] at h; cases h; exact absurd rfl hf
  · exact he

theorem pstep_ret [Inhabited S] {d : Nat} {m : M V S} {f : Frame V} {st : List (Frame V)}
    (hst : m.stack = .user :: f :: st) (hd : d ≤ (f :: st).length) (hub : m.ub = false) :
    pstep d m = some { m with stack := f :: st } := by
  unfold pstep
  rw [if_neg (by rw [hst, List.length_cons]; omega), hst]
  simp only
  unfold ustep
  rw [hub, hst]
  rfl

/-- What passive notifications leave alone. -/
structure Still (g g' : Graph V S) : Prop where
  quiet : Quiet g g'
  ltr : g'.ltr = g.ltr
  obs : ∀ n, (g'.node n).obs = (g.node n).obs

theorem Still.refl (g : Graph V S) : Still g g := ⟨.refl g, rfl, fun _ => rfl⟩

theorem Still.trans {a b c : Graph V S} (h : Still a b) (k : Still b c) : Still a c :=
  ⟨h.quiet.trans k.quiet, k.ltr.trans h.ltr, fun n => (k.obs n).trans (h.obs n)⟩

theorem obs_prun [Inhabited S] {d : Nat} (rest : List Nat) : ∀ (m : M V S) (n : Nat)
    (cur : Option Nat) (prev : Bool) (st : List (Frame V)), Inv m → m.ub = false →
    m.stack = .obs n cur prev :: st → d ≤ st.length → remaining cur (m.g.node n).obs = some rest →
    ∃ m', PRun d m m' ∧ m'.g = m.g ∧ m'.ub = false ∧
      m'.stack = .kids n 0 (m.g.node n).children.length prev false :: st := by
  induction rest with
  | nil =>
    intro m n cur prev st _ hub hst hd hr
    refine ⟨{ m with stack := .kids n 0 (m.g.node n).children.length prev false :: st },
      .step (pstep_lib hst (by simp) hd ?_) (.refl _), rfl, hub, rfl⟩
    unfold istep
    rw [hub, hst]; simp [hr]
  | cons w rest ih =>
    intro m n cur prev st h hub hst hd hr
    have he : istep m = some { m with
        stack := .user :: .obs n (some w) prev :: st
        seen := fun w' => if w' = w then some (m.g.node n).last else m.seen w'
        log := m.log ++ [.call w n (m.g.node n).last] } := by
      unfold istep
      rw [hub, hst]; simp [hr]
    have h1 := istep_inv h he hub
    have he2 : pstep d { m with
        stack := .user :: .obs n (some w) prev :: st
        seen := fun w' => if w' = w then some (m.g.node n).last else m.seen w'
        log := m.log ++ [.call w n (m.g.node n).last] } = some { m with
        stack := .obs n (some w) prev :: st
        seen := fun w' => if w' = w then some (m.g.node n).last else m.seen w'
        log := m.log ++ [.call w n (m.g.node n).last] } :=
      pstep_ret rfl (by rw [List.length_cons]; omega) hub
    have h2 := step_inv h1 (pstep_step he2) hub
    obtain ⟨m', hp, hg, hu, hs⟩ := ih _ n (some w) prev st h2 hub rfl hd
      (remaining_step (h.obs.nodup n) hr)
    exact ⟨m', .step (pstep_lib hst (by simp) hd he) (.step he2 hp), hg, hu, hs⟩

theorem notify_prun' [Inhabited S] {d : Nat} (k : Nat) : ∀ (m : M V S) (n : Nat)
    (st : List (Frame V)), m.g.size - n ≤ k → n < m.g.size → Inv m → m.ub = false →
    m.stack = .notify n :: st → d ≤ st.length →
    ∃ m', PRun d m m' ∧ m'.stack = st ∧ m'.ub = false ∧ Still m.g m'.g ∧
      (∀ x, x < n → (m'.g.node x).children = (m.g.node x).children) ∧
      (((m.g.node n).needsNotify && !(m.g.node n).dirty) = true → (m.g.node n).notifying = false →
        (m'.g.node n).children =
          (m.g.node n).children.filter fun c => (m.g.node c).alive) := by
  induction k with
  | zero => intro m n st h1 h2; omega
  | succ k ih =>
    intro m n st hk hn h hub hst hd
    -- the children loop
    have kids : ∀ (j : Nat) (m : M V S) (i size : Nat) (prev garbage : Bool), size - i ≤ j →
        m.g.size - n ≤ k + 1 → Inv m → m.ub = false →
        m.stack = .kids n i size prev garbage :: st → size = (m.g.node n).children.length →
        (∀ i' c, i' < i → (m.g.node n).children[i']? = some c → (m.g.node c).alive = true ∨
          garbage = true) →
        ∃ m', PRun d m m' ∧ m'.stack = st ∧ m'.ub = false ∧ Still m.g m'.g ∧
          (∀ x, x < n → (m'.g.node x).children = (m.g.node x).children) ∧
          (prev = false → (m'.g.node n).children =
            (m.g.node n).children.filter fun c => (m.g.node c).alive) := by
      intro j
      induction j with
      | zero =>
        intro m i size prev garbage hj hk h hub hst hsz hvis
        have he : istep m = some { m with
            g := (if garbage && !prev then m.g.collect n else m.g).mod n
              fun x => { x with notifying := prev }
            stack := st } := by
          unfold istep
          rw [hub, hst]
          simp only [Bool.false_eq_true, if_false]
          rw [if_neg (by omega)]
        refine ⟨_, .step (pstep_lib hst (by simp) hd he) (.refl _), ?_, ?_, ?_, ?_, ?_⟩
        · rfl
        · exact hub
        rotate_left
        · intro x hx
          have hxn : x ≠ n := by omega
          simp only
          rw [Graph.mod_ne _ _ hxn]
          split
          · rw [Graph.collect, Graph.mod_ne _ _ hxn]
          · rfl
        · intro hprev
          subst hprev
          simp only [Graph.mod_self, Bool.not_false, Bool.and_true]
          by_cases hg : garbage = true
          · rw [if_pos hg, Graph.collect, Graph.mod_self]
          · rw [if_neg hg]
            symm
            rw [List.filter_eq_self]
            intro c hc
            obtain ⟨i', hi', hci⟩ := List.mem_iff_getElem.1 hc
            rcases hvis i' c (by omega) (by rw [List.getElem?_eq_getElem hi', hci]) with h1 | h1
            · exact h1
            · exact absurd h1 hg
        · by_cases hgc : (garbage && !prev) = true
          · simp only [hgc, if_true]
            refine ⟨Quiet.trans (b := m.g.collect n) (quiet_mod rfl rfl rfl rfl rfl rfl rfl rfl rfl)
              (quiet_mod rfl rfl rfl rfl rfl rfl rfl rfl rfl), rfl, fun x => ?_⟩
            simp only [Graph.collect, Graph.mod_node]
            by_cases hx : x = n <;> simp [hx]
          · simp only [hgc]
            refine ⟨quiet_mod rfl rfl rfl rfl rfl rfl rfl rfl rfl, rfl, fun x => ?_⟩
            simp only [Graph.mod_node]
            by_cases hx : x = n <;> simp [hx]
      | succ j ihj =>
        intro m i size prev garbage hj hk h hub hst hsz hvis
        by_cases hlt : i < size
        · have hkk := h.stack.kids n i size prev garbage (by rw [hst]; exact List.mem_cons_self ..)
          have hil : i < (m.g.node n).children.length := by omega
          have hc : (m.g.node n).children[i]? = some (m.g.node n).children[i] :=
            List.getElem?_eq_getElem hil
          generalize (m.g.node n).children[i] = c at hc
          have hcm : c ∈ (m.g.node n).children := List.mem_of_getElem? hc
          have hcl := h.wf.child_lt hcm
          by_cases ha : (m.g.node c).alive = true
          · have he : istep m = some { m with
                stack := .notify c :: .kids n (i + 1) size prev garbage :: st } := by
              unfold istep
              rw [hub, hst]; simp [hlt, hc, ha]
            have h1 := istep_inv h he hub
            obtain ⟨m2, hp2, hs2, hu2, hq2, hc2, _⟩ := ih
              { m with stack := .notify c :: .kids n (i + 1) size prev garbage :: st }
              c (.kids n (i + 1) size prev garbage :: st)
              (by simp only; omega) hcl.2 h1 hub rfl (by rw [List.length_cons]; omega)
            have h2 := hp2.runs.inv h1 hu2
            have hcn : (m2.g.node n).children = (m.g.node n).children := hc2 n hcl.1
            have hal : ∀ x, (m2.g.node x).alive = (m.g.node x).alive := hq2.quiet.alive
            obtain ⟨m3, hp3, hs3, hu3, hq3, hc3, hf3⟩ := ihj m2 (i + 1) size prev garbage (by omega)
              (by rw [hq2.quiet.size]; exact hk) h2 hu2 hs2 (by rw [hcn]; exact hsz) (by
                intro i' c' hi' hc'
                rw [hcn] at hc'
                rw [hal]
                by_cases he' : i' = i
                · subst he'
                  rw [hc] at hc'
                  cases hc'
                  exact .inl ha
                · exact hvis i' c' (by omega) hc')
            refine ⟨m3, .step (pstep_lib hst (by simp) hd he) (hp2.trans hp3), hs3, hu3,
              Still.trans (b := m2.g) hq2 hq3, fun x hx => ?_, fun hp => ?_⟩
            · rw [hc3 x hx]; exact hc2 x (by omega)
            · rw [hf3 hp, hcn]
              simp only [hal]
          · have he : istep m = some { m with
                stack := .kids n (i + 1) size prev true :: st } := by
              unfold istep
              rw [hub, hst]; simp [hlt, hc, ha]
            have h1 := istep_inv h he hub
            obtain ⟨m3, hp3, hs3, hu3, hq3⟩ := ihj
              { m with stack := .kids n (i + 1) size prev true :: st } (i + 1) size prev true (by omega)
              hk h1 hub rfl hsz (fun _ _ _ _ => .inr rfl)
            exact ⟨m3, .step (pstep_lib hst (by simp) hd he) hp3, hs3, hu3, hq3⟩
        · obtain ⟨m', hm'⟩ := ihj m i size prev garbage (by omega) hk h hub hst hsz hvis
          exact ⟨m', hm'⟩
    by_cases hc : ((m.g.node n).needsNotify && !(m.g.node n).dirty) = true
    · have he : istep m = some { m with
          g := m.g.mod n fun x => { x with needsNotify := false, notifying := true }
          stack := .obs n none (m.g.node n).notifying :: st } := by
        unfold istep
        rw [hub, hst]; simp only [Bool.false_eq_true, if_false]; rw [if_pos hc]
      have h1 := istep_inv h he hub
      have hq1 : Still m.g (m.g.mod n fun x => { x with needsNotify := false, notifying := true }) := by
        refine ⟨quiet_mod rfl rfl rfl rfl rfl rfl rfl rfl rfl, rfl, fun x => ?_⟩
        simp only [Graph.mod_node]; split <;> rfl
      obtain ⟨m2, hp2, hg2, hu2, hs2⟩ := obs_prun _ _ n none _ st h1 hub rfl hd rfl
      have h2 := hp2.runs.inv h1 hu2
      obtain ⟨m3, hp3, hs3, hu3, hq3, hc3, hf3⟩ := kids _ m2 0 _ _ _ (Nat.le_refl _)
        (by rw [hg2]; exact hk) h2 hu2 hs2 (by rw [hg2])
        (fun _ _ h => absurd h (Nat.not_lt_zero _))
      rw [hg2] at hq3 hc3 hf3
      refine ⟨m3, .step (pstep_lib hst (by simp) hd he) (hp2.trans hp3), hs3, hu3, hq1.trans hq3,
        fun x hx => ?_, fun _ hnf => ?_⟩
      · rw [hc3 x hx, Graph.mod_ne _ _ (by omega)]
      · rw [hf3 hnf, Graph.mod_self]
        simp only [hq1.quiet.alive]
    · refine ⟨{ m with stack := st }, .step (pstep_lib hst (by simp) hd ?_) (.refl _), rfl, hub,
        .refl _, fun _ _ => rfl, fun h => absurd h hc⟩
      unfold istep
      rw [hub, hst]; simp only [Bool.false_eq_true, if_false]; rw [if_neg hc]

theorem notify_prun [Inhabited S] {d : Nat} (k : Nat) (m : M V S) (n : Nat)
    (st : List (Frame V)) (h1 : m.g.size - n ≤ k) (h2 : n < m.g.size) (h3 : Inv m)
    (h4 : m.ub = false) (h5 : m.stack = .notify n :: st) (h6 : d ≤ st.length) :
    ∃ m', PRun d m m' ∧ m'.stack = st ∧ m'.ub = false ∧ Still m.g m'.g := by
  obtain ⟨m', a, b, c, e, _⟩ := notify_prun' k m n st h1 h2 h3 h4 h5 h6
  exact ⟨m', a, b, c, e⟩

/-- Notifying the roots after a commit. -/
theorem roots_prun [Inhabited S] {d : Nat} (rs : List Nat) : ∀ (m : M V S) (st : List (Frame V)),
    Inv m → m.ub = false → m.stack = .roots rs :: st → d ≤ st.length →
    ∃ m', PRun d m m' ∧ m'.stack = st ∧ m'.ub = false ∧ Still m.g m'.g := by
  induction rs with
  | nil =>
    intro m st _ hub hst hd
    refine ⟨{ m with stack := st }, .step (pstep_lib hst (by simp) hd ?_) (.refl _), rfl, hub,
      .refl _⟩
    unfold istep
    rw [hub, hst]; rfl
  | cons r rs ih =>
    intro m st h hub hst hd
    have he : istep m = some { m with stack := .notify r :: .roots rs :: st } := by
      unfold istep
      rw [hub, hst]; rfl
    have h1 := istep_inv h he hub
    have hr : r < m.g.size := h1.wf.alive_lt (h1.stack.holds (.notify r) (List.mem_cons_self ..) r
      (by simp [Frame.holds]))
    obtain ⟨m2, hp2, hs2, hu2, hq2⟩ := notify_prun (d := d) m.g.size
      { m with stack := .notify r :: .roots rs :: st } r (.roots rs :: st)
      (by simp only; omega) hr h1 hub rfl (by rw [List.length_cons]; omega)
    obtain ⟨m3, hp3, hs3, hu3, hq3⟩ := ih m2 st (hp2.runs.inv h1 hu2) hu2 hs2 hd
    exact ⟨m3, .step (pstep_lib hst (by simp) hd he) (hp2.trans hp3), hs3, hu3,
      Still.trans (b := m2.g) hq2 hq3⟩

end Verif.Graph
