import Verif.Watch.Inv

/-!
The kinds of steps, and what holds of reachable states.
-/

namespace Verif.Watch

/-- Operations that start no loop and end none. -/
def Op.misc : Op → Bool
  | .bind _ | .nudge _ | .notify _ | .ret | .lib => false
  | _ => true

/-- Events that are not about loops. -/
def Ev.misc : Ev → Bool
  | .got _ _ | .sent _ _ _ | .threw _ => true
  | _ => false

/-- Of the proof: what one step does. -/
inductive Kind (st : St) : Op → St → Prop where
  | misc {op : Op} {st' : St} {d : List Ev} : op.misc = true → st.ctrl = .user →
      st.user op = some st' → st'.stack = st.stack →
      st'.ctrl = st.ctrl → st'.nf = st.nf → st'.log = st.log ++ d → (∀ e ∈ d, e.misc = true) →
      st.nc ≤ st'.nc → Kind st op st'
  | null {op : Op} (r : Nat) : st.ctrl = .user → (op = .bind r ∨ op = .nudge r) → st.node r = none →
      Kind st op { st with ub := true }
  | bind (r n : Nat) : st.ctrl = .user → st.alive r = true → st.node r = some n →
      Kind st (.bind r) { st.say (.bound r st.nc (st.val n)) with
          stack := .bind r st.nc :: st.stack
          nc := st.nc + 1 }
  | nudge0 (r n : Nat) : st.ctrl = .user → st.alive r = true → st.node r = some n → st.slots r = [] →
      Kind st (.nudge r) st
  | nudge (r n c : Nat) (l : List Nat) : st.ctrl = .user → st.alive r = true → st.node r = some n →
      st.slots r = c :: l →
      Kind st (.nudge r) { st.say (.called st.nf n r c (st.val n)) with
            stack := .slot st.nf n r c true :: st.stack
            nf := st.nf + 1 }
  | notify0 (n : Nat) : st.ctrl = .user → st.obs n = [] →
      Kind st (.notify n) { (st.say (.notify st.nf n)).say (.done st.nf) with nf := st.nf + 1 }
  | notify (n r : Nat) (l : List Nat) : st.ctrl = .user → st.obs n = r :: l →
      Kind st (.notify n) { (st.say (.notify st.nf n)).say (.turn st.nf r) with
        stack := .node st.nf n r :: st.stack
        nf := st.nf + 1
        ctrl := .enter r }
  | retSlot (f n r c : Nat) (b : Bool) (fs : List Frame) : st.ctrl = .user →
      st.stack = .slot f n r c b :: fs → Kind st .ret { st with ctrl := .back }
  | retBind (r c : Nat) (fs : List Frame) : st.ctrl = .user → st.stack = .bind r c :: fs →
      st.alive r = true → Kind st .ret ({ st with stack := fs }.watch r c)
  | retDead (r c : Nat) (fs : List Frame) : st.ctrl = .user → st.stack = .bind r c :: fs →
      st.alive r = false → Kind st .ret { st with stack := fs, ub := true }
  | enter0 (f n q r : Nat) (fs : List Frame) : st.ctrl = .enter r → st.stack = .node f n q :: fs →
      st.slots r = [] → Kind st .lib { st with ctrl := .back }
  | enter (f n q r c : Nat) (l : List Nat) (fs : List Frame) : st.ctrl = .enter r →
      st.stack = .node f n q :: fs → st.slots r = c :: l →
      Kind st .lib { st.say (.called f n r c (st.val n)) with
          stack := .slot f n r c false :: st.stack
          ctrl := .user }
  | slotNext (f n r c c' : Nat) (b : Bool) (fs : List Frame) : st.ctrl = .back →
      st.stack = .slot f n r c b :: fs → c ∈ st.slots r → Watch.next c (st.slots r) = some c' →
      Kind st .lib { st.say (.called f n r c' (st.val n)) with
            stack := .slot f n r c' b :: fs
            ctrl := .user }
  | nudgeEnd (f n r c : Nat) (fs : List Frame) : st.ctrl = .back →
      st.stack = .slot f n r c true :: fs → c ∈ st.slots r → Watch.next c (st.slots r) = none →
      Kind st .lib { st.say (.done f) with stack := fs, ctrl := .user }
  | slotEnd (f n r c : Nat) (fs : List Frame) : st.ctrl = .back →
      st.stack = .slot f n r c false :: fs → c ∈ st.slots r → Watch.next c (st.slots r) = none →
      Kind st .lib { st with stack := fs }
  | slotUb (f n r c : Nat) (b : Bool) (fs : List Frame) : st.ctrl = .back →
      st.stack = .slot f n r c b :: fs → c ∉ st.slots r → Kind st .lib { st with ub := true }
  | nodeNext (f n r m r' : Nat) (fs : List Frame) : st.ctrl = .back →
      st.stack = .node f n r :: fs → st.linked r = some m → Watch.next r (st.obs m) = some r' →
      Kind st .lib { st.say (.turn f r') with stack := .node f n r' :: fs, ctrl := .enter r' }
  | nodeEnd (f n r : Nat) (fs : List Frame) : st.ctrl = .back →
      st.stack = .node f n r :: fs → st.linked r = some n → Watch.next r (st.obs n) = none →
      Kind st .lib { st.say (.done f) with stack := fs, ctrl := .user }
  | nodeUb (f n r : Nat) (fs : List Frame) : st.ctrl = .back →
      st.stack = .node f n r :: fs → (st.linked r = none ∨ ∃ m, m ≠ n ∧ st.linked r = some m) →
      Kind st .lib { st with ub := true }

theorem misc_kind {st : St} {op : Op} {st' : St} (hm : op.misc = true) (hc : st.ctrl = .user)
    (h : st.user op = some st') : Kind st op st' := by
  have key : st'.stack = st.stack ∧ st'.ctrl = st.ctrl ∧ st'.nf = st.nf ∧ (∃ d, st'.log = st.log ++ d ∧
      ∀ e ∈ d, e.misc = true) ∧ st.nc ≤ st'.nc := by
    cases op <;> simp only [Op.misc, reduceCtorEq] at hm
    case mk n => simp [St.user] at h; subst h; simp [St.new]
    case copy r => simp [St.user] at h; obtain ⟨_, rfl⟩ := h; simp [St.new]
    case move r => simp [St.user] at h; obtain ⟨_, rfl⟩ := h; simp [St.new]
    case assign r r2 =>
      simp only [St.user] at h
      split at h
      · obtain ⟨u1, u2, u3, u4, u5, u6, u7, u8, u9, u10, u11⟩ := unlink_stack st r
        simp only [Option.some.injEq] at h
        subst h
        obtain ⟨v1, v2, v3, v4, v5, v6, v7, v8, v9, v10⟩ :=
          relink_stack { st.unlink r with node := upd (st.unlink r).node r ((st.unlink r).node r2) } r
        rw [v1, v2, v3, v4, v9]
        simp [u1, u2, u3, u4, u10]
      · cases h
    case moveAssign r r2 =>
      simp only [St.user] at h
      split at h
      · obtain ⟨u1, u2, u3, u4, u5, u6, u7, u8, u9, u10, u11⟩ := unlink_stack st r
        simp only [Option.some.injEq] at h
        subst h
        obtain ⟨v1, v2, v3, v4, v5, v6, v7, v8, v9, v10⟩ :=
          relink_stack { st.unlink r with node := (if r = r2 then (st.unlink r).node
            else upd (upd (st.unlink r).node r ((st.unlink r).node r2)) r2 none) } r
        rw [v1, v2, v3, v4, v9]
        simp [u1, u2, u3, u4, u10]
      · cases h
    case destroy r =>
      simp only [St.user] at h
      split at h
      · obtain ⟨u1, u2, u3, u4, u5, u6, u7, u8, u9, u10, u11⟩ :=
          unlink_stack { st with slots := upd st.slots r [], node := upd st.node r none } r
        simp only [Option.some.injEq] at h
        subst h
        simp [u1, u2, u3, u4, u10]
      · cases h
    case watch r =>
      simp only [St.user] at h
      split at h
      · simp only [Option.some.injEq] at h
        subst h
        unfold St.watch
        dsimp only
        split
        · split
          · rename_i n _ _
            obtain ⟨w1, w2, w3, w4, w5, w6, w7, w8, w9, w10⟩ := link_stack st n r
            simp [w1, w2, w3, w4]
          · simp
        · simp
      · cases h
    case unbind r =>
      simp only [St.user] at h
      split at h
      · obtain ⟨u1, u2, u3, u4, u5, u6, u7, u8, u9, u10, u11⟩ :=
          unlink_stack { st with slots := upd st.slots r [] } r
        simp only [Option.some.injEq] at h
        subst h
        simp [u1, u2, u3, u4, u10]
      · cases h
    case get r =>
      simp only [St.user] at h
      split at h
      · split at h <;>
        · simp only [Option.some.injEq] at h
          subst h
          simp [St.say, Ev.misc]
      · cases h
    case set r v =>
      simp only [St.user] at h
      split at h
      · split at h <;>
        · simp only [Option.some.injEq] at h
          subst h
          simp [St.say, Ev.misc]
      · cases h
    case change n v =>
      simp only [St.user, Option.some.injEq] at h
      subst h
      simp
  obtain ⟨k1, k2, k3, ⟨d, k4, k5⟩, k6⟩ := key
  exact .misc hm hc h k1 k2 k3 k4 k5 k6

theorem step_kind {st st' : St} {op : Op} (h : step st op = some st') : st.ub = false ∧ Kind st op st' := by
  unfold step at h
  split at h
  · cases h
  rename_i hub
  refine ⟨by simpa using hub, ?_⟩
  split at h
  · rename_i hc
    cases op
    case bind r =>
      simp only [St.user] at h
      split at h
      · rename_i ha
        split at h <;> rename_i hn
        · cases h; exact .null r hc (.inl rfl) hn
        · rename_i n
          cases h; exact .bind r n hc ha hn
      · cases h
    case nudge r =>
      simp only [St.user] at h
      split at h
      · rename_i ha
        split at h <;> rename_i hn
        · cases h; exact .null r hc (.inr rfl) hn
        · rename_i n
          split at h <;> rename_i hs
          · cases h; exact .nudge0 r n hc ha hn hs
          · cases h; exact .nudge r n _ _ hc ha hn hs
      · cases h
    case notify n =>
      simp only [St.user] at h
      split at h <;> rename_i hs
      · cases h; exact .notify0 n hc hs
      · cases h; exact .notify n _ _ hc hs
    case ret =>
      simp only [St.user] at h
      split at h <;> rename_i hs
      · cases h
      · cases h; exact .retSlot _ _ _ _ _ _ hc hs
      · split at h <;> rename_i ha
        · cases h; exact .retBind _ _ _ hc hs ha
        · cases h; exact .retDead _ _ _ hc hs (by simpa using ha)
      · cases h
    case lib => simp [St.user] at h
    all_goals exact misc_kind rfl hc h
  · rename_i hc
    split at h
    · rename_i ho
      subst ho
      unfold St.lib at h
      split at h
      · exact absurd ‹_› hc
      · rename_i r hc
        split at h
        · rename_i f n q fs hs
          split at h <;> rename_i hl
          · cases h; exact .enter0 _ _ _ _ _ hc hs hl
          · cases h; exact .enter _ _ _ _ _ _ _ hc hs hl
        · cases h
      · rename_i hc
        split at h
        · rename_i hs
          split at h <;> rename_i hm
          · split at h <;> rename_i hn
            · cases h; exact .slotNext _ _ _ _ _ _ _ hc hs hm hn
            · split at h
              · rename_i hb
                subst hb
                cases h; exact .nudgeEnd _ _ _ _ _ hc hs hm hn
              · rename_i hb
                have hb := Bool.eq_false_iff.2 hb
                subst hb
                cases h; exact .slotEnd _ _ _ _ _ hc hs hm hn
          · cases h; exact .slotUb _ _ _ _ _ _ hc hs hm
        · rename_i hs
          split at h <;> rename_i hl
          · cases h; exact .nodeUb _ _ _ _ hc hs (.inl hl)
          · split at h <;> rename_i hn
            · cases h; exact .nodeNext _ _ _ _ _ _ hc hs hl hn
            · split at h
              · rename_i hm
                subst hm
                cases h; exact .nodeEnd _ _ _ _ hc hs hl hn
              · rename_i hm
                cases h; exact .nodeUb _ _ _ _ hc hs (.inr ⟨_, hm, hl⟩)
        · cases h
    · cases h

/-! ## The stack -/

/-- A stack of loops with numbers below `k`, in which user code runs. -/
inductive Base : Nat → List Frame → Prop where
  | nil (k : Nat) : Base k []
  | bind {k : Nat} {fs : List Frame} (r c : Nat) : Base k fs → Base k (.bind r c :: fs)
  | nudge {k f : Nat} {fs : List Frame} (n r c : Nat) : f < k → Base f fs →
      Base k (.slot f n r c true :: fs)
  | node {k f : Nat} {fs : List Frame} (n r c : Nat) : f < k → Base f fs →
      Base k (.slot f n r c false :: .node f n r :: fs)

theorem Base.mono {k k' : Nat} {fs : List Frame} (h : Base k fs) (hk : k ≤ k') : Base k' fs := by
  induction h generalizing k' with
  | nil => exact .nil _
  | bind r c _ ih => exact .bind r c (ih hk)
  | nudge n r c hf hb _ => exact .nudge n r c (by omega) hb
  | node n r c hf hb _ => exact .node n r c (by omega) hb

/-- The stack fits whose turn it is. -/
def Shape (k : Nat) : Ctrl → List Frame → Prop
  | .user, fs => Base k fs
  | .enter r, fs => ∃ f n fs', fs = .node f n r :: fs' ∧ f < k ∧ Base f fs'
  | .back, fs => (Base k fs ∧ ∃ f n r c b fs', fs = .slot f n r c b :: fs')
      ∨ ∃ f n r fs', fs = .node f n r :: fs' ∧ f < k ∧ Base f fs'

/-- Callbacks that `bind` is calling. -/
def bindOf : Frame → Option Nat
  | .bind _ c => some c
  | _ => none

/-- Of the proof: the invariant. -/
structure Good (st : St) : Prop where
  inv : Inv st
  shape : Shape st.nf st.ctrl st.stack
  binds : ∀ c ∈ st.stack.filterMap bindOf, c < st.nc ∧ ∀ q, c ∉ st.slots q
  nodup : (st.stack.filterMap bindOf).Nodup

/-- What a step does to callbacks of readers: keep them, drop them, or attach a new one. -/
theorem misc_slots {st st' : St} {op : Op} (i : Inv st) (hm : op.misc = true)
    (h : st.user op = some st') :
    Inv st' ∧ st'.ub = st.ub ∧ ∀ q c, c ∈ st'.slots q → c ∈ st.slots q ∨ c = st.nc := by
  cases op <;> simp only [Op.misc, reduceCtorEq] at hm
  case mk n =>
    simp [St.user] at h; subst h
    refine ⟨new_inv i _, rfl, ?_⟩
    intro q c hc
    have hc : c ∈ upd st.slots st.nr [] q := hc
    by_cases hq : q = st.nr
    · subst hq; simp at hc
    · simp [hq] at hc; exact .inl hc
  case copy r =>
    simp [St.user] at h; obtain ⟨_, rfl⟩ := h
    refine ⟨new_inv i _, rfl, ?_⟩
    intro q c hc
    have hc : c ∈ upd st.slots st.nr [] q := hc
    by_cases hq : q = st.nr
    · subst hq; simp at hc
    · simp [hq] at hc; exact .inl hc
  case move r =>
    simp [St.user] at h; obtain ⟨_, rfl⟩ := h
    refine ⟨drop_inv (new_inv i _) r, rfl, ?_⟩
    intro q c hc
    have hc : c ∈ upd st.slots st.nr [] q := hc
    by_cases hq : q = st.nr
    · subst hq; simp at hc
    · simp [hq] at hc; exact .inl hc
  case assign r r2 =>
    simp only [St.user] at h
    split at h
    · rename_i ha
      cases h
      obtain ⟨k1, k2, _⟩ := reset_inv i ha.1 ((st.unlink r).node r2)
      refine ⟨k1, k2, ?_⟩
      intro q c hc
      rw [(relink_stack _ _).2.2.2.2.2.1] at hc
      have hc : c ∈ (st.unlink r).slots q := hc
      rw [(unlink_stack _ _).2.2.2.2.2.2.1] at hc
      exact .inl hc
    · cases h
  case moveAssign r r2 =>
    simp only [St.user] at h
    split at h
    · rename_i ha
      cases h
      by_cases hr : r = r2
      · subst hr
        obtain ⟨k1, k2, _⟩ := reset_inv i ha.1 ((st.unlink r).node r)
        have e : upd (st.unlink r).node r ((st.unlink r).node r) = (st.unlink r).node := by
          funext q; by_cases hq : q = r
          · subst hq; simp
          · simp [hq]
        rw [e] at k1 k2
        simp only [if_true]
        refine ⟨k1, k2, ?_⟩
        intro q c hc
        rw [(relink_stack _ _).2.2.2.2.2.1] at hc
        have hc : c ∈ (st.unlink r).slots q := hc
        rw [(unlink_stack _ _).2.2.2.2.2.2.1] at hc
        exact .inl hc
      · have hi := drop_inv i r2
        obtain ⟨k1, k2, _⟩ := reset_inv hi (r := r) ha.1 ((st.unlink r).node r2)
        have e : { ({ st with node := upd st.node r2 none } : St).unlink r with
              node := upd (({ st with node := upd st.node r2 none } : St).unlink r).node r
                ((st.unlink r).node r2) }
            = { st.unlink r with node := upd (upd (st.unlink r).node r ((st.unlink r).node r2)) r2 none } := by
          unfold St.unlink
          dsimp only
          split <;>
          · congr 1
            funext q
            by_cases h1 : q = r
            · subst h1
              rw [upd_same, upd_ne _ _ hr, upd_same]
            · by_cases h2 : q = r2
              · subst h2; simp [h1]
              · simp [h1, h2]
        rw [e] at k1 k2
        rw [if_neg hr]
        refine ⟨k1, k2, ?_⟩
        intro q c hc
        rw [(relink_stack _ _).2.2.2.2.2.1] at hc
        have hc : c ∈ (st.unlink r).slots q := hc
        rw [(unlink_stack _ _).2.2.2.2.2.2.1] at hc
        exact .inl hc
    · cases h
  case destroy r =>
    simp only [St.user] at h
    split at h
    · cases h
      have hi := drop_inv i r
      obtain ⟨k1, k2, _⟩ := clear_inv hi r
      have hs := k2
      have := kill_inv k1 (r := r) (by rw [k2]; simp)
      have e : ∀ s : St, s.node r = none → { s with node := upd s.node r none, alive := upd s.alive r false }
          = { s with alive := upd s.alive r false } := by
        intro s hn
        congr 1
        funext q; by_cases hq : q = r
        · subst hq; simp [hn]
        · simp [hq]
      rw [e _ (by rw [(unlink_stack _ _).2.2.2.2.2.2.2.1]; simp)] at this
      refine ⟨this, (unlink_stack _ _).2.2.2.2.1, ?_⟩
      intro q c hc
      rw [show (({ ({ st with slots := upd st.slots r [], node := upd st.node r none } : St).unlink r with
        alive := upd (({ st with slots := upd st.slots r [], node := upd st.node r none } : St).unlink r).alive r
          false } : St).slots) = upd st.slots r [] from hs] at hc
      by_cases hq : q = r
      · subst hq; simp at hc
      · simp [hq] at hc; exact .inl hc
    · cases h
  case watch r =>
    simp only [St.user] at h
    split at h
    · rename_i ha
      cases h
      have hi : Inv { st with nc := st.nc + 1 } := i.same ⟨rfl, rfl, rfl, rfl, rfl, rfl⟩ (Nat.le_succ _)
      have hno : ∀ q, st.nc ∉ st.slots q := fun q hq => Nat.lt_irrefl _ (i.fresh q _ hq)
      have := watch_inv hi (r := r) (c := st.nc) ha (Nat.lt_succ_self _) hno
      have e : ({ st with nc := st.nc + 1 } : St).watch r st.nc = { st.watch r st.nc with nc := st.nc + 1 } := by
        unfold St.watch St.link
        dsimp only
        split
        · split
          · split <;> rfl
          · rfl
        · rfl
      rw [e] at this
      obtain ⟨e1, e2, _⟩ := watch_eq i (r := r) (c := st.nc)
      refine ⟨this, e2, ?_⟩
      intro q c hc
      have hc : c ∈ (st.watch r st.nc).slots q := hc
      rw [e1] at hc
      by_cases hq : q = r
      · subst hq; simp at hc; exact hc
      · simp [hq] at hc; exact .inl hc
    · cases h
  case unbind r =>
    simp only [St.user] at h
    split at h
    · cases h
      obtain ⟨k1, k2, _⟩ := clear_inv i r
      refine ⟨k1, (unlink_stack _ _).2.2.2.2.1, ?_⟩
      intro q c hc
      rw [k2] at hc
      by_cases hq : q = r
      · subst hq; simp at hc
      · simp [hq] at hc; exact .inl hc
    · cases h
  case get r =>
    simp only [St.user] at h
    split at h
    · split at h <;>
      · cases h
        exact ⟨i.same ⟨rfl, rfl, rfl, rfl, rfl, rfl⟩ (Nat.le_refl _), rfl, fun _ _ h => .inl h⟩
    · cases h
  case set r v =>
    simp only [St.user] at h
    split at h
    · split at h <;>
      · cases h
        exact ⟨i.same ⟨rfl, rfl, rfl, rfl, rfl, rfl⟩ (Nat.le_refl _), rfl, fun _ _ h => .inl h⟩
    · cases h
  case change n v =>
    simp only [St.user, Option.some.injEq] at h
    subst h
    exact ⟨i.same ⟨rfl, rfl, rfl, rfl, rfl, rfl⟩ (Nat.le_refl _), rfl, fun _ _ h => .inl h⟩

end Verif.Watch
