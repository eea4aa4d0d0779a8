import Verif.Watch.Model

/-!
Invariants of readers and of the stack of loops.
-/

namespace Verif.Watch

/-! ## The part about readers -/

/-- The lists of observers, and the readers. -/
structure Inv (st : St) : Prop where
  link : ∀ r n, st.linked r = some n ↔ r ∈ st.obs n
  nodup : ∀ n, (st.obs n).Nodup
  live : ∀ r n, st.linked r = some n → st.alive r = true ∧ st.slots r ≠ []
  node : ∀ r n m, st.linked r = some n → st.node r = some m → m = n
  watched : ∀ r n, st.node r = some n → st.slots r ≠ [] → st.linked r = some n
  old : ∀ r, st.alive r = true → r < st.nr
  dead : ∀ r, st.alive r = false → st.slots r = [] ∧ st.node r = none
  fresh : ∀ r c, c ∈ st.slots r → c < st.nc
  once : ∀ r, (st.slots r).Nodup
  owner : ∀ r r' c, c ∈ st.slots r → c ∈ st.slots r' → r = r'

theorem start_inv : Inv start := by
  constructor <;> simp [start]

theorem unlink_stack (st : St) (r : Nat) :
    (st.unlink r).stack = st.stack ∧ (st.unlink r).ctrl = st.ctrl ∧ (st.unlink r).nf = st.nf
      ∧ (st.unlink r).log = st.log ∧ (st.unlink r).ub = st.ub ∧ (st.unlink r).val = st.val
      ∧ (st.unlink r).slots = st.slots ∧ (st.unlink r).node = st.node ∧ (st.unlink r).alive = st.alive
      ∧ (st.unlink r).nc = st.nc ∧ (st.unlink r).nr = st.nr := by
  unfold St.unlink; split <;> simp

theorem link_stack (st : St) (n r : Nat) :
    (st.link n r).stack = st.stack ∧ (st.link n r).ctrl = st.ctrl ∧ (st.link n r).nf = st.nf
      ∧ (st.link n r).log = st.log ∧ (st.link n r).val = st.val
      ∧ (st.link n r).slots = st.slots ∧ (st.link n r).node = st.node ∧ (st.link n r).alive = st.alive
      ∧ (st.link n r).nc = st.nc ∧ (st.link n r).nr = st.nr := by
  unfold St.link; split <;> simp

theorem relink_stack (st : St) (r : Nat) :
    (st.relink r).stack = st.stack ∧ (st.relink r).ctrl = st.ctrl ∧ (st.relink r).nf = st.nf
      ∧ (st.relink r).log = st.log ∧ (st.relink r).val = st.val
      ∧ (st.relink r).slots = st.slots ∧ (st.relink r).node = st.node ∧ (st.relink r).alive = st.alive
      ∧ (st.relink r).nc = st.nc ∧ (st.relink r).nr = st.nr := by
  unfold St.relink; split
  · split
    · exact link_stack _ _ _
    · simp
  · simp

theorem unlink_linked {st : St} (i : ∀ r n, st.linked r = some n ↔ r ∈ st.obs n) (nd : ∀ n, (st.obs n).Nodup)
    (r : Nat) :
    (st.unlink r).linked = upd st.linked r none
      ∧ (∀ n, (st.unlink r).obs n = (st.obs n).erase r)
      ∧ (∀ q n, (st.unlink r).linked q = some n ↔ q ∈ (st.unlink r).obs n)
      ∧ (∀ n, ((st.unlink r).obs n).Nodup) := by
  have h1 : (st.unlink r).linked = upd st.linked r none := by
    unfold St.unlink
    split
    · rfl
    · rename_i h
      funext q
      by_cases hq : q = r
      · subst hq; simp [h]
      · simp [hq]
  have h2 : ∀ n, (st.unlink r).obs n = (st.obs n).erase r := by
    intro n
    unfold St.unlink
    split
    · rename_i m h
      by_cases hn : n = m
      · subst hn; simp
      · simp only [upd_ne _ _ hn]
        rw [List.erase_of_not_mem]
        intro hr
        have := (i r n).2 hr
        rw [h] at this; cases this; exact hn rfl
    · rename_i h
      rw [List.erase_of_not_mem]
      intro hr
      have := (i r n).2 hr
      rw [h] at this; cases this
  refine ⟨h1, h2, ?_, ?_⟩
  · intro q n
    rw [h1, h2]
    by_cases hq : q = r
    · subst hq
      simp only [upd_same]
      constructor
      · intro h; cases h
      · intro h; exact absurd h (nd n).not_mem_erase
    · rw [upd_ne _ _ hq, List.mem_erase_of_ne hq]; exact i q n
  · intro n; rw [h2]; exact (nd n).erase r

theorem link_linked {st : St} (i : ∀ r n, st.linked r = some n ↔ r ∈ st.obs n) (nd : ∀ n, (st.obs n).Nodup)
    {n r : Nat} (hr : st.linked r = none) :
    (st.link n r).linked = upd st.linked r (some n)
      ∧ (st.link n r).obs = upd st.obs n (st.obs n ++ [r])
      ∧ (st.link n r).ub = st.ub
      ∧ (∀ q m, (st.link n r).linked q = some m ↔ q ∈ (st.link n r).obs m)
      ∧ (∀ m, ((st.link n r).obs m).Nodup) := by
  have h1 : (st.link n r).linked = upd st.linked r (some n) := by unfold St.link; rw [hr]
  have h2 : (st.link n r).obs = upd st.obs n (st.obs n ++ [r]) := by unfold St.link; rw [hr]
  have hno : ∀ m, r ∉ st.obs m := by
    intro m h; have := (i r m).2 h; rw [hr] at this; cases this
  refine ⟨h1, h2, by unfold St.link; rw [hr], ?_, ?_⟩
  · intro q m
    rw [h1, h2]
    by_cases hq : q = r
    · subst hq
      by_cases hm : m = n
      · subst hm; simp
      · simp only [upd_same, upd_ne _ _ hm]
        constructor
        · intro h; cases h; exact absurd rfl hm
        · intro h; exact absurd h (hno m)
    · rw [upd_ne _ _ hq]
      by_cases hm : m = n
      · subst hm; simp [hq, i]
      · rw [upd_ne _ _ hm]; exact i q m
  · intro m
    rw [h2]
    by_cases hm : m = n
    · subst hm
      rw [upd_same, List.nodup_append]
      refine ⟨nd m, by simp, ?_⟩
      intro a ha b hb
      simp only [List.mem_singleton] at hb
      subst hb
      intro h; subst h; exact hno m ha
    · rw [upd_ne _ _ hm]; exact nd m

/-- The parts of the state that readers are made of. -/
def St.same (st st' : St) : Prop :=
  st'.obs = st.obs ∧ st'.linked = st.linked ∧ st'.slots = st.slots ∧ st'.node = st.node
    ∧ st'.alive = st.alive ∧ st'.nr = st.nr

theorem Inv.same {st st' : St} (i : Inv st) (h : st.same st') (hc : st.nc ≤ st'.nc) : Inv st' := by
  obtain ⟨h1, h2, h3, h4, h5, h6⟩ := h
  constructor
  · rw [h1, h2]; exact i.link
  · rw [h1]; exact i.nodup
  · rw [h2, h3, h5]; exact i.live
  · rw [h2, h4]; exact i.node
  · rw [h2, h3, h4]; exact i.watched
  · rw [h5, h6]; exact i.old
  · rw [h3, h4, h5]; exact i.dead
  · rw [h3]; intro r c h; have := i.fresh r c h; omega
  · rw [h3]; exact i.once
  · rw [h3]; exact i.owner

theorem Inv.unlinked {st : St} (i : Inv st) {r : Nat} (h : st.slots r = []) : st.linked r = none := by
  cases hl : st.linked r with
  | none => rfl
  | some n => exact absurd h (i.live r n hl).2

theorem new_inv {st : St} (i : Inv st) (n : Option Nat) : Inv (st.new n) := by
  have hd : st.alive st.nr = false := by
    cases h : st.alive st.nr
    · rfl
    · exact absurd (i.old _ h) (Nat.lt_irrefl _)
  have hs := (i.dead _ hd).1
  have hl := i.unlinked hs
  have hl' : upd st.linked st.nr none = st.linked := by
    funext q; by_cases hq : q = st.nr
    · subst hq; simp [hl]
    · simp [hq]
  have hs' : upd st.slots st.nr [] = st.slots := by
    funext q; by_cases hq : q = st.nr
    · subst hq; simp [hs]
    · simp [hq]
  have e1 : (st.new n).linked = st.linked := hl'
  have e2 : (st.new n).slots = st.slots := hs'
  have e3 : (st.new n).obs = st.obs := rfl
  constructor
  · rw [e1, e3]; exact i.link
  · rw [e3]; exact i.nodup
  · intro r m h
    rw [e1] at h
    rw [e2]
    refine ⟨?_, (i.live r m h).2⟩
    show upd st.alive st.nr true r = true
    by_cases hr : r = st.nr
    · subst hr; simp
    · rw [upd_ne _ _ hr]; exact (i.live r m h).1
  · intro r a b h hn
    rw [e1] at h
    by_cases hr : r = st.nr
    · subst hr; rw [hl] at h; cases h
    · have hn : upd st.node st.nr n r = some b := hn
      rw [upd_ne _ _ hr] at hn; exact i.node r a b h hn
  · intro r a hn h
    rw [e2] at h
    rw [e1]
    by_cases hr : r = st.nr
    · subst hr; exact absurd hs h
    · have hn : upd st.node st.nr n r = some a := hn
      rw [upd_ne _ _ hr] at hn; exact i.watched r a hn h
  · intro r h
    show r < st.nr + 1
    by_cases hr : r = st.nr
    · omega
    · have h : upd st.alive st.nr true r = true := h
      rw [upd_ne _ _ hr] at h
      have := i.old r h; omega
  · intro r h
    have h : upd st.alive st.nr true r = false := h
    by_cases hr : r = st.nr
    · subst hr; simp at h
    · rw [upd_ne _ _ hr] at h
      rw [e2]
      show _ ∧ upd st.node st.nr n r = none
      rw [upd_ne _ _ hr]; exact i.dead r h
  · rw [e2]; exact i.fresh
  · rw [e2]; exact i.once
  · rw [e2]; exact i.owner

/-- Forgetting the node of a reader, which stays linked. -/
theorem drop_inv {st : St} (i : Inv st) (r : Nat) : Inv { st with node := upd st.node r none } := by
  constructor
  · exact i.link
  · exact i.nodup
  · exact i.live
  · intro q a b h hn
    by_cases hq : q = r
    · subst hq; simp at hn
    · simp [hq] at hn; exact i.node q a b h hn
  · intro q a hn h
    by_cases hq : q = r
    · subst hq; simp at hn
    · simp [hq] at hn; exact i.watched q a hn h
  · exact i.old
  · intro q h
    refine ⟨(i.dead q h).1, ?_⟩
    by_cases hq : q = r
    · subst hq; simp
    · simp [hq]; exact (i.dead q h).2
  · exact i.fresh
  · exact i.once
  · exact i.owner

/-- Setting the node of a reader: unlink, change, link again. -/
theorem reset_inv {st : St} (i : Inv st) {r : Nat} (ha : st.alive r = true) (n : Option Nat) :
    Inv ({ st.unlink r with node := upd (st.unlink r).node r n }.relink r)
      ∧ ({ st.unlink r with node := upd (st.unlink r).node r n }.relink r).ub = st.ub
      ∧ ({ st.unlink r with node := upd (st.unlink r).node r n }.relink r).linked
          = upd st.linked r (if st.slots r = [] then none else n)
      ∧ ∀ m, ({ st.unlink r with node := upd (st.unlink r).node r n }.relink r).obs m
          = if st.slots r ≠ [] ∧ n = some m then (st.obs m).erase r ++ [r] else (st.obs m).erase r := by
  obtain ⟨u1, u2, u3, u4, u5, u6, u7, u8, u9, u10, u11⟩ := unlink_stack st r
  obtain ⟨l1, l2, l3, l4⟩ := unlink_linked i.link i.nodup r
  generalize hs : st.unlink r = s at *
  let t : St := { s with node := upd s.node r n }
  have ht : t = { s with node := upd s.node r n } := rfl
  rw [← ht]
  have tl : t.linked r = none := by show s.linked r = none; rw [l1]; simp
  have tslots : t.slots = st.slots := u7
  have tnode : t.node = upd st.node r n := by show upd s.node r n = _; rw [u8]
  have tl3 : ∀ q n, t.linked q = some n ↔ q ∈ t.obs n := l3
  have tl4 : ∀ n, (t.obs n).Nodup := l4
  have tlinked : t.linked = upd st.linked r none := l1
  obtain ⟨v1, v2, v3, v4, v5, v6, v7, v8, v9, v10⟩ := relink_stack t r
  have key : (∀ q m, (t.relink r).linked q = some m ↔ q ∈ (t.relink r).obs m)
      ∧ (∀ m, ((t.relink r).obs m).Nodup) ∧ (t.relink r).ub = st.ub
      ∧ ((t.relink r).linked = upd st.linked r (if st.slots r = [] then none else n))
      ∧ ∀ m, (t.relink r).obs m
          = if st.slots r ≠ [] ∧ n = some m then (st.obs m).erase r ++ [r] else (st.obs m).erase r := by
    have hn : t.node r = n := by rw [tnode]; simp
    cases n with
    | none =>
      have : t.relink r = t := by unfold St.relink; rw [hn]
      rw [this]
      refine ⟨tl3, tl4, u5, ?_, ?_⟩
      · rw [tlinked]; simp
      · intro m; simp; exact l2 m
    | some n =>
      by_cases hsl : st.slots r = []
      · have : t.relink r = t := by
          unfold St.relink; rw [hn]; simp [tslots, hsl]
        rw [this]
        refine ⟨tl3, tl4, u5, ?_, ?_⟩
        · rw [tlinked]; simp [hsl]
        · intro m; simp [hsl]; exact l2 m
      · have : t.relink r = t.link n r := by
          unfold St.relink; rw [hn]; simp [tslots, hsl]
        rw [this]
        obtain ⟨k1, k2, k3, k4, k5⟩ := link_linked tl3 tl4 (n := n) tl
        refine ⟨k4, k5, k3.trans u5, ?_, ?_⟩
        · rw [k1, tlinked]
          funext q
          by_cases hq : q = r
          · subst hq; simp [hsl]
          · simp [hq]
        · intro m
          rw [k2]
          by_cases hm : m = n
          · subst hm
            simp [hsl]
            exact l2 m
          · rw [upd_ne _ _ hm]
            have : ¬ (st.slots r ≠ [] ∧ some n = some m) := fun h => hm (by cases h.2; rfl)
            rw [if_neg this]
            exact l2 m
  obtain ⟨k1, k2, k3, k4, k5⟩ := key
  refine ⟨?_, k3, k4, k5⟩
  constructor
  · exact k1
  · exact k2
  · intro q m h
    rw [v6, v8, tslots]
    show s.alive q = true ∧ _
    rw [u9]
    rw [k4] at h
    by_cases hq : q = r
    · subst hq
      simp only [upd_same] at h
      split at h
      · cases h
      · exact ⟨ha, ‹_›⟩
    · rw [upd_ne _ _ hq] at h; exact i.live q m h
  · intro q a b h hb
    rw [k4] at h
    rw [v7, tnode] at hb
    by_cases hq : q = r
    · subst hq
      simp only [upd_same] at h hb
      split at h
      · cases h
      · rw [h] at hb; cases hb; rfl
    · rw [upd_ne _ _ hq] at h hb; exact i.node q a b h hb
  · intro q a hb h
    rw [v7, tnode] at hb
    rw [v6, tslots] at h
    rw [k4]
    by_cases hq : q = r
    · subst hq
      simp only [upd_same] at hb ⊢
      rw [if_neg h]; exact hb
    · rw [upd_ne _ _ hq] at hb ⊢; exact i.watched q a hb h
  · rw [v8, v10]
    show ∀ r, s.alive r = true → r < s.nr
    rw [u9, u11]; exact i.old
  · intro q h
    rw [v8] at h
    have h' : s.alive q = false := h
    rw [u9] at h'
    rw [v6, tslots, v7, tnode]
    have hq : q ≠ r := by intro e; rw [e, ha] at h'; cases h'
    rw [upd_ne _ _ hq]; exact i.dead q h'
  · rw [v6, tslots, v9]
    show ∀ r c, c ∈ st.slots r → c < s.nc
    rw [u10]; exact i.fresh
  · rw [v6, tslots]; exact i.once
  · rw [v6, tslots]; exact i.owner

/-- `unbind`: the callbacks go and the reader is unlinked. -/
theorem clear_inv {st : St} (i : Inv st) (r : Nat) :
    Inv ({ st with slots := upd st.slots r [] }.unlink r)
      ∧ ({ st with slots := upd st.slots r [] }.unlink r).slots = upd st.slots r []
      ∧ ({ st with slots := upd st.slots r [] }.unlink r).linked = upd st.linked r none
      ∧ ∀ m, ({ st with slots := upd st.slots r [] }.unlink r).obs m = (st.obs m).erase r := by
  let t : St := { st with slots := upd st.slots r [] }
  have ht : t = { st with slots := upd st.slots r [] } := rfl
  rw [← ht]
  obtain ⟨u1, u2, u3, u4, u5, u6, u7, u8, u9, u10, u11⟩ := unlink_stack t r
  obtain ⟨l1, l2, l3, l4⟩ := unlink_linked (st := t) i.link i.nodup r
  refine ⟨?_, u7, l1, l2⟩
  constructor
  · exact l3
  · exact l4
  · intro q m h
    rw [l1] at h
    by_cases hq : q = r
    · subst hq; simp at h
    · rw [upd_ne _ _ hq] at h
      rw [u9, u7]
      show _ ∧ upd st.slots r [] q ≠ []
      rw [upd_ne _ _ hq]; exact i.live q m h
  · intro q a b h hb
    rw [l1] at h
    rw [u8] at hb
    by_cases hq : q = r
    · subst hq; simp at h
    · rw [upd_ne _ _ hq] at h; exact i.node q a b h hb
  · intro q a hb h
    rw [u8] at hb
    rw [u7] at h
    have h : upd st.slots r [] q ≠ [] := h
    rw [l1]
    by_cases hq : q = r
    · subst hq; simp at h
    · rw [upd_ne _ _ hq] at h ⊢; exact i.watched q a hb h
  · rw [u9, u11]; exact i.old
  · intro q h
    rw [u9] at h
    rw [u7, u8]
    have := i.dead q h
    refine ⟨?_, this.2⟩
    show upd st.slots r [] q = []
    by_cases hq : q = r
    · subst hq; simp
    · rw [upd_ne _ _ hq]; exact this.1
  · rw [u7, u10]
    intro q c h
    have h : c ∈ upd st.slots r [] q := h
    by_cases hq : q = r
    · subst hq; simp at h
    · rw [upd_ne _ _ hq] at h; exact i.fresh q c h
  · rw [u7]
    intro q
    show (upd st.slots r [] q).Nodup
    by_cases hq : q = r
    · subst hq; simp
    · rw [upd_ne _ _ hq]; exact i.once q
  · rw [u7]
    intro q q' c h h'
    have h : c ∈ upd st.slots r [] q := h
    have h' : c ∈ upd st.slots r [] q' := h'
    by_cases hq : q = r
    · subst hq; simp at h
    · by_cases hq' : q' = r
      · subst hq'; simp at h'
      · rw [upd_ne _ _ hq] at h; rw [upd_ne _ _ hq'] at h'; exact i.owner q q' c h h'

theorem kill_inv {st : St} (i : Inv st) {r : Nat} (hs : st.slots r = []) :
    Inv { st with node := upd st.node r none, alive := upd st.alive r false } := by
  have hl := i.unlinked hs
  constructor
  · exact i.link
  · exact i.nodup
  · intro q m h
    refine ⟨?_, (i.live q m h).2⟩
    show upd st.alive r false q = true
    by_cases hq : q = r
    · subst hq; rw [hl] at h; cases h
    · rw [upd_ne _ _ hq]; exact (i.live q m h).1
  · intro q a b h hn
    by_cases hq : q = r
    · subst hq; simp at hn
    · simp [hq] at hn; exact i.node q a b h hn
  · intro q a hn h
    by_cases hq : q = r
    · subst hq; simp at hn
    · simp [hq] at hn; exact i.watched q a hn h
  · intro q h
    have h : upd st.alive r false q = true := h
    by_cases hq : q = r
    · subst hq; simp at h
    · rw [upd_ne _ _ hq] at h; exact i.old q h
  · intro q h
    have h : upd st.alive r false q = false := h
    show st.slots q = [] ∧ upd st.node r none q = none
    by_cases hq : q = r
    · subst hq; simp [hs]
    · rw [upd_ne _ _ hq] at h ⊢; exact i.dead q h
  · exact i.fresh
  · exact i.once
  · exact i.owner

theorem watch_eq {st : St} (i : Inv st) {r c : Nat} :
    (st.watch r c).slots = upd st.slots r (st.slots r ++ [c])
      ∧ (st.watch r c).ub = st.ub
      ∧ (st.watch r c).linked
          = (if st.slots r = [] then upd st.linked r (st.node r) else st.linked)
      ∧ (∀ m, (st.watch r c).obs m
          = if st.slots r = [] ∧ st.node r = some m then st.obs m ++ [r] else st.obs m)
      ∧ (st.watch r c).node = st.node ∧ (st.watch r c).alive = st.alive ∧ (st.watch r c).nr = st.nr
      ∧ (st.watch r c).nc = st.nc ∧ (st.watch r c).stack = st.stack ∧ (st.watch r c).ctrl = st.ctrl
      ∧ (st.watch r c).nf = st.nf ∧ (st.watch r c).log = st.log ∧ (st.watch r c).val = st.val := by
  unfold St.watch
  cases hn : st.node r with
  | none =>
    simp
    intro hs
    have hl := i.unlinked hs
    funext q
    by_cases hq : q = r
    · subst hq; simp [hl]
    · simp [hq]
  | some n =>
    by_cases hs : st.slots r = []
    · have hl := i.unlinked hs
      obtain ⟨k1, k2, k3, _, _⟩ := link_linked i.link i.nodup (n := n) hl
      obtain ⟨w1, w2, w3, w4, w5, w6, w7, w8, w9, w10⟩ := link_stack st n r
      simp [hs, k1, k2, k3, w1, w2, w3, w4, w5, w6, w7, w8, w9, w10]
      intro m
      by_cases hm : m = n
      · subst hm; simp
      · rw [upd_ne _ _ hm, if_neg (fun h => hm h.symm)]
    · simp [hs]

theorem watch_inv {st : St} (i : Inv st) {r c : Nat} (ha : st.alive r = true) (hc : c < st.nc)
    (hno : ∀ q, c ∉ st.slots q) : Inv (st.watch r c) := by
  obtain ⟨e1, e2, e3, e4, e5, e6, e7, e8, _⟩ := watch_eq i (r := r) (c := c)
  have hmem : ∀ q d, d ∈ upd st.slots r (st.slots r ++ [c]) q ↔ d ∈ st.slots q ∨ (q = r ∧ d = c) := by
    intro q d
    by_cases hq : q = r
    · subst hq; simp
    · simp [hq]
  have hl : st.slots r = [] → st.linked r = none := i.unlinked
  constructor
  · intro q m
    rw [e3, e4]
    by_cases hs : st.slots r = []
    · simp only [hs, true_and, if_true]
      by_cases hq : q = r
      · subst hq
        simp only [upd_same]
        constructor
        · intro h; rw [if_pos h]; simp
        · intro h
          split at h
          · assumption
          · have := (i.link q m).2 h; rw [hl hs] at this; cases this
      · rw [upd_ne _ _ hq]
        split
        · simp [hq]; exact i.link q m
        · exact i.link q m
    · simp only [hs, false_and, if_false]; exact i.link q m
  · intro m
    rw [e4]
    split
    · rename_i h
      rw [List.nodup_append]
      refine ⟨i.nodup m, by simp, ?_⟩
      intro a hm b hb
      simp only [List.mem_singleton] at hb
      intro e; rw [e, hb] at hm
      have := (i.link r m).2 hm; rw [hl h.1] at this; cases this
    · exact i.nodup m
  · intro q m h
    rw [e6, e1]
    rw [e3] at h
    by_cases hq : q = r
    · subst hq; simp [ha]
    · rw [upd_ne _ _ hq]
      split at h
      · rw [upd_ne _ _ hq] at h; exact i.live q m h
      · exact i.live q m h
  · intro q a b h hb
    rw [e3] at h
    rw [e5] at hb
    split at h
    · by_cases hq : q = r
      · subst hq; simp at h; rw [h] at hb; cases hb; rfl
      · rw [upd_ne _ _ hq] at h; exact i.node q a b h hb
    · exact i.node q a b h hb
  · intro q a hb h
    rw [e5] at hb
    rw [e1] at h
    rw [e3]
    by_cases hq : q = r
    · subst hq
      split
      · simp [hb]
      · exact i.watched q a hb ‹_›
    · rw [upd_ne _ _ hq] at h
      split
      · rw [upd_ne _ _ hq]; exact i.watched q a hb h
      · exact i.watched q a hb h
  · rw [e6, e7]; exact i.old
  · intro q h
    rw [e6] at h
    have hq : q ≠ r := by intro e; subst e; rw [ha] at h; cases h
    rw [e1, e5, upd_ne _ _ hq]; exact i.dead q h
  · intro q d h
    rw [e1, hmem] at h
    rw [e8]
    rcases h with h | ⟨_, rfl⟩
    · exact i.fresh q d h
    · exact hc
  · intro q
    rw [e1]
    by_cases hq : q = r
    · subst hq
      rw [upd_same, List.nodup_append]
      refine ⟨i.once q, by simp, ?_⟩
      intro a ha b hb
      simp only [List.mem_singleton] at hb
      subst hb
      intro e; subst e; exact hno q ha
    · rw [upd_ne _ _ hq]; exact i.once q
  · intro q q' d h h'
    rw [e1, hmem] at h h'
    rcases h with h | ⟨rfl, rfl⟩
    · rcases h' with h' | ⟨rfl, rfl⟩
      · exact i.owner q q' d h h'
      · exact absurd h (hno q)
    · rcases h' with h' | ⟨rfl, _⟩
      · exact absurd h' (hno q')
      · rfl

end Verif.Watch
