import Verif.Future.Inline

/-! What is left when calls of futures and promises over manual loops return. -/

namespace Verif.Future

/-- Whoever holds a mutex, or runs a loop, is on the stack. -/
structure Held (k : K) : Prop where
  busy : ∀ l, k.busy l = true → KF.drain l ∈ k.stack
  lock : ∀ s, k.locked s = true → (∃ i, KF.called s i ∈ k.stack) ∨ KF.attached s ∈ k.stack

/-- Nothing waits in a manual loop that does not run. -/
def Dry (inl : Nat → Bool) (k : K) : Prop := ∀ l, inl l = true → k.m.queue l ≠ [] → k.busy l = true

theorem upd_true {f : Nat → Bool} {a b : Nat} {x : Bool} (h : upd f a x b = true) :
    (b = a ∧ x = true) ∨ (b ≠ a ∧ f b = true) := by
  unfold upd at h
  split at h
  · exact Or.inl ⟨by assumption, h⟩
  · exact Or.inr ⟨by assumption, h⟩

/-- More on the stack. -/
theorem Held.push {k : K} (h : Held k) {st : List KF} (hs : ∀ f, f ∈ k.stack → f ∈ st) (m : M)
    (sp : List Nat) (b : Option Bad) (t : Bool) :
    Held { k with stack := st, m := m, spent := sp, bad := b, throwing := t } :=
  ⟨fun l hl => hs _ (h.busy l hl), fun s hl => (h.lock s hl).imp (fun ⟨i, x⟩ => ⟨i, hs _ x⟩) (hs _)⟩

theorem held_post {inl : Nat → Bool} {k : K} (h : Held k) (l : Nat) (t : Task) : Held (k.post inl l t) := by
  unfold K.post
  dsimp only
  split
  · constructor
    · intro a ha
      rcases upd_true ha with ⟨rfl, _⟩ | ⟨_, ha⟩
      · exact List.mem_cons_self
      · exact List.mem_cons_of_mem _ (h.busy a ha)
    · intro a ha
      exact (h.lock a ha).imp (fun ⟨i, x⟩ => ⟨i, List.mem_cons_of_mem _ x⟩) (List.mem_cons_of_mem _)
  · exact ⟨h.busy, h.lock⟩

theorem held_fulfil {inl : Nat → Bool} {k : K} (h : Held k) (s : Nat) (i : Option Nat) :
    Held (k.fulfil inl s i) := by
  unfold K.fulfil
  split
  · exact ⟨h.busy, h.lock⟩
  · dsimp only
    split
    · refine held_post ⟨?_, ?_⟩ _ _
      · intro a ha
        exact List.mem_cons_of_mem _ (h.busy a ha)
      · intro a ha
        rcases upd_true ha with ⟨rfl, _⟩ | ⟨_, ha⟩
        · exact Or.inl ⟨i, List.mem_cons_self⟩
        · exact (h.lock a ha).imp (fun ⟨i, x⟩ => ⟨i, List.mem_cons_of_mem _ x⟩) (List.mem_cons_of_mem _)
    · exact ⟨h.busy, h.lock⟩

theorem held_attach {inl : Nat → Bool} {k : K} (h : Held k) (s : Nat) (fn : Fn) :
    Held (k.attach inl s fn) := by
  unfold K.attach
  dsimp only
  split
  · exact ⟨h.busy, h.lock⟩
  · split
    · exact ⟨h.busy, h.lock⟩
    · split
      · refine held_post ⟨?_, ?_⟩ _ _
        · intro a ha
          exact List.mem_cons_of_mem _ (h.busy a ha)
        · intro a ha
          rcases upd_true ha with ⟨rfl, _⟩ | ⟨_, ha⟩
          · exact Or.inr List.mem_cons_self
          · exact (h.lock a ha).imp (fun ⟨i, x⟩ => ⟨i, List.mem_cons_of_mem _ x⟩) (List.mem_cons_of_mem _)
      · exact ⟨h.busy, h.lock⟩

theorem held_thenF {inl : Nat → Bool} {k : K} (h : Held k) (s : Option Nat) (fn : Fn) (j : Option Nat) :
    Held (k.thenF inl s fn j) := by
  unfold K.thenF
  cases s with
  | some s =>
    have := held_attach (inl := inl) h s fn
    exact ⟨this.busy, this.lock⟩
  | none =>
    cases fn with
    | void => exact h.push (fun _ x => List.mem_cons_of_mem _ x) _ _ _ _
    | fut => exact h.push (fun _ x => List.mem_cons_of_mem _ x) _ _ _ _
    | prom q =>
      have := held_fulfil (inl := inl) h q j
      exact ⟨this.busy, this.lock⟩
    | give g => exact ⟨h.busy, h.lock⟩

/-- Code leaves the stack. -/
theorem Held.pop {k : K} (h : Held k) {f : Frame} {st : List KF} (hs : k.stack = .code f :: st) :
    Held { k with stack := st } := by
  constructor
  · intro l hl
    have := h.busy l hl
    rw [hs] at this
    simpa using this
  · intro s hl
    have := h.lock s hl
    rw [hs] at this
    simpa using this

theorem Held.more {k : K} (h : Held k) {f : KF} :
    Held { k with stack := f :: k.stack } := h.push (fun _ x => List.mem_cons_of_mem _ x) _ _ _ _

/-- The loop that runs leaves the stack. -/
theorem Held.drained {k : K} (h : Held k) {l : Nat} {st : List KF} (hs : k.stack = .drain l :: st) :
    Held { k with busy := upd k.busy l false, stack := st } := by
  constructor
  · intro a ha
    rcases upd_true ha with ⟨_, e⟩ | ⟨hne, ha⟩
    · cases e
    · have := h.busy a ha
      rw [hs] at this
      simpa [hne] using this
  · intro s hl
    have := h.lock s hl
    rw [hs] at this
    simpa using this

theorem Held.unlocked {k : K} (h : Held k) {s : Nat} {f : KF} {st : List KF} (hs : k.stack = f :: st)
    (hf : f = .attached s ∨ ∃ i, f = .called s i) (m : M) (sp : List Nat) :
    Held { k with locked := upd k.locked s false, stack := st, m := m, spent := sp } := by
  constructor
  · intro a ha
    have := h.busy a ha
    rw [hs] at this
    rcases hf with rfl | ⟨i, rfl⟩ <;> simpa using this
  · intro a ha
    rcases upd_true ha with ⟨_, e⟩ | ⟨hne, ha⟩
    · cases e
    · have := h.lock a ha
      rw [hs] at this
      rcases hf with rfl | ⟨i, rfl⟩ <;> simpa [hne] using this

theorem held_user {inl : Nat → Bool} {k k' : K} (h : Held k) {op : UOp} (he : k.user inl op = some k') :
    Held k' := by
  cases op with
  | newPair l => simp only [K.user, Option.some.injEq] at he; subst he; exact ⟨h.busy, h.lock⟩
  | invalid => simp only [K.user, Option.some.injEq] at he; subst he; exact ⟨h.busy, h.lock⟩
  | copyP i =>
    simp only [K.user] at he
    split at he
    · cases he; exact ⟨h.busy, h.lock⟩
    · rw [Option.map_eq_some_iff] at he
      obtain ⟨_, _, rfl⟩ := he
      exact ⟨h.busy, h.lock⟩
  | copyF i =>
    simp only [K.user] at he
    rw [Option.map_eq_some_iff] at he
    obtain ⟨_, _, rfl⟩ := he
    exact ⟨h.busy, h.lock⟩
  | fulfil i =>
    simp only [K.user] at he
    split at he
    · cases he; exact ⟨h.busy, h.lock⟩
    · split at he
      · cases he
      · cases he; exact ⟨h.busy, h.lock⟩
      · cases he; refine held_fulfil ?_ _ _; exact ⟨h.busy, h.lock⟩
  | «then» i isF =>
    simp only [K.user] at he
    split at he
    · cases he
    · cases he; refine held_thenF ?_ _ _ _; exact ⟨h.busy, h.lock⟩
  | thenP i j =>
    simp only [K.user] at he
    split at he
    · cases he; exact ⟨h.busy, h.lock⟩
    · split at he
      · cases he; refine held_thenF ?_ _ _ _; exact ⟨h.busy, h.lock⟩
      · cases he
  | also i j =>
    simp only [K.user] at he
    split at he
    · split at he
      · cases he
      · cases he; refine held_thenF ?_ _ _ _; exact ⟨h.busy, h.lock⟩
    · cases he
  | run l =>
    simp only [K.user] at he
    split at he
    · cases he
    · split at he
      · cases he
      · cases he; exact h.push (fun _ x => List.mem_cons_of_mem _ x) _ _ _ _
  | retV =>
    simp only [K.user] at he
    split at he
    · rename_i hst
      split at he
      · cases he; exact (h.pop hst).more
      · cases he
    · rename_i hst
      cases he
      exact ⟨(h.pop hst).busy, (h.pop hst).lock⟩
    · cases he
  | retF i =>
    simp only [K.user] at he
    split at he
    · rename_i hst _
      split at he
      · cases he
        exact ⟨(h.pop hst).more.busy, (h.pop hst).more.lock⟩
      · cases he
    · rename_i hst _
      cases he
      exact ⟨(h.pop hst).busy, (h.pop hst).lock⟩
    · cases he
  | raise =>
    simp only [K.user] at he
    split at he
    · rename_i hst
      cases he
      exact ⟨(h.pop hst).busy, (h.pop hst).lock⟩
    · cases he

theorem held_lib {inl : Nat → Bool} {k k' : K} (h : Held k) (he : k.lib inl = some k') : Held k' := by
  unfold K.lib at he
  split at he
  · rename_i hst
    cases he
    refine held_fulfil ?_ _ _
    exact ⟨(h.pop hst).busy, (h.pop hst).lock⟩
  · rename_i hst
    cases he
    refine held_fulfil ?_ _ _
    exact ⟨(h.pop hst).busy, (h.pop hst).lock⟩
  · rename_i hst
    cases he
    refine held_attach ?_ _ _
    exact ⟨(h.pop hst).busy, (h.pop hst).lock⟩
  · rename_i hst
    cases he
    exact held_fulfil ((h.pop hst).more) _ _
  · rename_i l st hst
    split at he
    · cases he
      exact h.drained hst
    · cases he
      exact h.push (fun _ x => by rw [hst] at x; exact List.mem_cons_of_mem _ x) _ _ _ _
  · rename_i hst
    cases he
    exact h.unlocked hst (Or.inr ⟨_, rfl⟩) _ _
  · rename_i hst
    cases he
    exact h.unlocked hst (Or.inl rfl) _ _
  · cases he

theorem held_unwind {k k' : K} (h : Held k) (he : k.unwind = some k') : Held k' := by
  unfold K.unwind at he
  split at he
  · cases he
  · rename_i hst; cases he; exact h.drained hst
  · rename_i hst; cases he; exact h.unlocked hst (Or.inr ⟨_, rfl⟩) _ _
  · rename_i hst; cases he; exact h.unlocked hst (Or.inl rfl) _ _
  · rename_i hst; cases he; exact h.pop hst

theorem held_step {inl : Nat → Bool} {k k' : K} (h : Held k) {op : KOp} (he : kstep inl k op = some k') :
    Held k' := by
  unfold kstep at he
  split at he
  · cases he
  · cases op with
    | user op =>
      dsimp only at he
      split at he
      · exact held_user h he
      · cases he
    | lib =>
      dsimp only at he
      split at he
      · exact held_lib h he
      · cases he
    | unwind =>
      dsimp only at he
      split at he
      · exact held_unwind h he
      · cases he
    | «catch» =>
      dsimp only at he
      split at he
      · cases he; exact ⟨h.busy, h.lock⟩
      · cases he

theorem KReach.held {inl : Nat → Bool} {k : K} (r : KReach inl k) : Held k := by
  induction r with
  | start => exact ⟨fun _ h => (nomatch h), fun _ h => (nomatch h)⟩
  | step op _ he ih => exact held_step ih he

theorem dry_post {inl : Nat → Bool} {k : K} (h : Dry inl k) (l : Nat) (t : Task) :
    Dry inl (k.post inl l t) := by
  unfold K.post
  dsimp only
  split
  · intro a ha hq
    dsimp only at hq ⊢
    by_cases e : a = l
    · subst e; simp [upd]
    · simp only [M.post, upd, if_neg e] at hq ⊢
      exact h a ha hq
  · rename_i hn
    intro a ha hq
    by_cases e : a = l
    · subst e
      simpa [ha] using hn
    · simp only [M.post, upd, if_neg e] at hq
      exact h a ha hq

theorem dry_fulfil {inl : Nat → Bool} {k : K} (h : Dry inl k) (s : Nat) (i : Option Nat) :
    Dry inl (k.fulfil inl s i) := by
  unfold K.fulfil
  split
  · exact h
  · dsimp only
    split
    · refine dry_post ?_ _ _; exact h
    · exact h

theorem dry_attach {inl : Nat → Bool} {k : K} (h : Dry inl k) (s : Nat) (fn : Fn) :
    Dry inl (k.attach inl s fn) := by
  unfold K.attach
  dsimp only
  split
  · exact h
  · split
    · exact h
    · split
      · refine dry_post ?_ _ _; exact h
      · exact h

theorem dry_thenF {inl : Nat → Bool} {k : K} (h : Dry inl k) (s : Option Nat) (fn : Fn) (j : Option Nat) :
    Dry inl (k.thenF inl s fn j) := by
  unfold K.thenF
  cases s with
  | some s => exact dry_attach (inl := inl) h s fn
  | none =>
    cases fn with
    | void => exact h
    | fut => exact h
    | prom q => exact dry_fulfil (inl := inl) h q j
    | give g => exact h

theorem dry_user {inl : Nat → Bool} {k k' : K} (h : Dry inl k) {op : UOp} (he : k.user inl op = some k') :
    Dry inl k' := by
  cases op with
  | newPair l => simp only [K.user, Option.some.injEq] at he; subst he; exact h
  | invalid => simp only [K.user, Option.some.injEq] at he; subst he; exact h
  | copyP i =>
    simp only [K.user] at he
    split at he
    · cases he; exact h
    · rw [Option.map_eq_some_iff] at he
      obtain ⟨_, _, rfl⟩ := he
      exact h
  | copyF i =>
    simp only [K.user] at he
    rw [Option.map_eq_some_iff] at he
    obtain ⟨_, _, rfl⟩ := he
    exact h
  | fulfil i =>
    simp only [K.user] at he
    split at he
    · cases he; exact h
    · split at he
      · cases he
      · cases he; exact h
      · cases he; exact dry_fulfil (k := { k with m := { k.m with proms := k.m.proms.set i none } }) h _ _
  | «then» i isF =>
    simp only [K.user] at he
    split at he
    · cases he
    · cases he; exact dry_thenF (k := { k with m := { k.m with futs := k.m.futs.set i none } }) h _ _ _
  | thenP i j =>
    simp only [K.user] at he
    split at he
    · cases he; exact h
    · split at he
      · cases he
        exact dry_thenF (k := { k with m := { k.m with
          futs := k.m.futs.set i none
          proms := k.m.proms.set j none } }) h _ _ _
      · cases he
  | also i j =>
    simp only [K.user] at he
    split at he
    · split at he
      · cases he
      · cases he
        exact dry_thenF (k := { k with m := { k.m with futs := (k.m.futs.set j none).set i none } }) h _ _ _
    · cases he
  | run l =>
    simp only [K.user] at he
    split at he
    · cases he
    · rename_i hi
      split at he
      · cases he
      · cases he
        intro a ha hq
        have hne : a ≠ l := fun e => hi (by rw [← e]; exact ha)
        simp only [upd, if_neg hne] at hq
        exact h a ha hq
  | retV =>
    simp only [K.user] at he
    split at he
    · split at he
      · cases he; exact h
      · cases he
    · cases he; exact h
    · cases he
  | retF i =>
    simp only [K.user] at he
    split at he
    · split at he
      · cases he; exact h
      · cases he
    · cases he; exact h
    · cases he
  | raise =>
    simp only [K.user] at he
    split at he
    · cases he; exact h
    · cases he

theorem dry_lib {inl : Nat → Bool} {k k' : K} (h : Dry inl k) (he : k.lib inl = some k') :
    Dry inl k' := by
  unfold K.lib at he
  split at he
  · rename_i t st _
    cases he
    exact dry_fulfil (k := { k with m := k.m.say (.finish t.c none), stack := st }) h _ _
  · rename_i t st _
    cases he
    exact dry_fulfil (k := { k with m := k.m.say (.finish t.c (some none)), stack := st }) h _ _
  · rename_i t g st _
    cases he
    exact dry_attach (k := { k with m := k.m.say (.finish t.c (some (some g))), stack := st }) h _ _
  · rename_i q t st _
    cases he
    exact dry_fulfil (k := { k with stack := .code (.ret t none) :: st }) h _ _
  · rename_i l st hst
    split at he
    · rename_i hq0
      cases he
      intro a ha hq
      by_cases e : a = l
      · subst e
        exact absurd hq0 hq
      · simp only [upd, if_neg e]
        exact h a ha hq
    · rename_i t q hq0
      cases he
      intro a ha hq
      by_cases e : a = l
      · subst e
        exact h a ha (by rw [hq0]; simp)
      · simp only [upd, if_neg e] at hq
        exact h a ha hq
  · cases he; exact h
  · cases he; exact h
  · cases he

/-- Does user code throw? -/
def KOp.raises : KOp → Bool
  | .user .raise => true
  | _ => false

/-- Everything that can happen without copies and exceptions. -/
inductive KReachQ (inl : Nat → Bool) : K → Prop where
  | start : KReachQ inl kstart
  | step {k k'} (op : KOp) : KReachQ inl k → op.copies = false → op.raises = false →
      kstep inl k op = some k' → KReachQ inl k'

theorem KReachM.reach {inl : Nat → Bool} {k : K} (r : KReachM inl k) : KReach inl k := by
  induction r with
  | start => exact .start
  | step op _ _ h ih => exact .step op ih h

theorem KReachQ.reach {inl : Nat → Bool} {k : K} (r : KReachQ inl k) : KReachM inl k := by
  induction r with
  | start => exact .start
  | step op _ hc _ h ih => exact .step op ih hc h

theorem throw_post (inl : Nat → Bool) (k : K) (l : Nat) (t : Task) :
    (k.post inl l t).throwing = k.throwing := by
  unfold K.post
  dsimp only
  split <;> rfl

theorem throw_fulfil (inl : Nat → Bool) (k : K) (s : Nat) (i : Option Nat) :
    (k.fulfil inl s i).throwing = k.throwing := by
  unfold K.fulfil
  split
  · rfl
  · dsimp only
    split
    · rw [throw_post]
    · rfl

theorem throw_attach (inl : Nat → Bool) (k : K) (s : Nat) (fn : Fn) :
    (k.attach inl s fn).throwing = k.throwing := by
  unfold K.attach
  dsimp only
  split
  · rfl
  · split
    · rfl
    · split
      · rw [throw_post]
      · rfl

theorem throw_thenF (inl : Nat → Bool) (k : K) (s : Option Nat) (fn : Fn) (j : Option Nat) :
    (k.thenF inl s fn j).throwing = k.throwing := by
  unfold K.thenF
  cases s with
  | some s => exact throw_attach inl k s fn
  | none =>
    cases fn with
    | prom q => exact throw_fulfil inl k q j
    | _ => rfl

theorem throw_user {inl : Nat → Bool} {k k' : K} {op : UOp} (hop : KOp.raises (.user op) = false)
    (he : k.user inl op = some k') : k'.throwing = k.throwing := by
  cases op with
  | newPair l => simp only [K.user, Option.some.injEq] at he; subst he; rfl
  | invalid => simp only [K.user, Option.some.injEq] at he; subst he; rfl
  | copyP i =>
    simp only [K.user] at he
    split at he
    · cases he; rfl
    · rw [Option.map_eq_some_iff] at he
      obtain ⟨_, _, rfl⟩ := he
      rfl
  | copyF i =>
    simp only [K.user] at he
    rw [Option.map_eq_some_iff] at he
    obtain ⟨_, _, rfl⟩ := he
    rfl
  | fulfil i =>
    simp only [K.user] at he
    split at he
    · cases he; rfl
    · split at he
      · cases he
      · cases he; rfl
      · cases he; rw [throw_fulfil]
  | «then» i isF =>
    simp only [K.user] at he
    split at he
    · cases he
    · cases he; rw [throw_thenF]
  | thenP i j =>
    simp only [K.user] at he
    split at he
    · cases he; rfl
    · split at he
      · cases he; rw [throw_thenF]
      · cases he
  | also i j =>
    simp only [K.user] at he
    split at he
    · split at he
      · cases he
      · cases he; rw [throw_thenF]
    · cases he
  | run l =>
    simp only [K.user] at he
    split at he
    · cases he
    · split at he
      · cases he
      · cases he; rfl
  | retV =>
    simp only [K.user] at he
    split at he
    · split at he
      · cases he; rfl
      · cases he
    · cases he; rfl
    · cases he
  | retF i =>
    simp only [K.user] at he
    split at he
    · split at he
      · cases he; rfl
      · cases he
    · cases he; rfl
    · cases he
  | raise => cases hop

theorem throw_lib {inl : Nat → Bool} {k k' : K} (he : k.lib inl = some k') : k'.throwing = k.throwing := by
  unfold K.lib at he
  split at he
  · cases he; rw [throw_fulfil]
  · cases he; rw [throw_fulfil]
  · cases he; rw [throw_attach]
  · cases he; rw [throw_fulfil]
  · split at he
    · cases he; rfl
    · cases he; rfl
  · cases he; rfl
  · cases he; rfl
  · cases he

theorem KReachQ.dry {inl : Nat → Bool} {k : K} (r : KReachQ inl k) : k.throwing = false ∧ Dry inl k := by
  induction r with
  | start => exact ⟨rfl, fun l _ hq => absurd rfl hq⟩
  | @step k k' op r hc hr he ih =>
    obtain ⟨ht, hd⟩ := ih
    unfold kstep at he
    split at he
    · cases he
    · cases op with
      | user op =>
        dsimp only at he
        split at he
        · exact ⟨(throw_user hr he).trans ht, dry_user hd he⟩
        · cases he
      | lib =>
        dsimp only at he
        split at he
        · exact ⟨(throw_lib he).trans ht, dry_lib hd he⟩
        · cases he
      | unwind =>
        dsimp only at he
        rw [ht] at he
        cases he
      | «catch» =>
        dsimp only at he
        rw [ht] at he
        cases he

end Verif.Future
