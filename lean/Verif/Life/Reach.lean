import Verif.Life.Inv

/-!
# The counts are right in every reachable state
-/

namespace Verif.Life

/-- The nodes that handles and running calls refer to. -/
def P.held (s : P) : List Nat := s.handles.filterMap id ++ s.locks

theorem count_filterMap (hs : List (Option Nat)) (n : Nat) :
    (hs.filterMap id).count n = hs.count (some n) := by
  induction hs with
  | nil => rfl
  | cons x hs ih =>
    cases x with
    | none =>
      rw [List.filterMap_cons_none rfl, List.count_cons_of_ne (by simp), ih]
    | some m =>
      show (m :: hs.filterMap id).count n = _
      rw [List.count_cons, List.count_cons, ih]
      by_cases e : m = n <;> simp [e]

theorem held_count (s : P) (n : Nat) : s.held.count n = s.handles.count (some n) + s.locks.count n := by
  unfold P.held
  rw [List.count_append, count_filterMap]

/-- Of the proof: counting. -/
def one (x : Option Nat) (n : Nat) : Nat := if x = some n then 1 else 0

theorem count_put (hs : List (Option Nat)) (i : Nat) (x y : Option Nat) (n : Nat)
    (h : hs[i]? = some y) :
    (put hs i x).count (some n) + one y n = hs.count (some n) + one x n := by
  unfold put
  induction hs generalizing i with
  | nil => simp at h
  | cons z hs ih =>
    cases i with
    | zero =>
      simp only [List.getElem?_cons_zero, Option.some.injEq] at h
      subst h
      rw [List.set_cons_zero, List.count_cons, List.count_cons]
      unfold one
      by_cases e1 : x = some n <;> by_cases e2 : z = some n <;> simp [e1, e2]
    | succ i =>
      rw [List.getElem?_cons_succ] at h
      rw [List.set_cons_succ, List.count_cons, List.count_cons]
      have := ih i h
      omega

theorem put_get (hs : List (Option Nat)) {i j : Nat} (x : Option Nat) (h : j ≠ i) :
    (put hs i x)[j]? = hs[j]? := by
  unfold put
  rw [List.getElem?_set_ne (fun e => h e.symm)]

theorem count_snoc (hs : List (Option Nat)) (x : Option Nat) (n : Nat) :
    (hs ++ [x]).count (some n) = hs.count (some n) + one x n := by
  rw [List.count_append, List.count_singleton]
  unfold one
  by_cases e : x = some n <;> simp [e]

theorem one_some (m n : Nat) : one (some m) n = [m].count n := by
  unfold one
  rw [List.count_singleton]
  by_cases e : m = n <;> simp [e]

/-- Everything that holds in reachable states. -/
structure PInv (s : P) : Prop where
  inv : Inv s.heap s.held
  ctxs : ∀ c ∈ s.ctxs, c < s.heap.size ∧ s.heap.parents c = []
  tasks : ∀ c ∈ s.tasks, c < s.heap.size
  running : ∀ c ∈ s.running, c < s.heap.size

theorem PInv.handle {s : P} (h : PInv s) {i n : Nat} (hi : s.handles[i]? = some (some n)) :
    0 < s.heap.rc n := by
  have := h.inv.count n
  have h2 : 0 < s.held.count n := by
    rw [held_count]
    have : 0 < s.handles.count (some n) := List.count_pos_iff.2 (List.mem_of_getElem? hi)
    omega
  omega

/-- A step that keeps the nodes, and changes references only. -/
theorem PInv.refs {s s' : P} (h : PInv s) (hi : Inv s'.heap s'.held)
    (hsz : s'.heap.size = s.heap.size) (hp : s'.heap.parents = s.heap.parents)
    (h1 : s'.ctxs = s.ctxs) (h2 : s'.tasks = s.tasks) (h3 : s'.running = s.running) : PInv s' :=
  ⟨hi, by rw [h1, hsz, hp]; exact h.ctxs, by rw [h2, hsz]; exact h.tasks,
    by rw [h3, hsz]; exact h.running⟩

theorem PInv.made {s : P} (h : PInv s) {ps : List Nat} (hp : ∀ p ∈ ps, 0 < s.heap.rc p) :
    PInv { s with heap := s.heap.make ps, handles := s.handles ++ [some s.heap.size] } := by
  have hm := make_inv h.inv hp
  have hsz : (s.heap.make ps).size = s.heap.size + 1 := rfl
  refine ⟨hm.congr fun n => ?_, fun c hc => ?_, fun c hc => ?_, fun c hc => ?_⟩
  · rw [held_count, List.count_cons, held_count]
    dsimp only
    rw [count_snoc, one_some, List.count_singleton]
    omega
  · obtain ⟨h1, h2⟩ := h.ctxs c hc
    refine ⟨by dsimp only; rw [hsz]; omega, ?_⟩
    show (if c = s.heap.size then ps else (ps.foldl Heap.acquire s.heap).parents c) = []
    rw [if_neg (by omega), (acquireAll_inv ps h.inv hp).2.2.1]
    exact h2
  · have := h.tasks c hc
    dsimp only
    rw [hsz]
    omega
  · have := h.running c hc
    dsimp only
    rw [hsz]
    omega

theorem dropSlot_inv {h : Heap} {R : List Nat} (x : Option Nat)
    (hi : Inv h ((x.toList) ++ R)) :
    Inv (dropSlot h x) R ∧ (dropSlot h x).size = h.size ∧ (dropSlot h x).parents = h.parents ∧
      h.freed <+: (dropSlot h x).freed := by
  cases x with
  | none => exact ⟨hi, rfl, rfl, List.prefix_refl _⟩
  | some n => exact drop_inv hi

theorem toList_count (x : Option Nat) (n : Nat) : x.toList.count n = one x n := by
  cases x with
  | none => rfl
  | some m => rw [one_some]; rfl

theorem mapM_mem {is : List Nat} {hs : List (Option Nat)} {ps : List Nat}
    (h : is.mapM (fun i => hs[i]?.join) = some ps) : ∀ p ∈ ps, ∃ i ∈ is, hs[i]? = some (some p) := by
  induction is generalizing ps with
  | nil =>
    rw [List.mapM_nil] at h
    cases h
    intro p hp
    cases hp
  | cons i is ih =>
    rw [List.mapM_cons] at h
    cases h1 : hs[i]?.join with
    | none => rw [h1] at h; cases h
    | some q =>
      rw [h1] at h
      cases h2 : is.mapM (fun i => hs[i]?.join) with
      | none => rw [h2] at h; cases h
      | some qs =>
        rw [h2] at h
        cases h
        intro p hp
        rcases List.mem_cons.1 hp with rfl | hp
        · refine ⟨i, List.mem_cons_self, ?_⟩
          cases h3 : hs[i]? with
          | none => rw [h3] at h1; cases h1
          | some y => rw [h3] at h1; exact congrArg some h1
        · obtain ⟨j, h3, h4⟩ := ih h2 p hp
          exact ⟨j, List.mem_cons_of_mem _ h3, h4⟩

theorem step_inv {s s' : P} {op : Op} (h : PInv s) (he : step s op = some s') : PInv s' := by
  unfold step at he
  split at he
  · cases he
  · cases op with
    | root => cases he; exact h.made (fun _ hp => nomatch hp)
    | derive is =>
      simp only at he
      split at he
      · cases he
      · rename_i ps hps
        split at he
        · cases he
        · cases he
          refine h.made fun p hp => ?_
          obtain ⟨i, _, hi⟩ := mapM_mem hps p hp
          exact h.handle hi
    | copy i =>
      simp only at he
      split at he
      · cases he
      · cases he
        refine h.refs (h.inv.congr fun n => ?_) rfl rfl rfl rfl rfl
        rw [held_count, held_count]
        dsimp only
        rw [count_snoc]
        simp [one]
      · rename_i n hn
        cases he
        obtain ⟨s1, s2, _, _⟩ := acquire_static s.heap n
        refine h.refs ((acquire_inv h.inv (h.handle hn)).congr fun m => ?_) s1 s2 rfl rfl rfl
        rw [held_count, List.count_cons, held_count]
        dsimp only
        rw [count_snoc, one_some, List.count_singleton]
        omega
    | move i =>
      simp only at he
      split at he
      · cases he
      · rename_i x hx
        cases he
        refine h.refs (h.inv.congr fun n => ?_) rfl rfl rfl rfl rfl
        rw [held_count, held_count]
        dsimp only
        rw [count_snoc]
        have := count_put s.handles i none x n hx
        have h0 : one none n = 0 := by simp [one]
        omega
    | assign i j =>
      simp only at he
      split at he
      · rename_i x hx hj
        cases he
        have hi : Inv s.heap (x.toList ++ ({ s with handles := put s.handles i none } : P).held) := by
          refine h.inv.congr fun n => ?_
          rw [List.count_append, toList_count, held_count, held_count]
          have := count_put s.handles i none x n hx
          have h0 : one none n = 0 := by simp [one]
          dsimp only
          omega
        obtain ⟨k1, k2, k3, _⟩ := dropSlot_inv x hi
        exact h.refs k1 k2 k3 rfl rfl rfl
      · rename_i x n hx hj
        cases he
        obtain ⟨s1, s2, _, _⟩ := acquire_static s.heap n
        have hi : Inv (s.heap.acquire n)
            (x.toList ++ ({ s with handles := put s.handles i (some n) } : P).held) := by
          refine (acquire_inv h.inv (h.handle hj)).congr fun m => ?_
          rw [List.count_append, toList_count, held_count, List.count_cons, held_count]
          have := count_put s.handles i (some n) x m hx
          rw [one_some, List.count_singleton] at this
          dsimp only
          omega
        obtain ⟨k1, k2, k3, _⟩ := dropSlot_inv x hi
        exact h.refs k1 (k2.trans s1) (k3.trans s2) rfl rfl rfl
      · cases he
    | moveAssign i j =>
      simp only at he
      split at he
      · cases hx : s.handles[i]? with
        | none => rw [hx] at he; cases he
        | some x => rw [hx] at he; cases he; exact h
      · rename_i hij
        split at he
        · rename_i x y hx hy
          cases he
          have hi : Inv s.heap (x.toList ++
              ({ s with handles := put (put s.handles i y) j none } : P).held) := by
            refine h.inv.congr fun n => ?_
            rw [List.count_append, toList_count, held_count, held_count]
            have h1 := count_put s.handles i y x n hx
            have h2 := count_put (put s.handles i y) j none y n
              (by rw [put_get _ _ (fun e => hij e.symm)]; exact hy)
            have h0 : one none n = 0 := by simp [one]
            dsimp only
            omega
          obtain ⟨k1, k2, k3, _⟩ := dropSlot_inv x hi
          exact h.refs k1 k2 k3 rfl rfl rfl
        · cases he
    | destroy i =>
      simp only at he
      split at he
      · cases he
      · rename_i x hx
        cases he
        have hi : Inv s.heap (x.toList ++ ({ s with handles := put s.handles i none } : P).held) := by
          refine h.inv.congr fun n => ?_
          rw [List.count_append, toList_count, held_count, held_count]
          have := count_put s.handles i none x n hx
          have h0 : one none n = 0 := by simp [one]
          dsimp only
          omega
        obtain ⟨k1, k2, k3, _⟩ := dropSlot_inv x hi
        exact h.refs k1 k2 k3 rfl rfl rfl
    | enter i =>
      simp only at he
      split at he
      · rename_i n hn
        cases he
        obtain ⟨s1, s2, _, _⟩ := acquire_static s.heap n
        refine h.refs ((acquire_inv h.inv (h.handle hn)).congr fun m => ?_) s1 s2 rfl rfl rfl
        rw [held_count]
        dsimp only
        rw [List.count_cons, List.count_cons, held_count]
        omega
      · cases he
    | lock n =>
      simp only at he
      split at he
      · split at he
        · cases he; exact h
        · rename_i hr
          cases he
          obtain ⟨s1, s2, _, _⟩ := acquire_static s.heap n
          refine h.refs ((acquire_inv h.inv (by omega)).congr fun m => ?_) s1 s2 rfl rfl rfl
          rw [held_count]
          dsimp only
          rw [List.count_cons, List.count_cons, held_count]
          omega
      · cases he
    | leave =>
      simp only at he
      split at he
      · cases he
      · rename_i n l hl
        cases he
        have hi : Inv s.heap (n :: ({ s with locks := l } : P).held) := by
          refine h.inv.congr fun m => ?_
          rw [List.count_cons, held_count, held_count, hl, List.count_cons]
          dsimp only
          omega
        obtain ⟨k1, k2, k3, _⟩ := drop_inv hi
        exact h.refs k1 k2 k3 rfl rfl rfl
    | context i =>
      simp only at he
      split at he
      · rename_i n hn
        split at he
        · rename_i hp
          cases he
          refine { h with ctxs := fun c hc => ?_ }
          rcases List.mem_append.1 hc with hc | hc
          · exact h.ctxs c hc
          · rw [List.mem_singleton.1 hc]
            exact ⟨h.inv.rc_lt (h.handle hn), hp⟩
        · cases he
      · cases he
    | dispatch c =>
      simp only at he
      split at he
      · cases he
      · rename_i n hn
        split at he
        · cases he; exact ⟨h.inv, h.ctxs, h.tasks, h.running⟩
        · cases he
          refine ⟨h.inv, h.ctxs, fun t ht => ?_, h.running⟩
          rcases List.mem_append.1 ht with ht | ht
          · exact h.tasks t ht
          · rw [List.mem_singleton.1 ht]
            exact (h.ctxs n (List.mem_of_getElem? hn)).1
    | begin =>
      simp only at he
      split at he
      · cases he
      · rename_i n l hl
        have ht := h.tasks
        rw [hl] at ht
        split at he
        · cases he; exact ⟨h.inv, h.ctxs, h.tasks, h.running⟩
        · cases he
          refine ⟨h.inv, h.ctxs, fun t k => ht t (List.mem_cons_of_mem _ k), fun t k => ?_⟩
          rcases List.mem_cons.1 k with rfl | k
          · exact ht t List.mem_cons_self
          · exact h.running t k
    | post =>
      simp only at he
      split at he
      · cases he
      · rename_i n l hl
        split at he
        · cases he; exact ⟨h.inv, h.ctxs, h.tasks, h.running⟩
        · cases he
          refine ⟨h.inv, h.ctxs, fun t ht => ?_, h.running⟩
          rcases List.mem_append.1 ht with ht | ht
          · exact h.tasks t ht
          · rw [List.mem_singleton.1 ht]
            exact h.running n (by rw [hl]; exact List.mem_cons_self)
    | resume =>
      simp only at he
      split at he
      · cases he
      · split at he
        · cases he; exact ⟨h.inv, h.ctxs, h.tasks, h.running⟩
        · cases he; exact h
    | finish =>
      simp only at he
      split at he
      · cases he
      · rename_i n l hl
        cases he
        have hr := h.running
        rw [hl] at hr
        exact ⟨h.inv, h.ctxs, h.tasks, fun t k => hr t (List.mem_cons_of_mem _ k)⟩

theorem start_inv : PInv start := by
  constructor
  · constructor
    · intro n p hp; cases hp
    · intro n _; exact ⟨rfl, rfl⟩
    · intro r hr; cases hr
    · intro n; simp [start, P.held, inner]
    · intro n; simp [start]
    · exact List.nodup_nil
    · intro a n b he; simp [start] at he
    · rfl
  · intro c hc; cases hc
  · intro c hc; cases hc
  · intro c hc; cases hc

theorem reach_inv {s : P} (h : Reach s) : PInv s := by
  induction h with
  | start => exact start_inv
  | step _ he ih => exact step_inv ih he

/-! ### What is freed, stays freed -/

theorem dropSlot_static {s : P} (h : PInv s) {x : Option Nat} {i : Nat}
    (hx : s.handles[i]? = some x) :
    (dropSlot s.heap x).size = s.heap.size ∧ (dropSlot s.heap x).parents = s.heap.parents ∧
      s.heap.freed <+: (dropSlot s.heap x).freed := by
  have hi : Inv s.heap (x.toList ++ ({ s with handles := put s.handles i none } : P).held) := by
    refine h.inv.congr fun n => ?_
    rw [List.count_append, toList_count, held_count, held_count]
    have := count_put s.handles i none x n hx
    have h0 : one none n = 0 := by simp [one]
    dsimp only
    omega
  exact (dropSlot_inv x hi).2

theorem step_static {s s' : P} {op : Op} (h : PInv s) (he : step s op = some s') :
    s.heap.freed <+: s'.heap.freed ∧
      ((s'.heap.size = s.heap.size ∧ s'.heap.parents = s.heap.parents) ∨
        (s'.heap.size = s.heap.size + 1 ∧ s'.heap.freed = s.heap.freed ∧
          ∀ n, n ≠ s.heap.size → s'.heap.parents n = s.heap.parents n)) := by
  have same : ∀ {t : P}, t.heap = s.heap → s.heap.freed <+: t.heap.freed ∧
      ((t.heap.size = s.heap.size ∧ t.heap.parents = s.heap.parents) ∨
        (t.heap.size = s.heap.size + 1 ∧ t.heap.freed = s.heap.freed ∧
          ∀ n, n ≠ s.heap.size → t.heap.parents n = s.heap.parents n)) := by
    intro t ht; rw [ht]; exact ⟨List.prefix_refl _, .inl ⟨rfl, rfl⟩⟩
  have made : ∀ {ps : List Nat}, (∀ p ∈ ps, 0 < s.heap.rc p) →
      s.heap.freed <+: (s.heap.make ps).freed ∧
      (((s.heap.make ps).size = s.heap.size ∧ (s.heap.make ps).parents = s.heap.parents) ∨
        ((s.heap.make ps).size = s.heap.size + 1 ∧ (s.heap.make ps).freed = s.heap.freed ∧
          ∀ n, n ≠ s.heap.size → (s.heap.make ps).parents n = s.heap.parents n)) := by
    intro ps hp
    obtain ⟨_, k2, k3, k4, _⟩ := acquireAll_inv ps h.inv hp
    have hf : (s.heap.make ps).freed = s.heap.freed := k4
    refine ⟨by rw [hf]; exact List.prefix_refl _, .inr ⟨rfl, hf, fun n hn => ?_⟩⟩
    show (if n = s.heap.size then ps else (ps.foldl Heap.acquire s.heap).parents n) = _
    rw [if_neg hn, k3]
  have kept : ∀ {g : Heap}, g.size = s.heap.size ∧ g.parents = s.heap.parents ∧
      s.heap.freed <+: g.freed → s.heap.freed <+: g.freed ∧
      ((g.size = s.heap.size ∧ g.parents = s.heap.parents) ∨
        (g.size = s.heap.size + 1 ∧ g.freed = s.heap.freed ∧
          ∀ n, n ≠ s.heap.size → g.parents n = s.heap.parents n)) :=
    fun hg => ⟨hg.2.2, .inl ⟨hg.1, hg.2.1⟩⟩
  have acq : ∀ n, (s.heap.acquire n).size = s.heap.size ∧
      (s.heap.acquire n).parents = s.heap.parents ∧
      s.heap.freed <+: (s.heap.acquire n).freed := by
    intro n
    obtain ⟨s1, s2, s3, _⟩ := acquire_static s.heap n
    exact ⟨s1, s2, by rw [s3]; exact List.prefix_refl _⟩
  unfold step at he
  split at he
  · cases he
  · cases op with
    | root => cases he; exact made (fun _ hp => nomatch hp)
    | derive is =>
      simp only at he
      split at he
      · cases he
      · rename_i ps hps
        split at he
        · cases he
        · cases he
          refine made fun p hp => ?_
          obtain ⟨i, _, hi⟩ := mapM_mem hps p hp
          exact h.handle hi
    | copy i =>
      simp only at he
      split at he
      · cases he
      · cases he; exact same rfl
      · cases he; exact kept (acq _)
    | move i =>
      simp only at he
      split at he
      · cases he
      · cases he; exact same rfl
    | assign i j =>
      simp only at he
      split at he
      · rename_i x hx hj
        cases he
        exact kept (dropSlot_static h hx)
      · rename_i x n hx hj
        cases he
        obtain ⟨s1, s2, s3⟩ := acq n
        have hi : Inv (s.heap.acquire n)
            (x.toList ++ ({ s with handles := put s.handles i (some n) } : P).held) := by
          refine (acquire_inv h.inv (h.handle hj)).congr fun m => ?_
          rw [List.count_append, toList_count, held_count, List.count_cons, held_count]
          have := count_put s.handles i (some n) x m hx
          rw [one_some, List.count_singleton] at this
          dsimp only
          omega
        obtain ⟨_, k2, k3, k4⟩ := dropSlot_inv x hi
        exact kept ⟨k2.trans s1, k3.trans s2, s3.trans k4⟩
      · cases he
    | moveAssign i j =>
      simp only at he
      split at he
      · cases hx : s.handles[i]? with
        | none => rw [hx] at he; cases he
        | some x => rw [hx] at he; cases he; exact same rfl
      · split at he
        · rename_i x y hx hy
          cases he
          exact kept (dropSlot_static h hx)
        · cases he
    | destroy i =>
      simp only at he
      split at he
      · cases he
      · rename_i x hx
        cases he
        exact kept (dropSlot_static h hx)
    | enter i =>
      simp only at he
      split at he
      · cases he; exact kept (acq _)
      · cases he
    | lock n =>
      simp only at he
      split at he
      · split at he
        · cases he; exact same rfl
        · cases he; exact kept (acq _)
      · cases he
    | leave =>
      simp only at he
      split at he
      · cases he
      · rename_i n l hl
        cases he
        have hi : Inv s.heap (n :: ({ s with locks := l } : P).held) := by
          refine h.inv.congr fun m => ?_
          rw [List.count_cons, held_count, held_count, hl, List.count_cons]
          dsimp only
          omega
        exact kept (drop_inv hi).2
    | context i =>
      simp only at he
      split at he
      · split at he
        · cases he; exact same rfl
        · cases he
      · cases he
    | dispatch c =>
      simp only at he
      split at he
      · cases he
      · split at he <;> (cases he; exact same rfl)
    | begin =>
      simp only at he
      split at he
      · cases he
      · split at he <;> (cases he; exact same rfl)
    | post =>
      simp only at he
      split at he
      · cases he
      · split at he <;> (cases he; exact same rfl)
    | resume =>
      simp only at he
      split at he
      · cases he
      · split at he <;> (cases he; exact same rfl)
    | finish =>
      simp only at he
      split at he
      · cases he
      · cases he; exact same rfl

end Verif.Life
