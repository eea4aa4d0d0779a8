import Verif.Life.Model

/-!
# The counts are right

`Inv h R`: the count of every node is the number of its owners, where `R` lists the owners outside of
the heap.  What is destroyed, is destroyed once, and after everything that is derived from it.
-/

namespace Verif.Life

/-- The number of pointers to `n` in nodes that exist. -/
def inner (h : Heap) (n : Nat) : Nat :=
  ((List.range h.size).map fun c => if 0 < h.rc c then (h.parents c).count n else 0).sum

/-- Of the proof: reference counts are the numbers of owners. -/
structure Inv (h : Heap) (R : List Nat) : Prop where
  lt : ∀ n, ∀ p ∈ h.parents n, p < n
  unused : ∀ n, h.size ≤ n → h.parents n = [] ∧ h.rc n = 0
  refs : ∀ r ∈ R, r < h.size
  count : ∀ n, h.rc n = R.count n + inner h n
  freed : ∀ n, n ∈ h.freed ↔ n < h.size ∧ h.rc n = 0
  nodup : h.freed.Nodup
  order : ∀ a n b, h.freed = a ++ n :: b → ∀ c, n ∈ h.parents c → c ∈ a
  bad : h.bad = false

/-! ### Sums -/

theorem sum_eq_zero {α : Type} (l : List α) (f : α → Nat) :
    (l.map f).sum = 0 ↔ ∀ a ∈ l, f a = 0 := by
  induction l with
  | nil => simp
  | cons a l ih =>
    rw [List.map_cons, List.sum_cons, Nat.add_eq_zero_iff, ih]
    simp

theorem sum_range_update (f f' : Nat → Nat) (n : Nat) (k : Nat) (hn : n < k)
    (h : ∀ c, c ≠ n → f' c = f c) :
    ((List.range k).map f).sum + f' n = ((List.range k).map f').sum + f n := by
  induction k with
  | zero => cases hn
  | succ k ih =>
    rw [List.range_succ, List.map_append, List.map_append, List.sum_append, List.sum_append]
    simp only [List.map_cons, List.map_nil, List.sum_cons, List.sum_nil, Nat.add_zero]
    by_cases e : n = k
    · subst e
      have : (List.range n).map f' = (List.range n).map f := by
        apply List.map_congr_left
        intro c hc
        exact h c (Nat.ne_of_lt (List.mem_range.1 hc))
      rw [this]
      omega
    · have h2 := ih (by omega)
      rw [h k (fun e' => e e'.symm)]
      omega

theorem inner_pos {h : Heap} {n : Nat} :
    0 < inner h n ↔ ∃ c, c < h.size ∧ 0 < h.rc c ∧ n ∈ h.parents c := by
  constructor
  · intro hp
    apply Classical.byContradiction
    intro hno
    have : inner h n = 0 := by
      unfold inner
      rw [sum_eq_zero]
      intro c hc
      split
      · rename_i hr
        rw [List.count_eq_zero]
        intro hm
        exact hno ⟨c, List.mem_range.1 hc, hr, hm⟩
      · rfl
    omega
  · rintro ⟨c, h1, h2, h3⟩
    apply Nat.pos_of_ne_zero
    intro h0
    unfold inner at h0
    rw [sum_eq_zero] at h0
    have := h0 c (List.mem_range.2 h1)
    rw [if_pos h2, List.count_eq_zero] at this
    exact this h3

theorem Inv.congr {h : Heap} {R R' : List Nat} (hi : Inv h R) (hc : ∀ n, R'.count n = R.count n) :
    Inv h R' := by
  refine { hi with refs := fun r hr => ?_, count := fun n => by rw [hc]; exact hi.count n }
  apply hi.refs
  rw [← List.count_pos_iff, ← hc, List.count_pos_iff]
  exact hr

/-! ### Changing one count -/

theorem setRc_ne (h : Heap) {n m : Nat} (v : Nat) (hm : m ≠ n) : (h.setRc n v).rc m = h.rc m :=
  if_neg hm

theorem setRc_self (h : Heap) (n v : Nat) : (h.setRc n v).rc n = v := if_pos rfl

/-- As long as a node does not come to exist or stop to exist, the other counts do not change. -/
theorem inner_setRc {h : Heap} {n v : Nat} (hr : 0 < h.rc n) (hv : 0 < v) (m : Nat) :
    inner (h.setRc n v) m = inner h m := by
  unfold inner
  congr 1
  apply List.map_congr_left
  intro c _
  by_cases e : c = n
  · subst e
    rw [setRc_self, if_pos hv, if_pos hr]
    rfl
  · rw [setRc_ne _ _ e]
    rfl

theorem Inv.setRc {h : Heap} {R R' : List Nat} {n v : Nat} (hi : Inv h R) (hn : 0 < h.rc n)
    (hv : 0 < v) (hc : ∀ m, m ≠ n → R'.count m = R.count m)
    (hcn : v + R.count n = R'.count n + h.rc n) (hrefs : ∀ r ∈ R', r < h.size) :
    Inv (h.setRc n v) R' := by
  refine ⟨hi.lt, fun m hm => ⟨(hi.unused m hm).1, ?_⟩, hrefs, fun m => ?_, fun m => ?_, hi.nodup,
    hi.order, hi.bad⟩
  · by_cases e : m = n
    · subst e
      have := (hi.unused m hm).2
      omega
    · rw [setRc_ne _ _ e]; exact (hi.unused m hm).2
  · rw [inner_setRc hn hv]
    have h1 := hi.count m
    by_cases e : m = n
    · subst e
      rw [setRc_self]
      omega
    · rw [setRc_ne _ _ e, hc m e]
      exact h1
  · show m ∈ h.freed ↔ m < h.size ∧ (h.setRc n v).rc m = 0
    rw [hi.freed m]
    by_cases e : m = n
    · subst e
      rw [setRc_self]
      omega
    · rw [setRc_ne _ _ e]

theorem Inv.rc_lt {h : Heap} {R : List Nat} (hi : Inv h R) {n : Nat} (hn : 0 < h.rc n) :
    n < h.size := by
  apply Nat.lt_of_not_le
  intro hle
  have := (hi.unused n hle).2
  omega

theorem acquire_inv {h : Heap} {R : List Nat} {n : Nat} (hi : Inv h R) (hn : 0 < h.rc n) :
    Inv (h.acquire n) (n :: R) := by
  unfold Heap.acquire
  rw [if_neg (by omega)]
  refine hi.setRc hn (by omega) (fun m hm => ?_) ?_ (fun r hr => ?_)
  · rw [List.count_cons_of_ne (fun e => hm e.symm)]
  · rw [List.count_cons_self]; omega
  · rcases List.mem_cons.1 hr with rfl | hr
    · exact hi.rc_lt hn
    · exact hi.refs r hr

theorem acquire_static (h : Heap) (n : Nat) :
    (h.acquire n).size = h.size ∧ (h.acquire n).parents = h.parents ∧
      (h.acquire n).freed = h.freed ∧ (∀ m, 0 < (h.acquire n).rc m ↔ 0 < h.rc m) := by
  unfold Heap.acquire
  split
  · exact ⟨rfl, rfl, rfl, fun _ => Iff.rfl⟩
  · rename_i hr
    refine ⟨rfl, rfl, rfl, fun m => ?_⟩
    by_cases e : m = n
    · subst e; rw [setRc_self]; omega
    · rw [setRc_ne _ _ e]

/-! ### Releasing -/

/-- The destructor of `n`: its pointers to its parents are yet to be released. -/
theorem free_inv {h : Heap} {R : List Nat} {n : Nat} (hi : Inv h (n :: R)) (hn : h.rc n = 1) :
    Inv { h.setRc n 0 with freed := h.freed ++ [n] } (h.parents n ++ R) := by
  have hlt : n < h.size := hi.rc_lt (by omega)
  have hc := hi.count n
  rw [List.count_cons_self] at hc
  have hR : R.count n = 0 := by omega
  have hin : inner h n = 0 := by omega
  have hinner : ∀ m, inner { h.setRc n 0 with freed := h.freed ++ [n] } m + (h.parents n).count m =
      inner h m := by
    intro m
    have := sum_range_update
      (fun c => if 0 < h.rc c then (h.parents c).count m else 0)
      (fun c => if 0 < (h.setRc n 0).rc c then (h.parents c).count m else 0) n h.size hlt
      (fun c hc => by rw [setRc_ne _ _ hc])
    simp only [setRc_self, Nat.lt_irrefl, if_false, Nat.add_zero] at this
    rw [if_pos (by omega)] at this
    exact this.symm
  refine ⟨hi.lt, fun m hm => ⟨(hi.unused m hm).1, ?_⟩, fun r hr => ?_, fun m => ?_, fun m => ?_, ?_,
    ?_, hi.bad⟩
  · have : m ≠ n := fun e => by subst e; have : h.size ≤ m := hm; omega
    exact (setRc_ne h 0 this).trans (hi.unused m hm).2
  · show r < h.size
    rcases List.mem_append.1 hr with h1 | h1
    · exact Nat.lt_trans (hi.lt n r h1) hlt
    · exact hi.refs r (List.mem_cons_of_mem _ h1)
  · have h1 := hinner m
    have h2 := hi.count m
    rw [List.count_append]
    show (h.setRc n 0).rc m = _
    by_cases e : m = n
    · subst e
      rw [setRc_self]
      have h3 : (h.parents m).count m = 0 :=
        List.count_eq_zero.2 fun hm => Nat.lt_irrefl _ (hi.lt m m hm)
      omega
    · rw [setRc_ne _ _ e]
      rw [List.count_cons_of_ne (fun e' => e e'.symm)] at h2
      omega
  · show m ∈ h.freed ++ [n] ↔ m < h.size ∧ (h.setRc n 0).rc m = 0
    rw [List.mem_append, List.mem_singleton, hi.freed m]
    by_cases e : m = n
    · subst e
      rw [setRc_self]
      simp [hlt]
    · rw [setRc_ne _ _ e]
      simp [e]
  · show (h.freed ++ [n]).Nodup
    rw [List.nodup_append]
    refine ⟨hi.nodup, by simp, ?_⟩
    intro a ha b hb
    rw [List.mem_singleton.1 hb]
    rintro rfl
    have := ((hi.freed a).1 ha).2
    omega
  · intro a m b he c hc
    rcases List.append_eq_append_iff.1 (show h.freed ++ [n] = a ++ m :: b from he) with
      ⟨d, h1, h2⟩ | ⟨d, h1, h2⟩
    · match d, h1, h2 with
      | [], h1, h2 =>
        injection h2 with h3 h4
        subst h3
        -- everything derived from `n` has been destroyed before
        rw [h1, List.append_nil, hi.freed c]
        have hcn : c < h.size := by
          apply Nat.lt_of_not_le
          intro hle
          have hc' : n ∈ h.parents c := hc
          rw [(hi.unused c hle).1] at hc'
          cases hc'
        refine ⟨hcn, Nat.eq_zero_of_not_pos fun hp => ?_⟩
        have : 0 < inner h n := inner_pos.2 ⟨c, hcn, hp, hc⟩
        omega
      | x :: d, h1, h2 =>
        rw [List.cons_append] at h2
        injection h2 with h3 h4
        have := congrArg List.length h4
        simp at this
    · match d, h1, h2 with
      | [], h1, h2 =>
        rw [List.nil_append] at h2
        injection h2 with h3 h4
        subst h3
        rw [List.append_nil] at h1
        rw [← h1, hi.freed c]
        have hcn : c < h.size := by
          apply Nat.lt_of_not_le
          intro hle
          have hc' : m ∈ h.parents c := hc
          rw [(hi.unused c hle).1] at hc'
          cases hc'
        refine ⟨hcn, Nat.eq_zero_of_not_pos fun hp => ?_⟩
        have : 0 < inner h m := inner_pos.2 ⟨c, hcn, hp, hc⟩
        omega
      | x :: d, h1, h2 =>
        rw [List.cons_append] at h2
        injection h2 with h3 h4
        subst h3
        exact hi.order a m d h1 c hc

theorem release_inv (k : Nat) : ∀ (h : Heap) (n : Nat) (R : List Nat), n < k → Inv h (n :: R) →
    Inv (Heap.release k h n) R ∧ (Heap.release k h n).size = h.size ∧
      (Heap.release k h n).parents = h.parents ∧ h.freed <+: (Heap.release k h n).freed := by
  induction k with
  | zero => intro h n R hn; cases hn
  | succ k ih =>
    intro h n R hn hi
    have hpos : 0 < h.rc n := by
      have := hi.count n
      rw [List.count_cons_self] at this
      omega
    have hf : ∀ (l : List Nat) (h' : Heap), (∀ p ∈ l, p < k) → Inv h' (l ++ R) →
        Inv (l.foldl (Heap.release k) h') R ∧ (l.foldl (Heap.release k) h').size = h'.size ∧
        (l.foldl (Heap.release k) h').parents = h'.parents ∧
        h'.freed <+: (l.foldl (Heap.release k) h').freed := by
      intro l
      induction l with
      | nil => intro h' _ hi'; exact ⟨hi', rfl, rfl, List.prefix_refl _⟩
      | cons p l ihl =>
        intro h' hl hi'
        obtain ⟨h1, h2, h3, h4⟩ := ih h' p (l ++ R) (hl p List.mem_cons_self) hi'
        obtain ⟨k1, k2, k3, k4⟩ := ihl (Heap.release k h' p)
          (fun q hq => hl q (List.mem_cons_of_mem _ hq)) h1
        exact ⟨k1, k2.trans h2, k3.trans h3, h4.trans k4⟩
    simp only [Heap.release]
    rw [if_neg (by omega)]
    split
    · rename_i h1
      obtain ⟨k1, k2, k3, k4⟩ := hf (h.parents n) _
        (fun p hp => Nat.lt_of_lt_of_le (hi.lt n p hp) (Nat.le_of_lt_succ hn)) (free_inv hi h1)
      exact ⟨k1, k2, k3, (List.prefix_append _ _).trans k4⟩
    · rename_i h1
      refine ⟨hi.setRc hpos (by omega) (fun m hm => ?_) ?_ (fun r hr => ?_), rfl, rfl,
        List.prefix_refl _⟩
      · rw [List.count_cons_of_ne (fun e => hm e.symm)]
      · rw [List.count_cons_self]; omega
      · exact hi.refs r (List.mem_cons_of_mem _ hr)

theorem drop_inv {h : Heap} {n : Nat} {R : List Nat} (hi : Inv h (n :: R)) :
    Inv (h.drop n) R ∧ (h.drop n).size = h.size ∧ (h.drop n).parents = h.parents ∧
      h.freed <+: (h.drop n).freed :=
  release_inv (n + 1) h n R (Nat.lt_succ_self n) hi

/-! ### Making nodes -/

theorem acquireAll_inv {R : List Nat} (ps : List Nat) : ∀ {h : Heap}, Inv h R →
    (∀ p ∈ ps, 0 < h.rc p) → Inv (ps.foldl Heap.acquire h) (ps ++ R) ∧
      (ps.foldl Heap.acquire h).size = h.size ∧ (ps.foldl Heap.acquire h).parents = h.parents ∧
      (ps.foldl Heap.acquire h).freed = h.freed ∧
      (∀ m, 0 < (ps.foldl Heap.acquire h).rc m ↔ 0 < h.rc m) := by
  induction ps generalizing R with
  | nil => intro h hi _; exact ⟨hi, rfl, rfl, rfl, fun _ => Iff.rfl⟩
  | cons p ps ih =>
    intro h hi hp
    rw [List.foldl_cons]
    obtain ⟨s1, s2, s3, s4⟩ := acquire_static h p
    obtain ⟨k1, k2, k3, k4, k5⟩ := ih (acquire_inv hi (hp p List.mem_cons_self)) (fun q hq =>
      (s4 q).2 (hp q (List.mem_cons_of_mem _ hq)))
    refine ⟨k1.congr fun n => ?_, k2.trans s1, k3.trans s2, k4.trans s3,
      fun m => (k5 m).trans (s4 m)⟩
    rw [List.cons_append, List.count_cons, List.count_append, List.count_append, List.count_cons]
    omega

theorem make_inv {h : Heap} {R : List Nat} (hi : Inv h R) {ps : List Nat}
    (hp : ∀ p ∈ ps, 0 < h.rc p) : Inv (h.make ps) (h.size :: R) := by
  obtain ⟨k1, k2, k3, k4, k5⟩ := acquireAll_inv ps hi hp
  have hpar : ∀ m, (h.make ps).parents m = if m = h.size then ps else h.parents m := by
    intro m
    show (if m = h.size then ps else (ps.foldl Heap.acquire h).parents m) = _
    rw [k3]
  have hrc : ∀ m, (h.make ps).rc m = if m = h.size then 1 else (ps.foldl Heap.acquire h).rc m :=
    fun _ => rfl
  have hsize : (h.make ps).size = h.size + 1 := rfl
  have hfreed : (h.make ps).freed = h.freed := k4
  have hplt : ∀ p ∈ ps, p < h.size := fun p hpm => hi.rc_lt (hp p hpm)
  have hinner : ∀ m, inner (h.make ps) m = inner (ps.foldl Heap.acquire h) m + ps.count m := by
    intro m
    unfold inner
    rw [hsize, List.range_succ, List.map_append, List.sum_append, k2]
    congr 1
    · congr 1
      apply List.map_congr_left
      intro c hc
      have : c ≠ h.size := Nat.ne_of_lt (List.mem_range.1 hc)
      rw [hrc, hpar, if_neg this, if_neg this, k3]
    · simp only [List.map_cons, List.map_nil, List.sum_cons, List.sum_nil]
      rw [hrc, if_pos rfl, if_pos Nat.one_pos, hpar, if_pos rfl]
      rfl
  refine ⟨fun n p hpm => ?_, fun m hm => ?_, fun r hr => ?_, fun m => ?_, fun m => ?_, ?_, ?_, k1.bad⟩
  · rw [hpar] at hpm
    split at hpm
    · rename_i e; rw [e]; exact hplt p hpm
    · exact hi.lt n p hpm
  · rw [hsize] at hm
    have : m ≠ h.size := by omega
    rw [hpar, hrc, if_neg this, if_neg this]
    exact ⟨(hi.unused m (by omega)).1, (k1.unused m (by rw [k2]; omega)).2⟩
  · rw [hsize]
    rcases List.mem_cons.1 hr with rfl | hr
    · omega
    · have := hi.refs r hr; omega
  · rw [hrc, hinner]
    by_cases e : m = h.size
    · subst e
      rw [if_pos rfl, List.count_cons_self]
      have c1 := k1.count h.size
      have c2 := (k1.unused h.size (by rw [k2]; exact Nat.le_refl _)).2
      rw [List.count_append] at c1
      omega
    · rw [if_neg e, List.count_cons_of_ne (fun e' => e e'.symm)]
      have c1 := k1.count m
      rw [List.count_append] at c1
      omega
  · rw [hfreed, hi.freed m, hsize, hrc]
    by_cases e : m = h.size
    · subst e
      rw [if_pos rfl]
      omega
    · rw [if_neg e]
      have := k5 m
      constructor
      · rintro ⟨h1, h2⟩; exact ⟨by omega, by omega⟩
      · rintro ⟨h1, h2⟩; exact ⟨by omega, by omega⟩
  · rw [hfreed]; exact hi.nodup
  · intro a n b he c hc
    rw [hfreed] at he
    rw [hpar] at hc
    split at hc
    · have h1 : n ∈ h.freed := by
        rw [he]; exact List.mem_append_right _ List.mem_cons_self
      have h2 := ((hi.freed n).1 h1).2
      have h3 := hp n hc
      omega
    · exact hi.order a n b he c hc

end Verif.Life
