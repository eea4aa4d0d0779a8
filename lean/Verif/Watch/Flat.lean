import Verif.Watch.Props
import Verif.Graph.Model

/-!
The nested lists of observers (the readers of a source, and the callbacks of each) as one list, as in the model of the
graph.
-/

namespace Verif.Watch

/-- The callbacks of source `n`, `detail/nodes.hpp:155` and `detail/signal.hpp:90-99`: reader by reader, and for each
those that were attached to it. -/
def St.flat (st : St) (n : Nat) : List Nat := (st.obs n).flatMap st.slots

/-! ### Lists -/

theorem next_append_mem {c : Nat} {a : List Nat} (b : List Nat) (h : c ∈ a) :
    next c (a ++ b) = (next c a).or b.head? ∨ (next c a = none ∧ next c (a ++ b) = b.head?) := by
  induction a with
  | nil => cases h
  | cons x a ih =>
    simp only [List.cons_append, next]
    by_cases hx : x = c
    · simp only [hx, if_true]
      cases a with
      | nil => right; exact ⟨rfl, rfl⟩
      | cons y a => left; rfl
    · simp only [hx, if_false]
      exact ih ((List.mem_cons.1 h).resolve_left fun e => hx e.symm)

theorem next_append_not {c : Nat} {a : List Nat} (b : List Nat) (h : c ∉ a) : next c (a ++ b) = next c b := by
  induction a with
  | nil => rfl
  | cons x a ih =>
    simp only [List.mem_cons, not_or] at h
    simp only [List.cons_append, next]
    rw [if_neg (fun e => h.1 e.symm), ih h.2]

theorem next_split {c : Nat} {a b : List Nat} (h : c ∉ a) : next c (a ++ c :: b) = b.head? := by
  rw [next_append_not _ h]
  simp [next]

theorem head_flatMap {l : List Nat} {s : Nat → List Nat} (h : ∀ r ∈ l, s r ≠ []) :
    (l.flatMap s).head? = l.head?.bind fun r => (s r).head? := by
  cases l with
  | nil => rfl
  | cons r l =>
    have := h r (by simp)
    cases hs : s r with
    | nil => exact absurd hs this
    | cons c d => simp [hs]

theorem next_flat {s : Nat → List Nat} {l : List Nat} {r c : Nat} (hne : ∀ q ∈ l, s q ≠ [])
    (ho : ∀ q, c ∈ s q → q = r) (hr : r ∈ l) (hc : c ∈ s r) :
    next c (l.flatMap s) = match next c (s r) with
      | some c' => some c'
      | none => (next r l).bind fun r' => (s r').head? := by
  induction l with
  | nil => cases hr
  | cons q l ih =>
    rw [List.flatMap_cons]
    by_cases hq : q = r
    · subst hq
      have hb := head_flatMap (l := l) (s := s) fun q hq => hne q (List.mem_cons_of_mem _ hq)
      have hn : next q (q :: l) = l.head? := by simp [next]
      rw [hn, ← hb]
      rcases next_append_mem (l.flatMap s) hc with h | ⟨h, h'⟩
      · rw [h]; cases next c (s q) <;> simp
      · rw [h', h]
    · rw [next_append_not _ (fun h => hq (ho q h))]
      have hr' : r ∈ l := (List.mem_cons.1 hr).resolve_left fun e => hq e.symm
      rw [ih (fun q h => hne q (List.mem_cons_of_mem _ h)) hr']
      simp [next, hq]

/-! ### The list -/

theorem Inv.obs_ne {st : St} (i : Inv st) {n r : Nat} (h : r ∈ st.obs n) : st.slots r ≠ [] :=
  (i.live r n ((i.link r n).2 h)).2

theorem mem_flat {st : St} {n c : Nat} : c ∈ st.flat n ↔ ∃ r, r ∈ st.obs n ∧ c ∈ st.slots r := by
  simp [St.flat, List.mem_flatMap]

theorem flat_mem {st : St} (i : Inv st) {n r c : Nat} (hc : c ∈ st.slots r) : c ∈ st.flat n ↔ st.linked r = some n := by
  rw [mem_flat, i.link]
  constructor
  · rintro ⟨q, h1, h2⟩
    rwa [← i.owner _ _ _ h2 hc]
  · exact fun h => ⟨r, h, hc⟩

theorem flat_nodup {st : St} (i : Inv st) (n : Nat) : (st.flat n).Nodup := by
  unfold St.flat
  have h1 := i.nodup n
  generalize st.obs n = l at h1
  induction l with
  | nil => simp
  | cons r l ih =>
    rw [List.flatMap_cons, List.nodup_append]
    rw [List.nodup_cons] at h1
    refine ⟨i.once r, ih h1.2, ?_⟩
    intro a ha b hb hab
    subst hab
    obtain ⟨q, hq, hb⟩ := List.mem_flatMap.1 hb
    exact h1.1 (i.owner _ _ _ ha hb ▸ hq)

theorem flat_filter {st : St} (i : Inv st) (n r : Nat) :
    ((st.obs n).erase r).flatMap st.slots = (st.flat n).filter fun c => c ∉ st.slots r := by
  unfold St.flat
  have h1 := i.nodup n
  generalize st.obs n = l at h1
  have hout : ∀ q, q ≠ r → (st.slots q).filter (fun c => decide (c ∉ st.slots r)) = st.slots q := by
    intro q hq
    rw [List.filter_eq_self]
    intro c hc
    simp only [decide_not, Bool.not_eq_eq_eq_not, Bool.not_true, decide_eq_false_iff_not]
    exact fun h => hq (i.owner _ _ _ hc h)
  have hin : (st.slots r).filter (fun c => decide (c ∉ st.slots r)) = [] := by
    rw [List.filter_eq_nil_iff]
    intro c hc
    simp [hc]
  induction l with
  | nil => rfl
  | cons q l ih =>
    rw [List.nodup_cons] at h1
    by_cases hq : q = r
    · subst hq
      rw [List.erase_cons_head, List.flatMap_cons, List.filter_append, hin, List.nil_append]
      have := ih h1.2
      rwa [List.erase_of_not_mem h1.1] at this
    · rw [List.erase_cons_tail (by simpa using hq), List.flatMap_cons, List.flatMap_cons, List.filter_append, hout q hq,
        ih h1.2]

theorem flatMap_upd_not {s : Nat → List Nat} {l : List Nat} {r : Nat} {v : List Nat} (h : r ∉ l) :
    l.flatMap (upd s r v) = l.flatMap s := by
  induction l with
  | nil => rfl
  | cons q l ih =>
    simp only [List.mem_cons, not_or] at h
    rw [List.flatMap_cons, List.flatMap_cons, ih h.2, upd_ne _ _ (fun e => h.1 e.symm)]

theorem insert_at {a b : List Nat} {c : Nat} : ∃ i, a ++ c :: b = (a ++ b).take i ++ c :: (a ++ b).drop i :=
  ⟨a.length, by simp⟩

/-- Attaching a callback inserts it into one list. -/
theorem watch_flat {st : St} (i : Inv st) (r c : Nat) :
    ((st.watch r c).flat = st.flat ∧ st.linked r = none ∧ (st.slots r = [] → st.node r = none)) ∨
    ∃ n A B, st.flat n = A ++ B ∧ (st.watch r c).flat n = A ++ c :: B ∧
      (∀ m, m ≠ n → (st.watch r c).flat m = st.flat m) ∧ ((st.watch r c).linked r = some n) ∧
      ((st.slots r = [] ∧ B = []) ∨ ∃ A', A = A' ++ st.slots r ∧ st.slots r ≠ []) := by
  obtain ⟨e1, -, e3, e4, -⟩ := watch_eq i (r := r) (c := c)
  by_cases hs : st.slots r = []
  · have hno : ∀ m, r ∉ st.obs m := fun m h => i.obs_ne h hs
    cases hn : st.node r with
    | none =>
      left
      refine ⟨?_, ?_, fun _ => rfl⟩
      · funext m
        unfold St.flat
        rw [e4, if_neg (by simp [hn]), e1, flatMap_upd_not (hno m)]
      · cases hl : st.linked r with
        | none => rfl
        | some m => exact absurd ((i.link r m).1 hl) (hno m)
    | some n =>
      right
      refine ⟨n, st.flat n, [], by simp, ?_, ?_, by rw [e3, if_pos hs]; simp [hn], .inl ⟨hs, rfl⟩⟩
      · unfold St.flat
        rw [e4, if_pos ⟨hs, hn⟩, e1, List.flatMap_append, flatMap_upd_not (hno n)]
        simp [hs]
      · intro m hm
        unfold St.flat
        rw [e4, if_neg (by rw [hn]; rintro ⟨-, h⟩; cases h; exact hm rfl), e1, flatMap_upd_not (hno m)]
  · have hobs : (st.watch r c).obs = st.obs := by
      funext m; rw [e4, if_neg (fun h => hs h.1)]
    cases hl : st.linked r with
    | none =>
      left
      refine ⟨?_, rfl, fun h => absurd h hs⟩
      funext m
      unfold St.flat
      rw [hobs, e1, flatMap_upd_not]
      intro h
      rw [(i.link r m).2 h] at hl
      cases hl
    | some n =>
      right
      have hmem := (i.link r n).1 hl
      obtain ⟨A, B, hAB⟩ := List.append_of_mem hmem
      have hnd := i.nodup n
      rw [hAB, List.nodup_append] at hnd
      have hA : r ∉ A := fun h => hnd.2.2 r h r (by simp) rfl
      have hB : r ∉ B := (List.nodup_cons.1 hnd.2.1).1
      refine ⟨n, A.flatMap st.slots ++ st.slots r, B.flatMap st.slots, ?_, ?_, ?_, ?_, .inr ⟨_, rfl, hs⟩⟩
      · unfold St.flat; rw [hAB]; simp
      · unfold St.flat
        rw [hobs, hAB, e1, List.flatMap_append, List.flatMap_cons, flatMap_upd_not hA, flatMap_upd_not hB]
        simp
      · intro m hm
        unfold St.flat
        rw [hobs, e1, flatMap_upd_not]
        intro h
        rw [(i.link r m).2 h] at hl
        cases hl; exact hm rfl
      · rw [e3, if_neg hs]; exact hl

theorem relink_at {t : St} {r : Nat} (hl : t.linked r = none) (n : Nat) :
    (t.relink r).obs n = if t.slots r ≠ [] ∧ t.node r = some n then t.obs n ++ [r] else t.obs n := by
  unfold St.relink
  cases hn : t.node r with
  | none => simp
  | some m =>
    by_cases hs : t.slots r = []
    · simp [hs]
    · simp only [ne_eq, hs, not_false_eq_true, if_true, true_and]
      unfold St.link
      rw [hl]
      by_cases hm : m = n
      · subst hm; simp
      · rw [if_neg (fun e => hm (Option.some.inj e))]
        exact upd_ne _ _ (fun e => hm e.symm)

/-- Dropping the callbacks of a reader. -/
theorem drop_flat {st s : St} (i : Inv st) (r : Nat) (ho : s.obs = st.obs) (hl : s.linked = st.linked)
    (hs : s.slots = upd st.slots r []) (n : Nat) :
    (s.unlink r).flat n = (st.flat n).filter fun c => c ∉ st.slots r := by
  obtain ⟨-, -, -, -, -, -, u7, -⟩ := unlink_stack s r
  obtain ⟨-, l2, -⟩ := unlink_linked (st := s) (by rw [ho, hl]; exact i.link) (by rw [ho]; exact i.nodup) r
  rw [St.flat, l2, u7, ← flat_filter i, hs, ho]
  exact flatMap_upd_not (i.nodup n).not_mem_erase

/-! ### Steps of the library -/

/-- Only library code runs. -/
def LibRun (st st' : St) : Prop := ∃ ops, (∀ op ∈ ops, op = Op.lib) ∧ Run st ops st'

theorem LibRun.one {st st' : St} (h : step st .lib = some st') : LibRun st st' :=
  ⟨[.lib], by simp, .cons h (.nil _)⟩

theorem LibRun.cons {st s1 st' : St} (h : step st .lib = some s1) (h' : LibRun s1 st') : LibRun st st' := by
  obtain ⟨ops, h1, h2⟩ := h'
  refine ⟨.lib :: ops, ?_, .cons h h2⟩
  intro op ho
  rcases List.mem_cons.1 ho with rfl | ho
  · rfl
  · exact h1 op ho

theorem lib_step {st : St} (hu : st.ub = false) (hc : st.ctrl ≠ .user) : step st .lib = st.lib := by
  simp [step, hu, hc]

end Verif.Watch
