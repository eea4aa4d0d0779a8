import Verif.Loop.Asio

/-!
C116: asynchronous functions and tasks of the loop on Boost.Asio.
-/

namespace Verif.Asio

/-! ## What the log says -/

/-- The posted tasks. -/
def posts : List Ev → List Nat
  | [] => []
  | .posted t :: l => t :: posts l
  | _ :: l => posts l

/-- The tasks that began. -/
def begins : List Ev → List Nat
  | [] => []
  | .began _ t :: l => t :: begins l
  | _ :: l => begins l

/-- The tasks that ended, normally or by an exception. -/
def ends : List Ev → List Nat
  | [] => []
  | .ended t :: l => t :: ends l
  | .threw t :: l => t :: ends l
  | _ :: l => ends l

/-- The functions that `async` was called with. -/
def asyncs : List Ev → List Nat
  | [] => []
  | .async t :: l => t :: asyncs l
  | _ :: l => asyncs l

/-- The asynchronous functions that were called. -/
def starts : List Ev → List Nat
  | [] => []
  | .started t :: l => t :: starts l
  | _ :: l => starts l

/-- The asynchronous functions that returned. -/
def finishes : List Ev → List Nat
  | [] => []
  | .finished t :: l => t :: finishes l
  | _ :: l => finishes l

theorem posts_append (a b : List Ev) : posts (a ++ b) = posts a ++ posts b := by
  induction a with
  | nil => rfl
  | cons e l ih => cases e <;> simp [posts, ih]

theorem begins_append (a b : List Ev) : begins (a ++ b) = begins a ++ begins b := by
  induction a with
  | nil => rfl
  | cons e l ih => cases e <;> simp [begins, ih]

theorem ends_append (a b : List Ev) : ends (a ++ b) = ends a ++ ends b := by
  induction a with
  | nil => rfl
  | cons e l ih => cases e <;> simp [ends, ih]

theorem asyncs_append (a b : List Ev) : asyncs (a ++ b) = asyncs a ++ asyncs b := by
  induction a with
  | nil => rfl
  | cons e l ih => cases e <;> simp [asyncs, ih]

theorem starts_append (a b : List Ev) : starts (a ++ b) = starts a ++ starts b := by
  induction a with
  | nil => rfl
  | cons e l ih => cases e <;> simp [starts, ih]

theorem finishes_append (a b : List Ev) : finishes (a ++ b) = finishes a ++ finishes b := by
  induction a with
  | nil => rfl
  | cons e l ih => cases e <;> simp [finishes, ih]

/-- Which task is running, as far as that makes sense: no task begins while another one is running, and only
the running one ends. -/
def track : Option Nat → Ev → Option (Option Nat)
  | none, .began _ t => some (some t)
  | some _, .began _ _ => none
  | c, .ended t => if c = some t then some none else none
  | c, .threw t => if c = some t then some none else none
  | c, _ => some c

/-! ## The invariant -/

structure Inv (st : St) : Prop where
  work : st.work = st.queue.length + st.cur.toList.length + st.fns.length
  order : posts st.log = begins st.log ++ st.queue
  ended : begins st.log = ends st.log ++ st.cur.toList.map (·.2)
  serial : st.log.foldlM track none = some (st.cur.map (·.2))
  runs : st.runs.Nodup
  curRun : ∀ i t, st.cur = some (i, t) → i ∈ st.runs
  fresh : ∀ t, t ∈ posts st.log ∨ t ∈ asyncs st.log → t < st.next
  once : (posts st.log).Nodup
  onceA : (asyncs st.log).Nodup
  fnsOnce : (st.fns.map (·.1)).Nodup
  fnsOld : ∀ t p, (t, p) ∈ st.fns → t ∈ asyncs st.log
  left : ∀ t ∈ asyncs st.log, t ∈ finishes st.log ∨ (t, .ready) ∈ st.fns ∨ (t, .busy) ∈ st.fns
  ready : ∀ t, (t, .ready) ∈ st.fns → t ∉ starts st.log
  busy : ∀ t, (t, .busy) ∈ st.fns → t ∈ starts st.log ∧ t ∉ finishes st.log
  startsOnce : (starts st.log).Nodup
  finishesOnce : (finishes st.log).Nodup
  startsAsync : ∀ t ∈ starts st.log, t ∈ asyncs st.log
  finishesStarts : ∀ t ∈ finishes st.log, t ∈ starts st.log

theorem inv_start (b : Bool) : Inv (start b) := by
  constructor <;> simp [start, posts, begins, ends, asyncs, starts, finishes]

theorem setPhase_length (t : Nat) (p : Phase) (l : List (Nat × Phase)) : (setPhase t p l).length = l.length := by
  induction l with
  | nil => rfl
  | cons x l ih =>
    simp only [setPhase]
    split <;> simp [ih]

theorem setPhase_keys (t : Nat) (p : Phase) (l : List (Nat × Phase)) : (setPhase t p l).map (·.1) = l.map (·.1) := by
  induction l with
  | nil => rfl
  | cons x l ih =>
    simp only [setPhase]
    split
    · rename_i h; simp [h]
    · simp [ih]

theorem mem_setPhase {t : Nat} {p q : Phase} {l : List (Nat × Phase)} (hn : (l.map (·.1)).Nodup) (h : (t, q) ∈ l)
    (u : Nat) (r : Phase) : (u, r) ∈ setPhase t p l ↔ (u = t ∧ r = p) ∨ (u ≠ t ∧ (u, r) ∈ l) := by
  induction l with
  | nil => cases h
  | cons x l ih =>
    obtain ⟨y, s⟩ := x
    simp only [List.map_cons, List.nodup_cons] at hn
    simp only [setPhase]
    by_cases hy : y = t
    · subst hy
      rw [if_pos rfl]
      constructor
      · intro hm
        rcases List.mem_cons.1 hm with e | e
        · cases e; exact .inl ⟨rfl, rfl⟩
        · refine .inr ⟨fun e' => hn.1 ?_, List.mem_cons_of_mem _ e⟩
          rw [← e']
          exact List.mem_map.2 ⟨(u, r), e, rfl⟩
      · rintro (⟨rfl, rfl⟩ | ⟨hne, hm⟩)
        · simp
        · rcases List.mem_cons.1 hm with e | e
          · cases e; exact absurd rfl hne
          · exact List.mem_cons_of_mem _ e
    · rw [if_neg hy]
      have h' : (t, q) ∈ l := by
        rcases List.mem_cons.1 h with e | e
        · cases e; exact absurd rfl hy
        · exact e
      rw [List.mem_cons, ih hn.2 h', List.mem_cons]
      constructor
      · rintro (e | e | e)
        · cases e; exact .inr ⟨hy, .inl rfl⟩
        · exact .inl e
        · exact .inr ⟨e.1, .inr e.2⟩
      · rintro (e | ⟨e, e' | e'⟩)
        · exact .inr (.inl e)
        · exact .inl e'
        · exact .inr (.inr ⟨e, e'⟩)

theorem fns_unique {l : List (Nat × Phase)} (hn : (l.map (·.1)).Nodup) {t : Nat} {p q : Phase} (h : (t, p) ∈ l)
    (h' : (t, q) ∈ l) : p = q := by
  induction l with
  | nil => cases h
  | cons x l ih =>
    simp only [List.map_cons, List.nodup_cons] at hn
    rcases List.mem_cons.1 h with e | e <;> rcases List.mem_cons.1 h' with e' | e'
    · rw [← e] at e'; cases e'; rfl
    · exact absurd (List.mem_map.2 ⟨_, e', by rw [← e]⟩) hn.1
    · exact absurd (List.mem_map.2 ⟨_, e, by rw [← e']⟩) hn.1
    · exact ih hn.2 e e'

/-- What one event adds to what the log says. -/
macro "log_simp" : tactic => `(tactic| simp only [St.say, posts_append, begins_append, ends_append, asyncs_append,
  starts_append, finishes_append, posts, begins, ends, asyncs, starts, finishes, List.append_nil])

theorem inv_step {st s : St} {op : Op} (i : Inv st) (h : step st op = some s) : Inv s := by
  cases op with
  | post w =>
    simp only [step] at h
    split at h <;> cases h
    constructor <;> log_simp
    · have := i.work; simp only [List.length_append, List.length_singleton]; omega
    · rw [i.order, List.append_assoc]
    · exact i.ended
    · rw [List.foldlM_append, i.serial]; cases st.cur <;> rfl
    · exact i.runs
    · exact i.curRun
    · intro t ht
      have := i.fresh t
      simp only [List.mem_append, List.mem_singleton] at ht
      rcases ht with (h | h) | h
      · exact Nat.lt_succ_of_lt (this (.inl h))
      · omega
      · exact Nat.lt_succ_of_lt (this (.inr h))
    · rw [List.nodup_append]
      refine ⟨i.once, by simp, ?_⟩
      intro a ha b hb e
      rw [List.mem_singleton] at hb
      have := i.fresh a (.inl ha)
      omega
    · exact i.onceA
    · exact i.fnsOnce
    · exact i.fnsOld
    · exact i.left
    · exact i.ready
    · exact i.busy
    · exact i.startsOnce
    · exact i.finishesOnce
    · exact i.startsAsync
    · exact i.finishesStarts
  | async w =>
    simp only [step] at h
    split at h <;> cases h
    have hnew : st.next ∉ asyncs st.log := fun h => Nat.lt_irrefl _ (i.fresh _ (.inr h))
    constructor <;> log_simp
    · have := i.work; simp only [List.length_append, List.length_singleton]; omega
    · exact i.order
    · exact i.ended
    · rw [List.foldlM_append, i.serial]; cases st.cur <;> rfl
    · exact i.runs
    · exact i.curRun
    · intro t ht
      have := i.fresh t
      simp only [List.mem_append, List.mem_singleton] at ht
      rcases ht with h | h | h
      · exact Nat.lt_succ_of_lt (this (.inl h))
      · exact Nat.lt_succ_of_lt (this (.inr h))
      · omega
    · exact i.once
    · rw [List.nodup_append]
      refine ⟨i.onceA, by simp, ?_⟩
      intro a ha b hb e
      rw [List.mem_singleton] at hb
      have := i.fresh a (.inr ha)
      omega
    · rw [List.map_append, List.nodup_append]
      refine ⟨i.fnsOnce, by simp, ?_⟩
      intro a ha b hb e
      simp only [List.map_cons, List.map_nil, List.mem_singleton] at hb
      obtain ⟨⟨t, p⟩, hm, rfl⟩ := List.mem_map.1 ha
      have hm := i.fnsOld t p hm
      have e : t = b := e
      rw [e, hb] at hm
      exact hnew hm
    · intro t p hm
      rcases List.mem_append.1 hm with hm | hm
      · exact List.mem_append_left _ (i.fnsOld t p hm)
      · cases List.mem_singleton.1 hm
        exact List.mem_append_right _ (by simp)
    · intro t ht
      rcases List.mem_append.1 ht with ht | ht
      · rcases i.left t ht with h | h | h
        · exact .inl h
        · exact .inr (.inl (List.mem_append_left _ h))
        · exact .inr (.inr (List.mem_append_left _ h))
      · rw [List.mem_singleton.1 ht]; exact .inr (.inl (List.mem_append_right _ (by simp)))
    · intro t ht
      rcases List.mem_append.1 ht with ht | ht
      · exact i.ready t ht
      · cases List.mem_singleton.1 ht
        exact fun h => hnew (i.startsAsync _ h)
    · intro t ht
      rcases List.mem_append.1 ht with ht | ht
      · exact i.busy t ht
      · cases List.mem_singleton.1 ht
    · exact i.startsOnce
    · exact i.finishesOnce
    · exact fun t ht => List.mem_append_left _ (i.startsAsync t ht)
    · exact i.finishesStarts
  | finish w =>
    simp only [step] at h
    split at h <;> cases h
    exact { i with }
  | run j =>
    simp only [step] at h
    split at h <;> cases h
    rename_i hj
    refine { i with runs := ?_, curRun := ?_ }
    · show (st.runs ++ [j]).Nodup
      rw [List.nodup_append]
      refine ⟨i.runs, by simp, ?_⟩
      intro a ha b hb e
      rw [List.mem_singleton] at hb
      subst hb; subst e
      exact hj ha
    · exact fun a t h => List.mem_append_left _ (i.curRun a t h)
  | take j =>
    simp only [step] at h
    split at h
    · rename_i hc
      split at h <;> cases h
      rename_i t q hq
      constructor <;> log_simp
      · have := i.work
        rw [hq, hc.2.1] at this
        simp at this ⊢
        omega
      · rw [i.order, hq, List.append_assoc]; rfl
      · have := i.ended
        rw [hc.2.1] at this
        rw [this]; simp
      · rw [List.foldlM_append, i.serial, hc.2.1]; rfl
      · exact i.runs
      · intro a b e
        cases e
        exact hc.1
      · exact i.fresh
      · exact i.once
      · exact i.onceA
      · exact i.fnsOnce
      · exact i.fnsOld
      · exact i.left
      · exact i.ready
      · exact i.busy
      · exact i.startsOnce
      · exact i.finishesOnce
      · exact i.startsAsync
      · exact i.finishesStarts
    · cases h
  | ret =>
    simp only [step] at h
    split at h <;> cases h
    rename_i j t hc
    constructor <;> log_simp
    · have := i.work
      rw [hc] at this
      simp at this ⊢
      omega
    · exact i.order
    · have := i.ended
      rw [hc] at this
      rw [this]; simp
    · rw [List.foldlM_append, i.serial, hc]; simp [track]
    · exact i.runs
    · intro a b e; cases e
    · exact i.fresh
    · exact i.once
    · exact i.onceA
    · exact i.fnsOnce
    · exact i.fnsOld
    · exact i.left
    · exact i.ready
    · exact i.busy
    · exact i.startsOnce
    · exact i.finishesOnce
    · exact i.startsAsync
    · exact i.finishesStarts
  | throw =>
    simp only [step] at h
    split at h <;> cases h
    rename_i j t hc
    constructor <;> log_simp
    · have := i.work
      rw [hc] at this
      simp at this ⊢
      omega
    · exact i.order
    · have := i.ended
      rw [hc] at this
      rw [this]; simp
    · rw [List.foldlM_append, i.serial, hc]; simp [track]
    · exact i.runs.erase j
    · intro a b e; cases e
    · exact i.fresh
    · exact i.once
    · exact i.onceA
    · exact i.fnsOnce
    · exact i.fnsOld
    · exact i.left
    · exact i.ready
    · exact i.busy
    · exact i.startsOnce
    · exact i.finishesOnce
    · exact i.startsAsync
    · exact i.finishesStarts
  | leave j =>
    simp only [step] at h
    split at h <;> cases h
    rename_i hc
    constructor <;> log_simp
    · exact i.work
    · exact i.order
    · exact i.ended
    · rw [List.foldlM_append, i.serial]; cases st.cur <;> rfl
    · exact i.runs.erase j
    · intro a t e
      have e : st.cur = some (a, t) := e
      have := hc.2.1
      rw [e] at this
      rw [List.mem_erase_of_ne (by simpa using this)]
      exact i.curRun a t e
    · exact i.fresh
    · exact i.once
    · exact i.onceA
    · exact i.fnsOnce
    · exact i.fnsOld
    · exact i.left
    · exact i.ready
    · exact i.busy
    · exact i.startsOnce
    · exact i.finishesOnce
    · exact i.startsAsync
    · exact i.finishesStarts
  | begin t =>
    simp only [step] at h
    split at h <;> cases h
    rename_i hm
    have hs := mem_setPhase (p := .busy) i.fnsOnce hm
    constructor <;> log_simp
    · rw [setPhase_length]; exact i.work
    · exact i.order
    · exact i.ended
    · rw [List.foldlM_append, i.serial]; cases st.cur <;> rfl
    · exact i.runs
    · exact i.curRun
    · exact i.fresh
    · exact i.once
    · exact i.onceA
    · rw [setPhase_keys]; exact i.fnsOnce
    · intro u p hu
      rcases (hs u p).1 hu with ⟨rfl, -⟩ | ⟨-, hu⟩
      · exact i.fnsOld _ _ hm
      · exact i.fnsOld _ _ hu
    · intro u hu
      by_cases e : u = t
      · subst e; exact .inr (.inr ((hs _ _).2 (.inl ⟨rfl, rfl⟩)))
      · rcases i.left u hu with h | h | h
        · exact .inl h
        · exact .inr (.inl ((hs _ _).2 (.inr ⟨e, h⟩)))
        · exact .inr (.inr ((hs _ _).2 (.inr ⟨e, h⟩)))
    · intro u hu
      rcases (hs u _).1 hu with ⟨-, hu⟩ | ⟨hne, hu⟩
      · cases hu
      · simp only [List.mem_append, List.mem_singleton, not_or]
        exact ⟨i.ready u hu, hne⟩
    · intro u hu
      rcases (hs u _).1 hu with ⟨rfl, -⟩ | ⟨hne, hu⟩
      · exact ⟨by simp, fun h => i.ready _ hm (i.finishesStarts _ h)⟩
      · exact ⟨List.mem_append_left _ (i.busy u hu).1, (i.busy u hu).2⟩
    · rw [List.nodup_append]
      refine ⟨i.startsOnce, by simp, ?_⟩
      intro a ha b hb e
      rw [List.mem_singleton] at hb
      subst hb; subst e
      exact i.ready _ hm ha
    · exact i.finishesOnce
    · intro u hu
      rcases List.mem_append.1 hu with hu | hu
      · exact i.startsAsync u hu
      · rw [List.mem_singleton.1 hu]; exact i.fnsOld _ _ hm
    · exact fun u hu => List.mem_append_left _ (i.finishesStarts u hu)
  | over t =>
    simp only [step] at h
    split at h <;> cases h
    rename_i hm
    have hs := mem_setPhase (p := .over) i.fnsOnce hm
    constructor <;> log_simp
    · rw [setPhase_length]; exact i.work
    · exact i.order
    · exact i.ended
    · rw [List.foldlM_append, i.serial]; cases st.cur <;> rfl
    · exact i.runs
    · exact i.curRun
    · exact i.fresh
    · exact i.once
    · exact i.onceA
    · rw [setPhase_keys]; exact i.fnsOnce
    · intro u p hu
      rcases (hs u p).1 hu with ⟨rfl, -⟩ | ⟨-, hu⟩
      · exact i.fnsOld _ _ hm
      · exact i.fnsOld _ _ hu
    · intro u hu
      by_cases e : u = t
      · subst e; exact .inl (by simp)
      · rcases i.left u hu with h | h | h
        · exact .inl (List.mem_append_left _ h)
        · exact .inr (.inl ((hs _ _).2 (.inr ⟨e, h⟩)))
        · exact .inr (.inr ((hs _ _).2 (.inr ⟨e, h⟩)))
    · intro u hu
      rcases (hs u _).1 hu with ⟨-, hu⟩ | ⟨hne, hu⟩
      · cases hu
      · exact i.ready u hu
    · intro u hu
      rcases (hs u _).1 hu with ⟨-, hu⟩ | ⟨hne, hu⟩
      · cases hu
      · simp only [List.mem_append, List.mem_singleton, not_or]
        exact ⟨(i.busy u hu).1, (i.busy u hu).2, hne⟩
    · exact i.startsOnce
    · rw [List.nodup_append]
      refine ⟨i.finishesOnce, by simp, ?_⟩
      intro a ha b hb e
      rw [List.mem_singleton] at hb
      subst hb; subst e
      exact (i.busy _ hm).2 ha
    · exact i.startsAsync
    · intro u hu
      rcases List.mem_append.1 hu with hu | hu
      · exact i.finishesStarts u hu
      · rw [List.mem_singleton.1 hu]; exact (i.busy _ hm).1
  | release t =>
    simp only [step] at h
    split at h <;> cases h
    rename_i hm
    have hk : ∀ u p, p ≠ .over → (u, p) ∈ st.fns → (u, p) ∈ st.fns.erase (t, .over) := by
      intro u p hp hu
      rw [List.mem_erase_of_ne (by intro e; cases e; exact hp rfl)]
      exact hu
    refine { i with work := ?_, fnsOnce := ?_, fnsOld := ?_, left := ?_, ready := ?_, busy := ?_ }
    · show st.work - 1 = st.queue.length + st.cur.toList.length + (st.fns.erase (t, .over)).length
      rw [List.length_erase_of_mem hm, i.work]
      have := List.length_pos_of_mem hm
      omega
    · exact i.fnsOnce.sublist (List.erase_sublist.map _)
    · exact fun u p hu => i.fnsOld u p (List.mem_of_mem_erase hu)
    · intro u hu
      rcases i.left u hu with h | h | h
      · exact .inl h
      · exact .inr (.inl (hk _ _ (by simp) h))
      · exact .inr (.inr (hk _ _ (by simp) h))
    · exact fun u hu => i.ready u (List.mem_of_mem_erase hu)
    · exact fun u hu => i.busy u (List.mem_of_mem_erase hu)
  | restart =>
    simp only [step] at h
    split at h <;> cases h
    exact { i with }

theorem Reach.inv {st : St} (h : Reach st) : Inv st := by
  induction h with
  | start b => exact inv_start b
  | step op _ h ih => exact inv_step ih h

/-! ## The properties -/

theorem mem_posts {t : Nat} {l : List Ev} : t ∈ posts l ↔ Ev.posted t ∈ l := by
  induction l with
  | nil => simp [posts]
  | cons e l ih => cases e <;> simp [posts, ih]

theorem mem_ends {t : Nat} {l : List Ev} : t ∈ ends l ↔ Ev.ended t ∈ l ∨ Ev.threw t ∈ l := by
  induction l with
  | nil => simp [ends]
  | cons e l ih => cases e <;> simp [ends, ih, or_assoc, or_left_comm]

theorem mem_asyncs {t : Nat} {l : List Ev} : t ∈ asyncs l ↔ Ev.async t ∈ l := by
  induction l with
  | nil => simp [asyncs]
  | cons e l ih => cases e <;> simp [asyncs, ih]

theorem mem_finishes {t : Nat} {l : List Ev} : t ∈ finishes l ↔ Ev.finished t ∈ l := by
  induction l with
  | nil => simp [finishes]
  | cons e l ih => cases e <;> simp [finishes, ih]

/-- C116: when `run()` returns, normally and without a call of `stop()`, every task that was posted has ended and every
asynchronous function has returned. -/
theorem C116_return {st s : St} (hr : Reach st) {j : Nat} (h : step st (.leave j) = some s) (hs : st.stopped = false) :
    (∀ t, Ev.posted t ∈ s.log → Ev.ended t ∈ s.log ∨ Ev.threw t ∈ s.log) ∧
    ∀ t, Ev.async t ∈ s.log → Ev.finished t ∈ s.log := by
  have i := hr.inv
  simp only [step] at h
  split at h <;> cases h
  rename_i hc
  have hw : st.work = 0 := by
    rcases hc.2.2 with h | h
    · rw [hs] at h; cases h
    · exact h
  have hz := i.work
  rw [hw] at hz
  have hq : st.queue = [] := List.eq_nil_of_length_eq_zero (by omega)
  have hf : st.fns = [] := List.eq_nil_of_length_eq_zero (by omega)
  have hcur : st.cur.toList = [] := List.eq_nil_of_length_eq_zero (by omega)
  refine ⟨fun t ht => ?_, fun t ht => ?_⟩
  · have ht : t ∈ posts st.log := by
      rw [mem_posts]
      simpa [St.say] using ht
    rw [i.order, hq, List.append_nil, i.ended, hcur, List.map_nil, List.append_nil, mem_ends] at ht
    rcases ht with h | h
    · exact .inl (List.mem_append_left _ h)
    · exact .inr (List.mem_append_left _ h)
  · have ht : t ∈ asyncs st.log := by
      rw [mem_asyncs]
      simpa [St.say] using ht
    rcases i.left t ht with h | h | h
    · exact List.mem_append_left _ (mem_finishes.1 h)
    · rw [hf] at h; cases h
    · rw [hf] at h; cases h

/-- C116: tasks begin in the order in which they were posted, each once. -/
theorem C116_order {st : St} (hr : Reach st) : begins st.log <+: posts st.log ∧ (posts st.log).Nodup :=
  ⟨⟨st.queue, hr.inv.order.symm⟩, hr.inv.once⟩

theorem track_later {t j u : Nat} {B C : List Ev} (h : (B ++ .began j u :: C).foldlM track (some t) ≠ none) :
    Ev.ended t ∈ B ∨ Ev.threw t ∈ B := by
  induction B with
  | nil => exact absurd rfl h
  | cons e B ih =>
    cases e with
    | began a b => exact absurd rfl h
    | ended a =>
      by_cases e : t = a
      · subst e; simp
      · exact absurd (by simp [track, e]) h
    | threw a =>
      by_cases e : t = a
      · subst e; simp
      · exact absurd (by simp [track, e]) h
    | _ =>
      rcases ih (by intro h'; exact h (by rw [← h']; rfl)) with h1 | h1
      · exact .inl (List.mem_cons_of_mem _ h1)
      · exact .inr (List.mem_cons_of_mem _ h1)

/-- C116: tasks do not overlap, also if several threads are in `run()`: before a task begins, those that began earlier
have ended. -/
theorem C116_serial {st : St} (hr : Reach st) {A B C : List Ev} {i t j u : Nat}
    (h : st.log = A ++ .began i t :: (B ++ .began j u :: C)) : Ev.ended t ∈ B ∨ Ev.threw t ∈ B := by
  have hs := hr.inv.serial
  rw [h, List.foldlM_append] at hs
  cases hA : A.foldlM track none with
  | none => rw [hA] at hs; cases hs
  | some c =>
    rw [hA] at hs
    cases c with
    | some c => cases hs
    | none =>
      have hs : (B ++ .began j u :: C).foldlM track (some t) = some (st.cur.map (·.2)) := hs
      exact track_later (by rw [hs]; simp)

/-- C116: tasks run in threads that are in `run()`. -/
theorem C116_thread {st s : St} {op : Op} (h : step st op = some s) {d : List Ev} (hd : s.log = st.log ++ d)
    {j t : Nat} (hb : Ev.began j t ∈ d) : op = .take j ∧ j ∈ st.runs := by
  have same : ∀ {e : List Ev}, s.log = st.log ++ e → Ev.began j t ∈ e := by
    intro e he
    rw [hd] at he
    rw [← List.append_cancel_left he]; exact hb
  cases op <;> simp only [step] at h
  case take i =>
    split at h
    · rename_i hc
      split at h <;> cases h
      have := same (e := [_]) rfl
      simp only [List.mem_singleton, Ev.began.injEq] at this
      rw [this.1]
      exact ⟨rfl, hc.1⟩
    · cases h
  all_goals
    split at h <;> cases h
    first
      | exact absurd (same (e := [_]) rfl) (by simp)
      | exact absurd (same (e := []) (by simp)) (by simp)

/-- C116: an asynchronous function is called at most once, after `async`, and returns after it was called. -/
theorem C116_async_once {st : St} (hr : Reach st) : (starts st.log).Nodup ∧ (finishes st.log).Nodup ∧
    (∀ t ∈ starts st.log, t ∈ asyncs st.log) ∧ ∀ t ∈ finishes st.log, t ∈ starts st.log :=
  ⟨hr.inv.startsOnce, hr.inv.finishesOnce, hr.inv.startsAsync, hr.inv.finishesStarts⟩

/-- What the loop and the threads do by themselves: everything but posting, calling `async`, `finish` and `run()`, and
throwing. -/
def Op.inner : Op → Bool
  | .take _ | .ret | .leave _ | .begin _ | .over _ | .release _ => true
  | _ => false

def Phase.rest : Phase → Nat
  | .ready => 3
  | .busy => 2
  | .over => 1

/-- How much is left to do. -/
def St.rest (st : St) : Nat :=
  2 * st.queue.length + st.cur.toList.length + (st.fns.map (·.2.rest)).sum + st.runs.length

theorem setPhase_rest {t : Nat} {p q : Phase} {l : List (Nat × Phase)} (hn : (l.map (·.1)).Nodup) (h : (t, q) ∈ l) :
    ((setPhase t p l).map (·.2.rest)).sum + q.rest = (l.map (·.2.rest)).sum + p.rest := by
  induction l with
  | nil => cases h
  | cons x l ih =>
    simp only [List.map_cons, List.nodup_cons] at hn
    simp only [setPhase]
    by_cases hy : x.1 = t
    · rw [if_pos hy]
      rcases List.mem_cons.1 h with e | e
      · subst e; simp; omega
      · exact absurd (List.mem_map.2 ⟨_, e, hy.symm⟩) hn.1
    · rw [if_neg hy]
      have h' : (t, q) ∈ l := by
        rcases List.mem_cons.1 h with e | e
        · rw [← e] at hy; exact absurd rfl hy
        · exact e
      have := ih hn.2 h'
      simp only [List.map_cons, List.sum_cons]
      omega

theorem erase_rest {x : Nat × Phase} {l : List (Nat × Phase)} (h : x ∈ l) :
    ((l.erase x).map (·.2.rest)).sum + x.2.rest = (l.map (·.2.rest)).sum := by
  induction l with
  | nil => cases h
  | cons y l ih =>
    by_cases e : y = x
    · subst e; simp; omega
    · rw [List.erase_cons_tail (by simpa using e)]
      have := ih (by
        rcases List.mem_cons.1 h with h | h
        · exact absurd h.symm e
        · exact h)
      simp only [List.map_cons, List.sum_cons]
      omega

theorem inner_rest {st s : St} (i : Inv st) {op : Op} (ho : op.inner = true) (h : step st op = some s) :
    s.rest < st.rest := by
  cases op <;> simp only [Op.inner, Bool.false_eq_true] at ho <;> simp only [step] at h
  case take j =>
    split at h
    · rename_i hc
      split at h <;> cases h
      rename_i t q hq
      simp [St.rest, St.say, hq, hc.2.1]
      omega
    · cases h
  case ret =>
    split at h <;> cases h
    rename_i hc
    simp [St.rest, St.say, hc]
  case leave j =>
    split at h <;> cases h
    rename_i hc
    have := List.length_erase_of_mem hc.1
    have := List.length_pos_of_mem hc.1
    simp only [St.rest, St.say]
    omega
  case begin t =>
    split at h <;> cases h
    rename_i hm
    have := setPhase_rest (p := .busy) i.fnsOnce hm
    simp only [St.rest, St.say]
    simp only [Phase.rest] at this ⊢
    omega
  case over t =>
    split at h <;> cases h
    rename_i hm
    have := setPhase_rest (p := .over) i.fnsOnce hm
    simp only [St.rest, St.say]
    simp only [Phase.rest] at this ⊢
    omega
  case release t =>
    split at h <;> cases h
    rename_i hm
    have := erase_rest hm
    simp only [St.rest]
    simp only [Phase.rest] at this ⊢
    omega

/-- C116: as long as nothing is posted or started, no more than `rest` steps can be made: two for each task that was posted,
three for each asynchronous function, and one for each thread in `run()`. -/
theorem C116_bounded {st s : St} (hr : Reach st) {ops : List Op} (hrun : Run st ops s)
    (ho : ∀ op ∈ ops, op.inner = true) : ops.length ≤ st.rest := by
  suffices s.rest + ops.length ≤ st.rest by omega
  induction hrun with
  | nil => simp
  | cons h _ ih =>
    have h1 := inner_rest hr.inv (ho _ (List.mem_cons_self ..)) h
    have h2 := ih (hr.step _ h) (fun op hm => ho op (List.mem_cons_of_mem _ hm))
    simp only [List.length_cons]
    omega

/-- C116: as long as a thread is in `run()`, a task or asynchronous function can go on or return, or `run()` can
return: `run()` never waits in vain. -/
theorem C116_goes_on {st : St} (hr : Reach st) (hne : st.runs ≠ []) : ∃ op s, op.inner = true ∧ step st op = some s := by
  have i := hr.inv
  obtain ⟨j, l, hj⟩ := List.exists_cons_of_ne_nil hne
  have hm : j ∈ st.runs := by rw [hj]; simp
  cases hc : st.cur with
  | some x => exact ⟨.ret, _, rfl, by simp only [step, hc]; rfl⟩
  | none =>
    by_cases hs : st.stopped = true
    · exact ⟨.leave j, _, rfl, by simp only [step]; rw [if_pos ⟨hm, by simp [hc], .inl hs⟩]⟩
    · have hs : st.stopped = false := by simpa using hs
      cases hq : st.queue with
      | cons t q => exact ⟨.take j, _, rfl, by simp only [step]; rw [if_pos ⟨hm, hc, hs⟩, hq]⟩
      | nil =>
        cases hf : st.fns with
        | nil =>
          have := i.work
          rw [hq, hc, hf] at this
          exact ⟨.leave j, _, rfl, by simp only [step]; rw [if_pos ⟨hm, by simp [hc], .inr this⟩]⟩
        | cons x l =>
          obtain ⟨t, p⟩ := x
          have hx : (t, p) ∈ st.fns := by rw [hf]; simp
          cases p with
          | ready => exact ⟨.begin t, _, rfl, by simp only [step]; rw [if_pos hx]⟩
          | busy => exact ⟨.over t, _, rfl, by simp only [step]; rw [if_pos hx]⟩
          | over => exact ⟨.release t, _, rfl, by simp only [step]; rw [if_pos hx]⟩

/-- C116: `finish` stops the loop only if the loop was given a function that does so: then no task begins any more until
the context is restarted, and threads can leave `run()`. -/
theorem C116_finish {st s : St} {w : Who} (h : step st (.finish w) = some s) :
    (st.stops = false → s = st) ∧ (st.stops = true → ∀ ops s2, Run s ops s2 → Op.restart ∉ ops →
      begins s2.log = begins s.log ∧ ∀ j ∈ s2.runs, s2.cur.all (·.1 ≠ j) = true →
        ∃ s3, step s2 (.leave j) = some s3) := by
  simp only [step] at h
  split at h <;> cases h
  refine ⟨fun hs => by cases st; simp_all, fun hs ops s2 hrun hno => ?_⟩
  have key : ∀ {a b : St} {ops : List Op}, Run a ops b → Op.restart ∉ ops → a.stopped = true →
      begins b.log = begins a.log ∧ b.stopped = true := by
    intro a b ops hrun
    induction hrun with
    | nil => exact fun _ h => ⟨rfl, h⟩
    | @cons a s1 b op ops h _ ih =>
      intro hno hst
      have : begins s1.log = begins a.log ∧ s1.stopped = true := by
        cases op <;> simp only [step] at h
        case restart => exact absurd (List.mem_cons_self ..) hno
        case take j =>
          rw [if_neg (by rw [hst]; simp)] at h; cases h
        all_goals
          split at h <;> cases h
          simp [St.say, begins_append, begins, hst]
      obtain ⟨h1, h2⟩ := ih (fun hm => hno (List.mem_cons_of_mem _ hm)) this.2
      exact ⟨h1.trans this.1, h2⟩
  obtain ⟨h1, h2⟩ := key hrun hno (by simp [hs])
  exact ⟨h1, fun j hj hc => ⟨_, by simp only [step]; rw [if_pos ⟨hj, hc, .inl h2⟩]⟩⟩

/-! ## Examples -/

def exec : St → List Op → Option St
  | st, [] => some st
  | st, op :: ops => (step st op).bind (exec · ops)

theorem exec_run {st s : St} {ops : List Op} (h : exec st ops = some s) : Run st ops s := by
  induction ops generalizing st with
  | nil => cases h; exact .nil _
  | cons op ops ih =>
    simp only [exec, Option.bind_eq_some_iff] at h
    obtain ⟨t, h1, h2⟩ := h
    exact .cons h1 (ih h2)

theorem Reach.run {st s : St} (hr : Reach st) {ops : List Op} (h : Run st ops s) : Reach s := by
  induction h with
  | nil => exact hr
  | cons h _ ih => exact ih (hr.step _ h)

/-- The state after the operations. -/
def after (b : Bool) (ops : List Op) : St := (exec (Asio.start b) ops).getD (Asio.start b)

def ok (b : Bool) (ops : List Op) : Bool := (exec (Asio.start b) ops).isSome

theorem exec_after {b : Bool} {ops : List Op} (h : ok b ops = true) :
    exec (Asio.start b) ops = some (after b ops) := by
  obtain ⟨s, hs⟩ := Option.isSome_iff_exists.1 h
  simp [after, hs]

theorem reach_after {b : Bool} {ops : List Op} (h : ok b ops = true) : Reach (after b ops) :=
  (Reach.start b).run (exec_run (exec_after h))

theorem exec_append {st : St} (a c : List Op) : exec st (a ++ c) = (exec st a).bind (exec · c) := by
  induction a generalizing st with
  | nil => rfl
  | cons op a ih =>
    simp only [List.cons_append, exec, Option.bind_assoc]
    congr 1
    funext s
    exact ih

theorem run_after {b : Bool} {a c : List Op} (h1 : ok b a = true) (h : ok b (a ++ c) = true) :
    Run (after b a) c (after b (a ++ c)) := by
  have e := exec_after h
  rw [exec_append, exec_after h1] at e
  exact exec_run e

theorem step_after {b : Bool} {a : List Op} {op : Op} (h1 : ok b a = true) (h : ok b (a ++ [op]) = true) :
    step (after b a) op = some (after b (a ++ [op])) := by
  have := run_after h1 h
  cases this with
  | cons h r => cases r; exact h

/-- A task calls `async`; two threads run; the function posts its result, which another thread handles. -/
def exAsync : List Op :=
  [.post .outside, .run 1, .run 2, .take 1, .async .task, .ret, .begin 1, .post (.fn 1), .over 1, .take 2, .ret,
    .release 1]

example : Ev.posted 2 ∈ (after false (exAsync ++ [.leave 1])).log ∧
    Ev.async 1 ∈ (after false (exAsync ++ [.leave 1])).log ∧
    (∀ t, Ev.posted t ∈ (after false (exAsync ++ [.leave 1])).log →
      Ev.ended t ∈ (after false (exAsync ++ [.leave 1])).log ∨ Ev.threw t ∈ (after false (exAsync ++ [.leave 1])).log) ∧
    ∀ t, Ev.async t ∈ (after false (exAsync ++ [.leave 1])).log →
      Ev.finished t ∈ (after false (exAsync ++ [.leave 1])).log :=
  ⟨by decide +kernel, by decide +kernel,
    C116_return (reach_after (by decide +kernel)) (step_after (by decide +kernel) (by decide +kernel))
      (by decide +kernel)⟩

/-- While the function is running, `run()` cannot return although there is no task. -/
example : (after false (exAsync.take 7)).queue = [] ∧ (after false (exAsync.take 7)).cur = none ∧
    step (after false (exAsync.take 7)) (.leave 1) = none ∧
    ∃ op s, op.inner = true ∧ step (after false (exAsync.take 7)) op = some s :=
  ⟨by decide +kernel, by decide +kernel, by rfl, C116_goes_on (reach_after (by decide +kernel)) (by decide +kernel)⟩

example : begins (after false exAsync).log = [0, 2] ∧
    begins (after false exAsync).log <+: posts (after false exAsync).log ∧
    (posts (after false exAsync).log).Nodup :=
  ⟨by decide +kernel, C116_order (reach_after (by decide +kernel))⟩

example : Ev.ended 0 ∈ [Ev.async 1, .ended 0, .started 1, .posted 2, .finished 1] ∨
    Ev.threw 0 ∈ [Ev.async 1, .ended 0, .started 1, .posted 2, .finished 1] :=
  C116_serial (A := [.posted 0]) (B := [.async 1, .ended 0, .started 1, .posted 2, .finished 1]) (C := [.ended 2])
    (reach_after (b := false) (ops := exAsync) (by decide +kernel)) (i := 1) (j := 2) (u := 2) (by decide +kernel)

example : 2 ∈ (after false (exAsync.take 9)).runs :=
  (C116_thread (step_after (b := false) (a := exAsync.take 9) (op := .take 2) (by decide +kernel) (by decide +kernel))
    (d := [.began 2 2]) (by decide +kernel) (List.mem_singleton.2 rfl)).2

example : starts (after false exAsync).log = [1] ∧ (starts (after false exAsync).log).Nodup :=
  ⟨by decide +kernel, (C116_async_once (reach_after (by decide +kernel))).1⟩

example : [Op.over 1, .take 2, .ret, .release 1, .leave 1, .leave 2].length ≤ (after false (exAsync.take 8)).rest :=
  C116_bounded (reach_after (by decide +kernel))
    (run_after (a := exAsync.take 8) (c := [.over 1, .take 2, .ret, .release 1, .leave 1, .leave 2])
      (by decide +kernel) (by decide +kernel)) (by decide)

/-- Without a function that stops the context `finish` does nothing. -/
example : after false (exAsync ++ [.finish .outside]) = after false exAsync := by
  have h := step_after (b := false) (a := exAsync) (op := .finish .outside) (by decide +kernel) (by decide +kernel)
  exact (C116_finish h).1 (by decide +kernel)

/-- A task is left when another one calls `finish`. -/
def exStop : List Op := [.post .outside, .run 1, .take 1, .async .task, .post .task, .begin 1]

theorem exStop_run : ∃ s1 s2 s3 s4, step (after true exStop) (.finish .task) = some s1 ∧ step s1 .ret = some s2 ∧
    step s2 (.leave 1) = some s3 ∧ step s3 (.post (.fn 1)) = some s4 ∧ s3.runs = [] ∧ s3.queue = [2] ∧
    (1, Phase.busy) ∈ s3.fns ∧ s4.queue = [2, 3] :=
  ⟨_, _, _, _, rfl, rfl, rfl, rfl, rfl, rfl, by decide, rfl⟩

example : ∃ s1 s2, step (after true exStop) (.finish .task) = some s1 ∧ Run s1 [.ret, .leave 1] s2 ∧
    begins s2.log = begins s1.log := by
  obtain ⟨s1, s2, s3, s4, h1, h2, h3, -⟩ := exStop_run
  have hrun : Run s1 [.ret, .leave 1] s3 := .cons h2 (.cons h3 (.nil _))
  exact ⟨s1, s3, h1, hrun, ((C116_finish h1).2 (by decide +kernel) _ _ hrun (by decide)).1⟩

/-- C116: after `finish`, `run()` can return while a posted task has not begun and an asynchronous function is
running; what the function posts later is not handled either. -/
theorem C116_stopped_false : ∃ st s, Reach st ∧ step st (.leave 1) = some s ∧ s.runs = [] ∧ s.queue = [2] ∧
    (1, Phase.busy) ∈ s.fns ∧ ∃ s2, step s (.post (.fn 1)) = some s2 ∧ s2.queue = [2, 3] := by
  obtain ⟨s1, s2, s3, s4, h1, h2, h3, h4, h5, h6, h7, h8⟩ := exStop_run
  exact ⟨s2, s3, ((reach_after (by decide +kernel)).step _ h1).step _ h2, h3, h5, h6, h7, s4, h4, h8⟩

end Verif.Asio
