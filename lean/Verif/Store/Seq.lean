import Verif.Store.Core
import Verif.Future.Delta

/-! Invariants of effects and their sequencing. -/

namespace Verif.Store

open Verif.Future (M Op Ev Frame Task Fn Inv Le Out Comes Fulfils upd)

variable {A Mo : Type}

/-! ### Effects as lists -/

/-- The effects that are not sequences, from left to right; `none` for those that do nothing. -/
def Eff.leaves : Eff → List (Option Nat)
  | .empty => []
  | .noop => [none]
  | .prim id => [some id]
  | .seq a b => a.leaves ++ b.leaves

theorem Eff.leaves_length (e : Eff) : e.leaves.length = e.len := by
  induction e with
  | empty => rfl
  | noop => rfl
  | prim => rfl
  | seq a b iha ihb => simp [leaves, len, iha, ihb]

theorem Eff.leaves_acts (e : Eff) : e.leaves.filterMap id = e.acts := by
  induction e with
  | empty => rfl
  | noop => rfl
  | prim => rfl
  | seq a b iha ihb => simp [leaves, acts, iha, ihb]

/-- No function in it is null. -/
def Eff.ok : Eff → Prop
  | .seq a b => a.ok ∧ b.ok ∧ a.isEmpty = false ∧ b.isEmpty = false
  | _ => True

theorem Built.ok {e : Eff} (h : Built e) : e.ok := by
  induction h with
  | empty => trivial
  | noop => trivial
  | prim => trivial
  | @sequence a b _ _ ha hb iha ihb =>
    refine ⟨iha, ihb, ?_, ?_⟩
    · cases a <;> first | exact absurd rfl ha | rfl
    · cases b <;> first | exact absurd rfl hb | rfl

/-- An effect that may be called. -/
def Eff.good (e : Eff) : Prop := e.ok ∧ e.isEmpty = false

theorem Eff.good.len {e : Eff} (h : e.good) : 0 < e.len := by
  induction e with
  | empty => cases h.2
  | noop => exact Nat.zero_lt_one
  | prim => exact Nat.zero_lt_one
  | seq a b iha _ =>
    have := iha ⟨h.1.1, h.1.2.2.1⟩
    show 0 < a.len + b.len
    omega

/-- The part of `e` from `pos` on is `l`, and perhaps more. -/
def Slice (e : Eff) (pos : Nat) (l : List (Option Nat)) : Prop :=
  ∃ pre post, e.leaves = pre ++ l ++ post ∧ pre.length = pos

theorem Slice.get {e : Eff} {pos : Nat} {x : Option Nat} {l : List (Option Nat)}
    (h : Slice e pos (x :: l)) : e.leaves[pos]? = some x := by
  obtain ⟨pre, post, h1, rfl⟩ := h
  rw [h1]
  simp

theorem Slice.left {e : Eff} {pos : Nat} {l r : List (Option Nat)} (h : Slice e pos (l ++ r)) :
    Slice e pos l := by
  obtain ⟨pre, post, h1, h2⟩ := h
  exact ⟨pre, r ++ post, by rw [h1]; simp, h2⟩

theorem Slice.right {e : Eff} {pos : Nat} {l r : List (Option Nat)} (h : Slice e pos (l ++ r)) :
    Slice e (pos + l.length) r := by
  obtain ⟨pre, post, h1, h2⟩ := h
  exact ⟨pre ++ l, post, by rw [h1]; simp, by simp [h2]⟩

theorem Slice.tail {e : Eff} {pos : Nat} {x : Option Nat} {l : List (Option Nat)}
    (h : Slice e pos (x :: l)) : Slice e (pos + 1) l :=
  Slice.right (l := [x]) h

theorem Slice.all (e : Eff) : Slice e 0 e.leaves := ⟨[], [], by simp, rfl⟩

/-! ### What has been done -/

/-- The first `k` effects of call `x` of effect `e` have returned, and so have their futures. -/
def Comp (fu : M) (log : List (SEv A Mo)) (x : Nat) (e : Eff) (k : Nat) : Prop :=
  ∀ q id, q < k → e.leaves[q]? = some (some id) →
    ∃ r, SEv.primRet x q r ∈ log ∧ ∀ g, r = some g → (fu.cell g).done = true ∧ g < fu.size

/-- The future that the part of the call from `lo` to `pos` has returned. -/
def Path (fu : M) (tag : Nat → Option (Nat × Nat × Eff)) (log : List (SEv A Mo)) (x : Nat) (e : Eff)
    (lo pos : Nat) : Option Nat → Prop
  | none => Comp fu log x e pos
  | some g => (∃ pos', pos = pos' + 1 ∧ Comp fu log x e pos' ∧ SEv.primRet x pos' (some g) ∈ log) ∨
    (∃ c s pos' b, tag c = some (x, pos', b) ∧ lo ≤ pos' ∧ pos = pos' + b.len ∧
      Ev.attach c s g .fut ∈ fu.log)

theorem Comp.mono {fu fu' : M} {log log' : List (SEv A Mo)} {x : Nat} {e : Eff} {k : Nat}
    (h : Comp fu log x e k) (l : Le fu fu') (hl : ∀ e, e ∈ log → e ∈ log') : Comp fu' log' x e k := by
  intro q id hq he
  obtain ⟨r, h1, h2⟩ := h q id hq he
  exact ⟨r, hl _ h1, fun g hg => ⟨l.done g (h2 g hg).2 (h2 g hg).1, Nat.lt_of_lt_of_le (h2 g hg).2 l.size⟩⟩

theorem Comp.le {fu : M} {log : List (SEv A Mo)} {x : Nat} {e : Eff} {k j : Nat}
    (h : Comp fu log x e k) (hj : j ≤ k) : Comp fu log x e j :=
  fun q id hq he => h q id (Nat.lt_of_lt_of_le hq hj) he

theorem Comp.skip {fu : M} {log : List (SEv A Mo)} {x : Nat} {e : Eff} {k : Nat}
    (h : Comp fu log x e k) (hk : e.leaves[k]? = some none) : Comp fu log x e (k + 1) := by
  intro q id hq he
  by_cases hqk : q = k
  · subst hqk; rw [hk] at he; cases he
  · exact h q id (by omega) he

theorem Comp.next {fu : M} {log : List (SEv A Mo)} {x : Nat} {e : Eff} {k : Nat}
    (h : Comp fu log x e k) {r : Option Nat} (hr : SEv.primRet x k r ∈ log)
    (hg : ∀ g, r = some g → (fu.cell g).done = true ∧ g < fu.size) : Comp fu log x e (k + 1) := by
  intro q id hq he
  by_cases hqk : q = k
  · subst hqk; exact ⟨r, hr, hg⟩
  · exact h q id (by omega) he

theorem Path.mono {fu fu' : M} {tag tag' : Nat → Option (Nat × Nat × Eff)} {log log' : List (SEv A Mo)}
    {x : Nat} {e : Eff} {lo pos : Nat} {r : Option Nat} (h : Path fu tag log x e lo pos r) (l : Le fu fu')
    (ht : ∀ c v, tag c = some v → tag' c = some v) (hl : ∀ e, e ∈ log → e ∈ log') :
    Path fu' tag' log' x e lo pos r := by
  cases r with
  | none => exact Comp.mono h l hl
  | some g =>
    rcases h with ⟨pos', h1, h2, h3⟩ | ⟨c, s, pos', b, h1, h2, h3, h4⟩
    · exact Or.inl ⟨pos', h1, h2.mono l hl, hl _ h3⟩
    · exact Or.inr ⟨c, s, pos', b, ht _ _ h1, h2, h3, l.log _ h4⟩

theorem Path.lower {fu : M} {tag : Nat → Option (Nat × Nat × Eff)} {log : List (SEv A Mo)}
    {x : Nat} {e : Eff} {lo lo' pos : Nat} {r : Option Nat} (h : Path fu tag log x e lo pos r)
    (hl : lo' ≤ lo) : Path fu tag log x e lo' pos r := by
  cases r with
  | none => exact h
  | some g =>
    rcases h with h | ⟨c, s, pos', b, h1, h2, h3, h4⟩
    · exact Or.inl h
    · exact Or.inr ⟨c, s, pos', b, h1, by omega, h3, h4⟩

/-! ### Closures of `sequence` -/

/-- Of the proof: what closures of `sequence` are for. -/
structure Tg (fu : M) (tag : Nat → Option (Nat × Nat × Eff)) (log : List (SEv A Mo)) (nx : Nat) :
    Prop where
  xs : ∀ d x e, SEv.effStart d x e ∈ log → x < nx ∧ e.good
  uniq : ∀ d x e d' e', SEv.effStart d x e ∈ log → SEv.effStart d' x e' ∈ log → d = d' ∧ e = e'
  ret : ∀ x pos r, SEv.primRet x pos r ∈ log → ∀ g, r = some g → g < fu.size
  tags : ∀ c x pos b, tag c = some (x, pos, b) → ∃ d e s p, SEv.effStart d x e ∈ log ∧
    Ev.attach c s p .fut ∈ fu.log ∧ Path fu tag log x e 0 pos (some s) ∧ Slice e pos b.leaves ∧
    b.good ∧ 0 < pos
  fin : ∀ c x pos b d e r, tag c = some (x, pos, b) → SEv.effStart d x e ∈ log → Ev.finish c r ∈ fu.log →
    ∃ r', r = some r' ∧ Path fu tag log x e (pos + 1) (pos + b.len) r'
  frm : ∀ t x pos b d e r, tag t.c = some (x, pos, b) → SEv.effStart d x e ∈ log →
    Frame.ret t r ∈ fu.active → ∃ r', r = some r' ∧ Path fu tag log x e (pos + 1) (pos + b.len) r'
  sat : ∀ c x pos b d e s p, tag c = some (x, pos, b) → SEv.effStart d x e ∈ log →
    Ev.attach c s p .fut ∈ fu.log → (fu.cell p).done = true → Comp fu log x e (pos + b.len)
  stt : ∀ c x pos b, tag c = some (x, pos, b) → Ev.start c ∈ fu.log →
    (∃ r, Ev.finish c r ∈ fu.log) ∨ (∃ f ∈ fu.active, f.tick = some c) ∨
    ∃ pos, SEv.primThrew x pos ∈ log

/-- Waiting for such a future is waiting for the part of the call. -/
theorem Tg.path {fu : M} {tag : Nat → Option (Nat × Nat × Eff)} {log : List (SEv A Mo)} {nx : Nat}
    (k : Tg fu tag log nx) {d x : Nat} {e : Eff} {lo pos : Nat} {g : Nat}
    (he : SEv.effStart d x e ∈ log) (h : Path fu tag log x e lo pos (some g))
    (hd : (fu.cell g).done = true) : Comp fu log x e pos := by
  rcases h with ⟨pos', rfl, h2, h3⟩ | ⟨c, s, pos', b, h1, h2, rfl, h4⟩
  · refine h2.next h3 ?_
    intro g' hg
    cases hg
    exact ⟨hd, k.ret _ _ _ h3 g rfl⟩
  · exact k.sat c x pos' b d e s g h1 he h4 hd

/-- A step of futures, by which closures of `sequence` return only as they should. -/
theorem Tg.step {fu fu' : M} {tag : Nat → Option (Nat × Nat × Eff)} {log log' : List (SEv A Mo)} {nx : Nat}
    (k : Tg fu tag log nx) (i : Inv fu) {op : Op} (h : Future.step fu op = some fu') (hu : fu'.ub = false)
    (hl : ∀ e, e ∈ log → e ∈ log')
    (hn1 : ∀ d x e, SEv.effStart d x e ∈ log' → SEv.effStart d x e ∈ log)
    (hn2 : ∀ x pos r, SEv.primRet x pos r ∈ log' → SEv.primRet x pos r ∈ log)
    (hret : ∀ n j t s x pos b d e, op = .retF n j → fu.active[n]? = some (.run t) →
      fu.futs[j]? = some s → tag t.c = some (x, pos, b) → SEv.effStart d x e ∈ log →
      Path fu tag log x e (pos + 1) (pos + b.len) s)
    (hraise : ∀ n t x pos b, op = .raise n → fu.active[n]? = some (.run t) →
      tag t.c = some (x, pos, b) → ∃ pos, SEv.primThrew x pos ∈ log') :
    Tg fu' tag log' nx := by
  have l := Future.step_le i h hu
  have o := Future.step_out h
  have ht : ∀ c v, tag c = some v → tag c = some v := fun _ _ h => h
  -- the function of a closure
  have hfn : ∀ t x pos b s, tag t.c = some (x, pos, b) → Future.TaskOK fu s t → t.fn = .fut := by
    intro t x pos b s h1 h2
    obtain ⟨d, e, s', p, _, h3, _⟩ := k.tags _ _ _ _ h1
    exact (i.uniq _ _ _ _ _ _ _ h2 h3).2.2
  constructor
  · intro d x e he; exact k.xs d x e (hn1 _ _ _ he)
  · intro d x e d' e' h1 h2; exact k.uniq _ _ _ _ _ (hn1 _ _ _ h1) (hn1 _ _ _ h2)
  · intro x pos r hr g hg
    exact Nat.lt_of_lt_of_le (k.ret _ _ _ (hn2 _ _ _ hr) g hg) l.size
  · intro c x pos b hc
    obtain ⟨d, e, s, p, h1, h2, h3, h4⟩ := k.tags c x pos b hc
    exact ⟨d, e, s, p, hl _ h1, l.log _ h2, h3.mono l ht hl, h4⟩
  · intro c x pos b d e r hc he hf
    have he := hn1 _ _ _ he
    rcases Future.out_fin o hf with hf | ⟨n, t, rfl, hk, rfl⟩
    · obtain ⟨r', h1, h2⟩ := k.fin _ _ _ _ _ _ _ hc he hf
      exact ⟨r', h1, h2.mono l ht hl⟩
    · obtain ⟨r', h1, h2⟩ := k.frm _ _ _ _ _ _ _ hc he (List.mem_of_getElem? hk)
      exact ⟨r', h1, h2.mono l ht hl⟩
  · intro t x pos b d e r hc he hf
    have he := hn1 _ _ _ he
    rcases Future.out_act o hf with hf | hf
    · obtain ⟨r', h1, h2⟩ := k.frm _ _ _ _ _ _ _ hc he hf
      exact ⟨r', h1, h2.mono l ht hl⟩
    · generalize hF : Frame.ret t r = F at hf
      cases hf with
      | @run l t' q hq =>
        obtain ⟨s, h1, _⟩ := i.queued l t' (by rw [hq]; exact List.mem_cons_self)
        unfold Task.frame at hF
        split at hF <;> cases hF
        rename_i g hg
        rw [hfn _ x pos b s hc h1] at hg
        cases hg
      | imm => cases hF
      | retV h1 h2 =>
        cases hF
        obtain ⟨s, h3, _⟩ := i.frames _ (List.mem_of_getElem? h1)
        rw [hfn _ _ _ _ _ hc h3] at h2
        cases h2
      | @retF n j t s h1 h2 h3 =>
        cases hF
        exact ⟨s, rfl, (hret n j t s x pos b d e rfl h1 h2 hc he).mono l ht hl⟩
      | lib h1 =>
        cases hF
        obtain ⟨⟨s, h3, _⟩, h4⟩ := i.frames _ (List.mem_of_getElem? h1)
        rw [hfn _ _ _ _ _ hc h3] at h4
        cases h4
  · intro c x pos b d e s p hc he ha hd
    have he := hn1 _ _ _ he
    have ha : Ev.attach c s p .fut ∈ fu.log := by
      rcases Future.out_att o ha with h | ⟨rfl, _⟩
      · exact h
      · exfalso
        obtain ⟨_, _, s', p', _, h2, _⟩ := k.tags _ _ _ _ hc
        have := (i.att _ _ _ _ h2).1
        omega
    have hsrc := (i.att _ _ _ _ ha).2.2.2.1
    rcases Future.out_done i hu o hd with hd | hd
    · exact (k.sat c x pos b d e s p hc he ha hd).mono l hl
    · refine Comp.mono ?_ l hl
      cases hd with
      | obj hp =>
        have := (i.proms _ (Future.get_mem hp)).2
        rw [hsrc] at this; cases this
      | «then» _ hp =>
        have := (i.proms _ (Future.get_mem hp)).2
        rw [hsrc] at this; cases this
      | @ret n t r hk hr =>
        obtain ⟨⟨s', h3, _⟩, _⟩ := i.frames _ (List.mem_of_getElem? hk)
        have := (i.att _ _ _ _ h3).2.2.2.1
        rw [hsrc] at this
        cases this
        obtain ⟨r', rfl, h2⟩ := k.frm t x pos b d e r hc he (List.mem_of_getElem? hk)
        cases r' with
        | none => exact h2
        | some g => exact absurd rfl (hr g)
      | @sat n t _ hk =>
        obtain ⟨⟨s', h3, h3d⟩, h4⟩ := i.frames _ (List.mem_of_getElem? hk)
        have h5 := (i.att _ _ _ _ h3).2.2.2.2.1
        rw [h4] at h5
        have h6 := h5.2 c hsrc
        obtain ⟨r', h7, h8⟩ := k.fin c x pos b d e _ hc he h6
        cases h7
        exact k.path he h8 h3d
  · intro c x pos b hc hs
    have hfin : (∃ r, Ev.finish c r ∈ fu.log) → ∃ r, Ev.finish c r ∈ fu'.log :=
      fun ⟨r, h⟩ => ⟨r, l.log _ h⟩
    rcases Future.out_start o hs with hs | ⟨L, t, q, rfl, hq, rfl⟩
    · rcases k.stt c x pos b hc hs with h1 | ⟨f, h1, h2⟩ | ⟨p, h1⟩
      · exact Or.inl (hfin h1)
      · rcases Future.out_keep o h1 h2 with h3 | h3 | ⟨n, t, h3, h4, h5⟩
        · exact Or.inr (Or.inl h3)
        · exact Or.inl h3
        · subst h5
          exact Or.inr (Or.inr (hraise n t x pos b h3 h4 hc))
      · exact Or.inr (Or.inr ⟨p, hl _ h1⟩)
    · right; left
      cases o with
      | run hq' =>
        rw [hq] at hq'
        cases hq'
        refine ⟨t.frame, List.mem_cons_self, ?_⟩
        unfold Task.frame
        split <;> rfl

/-- Events are added. -/
theorem Tg.say {fu : M} {tag : Nat → Option (Nat × Nat × Eff)} {log log' : List (SEv A Mo)} {nx nx' : Nat}
    (k : Tg fu tag log nx) (hl : ∀ e, e ∈ log → e ∈ log') (hx : nx ≤ nx')
    (hn1 : ∀ d x e, SEv.effStart d x e ∈ log' → SEv.effStart d x e ∈ log ∨ (x = nx ∧ x < nx' ∧ e.good))
    (hn2 : ∀ d d' e e', SEv.effStart d nx e ∈ log' → SEv.effStart d' nx e' ∈ log' → d = d' ∧ e = e')
    (hn3 : ∀ x pos r, SEv.primRet x pos r ∈ log' → SEv.primRet x pos r ∈ log ∨ ∀ g, r = some g → g < fu.size) :
    Tg fu tag log' nx' := by
  have l := Le.refl fu
  have ht : ∀ c v, tag c = some v → tag c = some v := fun _ _ h => h
  have hold : ∀ c x pos b d e, tag c = some (x, pos, b) → SEv.effStart d x e ∈ log' →
      SEv.effStart d x e ∈ log := by
    intro c x pos b d e hc he
    rcases hn1 _ _ _ he with h | ⟨rfl, _⟩
    · exact h
    · obtain ⟨d', e', _, _, h1, _⟩ := k.tags _ _ _ _ hc
      have := (k.xs _ _ _ h1).1
      omega
  constructor
  · intro d x e he
    rcases hn1 _ _ _ he with h | ⟨_, h1, h2⟩
    · exact ⟨Nat.lt_of_lt_of_le (k.xs _ _ _ h).1 hx, (k.xs _ _ _ h).2⟩
    · exact ⟨h1, h2⟩
  · intro d x e d' e' h1 h2
    by_cases hxn : x = nx
    · subst hxn; exact hn2 _ _ _ _ h1 h2
    · have h1 := (hn1 _ _ _ h1).resolve_right (fun h => hxn h.1)
      have h2 := (hn1 _ _ _ h2).resolve_right (fun h => hxn h.1)
      exact k.uniq _ _ _ _ _ h1 h2
  · intro x pos r hr g hg
    rcases hn3 _ _ _ hr with h | h
    · exact k.ret _ _ _ h g hg
    · exact h g hg
  · intro c x pos b hc
    obtain ⟨d, e, s, p, h1, h2, h3, h4⟩ := k.tags c x pos b hc
    exact ⟨d, e, s, p, hl _ h1, h2, h3.mono l ht hl, h4⟩
  · intro c x pos b d e r hc he hf
    obtain ⟨r', h1, h2⟩ := k.fin _ _ _ _ _ _ _ hc (hold _ _ _ _ _ _ hc he) hf
    exact ⟨r', h1, h2.mono l ht hl⟩
  · intro t x pos b d e r hc he hf
    obtain ⟨r', h1, h2⟩ := k.frm _ _ _ _ _ _ _ hc (hold _ _ _ _ _ _ hc he) hf
    exact ⟨r', h1, h2.mono l ht hl⟩
  · intro c x pos b d e s p hc he ha hd
    exact (k.sat c x pos b d e s p hc (hold _ _ _ _ _ _ hc he) ha hd).mono l hl
  · intro c x pos b hc hs
    rcases k.stt c x pos b hc hs with h1 | h1 | ⟨p, h1⟩
    · exact Or.inl h1
    · exact Or.inr (Or.inl h1)
    · exact Or.inr (Or.inr ⟨p, hl _ h1⟩)

/-- A closure that has just been attached is one of `sequence`. -/
theorem Tg.mark {fu : M} {tag : Nat → Option (Nat × Nat × Eff)} {log : List (SEv A Mo)} {nx : Nat}
    (k : Tg fu tag log nx) (i : Inv fu) {c d x pos s p : Nat} {b e : Eff} (hc : tag c = none)
    (he : SEv.effStart d x e ∈ log) (ha : Ev.attach c s p .fut ∈ fu.log)
    (hp : Path fu tag log x e 0 pos (some s)) (hs : Slice e pos b.leaves) (hb : b.good) (hpos : 0 < pos)
    (hst : Ev.start c ∉ fu.log) : Tg fu (upd tag c (some (x, pos, b))) log nx := by
  have l := Le.refl fu
  have ht : ∀ c' v, tag c' = some v → upd tag c (some (x, pos, b)) c' = some v := by
    intro c' v h
    unfold upd
    split
    · rename_i e; subst e; rw [hc] at h; cases h
    · exact h
  have hl : ∀ e, e ∈ log → e ∈ log := fun _ h => h
  have hcase : ∀ c' v, upd tag c (some (x, pos, b)) c' = some v → tag c' = some v ∨
      (c' = c ∧ v = (x, pos, b)) := by
    intro c' v h
    unfold upd at h
    split at h
    · right; cases h; exact ⟨by assumption, rfl⟩
    · exact Or.inl h
  have hfin : ∀ r, Ev.finish c r ∉ fu.log := fun r h => hst (i.finish_start h)
  have hact : ∀ f ∈ fu.active, f.tick ≠ some c := by
    intro f hf hfc
    have := i.balance c
    have h1 : fu.starts c = 0 := by
      unfold M.starts
      rw [List.count_eq_zero]; exact hst
    have h2 : 0 < fu.acts c := by
      unfold M.acts
      rw [List.countP_pos_iff]
      exact ⟨f, hf, by simp [hfc]⟩
    omega
  constructor
  · exact k.xs
  · exact k.uniq
  · exact k.ret
  · intro c' x' pos' b' h
    rcases hcase _ _ h with h | ⟨rfl, hv⟩
    · obtain ⟨d, e, s, p, h1, h2, h3, h4⟩ := k.tags c' x' pos' b' h
      exact ⟨d, e, s, p, h1, h2, h3.mono l ht hl, h4⟩
    · cases hv
      exact ⟨d, e, s, p, he, ha, hp.mono l ht hl, hs, hb, hpos⟩
  · intro c' x' pos' b' d' e' r h he' hf
    rcases hcase _ _ h with h | ⟨rfl, hv⟩
    · obtain ⟨r', h1, h2⟩ := k.fin _ _ _ _ _ _ _ h he' hf
      exact ⟨r', h1, h2.mono l ht hl⟩
    · exact absurd hf (hfin r)
  · intro t x' pos' b' d' e' r h he' hf
    rcases hcase _ _ h with h | ⟨hh, h⟩
    · obtain ⟨r', h1, h2⟩ := k.frm _ _ _ _ _ _ _ h he' hf
      exact ⟨r', h1, h2.mono l ht hl⟩
    · exact absurd (by rw [← hh]; rfl) (hact _ hf)
  · intro c' x' pos' b' d' e' s' p' h he' ha' hd
    rcases hcase _ _ h with h | ⟨rfl, hv⟩
    · exact k.sat _ _ _ _ _ _ _ _ h he' ha' hd
    · have h1 := i.att _ _ _ _ ha'
      obtain ⟨r, h2, _⟩ := i.done p' c' h1.2.2.1 h1.2.2.2.1 hd
      exact absurd h2 (hfin r)
  · intro c' x' pos' b' h hs'
    rcases hcase _ _ h with h | ⟨rfl, hv⟩
    · exact k.stt _ _ _ _ h hs'
    · exact absurd hs' hst

end Verif.Store
