import Verif.Loop.SdlFps

/-!
C117: how often an SDL loop makes frames, and the time that each is told has passed.
-/

namespace Verif.Loop.Fps

/-- What each call gave back is the time from the call before, up to the limit.  `t` is when the loop began. -/
def Deltas (c : Cfg) : Nat → List Frame → Prop
  | _, [] => True
  | t, f :: l => t ≤ f.cur ∧ f.delta = min ((f.cur - t) * c.minRate) 1000 ∧ Deltas c f.cur l

/-- When the last of the calls was made. -/
def lastCur (t : Nat) (l : List Frame) : Nat := (l.getLast?.map Frame.cur).getD t

theorem lastCur_cons (t : Nat) (f : Frame) (l : List Frame) : lastCur t (f :: l) = lastCur f.cur l := by
  cases l with
  | nil => rfl
  | cons g l => simp [lastCur, List.getLast?_cons_cons]; cases h : (g :: l).getLast? <;> simp_all

theorem Deltas.snoc {c : Cfg} {l : List Frame} {f : Frame} : ∀ {t : Nat}, Deltas c t l → lastCur t l ≤ f.cur →
    f.delta = min ((f.cur - lastCur t l) * c.minRate) 1000 → Deltas c t (l ++ [f]) := by
  induction l with
  | nil => intro t _ h1 h2; exact ⟨h1, h2, trivial⟩
  | cons g l ih =>
    intro t h h1 h2
    rw [lastCur_cons] at h1 h2
    exact ⟨h.1, h.2.1, ih h.2.2 h1 h2⟩

/-- What holds whenever the loop can be seen. -/
structure Inv (c : Cfg) (t : Nat) (s : St) : Prop where
  ticks : s.fps.ticks = lastCur t s.log
  now : s.fps.ticks ≤ s.now
  deltas : Deltas c t s.log
  /-- the next target is one frame after each call, for each call since -/
  far : ∀ (A B : List Frame) (f : Frame), s.log = A ++ f :: B →
    f.cur * c.rate + 1000 * (B.length + 1) ≤ s.fps.target c
  /-- and it has been kept to -/
  rate : ∀ (A B C : List Frame) (f g : Frame), s.log = A ++ f :: B ++ g :: C →
    f.cur * c.rate + 1000 * (B.length + 1) < (g.ret + 1) * c.rate
  /-- the next target is not far away -/
  near : s.fps.target c < (s.now + 1) * c.rate + 1000
  delay : ∀ f ∈ s.log, f.delay * c.rate < 1000 + c.rate
  /-- since the last call that came late, nothing is lost -/
  drift : ∀ (A B : List Frame) (f : Frame), s.log = A ++ f :: B → f.late = true → (∀ g ∈ B, g.late = false) →
    s.fps.target c ≤ f.ret * c.rate + 1000 * (B.length + 1)
  steady : ∀ (A B C : List Frame) (f g : Frame), s.log = A ++ f :: B ++ g :: C → f.late = true →
    (∀ h ∈ B, h.late = false) → g.late = false →
    g.ret * c.rate ≤ f.ret * c.rate + 1000 * (B.length + 1) + g.over * c.rate

theorem snoc_eq {l A B : List Frame} {x f : Frame} (h : l ++ [x] = A ++ f :: B) :
    (B = [] ∧ f = x ∧ A = l) ∨ ∃ B', B = B' ++ [x] ∧ l = A ++ f :: B' := by
  rcases List.eq_nil_or_concat B with hB | ⟨B', y, hB⟩
  · subst hB
    have := List.append_inj' h rfl
    exact .inl ⟨rfl, by simpa using this.2.symm, this.1.symm⟩
  · subst hB
    rw [List.concat_eq_append] at h ⊢
    rw [← List.cons_append, ← List.append_assoc] at h
    have := List.append_inj' h rfl
    have hx : x = y := by simpa using this.2
    subst hx
    exact .inr ⟨B', rfl, this.1⟩

theorem Inv.start (c : Cfg) (t : Nat) : Inv c t (start t) where
  ticks := rfl
  now := Nat.le_refl _
  deltas := trivial
  far := by intro A B f h; cases A <;> cases h
  rate := by intro A B C f g h; cases A <;> cases h
  near := by simp [Fps.start, Fps.target]
  delay := by intro f h; cases h
  drift := by intro A B f h; cases A <;> cases h
  steady := by intro A B C f g h; cases A <;> cases h

theorem lastCur_snoc (t : Nat) (l : List Frame) (f : Frame) : lastCur t (l ++ [f]) = f.cur := by
  simp [lastCur]

/-- What a call does, in terms of the target. -/
theorem call_spec (c : Cfg) (hc : 0 < c.rate) (s : Fps) (cur a b : Nat) :
    (s.call c cur a b).1.ticks = cur ∧ (s.call c cur a b).2.cur = cur ∧
    (s.call c cur a b).2.delta = min ((cur - s.ticks) * c.minRate) 1000 ∧
    cur ≤ (s.call c cur a b).2.ret ∧
    ((cur * c.rate ≤ s.target c ∧ (s.call c cur a b).2.late = false ∧
        (s.call c cur a b).1.target c = s.target c + 1000 ∧
        (s.call c cur a b).2.delay * c.rate + cur * c.rate ≤ s.target c ∧
        s.target c < ((s.call c cur a b).2.ret + 1) * c.rate ∧
        (s.call c cur a b).2.ret * c.rate ≤ s.target c + (s.call c cur a b).2.over * c.rate) ∨
     (s.target c < cur * c.rate ∧ (s.call c cur a b).2.late = true ∧
        cur * c.rate + 1000 ≤ (s.call c cur a b).1.target c ∧
        (s.call c cur a b).1.target c ≤ (s.call c cur a b).2.ret * c.rate + 1000 ∧
        (s.call c cur a b).2.delay = 0)) := by
  by_cases h : cur * c.rate ≤ s.target c
  · have hcall : s.call c cur a b = ({ s with ticks := cur, count := s.count + 1 },
        ⟨cur, false, (s.target c - cur * c.rate) / c.rate, b, cur + (s.target c - cur * c.rate) / c.rate + b,
          min ((cur - s.ticks) * c.minRate) 1000⟩) := by simp [Fps.call, h]
    rw [hcall]
    have h1 := Nat.div_mul_le_self (s.target c - cur * c.rate) c.rate
    have h2 := Nat.lt_div_mul_add (a := s.target c - cur * c.rate) hc
    refine ⟨rfl, rfl, rfl, Nat.le_trans (Nat.le_add_right _ _) (Nat.le_add_right _ _), .inl ⟨h, rfl, by simp [Fps.target]; omega, by simp; omega, ?_, ?_⟩⟩
    · simp only [Nat.add_mul]; omega
    · simp only [Nat.add_mul]; omega
  · have hcall : s.call c cur a b = (⟨cur, cur + a, 1⟩, ⟨cur, true, 0, a + b, cur + a + b,
        min ((cur - s.ticks) * c.minRate) 1000⟩) := by simp [Fps.call, h]
    rw [hcall]
    refine ⟨rfl, rfl, rfl, by simp; omega, .inr ⟨by omega, rfl, ?_, ?_, rfl⟩⟩
    · simp only [Fps.target, Nat.add_mul]; omega
    · simp only [Fps.target, Nat.add_mul]; omega

theorem Inv.step {c : Cfg} (hc : 0 < c.rate) {t : Nat} {s : St} (h : Inv c t s) (op : Op) :
    Inv c t (Fps.step c s op) := by
  cases op with
  | pass d =>
    refine ⟨h.ticks, Nat.le_trans h.now (Nat.le_add_right _ _), h.deltas, h.far, h.rate, ?_, h.delay, h.drift, h.steady⟩
    have := h.near
    simp only [Fps.step, Nat.add_mul] at this ⊢; omega
  | frame a b =>
    obtain ⟨e1, e2, e3, e4, e5⟩ := call_spec c hc s.fps s.now a b
    simp only [Fps.step]
    generalize s.fps.call c s.now a b = r at e1 e2 e3 e4 e5
    obtain ⟨p, x⟩ := r
    simp only at e1 e2 e3 e4 e5 ⊢
    have hn := h.now
    have hnear := h.near
    have hmul : s.now * c.rate ≤ x.ret * c.rate := Nat.mul_le_mul_right _ e4
    have hfar : s.now * c.rate + 1000 ≤ p.target c ∧ s.fps.target c + 1000 ≤ p.target c := by
      rcases e5 with ⟨a1, a2, a3, a4, a5, a6⟩ | ⟨a1, a2, a3, a4, a5⟩ <;> omega
    have hret : s.fps.target c < (x.ret + 1) * c.rate := by
      rcases e5 with ⟨a1, a2, a3, a4, a5, a6⟩ | ⟨a1, a2, a3, a4, a5⟩
      · exact a5
      · rw [Nat.add_mul]; omega
    refine ⟨?_, ?_, ?_, ?_, ?_, ?_, ?_, ?_, ?_⟩
    · simp [lastCur_snoc, e1, e2]
    · simp [e1, e4]
    · refine h.deltas.snoc ?_ ?_
      · rw [← h.ticks, e2]; exact hn
      · rw [← h.ticks, e2, e3]
    · intro A B f hl
      rcases snoc_eq hl with ⟨hB, hf, _⟩ | ⟨B', hB, hl'⟩
      · subst hB; subst hf; rw [e2]; simpa using hfar.1
      · have := h.far A B' f hl'
        subst hB
        have h2 := hfar.2
        rw [List.length_append, List.length_singleton, Nat.mul_add, ← Nat.add_assoc]
        exact Nat.le_trans (Nat.add_le_add_right this _) h2
    · intro A B C f g hl
      rcases snoc_eq hl with ⟨hC, hg, hA⟩ | ⟨C', hC, hl'⟩
      · have := h.far A B f hA.symm
        rw [hg]; omega
      · exact h.rate A B C' f g hl'
    · rcases e5 with ⟨a1, a2, a3, a4, a5, a6⟩ | ⟨a1, a2, a3, a4, a5⟩
      · simp only; omega
      · simp only [Nat.add_mul]; omega
    · intro f hf
      simp only [List.mem_append, List.mem_singleton] at hf
      rcases hf with hf | hf
      · exact h.delay f hf
      · subst hf
        rcases e5 with ⟨a1, a2, a3, a4, a5, a6⟩ | ⟨a1, a2, a3, a4, a5⟩
        · rw [Nat.add_mul] at hnear; omega
        · rw [a5]; omega
    · intro A B f hl hf hB
      rcases snoc_eq hl with ⟨hB', hf', _⟩ | ⟨B', hB', hl'⟩
      · subst hB'; subst hf'
        rcases e5 with ⟨a1, a2, a3, a4, a5, a6⟩ | ⟨a1, a2, a3, a4, a5⟩
        · rw [hf] at a2; cases a2
        · simpa using a4
      · subst hB'
        have hx := hB x (by simp)
        have := h.drift A B' f hl' hf (fun g hg => hB g (by simp [hg]))
        rcases e5 with ⟨a1, a2, a3, a4, a5, a6⟩ | ⟨a1, a2, a3, a4, a5⟩
        · simp only [List.length_append, List.length_singleton]; omega
        · rw [hx] at a2; cases a2
    · intro A B C f g hl hf hB hg
      rcases snoc_eq hl with ⟨hC, hg', hA⟩ | ⟨C', hC, hl'⟩
      · subst hg'
        have := h.drift A B f hA.symm hf hB
        rcases e5 with ⟨a1, a2, a3, a4, a5, a6⟩ | ⟨a1, a2, a3, a4, a5⟩
        · omega
        · rw [hg] at a2; cases a2
      · exact h.steady A B C' f g hl' hf hB hg

theorem Reach.inv {c : Cfg} (hc : 0 < c.rate) {t : Nat} {s : St} (h : Reach c t s) : Inv c t s := by
  induction h with
  | start => exact Inv.start c t
  | step op _ ih => exact ih.step hc op

/-! ## The theorems -/

/-- C117: a call gives `tick` the time since the call before it was made (since the loop began, for the first), but
never more than `1000 / minRate` milliseconds. -/
theorem C117_delta {c : Cfg} (hc : 0 < c.rate) {t : Nat} {s : St} (h : Reach c t s) (A B : List Frame) (f : Frame)
    (hl : s.log = A ++ f :: B) :
    lastCur t A ≤ f.cur ∧ f.delta = min ((f.cur - lastCur t A) * c.minRate) 1000 := by
  have hd := (h.inv hc).deltas
  rw [hl] at hd
  clear hl h
  induction A generalizing t with
  | nil => exact ⟨hd.1, hd.2.1⟩
  | cons g A ih => rw [lastCur_cons]; exact ih hd.2.2

theorem Deltas.sum {c : Cfg} {l : List Frame} : ∀ {t : Nat}, Deltas c t l →
    t ≤ lastCur t l ∧ (l.map Frame.delta).sum ≤ (lastCur t l - t) * c.minRate ∧
    ((∀ f ∈ l, f.delta < 1000) → (l.map Frame.delta).sum = (lastCur t l - t) * c.minRate) := by
  induction l with
  | nil => intro t _; simp [lastCur]
  | cons f l ih =>
    intro t h
    obtain ⟨h1, h2, h3⟩ := h
    obtain ⟨i1, i2, i3⟩ := ih h3
    rw [lastCur_cons]
    have hs : (lastCur f.cur l - t) * c.minRate =
        (f.cur - t) * c.minRate + (lastCur f.cur l - f.cur) * c.minRate := by
      rw [← Nat.add_mul]; congr 1; omega
    refine ⟨by omega, ?_, fun hlt => ?_⟩
    · simp only [List.map_cons, List.sum_cons]; omega
    · have hf := hlt f (by simp)
      have := i3 (fun g hg => hlt g (by simp [hg]))
      simp only [List.map_cons, List.sum_cons]; omega

/-- C117: the times given to `tick` never add up to more than the time that has passed, and exactly to it if none of them
reached the limit. -/
theorem C117_sum {c : Cfg} (hc : 0 < c.rate) {t : Nat} {s : St} (h : Reach c t s) :
    (s.log.map Frame.delta).sum ≤ (lastCur t s.log - t) * c.minRate ∧
    ((∀ f ∈ s.log, f.delta < 1000) → (s.log.map Frame.delta).sum = (lastCur t s.log - t) * c.minRate) :=
  (h.inv hc).deltas.sum.2

/-- C117: there are no more frames than asked for: from when any call `f` is made to when a later one `g` returns, the
calls after `f` up to `g` have taken one frame each, up to one millisecond in all. -/
theorem C117_rate {c : Cfg} (hc : 0 < c.rate) {t : Nat} {s : St} (h : Reach c t s) (A B C : List Frame) (f g : Frame)
    (hl : s.log = A ++ f :: B ++ g :: C) :
    f.cur * c.rate + 1000 * (B.length + 1) < (g.ret + 1) * c.rate :=
  (h.inv hc).rate A B C f g hl

/-- C117: the loop is never made to sleep for more than one frame, rounded up. -/
theorem C117_delay {c : Cfg} (hc : 0 < c.rate) {t : Nat} {s : St} (h : Reach c t s) {f : Frame} (hf : f ∈ s.log) :
    f.delay * c.rate < 1000 + c.rate :=
  (h.inv hc).delay f hf

/-- C117: delays do not add up: as long as the calls after `f`, which came late, come in time, each returns one frame
after the other, and only what it has overslept itself later than that. -/
theorem C117_steady {c : Cfg} (hc : 0 < c.rate) {t : Nat} {s : St} (h : Reach c t s) (A B C : List Frame)
    (f g : Frame) (hl : s.log = A ++ f :: B ++ g :: C) (hf : f.late = true) (hB : ∀ x ∈ B, x.late = false)
    (hg : g.late = false) :
    g.ret * c.rate ≤ f.ret * c.rate + 1000 * (B.length + 1) + g.over * c.rate :=
  (h.inv hc).steady A B C f g hl hf hB hg

/-! ## A loop at 120 frames per second -/

def cfg : Cfg := ⟨120, 15⟩

def exOps : List Op :=
  [.pass 3, .frame 0 0, .pass 2, .frame 0 1, .pass 1, .frame 0 0, .pass 500, .frame 1 0, .frame 0 0]

def exSt : St := exOps.foldl (step cfg) (start 100)

theorem reach_foldl {c : Cfg} {t : Nat} (ops : List Op) : ∀ {s : St}, Reach c t s → Reach c t (ops.foldl (step c) s) := by
  induction ops with
  | nil => intro s h; exact h
  | cons op ops ih => intro s h; exact ih (h.step op)

theorem exSt_reach : Reach cfg 100 exSt := reach_foldl exOps .start

/-- The first call comes late, the next two in time, the fourth late again, after which none is made up for. -/
example : exSt.log = [⟨103, true, 0, 0, 103, 45⟩, ⟨105, false, 6, 1, 112, 30⟩, ⟨113, false, 6, 0, 119, 120⟩,
    ⟨619, true, 0, 1, 620, 1000⟩, ⟨620, false, 8, 0, 628, 15⟩] := by decide +kernel

example : 103 * 120 + 1000 * 2 < (119 + 1) * 120 :=
  C117_rate (c := cfg) (by decide) exSt_reach [] [⟨105, false, 6, 1, 112, 30⟩]
    [⟨619, true, 0, 1, 620, 1000⟩, ⟨620, false, 8, 0, 628, 15⟩] ⟨103, true, 0, 0, 103, 45⟩ ⟨113, false, 6, 0, 119, 120⟩
    (by decide +kernel)

example : 119 * 120 ≤ 103 * 120 + 1000 * 2 + 0 * 120 :=
  C117_steady (c := cfg) (by decide) exSt_reach [] [⟨105, false, 6, 1, 112, 30⟩]
    [⟨619, true, 0, 1, 620, 1000⟩, ⟨620, false, 8, 0, 628, 15⟩] ⟨103, true, 0, 0, 103, 45⟩ ⟨113, false, 6, 0, 119, 120⟩
    (by decide +kernel) rfl (by decide) rfl

example : 8 * 120 < 1000 + 120 :=
  C117_delay (c := cfg) (by decide) exSt_reach (f := ⟨620, false, 8, 0, 628, 15⟩) (by decide +kernel)

example : (120 : Nat) = min ((113 - 105) * 15) 1000 :=
  (C117_delta (c := cfg) (by decide) exSt_reach [⟨103, true, 0, 0, 103, 45⟩, ⟨105, false, 6, 1, 112, 30⟩]
    [⟨619, true, 0, 1, 620, 1000⟩, ⟨620, false, 8, 0, 628, 15⟩] ⟨113, false, 6, 0, 119, 120⟩ (by decide +kernel)).2

/-- The sum is less than the time that has passed, because of the call after a long time. -/
example : (exSt.log.map Frame.delta).sum = 1210 ∧ (lastCur 100 exSt.log - 100) * 15 = 7800 := by decide +kernel

/-! ## Emscripten -/

theorem emRun_eq (last : Nat) (l : List (Nat × Nat)) : emRun last l = l.map (fun x => x.2 - x.1) := by
  induction l generalizing last with
  | nil => rfl
  | cons x l ih => obtain ⟨b, e⟩ := x; simp [emRun, emStep, ih]

/-- C117: with Emscripten, `tick` gets the time that handling the events of this step took, whatever came before. -/
theorem C117_emscripten (last : Nat) (l : List (Nat × Nat)) : emRun last l = l.map (fun x => x.2 - x.1) :=
  emRun_eq last l

/-- C117: it is false that with Emscripten `tick` gets the time since the call before: for steps `p` milliseconds apart,
however many there are and however long that is, in which there is no event to handle, it always gets `0`. -/
theorem C117_emscripten_false (p n : Nat) :
    emRun 0 ((List.range n).map (fun i => (i * p, i * p))) = List.replicate n 0 := by
  rw [emRun_eq]
  apply List.ext_getElem <;> simp

end Verif.Loop.Fps
