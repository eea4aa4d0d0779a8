import Verif.Future.Props
import Verif.Future.Delta

/-! C46: callbacks of `also` do run. -/

namespace Verif.Future

/-- The functions of the library. -/
def Fn.lib : Fn → Bool
  | .prom _ => true
  | .give _ => true
  | _ => false

/-- Closures with a function of the library, once started, are running until they have finished. -/
structure Busy (m : M) : Prop where
  user : ∀ t, Frame.run t ∈ m.active → t.fn.lib = false
  busy : ∀ c s p fn, Ev.attach c s p fn ∈ m.log → fn.lib = true → Ev.start c ∈ m.log →
    (∃ r, Ev.finish c r ∈ m.log) ∨ ∃ f ∈ m.active, f.tick = some c

theorem mem_eraseIdx_or {α : Type} {l : List α} {k : Nat} {x y : α} (h : l[k]? = some x) (hy : y ∈ l) :
    y = x ∨ y ∈ l.eraseIdx k := by
  induction l generalizing k with
  | nil => cases hy
  | cons a l ih =>
    cases k with
    | zero =>
      simp only [List.getElem?_cons_zero, Option.some.injEq] at h
      subst h
      simpa using hy
    | succ k =>
      simp only [List.getElem?_cons_succ] at h
      simp only [List.eraseIdx_cons_succ]
      rcases List.mem_cons.1 hy with rfl | hy
      · exact .inr (List.mem_cons_self ..)
      · rcases ih h hy with h | h
        · exact .inl h
        · exact .inr (List.mem_cons_of_mem _ h)

/-- The steps that neither start closures nor end frames. -/
theorem Busy.mild {m m' : M} (i : Inv m) (b : Busy m) (ha : ∀ f, f ∈ m'.active → f ∈ m.active ∨ ∃ c isF, f = .imm c isF)
    (hk : ∀ f, f ∈ m.active → f ∈ m'.active)
    (hat : ∀ c s p fn, Ev.attach c s p fn ∈ m'.log → Ev.attach c s p fn ∈ m.log ∨ m.nextC ≤ c)
    (hst : ∀ c, Ev.start c ∈ m'.log → Ev.start c ∈ m.log) (hl : ∀ e, e ∈ m.log → e ∈ m'.log) : Busy m' where
  user t h := by
    rcases ha _ h with h | ⟨_, _, h⟩
    · exact b.user t h
    · cases h
  busy c s p fn h hfn hs := by
    have hs := hst c hs
    obtain ⟨s', p', fn', h', _⟩ := i.started c hs
    have := (i.att _ _ _ _ h').1
    rcases hat c s p fn h with h | h
    · rcases b.busy c s p fn h hfn hs with ⟨r, h⟩ | ⟨f, h1, h2⟩
      · exact .inl ⟨r, hl _ h⟩
      · exact .inr ⟨f, hk f h1, h2⟩
    · omega

theorem attach_mild {m : M} (i : Inv m) (b : Busy m) {m' : M} {s p : Nat} {fn : Fn}
    (hlog : m'.log = m.log ++ [.attach m.nextC s p fn]) (hact : m'.active = m.active) : Busy m' := by
  refine b.mild i (fun f h => .inl (hact ▸ h)) (fun f h => hact ▸ h) ?_ ?_ ?_
  · intro c s' p fn' h
    rw [hlog] at h
    simp only [List.mem_append, List.mem_singleton, Ev.attach.injEq] at h
    rcases h with h | h
    · exact .inl h
    · exact .inr (by omega)
  · intro c h
    rw [hlog] at h
    simpa using h
  · intro e h
    rw [hlog]
    exact List.mem_append_left _ h

theorem fulfil_mild {m : M} (i : Inv m) (b : Busy m) {m' : M}
    (hm : m'.log = m.log ∧ m'.active = m.active) : Busy m' :=
  b.mild i (fun _ h => .inl (hm.2 ▸ h)) (fun _ h => hm.2 ▸ h) (fun _ _ _ _ h => .inl (hm.1 ▸ h)) (fun _ h => hm.1 ▸ h)
    (fun _ h => hm.1 ▸ h)

/-- The steps that end frame `f` of closure `d` or replace it by `g`, or finish the closure. -/
theorem Busy.swap {m m' : M} (i : Inv m) (b : Busy m) {k : Nat} {f : Frame} (hf : m.active[k]? = some f)
    (hk : ∀ g, g ∈ m.active.eraseIdx k → g ∈ m'.active)
    (hu : ∀ t, Frame.run t ∈ m'.active → Frame.run t ∈ m.active)
    (hd : ∀ c, f.tick = some c → ∀ s p fn, Ev.attach c s p fn ∈ m.log → fn.lib = true →
      (∃ r, Ev.finish c r ∈ m'.log) ∨ ∃ g ∈ m'.active, g.tick = some c)
    (hat : ∀ c s p fn, Ev.attach c s p fn ∈ m'.log → Ev.attach c s p fn ∈ m.log ∨ m.nextC ≤ c)
    (hst : ∀ c, Ev.start c ∈ m'.log → Ev.start c ∈ m.log) (hl : ∀ e, e ∈ m.log → e ∈ m'.log) : Busy m' where
  user t h := b.user t (hu t h)
  busy c s p fn h hfn hs := by
    have hs := hst c hs
    obtain ⟨s', p', fn', h', _⟩ := i.started c hs
    have := (i.att _ _ _ _ h').1
    rcases hat c s p fn h with h | h
    · rcases b.busy c s p fn h hfn hs with ⟨r, h⟩ | ⟨g, h1, h2⟩
      · exact .inl ⟨r, hl _ h⟩
      · rcases mem_eraseIdx_or hf h1 with rfl | h1
        · exact hd c h2 s p fn h hfn
        · exact .inr ⟨g, hk g h1, h2⟩
    · omega

theorem Busy.step {m m' : M} (i : Inv m) (b : Busy m) {op : Op} (h : step m op = some m') : Busy m' := by
  have hun : ∀ {k : Nat} {t : Task}, m.active[k]? = some (Frame.run t) → ∀ c, (Frame.run t).tick = some c → ∀ s p fn,
      Ev.attach c s p fn ∈ m.log → fn.lib = true → False := by
    intro k t hf c hc s p fn ha hl
    obtain ⟨s', h1, _⟩ := i.frames _ (List.mem_of_getElem? hf)
    cases hc
    obtain ⟨_, _, h2⟩ := i.uniq _ _ _ _ _ _ _ h1 ha
    have := b.user t (List.mem_of_getElem? hf)
    rw [h2, hl] at this
    cases this
  cases step_out h with
  | newPair l => exact fulfil_mild i b ⟨rfl, rfl⟩
  | invalid => exact fulfil_mild i b ⟨rfl, rfl⟩
  | copyP => exact fulfil_mild i b ⟨rfl, rfl⟩
  | copyF => exact fulfil_mild i b ⟨rfl, rfl⟩
  | threw =>
    exact b.mild i (fun f h => .inl h) (fun f h => h) (fun _ _ _ _ h => .inl (by simpa [M.say] using h))
      (fun _ h => by simpa [M.say] using h) (fun _ h => by simp [M.say, h])
  | fulfil => exact fulfil_mild i b ⟨fulfil_log .., fulfil_active ..⟩
  | thenS => exact attach_mild i b (attach_log ..) (attach_active ..)
  | thenN =>
    refine b.mild i (fun f h => ?_) (fun f h => List.mem_cons_of_mem _ h) (fun _ _ _ _ h => .inl (by simpa using h))
      (fun _ h => by simpa using h) (fun _ h => by simp [h])
    rcases List.mem_cons.1 h with h | h
    · exact .inr ⟨_, _, h⟩
    · exact .inl h
  | thenPS => exact attach_mild i b (attach_log ..) (attach_active ..)
  | thenPN => exact fulfil_mild i b ⟨fulfil_log .., fulfil_active ..⟩
  | alsoS => exact attach_mild i b (attach_log ..) (attach_active ..)
  | alsoN => exact fulfil_mild i b ⟨rfl, rfl⟩
  | @run l t q hq =>
    obtain ⟨s0, hT, _⟩ := i.queued l t (by rw [hq]; exact List.mem_cons_self ..)
    have htick : t.frame.tick = some t.c := by unfold Task.frame; cases t.fn <;> rfl
    constructor
    · intro t' h'
      rcases List.mem_cons.1 h' with h' | h'
      · unfold Task.frame at h'
        cases hfn : t.fn <;> rw [hfn] at h' <;> cases h' <;> rw [hfn] <;> rfl
      · exact b.user t' h'
    · intro c s p fn ha hfn hs
      by_cases hc : c = t.c
      · exact .inr ⟨t.frame, List.mem_cons_self .., by rw [htick, hc]⟩
      · rcases b.busy c s p fn (by simpa using ha) hfn (by simpa [hc] using hs) with ⟨r, h⟩ | ⟨f, h1, h2⟩
        · exact .inl ⟨r, by simp [h]⟩
        · exact .inr ⟨f, List.mem_cons_of_mem _ h1, h2⟩
  | @retV k t hk _ =>
    exact b.swap i hk (fun g h => List.mem_cons_of_mem _ h) (fun t h => List.mem_of_mem_eraseIdx (by simpa using h))
      (fun c hc s p fn ha hl => (hun hk c hc s p fn ha hl).elim) (fun _ _ _ _ h => .inl h) (fun _ h => h) (fun _ h => h)
  | @retVN k c hk =>
    exact b.swap i hk (fun g h => h) (fun t h => List.mem_of_mem_eraseIdx h)
      (fun c hc => by cases hc) (fun _ _ _ _ h => .inl h) (fun _ h => h) (fun _ h => h)
  | @retF k i' t s hk =>
    exact b.swap i hk (fun g h => List.mem_cons_of_mem _ h) (fun t h => List.mem_of_mem_eraseIdx (by simpa using h))
      (fun c hc s p fn ha hl => (hun hk c hc s p fn ha hl).elim) (fun _ _ _ _ h => .inl h) (fun _ h => h) (fun _ h => h)
  | @retFN k i' c s hk =>
    exact b.swap i hk (fun g h => h) (fun t h => List.mem_of_mem_eraseIdx h)
      (fun c hc => by cases hc) (fun _ _ _ _ h => .inl h) (fun _ h => h) (fun _ h => h)
  | @raise k t hk =>
    exact b.swap i hk (fun g h => h) (fun t h => List.mem_of_mem_eraseIdx h)
      (fun c hc s p fn ha hl => (hun hk c hc s p fn ha hl).elim) (fun _ _ _ _ h => .inl h) (fun _ h => h) (fun _ h => h)
  | @raiseN k c isF hk =>
    exact b.swap i hk (fun g h => h) (fun t h => List.mem_of_mem_eraseIdx h)
      (fun c hc => by cases hc) (fun _ _ _ _ h => .inl h) (fun _ h => h) (fun _ h => h)
  | @lib0 k t r hk _ =>
    refine b.swap i hk (fun g h => by rw [fulfil_active]; exact h)
      (fun t h => List.mem_of_mem_eraseIdx (by rw [fulfil_active] at h; exact h)) ?_
      (fun _ _ _ _ h => .inl (by rw [fulfil_log] at h; simpa [M.say] using h))
      (fun _ h => by rw [fulfil_log] at h; simpa [M.say] using h) (fun _ h => by rw [fulfil_log]; simp [M.say, h])
    intro c hc s p fn _ _
    cases hc
    exact .inl ⟨r, by rw [fulfil_log]; simp [M.say]⟩
  | @libS k t g hk =>
    refine b.swap i hk (fun g h => by rw [attach_active]; exact h)
      (fun t h => List.mem_of_mem_eraseIdx (by rw [attach_active] at h; exact h)) ?_ ?_
      (fun _ h => by rw [attach_log] at h; simpa [M.say] using h) (fun _ h => by rw [attach_log]; simp [M.say, h])
    · intro c hc s p fn _ _
      cases hc
      exact .inl ⟨some (some g), by rw [attach_log]; simp [M.say]⟩
    · intro c s p fn h
      rw [attach_log] at h
      simp [M.say] at h
      rcases h with h | h
      · exact .inl h
      · exact .inr (by omega)
  | @libQ k t q hk =>
    refine b.swap i hk (fun g h => List.mem_cons_of_mem _ h)
      (fun t h => List.mem_of_mem_eraseIdx (by simpa using h)) ?_
      (fun _ _ _ _ h => .inl (by simpa [fulfil_log] using h)) (fun _ h => by simpa [fulfil_log] using h)
      (fun _ h => by simpa [fulfil_log] using h)
    intro c hc s p fn _ _
    cases hc
    exact .inr ⟨_, List.mem_cons_self .., rfl⟩

theorem Reach.busy {m : M} (r : Reach m) (hu : m.ub = false) : Busy m := by
  induction r with
  | start => exact ⟨fun t h => by simp [Future.start] at h, fun c s p fn h => by simp [Future.start] at h⟩
  | step op r h ih =>
    have hu0 : _ := step_ub h
    exact (ih hu0).step (r.inv hu0) h

/-- C46: callbacks on `f.also(g)` do run: when both promises are fulfilled and nothing is left to do, the promise of the
result is fulfilled, and each callback attached to it has been run exactly once. -/
theorem C46_completes {m m1 m2 : M} (r : Reach m) {a b s : Nat} {g : Option Nat}
    (hf : m.futs[a]? = some (some s)) (hg : m.futs[b]? = some g) (h : step m (.also a b) = some m1)
    {ops : List Op} (he : exec m1 ops = some m2) (hu : m2.ub = false) (hs : Fulfilled m2 s)
    (hx : ∀ x, g = some x → Fulfilled m2 x) (hq : ∀ l, m2.queue l = []) (ha : m2.active = []) :
    ∃ p, m1.futs = (m.futs.set b none).set a none ++ [some p] ∧ Fulfilled m2 p ∧
      ∀ c q, Attached m2 c p q → runs m2 c = 1 := by
  have hlog : Ev.attach m.nextC s m.size (.give g) ∈ m1.log ∧
      m1.futs = (m.futs.set b none).set a none ++ [some m.size] := by
    unfold step at h
    split at h
    · cases h
    · simp only [hf, hg] at h
      split at h
      · cases h
      · simp only [Option.some.injEq] at h
        subst h
        simp only [M.thenF]
        rw [attach_log, attach_futs]
        simp
  have r2 := exec_reach (r.step _ h) he
  have i := r2.inv hu
  have lv := r2.live hu
  have bz := r2.busy hu
  have hm : Ev.attach m.nextC s m.size (.give g) ∈ m2.log := exec_log he _ hlog.1
  have hend : ∀ c s p fn, Ev.attach c s p fn ∈ m2.log → Fulfilled m2 s → runs m2 c = 1 := by
    intro c s p fn h hs
    rcases (C44_once r2 hu ⟨fn, h⟩).2 hs with h | h
    · exact h.1
    · rw [hq] at h
      simp at h
  have hfin : ∀ c s p fn, Ev.attach c s p fn ∈ m2.log → Fulfilled m2 s → fn.lib = true → ∃ r, Ev.finish c r ∈ m2.log := by
    intro c s p fn h hs hl
    have h1 := hend c s p fn h hs
    have : Ev.start c ∈ m2.log := List.count_pos_iff.1 (by unfold runs at h1; omega)
    rcases bz.busy c s p fn h hl this with h | ⟨f, h, _⟩
    · exact h
    · rw [ha] at h; cases h
  have hp : Fulfilled m2 m.size := by
    obtain ⟨r, hr⟩ := hfin _ _ _ _ hm hs rfl
    have := i.gives _ _ _ _ _ hm hr
    subst this
    cases g with
    | none => exact lv.void _ _ _ _ _ hm hr (by simp)
    | some x =>
      obtain ⟨c, q, hc⟩ := lv.pass _ _ _ _ _ hm hr
      obtain ⟨r', hr'⟩ := hfin _ _ _ _ hc (hx x rfl) rfl
      exact lv.sat _ _ _ _ _ hc hr'
  exact ⟨m.size, hlog.2, hp, fun c q ⟨fn, hc⟩ => hend _ _ _ _ hc hp⟩

/-- The example of `C46_both`, to its end. -/
def exAlso3 : M := (exec exAlso1 (exAlsoOps ++ [.run 0, .retV 0, .lib 0])).getD start

example : (exec exAlso1 (exAlsoOps ++ [.run 0, .retV 0, .lib 0])).isSome = true ∧ exAlso3.ub = false ∧
    Fulfilled exAlso3 0 ∧ Fulfilled exAlso3 1 ∧ exAlso3.queue 0 = [] ∧ exAlso3.active = [] ∧ runs exAlso3 1 = 1 := by
  unfold Fulfilled; decide +kernel

end Verif.Future
