import Verif.Future.Delta

/-! Closures that complete promises always finish. -/

namespace Verif.Future

/-- Of the proof: closures that complete promises do not run user code. -/
structure Pr (m : M) : Prop where
  run : ∀ t, Frame.run t ∈ m.active → ∀ q, t.fn ≠ .prom q
  stt : ∀ c s p q, Ev.attach c s p (.prom q) ∈ m.log → Ev.start c ∈ m.log →
    (∃ r, Ev.finish c r ∈ m.log) ∨ ∃ f ∈ m.active, f.tick = some c

theorem frame_tick (t : Task) : t.frame.tick = some t.c := by
  unfold Task.frame
  split <;> rfl

theorem pr_step {m m' : M} (i : Inv m) (k : Pr m) {op : Op} (h : step m op = some m')
    (hu : m'.ub = false) : Pr m' := by
  have o := step_out h
  have l := step_le i h hu
  constructor
  · intro t ht q hq
    rcases out_act o ht with ht | ht
    · exact k.run t ht q hq
    · generalize hf : Frame.run t = f at ht
      cases ht with
      | run hm =>
        unfold Task.frame at hf
        split at hf
        · rename_i e; cases hf; rw [e] at hq; cases hq
        · rename_i e; cases hf; rw [e] at hq; cases hq
        · cases hf
        · cases hf
      | _ => cases hf
  · intro c s p q ha hs
    rcases out_att o ha with ha | ⟨rfl, _, _, _⟩
    · rcases out_start o hs with hs | ⟨l, t, q', rfl, hq, rfl⟩
      · rcases k.stt c s p q ha hs with ⟨r, hr⟩ | ⟨f, hf, hfc⟩
        · exact Or.inl ⟨r, l.log _ hr⟩
        · rcases out_keep o hf hfc with h1 | h1 | ⟨n, t, rfl, ht, rfl⟩
          · exact Or.inr h1
          · exact Or.inl h1
          · obtain ⟨s', ht', _⟩ := i.frames _ (List.mem_of_getElem? ht)
            have := (i.uniq _ _ _ _ _ _ _ ha ht').2.2
            exact absurd this.symm (k.run t (List.mem_of_getElem? ht) q)
      · right
        cases o with
        | run hq' =>
          rw [hq] at hq'
          cases hq'
          exact ⟨_, List.mem_cons_self .., frame_tick t⟩
    · rcases out_start o hs with hs | ⟨l, t, q', rfl, hq, ht⟩
      · obtain ⟨_, _, _, h1, _⟩ := i.started _ hs
        have := (i.att _ _ _ _ h1).1
        omega
      · obtain ⟨_, h1, _⟩ := i.queued l t (by rw [hq]; exact List.mem_cons_self ..)
        have := (i.att _ _ _ _ h1).1
        omega

theorem Reach.pr {m : M} (r : Reach m) (hu : m.ub = false) : Pr m := by
  induction r with
  | start => exact ⟨fun _ h => (nomatch h), fun _ _ _ _ h => (nomatch h)⟩
  | step op r h ih => exact pr_step (r.inv (step_ub h)) (ih (step_ub h)) h hu

/-- When nothing is left to do, a closure that has been attached to a fulfilled future has run. -/
theorem Inv.quiet_start {m : M} (i : Inv m) (hq : ∀ l, m.queue l = []) {c s p : Nat} {fn : Fn}
    (h : Ev.attach c s p fn ∈ m.log) (hd : (m.cell s).done = true) : Ev.start c ∈ m.log := by
  have h1 := i.one _ _ _ _ h
  have h2 : m.here s c = 0 := by
    unfold M.here
    cases hc : (m.cell s).cb with
    | none => rfl
    | some t =>
      have := (i.stored s t hc).2.1
      rw [hd] at this; cases this
  have h3 : m.queued (m.cell s).loop c = 0 := by
    unfold M.queued
    rw [hq]; rfl
  refine List.count_pos_iff.1 ?_
  show 0 < m.starts c
  omega

/-- … and a promise that one holds that has been attached to a fulfilled future is completed. -/
theorem quiet_prom {m : M} (r : Reach m) (hu : m.ub = false) (hq : ∀ l, m.queue l = [])
    (ha : m.active = []) {c s p q : Nat} (h : Ev.attach c s p (.prom q) ∈ m.log)
    (hd : (m.cell s).done = true) : (m.cell q).done = true := by
  have i := r.inv hu
  have hs := i.quiet_start hq h hd
  rcases (r.pr hu).stt _ _ _ _ h hs with ⟨x, hx⟩ | ⟨f, hf, _⟩
  · exact (r.live hu).sat _ _ _ _ _ h hx
  · rw [ha] at hf; cases hf

end Verif.Future
