import Verif.Future.ThreadsReach
import Verif.Future.ThreadsOnce

/-! C101: promises and futures used by several threads. -/

namespace Verif.Future

variable {w : W}

/-! ### Data races -/

theorem Pc.writes_inside {p : Pc} {f : Field} (h : f ∈ p.writes) : p.inside = true := by
  cases p <;> simp_all [Pc.writes, Pc.inside]

/-- In debug builds, all data races are with the assertion of `then` that the future has no callback. -/
theorem C101_debug {dbg : Bool} (r : W.Reach dbg w) (hu : w.m.ub = false) {i j : Nat} {x y : Job} {s : Nat}
    {f : Field} (hij : i ≠ j) (hx : w.jobs[i]? = some x) (hy : w.jobs[j]? = some y)
    (hxs : x.call.cell = some s) (hys : y.call.cell = some s) (hf : f ∈ x.pc.writes)
    (hg : f ∈ y.pc.writes ∨ f ∈ y.pc.reads) : y.pc = .checkCb := by
  obtain ⟨L, v⟩ := inv_reach r hu
  have hxi := Pc.writes_inside hf
  by_cases hyi : y.pc.inside = true
  · exact (v.excl i j x y s hij hx hy hxs hys hxi hyi).elim
  · rcases hg with hg | hg
    · exact (hyi (Pc.writes_inside hg)).elim
    · cases hp : y.pc with
      | checkCb => rfl
      | checkPost =>
        rw [hp] at hg
        simp only [Pc.reads, List.mem_singleton] at hg
        subst hg
        revert hf
        cases x.pc with
        | put b => cases b <;> simp [Pc.writes]
        | _ => simp [Pc.writes]
      | copy =>
        rw [hp] at hg
        simp only [Pc.reads, List.mem_singleton] at hg
        subst hg
        revert hf
        cases x.pc with
        | put b => cases b <;> simp [Pc.writes]
        | _ => simp [Pc.writes]
      | lock => rw [hp] at hg; simp [Pc.reads] at hg
      | _ => rw [hp] at hyi; simp [Pc.inside] at hyi

theorem no_check (r : W.Reach false w) : ∀ x ∈ w.jobs, x.pc ≠ .checkCb ∧ x.pc ≠ .checkPost := by
  induction r with
  | start => intro x h; simp [W.start] at h
  | @step w w' op _ h ih =>
    unfold W.step at h
    split at h
    · cases h
    · cases op with
      | begin c =>
        dsimp only at h
        cases c with
        | make l =>
          simp only [W.begin, atom, Option.map_some, Option.some.injEq] at h
          subst h; exact ih
        | take l =>
          simp only [W.begin] at h
          cases ha : atom w.m (.take l) with
          | none => simp [ha] at h
          | some q => simp only [ha, Option.map_some, Option.some.injEq] at h; subst h; exact ih
        | fulfil s =>
          simp only [W.begin] at h
          split at h
          · simp only [Option.some.injEq] at h
            subst h
            intro x hx
            rcases List.mem_append.1 hx with hx | hx
            · exact ih x hx
            · rw [List.mem_singleton] at hx; subst hx; simp [Call.first]
          · cases h
        | attach s fn =>
          simp only [W.begin] at h
          split at h
          · simp only [Option.some.injEq] at h
            subst h
            intro x hx
            rcases List.mem_append.1 hx with hx | hx
            · exact ih x hx
            · rw [List.mem_singleton] at hx; subst hx; simp [Call.first]
          · cases h
      | go k =>
        dsimp only at h
        cases hj : w.jobs[k]? with
        | none => simp [hj] at h
        | some j =>
          simp only [hj] at h
          cases hg : j.go w with
          | none => simp [hg] at h
          | some q =>
            obtain ⟨m, o⟩ := q
            simp only [hg, Option.map_some, Option.some.injEq] at h
            have hjo := ih j (List.mem_of_getElem? hj)
            cases o with
            | some pc =>
              dsimp only at h
              subst h
              intro x hx
              rcases mem_set_cases hx with ⟨i, hi, h⟩ | rfl
              · exact ih x (List.mem_of_getElem? h)
              · dsimp only
                obtain ⟨id, call, pc0⟩ := j
                cases call <;> cases pc0 <;> simp [Job.go] at hg hjo
                case fulfil.done => rw [← hg.2]; split <;> simp
                case fulfil.cb => rw [← hg.2]; split <;> simp
                case fulfil.lock => rw [← hg.2.2]; simp
                case attach.lock => rw [← hg.2.2]; simp
                all_goals rw [← hg.2]; simp
            | none =>
              dsimp only at h
              subst h
              intro x hx
              exact ih x (List.mem_of_mem_eraseIdx hx)

/-- C101: in release builds there are no data races on promises and futures, whatever the threads do. -/
theorem C101_race_free (r : W.Reach false w) (hu : w.m.ub = false) : ¬ w.racy := by
  rintro ⟨i, j, x, y, s, f, hij, hx, hy, hxs, hys, hf, hg⟩
  exact (no_check r y (List.mem_of_getElem? hy)).1 (C101_debug r hu hij hx hy hxs hys hf hg)

/-- One promise and its future; one thread calls the promise, another one calls `then` on the future. -/
def raceOps : List WOp := [.begin (.make 0), .begin (.attach 0 .void), .begin (.fulfil 0),
  .go 0, .go 1, .go 1, .go 1, .go 1]

/-- C101, the negative part: in debug builds there is a data race between calling a promise and `then` on its
future: `assert(!state_->callback)` reads the callback without a lock. -/
theorem C101_debug_false : ¬ ∀ w, W.Reach true w → w.m.ub = false → ¬ w.racy := by
  intro h
  have hr : ∀ (ops : List WOp) (w w' : W), W.Reach true w → w.exec true ops = some w' → W.Reach true w' := by
    intro ops
    induction ops with
    | nil => intro w w' r e; cases e; exact r
    | cons op ops ih =>
      intro w w' r e
      simp only [W.exec] at e
      cases hs : w.step true op with
      | none => simp [hs] at e
      | some w1 => rw [hs] at e; exact ih w1 w' (.step op r hs) e
  have he : ∃ w, W.start.exec true raceOps = some w ∧ w.m.ub = false ∧
      w.jobs[0]? = some ⟨1, .attach 0 .void, .checkCb⟩ ∧ w.jobs[1]? = some ⟨2, .fulfil 0, .null⟩ := by
    refine ⟨(W.start.exec true raceOps).getD W.start, ?_, ?_, ?_, ?_⟩
    · have : (W.start.exec true raceOps).isSome = true := by decide +kernel
      obtain ⟨w, hw⟩ := Option.isSome_iff_exists.1 this
      rw [hw]; rfl
    · decide +kernel
    · decide +kernel
    · decide +kernel
  obtain ⟨w, he, hu, h0, h1⟩ := he
  exact h w (hr _ _ _ .start he) hu
    ⟨1, 0, _, _, 0, .callback, by decide, h1, h0, rfl, rfl, by decide, Or.inr (by decide)⟩

/-! ### Calls are as if they followed each other -/

/-- C101: however the accesses of calls in several threads are interleaved, in debug and in release builds, the
calls have the effect and the results that they would have in some sequence, one after the other.  All calls that
have returned are in that sequence, and only calls that have begun; a call that has returned before another one
begins stands before it.  What is in the queues of the loops, and in states that no call is working with, is what
this sequence leaves there. -/
theorem C101_linear {dbg : Bool} (r : W.Reach dbg w) (hu : w.m.ub = false) :
    ∃ (l : List Done) (m : M), Serial Future.start l m ∧
      (∀ i c res, HEv.finish i c res ∈ w.hist → (i, c, res) ∈ l) ∧
      (∀ i c res, (i, c, res) ∈ l → HEv.begin i c ∈ w.hist) ∧
      (l.map (·.1)).Nodup ∧
      (∀ a b ca cb ra rb, Before w.hist (.finish a ca ra) (.begin b cb) → (b, cb, rb) ∈ l →
        Before l (a, ca, ra) (b, cb, rb)) ∧
      m.queue = w.m.queue ∧ m.log = w.m.log ∧ (∀ s, ¬ w.locked s → m.cell s = w.m.cell s) ∧
      (w.jobs = [] → m = w.m) := by
  obtain ⟨L, v⟩ := inv_reach r hu
  refine ⟨L, w.abs, v.serial, v.all, v.only, v.nodup, v.order, rfl, rfl, ?_, ?_⟩
  · intro s hs
    exact abs_eq_of_not_past (fun h => hs (W.past_locked h))
  · intro hj
    apply M.ext' <;> try rfl
    intro t
    refine abs_eq_of_not_past ?_
    rintro ⟨x, hx, _⟩
    rw [hj] at hx
    cases hx

/-- C101: a callback that has been given to `then` while other threads may be calling the promise has been run
once or waits once in the loop if a call of the promise has returned, has not if none has begun, and never twice. -/
theorem C101_once {dbg : Bool} (r : W.Reach dbg w) (hu : w.m.ub = false) {i s p : Nat} {fn : Fn}
    (h : HEv.finish i (.attach s fn) (.state p) ∈ w.hist) :
    ∃ c, Ev.attach c s p fn ∈ w.m.log ∧
      (∀ l, runs w.m c + ((w.m.queue l).filter (fun t => t.c = c)).length ≤ 1) ∧
      ((∃ j, HEv.finish j (.fulfil s) .nothing ∈ w.hist) →
        runs w.m c + ((w.m.queue (w.m.cell s).loop).filter (fun t => t.c = c)).length = 1) ∧
      ((∀ j, HEv.begin j (.fulfil s) ∉ w.hist) →
        runs w.m c = 0 ∧ ∀ l, ((w.m.queue l).filter (fun t => t.c = c)).length = 0) := by
  obtain ⟨L, v⟩ := inv_reach r hu
  have q := ser_of_serial v.serial rfl hu
  obtain ⟨c, hc⟩ := q.calls i s fn p (v.all _ _ _ h)
  obtain ⟨h1, h2, h3, h4⟩ := q.att c s p fn hc
  have hl : (w.abs.cell s).loop = (w.m.cell s).loop := by
    simp only [W.abs]
    split <;> rfl
  refine ⟨c, hc, ?_, ?_, ?_⟩
  · intro l
    cases hd : (w.abs.cell s).done with
    | true =>
      have h5 := h3 hd
      by_cases e : l = (w.abs.cell s).loop
      · rw [e]; exact Nat.le_of_eq h5
      · have h6 : waiting w.abs l c = 0 := by
          rw [waiting_zero]
          intro t ht hte
          obtain ⟨s', g1, g2, _⟩ := q.queued l t ht
          rw [hte] at g1
          rw [(q.uniq _ _ _ _ _ _ _ hc g1).1] at e
          exact e g2.symm
        have h7 : runs w.m c + waiting w.abs l c ≤ 1 := by
          rw [h6]
          have : runs w.abs c = runs w.m c := rfl
          omega
        exact h7
    | false =>
      obtain ⟨_, h5, h6⟩ := h4 hd
      have h7 : runs w.abs c + waiting w.abs l c ≤ 1 := by rw [h5, h6]; decide
      exact h7
  · rintro ⟨j, hj⟩
    have hd := (q.done s h2).2 ⟨j, _, v.all _ _ _ hj⟩
    have h5 := h3 hd
    rw [hl] at h5
    exact h5
  · intro hn
    have hd : (w.abs.cell s).done = false := by
      cases hd : (w.abs.cell s).done with
      | false => rfl
      | true =>
        obtain ⟨j, r, hj⟩ := (q.done s h2).1 hd
        exact (hn j (v.only _ _ _ hj)).elim
    obtain ⟨_, h5, h6⟩ := h4 hd
    exact ⟨h5, h6⟩

/-! ### Calls return -/

/-- C101: calls do not wait for each other for ever: as long as one is in progress, one of them can go on. -/
theorem C101_progress {dbg : Bool} (r : W.Reach dbg w) (hu : w.m.ub = false) (hne : w.jobs ≠ []) :
    ∃ k w', w.step dbg (.go k) = some w' := by
  obtain ⟨L, v⟩ := inv_reach r hu
  -- a call that does not wait for a lock can go on
  have hgo : ∀ (j : Job), j.fits → (∀ s, j.call.cell = some s → j.pc = .lock → ¬ w.locked s) → j.go w ≠ none := by
    rintro ⟨id, call, pc⟩ hf hl hn
    cases call with
    | make l => cases pc <;> exact hf
    | take l => cases pc <;> exact hf
    | attach s fn =>
      cases pc with
      | lock => simp [Job.go, hl s rfl rfl] at hn
      | _ => first | exact hf | simp [Job.go] at hn
    | fulfil s =>
      cases pc with
      | lock => simp [Job.go, hl s rfl rfl] at hn
      | _ => first | exact hf | simp [Job.go] at hn
  have hstep : ∀ (k : Nat) (j : Job), w.jobs[k]? = some j → j.go w ≠ none → ∃ k w', w.step dbg (.go k) = some w' := by
    intro k j hj hg
    cases hgo : j.go w with
    | none => exact (hg hgo).elim
    | some q => exact ⟨k, _, by simp only [W.step, hu, hj, hgo]; rfl⟩
  obtain ⟨j, js, hjs⟩ := List.exists_cons_of_ne_nil hne
  have hj0 : w.jobs[0]? = some j := by rw [hjs]; rfl
  by_cases hw : ∃ s, j.call.cell = some s ∧ j.pc = .lock ∧ w.locked s
  · obtain ⟨s, _, _, x, hx, hxc, hxi⟩ := hw
    obtain ⟨k, hk⟩ := List.mem_iff_getElem?.1 hx
    refine hstep k x hk (hgo x (v.fits x hx) ?_)
    intro t _ hp
    rw [hp] at hxi
    cases hxi
  · refine hstep 0 j hj0 (hgo j (v.fits j (List.mem_of_getElem? hj0)) ?_)
    intro s hs hp hl
    exact hw ⟨s, hs, hp, hl⟩

/-- How many steps a call has left at most. -/
def Job.left (j : Job) : Nat :=
  match j.call, j.pc with
  | _, .checkPost => 7
  | _, .checkCb => 6
  | _, .copy => 5
  | .attach _ _, .lock => 4
  | .attach _ _, .done => 3
  | _, .lock => 7
  | _, .done => 6
  | _, .cb => 5
  | _, .post _ => 4
  | _, .set _ => 3
  | _, .null => 2
  | _, .put _ => 2
  | _, .unlock _ => 1

def W.left (w : W) : Nat := (w.jobs.map Job.left).sum

theorem Job.left_le (j : Job) : j.left ≤ 7 := by
  obtain ⟨id, call, pc⟩ := j
  cases call <;> cases pc <;> simp [Job.left]

theorem Job.left_pos (j : Job) : 0 < j.left := by
  obtain ⟨id, call, pc⟩ := j
  cases call <;> cases pc <;> simp [Job.left]

theorem go_left {j : Job} {m : M} {pc : Pc} (h : j.go w = some (m, some pc)) :
    Job.left { j with pc := pc } < j.left := by
  obtain ⟨id, call, pc0⟩ := j
  cases call <;> cases pc0 <;> simp [Job.go] at h
  case fulfil.done => rw [← h.2]; split <;> simp [Job.left]
  case fulfil.cb => rw [← h.2]; split <;> simp [Job.left]
  case fulfil.lock => rw [← h.2.2]; simp [Job.left]
  case attach.lock => rw [← h.2.2]; simp [Job.left]
  all_goals rw [← h.2]; simp [Job.left]

theorem sum_set (f : Job → Nat) : ∀ (l : List Job) (k : Nat) (j x : Job), l[k]? = some j → f x < f j →
    ((l.set k x).map f).sum < (l.map f).sum
  | [], _, _, _, h, _ => by cases h
  | a :: l, 0, j, x, h, hx => by
    cases h
    simp only [List.set_cons_zero, List.map_cons, List.sum_cons]
    omega
  | a :: l, k + 1, j, x, h, hx => by
    have := sum_set f l k j x h hx
    simp only [List.set_cons_succ, List.map_cons, List.sum_cons]
    omega

theorem sum_erase (f : Job → Nat) : ∀ (l : List Job) (k : Nat) (j : Job), l[k]? = some j → 0 < f j →
    ((l.eraseIdx k).map f).sum < (l.map f).sum
  | [], _, _, h, _ => by cases h
  | a :: l, 0, j, h, hx => by
    cases h
    simp only [List.eraseIdx_cons_zero, List.map_cons, List.sum_cons]
    omega
  | a :: l, k + 1, j, h, hx => by
    have := sum_erase f l k j h hx
    simp only [List.eraseIdx_cons_succ, List.map_cons, List.sum_cons]
    omega

theorem step_left {dbg : Bool} {w' : W} {k : Nat} (h : w.step dbg (.go k) = some w') : w'.left < w.left := by
  unfold W.step at h
  split at h
  · cases h
  · dsimp only at h
    cases hj : w.jobs[k]? with
    | none => simp [hj] at h
    | some j =>
      simp only [hj] at h
      cases hg : j.go w with
      | none => simp [hg] at h
      | some q =>
        obtain ⟨m, o⟩ := q
        simp only [hg, Option.map_some, Option.some.injEq] at h
        cases o with
        | some pc =>
          dsimp only at h
          subst h
          exact sum_set Job.left _ _ _ _ hj (go_left hg)
        | none =>
          dsimp only at h
          subst h
          exact sum_erase Job.left _ _ _ hj j.left_pos

/-- C101: every call takes at most seven accesses, so if no new ones begin all return. -/
theorem C101_returns {dbg : Bool} {w' : W} {ks : List Nat} (h : w.exec dbg (ks.map .go) = some w') :
    ks.length ≤ 7 * w.jobs.length := by
  have h1 : ∀ (ks : List Nat) (w w' : W), w.exec dbg (ks.map .go) = some w' → ks.length ≤ w.left := by
    intro ks
    induction ks with
    | nil => intro w w' _; exact Nat.zero_le _
    | cons k ks ih =>
      intro w w' h
      simp only [List.map_cons, W.exec] at h
      cases hs : w.step dbg (.go k) with
      | none => simp [hs] at h
      | some w1 =>
        rw [hs] at h
        have h2 := ih w1 w' h
        have h3 := step_left hs
        simp only [List.length_cons]
        omega
  refine Nat.le_trans (h1 ks w w' h) ?_
  unfold W.left
  induction w.jobs with
  | nil => simp
  | cons j js ih =>
    have := j.left_le
    simp only [List.map_cons, List.sum_cons, List.length_cons]
    omega

/-! ### An example -/

/-- `then` in one thread, two copies of the promise called by others: all at the same time. -/
def onceOps : List WOp := [.begin (.make 0), .begin (.fulfil 0), .begin (.attach 0 .void), .begin (.fulfil 0),
  .go 0, .go 0, .go 1, .go 0, .go 0, .go 0, .go 0, .go 0, .go 0, .go 0, .go 0, .go 0, .go 0, .go 0, .go 0, .go 0,
  .begin (.take 0)]

-- the first call of the promise comes first, then `then`, then the other call; the callback is run once
example : ((W.start.exec false onceOps).map fun w => (w.m.ub, w.jobs, w.hist.length, runs w.m 0)) =
    some (false, [], 10, 1) := by decide +kernel

end Verif.Future
