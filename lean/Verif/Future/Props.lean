import Verif.Future.Live

/-!
Properties C44 to C47: promises and futures.
-/

namespace Verif.Future

/-! ### C44 -/

/-- C44: a callback that is attached to a future with a promise is run at most once; it does not run
before the promise is fulfilled; once it is, it has been run exactly once or waits, exactly once, in the
queue of the loop.  This holds in every state: whether it was attached before or after the promise was
fulfilled, and for all interleavings. -/
theorem C44_once {m : M} (r : Reach m) (hu : m.ub = false) {c s p : Nat} (h : Attached m c s p) :
    (¬ Fulfilled m s → runs m c = 0 ∧ ∀ l, ¬ Waits m l c) ∧
    (Fulfilled m s → (runs m c = 1 ∧ ∀ l, ¬ Waits m l c) ∨
      (runs m c = 0 ∧ ((m.queue (m.cell s).loop).filter (fun t => t.c = c)).length = 1)) := by
  have i := r.inv hu
  have hA := h
  obtain ⟨fn, h⟩ := h
  have h1 := i.one _ _ _ _ h
  have hw : ∀ l, Waits m l c → Fulfilled m s ∧ l = (m.cell s).loop := by
    intro l hl
    refine ⟨i.started_fulfilled hA (Or.inr ⟨l, hl⟩), ?_⟩
    obtain ⟨t, ht, rfl⟩ := hl
    obtain ⟨s', k1, _, k3⟩ := i.queued l t ht
    have := (i.uniq _ _ _ _ _ _ _ k1 h).1
    subst this
    exact k3.symm
  refine ⟨fun hd => ⟨?_, fun l hl => hd (hw l hl).1⟩, fun hd => ?_⟩
  · apply Decidable.byContradiction
    intro hne
    have : Ev.start c ∈ m.log := List.count_pos_iff.1 (Nat.pos_of_ne_zero hne)
    exact hd (i.started_fulfilled hA (Or.inl this))
  · have hh : m.here s c = 0 := by
      unfold M.here
      cases hc : (m.cell s).cb with
      | none => rfl
      | some t =>
        have := (i.stored s t hc).2.1
        rw [show (m.cell s).done = true from hd] at this
        cases this
    rw [hh] at h1
    rw [runs_starts]
    by_cases hs : m.starts c = 0
    · refine Or.inr ⟨hs, ?_⟩
      rw [hs] at h1
      unfold M.queued at h1
      rw [List.countP_eq_length_filter] at h1
      have e : (fun t : Task => decide (t.c = c)) = (fun t => t.c == c) := by
        funext t
        rw [Bool.eq_iff_iff]
        simp
      rw [e]
      omega
    · refine Or.inl ⟨by omega, fun l hl => ?_⟩
      have hl' := (hw l hl).2
      subst hl'
      obtain ⟨t, ht, rfl⟩ := hl
      have : 0 < m.queued (m.cell s).loop t.c := List.countP_pos_iff.2 ⟨t, ht, by simp⟩
      omega

/-- C44: `then` on a future with a promise attaches the callback to it, and returns a future with a new
promise. -/
theorem C44_then {m m' : M} {a s : Nat} {isF : Bool} (hf : m.futs[a]? = some (some s))
    (h : step m (.then a isF) = some m') :
    ∃ p, Attached m' m.nextC s p ∧ m'.futs = m.futs.set a none ++ [some p] := by
  unfold step at h
  split at h
  · cases h
  · simp only [hf, Option.some.injEq] at h
    subst h
    simp only [M.thenF, Attached]
    rw [attach_log, attach_futs]
    exact ⟨_, ⟨_, List.mem_append_right _ List.mem_cons_self⟩, rfl⟩

example : ((step start (.newPair 0)).map fun m => (m.futs, (step m (.then 0 true)).isSome)) =
    some ([some 0], true) := by decide +kernel

/-- C44: callbacks are run by loops only, in their own step: neither the call of `then` nor that of the
promise runs any of them, nor does anything else.  The loop is the one of the promise. -/
theorem C44_posted {m m' : M} (r : Reach m) {op : Op} (h : step m op = some m') {c : Nat}
    (hc : runs m' c ≠ runs m c) :
    ∃ l s p, op = .run l ∧ Attached m c s p ∧ Fulfilled m s ∧ (m.cell s).loop = l ∧
      m'.log = m.log ++ [.start c] ∧ ∃ t q, m.queue l = t :: q ∧ t.c = c := by
  have i := r.inv (step_ub h)
  by_cases hop : ∃ l, op = .run l
  · obtain ⟨l, rfl⟩ := hop
    obtain ⟨t, q, h1, h2, _⟩ := step_run h
    obtain ⟨s, k1, k2, k3⟩ := i.queued l t (by rw [h1]; exact List.mem_cons_self)
    have e : t.c = c := by
      apply Decidable.byContradiction
      intro hne
      apply hc
      unfold runs
      rw [h2, List.count_append]
      have : List.count (Ev.start c) [Ev.start t.c] = 0 := by
        rw [List.count_eq_zero]
        simp
        exact fun e => hne e.symm
      rw [this]
      omega
    subst e
    exact ⟨l, s, t.p, rfl, ⟨t.fn, k1⟩, k2, k3, h2, t, q, h1, rfl⟩
  · obtain ⟨es, h1, h2⟩ := (step_tame h (fun l e => hop ⟨l, e⟩)).log
    refine absurd ?_ hc
    unfold runs
    rw [h1, List.count_append]
    have : List.count (Ev.start c) es = 0 := List.count_eq_zero.2 (h2 c)
    omega

/-- C44: after the promise is fulfilled the callback is run as soon as the loop has run as many tasks as
there are in its queue: whatever else happens meanwhile. -/
theorem C44_runs {m m' : M} (r : Reach m) (hu : m.ub = false) {c s p : Nat} (h : Attached m c s p)
    (hf : Fulfilled m s) {ops : List Op} (he : exec m ops = some m') (hu' : m'.ub = false)
    (hn : (m.queue (m.cell s).loop).length ≤ loopRuns (m.cell s).loop ops) : runs m' c = 1 := by
  have hle := ((exec_reach r he).inv hu').runs_le c
  have hmem : Ev.start c ∈ m'.log := by
    rcases (C44_once r hu h).2 hf with ⟨h1, _⟩ | ⟨h1, h2⟩
    · refine exec_log he _ (List.count_pos_iff.1 ?_)
      show 0 < runs m c
      omega
    · have hlen := h2
      have : ∃ t, t ∈ (m.queue (m.cell s).loop).filter (fun t => t.c = c) := by
        cases hl : (m.queue (m.cell s).loop).filter (fun t => t.c = c) with
        | nil => rw [hl] at hlen; simp at hlen
        | cons t ts => exact ⟨t, List.mem_cons_self⟩
      obtain ⟨t, ht⟩ := this
      rw [List.mem_filter] at ht
      obtain ⟨ht, e⟩ := ht
      simp at e
      obtain ⟨pre, post, hq⟩ := List.append_of_mem ht
      rw [← e]
      refine exec_starts he hq ?_
      rw [hq] at hn
      simp at hn
      omega
  have : 0 < runs m' c := List.count_pos_iff.2 hmem
  omega

/-- C44: a callback that is given to an empty future is called immediately. -/
theorem C44_empty {m m' : M} {a : Nat} {isF : Bool} (h : step m (.then a isF) = some m')
    (hf : m.futs[a]? = some none) :
    m'.log = m.log ++ [.now m.nextC] ∧ m'.active = .imm m.nextC isF :: m.active ∧
    m'.queue = m.queue ∧ m'.cell = m.cell := by
  unfold step at h
  split at h
  · cases h
  · simp only [hf, Option.some.injEq] at h
    subst h
    cases isF <;> exact ⟨rfl, rfl, rfl, rfl⟩

/-- A chain: `f.then(0).then(1).then(2)`, where callback 1 returns a future. -/
def exOps : List Op :=
  [.newPair 0, .then 0 false, .then 1 true, .newPair 0, .then 2 false, .fulfil 0, .run 0, .retV 0,
   .lib 0, .run 0, .retF 0 3, .lib 0, .fulfil 1, .run 0, .lib 0]

def exM : M := (exec start exOps).getD start

/-- … after which callback 2 waits for the loop, which has run 0, 1 and the one that the library has
attached to the future that 1 has returned. -/
theorem exM_exec : exec start exOps = some exM := by
  unfold exM
  cases h : exec start exOps with
  | none =>
    have : (exec start exOps).isSome = true := by decide +kernel
    rw [h] at this
    cases this
  | some m => rfl

theorem exM_reach : Reach exM := exec_reach .start exM_exec

example : exM.ub = false ∧ Attached exM 2 2 4 ∧ Fulfilled exM 2 ∧ runs exM 2 = 0 ∧ runs exM 1 = 1 ∧
    runs exM 0 = 1 ∧ (exM.queue 0).map (·.c) = [2] :=
  ⟨by decide +kernel, ⟨.void, by decide +kernel⟩, by unfold Fulfilled; decide +kernel,
   by decide +kernel, by decide +kernel, by decide +kernel, by decide +kernel⟩

def exM1 : M := (step exM (.run 0)).getD start

theorem exM1_step : step exM (.run 0) = some exM1 := by
  unfold exM1
  cases h : step exM (.run 0) with
  | none =>
    have : (step exM (.run 0)).isSome = true := by decide +kernel
    rw [h] at this
    cases this
  | some m => rfl

example : runs exM1 2 ≠ runs exM 2 := by decide +kernel

example : exec exM [.run 0] = some exM1 ∧
    (exM.queue (exM.cell 2).loop).length ≤ loopRuns (exM.cell 2).loop [.run 0] :=
  ⟨by simp only [exec, exM1_step, Option.bind], by decide +kernel⟩

/-- An empty future. -/
def exInvalid : M := (step start .invalid).getD start

example : exInvalid.futs[0]? = some none ∧ exInvalid.proms[0]? = some none ∧
    (step exInvalid (.then 0 true)).isSome = true ∧ (step exInvalid (.fulfil 0)).isSome = true := by
  decide +kernel

/-- Attaching two callbacks to one pending future, through a copy of it, fails an assertion; this is the
only thing that sets `ub`. -/
example : ((exec start [.newPair 0, .copyF 0, .then 0 false, .then 1 false]).map (·.ub)) = some true := by
  decide +kernel

/-! ### C45 -/

/-- C45: in a chain of `then`s a callback is started only when each of the previous ones has finished,
and, if that has returned a future, when that future is completed. -/
theorem C45_order {m m' : M} (r : Reach m) {op : Op} (h : step m op = some m') {a b : Nat}
    (hb : runs m' b ≠ runs m b) (hab : Chain m a b) :
    ∃ res, Finished m a res ∧ ∀ g, res = some (some g) → Fulfilled m g := by
  obtain ⟨l, s, p, _, _, _, _, _, t, q, hq, e⟩ := C44_posted r h hb
  exact (r.inv (step_ub h)).chain hab (Or.inr ⟨l, t, by rw [hq]; exact List.mem_cons_self, e⟩)

/-- C45: callbacks finish at most once, with one result. -/
theorem C45_result {m : M} (r : Reach m) (hu : m.ub = false) {c : Nat} {x y : Option (Option Nat)}
    (h : Finished m c x) (h' : Finished m c y) : x = y ∧ runs m c = 1 := by
  have i := r.inv hu
  refine ⟨i.finish_unique h h', ?_⟩
  have h1 := i.runs_le c
  have : 0 < runs m c := List.count_pos_iff.2 (i.finish_start h)
  omega

/-- C45: the chain goes on.  When a callback has returned nothing, or an empty future, the future that
`then` has returned for it is completed.  When it has returned a future, a callback that completes it is
attached to that future: when this has run, it is completed. -/
theorem C45_completes {m : M} (r : Reach m) (hu : m.ub = false) {c s p : Nat}
    {res : Option (Option Nat)} (h : Attached m c s p) (hf : Finished m c res) :
    ((∀ g, res ≠ some (some g)) → Fulfilled m p) ∧
    (∀ g, res = some (some g) → ∃ d q, Attached m d g q ∧
      ∀ x, Finished m d x → Fulfilled m p) := by
  have lv := r.live hu
  obtain ⟨fn, h⟩ := h
  refine ⟨lv.void _ _ _ _ _ h hf, ?_⟩
  intro g hg
  subst hg
  obtain ⟨d, q, h1⟩ := lv.pass _ _ _ _ _ h hf
  exact ⟨d, q, ⟨_, h1⟩, fun x hx => lv.sat _ _ _ _ _ h1 hx⟩

example : Chain exM 0 2 :=
  .more (b := 1) (p := 2) (q := 4)
    (.next (s := 0) (p := 1) (q := 2) ⟨.void, by decide +kernel⟩ ⟨.fut, by decide +kernel⟩)
    ⟨1, .fut, by decide +kernel⟩ ⟨.void, by decide +kernel⟩

example : Finished exM 0 none ∧ Finished exM 1 (some (some 3)) ∧ Fulfilled exM 3 := by
  unfold Finished Fulfilled; decide +kernel

/-! ### C46 -/

/-- C46: `f.also(g)` for a future `f` with a promise: a callback on the result is started only when both
promises are fulfilled; by C44 it is run exactly once. -/
theorem C46_both {m m1 m2 m3 : M} (r : Reach m) {a b s : Nat} {g : Option Nat}
    (hf : m.futs[a]? = some (some s)) (hg : m.futs[b]? = some g) (h : step m (.also a b) = some m1)
    {ops : List Op} (he : exec m1 ops = some m2) {op : Op} (h3 : step m2 op = some m3) :
    ∃ p, m1.futs = (m.futs.set b none).set a none ++ [some p] ∧
      ∀ c q, Attached m2 c p q → runs m3 c ≠ runs m2 c →
        Fulfilled m2 s ∧ ∀ x, g = some x → Fulfilled m2 x := by
  have hlog : Ev.attach m.nextC s m.size (.give g) ∈ m1.log ∧
      m1.futs = (m.futs.set b none).set a none ++ [some m.size] := by
    unfold step at h
    split at h
    · cases h
    · simp only [hf, hg] at h
      split at h
      · cases h
      · simp only [Option.some.injEq] at h
        subst h
        simp only [M.thenF]
        rw [attach_log, attach_futs]
        simp
  refine ⟨m.size, hlog.2, ?_⟩
  intro c q hc hr
  have r2 := exec_reach (r.step _ h) he
  have i := r2.inv (step_ub h3)
  have hm : Ev.attach m.nextC s m.size (.give g) ∈ m2.log := exec_log he _ hlog.1
  have hch : Chain m2 m.nextC c := .next ⟨_, hm⟩ hc
  obtain ⟨res, h4, h5⟩ := C45_order r2 h3 hr hch
  have h6 := i.gives _ _ _ _ _ hm h4
  refine ⟨i.started_fulfilled ⟨_, hm⟩ (Or.inl (i.finish_start h4)), ?_⟩
  intro x hx
  exact h5 x (by rw [h6, hx])

/-- C46: for an empty `f`, `f.also(g)` is `g`. -/
theorem C46_empty {m m1 : M} {a b : Nat} {g : Option Nat}
    (hf : m.futs[a]? = some none) (hg : m.futs[b]? = some g) (h : step m (.also a b) = some m1) :
    m1 = { m with futs := (m.futs.set b none).set a none ++ [g] } := by
  unfold step at h
  split at h
  · cases h
  · simp only [hf, hg] at h
    split at h
    · cases h
    · simp only [Option.some.injEq] at h
      subst h
      rfl

/-- Two promises, `f0.also(f1)`, and a callback on the result; the second promise is fulfilled first. -/
def exAlso0 : M := (exec start [.newPair 0, .newPair 0]).getD start

theorem exAlso0_reach : Reach exAlso0 :=
  .step (.newPair 0) (.step (.newPair 0) .start rfl) rfl

def exAlso1 : M := (step exAlso0 (.also 0 1)).getD start

def exAlsoOps : List Op :=
  [.then 2 false, .fulfil 1, .fulfil 0, .run 0, .lib 0, .run 0, .lib 0, .lib 0]

def exAlso2 : M := (exec exAlso1 exAlsoOps).getD start

example : exAlso0.futs[0]? = some (some 0) ∧ exAlso0.futs[1]? = some (some 1) ∧
    (step exAlso0 (.also 0 1)).isSome = true ∧ (exec exAlso1 exAlsoOps).isSome = true ∧
    (step exAlso2 (.run 0)).isSome = true ∧
    runs exAlso2 1 = 0 ∧ runs ((step exAlso2 (.run 0)).getD start) 1 = 1 ∧
    exAlso2.log.contains (.attach 1 2 3 .void) = true := by decide +kernel

/-! ### C47 -/

/-- C47: calling an invalid promise throws and does nothing else. -/
theorem C47_invalid {m m' : M} {a : Nat} (hp : m.proms[a]? = some none)
    (h : step m (.fulfil a) = some m') : m' = { m with log := m.log ++ [.threw a] } := by
  unfold step at h
  split at h
  · cases h
  · simp only [hp, Option.some.injEq] at h
    subst h
    rfl

/-- Objects that have no state never get one again. -/
theorem proms_none {m m' : M} {op : Op} (h : step m op = some m') {a : Nat}
    (hp : m.proms[a]? = some none) : m'.proms[a]? = some none := by
  have hlt : a < m.proms.length := (List.getElem?_eq_some_iff.1 hp).1
  have happ : ∀ x, (m.proms ++ [x])[a]? = some none := fun x => by
    rw [List.getElem?_append_left hlt]; exact hp
  have hset : ∀ b, (m.proms.set b none)[a]? = some none := fun b => by
    rw [List.getElem?_set]
    split
    · split
      · rfl
      · rename_i e h'; subst e; exact absurd hlt h'
    · exact hp
  have hT : ∀ (x : M) (s : Option Nat) (fn : Fn), (x.thenF s fn).proms = x.proms := by
    intro x s fn
    cases s with
    | some s => exact attach_proms x s fn
    | none =>
      cases fn with
      | prom q => exact fulfil_proms x q
      | _ => rfl
  unfold step at h
  split at h
  · cases h
  cases op with
  | newPair l => simp only [Option.some.injEq] at h; subst h; exact happ _
  | invalid => simp only [Option.some.injEq] at h; subst h; exact happ _
  | copyP b =>
    simp only [Option.map_eq_some_iff] at h
    obtain ⟨x, hx, rfl⟩ := h
    exact happ _
  | copyF b =>
    simp only [Option.map_eq_some_iff] at h
    obtain ⟨x, hx, rfl⟩ := h
    exact hp
  | fulfil b =>
    dsimp only at h
    split at h
    · cases h
    · simp only [Option.some.injEq] at h; subst h; exact hp
    · simp only [Option.some.injEq] at h; subst h; exact hset b
  | «then» b isF =>
    dsimp only at h
    split at h
    · cases h
    · simp only [Option.some.injEq] at h; subst h; rw [hT]; exact hp
  | thenP b d =>
    dsimp only at h
    split at h
    · simp only [Option.some.injEq] at h; subst h; rw [hT]; exact hset d
    · cases h
  | also b d =>
    dsimp only at h
    split at h
    · split at h
      · cases h
      · simp only [Option.some.injEq] at h; subst h; rw [hT]; exact hp
    · cases h
  | run l =>
    dsimp only at h
    split at h
    · cases h
    · simp only [Option.some.injEq] at h; subst h; exact hp
  | retV k =>
    dsimp only at h
    split at h
    · split at h
      · simp only [Option.some.injEq] at h; subst h; exact hp
      · cases h
    · simp only [Option.some.injEq] at h; subst h; exact hp
    · cases h
  | retF k b =>
    dsimp only at h
    split at h
    · split at h
      · simp only [Option.some.injEq] at h; subst h; exact hp
      · cases h
    · simp only [Option.some.injEq] at h; subst h; exact hp
    · cases h
  | raise k =>
    dsimp only at h
    split at h
    · simp only [Option.some.injEq] at h; subst h; exact hp
    · simp only [Option.some.injEq] at h; subst h; exact hp
    · cases h
  | lib k =>
    dsimp only at h
    split at h
    · rename_i f hf
      cases f with
      | run t => simp [M.lib] at h
      | imm => simp [M.lib] at h
      | ret t r =>
        rcases r with _ | _ | g
        all_goals
          simp only [M.lib, Option.some.injEq] at h
          subst h
        · rw [fulfil_proms]; exact hp
        · rw [fulfil_proms]; exact hp
        · rw [attach_proms]; exact hp
      | satisfy q t =>
        simp only [M.lib, Option.some.injEq] at h
        subst h
        show (M.fulfil _ _).proms[a]? = _
        rw [fulfil_proms]; exact hp
    · cases h

/-- C47: after a promise object has been called, every later call of it throws. -/
theorem C47_twice {m m1 m2 m3 : M} {a : Nat} (h : step m (.fulfil a) = some m1) {ops : List Op}
    (he : exec m1 ops = some m2) (h3 : step m2 (.fulfil a) = some m3) :
    m3 = { m2 with log := m2.log ++ [.threw a] } := by
  have h1 : m1.proms[a]? = some none := by
    unfold step at h
    split at h
    · cases h
    · dsimp only at h
      split at h
      · cases h
      · rename_i hp
        simp only [Option.some.injEq] at h
        subst h
        exact hp
      · rename_i s hs
        simp only [Option.some.injEq] at h
        subst h
        have hlt : a < m.proms.length := (List.getElem?_eq_some_iff.1 hs).1
        simp [hlt]
  have h2 : m2.proms[a]? = some none := by
    clear h h3
    induction ops generalizing m1 with
    | nil => cases he; exact h1
    | cons op ops ih =>
      simp only [exec, Option.bind_eq_some_iff] at he
      obtain ⟨m', k1, k2⟩ := he
      exact ih k2 (proms_none k1 h1)
  exact C47_invalid h2 h3

/-- C47: fulfilling a promise again through a copy changes nothing but the copy: no callback is posted
twice. -/
theorem C47_copies {m m' : M} (r : Reach m) {a s : Nat} (hp : m.proms[a]? = some (some s))
    (hf : Fulfilled m s) (h : step m (.fulfil a) = some m') :
    m' = { m with proms := m.proms.set a none } := by
  have i := r.inv (step_ub h)
  have hcb : (m.cell s).cb = none := by
    cases hc : (m.cell s).cb with
    | none => rfl
    | some t =>
      have := (i.stored s t hc).2.1
      rw [show (m.cell s).done = true from hf] at this
      cases this
  have hcell : upd m.cell s { m.cell s with done := true, cb := none } = m.cell := by
    funext x
    unfold upd
    split
    · rename_i e
      subst e
      unfold Fulfilled at hf
      cases hx : m.cell x with
      | mk l d cb src =>
        rw [hx] at hf hcb
        simp at hf hcb
        simp [hf, hcb]
    · rfl
  unfold step at h
  split at h
  · cases h
  · simp only [hp, Option.some.injEq] at h
    subst h
    have : m.fulfil s = m := by
      have hfd : (m.cell s).done = true := hf
      unfold M.fulfil
      dsimp only
      rw [hcell]
      simp only [hfd]
    rw [this]

/-- A promise that is called, and its copy. -/
def exCopy : M := (exec start [.newPair 0, .copyP 0, .then 0 false, .fulfil 0]).getD start

example : (step exCopy (.fulfil 0)).isSome = true ∧ exCopy.proms[1]? = some (some 0) ∧
    (exCopy.cell 0).done = true ∧ (step exCopy (.fulfil 1)).isSome = true ∧
    (exCopy.queue 0).length = 1 := by decide +kernel

end Verif.Future
