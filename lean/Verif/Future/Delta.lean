import Verif.Future.Live

/-! What a step changes. -/

namespace Verif.Future

/-- The outcomes of the operations. -/
inductive Out (m : M) : Op → M → Prop where
  | newPair (l : Nat) : Out m (.newPair l) { m with
      size := m.size + 1
      cell := upd m.cell m.size ⟨l, false, none, none⟩
      proms := m.proms ++ [some m.size]
      futs := m.futs ++ [some m.size] }
  | invalid : Out m .invalid { m with proms := m.proms ++ [none], futs := m.futs ++ [none] }
  | copyP {i s} : m.proms[i]? = some s → Out m (.copyP i) { m with proms := m.proms ++ [s] }
  | copyF {i s} : m.futs[i]? = some s → Out m (.copyF i) { m with futs := m.futs ++ [s] }
  | threw {i} : m.proms[i]? = some none → Out m (.fulfil i) (m.say (.threw i))
  | fulfil {i s} : m.proms[i]? = some (some s) →
      Out m (.fulfil i) { m.fulfil s with proms := m.proms.set i none }
  | thenS {i s isF} : m.futs[i]? = some (some s) →
      Out m (.then i isF) { { m with futs := m.futs.set i none }.attach s (if isF then .fut else .void) with
        futs := m.futs.set i none ++ [some m.size] }
  | thenN {i isF} : m.futs[i]? = some none →
      Out m (.then i isF) { m with
        futs := m.futs.set i none
        active := .imm m.nextC isF :: m.active
        nextC := m.nextC + 1
        log := m.log ++ [.now m.nextC] }
  | thenPS {i j s q} : m.futs[i]? = some (some s) → m.proms[j]? = some (some q) →
      Out m (.thenP i j) { { m with
          futs := m.futs.set i none
          proms := m.proms.set j none }.attach s (.prom q) with
        futs := m.futs.set i none ++ [some m.size] }
  | thenPN {i j q} : m.futs[i]? = some none → m.proms[j]? = some (some q) →
      Out m (.thenP i j) { m.fulfil q with
        proms := m.proms.set j none
        futs := m.futs.set i none ++ [none] }
  | alsoS {i j s g} : i ≠ j → m.futs[i]? = some (some s) → m.futs[j]? = some g →
      Out m (.also i j) { { m with futs := (m.futs.set j none).set i none }.attach s (.give g) with
        futs := (m.futs.set j none).set i none ++ [some m.size] }
  | alsoN {i j g} : i ≠ j → m.futs[i]? = some none → m.futs[j]? = some g →
      Out m (.also i j) { m with futs := (m.futs.set j none).set i none ++ [g] }
  | run {l t q} : m.queue l = t :: q → Out m (.run l) { m with
      queue := upd m.queue l q
      active := t.frame :: m.active
      log := m.log ++ [.start t.c] }
  | retV {k t} : m.active[k]? = some (.run t) → t.fn = .void →
      Out m (.retV k) { m with active := .ret t none :: m.active.eraseIdx k }
  | retVN {k c} : m.active[k]? = some (.imm c false) →
      Out m (.retV k) { m with active := m.active.eraseIdx k, futs := m.futs ++ [none] }
  | retF {k i t s} : m.active[k]? = some (.run t) → m.futs[i]? = some s → t.fn = .fut →
      Out m (.retF k i) { m with
        active := .ret t (some s) :: m.active.eraseIdx k
        futs := m.futs.set i none }
  | retFN {k i c s} : m.active[k]? = some (.imm c true) → m.futs[i]? = some s →
      Out m (.retF k i) { m with
        active := m.active.eraseIdx k
        futs := m.futs.set i none ++ [s] }
  | raise {k t} : m.active[k]? = some (.run t) →
      Out m (.raise k) { m with active := m.active.eraseIdx k }
  | raiseN {k c isF} : m.active[k]? = some (.imm c isF) →
      Out m (.raise k) { m with active := m.active.eraseIdx k }
  | lib0 {k t r} : m.active[k]? = some (.ret t r) → (∀ g, r ≠ some (some g)) →
      Out m (.lib k) (({ m with active := m.active.eraseIdx k }.say (.finish t.c r)).fulfil t.p)
  | libS {k t g} : m.active[k]? = some (.ret t (some (some g))) →
      Out m (.lib k)
        (({ m with active := m.active.eraseIdx k }.say (.finish t.c (some (some g)))).attach g (.prom t.p))
  | libQ {k t q} : m.active[k]? = some (.satisfy q t) →
      Out m (.lib k) { ({ m with active := m.active.eraseIdx k }.fulfil q) with
        active := .ret t none :: m.active.eraseIdx k }

theorem thenF_some (m : M) (s : Nat) (fn : Fn) : m.thenF (some s) fn =
    { m.attach s fn with futs := m.futs ++ [some m.size] } := by
  unfold M.thenF
  dsimp only
  rw [attach_futs]

theorem step_out {m m' : M} {op : Op} (h : step m op = some m') : Out m op m' := by
  unfold step at h
  split at h
  · cases h
  cases op with
  | newPair l => cases h; exact .newPair l
  | invalid => cases h; exact .invalid
  | copyP a =>
    simp only [Option.map_eq_some_iff] at h
    obtain ⟨x, hx, rfl⟩ := h
    exact .copyP hx
  | copyF a =>
    simp only [Option.map_eq_some_iff] at h
    obtain ⟨x, hx, rfl⟩ := h
    exact .copyF hx
  | fulfil a =>
    dsimp only at h
    split at h
    · cases h
    · rename_i hp; cases h; exact .threw hp
    · rename_i hp; cases h; exact .fulfil hp
  | «then» a isF =>
    dsimp only at h
    split at h
    · cases h
    · rename_i s hs
      cases h
      cases s with
      | none => cases isF <;> exact .thenN hs
      | some s => rw [thenF_some]; exact .thenS hs
  | thenP a b =>
    dsimp only at h
    split at h
    · rename_i s q hs hq
      cases h
      cases s with
      | none =>
        have := Out.thenPN hs hq
        have e : ({ m with futs := m.futs.set a none, proms := m.proms.set b none }.thenF none (.prom q))
            = { m.fulfil q with proms := m.proms.set b none, futs := m.futs.set a none ++ [none] } := by
          unfold M.thenF M.fulfil
          dsimp only
          split <;> rfl
        rw [e]
        exact this
      | some s => rw [thenF_some]; exact .thenPS hs hq
    · cases h
  | also a b =>
    dsimp only at h
    split at h
    · rename_i s q hs hq
      split at h
      · cases h
      · rename_i hne
        cases h
        cases s with
        | none => exact .alsoN hne hs hq
        | some s => rw [thenF_some]; exact .alsoS hne hs hq
    · cases h
  | run l =>
    dsimp only at h
    split at h
    · cases h
    · rename_i t q hq
      cases h
      exact .run hq
  | retV k =>
    dsimp only at h
    split at h
    · rename_i t ht
      split at h
      · rename_i hv
        cases h
        exact .retV ht hv
      · cases h
    · rename_i hk
      cases h
      exact .retVN hk
    · cases h
  | retF k i =>
    dsimp only at h
    split at h
    · rename_i t s hk hi
      split at h
      · rename_i hv
        cases h
        exact .retF hk hi hv
      · cases h
    · rename_i hk hi
      cases h
      exact .retFN hk hi
    · cases h
  | raise k =>
    dsimp only at h
    split at h
    · rename_i hk; cases h; exact .raise hk
    · rename_i hk; cases h; exact .raiseN hk
    · cases h
  | lib k =>
    dsimp only at h
    split at h
    · rename_i f hf
      unfold M.lib at h
      split at h
      · cases h; exact .lib0 hf (by simp)
      · cases h; exact .lib0 hf (by simp)
      · cases h; exact .libS hf
      · cases h
        have := Out.libQ hf
        rw [show (M.fulfil { m with active := m.active.eraseIdx k } _).active = m.active.eraseIdx k from
          fulfil_active _ _]
        exact this
      · cases h
    · cases h

/-- Future objects that an operation takes. -/
def Op.takes (i : Nat) : Op → Prop
  | .then j _ => j = i
  | .thenP j _ => j = i
  | .also j k => j = i ∨ k = i
  | .retF _ j => j = i
  | _ => False

/-- Promise objects that an operation takes. -/
def Op.takesP (i : Nat) : Op → Prop
  | .fulfil j => j = i
  | .thenP _ j => j = i
  | _ => False

theorem out_len {m m' : M} {op : Op} (h : Out m op m') : m.futs.length ≤ m'.futs.length ∧
    m.proms.length ≤ m'.proms.length ∧ m.nextC ≤ m'.nextC := by
  cases h <;> simp [attach_nextC, attach_proms, attach_futs, fulfil_nextC, fulfil_proms, fulfil_futs, M.say]

theorem set_other {l : List (Option Nat)} {i j : Nat} (h : j ≠ i) (x : Option Nat) :
    (l.set j x)[i]? = l[i]? := List.getElem?_set_ne h

theorem app_old {l : List (Option Nat)} {i : Nat} (h : i < l.length) (x : List (Option Nat)) :
    (l ++ x)[i]? = l[i]? := List.getElem?_append_left h

theorem out_futs {m m' : M} {op : Op} (h : Out m op m') {i : Nat} (hi : i < m.futs.length)
    (ht : ¬ op.takes i) : m'.futs[i]? = m.futs[i]? := by
  cases h <;> simp only [Op.takes, not_or] at ht <;>
    simp_all [attach_futs, fulfil_futs, M.say, List.getElem?_append]

theorem out_proms {m m' : M} {op : Op} (h : Out m op m') {i : Nat} (hi : i < m.proms.length)
    (ht : ¬ op.takesP i) : m'.proms[i]? = m.proms[i]? := by
  cases h <;> simp only [Op.takesP] at ht <;>
    simp_all [attach_proms, fulfil_proms, M.say, List.getElem?_append]

theorem out_promsNew {m m' : M} {op : Op} (h : Out m op m') {i s : Nat}
    (hi : m'.proms[i]? = some (some s)) : m.proms[i]? = some (some s) ∨
    (∃ l, op = .newPair l ∧ s = m.size ∧ i = m.proms.length) ∨
    (∃ j, op = .copyP j ∧ m.proms[j]? = some (some s)) := by
  have key : ∀ (j : Nat), (m.proms.set j none)[i]? = some (some s) → m.proms[i]? = some (some s) := by
    intro j h
    rw [List.getElem?_set] at h
    split at h
    · split at h <;> cases h
    · exact h
  cases h with
  | newPair l =>
    by_cases hl : i < m.proms.length
    · left; rw [← hi]; exact (app_old hl _).symm
    · have : i = m.proms.length := by
        have := (List.getElem?_eq_some_iff.1 hi).1
        simp at this; omega
      subst this
      simp at hi
      exact Or.inr (Or.inl ⟨l, rfl, hi.symm, rfl⟩)
  | invalid =>
    by_cases hl : i < m.proms.length
    · left; rw [← hi]; exact (app_old hl _).symm
    · have : i = m.proms.length := by
        have := (List.getElem?_eq_some_iff.1 hi).1
        simp at this; omega
      subst this
      simp at hi
  | copyP hx =>
    by_cases hl : i < m.proms.length
    · left; rw [← hi]; exact (app_old hl _).symm
    · have : i = m.proms.length := by
        have := (List.getElem?_eq_some_iff.1 hi).1
        simp at this; omega
      subst this
      simp at hi
      subst hi
      exact Or.inr (Or.inr ⟨_, rfl, hx⟩)
  | fulfil => exact Or.inl (key _ hi)
  | thenPS => left; rw [attach_proms] at hi; exact key _ hi
  | thenPN => exact Or.inl (key _ hi)
  | libS => left; rw [attach_proms] at hi; exact hi
  | lib0 => left; rw [fulfil_proms] at hi; exact hi
  | libQ => left; rw [fulfil_proms] at hi; exact hi
  | thenS => left; rw [attach_proms] at hi; exact hi
  | alsoS => left; rw [attach_proms] at hi; exact hi
  | _ => left; exact hi

/-- The functions that an operation attaches. -/
inductive Adds (m : M) : Op → Nat → Fn → Prop where
  | «then» {i s isF} : m.futs[i]? = some (some s) → Adds m (.then i isF) s (if isF then .fut else .void)
  | thenP {i j s q} : m.futs[i]? = some (some s) → m.proms[j]? = some (some q) →
      Adds m (.thenP i j) s (.prom q)
  | also {i j s g} : Adds m (.also i j) s (.give g)
  | lib {k t g} : m.active[k]? = some (.ret t (some (some g))) → Adds m (.lib k) g (.prom t.p)

theorem out_att {m m' : M} {op : Op} (h : Out m op m') {c s p : Nat} {fn : Fn}
    (ha : Ev.attach c s p fn ∈ m'.log) : Ev.attach c s p fn ∈ m.log ∨
    (c = m.nextC ∧ p = m.size ∧ Adds m op s fn ∧ m'.nextC = m.nextC + 1) := by
  cases h <;> simp only [attach_log, fulfil_log, M.say, List.mem_append, List.mem_singleton,
    reduceCtorEq, or_false, Ev.attach.injEq, attach_nextC] at ha ⊢ <;> try exact Or.inl ha
  · rename_i h
    rcases ha with ha | ⟨rfl, rfl, rfl, rfl⟩
    · exact Or.inl ha
    · exact Or.inr ⟨rfl, rfl, .then h, trivial⟩
  · rename_i h h'
    rcases ha with ha | ⟨rfl, rfl, rfl, rfl⟩
    · exact Or.inl ha
    · exact Or.inr ⟨rfl, rfl, .thenP h h', trivial⟩
  · rcases ha with ha | ⟨rfl, rfl, rfl, rfl⟩
    · exact Or.inl ha
    · exact Or.inr ⟨rfl, rfl, .also, trivial⟩
  · rename_i h
    rcases ha with ha | ⟨rfl, rfl, rfl, rfl⟩
    · exact Or.inl ha
    · exact Or.inr ⟨rfl, rfl, .lib h, trivial⟩

theorem out_fin {m m' : M} {op : Op} (h : Out m op m') {c : Nat} {r : Option (Option Nat)}
    (ha : Ev.finish c r ∈ m'.log) : Ev.finish c r ∈ m.log ∨
    ∃ k t, op = .lib k ∧ m.active[k]? = some (.ret t r) ∧ t.c = c := by
  cases h <;> simp only [attach_log, fulfil_log, M.say, List.mem_append, List.mem_singleton,
    reduceCtorEq, or_false, Ev.finish.injEq] at ha <;> try exact Or.inl ha
  · rename_i h _
    rcases ha with ha | ⟨rfl, rfl⟩
    · exact Or.inl ha
    · exact Or.inr ⟨_, _, rfl, h, rfl⟩
  · rename_i h
    rcases ha with ha | ⟨rfl, rfl⟩
    · exact Or.inl ha
    · exact Or.inr ⟨_, _, rfl, h, rfl⟩

theorem out_start {m m' : M} {op : Op} (h : Out m op m') {c : Nat} (ha : Ev.start c ∈ m'.log) :
    Ev.start c ∈ m.log ∨ ∃ l t q, op = .run l ∧ m.queue l = t :: q ∧ t.c = c := by
  cases h <;> simp only [attach_log, fulfil_log, M.say, List.mem_append, List.mem_singleton,
    reduceCtorEq, or_false, Ev.start.injEq] at ha <;> try exact Or.inl ha
  rename_i h
  rcases ha with ha | rfl
  · exact Or.inl ha
  · exact Or.inr ⟨_, _, _, rfl, h, rfl⟩

theorem out_threw {m m' : M} {op : Op} (h : Out m op m') {i : Nat} (ha : Ev.threw i ∈ m'.log) :
    Ev.threw i ∈ m.log ∨ (op = .fulfil i ∧ m.proms[i]? = some none) := by
  cases h <;> simp only [attach_log, fulfil_log, M.say, List.mem_append, List.mem_singleton,
    reduceCtorEq, or_false, Ev.threw.injEq] at ha <;> try exact Or.inl ha
  rename_i h
  rcases ha with ha | rfl
  · exact Or.inl ha
  · exact Or.inr ⟨rfl, h⟩

theorem out_log {m m' : M} {op : Op} (h : Out m op m') {e : Ev} (he : e ∈ m.log) : e ∈ m'.log := by
  cases h <;> simp [attach_log, fulfil_log, M.say, he]

/-- Where frames come from. -/
inductive Comes (m : M) : Op → Frame → Prop where
  | run {l t q} : m.queue l = t :: q → Comes m (.run l) t.frame
  | imm {op c isF} : Comes m op (.imm c isF)
  | retV {k t} : m.active[k]? = some (.run t) → t.fn = .void → Comes m (.retV k) (.ret t none)
  | retF {k i t s} : m.active[k]? = some (.run t) → m.futs[i]? = some s → t.fn = .fut →
      Comes m (.retF k i) (.ret t (some s))
  | lib {k q t} : m.active[k]? = some (.satisfy q t) → Comes m (.lib k) (.ret t none)

theorem out_act {m m' : M} {op : Op} (h : Out m op m') {f : Frame} (hf : f ∈ m'.active) :
    f ∈ m.active ∨ Comes m op f := by
  have he : ∀ k, f ∈ m.active.eraseIdx k → f ∈ m.active := fun k h => List.mem_of_mem_eraseIdx h
  cases h with
  | thenS => left; rw [attach_active] at hf; exact hf
  | thenPS => left; rw [attach_active] at hf; exact hf
  | alsoS => left; rw [attach_active] at hf; exact hf
  | fulfil => left; rw [fulfil_active] at hf; exact hf
  | thenPN => left; rw [fulfil_active] at hf; exact hf
  | thenN h =>
    rcases List.mem_cons.1 hf with rfl | h
    · exact Or.inr .imm
    · exact Or.inl h
  | run h =>
    rcases List.mem_cons.1 hf with rfl | h'
    · exact Or.inr (.run h)
    · exact Or.inl h'
  | retV h h2 =>
    rcases List.mem_cons.1 hf with rfl | h'
    · exact Or.inr (.retV h h2)
    · exact Or.inl (he _ h')
  | retF h h2 h3 =>
    rcases List.mem_cons.1 hf with rfl | h'
    · exact Or.inr (.retF h h2 h3)
    · exact Or.inl (he _ h')
  | retVN => exact Or.inl (he _ hf)
  | retFN => exact Or.inl (he _ hf)
  | raise => exact Or.inl (he _ hf)
  | raiseN => exact Or.inl (he _ hf)
  | lib0 => left; rw [fulfil_active] at hf; exact he _ hf
  | libS => left; rw [attach_active] at hf; exact he _ hf
  | libQ h =>
    rcases List.mem_cons.1 hf with rfl | h'
    · exact Or.inr (.lib h)
    · exact Or.inl (he _ h')
  | _ => exact Or.inl hf

/-- How promises are fulfilled. -/
inductive Fulfils (m : M) : Op → Nat → Prop where
  | obj {i s} : m.proms[i]? = some (some s) → Fulfils m (.fulfil i) s
  | «then» {i j s} : m.futs[i]? = some none → m.proms[j]? = some (some s) → Fulfils m (.thenP i j) s
  | ret {k t r} : m.active[k]? = some (.ret t r) → (∀ g, r ≠ some (some g)) → Fulfils m (.lib k) t.p
  | sat {k t s} : m.active[k]? = some (.satisfy s t) → Fulfils m (.lib k) s

theorem attach_done {m : M} {s : Nat} {fn : Fn} (hs : s < m.size) (hu : (m.attach s fn).ub = false)
    {a : Nat} (h : ((m.attach s fn).cell a).done = true) : (m.cell a).done = true := by
  rw [attach_cell hs hu] at h
  split at h
  · cases h
  · split at h
    · rename_i h1
      rw [h1.1]; exact h
    · exact h

theorem fulfil_done {m : M} {s a : Nat} (h : ((m.fulfil s).cell a).done = true) :
    a = s ∨ (m.cell a).done = true := by
  rw [fulfil_cell] at h
  split at h
  · left; assumption
  · right; exact h

theorem out_done {m m' : M} {op : Op} (i : Inv m) (hu : m'.ub = false) (h : Out m op m') {s : Nat}
    (hd : (m'.cell s).done = true) : (m.cell s).done = true ∨ Fulfils m op s := by
  cases h with
  | newPair l =>
    left
    have hd : (upd m.cell m.size ⟨l, false, none, none⟩ s).done = true := hd
    unfold upd at hd
    split at hd
    · cases hd
    · exact hd
  | fulfil hp =>
    rcases fulfil_done hd with rfl | h
    · exact Or.inr (.obj hp)
    · exact Or.inl h
  | @thenS a s isF hs =>
    left
    exact attach_done (m := { m with futs := m.futs.set a none }) (i.futs _ (get_mem hs)) hu hd
  | @thenPS a b s q hs hq =>
    left
    exact attach_done (m := { m with futs := m.futs.set a none, proms := m.proms.set b none }) (i.futs _ (get_mem hs)) hu hd
  | thenPN hs hq =>
    rcases fulfil_done hd with rfl | h
    · exact Or.inr (.then hs hq)
    · exact Or.inl h
  | @alsoS a b s g _ hs hg =>
    left
    exact attach_done (m := { m with futs := (m.futs.set b none).set a none }) (i.futs _ (get_mem hs)) hu hd
  | lib0 hk hr =>
    rcases fulfil_done hd with rfl | h
    · exact Or.inr (.ret hk hr)
    · exact Or.inl h
  | @libS k t g hk =>
    left
    have := i.frames _ (List.mem_of_getElem? hk)
    exact attach_done (m := { m with active := m.active.eraseIdx k }.say (.finish t.c (some (some g))))
      (this.2.1 _ rfl) hu hd
  | libQ hk =>
    rcases fulfil_done hd with rfl | h
    · exact Or.inr (.sat hk)
    · exact Or.inl h
  | _ => exact Or.inl hd

theorem step_le {m m' : M} (i : Inv m) {op : Op} (h : step m op = some m') (hu' : m'.ub = false) :
    Le m m' := by
  by_cases hop : ∀ k, op ≠ .lib k
  · exact (quiet_step i h hu' hop).le
  · have : ∃ k, op = .lib k := by
      cases op <;> simp at hop ⊢
    obtain ⟨k, rfl⟩ := this
    have h0 : Le m { m with active := m.active.eraseIdx k } :=
      ⟨fun _ h => h, Nat.le_refl _, fun _ _ h => h, fun _ _ => rfl, fun _ _ => rfl⟩
    cases step_out h with
    | lib0 hk hr => exact Le.trans (h0.trans (say_le { m with active := m.active.eraseIdx k } _)) (fulfil_le _ _)
    | @libS _ t g hk =>
      have := i.frames _ (List.mem_of_getElem? hk)
      exact Le.trans (h0.trans (say_le { m with active := m.active.eraseIdx k } _))
        (attach_le (this.2.1 _ rfl) hu')
    | @libQ _ t q hk =>
      have := h0.trans (fulfil_le { m with active := m.active.eraseIdx k } q)
      exact ⟨this.log, this.size, this.done, this.src, this.loop⟩

/-- Frames go on, return or throw. -/
theorem out_keep {m m' : M} {op : Op} (h : Out m op m') {f : Frame} {c : Nat} (hf : f ∈ m.active)
    (hc : f.tick = some c) : (∃ f' ∈ m'.active, f'.tick = some c) ∨ (∃ r, Ev.finish c r ∈ m'.log) ∨
    ∃ k t, op = .raise k ∧ m.active[k]? = some (.run t) ∧ t.c = c := by
  have he : ∀ k g, m.active[k]? = some g → f = g ∨ f ∈ m.active.eraseIdx k := by
    intro k g hk
    obtain ⟨n, hn, rfl⟩ := List.mem_iff_getElem.1 hf
    by_cases hnk : n = k
    · left
      subst hnk
      rw [List.getElem?_eq_getElem hn] at hk
      exact Option.some.inj hk
    · right
      rw [List.mem_eraseIdx_iff_getElem]
      exact ⟨n, hn, hnk, rfl⟩
  cases h with
  | thenS => left; exact ⟨f, by rw [attach_active]; exact hf, hc⟩
  | thenPS => left; exact ⟨f, by rw [attach_active]; exact hf, hc⟩
  | alsoS => left; exact ⟨f, by rw [attach_active]; exact hf, hc⟩
  | fulfil => left; exact ⟨f, by rw [fulfil_active]; exact hf, hc⟩
  | thenPN => left; exact ⟨f, by rw [fulfil_active]; exact hf, hc⟩
  | thenN h => exact Or.inl ⟨f, List.mem_cons_of_mem _ hf, hc⟩
  | run h => exact Or.inl ⟨f, List.mem_cons_of_mem _ hf, hc⟩
  | retV h h2 =>
    rcases he _ _ h with rfl | h'
    · exact Or.inl ⟨_, List.mem_cons_self, hc⟩
    · exact Or.inl ⟨f, List.mem_cons_of_mem _ h', hc⟩
  | retF h h2 h3 =>
    rcases he _ _ h with rfl | h'
    · exact Or.inl ⟨_, List.mem_cons_self, hc⟩
    · exact Or.inl ⟨f, List.mem_cons_of_mem _ h', hc⟩
  | retVN h =>
    rcases he _ _ h with rfl | h'
    · cases hc
    · exact Or.inl ⟨f, h', hc⟩
  | retFN h =>
    rcases he _ _ h with rfl | h'
    · cases hc
    · exact Or.inl ⟨f, h', hc⟩
  | @raise k t h =>
    rcases he _ _ h with rfl | h'
    · cases hc
      exact Or.inr (Or.inr ⟨k, t, rfl, h, rfl⟩)
    · exact Or.inl ⟨f, h', hc⟩
  | raiseN h =>
    rcases he _ _ h with rfl | h'
    · cases hc
    · exact Or.inl ⟨f, h', hc⟩
  | @lib0 k t r h =>
    rcases he _ _ h with rfl | h'
    · cases hc
      exact Or.inr (Or.inl ⟨r, by rw [fulfil_log]; exact List.mem_append_right _ (List.mem_singleton.2 rfl)⟩)
    · exact Or.inl ⟨f, by rw [fulfil_active]; exact h', hc⟩
  | @libS k t g h =>
    rcases he _ _ h with rfl | h'
    · cases hc
      refine Or.inr (Or.inl ⟨some (some g), ?_⟩)
      rw [attach_log]
      exact List.mem_append_left _ (List.mem_append_right _ (List.mem_singleton.2 rfl))
    · exact Or.inl ⟨f, by rw [attach_active]; exact h', hc⟩
  | libQ h =>
    rcases he _ _ h with rfl | h'
    · exact Or.inl ⟨_, List.mem_cons_self, hc⟩
    · exact Or.inl ⟨f, List.mem_cons_of_mem _ h', hc⟩
  | _ => exact Or.inl ⟨f, hf, hc⟩

/-- The queue of loop `l` gets at most one task, and loses one if it is run. -/
theorem out_queue {m m' : M} {op : Op} (hu : m'.ub = false) (h : Out m op m') (l : Nat)
    (hop : op ≠ .run l) : ∃ ts, m'.queue l = m.queue l ++ ts := by
  have ha : ∀ (m : M) s fn, (m.attach s fn).ub = false → ∃ ts, (m.attach s fn).queue l = m.queue l ++ ts :=
    fun m s fn h => ⟨_, attach_queue h l⟩
  cases h with
  | thenS => exact ha _ _ _ hu
  | thenPS => exact ha _ _ _ hu
  | alsoS => exact ha _ _ _ hu
  | libS => exact ha _ _ _ hu
  | fulfil => exact ⟨_, fulfil_queue _ _ _⟩
  | thenPN => exact ⟨_, fulfil_queue _ _ _⟩
  | lib0 => exact ⟨_, fulfil_queue _ _ _⟩
  | libQ => exact ⟨_, fulfil_queue _ _ _⟩
  | @run l' t q h =>
    refine ⟨[], ?_⟩
    have : l ≠ l' := fun e => hop (by rw [e])
    simp [upd, this]
  | _ => exact ⟨[], by simp [M.say]⟩

end Verif.Future
