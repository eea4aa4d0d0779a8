import Verif.Future.Prom

/-! Programs that move promises and futures but do not copy them: every promise and every future has at
most one holder. -/

namespace Verif.Future

/-- The operations that copy promise or future objects. -/
def Op.copies : Op → Bool
  | .copyP _ => true
  | .copyF _ => true
  | _ => false

/-- Where a future can be: in an object, in a closure of `also` that has not finished, or in the result of
a closure. -/
inductive Place where
  | nowhere
  | obj (i : Nat)
  | give (c : Nat)
  | ret (c : Nat)

/-- There is a future with state `s` at that place. -/
def Holds (m : M) : Place → Nat → Prop
  | .nowhere, _ => False
  | .obj i, s => m.futs[i]? = some (some s)
  | .give c, s => (∃ a p, Ev.attach c a p (.give (some s)) ∈ m.log) ∧ ∀ r, Ev.finish c r ∉ m.log
  | .ret c, s => ∃ t, t.c = c ∧ (∀ g, t.fn ≠ .give g) ∧ Frame.ret t (some (some s)) ∈ m.active

/-- Of the proof: without copies, a promise state has one future, until a callback is attached. -/
structure LinF (m : M) : Prop where
  uniq : ∀ x y s, Holds m x s → Holds m y s → x = y
  free : ∀ x s, Holds m x s → ∀ c p fn, Ev.attach c s p fn ∉ m.log

/-- Of the proof: without copies, a promise state has one promise, until it is done. -/
structure LinP (m : M) : Prop where
  objs : ∀ (i j s : Nat), m.proms[i]? = some (some s) → m.proms[j]? = some (some s) → i = j
  obj : ∀ (i s : Nat), m.proms[i]? = some (some s) →
    (∀ c a p, Ev.attach c a p (.prom s) ∉ m.log) ∧ (m.cell s).done = false
  fns : ∀ c c' a a' p p' s, Ev.attach c a p (.prom s) ∈ m.log → Ev.attach c' a' p' (.prom s) ∈ m.log →
    c = c'
  fn : ∀ c a p s, Ev.attach c a p (.prom s) ∈ m.log → Ev.start c ∉ m.log → (m.cell s).done = false
  sat : ∀ s t, Frame.satisfy s t ∈ m.active → (m.cell s).done = false

theorem Inv.starts_le {m : M} (i : Inv m) (c : Nat) : m.starts c ≤ 1 := i.runs_le c

theorem acts_pos {m : M} {f : Frame} {c : Nat} (hf : f ∈ m.active) (hc : f.tick = some c) :
    0 < m.acts c := List.countP_pos_iff.2 ⟨f, hf, by simp [hc]⟩

/-- A closure that runs has not finished. -/
theorem Inv.unfinished {m : M} (i : Inv m) {f : Frame} {c : Nat} (hf : f ∈ m.active)
    (hc : f.tick = some c) (r : Option (Option Nat)) : Ev.finish c r ∉ m.log := by
  intro h
  have h1 := acts_pos hf hc
  have h2 := i.balance c
  have h3 := i.starts_le c
  have h4 : 0 < m.fins c := List.countP_pos_iff.2 ⟨_, h, by simp [isFinish]⟩
  omega

/-- A closure that runs has been started. -/
theorem Inv.begun {m : M} (i : Inv m) {f : Frame} {c : Nat} (hf : f ∈ m.active)
    (hc : f.tick = some c) : Ev.start c ∈ m.log := by
  have h1 := acts_pos hf hc
  have h2 := i.balance c
  exact List.count_pos_iff.1 (show 0 < m.starts c by omega)

/-- A closure has one frame. -/
theorem Inv.frame_one {m : M} (i : Inv m) {f g : Frame} {c k : Nat} (hf : f ∈ m.active.eraseIdx k)
    (hg : m.active[k]? = some g) (hc : f.tick = some c) (hd : g.tick = some c) : False := by
  have h0 := room i hg hd
  have h3 := i.starts_le c
  have h1 : 0 < (m.active.eraseIdx k).countP (fun f => f.tick == some c) :=
    List.countP_pos_iff.2 ⟨f, hf, by simp [hc]⟩
  omega

theorem holds_lt {m : M} (i : Inv m) {x : Place} {s : Nat} (h : Holds m x s) : s < m.size := by
  cases x with
  | nowhere => exact h.elim
  | obj a => exact i.futs _ (get_mem h)
  | give c =>
    obtain ⟨⟨a, p, h⟩, _⟩ := h
    exact (i.att _ _ _ _ h).2.2.2.2.1
  | ret c =>
    obtain ⟨t, _, _, h⟩ := h
    exact (i.frames _ h).2.1 _ rfl

theorem holds_give {m m' : M} {op : Op} (o : Out m op m') {c s : Nat} (h : Holds m' (.give c) s) :
    Holds m (.give c) s ∨ (c = m.nextC ∧ ∃ a, Adds m op a (.give (some s))) := by
  obtain ⟨⟨a, p, h1⟩, h2⟩ := h
  rcases out_att o h1 with h1 | ⟨rfl, _, h1, _⟩
  · exact Or.inl ⟨⟨a, p, h1⟩, fun r hr => h2 r (out_log o hr)⟩
  · exact Or.inr ⟨rfl, a, h1⟩

theorem holds_ret {m m' : M} {op : Op} (o : Out m op m') {c s : Nat} (h : Holds m' (.ret c) s) :
    Holds m (.ret c) s ∨ ∃ k i t, op = .retF k i ∧ t.c = c ∧ m.futs[i]? = some (some s) ∧
      m.active[k]? = some (.run t) := by
  obtain ⟨t, h1, h2, h3⟩ := h
  rcases out_act o h3 with h3 | h3
  · exact Or.inl ⟨t, h1, h2, h3⟩
  · right
    generalize hf : Frame.ret t (some (some s)) = f at h3
    cases h3 with
    | @run l t' q hq =>
      unfold Task.frame at hf
      split at hf
      · cases hf
      · cases hf
      · cases hf
      · rename_i e; cases hf; exact absurd e (h2 _)
    | imm => cases hf
    | retV => cases hf
    | lib => cases hf
    | retF hk hi _ => cases hf; exact ⟨_, _, _, rfl, h1, hi, hk⟩

theorem get_set {l : List (Option Nat)} {i a s : Nat} (h : (l.set i none)[a]? = some (some s)) :
    a ≠ i ∧ l[a]? = some (some s) := by
  rw [List.getElem?_set] at h
  split at h
  · split at h <;> cases h
  · rename_i hn
    exact ⟨fun e => hn e.symm, h⟩

theorem get_app {l : List (Option Nat)} {x : Option Nat} {a s : Nat}
    (h : (l ++ [x])[a]? = some (some s)) : l[a]? = some (some s) ∨ (a = l.length ∧ x = some s) := by
  by_cases hl : a < l.length
  · left; rw [← h]; exact (app_old hl _).symm
  · have : a = l.length := by
      have := (List.getElem?_eq_some_iff.1 h).1
      simp at this; omega
    subst this
    simp at h
    exact Or.inr ⟨rfl, h⟩

/-- The future that a closure has returned. -/
theorem ret_held {m : M} (i : Inv m) {k : Nat} {t : Task} {s : Nat}
    (hk : m.active[k]? = some (.ret t (some (some s)))) : ∃ x, Holds m x s := by
  have hm := List.mem_of_getElem? hk
  by_cases hgv : ∃ g', t.fn = .give g'
  · obtain ⟨g', hgv⟩ := hgv
    have hF := i.frames _ hm
    have := hF.2.2.1 g' hgv
    cases this
    obtain ⟨⟨a, hF, _⟩, _⟩ := hF
    unfold TaskOK at hF
    rw [hgv] at hF
    exact ⟨.give t.c, ⟨a, t.p, hF⟩, i.unfinished (c := t.c) hm rfl⟩
  · exact ⟨.ret t.c, t, rfl, fun g e => hgv ⟨g, e⟩, hm⟩

/-- Futures move. -/
theorem holds_step {m m' : M} {op : Op} (o : Out m op m') (hop : op.copies = false) :
    ∃ n p q, ∀ x s, Holds m' x s → (x = n ∧ s = m.size) ∨ (x ≠ p ∧ Holds m x s) ∨
      (x = q ∧ Holds m p s) := by
  have plain : (∀ (a s : Nat), m'.futs[a]? = some (some s) → m.futs[a]? = some (some s)) →
      (∀ i j, op ≠ .also i j) → (∀ k i, op ≠ .retF k i) →
      ∃ n p q, ∀ x s, Holds m' x s → (x = n ∧ s = m.size) ∨ (x ≠ p ∧ Holds m x s) ∨
      (x = q ∧ Holds m p s) := by
    intro h1 h2 h3
    refine ⟨.nowhere, .nowhere, .nowhere, fun x s hx => Or.inr (Or.inl ?_)⟩
    cases x with
    | nowhere => exact hx.elim
    | obj a => exact ⟨by simp, h1 a s hx⟩
    | give c =>
      rcases holds_give o hx with h | ⟨_, a, h⟩
      · exact ⟨by simp, h⟩
      · generalize hf : Fn.give (some s) = f at h
        cases h with
        | also => exact absurd rfl (h2 _ _)
        | «then» => split at hf <;> cases hf
        | _ => cases hf
    | ret c =>
      rcases holds_ret o hx with h | ⟨k, i, t, e, _⟩
      · exact ⟨by simp, h⟩
      · exact absurd e (h3 _ _)
  have fresh : (∀ (a s : Nat), m'.futs[a]? = some (some s) → m.futs[a]? = some (some s) ∨
        (a = m.futs.length ∧ s = m.size)) →
      (∀ i j, op ≠ .also i j) → (∀ k i, op ≠ .retF k i) →
      ∃ n p q, ∀ x s, Holds m' x s → (x = n ∧ s = m.size) ∨ (x ≠ p ∧ Holds m x s) ∨
      (x = q ∧ Holds m p s) := by
    intro h1 h2 h3
    refine ⟨.obj m.futs.length, .nowhere, .nowhere, fun x s hx => ?_⟩
    cases x with
    | nowhere => exact hx.elim
    | obj a =>
      rcases h1 a s hx with h | ⟨rfl, rfl⟩
      · exact Or.inr (Or.inl ⟨by simp, h⟩)
      · exact Or.inl ⟨rfl, rfl⟩
    | give c =>
      rcases holds_give o hx with h | ⟨_, a, h⟩
      · exact Or.inr (Or.inl ⟨by simp, h⟩)
      · generalize hf : Fn.give (some s) = f at h
        cases h with
        | also => exact absurd rfl (h2 _ _)
        | «then» => split at hf <;> cases hf
        | _ => cases hf
    | ret c =>
      rcases holds_ret o hx with h | ⟨k, i, t, e, _⟩
      · exact Or.inr (Or.inl ⟨by simp, h⟩)
      · exact absurd e (h3 _ _)
  cases o with
  | newPair l =>
    refine fresh ?_ (by simp) (by simp)
    intro a s h
    rcases get_app h with h | ⟨rfl, h'⟩
    · exact Or.inl h
    · exact Or.inr ⟨rfl, (Option.some.inj h').symm⟩
  | invalid =>
    refine plain ?_ (by simp) (by simp)
    intro a s h
    rcases get_app h with h | ⟨rfl, h'⟩
    · exact h
    · cases h'
  | copyP => cases hop
  | copyF => cases hop
  | threw => exact plain (fun _ _ h => h) (by simp) (by simp)
  | fulfil => exact plain (fun _ _ h => by rw [fulfil_futs] at h; exact h) (by simp) (by simp)
  | thenS hs =>
    refine fresh ?_ (by simp) (by simp)
    intro a s h
    rcases get_app h with h | ⟨rfl, h'⟩
    · exact Or.inl (get_set h).2
    · exact Or.inr ⟨by simp, (Option.some.inj h').symm⟩
  | thenN hs => exact plain (fun _ _ h => (get_set h).2) (by simp) (by simp)
  | thenPS hs hq =>
    refine fresh ?_ (by simp) (by simp)
    intro a s h
    rcases get_app h with h | ⟨rfl, h'⟩
    · exact Or.inl (get_set h).2
    · exact Or.inr ⟨by simp, (Option.some.inj h').symm⟩
  | thenPN hs hq =>
    refine plain ?_ (by simp) (by simp)
    intro a s h
    rcases get_app h with h | ⟨rfl, h'⟩
    · exact (get_set h).2
    · cases h'
  | @alsoS i j s0 g hij hs hg =>
    refine ⟨.obj m.futs.length, .obj j, .give m.nextC, fun x s hx => ?_⟩
    cases x with
    | nowhere => exact hx.elim
    | obj a =>
      rcases get_app hx with h | ⟨rfl, h'⟩
      · have h1 := get_set h
        have h2 := get_set h1.2
        exact Or.inr (Or.inl ⟨fun e => h2.1 (Place.obj.inj e), h2.2⟩)
      · exact Or.inl ⟨by simp, (Option.some.inj h').symm⟩
    | give c =>
      obtain ⟨⟨a, p, h1⟩, h2⟩ := hx
      dsimp only at h1 h2
      rw [attach_log] at h1 h2
      rcases List.mem_append.1 h1 with h1 | h1
      · exact Or.inr (Or.inl ⟨by simp, ⟨a, p, h1⟩, fun r hr => h2 r (List.mem_append_left _ hr)⟩)
      · rw [List.mem_singleton] at h1
        cases h1
        exact Or.inr (Or.inr ⟨rfl, hg⟩)
    | ret c =>
      obtain ⟨t, h1, h2, h3⟩ := hx
      dsimp only at h3
      rw [attach_active] at h3
      exact Or.inr (Or.inl ⟨by simp, t, h1, h2, h3⟩)
  | @alsoN i j g hij hs hg =>
    refine ⟨.nowhere, .obj j, .obj m.futs.length, fun x s hx => ?_⟩
    cases x with
    | nowhere => exact hx.elim
    | obj a =>
      rcases get_app hx with h | ⟨rfl, h'⟩
      · have h1 := get_set h
        have h2 := get_set h1.2
        exact Or.inr (Or.inl ⟨fun e => h2.1 (Place.obj.inj e), h2.2⟩)
      · subst h'
        exact Or.inr (Or.inr ⟨by simp, hg⟩)
    | give c => exact Or.inr (Or.inl ⟨by simp, hx⟩)
    | ret c => exact Or.inr (Or.inl ⟨by simp, hx⟩)
  | run => exact plain (fun _ _ h => h) (by simp) (by simp)
  | retV => exact plain (fun _ _ h => h) (by simp) (by simp)
  | retVN =>
    refine plain ?_ (by simp) (by simp)
    intro a s h
    rcases get_app h with h | ⟨rfl, h'⟩
    · exact h
    · cases h'
  | @retF k i t g hk hi hfn =>
    refine ⟨.nowhere, .obj i, .ret t.c, fun x s hx => ?_⟩
    cases x with
    | nowhere => exact hx.elim
    | obj a =>
      have h1 := get_set hx
      exact Or.inr (Or.inl ⟨fun e => h1.1 (Place.obj.inj e), h1.2⟩)
    | give c => exact Or.inr (Or.inl ⟨by simp, hx⟩)
    | ret c =>
      obtain ⟨t', h1, h2, h3⟩ := hx
      rcases List.mem_cons.1 h3 with h3 | h3
      · cases h3
        exact Or.inr (Or.inr ⟨by rw [h1], hi⟩)
      · exact Or.inr (Or.inl ⟨by simp, t', h1, h2, List.mem_of_mem_eraseIdx h3⟩)
  | @retFN k i c g hk hi =>
    refine ⟨.nowhere, .obj i, .obj m.futs.length, fun x s hx => ?_⟩
    cases x with
    | nowhere => exact hx.elim
    | obj a =>
      rcases get_app hx with h | ⟨rfl, h'⟩
      · have h1 := get_set h
        exact Or.inr (Or.inl ⟨fun e => h1.1 (Place.obj.inj e), h1.2⟩)
      · subst h'
        exact Or.inr (Or.inr ⟨by simp, hi⟩)
    | give c => exact Or.inr (Or.inl ⟨by simp, hx⟩)
    | ret c =>
      obtain ⟨t', h1, h2, h3⟩ := hx
      exact Or.inr (Or.inl ⟨by simp, t', h1, h2, List.mem_of_mem_eraseIdx h3⟩)
  | raise => exact plain (fun _ _ h => h) (by simp) (by simp)
  | raiseN => exact plain (fun _ _ h => h) (by simp) (by simp)
  | lib0 => exact plain (fun _ _ h => by rw [fulfil_futs] at h; exact h) (by simp) (by simp)
  | libS => exact plain (fun _ _ h => by rw [attach_futs] at h; exact h) (by simp) (by simp)
  | libQ => exact plain (fun _ _ h => by rw [fulfil_futs] at h; exact h) (by simp) (by simp)

/-- The future that an operation uses up is not anywhere afterwards. -/
theorem holds_used {m m' : M} {op : Op} (i : Inv m) (h : LinF m) (o : Out m op m') {s0 : Nat} {fn : Fn}
    (ha : Ev.attach m.nextC s0 m.size fn ∈ m'.log) (x : Place) : ¬ Holds m' x s0 := by
  have hold : ∀ {c s p fn}, Ev.attach c s p fn ∈ m.log → c ≠ m.nextC := by
    intro c s p fn h e
    have := (i.att _ _ _ _ h).1
    omega
  have objs : ∀ (j : Nat), m.futs[j]? = some (some s0) →
      (∀ (a : Nat), m'.futs[a]? = some (some s0) → a ≠ j ∧
        (m.futs[a]? = some (some s0) ∨ some s0 = some m.size)) →
      (∀ k i, op ≠ .retF k i) → (∀ a, Adds m op a (.give (some s0)) → False) → ¬ Holds m' x s0 := by
    intro j h1 h2 h3 h4 hx
    cases x with
    | nowhere => exact hx
    | obj a =>
      obtain ⟨h5, h6 | h6⟩ := h2 a hx
      · exact h5 (Place.obj.inj (h.uniq (.obj a) (.obj j) s0 h6 h1))
      · have := i.futs _ (get_mem h1)
        have := Option.some.inj h6
        omega
    | give c =>
      rcases holds_give o hx with h5 | ⟨_, a, h5⟩
      · have := h.uniq _ (.obj j) _ h5 h1
        cases this
      · exact h4 a h5
    | ret c =>
      rcases holds_ret o hx with h5 | ⟨k, i, t, e, _⟩
      · have := h.uniq _ (.obj j) _ h5 h1
        cases this
      · exact h3 _ _ e
  cases o with
  | thenS hs =>
    dsimp only at ha
    rw [attach_log] at ha
    rcases List.mem_append.1 ha with ha | ha
    · exact absurd rfl (hold ha)
    · rw [List.mem_singleton] at ha
      cases ha
      refine objs _ hs ?_ (by simp) ?_
      · intro a hx
        rcases get_app hx with h | ⟨rfl, h⟩
        · exact ⟨(get_set h).1, Or.inl (get_set h).2⟩
        · refine ⟨?_, Or.inr h.symm⟩
          have := (List.getElem?_eq_some_iff.1 hs).1
          simp
          omega
      · intro a h
        generalize hf : Fn.give (some s0) = f at h
        cases h with
        | «then» => split at hf <;> cases hf
  | thenPS hs hq =>
    dsimp only at ha
    rw [attach_log] at ha
    rcases List.mem_append.1 ha with ha | ha
    · exact absurd rfl (hold ha)
    · rw [List.mem_singleton] at ha
      cases ha
      refine objs _ hs ?_ (by simp) ?_
      · intro a hx
        rcases get_app hx with h | ⟨rfl, h⟩
        · exact ⟨(get_set h).1, Or.inl (get_set h).2⟩
        · refine ⟨?_, Or.inr h.symm⟩
          have := (List.getElem?_eq_some_iff.1 hs).1
          simp
          omega
      · intro a h
        cases h
  | @alsoS a b s g hij hs hg =>
    dsimp only at ha
    rw [attach_log] at ha
    rcases List.mem_append.1 ha with ha | ha
    · exact absurd rfl (hold ha)
    · rw [List.mem_singleton] at ha
      cases ha
      intro hx
      cases x with
      | nowhere => exact hx
      | obj c =>
        rcases get_app hx with h5 | ⟨rfl, h5⟩
        · have h6 := get_set h5
          exact h6.1 (Place.obj.inj (h.uniq (.obj c) (.obj a) s0 (get_set h6.2).2 hs))
        · have := i.futs _ (get_mem hs)
          have := Option.some.inj h5
          omega
      | give c =>
        obtain ⟨⟨a', p, h1⟩, h2⟩ := hx
        dsimp only at h1 h2
        rw [attach_log] at h1 h2
        rcases List.mem_append.1 h1 with h1 | h1
        · have := h.uniq (.give c) (.obj a) s0
            ⟨⟨a', p, h1⟩, fun r hr => h2 r (List.mem_append_left _ hr)⟩ hs
          cases this
        · rw [List.mem_singleton] at h1
          cases h1
          exact hij (Place.obj.inj (h.uniq (.obj a) (.obj b) s0 hs hg))
      | ret c =>
        obtain ⟨t, h1, h2, h3⟩ := hx
        dsimp only at h3
        rw [attach_active] at h3
        have := h.uniq (.ret c) (.obj a) s0 ⟨t, h1, h2, h3⟩ hs
        cases this
  | @libS k t g hk =>
    rw [attach_log] at ha
    rcases List.mem_append.1 ha with ha | ha
    · rcases List.mem_append.1 ha with ha | ha
      · exact absurd rfl (hold ha)
      · rw [List.mem_singleton] at ha
        cases ha
    · rw [List.mem_singleton] at ha
      cases ha
      have hm := List.mem_of_getElem? hk
      have hun := i.unfinished (c := t.c) hm rfl
      -- the place
      by_cases hgv : ∃ g', t.fn = .give g'
      · obtain ⟨g', hgv⟩ := hgv
        have hF := i.frames _ hm
        have := hF.2.2.1 g' hgv
        cases this
        obtain ⟨⟨a, hF, _⟩, _⟩ := hF
        unfold TaskOK at hF
        rw [hgv] at hF
        have h0 : Holds m (.give t.c) s0 := ⟨⟨a, t.p, hF⟩, hun⟩
        intro hx
        cases x with
        | nowhere => exact hx
        | obj c =>
          unfold Holds at hx
          rw [attach_futs] at hx
          have := h.uniq _ (.obj c) s0 h0 hx
          cases this
        | give c =>
          obtain ⟨⟨a', p, h1⟩, h2⟩ := hx
          rw [attach_log] at h1 h2
          have hfin : Ev.finish t.c (some (some s0)) ∈
              ({ m with active := m.active.eraseIdx k }.say (.finish t.c (some (some s0)))).log :=
            List.mem_append_right _ (List.mem_singleton.2 rfl)
          by_cases hc : c = t.c
          · subst hc
            exact h2 _ (List.mem_append_left _ hfin)
          · rcases List.mem_append.1 h1 with h1 | h1
            · rcases List.mem_append.1 h1 with h1 | h1
              · have := h.uniq (.give c) _ s0 ⟨⟨a', p, h1⟩, fun r hr => h2 r
                  (List.mem_append_left _ (List.mem_append_left _ hr))⟩ h0
                exact hc (Place.give.inj this)
              · rw [List.mem_singleton] at h1
                cases h1
            · rw [List.mem_singleton] at h1
              cases h1
        | ret c =>
          obtain ⟨t', h1, h2, h3⟩ := hx
          rw [attach_active] at h3
          have := h.uniq (.ret c) _ s0 ⟨t', h1, h2, List.mem_of_mem_eraseIdx h3⟩ h0
          cases this
      · have h0 : Holds m (.ret t.c) s0 := ⟨t, rfl, fun g e => hgv ⟨g, e⟩, hm⟩
        intro hx
        cases x with
        | nowhere => exact hx
        | obj c =>
          unfold Holds at hx
          rw [attach_futs] at hx
          have := h.uniq _ (.obj c) s0 h0 hx
          cases this
        | give c =>
          obtain ⟨⟨a', p, h1⟩, h2⟩ := hx
          rw [attach_log] at h1 h2
          rcases List.mem_append.1 h1 with h1 | h1
          · rcases List.mem_append.1 h1 with h1 | h1
            · have := h.uniq (.give c) _ s0 ⟨⟨a', p, h1⟩, fun r hr => h2 r
                (List.mem_append_left _ (List.mem_append_left _ hr))⟩ h0
              cases this
            · rw [List.mem_singleton] at h1
              cases h1
          · rw [List.mem_singleton] at h1
            cases h1
        | ret c =>
          obtain ⟨t', h1, h2, h3⟩ := hx
          rw [attach_active] at h3
          have := h.uniq (.ret c) _ s0 ⟨t', h1, h2, List.mem_of_mem_eraseIdx h3⟩ h0
          have e := Place.ret.inj this
          exact i.frame_one (c := t.c) h3 hk (by simp [Frame.tick, h1, e]) rfl
  | thenN =>
    rcases List.mem_append.1 ha with ha | ha
    · exact absurd rfl (hold ha)
    · rw [List.mem_singleton] at ha
      cases ha
  | threw =>
    rcases List.mem_append.1 ha with ha | ha
    · exact absurd rfl (hold ha)
    · rw [List.mem_singleton] at ha
      cases ha
  | run =>
    rcases List.mem_append.1 ha with ha | ha
    · exact absurd rfl (hold ha)
    · rw [List.mem_singleton] at ha
      cases ha
  | fulfil => rw [fulfil_log] at ha; exact absurd rfl (hold ha)
  | thenPN => rw [fulfil_log] at ha; exact absurd rfl (hold ha)
  | libQ => rw [fulfil_log] at ha; exact absurd rfl (hold ha)
  | lib0 =>
    rw [fulfil_log] at ha
    rcases List.mem_append.1 ha with ha | ha
    · exact absurd rfl (hold ha)
    · rw [List.mem_singleton] at ha
      cases ha
  | _ => exact absurd rfl (hold ha)

theorem linF_step {m m' : M} {op : Op} (i : Inv m) (h : LinF m) (o : Out m op m')
    (hop : op.copies = false) : LinF m' := by
  obtain ⟨n, p, q, hs⟩ := holds_step o hop
  constructor
  · intro x y s hx hy
    rcases hs x s hx with ⟨rfl, rfl⟩ | ⟨h1, h2⟩ | ⟨rfl, h2⟩
    · rcases hs y _ hy with ⟨rfl, _⟩ | ⟨_, h2⟩ | ⟨_, h2⟩
      · rfl
      · exact absurd (holds_lt i h2) (Nat.lt_irrefl _)
      · exact absurd (holds_lt i h2) (Nat.lt_irrefl _)
    · rcases hs y s hy with ⟨rfl, rfl⟩ | ⟨h3, h4⟩ | ⟨rfl, h4⟩
      · exact absurd (holds_lt i h2) (Nat.lt_irrefl _)
      · exact h.uniq _ _ _ h2 h4
      · exact absurd (h.uniq _ _ _ h2 h4) h1
    · rcases hs y s hy with ⟨rfl, rfl⟩ | ⟨h3, h4⟩ | ⟨rfl, h4⟩
      · exact absurd (holds_lt i h2) (Nat.lt_irrefl _)
      · exact absurd (h.uniq _ _ _ h4 h2) h3
      · rfl
  · intro x s hx c p' fn ha
    rcases out_att o ha with ha' | ⟨rfl, rfl, _, _⟩
    · rcases hs x s hx with ⟨rfl, rfl⟩ | ⟨_, h2⟩ | ⟨_, h2⟩
      · have := (i.att _ _ _ _ ha').2.1
        omega
      · exact h.free _ _ h2 _ _ _ ha'
      · exact h.free _ _ h2 _ _ _ ha'
    · exact holds_used i h o ha x hx

/-- What `then` is called on. -/
theorem adds_held {m m' : M} {op : Op} (i : Inv m) (o : Out m op m') {c s p : Nat} {fn : Fn}
    (ha : Ev.attach c s p fn ∈ m'.log) : Ev.attach c s p fn ∈ m.log ∨ ∃ x, Holds m x s := by
  cases o with
  | thenS hs =>
    dsimp only at ha
    rw [attach_log] at ha
    rcases List.mem_append.1 ha with ha | ha
    · exact Or.inl ha
    · rw [List.mem_singleton] at ha
      cases ha
      exact Or.inr ⟨.obj _, hs⟩
  | thenPS hs hq =>
    dsimp only at ha
    rw [attach_log] at ha
    rcases List.mem_append.1 ha with ha | ha
    · exact Or.inl ha
    · rw [List.mem_singleton] at ha
      cases ha
      exact Or.inr ⟨.obj _, hs⟩
  | alsoS _ hs hg =>
    dsimp only at ha
    rw [attach_log] at ha
    rcases List.mem_append.1 ha with ha | ha
    · exact Or.inl ha
    · rw [List.mem_singleton] at ha
      cases ha
      exact Or.inr ⟨.obj _, hs⟩
  | @libS k t g hk =>
    rw [attach_log] at ha
    rcases List.mem_append.1 ha with ha | ha
    · rcases List.mem_append.1 ha with ha | ha
      · exact Or.inl ha
      · rw [List.mem_singleton] at ha
        cases ha
    · rw [List.mem_singleton] at ha
      cases ha
      exact Or.inr (ret_held i hk)
  | thenN =>
    rcases List.mem_append.1 ha with ha | ha
    · exact Or.inl ha
    · rw [List.mem_singleton] at ha
      cases ha
  | threw =>
    rcases List.mem_append.1 ha with ha | ha
    · exact Or.inl ha
    · rw [List.mem_singleton] at ha
      cases ha
  | run =>
    rcases List.mem_append.1 ha with ha | ha
    · exact Or.inl ha
    · rw [List.mem_singleton] at ha
      cases ha
  | fulfil => rw [fulfil_log] at ha; exact Or.inl ha
  | thenPN => rw [fulfil_log] at ha; exact Or.inl ha
  | libQ => rw [fulfil_log] at ha; exact Or.inl ha
  | lib0 =>
    rw [fulfil_log] at ha
    rcases List.mem_append.1 ha with ha | ha
    · exact Or.inl ha
    · rw [List.mem_singleton] at ha
      cases ha
  | _ => exact Or.inl ha

theorem attach_safe {m : M} {s : Nat} {fn : Fn} (hu : m.ub = false)
    (h : ∀ t, (m.cell s).cb ≠ some t) : (m.attach s fn).ub = false := by
  unfold M.attach
  dsimp only
  split
  · exact hu
  · split
    · rename_i t e
      exact absurd e (h t)
    · exact hu

/-- Without copies no future gets two callbacks. -/
theorem lin_ub {m m' : M} {op : Op} (i : Inv m) (h : LinF m) (hu : m.ub = false) (o : Out m op m') :
    m'.ub = false := by
  have cb : ∀ {x s}, Holds m x s → ∀ t, (m.cell s).cb ≠ some t :=
    fun {x s} hx t e => h.free x s hx _ _ _ (i.stored s t e).2.2
  cases o with
  | thenS hs => exact attach_safe hu (cb (x := .obj _) hs)
  | thenPS hs _ => exact attach_safe hu (cb (x := .obj _) hs)
  | alsoS _ hs _ => exact attach_safe hu (cb (x := .obj _) hs)
  | libS hk =>
    obtain ⟨x, hx⟩ := ret_held i hk
    exact attach_safe hu (cb hx)
  | fulfil => exact (fulfil_ub _ _).trans hu
  | thenPN => exact (fulfil_ub _ _).trans hu
  | lib0 => exact (fulfil_ub _ _).trans hu
  | libQ => exact (fulfil_ub _ _).trans hu
  | _ => exact hu

/-- Promises given to closures come from objects or from closures that return. -/
theorem prom_added {m m' : M} {op : Op} (o : Out m op m') {c a p s : Nat}
    (ha : Ev.attach c a p (.prom s) ∈ m'.log) : Ev.attach c a p (.prom s) ∈ m.log ∨
    (c = m.nextC ∧ ((∃ i j, op = .thenP i j ∧ m.proms[j]? = some (some s)) ∨
      ∃ k t g, op = .lib k ∧ m.active[k]? = some (.ret t (some (some g))) ∧ t.p = s)) := by
  rcases out_att o ha with ha | ⟨rfl, _, h, _⟩
  · exact Or.inl ha
  · right
    refine ⟨rfl, ?_⟩
    generalize hf : Fn.prom s = f at h
    cases h with
    | «then» => split at hf <;> cases hf
    | thenP _ h => cases hf; exact Or.inl ⟨_, _, rfl, h⟩
    | also => cases hf
    | lib h => cases hf; exact Or.inr ⟨_, _, _, rfl, h, rfl⟩

/-- The promise of a closure that runs is nowhere else. -/
theorem own_src {m : M} (i : Inv m) {f : Frame} {t : Task} (hf : f ∈ m.active)
    (h : f = .run t ∨ (∃ r, f = .ret t r) ∨ ∃ q, f = .satisfy q t) :
    (m.cell t.p).src = some t.c := by
  have hF := i.frames _ hf
  have key : ∃ s, TaskOK m s t := by
    rcases h with rfl | ⟨r, rfl⟩ | ⟨q, rfl⟩
    · exact ⟨_, hF.choose_spec.1⟩
    · exact ⟨_, hF.1.choose_spec.1⟩
    · exact ⟨_, hF.1.choose_spec.1⟩
  obtain ⟨s, hs⟩ := key
  exact (i.att _ _ _ _ hs).2.2.2.1

theorem own_notfn {m : M} (i : Inv m) {r : Option (Option Nat)} {t : Task} (hf : Frame.ret t r ∈ m.active)
    {c a p : Nat} : Ev.attach c a p (.prom t.p) ∉ m.log := by
  intro h
  have := (i.att _ _ _ _ h).2.2.2.2.1.2 _ (own_src i hf (Or.inr (Or.inl ⟨r, rfl⟩)))
  exact i.unfinished (c := t.c) hf rfl _ this

theorem linP_step {m m' : M} {op : Op} (i : Inv m) (h : LinP m) (o : Out m op m')
    (hop : op.copies = false) (hu : m'.ub = false) : LinP m' := by
  have hnew : ∀ {a s : Nat}, m'.proms[a]? = some (some s) → m.proms[a]? = some (some s) ∨
      ((∃ l, op = .newPair l) ∧ s = m.size ∧ a = m.proms.length) := by
    intro a s hs
    rcases out_promsNew o hs with h1 | ⟨l, h1, h2, h3⟩ | ⟨j, rfl, _⟩
    · exact Or.inl h1
    · exact Or.inr ⟨⟨l, h1⟩, h2, h3⟩
    · cases hop
  have hlt : ∀ {a s : Nat}, m.proms[a]? = some (some s) → s < m.size := fun h => (i.proms _ (get_mem h)).1
  have htake : ∀ {a s : Nat}, m.proms[a]? = some (some s) → op.takesP a → m'.proms[a]? ≠ some (some s) := by
    intro a s hs ht he
    cases o with
    | threw h1 =>
      cases ht
      rw [hs] at h1
      cases h1
    | fulfil => cases ht; exact (get_set he).1 rfl
    | thenPS =>
      cases ht
      dsimp only at he
      rw [attach_proms] at he
      exact (get_set he).1 rfl
    | thenPN => cases ht; exact (get_set he).1 rfl
    | _ => exact ht
  constructor
  · intro a b s ha hb
    rcases hnew ha with h1 | ⟨_, rfl, rfl⟩
    · rcases hnew hb with h2 | ⟨_, rfl, rfl⟩
      · exact h.objs _ _ _ h1 h2
      · exact absurd (hlt h1) (Nat.lt_irrefl _)
    · rcases hnew hb with h2 | ⟨_, _, rfl⟩
      · exact absurd (hlt h2) (Nat.lt_irrefl _)
      · rfl
  · intro a s ha
    constructor
    · intro c b p hc
      rcases hnew ha with h1 | ⟨⟨l, rfl⟩, rfl, rfl⟩
      · rcases prom_added o hc with h2 | ⟨_, ⟨x, y, rfl, h2⟩ | ⟨k, t, g, rfl, h2, rfl⟩⟩
        · exact (h.obj a s h1).1 _ _ _ h2
        · have := h.objs _ _ _ h1 h2
          subst this
          exact htake h1 rfl ha
        · have := (i.proms _ (get_mem h1)).2
          rw [own_src i (List.mem_of_getElem? h2) (Or.inr (Or.inl ⟨_, rfl⟩))] at this
          cases this
      · rcases prom_added o hc with h2 | ⟨_, ⟨x, y, h2, _⟩ | ⟨k, t, g, h2, _⟩⟩
        · have := (i.att _ _ _ _ h2).2.2.2.2.1.1
          omega
        · cases h2
        · cases h2
    · cases hd : (m'.cell s).done with
      | false => rfl
      | true =>
        exfalso
        rcases hnew ha with h1 | ⟨⟨l, rfl⟩, rfl, rfl⟩
        · rcases out_done i hu o hd with h2 | h2
          · rw [(h.obj a s h1).2] at h2
            cases h2
          · cases h2 with
            | obj h2 =>
              have := h.objs _ _ _ h1 h2
              subst this
              exact htake h1 rfl ha
            | «then» _ h2 =>
              have := h.objs _ _ _ h1 h2
              subst this
              exact htake h1 rfl ha
            | ret h2 _ =>
              have := (i.proms _ (get_mem h1)).2
              rw [own_src i (List.mem_of_getElem? h2) (Or.inr (Or.inl ⟨_, rfl⟩))] at this
              cases this
            | sat h2 =>
              obtain ⟨⟨b, h3, _⟩, h4⟩ := i.frames _ (List.mem_of_getElem? h2)
              unfold TaskOK at h3
              rw [h4] at h3
              exact (h.obj a s h1).1 _ _ _ h3
        · cases o with
          | newPair =>
            simp [upd] at hd
  · intro c c' a a' p p' s h1 h2
    rcases prom_added o h1 with k1 | ⟨rfl, k1⟩
    · rcases prom_added o h2 with k2 | ⟨rfl, ⟨x, y, rfl, k2⟩ | ⟨k, t, g, rfl, k2, rfl⟩⟩
      · exact h.fns _ _ _ _ _ _ _ k1 k2
      · exact absurd k1 ((h.obj y s k2).1 _ _ _)
      · exact absurd k1 (own_notfn i (List.mem_of_getElem? k2))
    · rcases prom_added o h2 with k2 | ⟨rfl, _⟩
      · rcases k1 with ⟨x, y, rfl, k1⟩ | ⟨k, t, g, rfl, k1, rfl⟩
        · exact absurd k2 ((h.obj y s k1).1 _ _ _)
        · exact absurd k2 (own_notfn i (List.mem_of_getElem? k1))
      · rfl
  · intro c a p s h1 h2
    cases hd : (m'.cell s).done with
    | false => rfl
    | true =>
      exfalso
      rcases prom_added o h1 with k1 | ⟨rfl, k1⟩
      · have h2' : Ev.start c ∉ m.log := fun e => h2 (out_log o e)
        rcases out_done i hu o hd with k2 | k2
        · rw [h.fn _ _ _ _ k1 h2'] at k2
          cases k2
        · cases k2 with
          | obj k2 => exact (h.obj _ _ k2).1 _ _ _ k1
          | «then» _ k2 => exact (h.obj _ _ k2).1 _ _ _ k1
          | ret k2 _ => exact own_notfn i (List.mem_of_getElem? k2) k1
          | @sat k t _ k2 =>
            have hm := List.mem_of_getElem? k2
            obtain ⟨⟨b, h3, _⟩, h4⟩ := i.frames _ hm
            unfold TaskOK at h3
            rw [h4] at h3
            have := h.fns _ _ _ _ _ _ _ k1 h3
            subst this
            exact h2' (i.begun (c := t.c) hm rfl)
      · have hd0 : (m.cell s).done = true := by
          rcases k1 with ⟨x, y, rfl, k1⟩ | ⟨k, t, g, rfl, k1, rfl⟩
          · rcases out_done i hu o hd with k2 | k2
            · exact k2
            · cases k2 with
              | «then» k2 k3 =>
                -- then nothing is attached
                exfalso
                cases o with
                | thenPS k4 =>
                  rw [k2] at k4
                  cases k4
                | thenPN =>
                  rw [fulfil_log] at h1
                  have := (i.att _ _ _ _ h1).1
                  omega
          · rcases out_done i hu o hd with k2 | k2
            · exact k2
            · exfalso
              generalize ht : t.p = y at k2
              cases k2 with
              | ret k2 k3 =>
                rw [k1] at k2
                cases k2
                exact k3 g rfl
              | sat k2 =>
                rw [k1] at k2
                cases k2
        rcases k1 with ⟨x, y, rfl, k1⟩ | ⟨k, t, g, rfl, k1, rfl⟩
        · rw [(h.obj _ _ k1).2] at hd0
          cases hd0
        · have hm := List.mem_of_getElem? k1
          have hsrc := own_src i hm (Or.inr (Or.inl ⟨_, rfl⟩))
          have hb : t.p < m.size := by
            obtain ⟨⟨b, h3, _⟩, _⟩ := i.frames _ hm
            exact (i.att _ _ _ _ h3).2.2.1
          obtain ⟨r, hr, _⟩ := i.done _ _ hb hsrc hd0
          exact i.unfinished (c := t.c) hm rfl _ hr
  · intro s t ht
    cases hd : (m'.cell s).done with
    | false => rfl
    | true =>
      exfalso
      rcases out_act o ht with k1 | k1
      · obtain ⟨⟨b, h3, _⟩, h4⟩ := i.frames _ k1
        unfold TaskOK at h3
        rw [h4] at h3
        rcases out_done i hu o hd with k2 | k2
        · rw [h.sat _ _ k1] at k2
          cases k2
        · cases k2 with
          | obj k2 => exact (h.obj _ _ k2).1 _ _ _ h3
          | «then» _ k2 => exact (h.obj _ _ k2).1 _ _ _ h3
          | ret k2 _ => exact own_notfn i (List.mem_of_getElem? k2) h3
          | @sat k t' _ k2 =>
            obtain ⟨⟨b', h3', _⟩, h4'⟩ := i.frames _ (List.mem_of_getElem? k2)
            unfold TaskOK at h3'
            rw [h4'] at h3'
            have hc := h.fns _ _ _ _ _ _ _ h3 h3'
            cases o with
            | lib0 k3 =>
              rw [k2] at k3
              cases k3
            | libS k3 =>
              rw [k2] at k3
              cases k3
            | libQ k3 =>
              rcases List.mem_cons.1 ht with e | e
              · cases e
              · exact i.frame_one (c := t.c) e k2 rfl (by simp [Frame.tick, hc])
      · generalize hf : Frame.satisfy s t = f at k1
        cases k1 with
        | @run l t' q hq =>
          obtain ⟨b, h3, _, _⟩ := i.queued l t' (by rw [hq]; exact List.mem_cons_self)
          unfold Task.frame at hf
          split at hf
          · cases hf
          · cases hf
          · rename_i e
            cases hf
            unfold TaskOK at h3
            rw [e] at h3
            have hst : Ev.start t.c ∉ m.log := by
              intro hst
              have h1 := i.one _ _ _ _ h3
              have h5 : 0 < m.starts t.c := List.count_pos_iff.2 hst
              have h6 : 0 < m.queued l t.c :=
                List.countP_pos_iff.2 ⟨t, by rw [hq]; exact List.mem_cons_self, by simp⟩
              obtain ⟨b', h7, _, h8⟩ := i.queued l t (by rw [hq]; exact List.mem_cons_self)
              have := (i.uniq _ _ _ _ _ _ _ h7 h3).1
              subst this
              rw [h8] at h1
              omega
            have h9 := h.fn _ _ _ _ h3 hst
            rcases out_done i hu o hd with k2 | k2
            · rw [h9] at k2
              cases k2
            · cases k2
          · cases hf
        | _ => cases hf

/-- Everything that programs without copies can do. -/
inductive ReachM : M → Prop where
  | start : ReachM start
  | step {m m'} (op : Op) : ReachM m → op.copies = false → step m op = some m' → ReachM m'

theorem ReachM.reach {m : M} (r : ReachM m) : Reach m := by
  induction r with
  | start => exact .start
  | step op _ _ h ih => exact .step op ih h

theorem ReachM.lin {m : M} (r : ReachM m) : m.ub = false ∧ LinF m ∧ LinP m := by
  induction r with
  | start =>
    refine ⟨rfl, ⟨?_, ?_⟩, ⟨?_, ?_, ?_, ?_, ?_⟩⟩
    · intro x y s hx
      cases x with
      | nowhere => exact hx.elim
      | obj => cases hx
      | give => obtain ⟨⟨_, _, h⟩, _⟩ := hx; cases h
      | ret => obtain ⟨_, _, _, h⟩ := hx; cases h
    · intro x s _ c p fn h; cases h
    · intro _ _ _ h; cases h
    · intro _ _ h; cases h
    · intro _ _ _ _ _ _ _ h; cases h
    · intro _ _ _ _ h; cases h
    · intro _ _ h; cases h
  | step op r hop h ih =>
    obtain ⟨hu, hf, hp⟩ := ih
    have i := r.reach.inv hu
    have o := step_out h
    have hu' := lin_ub i hf hu o
    exact ⟨hu', linF_step i hf o hop, linP_step i hp o hop hu'⟩

end Verif.Future
