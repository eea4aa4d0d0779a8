import Verif.Future.Threads

/-! The invariant of calls that are interleaved access by access. -/

namespace Verif.Future

/-! ### Lists -/

theorem before_append {α : Type} {l : List α} {x y : α} (h : Before l x y) (r : List α) :
    Before (l ++ r) x y := by
  obtain ⟨l1, l2, l3, rfl⟩ := h
  exact ⟨l1, l2, l3 ++ r, by simp⟩

theorem before_last {α : Type} {l : List α} {x : α} (h : x ∈ l) (y : α) : Before (l ++ [y]) x y := by
  obtain ⟨a, b, rfl⟩ := List.append_of_mem h
  exact ⟨a, b, [], by simp⟩

theorem before_mem_left {α : Type} {l : List α} {x y : α} (h : Before l x y) : x ∈ l := by
  obtain ⟨l1, l2, l3, rfl⟩ := h; simp

theorem before_mem_right {α : Type} {l : List α} {x y : α} (h : Before l x y) : y ∈ l := by
  obtain ⟨l1, l2, l3, rfl⟩ := h; simp

theorem before_snoc {α : Type} {l : List α} {x y z : α} (h : Before (l ++ [z]) x y) :
    Before l x y ∨ (x ∈ l ∧ y = z) := by
  obtain ⟨l1, l2, l3, e⟩ := h
  rcases List.eq_nil_or_concat l3 with rfl | ⟨l3', b, rfl⟩
  · rw [List.append_eq_append_iff] at e
    rcases e with ⟨a, h1, h2⟩ | ⟨a, h1, h2⟩
    · cases a with
      | nil => simp at h2 h1; exact Or.inr ⟨by rw [← h1]; simp, h2.symm⟩
      | cons q qs => simp at h2
    · cases a with
      | nil => simp at h1 h2; exact Or.inr ⟨by rw [h1]; simp, h2⟩
      | cons q qs =>
        have := congrArg List.length h2
        simp at this
  · refine Or.inl ⟨l1, l2, l3', ?_⟩
    have : l ++ [z] = (l1 ++ x :: l2 ++ y :: l3') ++ [b] := by rw [e]; simp
    exact (List.append_inj' this rfl).1

/-! ### The state as calls in progress will leave it -/

/-- The call has taken effect, and has still to write what it says. -/
def Pc.past : Pc → Bool
  | .set true => true
  | .null => true
  | _ => false

/-- A call for promise state `s` has taken effect, and has not written it yet. -/
def W.past (w : W) (s : Nat) : Prop := ∃ j ∈ w.jobs, j.call.cell = some s ∧ j.pc.past = true

instance (w : W) (s : Nat) : Decidable (w.past s) := by unfold W.past; infer_instance

/-- Of the proof: the memory as it is once those calls have written. -/
def W.abs (w : W) : M :=
  { w.m with cell := fun s => if w.past s then { w.m.cell s with done := true, cb := none } else w.m.cell s }

theorem Pc.past_inside {p : Pc} (h : p.past = true) : p.inside = true := by
  cases p <;> simp_all [Pc.past, Pc.inside]

theorem W.past_locked {w : W} {s : Nat} (h : w.past s) : w.locked s := by
  obtain ⟨j, hj, hc, hp⟩ := h
  exact ⟨j, hj, hc, Pc.past_inside hp⟩

/-- What a call knows of the memory. -/
def Pc.knows (x : Cell) : Pc → Prop
  | .cb => x.done = false
  | .post t => x.done = false ∧ x.cb = some t
  | .set true => x.done = false
  | .set false => x.done = true ∨ x.cb = none
  | .null => x.done = true
  | .put b => b = x.done
  | _ => True

/-- Has it taken effect, and with which result? -/
def Pc.result : Pc → Option Res
  | .set true => some .nothing
  | .null => some .nothing
  | .unlock r => some r
  | _ => none

/-- Is this a place in the code of the call? -/
def Job.fits (j : Job) : Prop :=
  match j.call, j.pc with
  | .attach _ _, .checkPost | .attach _ _, .checkCb | .attach _ _, .copy | .attach _ _, .lock
  | .attach _ _, .done | .attach _ _, .put _ | .attach _ _, .unlock _ => True
  | .fulfil _, .lock | .fulfil _, .done | .fulfil _, .cb | .fulfil _, .post _ | .fulfil _, .set _
  | .fulfil _, .null | .fulfil _, .unlock _ => True
  | _, _ => False

/-- Of the proof: the invariant. -/
structure TInv (w : W) (L : List Done) : Prop where
  serial : Serial Future.start L w.abs
  excl : ∀ (i j : Nat) (x y : Job) (s : Nat), i ≠ j → w.jobs[i]? = some x → w.jobs[j]? = some y →
    x.call.cell = some s → y.call.cell = some s → x.pc.inside = true → y.pc.inside = true → False
  knows : ∀ x ∈ w.jobs, ∀ s, x.call.cell = some s → x.pc.knows (w.m.cell s)
  fits : ∀ x ∈ w.jobs, x.fits
  small : ∀ x ∈ w.jobs, ∀ s, x.call.cell = some s → s < w.m.size
  ids : ∀ (i j : Nat) (x y : Job), w.jobs[i]? = some x → w.jobs[j]? = some y → x.id = y.id → i = j
  begun : ∀ x ∈ w.jobs, HEv.begin x.id x.call ∈ w.hist
  fresh : ∀ i c, HEv.begin i c ∈ w.hist → i < w.next
  lin : ∀ x ∈ w.jobs, match x.pc.result with
    | some r => (x.id, x.call, r) ∈ L
    | none => ∀ c r, (x.id, c, r) ∉ L
  only : ∀ i c r, (i, c, r) ∈ L → HEv.begin i c ∈ w.hist
  nodup : (L.map (·.1)).Nodup
  all : ∀ i c r, HEv.finish i c r ∈ w.hist → (i, c, r) ∈ L
  order : ∀ a b ca cb ra rb, Before w.hist (.finish a ca ra) (.begin b cb) → (b, cb, rb) ∈ L →
    Before L (a, ca, ra) (b, cb, rb)

theorem tinv_start : TInv W.start [] where
  serial := by
    have : W.abs W.start = Future.start := by
      simp [W.abs, W.start, W.past]
    rw [this]
    exact .nil _
  excl := by intro i j x y s _ h; simp [W.start] at h
  knows := by intro x h; simp [W.start] at h
  fits := by intro x h; simp [W.start] at h
  small := by intro x h; simp [W.start] at h
  ids := by intro i j x y h; simp [W.start] at h
  begun := by intro x h; simp [W.start] at h
  fresh := by intro x c h; simp [W.start] at h
  lin := by intro x h; simp [W.start] at h
  only := by intro i c r h; simp at h
  nodup := by simp
  all := by intro i c r h; simp [W.start] at h
  order := by
    intro a b ca cb ra rb h
    have := before_mem_left h
    simp [W.start] at this

/-! ### A call goes on -/

theorem mem_set_cases {α : Type} {l : List α} {k : Nat} {x y : α} (h : y ∈ l.set k x) :
    (∃ i, i ≠ k ∧ l[i]? = some y) ∨ y = x := by
  obtain ⟨i, hi⟩ := List.mem_iff_getElem?.1 h
  by_cases e : i = k
  · subst e
    right
    rw [List.getElem?_set] at hi
    simp at hi
    exact hi.2.symm
  · left
    rw [List.getElem?_set_ne (fun x => e x.symm)] at hi
    exact ⟨i, e, hi⟩

/-- The past of other states is not affected. -/
theorem past_set {w : W} {m : M} {k : Nat} {j : Job} {pc : Pc} {s t : Nat} (hj : w.jobs[k]? = some j)
    (hc : j.call.cell = some s) (hn : t ≠ s) :
    W.past { w with m := m, jobs := w.jobs.set k { j with pc := pc } } t ↔ w.past t := by
  constructor
  · rintro ⟨x, hx, h1, h2⟩
    rcases mem_set_cases hx with ⟨i, hi, h⟩ | rfl
    · exact ⟨x, List.mem_of_getElem? h, h1, h2⟩
    · dsimp only at h1; rw [hc] at h1; exact absurd (Option.some.inj h1).symm hn
  · rintro ⟨x, hx, h1, h2⟩
    obtain ⟨i, hi⟩ := List.mem_iff_getElem?.1 hx
    by_cases e : i = k
    · subst e; rw [hj] at hi; cases hi; rw [hc] at h1; exact absurd (Option.some.inj h1).symm hn
    · refine ⟨x, List.mem_of_getElem? (i := i) ?_, h1, h2⟩
      rw [List.getElem?_set_ne (fun x => e x.symm)]; exact hi

/-- The past of the state of a call that holds the lock is its own. -/
theorem past_own {w : W} {L : List Done} (v : TInv w L) {k : Nat} {j : Job} {s : Nat} (hj : w.jobs[k]? = some j)
    (hc : j.call.cell = some s) (hin : j.pc.inside = true) : w.past s ↔ j.pc.past = true := by
  constructor
  · rintro ⟨x, hx, h1, h2⟩
    obtain ⟨i, hi⟩ := List.mem_iff_getElem?.1 hx
    by_cases e : i = k
    · subst e; rw [hj] at hi; cases hi; exact h2
    · exact (v.excl i k x j s e hi hj h1 hc (Pc.past_inside h2) hin).elim
  · intro h; exact ⟨j, List.mem_of_getElem? hj, hc, h⟩

/-- Others do not hold the lock. -/
def Alone (w : W) (k s : Nat) : Prop :=
  ∀ i x, i ≠ k → w.jobs[i]? = some x → x.call.cell = some s → x.pc.inside = true → False

theorem past_after {w : W} {k s : Nat} (ha : Alone w k s) {m : M} {j : Job} {pc : Pc} (hj : w.jobs[k]? = some j)
    (hc : j.call.cell = some s) :
    W.past { w with m := m, jobs := w.jobs.set k { j with pc := pc } } s ↔ pc.past = true := by
  constructor
  · rintro ⟨x, hx, h1, h2⟩
    rcases mem_set_cases hx with ⟨i, hi, h⟩ | rfl
    · exact (ha i x hi h h1 (Pc.past_inside h2)).elim
    · exact h2
  · intro h
    refine ⟨{ j with pc := pc }, List.mem_of_getElem? (i := k) ?_, hc, h⟩
    rw [List.getElem?_set_self (List.getElem?_eq_some_iff.1 hj).1]

/-- What is to be shown for a call that goes on. -/
theorem inv_go {w : W} {L L' : List Done} (v : TInv w L) {k : Nat} {j : Job} {s : Nat} {m : M} {pc : Pc}
    (hj : w.jobs[k]? = some j) (hc : j.call.cell = some s)
    (halone : pc.inside = true → Alone w k s)
    (hserial : Serial Future.start L' (W.abs { w with m := m, jobs := w.jobs.set k { j with pc := pc } }))
    (hcell : ∀ t, t ≠ s → t < w.m.size → m.cell t = w.m.cell t)
    (hsame : pc.inside = false → m.cell s = w.m.cell s)
    (hsize : w.m.size ≤ m.size)
    (hknows : pc.knows (m.cell s))
    (hfits : Job.fits { j with pc := pc })
    (hlin : (L' = L ∧ pc.result = j.pc.result) ∨
      (∃ r, L' = L ++ [(j.id, j.call, r)] ∧ j.pc.result = none ∧ pc.result = some r)) :
    TInv { w with m := m, jobs := w.jobs.set k { j with pc := pc } } L' := by
  have hjm : j ∈ w.jobs := List.mem_of_getElem? hj
  have hk : k < w.jobs.length := (List.getElem?_eq_some_iff.1 hj).1
  have hget : ∀ {i : Nat} {x : Job}, (w.jobs.set k { j with pc := pc })[i]? = some x →
      (i ≠ k ∧ w.jobs[i]? = some x) ∨ (i = k ∧ x = { j with pc := pc }) := by
    intro i x hi
    by_cases e : i = k
    · subst e
      rw [List.getElem?_set_self hk] at hi
      exact Or.inr ⟨rfl, (Option.some.inj hi).symm⟩
    · rw [List.getElem?_set_ne (fun x => e x.symm)] at hi
      exact Or.inl ⟨e, hi⟩
  have hsub : ∀ x ∈ L, x ∈ L' := by
    intro x hx
    rcases hlin with ⟨e, _⟩ | ⟨r, e, _⟩
    · rw [e]; exact hx
    · rw [e]; simp [hx]
  refine
    { serial := hserial
      excl := ?_, knows := ?_, fits := ?_, small := ?_, ids := ?_, begun := ?_, fresh := v.fresh
      lin := ?_, only := ?_, nodup := ?_, all := fun i c r h => hsub _ (v.all i c r h), order := ?_ }
  · intro a b x y t hab hx hy hxc hyc hxi hyi
    rcases hget hx with ⟨ha, hx'⟩ | ⟨ha, rfl⟩ <;> rcases hget hy with ⟨hb, hy'⟩ | ⟨hb, rfl⟩
    · exact v.excl a b x y t hab hx' hy' hxc hyc hxi hyi
    · dsimp only at hyc hyi; rw [hc] at hyc; cases hyc; exact halone hyi a x ha hx' hxc hxi
    · dsimp only at hxc hxi; rw [hc] at hxc; cases hxc; exact halone hxi b y hb hy' hyc hyi
    · exact hab (ha.trans hb.symm)
  · intro x hx t ht
    rcases mem_set_cases hx with ⟨i, hi, h⟩ | rfl
    · have hxm := List.mem_of_getElem? h
      have h0 := v.knows x hxm t ht
      by_cases e : t = s
      · subst e
        by_cases hin : x.pc.inside = true
        · by_cases hp : pc.inside = true
          · exact (halone hp i x hi h ht hin).elim
          · dsimp only; rw [hsame (by simpa using hp)]; exact h0
        · revert hin; cases hpc : x.pc <;> simp [Pc.inside, Pc.knows]
      · dsimp only; rw [hcell t e (v.small x hxm t ht)]; exact h0
    · dsimp only at ht; rw [hc] at ht; cases ht; exact hknows
  · intro x hx
    rcases mem_set_cases hx with ⟨i, hi, h⟩ | rfl
    · exact v.fits x (List.mem_of_getElem? h)
    · exact hfits
  · intro x hx t ht
    rcases mem_set_cases hx with ⟨i, hi, h⟩ | rfl
    · exact Nat.lt_of_lt_of_le (v.small x (List.mem_of_getElem? h) t ht) hsize
    · exact Nat.lt_of_lt_of_le (v.small j hjm t ht) hsize
  · intro a b x y hx hy e
    rcases hget hx with ⟨ha, hx'⟩ | ⟨ha, rfl⟩ <;> rcases hget hy with ⟨hb, hy'⟩ | ⟨hb, rfl⟩
    · exact v.ids a b x y hx' hy' e
    · exact (ha (v.ids a k x j hx' hj e)).elim
    · exact (hb (v.ids k b j y hj hy' e).symm).elim
    · exact ha.trans hb.symm
  · intro x hx
    rcases mem_set_cases hx with ⟨i, hi, h⟩ | rfl
    · exact v.begun x (List.mem_of_getElem? h)
    · exact v.begun j hjm
  · intro x hx
    rcases mem_set_cases hx with ⟨i, hi, h⟩ | rfl
    · have h0 := v.lin x (List.mem_of_getElem? h)
      cases hr : x.pc.result with
      | some r => rw [hr] at h0; exact hsub _ h0
      | none =>
        rw [hr] at h0
        rcases hlin with ⟨e, _⟩ | ⟨r, e, _⟩
        · subst e; exact h0
        · subst e
          intro c r' hm
          rcases List.mem_append.1 hm with hm | hm
          · exact h0 c r' hm
          · simp only [List.mem_singleton, Prod.mk.injEq] at hm
            exact hi (v.ids i k x j h hj hm.1)
    · have h0 := v.lin j hjm
      rcases hlin with ⟨e, hr⟩ | ⟨r, e, hr, hr'⟩
      · subst e; dsimp only; rw [hr]; exact h0
      · subst e; dsimp only; rw [hr']; simp
  · intro i c r hm
    rcases hlin with ⟨e, _⟩ | ⟨r', e, _⟩
    · subst e; exact v.only i c r hm
    · subst e
      rcases List.mem_append.1 hm with hm | hm
      · exact v.only i c r hm
      · simp only [List.mem_singleton, Prod.mk.injEq] at hm
        obtain ⟨rfl, rfl, _⟩ := hm
        exact v.begun j hjm
  · rcases hlin with ⟨e, _⟩ | ⟨r, e, hr, _⟩
    · subst e; exact v.nodup
    · subst e
      have h0 := v.lin j hjm
      rw [hr] at h0
      rw [List.map_append, List.nodup_append]
      refine ⟨v.nodup, by simp, ?_⟩
      intro a ha b hb
      simp only [List.map_cons, List.map_nil, List.mem_singleton] at hb
      subst hb
      rintro rfl
      obtain ⟨⟨i, c, r'⟩, hm, e⟩ := List.mem_map.1 ha
      dsimp only at e; subst e
      exact h0 c r' hm
  · intro a b ca cb ra rb hb hm
    rcases hlin with ⟨e, _⟩ | ⟨r, e, _⟩
    · subst e; exact v.order a b ca cb ra rb hb hm
    · subst e
      rcases List.mem_append.1 hm with hm | hm
      · exact before_append (v.order a b ca cb ra rb hb hm) _
      · rw [List.mem_singleton] at hm
        rw [hm]
        exact before_last (v.all a ca ra (before_mem_left hb)) _

end Verif.Future
