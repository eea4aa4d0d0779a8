import Verif.Future.ThreadsInv

/-! The invariant holds in all reachable states. -/

namespace Verif.Future

variable {w : W} {L : List Done} {k s : Nat} {j : Job}

theorem abs_congr {w w' : W} (hm : w'.m = w.m) (hp : ∀ t, w'.past t ↔ w.past t) : w'.abs = w.abs := by
  cases w; cases w'
  simp only at hm
  subst hm
  simp only [W.abs, hp]

/-- Nothing is written, and nothing takes effect. -/
theorem abs_idle (hj : w.jobs[k]? = some j) {pc : Pc} {m : M} (hm : m = w.m)
    (h1 : j.pc.past = false) (h2 : pc.past = false) :
    W.abs { w with m := m, jobs := w.jobs.set k { j with pc := pc } } = w.abs := by
  subst hm
  have : ∀ t, W.past { w with jobs := w.jobs.set k { j with pc := pc } } t ↔ w.past t := by
    intro t
    constructor
    · rintro ⟨x, hx, h3, h4⟩
      rcases mem_set_cases hx with ⟨i, hi, h⟩ | rfl
      · exact ⟨x, List.mem_of_getElem? h, h3, h4⟩
      · rw [show pc.past = true from h4] at h2; cases h2
    · rintro ⟨x, hx, h3, h4⟩
      obtain ⟨i, hi⟩ := List.mem_iff_getElem?.1 hx
      by_cases e : i = k
      · subst e; rw [hj] at hi; cases hi; rw [h4] at h1; cases h1
      · refine ⟨x, List.mem_of_getElem? (i := i) ?_, h3, h4⟩
        rw [List.getElem?_set_ne (fun x => e x.symm)]; exact hi
  exact abs_congr rfl this

/-- The cells after a step of the call that holds the lock. -/
theorem abs_cell (ha : Alone w k s) (hj : w.jobs[k]? = some j) (hc : j.call.cell = some s) {pc : Pc} {m : M}
    (t : Nat) :
    (W.abs { w with m := m, jobs := w.jobs.set k { j with pc := pc } }).cell t =
      if t = s then (if pc.past then { m.cell s with done := true, cb := none } else m.cell s)
      else if w.past t then { m.cell t with done := true, cb := none } else m.cell t := by
  unfold W.abs
  dsimp only
  by_cases e : t = s
  · subst e
    simp only [past_after ha hj hc, if_true]
  · rw [if_neg e]
    simp only [past_set hj hc e]

theorem abs_own (v : TInv w L) (hj : w.jobs[k]? = some j) (hc : j.call.cell = some s)
    (hin : j.pc.inside = true) :
    w.abs.cell s = if j.pc.past then { w.m.cell s with done := true, cb := none } else w.m.cell s := by
  unfold W.abs
  dsimp only
  simp only [past_own v hj hc hin]

theorem M.ext' {a b : M} (h1 : a.size = b.size) (h2 : ∀ t, a.cell t = b.cell t) (h3 : a.queue = b.queue)
    (h4 : a.proms = b.proms) (h5 : a.futs = b.futs) (h6 : a.active = b.active) (h7 : a.nextC = b.nextC)
    (h8 : a.log = b.log) (h9 : a.ub = b.ub) : a = b := by
  cases a; cases b
  simp only at h1 h2 h3 h4 h5 h6 h7 h8 h9
  have := funext h2
  simp only [M.mk.injEq]
  exact ⟨h1, this, h3, h4, h5, h6, h7, h8, h9⟩

theorem alone_of (v : TInv w L) (hj : w.jobs[k]? = some j) (hc : j.call.cell = some s)
    (hin : j.pc.inside = true) : Alone w k s :=
  fun i x hi hx hxc hxi => v.excl i k x j s hi hx hj hxc hc hxi hin

theorem alone_lock (h : ¬ w.locked s) : Alone w k s :=
  fun _ x _ hx hxc hxi => h ⟨x, List.mem_of_getElem? hx, hxc, hxi⟩

/-- A call returns. -/
theorem inv_end (v : TInv w L) (hj : w.jobs[k]? = some j) {r : Res} (hp : j.pc = .unlock r) :
    TInv { w with jobs := w.jobs.eraseIdx k, hist := w.hist ++ [.finish j.id j.call r] } L := by
  have hjm : j ∈ w.jobs := List.mem_of_getElem? hj
  have hsub : ∀ x ∈ w.jobs.eraseIdx k, x ∈ w.jobs := fun x hx => List.mem_of_mem_eraseIdx hx
  have hidx : ∀ {i : Nat} {x : Job}, (w.jobs.eraseIdx k)[i]? = some x →
      w.jobs[if i < k then i else i + 1]? = some x := by
    intro i x hi
    rw [List.getElem?_eraseIdx] at hi
    by_cases e : i < k
    · rw [if_pos e] at hi ⊢; exact hi
    · rw [if_neg e] at hi ⊢; exact hi
  have hinj : ∀ {a b : Nat}, (if a < k then a else a + 1) = (if b < k then b else b + 1) → a = b := by
    intro a b h
    by_cases e : a < k <;> by_cases e' : b < k <;> simp only [e, e', if_true, if_false] at h <;> omega
  have habs : W.abs { w with jobs := w.jobs.eraseIdx k, hist := w.hist ++ [.finish j.id j.call r] } = w.abs := by
    have : ∀ t, W.past { w with jobs := w.jobs.eraseIdx k, hist := w.hist ++ [.finish j.id j.call r] } t ↔
        w.past t := by
      intro t
      constructor
      · rintro ⟨x, hx, h1, h2⟩; exact ⟨x, hsub x hx, h1, h2⟩
      · rintro ⟨x, hx, h1, h2⟩
        obtain ⟨i, hi⟩ := List.mem_iff_getElem?.1 hx
        have hne : i ≠ k := by
          rintro rfl; rw [hj] at hi; cases hi; rw [hp] at h2; cases h2
        refine ⟨x, ?_, h1, h2⟩
        by_cases e : i < k
        · apply List.mem_of_getElem? (i := i)
          rw [List.getElem?_eraseIdx, if_pos e]; exact hi
        · apply List.mem_of_getElem? (i := i - 1)
          rw [List.getElem?_eraseIdx, if_neg (by omega), show i - 1 + 1 = i by omega]; exact hi
    exact abs_congr rfl this
  refine
    { serial := by rw [habs]; exact v.serial
      excl := ?_
      knows := fun x hx => v.knows x (hsub x hx)
      fits := fun x hx => v.fits x (hsub x hx)
      small := fun x hx => v.small x (hsub x hx)
      ids := ?_
      begun := fun x hx => List.mem_append.2 (Or.inl (v.begun x (hsub x hx)))
      fresh := ?_
      lin := fun x hx => v.lin x (hsub x hx)
      only := fun i c r h => List.mem_append.2 (Or.inl (v.only i c r h))
      nodup := v.nodup
      all := ?_
      order := ?_ }
  · intro a b x y t hab hx hy
    exact v.excl _ _ x y t (fun h => hab (hinj h)) (hidx hx) (hidx hy)
  · intro a b x y hx hy e
    exact hinj (v.ids _ _ x y (hidx hx) (hidx hy) e)
  · intro i c h
    rcases List.mem_append.1 h with h | h
    · exact v.fresh i c h
    · simp at h
  · intro i c r' h
    rcases List.mem_append.1 h with h | h
    · exact v.all i c r' h
    · simp only [List.mem_singleton, HEv.finish.injEq] at h
      obtain ⟨rfl, rfl, rfl⟩ := h
      have := v.lin j hjm
      rw [hp] at this
      exact this
  · intro a b ca cb ra rb hb hm
    rcases before_snoc hb with h | ⟨_, h⟩
    · exact v.order a b ca cb ra rb h hm
    · cases h

/-- A call begins. -/
theorem inv_begin (v : TInv w L) {c : Call} (hc : c.cell = some s) (hs : s < w.m.size) {pc : Pc}
    (hp : pc.inside = false) (hf : Job.fits ⟨w.next, c, pc⟩) :
    TInv { w with jobs := w.jobs ++ [⟨w.next, c, pc⟩], hist := w.hist ++ [.begin w.next c], next := w.next + 1 } L := by
  have hidn : ∀ x ∈ w.jobs, x.id < w.next := fun x hx => v.fresh _ _ (v.begun x hx)
  have hLn : ∀ i c r, (i, c, r) ∈ L → i < w.next := fun i c r h => v.fresh _ _ (v.only i c r h)
  have hget : ∀ {i : Nat} {x : Job}, (w.jobs ++ [⟨w.next, c, pc⟩])[i]? = some x →
      w.jobs[i]? = some x ∨ (i = w.jobs.length ∧ x = ⟨w.next, c, pc⟩) := by
    intro i x hi
    rcases Nat.lt_or_ge i w.jobs.length with h | h
    · rw [List.getElem?_append_left h] at hi; exact Or.inl hi
    · rw [List.getElem?_append_right h] at hi
      rcases Nat.eq_or_lt_of_le h with h' | h'
      · rw [← h'] at hi; simp at hi; exact Or.inr ⟨h'.symm, hi.symm⟩
      · rw [List.getElem?_eq_none (by simp; omega)] at hi; cases hi
  have hpp : pc.past = false := by
    cases h : pc.past with
    | false => rfl
    | true => rw [Pc.past_inside h] at hp; cases hp
  have habs : W.abs { w with
      jobs := w.jobs ++ [⟨w.next, c, pc⟩], hist := w.hist ++ [.begin w.next c], next := w.next + 1 } = w.abs := by
    have : ∀ t, W.past { w with
        jobs := w.jobs ++ [⟨w.next, c, pc⟩], hist := w.hist ++ [.begin w.next c], next := w.next + 1 } t ↔
        w.past t := by
      intro t
      constructor
      · rintro ⟨x, hx, h1, h2⟩
        rcases List.mem_append.1 hx with h | h
        · exact ⟨x, h, h1, h2⟩
        · rw [List.mem_singleton] at h; subst h; rw [show pc.past = true from h2] at hpp; cases hpp
      · rintro ⟨x, hx, h1, h2⟩; exact ⟨x, List.mem_append.2 (Or.inl hx), h1, h2⟩
    exact abs_congr rfl this
  have hmem : ∀ x ∈ w.jobs ++ [⟨w.next, c, pc⟩], x ∈ w.jobs ∨ x = ⟨w.next, c, pc⟩ := by
    intro x hx; simpa using hx
  refine
    { serial := by rw [habs]; exact v.serial
      excl := ?_, knows := ?_, fits := ?_, small := ?_, ids := ?_, begun := ?_, fresh := ?_, lin := ?_
      only := fun i c r h => List.mem_append.2 (Or.inl (v.only i c r h))
      nodup := v.nodup
      all := ?_, order := ?_ }
  · intro a b x y t hab hx hy hxc hyc hxi hyi
    rcases hget hx with hx' | ⟨ha, rfl⟩
    · rcases hget hy with hy' | ⟨hb, rfl⟩
      · exact v.excl a b x y t hab hx' hy' hxc hyc hxi hyi
      · rw [show pc.inside = true from hyi] at hp; cases hp
    · rw [show pc.inside = true from hxi] at hp; cases hp
  · intro x hx t ht
    rcases hmem x hx with hx | rfl
    · exact v.knows x hx t ht
    · revert hp; cases pc <;> simp [Pc.inside, Pc.knows]
  · intro x hx
    rcases hmem x hx with hx | rfl
    · exact v.fits x hx
    · exact hf
  · intro x hx t ht
    rcases hmem x hx with hx | rfl
    · exact v.small x hx t ht
    · dsimp only at ht; rw [hc] at ht; cases ht; exact hs
  · intro a b x y hx hy e
    rcases hget hx with hx' | ⟨ha, rfl⟩ <;> rcases hget hy with hy' | ⟨hb, rfl⟩
    · exact v.ids a b x y hx' hy' e
    · have := hidn x (List.mem_of_getElem? hx'); dsimp only at e; omega
    · have := hidn y (List.mem_of_getElem? hy'); dsimp only at e; omega
    · exact ha.trans hb.symm
  · intro x hx
    rcases hmem x hx with hx | rfl
    · exact List.mem_append.2 (Or.inl (v.begun x hx))
    · simp
  · intro i c' h
    rcases List.mem_append.1 h with h | h
    · exact Nat.lt_succ_of_lt (v.fresh i c' h)
    · simp only [List.mem_singleton, HEv.begin.injEq] at h; dsimp only; omega
  · intro x hx
    rcases hmem x hx with hx | rfl
    · exact v.lin x hx
    · have : pc.result = none := by revert hp; cases pc <;> simp [Pc.inside, Pc.result]
      dsimp only
      rw [this]
      intro c' r h
      exact Nat.lt_irrefl _ (hLn _ _ _ h)
  · intro i c' r h
    rcases List.mem_append.1 h with h | h
    · exact v.all i c' r h
    · simp at h
  · intro a b ca cb ra rb hb hm
    rcases before_snoc hb with h | ⟨_, h⟩
    · exact v.order a b ca cb ra rb h hm
    · cases h; exact (Nat.lt_irrefl _ (hLn _ _ _ hm)).elim

/-- A call that is one step. -/
theorem inv_atom (v : TInv w L) {c : Call} {m m' : M} {r : Res}
    (he : atom w.abs c = some (m', r))
    (habs : W.abs { w with m := m } = m')
    (hcell : ∀ t, t < w.m.size → m.cell t = w.m.cell t) (hsize : w.m.size ≤ m.size) :
    TInv { w with m := m, hist := w.hist ++ [.begin w.next c, .finish w.next c r], next := w.next + 1 }
      (L ++ [(w.next, c, r)]) := by
  have hidn : ∀ x ∈ w.jobs, x.id < w.next := fun x hx => v.fresh _ _ (v.begun x hx)
  have hLn : ∀ i c r, (i, c, r) ∈ L → i < w.next := fun i c r h => v.fresh _ _ (v.only i c r h)
  refine
    { serial := by
        have := Serial.snoc (i := w.next) v.serial he
        rw [← habs] at this
        exact this
      excl := v.excl
      knows := ?_
      fits := v.fits
      small := fun x hx t ht => Nat.lt_of_lt_of_le (v.small x hx t ht) hsize
      ids := v.ids
      begun := fun x hx => List.mem_append.2 (Or.inl (v.begun x hx))
      fresh := ?_, lin := ?_, only := ?_, nodup := ?_, all := ?_, order := ?_ }
  · intro x hx t ht
    dsimp only
    rw [hcell t (v.small x hx t ht)]
    exact v.knows x hx t ht
  · intro i c' h
    rcases List.mem_append.1 h with h | h
    · exact Nat.lt_succ_of_lt (v.fresh i c' h)
    · simp at h; dsimp only; omega
  · intro x hx
    have h0 := v.lin x hx
    cases hr : x.pc.result with
    | some r => rw [hr] at h0; exact List.mem_append.2 (Or.inl h0)
    | none =>
      rw [hr] at h0
      intro c' r' hm
      rcases List.mem_append.1 hm with hm | hm
      · exact h0 c' r' hm
      · simp only [List.mem_singleton, Prod.mk.injEq] at hm
        have := hidn x hx
        omega
  · intro i c' r' hm
    rcases List.mem_append.1 hm with hm | hm
    · exact List.mem_append.2 (Or.inl (v.only i c' r' hm))
    · simp only [List.mem_singleton, Prod.mk.injEq] at hm
      obtain ⟨rfl, rfl, _⟩ := hm
      simp
  · rw [List.map_append, List.nodup_append]
    refine ⟨v.nodup, by simp, ?_⟩
    intro a ha b hb
    simp only [List.map_cons, List.map_nil, List.mem_singleton] at hb
    subst hb
    rintro rfl
    obtain ⟨⟨i, c, r'⟩, hm, e⟩ := List.mem_map.1 ha
    dsimp only at e
    have := hLn i c r' hm
    omega
  · intro i c' r' h
    rcases List.mem_append.1 h with h | h
    · exact List.mem_append.2 (Or.inl (v.all i c' r' h))
    · simp at h
      obtain ⟨rfl, rfl, rfl⟩ := h
      simp
  · intro a b ca cb ra rb hb hm
    have hb' : Before (w.hist ++ [.begin w.next c] ++ [.finish w.next c r]) (.finish a ca ra) (.begin b cb) := by
      rw [List.append_assoc]; exact hb
    rcases before_snoc hb' with hb | ⟨_, h⟩
    · rcases before_snoc hb with hb | ⟨hf, h⟩
      · rcases List.mem_append.1 hm with hm | hm
        · exact before_append (v.order a b ca cb ra rb hb hm) _
        · simp only [List.mem_singleton, Prod.mk.injEq] at hm
          have := v.fresh b cb (before_mem_right hb)
          omega
      · cases h
        rcases List.mem_append.1 hm with hm | hm
        · exact (Nat.lt_irrefl _ (hLn _ _ _ hm)).elim
        · rw [List.mem_singleton] at hm
          rw [hm]
          exact before_last (v.all a ca ra hf) _
    · cases h

/-- New states are not in use. -/
theorem past_small (v : TInv w L) {t : Nat} (h : w.past t) : t < w.m.size := by
  obtain ⟨x, hx, hc, _⟩ := h
  exact v.small x hx t hc

theorem abs_eq_of_not_past {t : Nat} (h : ¬ w.past t) : w.abs.cell t = w.m.cell t := by
  simp [W.abs, h]

theorem put_eq_attach (m : M) {s : Nat} (hs : s < m.size) (fn : Fn) :
    m.put s fn (m.cell s).done = m.attach s fn := by
  have hne : s ≠ m.size := Nat.ne_of_lt hs
  unfold M.put M.attach
  by_cases h : (m.cell s).done = true
  · simp only [h, if_true]; rfl
  · simp only [h]
    cases hc : (m.cell s).cb with
    | some t => simp [M.alloc]
    | none =>
      have hu : upd m.cell m.size ⟨(m.cell s).loop, false, none, some m.nextC⟩ s = m.cell s := by simp [upd, hne]
      simp [M.alloc, M.setCb, hu, h]

/-- What is to be shown of the memory when `then` stores or posts the closure. -/
theorem abs_attach (v : TInv w L) (hj : w.jobs[k]? = some j) {fn : Fn} (hc : j.call = .attach s fn)
    (hp : j.pc = .put (w.m.cell s).done) (r : Res) :
    W.abs { w with m := w.m.put s fn (w.m.cell s).done, jobs := w.jobs.set k { j with pc := .unlock r } } =
      w.abs.attach s fn := by
  have hcell : j.call.cell = some s := by rw [hc]; rfl
  have hin : j.pc.inside = true := by rw [hp]; rfl
  have hs := v.small j (List.mem_of_getElem? hj) s hcell
  have hal := alone_of v hj hcell hin
  have hown := abs_own v hj hcell hin
  rw [show j.pc.past = false by rw [hp]; rfl] at hown
  have hown : w.abs.cell s = w.m.cell s := hown
  have hne : s ≠ w.m.size := Nat.ne_of_lt hs
  have hnp : ¬ w.past w.m.size := fun h => Nat.lt_irrefl _ (past_small v h)
  rw [put_eq_attach _ hs]
  have hcells : ∀ t, (W.abs { w with m := w.m.attach s fn, jobs := w.jobs.set k { j with pc := .unlock r } }).cell t =
      if t = s then (w.m.attach s fn).cell s
      else if w.past t then { (w.m.attach s fn).cell t with done := true, cb := none } else (w.m.attach s fn).cell t :=
    fun t => abs_cell hal hj hcell t
  have h1 : w.abs.size = w.m.size := rfl
  have h2 : w.abs.nextC = w.m.nextC := rfl
  have h3 : w.abs.queue = w.m.queue := rfl
  have h4 : w.abs.log = w.m.log := rfl
  have habs : ∀ t, w.abs.cell t = if w.past t then { w.m.cell t with done := true, cb := none } else w.m.cell t :=
    fun t => rfl
  have hnps : ¬ w.past s := by
    rw [past_own v hj hcell hin, hp]; simp [Pc.past]
  cases hd : (w.m.cell s).done with
  | true =>
    apply M.ext'
    · simp [W.abs, M.attach, hd, M.post, hnps]
    · intro t
      rw [hcells]
      simp only [M.attach, hown, hd, if_true, M.post, h1, h2, upd]
      by_cases e : t = w.m.size
      · subst e; simp [hnp, Ne.symm hne]
      · by_cases e' : t = s
        · subst e'; simp [e, hown]
        · simp only [e, e', if_false, habs]
    · simp [W.abs, M.attach, hd, M.post, hnps]
    · simp [W.abs, M.attach, hd, M.post, hnps]
    · simp [W.abs, M.attach, hd, M.post, hnps]
    · simp [W.abs, M.attach, hd, M.post, hnps]
    · simp [W.abs, M.attach, hd, M.post, hnps]
    · simp [W.abs, M.attach, hd, M.post, hnps]
    · simp [W.abs, M.attach, hd, M.post, hnps]
  | false =>
    cases hb : (w.m.cell s).cb with
    | some t0 =>
      apply M.ext'
      · simp [W.abs, M.attach, hd, hb, hnps]
      · intro t
        rw [hcells]
        simp only [M.attach, hown, hd, hb, h1, h2, Bool.false_eq_true, if_false]
        by_cases e : t = w.m.size
        · subst e; simp [hnp, Ne.symm hne, upd]
        · by_cases e' : t = s
          · subst e'; simp [e, hown, upd]
          · simp [e, e', habs, upd]
      · simp [W.abs, M.attach, hd, hb, hnps]
      · simp [W.abs, M.attach, hd, hb, hnps]
      · simp [W.abs, M.attach, hd, hb, hnps]
      · simp [W.abs, M.attach, hd, hb, hnps]
      · simp [W.abs, M.attach, hd, hb, hnps]
      · simp [W.abs, M.attach, hd, hb, hnps]
      · simp [W.abs, M.attach, hd, hb, hnps]
    | none =>
      apply M.ext'
      · simp [W.abs, M.attach, hd, hb, hnps]
      · intro t
        rw [hcells]
        simp only [M.attach, hown, hd, hb, h1, h2, Bool.false_eq_true, if_false]
        by_cases e : t = w.m.size
        · subst e; simp [hnp, Ne.symm hne, upd]
        · by_cases e' : t = s
          · subst e'; simp [upd]
          · simp [e, e', habs, upd]
      · simp [W.abs, M.attach, hd, hb, hnps]
      · simp [W.abs, M.attach, hd, hb, hnps]
      · simp [W.abs, M.attach, hd, hb, hnps]
      · simp [W.abs, M.attach, hd, hb, hnps]
      · simp [W.abs, M.attach, hd, hb, hnps]
      · simp [W.abs, M.attach, hd, hb, hnps]
      · simp [W.abs, M.attach, hd, hb, hnps]

/-- What is to be shown of the memory when a promise takes effect. -/
theorem abs_fulfil (v : TInv w L) (hj : w.jobs[k]? = some j) (hc : j.call = .fulfil s)
    (hin : j.pc.inside = true) (hnp : j.pc.past = false) {m : M} {pc : Pc} (hpast : pc.past = true)
    (hq : m.queue = (w.m.fulfil s).queue) (hl : (m.cell s).loop = (w.m.cell s).loop)
    (hs : (m.cell s).src = (w.m.cell s).src) (hm : m = { w.m with queue := m.queue, cell := m.cell })
    (ho : ∀ t, t ≠ s → m.cell t = w.m.cell t) :
    W.abs { w with m := m, jobs := w.jobs.set k { j with pc := pc } } = w.abs.fulfil s := by
  have hcell : j.call.cell = some s := by rw [hc]; rfl
  have hown := abs_own v hj hcell hin
  rw [hnp] at hown
  have hown : w.abs.cell s = w.m.cell s := hown
  have hal := alone_of v hj hcell hin
  have hcells : ∀ t, (W.abs { w with m := m, jobs := w.jobs.set k { j with pc := pc } }).cell t =
      if t = s then (if pc.past then { m.cell s with done := true, cb := none } else m.cell s)
      else if w.past t then { m.cell t with done := true, cb := none } else m.cell t :=
    fun t => abs_cell hal hj hcell t
  have habs : ∀ t, w.abs.cell t = if w.past t then { w.m.cell t with done := true, cb := none } else w.m.cell t :=
    fun t => rfl
  have hf : ∀ (a : M), (a.fulfil s).cell = upd a.cell s { a.cell s with done := true, cb := none } ∧
      (a.fulfil s).size = a.size ∧ (a.fulfil s).proms = a.proms ∧ (a.fulfil s).futs = a.futs ∧
      (a.fulfil s).active = a.active ∧ (a.fulfil s).nextC = a.nextC ∧ (a.fulfil s).log = a.log ∧
      (a.fulfil s).ub = a.ub := by
    intro a
    unfold M.fulfil
    dsimp only
    split <;> exact ⟨rfl, rfl, rfl, rfl, rfl, rfl, rfl, rfl⟩
  obtain ⟨f1, f2, f3, f4, f5, f6, f7, f8⟩ := hf w.abs
  have hqa : (w.abs.fulfil s).queue = (w.m.fulfil s).queue := by
    unfold M.fulfil
    dsimp only
    rw [hown]
    split <;> rfl
  rw [hm] at hcells ⊢
  apply M.ext'
  · rw [f2]; rfl
  · intro t
    rw [hcells, f1]
    dsimp only
    unfold upd
    by_cases e : t = s
    · subst e
      simp only [hpast, if_true, hown, hl, hs]
    · simp only [e, if_false, habs, ho t e]
  · rw [hqa]; exact hq
  · rw [f3]; rfl
  · rw [f4]; rfl
  · rw [f5]; rfl
  · rw [f6]; rfl
  · rw [f7]; rfl
  · rw [f8]; rfl

/-- A call that has taken effect writes what it says. -/
theorem abs_write (v : TInv w L) (hj : w.jobs[k]? = some j) (hc : j.call = .fulfil s)
    (hp : j.pc.past = true) {m : M} {pc : Pc}
    (hw : (if pc.past then { m.cell s with done := true, cb := none } else m.cell s) =
      { w.m.cell s with done := true, cb := none })
    (hm : m = { w.m with cell := m.cell }) (ho : ∀ t, t ≠ s → m.cell t = w.m.cell t) :
    W.abs { w with m := m, jobs := w.jobs.set k { j with pc := pc } } = w.abs := by
  have hcell : j.call.cell = some s := by rw [hc]; rfl
  have hin := Pc.past_inside hp
  have hown := abs_own v hj hcell hin
  rw [hp] at hown
  have hal := alone_of v hj hcell hin
  have hcells : ∀ t, (W.abs { w with m := m, jobs := w.jobs.set k { j with pc := pc } }).cell t =
      if t = s then (if pc.past then { m.cell s with done := true, cb := none } else m.cell s)
      else if w.past t then { m.cell t with done := true, cb := none } else m.cell t :=
    fun t => abs_cell hal hj hcell t
  have habs : ∀ t, w.abs.cell t = if w.past t then { w.m.cell t with done := true, cb := none } else w.m.cell t :=
    fun t => rfl
  rw [hm] at hcells ⊢
  apply M.ext'
  · rfl
  · intro t
    rw [hcells]
    by_cases e : t = s
    · subst e
      rw [if_pos rfl, hown]
      exact hw
    · rw [if_neg e, habs]
      dsimp only
      rw [ho t e]
  · rfl
  · rfl
  · rfl
  · rfl
  · rfl
  · rfl
  · rfl

/-- One access keeps the invariant. -/
theorem inv_access (v : TInv w L) (hj : w.jobs[k]? = some j) {m : M} {pc : Pc}
    (h : j.go w = some (m, some pc)) (hu : m.ub = false ∨ j.pc ≠ .checkCb) :
    ∃ L', TInv { w with m := m, jobs := w.jobs.set k { j with pc := pc } } L' := by
  have hjm : j ∈ w.jobs := List.mem_of_getElem? hj
  obtain ⟨id, call, pc0⟩ := j
  cases call with
  | make l => simp [Job.go] at h
  | take l => simp [Job.go] at h
  | attach s fn =>
    have hc : (Job.call ⟨id, .attach s fn, pc0⟩).cell = some s := rfl
    have hs : s < w.m.size := v.small _ hjm s hc
    have hidle : ∀ {pc' : Pc}, m = w.m → pc0.past = false → pc'.past = false → pc0.result = none →
        pc'.result = none → (pc'.inside = true → Alone w k s) → pc'.knows (w.m.cell s) →
        Job.fits ⟨id, .attach s fn, pc'⟩ →
        ∃ L', TInv { w with m := m, jobs := w.jobs.set k ⟨id, .attach s fn, pc'⟩ } L' := by
      intro pc' hm h1 h2 h3 h4 h5 h6 h7
      refine ⟨L, inv_go v hj hc h5 ?_ ?_ ?_ ?_ ?_ h7 (Or.inl ⟨rfl, h4.trans h3.symm⟩)⟩
      · rw [abs_idle hj hm h1 h2]; exact v.serial
      · intro t _ _; rw [hm]
      · intro _; rw [hm]
      · rw [hm]; exact Nat.le_refl _
      · rw [hm]; exact h6
    cases pc0 with
    | checkPost =>
      simp only [Job.go, Option.some.injEq, Prod.mk.injEq] at h
      obtain ⟨rfl, rfl⟩ := h
      exact hidle rfl rfl rfl rfl rfl (by simp [Pc.inside]) trivial trivial
    | checkCb =>
      simp only [Job.go, Option.some.injEq, Prod.mk.injEq] at h
      obtain ⟨hm, rfl⟩ := h
      have : (w.m.cell s).cb.isSome = false := by
        rcases hu with hu | hu
        · cases hb : (w.m.cell s).cb.isSome with
          | false => rfl
          | true => rw [hb] at hm; simp only [if_true] at hm; rw [← hm] at hu; cases hu
        · exact (hu rfl).elim
      rw [this] at hm
      exact hidle hm.symm rfl rfl rfl rfl (by simp [Pc.inside]) trivial trivial
    | copy =>
      simp only [Job.go, Option.some.injEq, Prod.mk.injEq] at h
      obtain ⟨rfl, rfl⟩ := h
      exact hidle rfl rfl rfl rfl rfl (by simp [Pc.inside]) trivial trivial
    | lock =>
      simp only [Job.go] at h
      by_cases hl : w.locked s
      · simp [hl] at h
      · simp only [hl, if_false, Option.some.injEq, Prod.mk.injEq] at h
        obtain ⟨rfl, rfl⟩ := h
        exact hidle rfl rfl rfl rfl rfl (fun _ => alone_lock hl) trivial trivial
    | done =>
      simp only [Job.go, Option.some.injEq, Prod.mk.injEq] at h
      obtain ⟨rfl, rfl⟩ := h
      exact hidle rfl rfl rfl rfl rfl (fun _ => alone_of v hj hc rfl) rfl trivial
    | put b =>
      simp only [Job.go, Option.some.injEq, Prod.mk.injEq] at h
      obtain ⟨rfl, rfl⟩ := h
      have hb : b = (w.m.cell s).done := v.knows _ hjm s hc
      subst hb
      have ha := alone_of v hj hc rfl
      have habs := abs_attach v hj rfl rfl (.state w.m.size)
      have hcell : ∀ t, t ≠ s → t < w.m.size → (w.m.put s fn (w.m.cell s).done).cell t = w.m.cell t := by
        intro t h1 h2
        have h3 : t ≠ w.m.size := Nat.ne_of_lt h2
        unfold M.put
        dsimp only
        split
        · simp [M.alloc, M.post, upd, h3]
        · split
          · simp [M.alloc, upd, h3]
          · simp [M.alloc, M.setCb, upd, h1, h3]
      refine ⟨L ++ [(id, .attach s fn, .state w.m.size)], inv_go v hj hc (fun _ => ha) ?_ hcell ?_ ?_ trivial trivial
        (Or.inr ⟨.state w.m.size, rfl, rfl, rfl⟩)⟩
      · have hat : atom w.abs (.attach s fn) = some (w.abs.attach s fn, .state w.m.size) := by
          have : s < w.abs.size := hs
          simp only [atom, this, if_true]
          rfl
        rw [← habs] at hat
        exact .snoc v.serial hat
      · intro h; cases h
      · unfold M.put
        dsimp only
        split
        · exact Nat.le_succ _
        · split <;> exact Nat.le_succ _
    | unlock r => simp [Job.go] at h
    | cb => simp [Job.go] at h
    | post t => simp [Job.go] at h
    | set b => simp [Job.go] at h
    | null => simp [Job.go] at h
  | fulfil s =>
    have hc : (Job.call ⟨id, .fulfil s, pc0⟩).cell = some s := rfl
    have hs : s < w.m.size := v.small _ hjm s hc
    have hidle : ∀ {pc' : Pc}, m = w.m → pc0.past = false → pc'.past = false → pc0.result = none →
        pc'.result = none → (pc'.inside = true → Alone w k s) → pc'.knows (w.m.cell s) →
        Job.fits ⟨id, .fulfil s, pc'⟩ →
        ∃ L', TInv { w with m := m, jobs := w.jobs.set k ⟨id, .fulfil s, pc'⟩ } L' := by
      intro pc' hm h1 h2 h3 h4 h5 h6 h7
      refine ⟨L, inv_go v hj hc h5 ?_ ?_ ?_ ?_ ?_ h7 (Or.inl ⟨rfl, h4.trans h3.symm⟩)⟩
      · rw [abs_idle hj hm h1 h2]; exact v.serial
      · intro t _ _; rw [hm]
      · intro _; rw [hm]
      · rw [hm]; exact Nat.le_refl _
      · rw [hm]; exact h6
    have hat : atom w.abs (.fulfil s) = some (w.abs.fulfil s, .nothing) := by
      have : s < w.abs.size := hs
      simp only [atom, this, if_true]
    cases pc0 with
    | lock =>
      simp only [Job.go] at h
      by_cases hl : w.locked s
      · simp [hl] at h
      · simp only [hl, if_false, Option.some.injEq, Prod.mk.injEq] at h
        obtain ⟨rfl, rfl⟩ := h
        exact hidle rfl rfl rfl rfl rfl (fun _ => alone_lock hl) trivial trivial
    | done =>
      simp only [Job.go, Option.some.injEq, Prod.mk.injEq] at h
      obtain ⟨rfl, rfl⟩ := h
      have ha := alone_of v hj hc rfl
      cases hd : (w.m.cell s).done with
      | true => exact hidle rfl rfl rfl rfl rfl (fun _ => ha) (Or.inl hd) trivial
      | false => exact hidle rfl rfl rfl rfl rfl (fun _ => ha) hd trivial
    | cb =>
      simp only [Job.go, Option.some.injEq, Prod.mk.injEq] at h
      obtain ⟨rfl, rfl⟩ := h
      have ha := alone_of v hj hc rfl
      have hd : (w.m.cell s).done = false := v.knows _ hjm s hc
      cases hb : (w.m.cell s).cb with
      | some t => exact hidle rfl rfl rfl rfl rfl (fun _ => ha) ⟨hd, hb⟩ trivial
      | none => exact hidle rfl rfl rfl rfl rfl (fun _ => ha) (Or.inr hb) trivial
    | post t =>
      simp only [Job.go, Option.some.injEq, Prod.mk.injEq] at h
      obtain ⟨rfl, rfl⟩ := h
      have ha := alone_of v hj hc rfl
      obtain ⟨hd, hb⟩ : (w.m.cell s).done = false ∧ (w.m.cell s).cb = some t := v.knows _ hjm s hc
      have habs : W.abs { w with
          m := w.m.post (w.m.cell s).loop t, jobs := w.jobs.set k ⟨id, .fulfil s, .set true⟩ } =
          w.abs.fulfil s :=
        abs_fulfil v hj rfl rfl rfl rfl (by simp [M.fulfil, hd, hb]) rfl rfl rfl (fun _ _ => rfl)
      refine ⟨L ++ [(id, .fulfil s, .nothing)], inv_go v hj hc (fun _ => ha) ?_ (fun _ _ _ => rfl) (fun _ => rfl)
        (Nat.le_refl _) hd trivial (Or.inr ⟨.nothing, rfl, rfl, rfl⟩)⟩
      rw [← habs] at hat
      exact .snoc v.serial hat
    | set b =>
      simp only [Job.go, Option.some.injEq, Prod.mk.injEq] at h
      obtain ⟨rfl, rfl⟩ := h
      have ha := alone_of v hj hc rfl
      have ho : ∀ t, t ≠ s → (w.m.setDone s).cell t = w.m.cell t := fun t ht => by simp [M.setDone, upd, ht]
      have hk : ((w.m.setDone s).cell s) = { w.m.cell s with done := true } := by simp [M.setDone, upd]
      cases b with
      | true =>
        refine ⟨L, inv_go v hj hc (fun _ => ha) ?_ (fun t h _ => ho t h) (fun h => by cases h) (Nat.le_refl _) ?_
          trivial (Or.inl ⟨rfl, rfl⟩)⟩
        · have : W.abs { w with m := w.m.setDone s, jobs := w.jobs.set k ⟨id, .fulfil s, .null⟩ } = w.abs :=
            abs_write v hj rfl rfl (by rw [hk]; rfl) rfl ho
          rw [this]; exact v.serial
        · rw [hk]; rfl
      | false =>
        have hd : (w.m.cell s).done = true ∨ (w.m.cell s).cb = none := v.knows _ hjm s hc
        have habs : W.abs { w with m := w.m.setDone s, jobs := w.jobs.set k ⟨id, .fulfil s, .null⟩ } =
            w.abs.fulfil s := by
          refine abs_fulfil v hj rfl rfl rfl rfl ?_ (by rw [hk]) (by rw [hk]) rfl ho
          unfold M.fulfil
          dsimp only
          rcases hd with hd | hd
          · rw [hd]; rfl
          · rw [hd]; cases (w.m.cell s).done <;> rfl
        refine ⟨L ++ [(id, .fulfil s, .nothing)], inv_go v hj hc (fun _ => ha) ?_ (fun t h _ => ho t h)
          (fun h => by cases h) (Nat.le_refl _) ?_ trivial (Or.inr ⟨.nothing, rfl, rfl, rfl⟩)⟩
        · rw [← habs] at hat
          exact .snoc v.serial hat
        · rw [hk]; rfl
    | null =>
      simp only [Job.go, Option.some.injEq, Prod.mk.injEq] at h
      obtain ⟨rfl, rfl⟩ := h
      have ha := alone_of v hj hc rfl
      have hd : (w.m.cell s).done = true := v.knows _ hjm s hc
      have ho : ∀ t, t ≠ s → (w.m.setCb s none).cell t = w.m.cell t := fun t ht => by simp [M.setCb, upd, ht]
      have hk : ((w.m.setCb s none).cell s) = { w.m.cell s with cb := none } := by simp [M.setCb, upd]
      refine ⟨L, inv_go v hj hc (fun _ => ha) ?_ (fun t h _ => ho t h) (fun h => by cases h) (Nat.le_refl _) trivial
        trivial (Or.inl ⟨rfl, rfl⟩)⟩
      have : W.abs { w with m := w.m.setCb s none, jobs := w.jobs.set k ⟨id, .fulfil s, .unlock .nothing⟩ } = w.abs :=
        abs_write v hj rfl rfl (by rw [hk]; simp [Pc.past, hd]) rfl ho
      rw [this]; exact v.serial
    | unlock r => simp [Job.go] at h
    | checkPost => simp [Job.go] at h
    | checkCb => simp [Job.go] at h
    | copy => simp [Job.go] at h
    | put b => simp [Job.go] at h

/-- A call returns only after it has unlocked. -/
theorem go_end {m : M} (h : j.go w = some (m, none)) : m = w.m ∧ ∃ r, j.pc = .unlock r := by
  obtain ⟨id, call, pc⟩ := j
  cases call <;> cases pc <;> simp [Job.go] at h
  · exact ⟨h.symm, _, rfl⟩
  · exact ⟨h.symm, _, rfl⟩

theorem first_outside (dbg : Bool) (c : Call) : (c.first dbg).inside = false := by
  cases c <;> cases dbg <;> rfl

theorem tinv_step {dbg : Bool} {w' : W} {op : WOp} (v : TInv w L) (h : w.step dbg op = some w')
    (hu : w'.m.ub = false) : ∃ L', TInv w' L' := by
  unfold W.step at h
  split at h
  · cases h
  · cases op with
    | begin c =>
      dsimp only at h
      cases c with
      | make l =>
        simp only [W.begin, atom, Option.map_some, Option.some.injEq] at h
        subst h
        have hnp : ¬ w.past w.m.size := fun h => Nat.lt_irrefl _ (past_small v h)
        refine ⟨_, inv_atom v (c := .make l) (m' := w.abs.make l) rfl ?_ ?_ (Nat.le_succ _)⟩
        · apply M.ext' <;> try rfl
          intro t
          show (if w.past t then { (w.m.make l).cell t with done := true, cb := none } else (w.m.make l).cell t) =
            (w.abs.make l).cell t
          by_cases e : t = w.m.size
          · subst e; rw [if_neg hnp]; simp [M.make, upd, W.abs]
          · simp only [M.make, upd, e, if_false]; simp [W.abs, e]
        · intro t ht
          simp [M.make, upd, Nat.ne_of_lt ht]
      | take l =>
        simp only [W.begin, atom] at h
        cases hq : w.m.queue l with
        | nil => simp [hq] at h
        | cons t q =>
          simp only [hq, Option.map_some, Option.some.injEq] at h
          subst h
          refine ⟨_, inv_atom v (c := .take l) (m' := { w.abs with
            queue := upd w.abs.queue l q, log := w.abs.log ++ [.start t.c] }) ?_ rfl (fun _ _ => rfl) (Nat.le_refl _)⟩
          have : w.abs.queue l = t :: q := hq
          simp only [atom, this]
      | fulfil s =>
        simp only [W.begin] at h
        split at h
        · rename_i hs
          simp only [Option.some.injEq] at h
          subst h
          exact ⟨L, inv_begin v rfl hs (first_outside dbg _) (by cases dbg <;> trivial)⟩
        · cases h
      | attach s fn =>
        simp only [W.begin] at h
        split at h
        · rename_i hs
          simp only [Option.some.injEq] at h
          subst h
          exact ⟨L, inv_begin v rfl hs (first_outside dbg _) (by cases dbg <;> trivial)⟩
        · cases h
    | go k =>
      dsimp only at h
      cases hj : w.jobs[k]? with
      | none => simp [hj] at h
      | some j =>
        simp only [hj] at h
        cases hg : j.go w with
        | none => simp [hg] at h
        | some r =>
          obtain ⟨m, o⟩ := r
          simp only [hg, Option.map_some, Option.some.injEq] at h
          cases o with
          | some pc =>
            dsimp only at h
            subst h
            exact inv_access v hj hg (Or.inl hu)
          | none =>
            dsimp only at h
            subst h
            obtain ⟨rfl, r, hp⟩ := go_end hg
            have := inv_end v hj hp
            rw [hp]
            exact ⟨L, this⟩

theorem tstep_ub {dbg : Bool} {w' : W} {op : WOp} (h : w.step dbg op = some w') : w.m.ub = false := by
  unfold W.step at h
  split at h
  · cases h
  · rename_i hu; simpa using hu

theorem inv_reach {dbg : Bool} (r : W.Reach dbg w) (hu : w.m.ub = false) : ∃ L, TInv w L := by
  induction r with
  | start => exact ⟨[], tinv_start⟩
  | step op _ h ih =>
    obtain ⟨L, v⟩ := ih (tstep_ub h)
    exact tinv_step v h hu

end Verif.Future
