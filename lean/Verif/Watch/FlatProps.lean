import Verif.Watch.Flat

/-!
C114: the order in which callbacks are called is that of one list for each source.
-/

namespace Verif.Watch

/-- A callback that runs is that of the reader that the loop is about, or of none. -/
def Owned (st : St) : Prop := ∀ f n r c b, Frame.slot f n r c b ∈ st.stack →
  c < st.nc ∧ (∀ q, c ∈ st.slots q → q = r) ∧ c ∉ st.stack.filterMap bindOf

theorem owned_kind {st st' : St} {op : Op} (g : Good st) (o : Owned st) (k : Kind st op st') : Owned st' := by
  have keep : ∀ {s : St}, (∀ fr ∈ s.stack, fr ∈ st.stack) → st.slots = s.slots → st.nc ≤ s.nc → Owned s := by
    intro s h1 h2 h3 f n r c b hm
    obtain ⟨o1, o2, o3⟩ := o f n r c b (h1 _ hm)
    refine ⟨by omega, by rw [← h2]; exact o2, ?_⟩
    intro hb
    obtain ⟨fr, hf, hb⟩ := List.mem_filterMap.1 hb
    exact o3 (List.mem_filterMap.2 ⟨fr, h1 _ hf, hb⟩)
  have new : ∀ {s : St} {f n r c : Nat} {b : Bool},
      (∀ fr ∈ s.stack, fr ∈ st.stack ∨ fr = .slot f n r c b ∨ ∃ f n r, fr = .node f n r) → st.slots = s.slots →
      st.nc ≤ s.nc → c ∈ st.slots r → Owned s := by
    intro s f n r c b h1 h2 h3 hc f' n' r' c' b' hm
    have hb : ∀ x, x ∈ s.stack.filterMap bindOf → x ∈ st.stack.filterMap bindOf := by
      intro x hx
      obtain ⟨fr, hf, hb⟩ := List.mem_filterMap.1 hx
      rcases h1 _ hf with h | rfl | ⟨_, _, _, rfl⟩
      · exact List.mem_filterMap.2 ⟨fr, h, hb⟩
      · cases hb
      · cases hb
    rcases h1 _ hm with h | h | ⟨_, _, _, h⟩
    · obtain ⟨o1, o2, o3⟩ := o f' n' r' c' b' h
      exact ⟨by omega, by rw [← h2]; exact o2, fun h => o3 (hb _ h)⟩
    · cases h
      have := g.inv.fresh _ _ hc
      exact ⟨by omega, by rw [← h2]; exact fun q hq => g.inv.owner _ _ _ hq hc,
        fun h => (g.binds _ (hb _ h)).2 _ hc⟩
    · cases h
  cases k with
  | misc hm _ hu hs _ _ _ _ hnc =>
    obtain ⟨-, -, h3⟩ := misc_slots g.inv hm hu
    intro f n r c b hmem
    rw [hs] at hmem
    obtain ⟨o1, o2, o3⟩ := o f n r c b hmem
    refine ⟨by omega, ?_, by rw [hs]; exact o3⟩
    intro q hq
    rcases h3 q c hq with h | h
    · exact o2 q h
    · omega
  | null => exact keep (fun _ h => h) rfl (Nat.le_refl _)
  | bind r n =>
    intro f n' r' c b hmem
    have hmem : Frame.slot f n' r' c b ∈ st.stack := by simpa using hmem
    obtain ⟨o1, o2, o3⟩ := o _ _ _ _ _ hmem
    refine ⟨Nat.lt_succ_of_lt o1, o2, ?_⟩
    simp only [List.filterMap_cons, bindOf, List.mem_cons, not_or]
    exact ⟨by omega, o3⟩
  | nudge0 => exact o
  | nudge r n c l _ _ _ hs =>
    exact new (f := st.nf) (n := n) (r := r) (c := c) (b := true) (by
      intro fr hf
      rcases List.mem_cons.1 hf with h | h
      · exact .inr (.inl h)
      · exact .inl h) rfl (Nat.le_refl _) (by simp [hs])
  | notify0 => exact keep (fun _ h => h) rfl (Nat.le_refl _)
  | notify n r l =>
    intro f n' r' c b hmem
    have hmem : Frame.slot f n' r' c b ∈ st.stack := by simpa using hmem
    obtain ⟨o1, o2, o3⟩ := o _ _ _ _ _ hmem
    exact ⟨o1, o2, by simpa [bindOf] using o3⟩
  | retSlot => exact keep (fun _ h => h) rfl (Nat.le_refl _)
  | retBind r c fs hc hs ha =>
    have hi : Inv ({ st with stack := fs } : St) := g.inv.same ⟨rfl, rfl, rfl, rfl, rfl, rfl⟩ (Nat.le_refl _)
    obtain ⟨e1, -, -, -, -, -, -, e8, e9, -⟩ := watch_eq hi (r := r) (c := c)
    intro f n' r' c' b hmem
    rw [e9] at hmem
    have hmem : Frame.slot f n' r' c' b ∈ fs := hmem
    obtain ⟨o1, o2, o3⟩ := o _ _ _ _ _ (by rw [hs]; exact List.mem_cons_of_mem _ hmem)
    rw [hs] at o3
    simp only [List.filterMap_cons, bindOf, List.mem_cons, not_or] at o3
    refine ⟨by rw [e8]; exact o1, ?_, by rw [e9]; exact o3.2⟩
    intro q hq
    rw [e1] at hq
    by_cases h : q = r
    · subst h
      simp only [upd_same, List.mem_append, List.mem_singleton] at hq
      rcases hq with hq | hq
      · exact o2 _ hq
      · exact absurd hq o3.1
    · rw [upd_ne _ _ h] at hq
      exact o2 _ hq
  | retDead r c fs hc hs => exact keep (fun fr h => by rw [hs]; exact List.mem_cons_of_mem _ h) rfl (Nat.le_refl _)
  | enter0 => exact keep (fun _ h => h) rfl (Nat.le_refl _)
  | enter f n q r c l fs hc hs hsl =>
    exact new (f := f) (n := n) (r := r) (c := c) (b := false) (by
      intro fr hf
      rcases List.mem_cons.1 hf with h | h
      · exact .inr (.inl h)
      · exact .inl h) rfl (Nat.le_refl _) (by simp [hsl])
  | slotNext f n r c c' b fs hc hs hm hn =>
    exact new (f := f) (n := n) (r := r) (c := c') (b := b) (by
      intro fr hf
      rcases List.mem_cons.1 hf with h | h
      · exact .inr (.inl h)
      · exact .inl (by rw [hs]; exact List.mem_cons_of_mem _ h)) rfl (Nat.le_refl _) (next_mem hn)
  | nudgeEnd f n r c fs hc hs => exact keep (fun fr h => by rw [hs]; exact List.mem_cons_of_mem _ h) rfl (Nat.le_refl _)
  | slotEnd f n r c fs hc hs => exact keep (fun fr h => by rw [hs]; exact List.mem_cons_of_mem _ h) rfl (Nat.le_refl _)
  | slotUb => exact keep (fun _ h => h) rfl (Nat.le_refl _)
  | nodeNext f n r m r' fs hc hs =>
    intro f' n' r'' c b hmem
    have hmem : Frame.slot f' n' r'' c b ∈ fs := by simpa using hmem
    obtain ⟨o1, o2, o3⟩ := o _ _ _ _ _ (by rw [hs]; exact List.mem_cons_of_mem _ hmem)
    rw [hs] at o3
    exact ⟨o1, o2, by simpa [bindOf] using o3⟩
  | nodeEnd f n r fs hc hs => exact keep (fun fr h => by rw [hs]; exact List.mem_cons_of_mem _ h) rfl (Nat.le_refl _)
  | nodeUb => exact keep (fun _ h => h) rfl (Nat.le_refl _)

theorem Reach.owned {st : St} (h : Reach st) : Owned st := by
  induction h with
  | start => intro f n r c b hm; cases hm
  | step op r h ih => exact owned_kind r.good ih (step_kind h).2

/-- C114: no callback is twice in the lists of sources. -/
theorem C114_once {st : St} (hr : Reach st) :
    (∀ n, (st.flat n).Nodup) ∧ ∀ n m c, c ∈ st.flat n → c ∈ st.flat m → n = m := by
  have i := hr.good.inv
  refine ⟨flat_nodup i, fun n m c h1 h2 => ?_⟩
  obtain ⟨r, h3, h4⟩ := mem_flat.1 h1
  have h5 := (flat_mem i h4).1 h2
  have h6 := (i.link r n).2 h3
  rw [h6] at h5
  cases h5; rfl

/-- The library goes on until it calls the first of `B`, in loop `f` over the callbacks of source `n`, or until the loop
ends if there is none; `fs` is the stack without the loop. -/
def Proceeds (st : St) (f n : Nat) (fs : List Frame) (B : List Nat) : Prop :=
  ∃ st', LibRun st st' ∧ st'.ctrl = .user ∧ st'.ub = false ∧ st'.flat = st.flat ∧ st'.val = st.val ∧
    match B with
    | [] => st'.stack = fs ∧ ∃ d, (∀ e ∈ d, ∃ r, e = Ev.turn f r) ∧ st'.log = st.log ++ d ++ [.done f]
    | c :: _ => ∃ r, c ∈ st.slots r ∧ st'.stack = .slot f n r c false :: .node f n r :: fs ∧
      ∃ d, (∀ e ∈ d, ∃ q, e = Ev.turn f q) ∧ st'.log = st.log ++ d ++ [.called f n r c (st.val n)]

theorem enter_proceeds {st : St} (hu : st.ub = false) {f n r : Nat} {fs : List Frame} (hc : st.ctrl = .enter r)
    (hs : st.stack = .node f n r :: fs) {c : Nat} {B : List Nat} (hh : (st.slots r).head? = some c) :
    Proceeds st f n fs (c :: B) := by
  cases hl : st.slots r with
  | nil => rw [hl] at hh; cases hh
  | cons x l =>
    rw [hl] at hh
    cases hh
    refine ⟨{ st.say (.called f n r c (st.val n)) with
      stack := .slot f n r c false :: st.stack, ctrl := .user }, .one ?_, rfl, hu, rfl, rfl, r, by simp [hl],
      by simp [hs], [], by simp, by simp [St.say]⟩
    rw [lib_step hu (by rw [hc]; simp)]
    simp [St.lib, hc, hs, hl]

theorem node_proceeds {st : St} (hr : Reach st) (hu : st.ub = false) {f n r : Nat} {fs : List Frame}
    (hc : st.ctrl = .back) (hs : st.stack = .node f n r :: fs) (hl : st.linked r = some n) {B : List Nat}
    (hB : B.head? = (next r (st.obs n)).bind fun r' => (st.slots r').head?) : Proceeds st f n fs B := by
  have i := hr.good.inv
  have h1 := lib_step hu (st := st) (by rw [hc]; simp)
  cases hn : next r (st.obs n) with
  | none =>
    rw [hn] at hB
    have : B = [] := List.head?_eq_none_iff.1 hB
    subst this
    refine ⟨{ st.say (.done f) with stack := fs, ctrl := .user }, .one ?_, rfl, hu, rfl, rfl, rfl, [], by simp,
      by simp [St.say]⟩
    rw [h1]
    simp [St.lib, hc, hs, hl, hn]
  | some r' =>
    have hmem : r' ∈ st.obs n := next_mem hn
    have hne := i.obs_ne hmem
    rw [hn] at hB
    cases hsl : st.slots r' with
    | nil => exact absurd hsl hne
    | cons c l =>
      simp only [Option.bind_some, hsl, List.head?_cons] at hB
      obtain ⟨B', rfl⟩ : ∃ B', B = c :: B' := by
        cases B with
        | nil => cases hB
        | cons x B => cases hB; exact ⟨B, rfl⟩
      have h2 : step st .lib = some { st.say (.turn f r') with stack := .node f n r' :: fs, ctrl := .enter r' } := by
        rw [h1]
        simp [St.lib, hc, hs, hl, hn]
      obtain ⟨st', l1, l2, l3, l4, l5, q, l6, l7, d, l8, l9⟩ :=
        enter_proceeds (st := { st.say (.turn f r') with stack := .node f n r' :: fs, ctrl := .enter r' }) (B := B')
          hu rfl rfl (c := c) (by show (st.slots r').head? = _; rw [hsl]; rfl)
      refine ⟨st', .cons h2 l1, l2, l3, l4, l5, q, l6, l7, .turn f r' :: d, ?_, ?_⟩
      · intro e he
        rcases List.mem_cons.1 he with rfl | he
        · exact ⟨_, rfl⟩
        · exact l8 e he
      · rw [l9]; simp [St.say]

/-- C114: a notification calls the first callback in the list of the source, or ends if there is none. -/
theorem C114_first {st s1 : St} (hr : Reach st) {n : Nat} (h : step st (.notify n) = some s1) (hne : st.flat n ≠ []) :
    Proceeds s1 st.nf n st.stack (st.flat n) := by
  have i := hr.good.inv
  obtain ⟨hu, k⟩ := step_kind h
  cases k with
  | misc hm => cases hm
  | null _ _ ho => rcases ho with ho | ho <;> cases ho
  | notify0 _ _ ho => exact absurd (by simp [St.flat, ho]) hne
  | notify _ r l hc ho =>
    have hsl := i.obs_ne (n := n) (r := r) (by rw [ho]; simp)
    cases hs : st.slots r with
    | nil => exact absurd hs hsl
    | cons c s =>
      have : st.flat n = c :: (s ++ l.flatMap st.slots) := by simp [St.flat, ho, hs]
      rw [this]
      exact enter_proceeds (st := { (st.say (.notify st.nf n)).say (.turn st.nf r) with
        stack := .node st.nf n r :: st.stack, nf := st.nf + 1, ctrl := .enter r }) hu rfl rfl
        (by show (st.slots r).head? = _; rw [hs]; rfl)

/-- C114: a notification of a source without callbacks does nothing. -/
theorem C114_none {st s1 : St} (hr : Reach st) {n : Nat} (h : step st (.notify n) = some s1) (he : st.flat n = []) :
    s1 = { st with log := st.log ++ [.notify st.nf n, .done st.nf], nf := st.nf + 1 } := by
  have i := hr.good.inv
  obtain ⟨hu, k⟩ := step_kind h
  cases k with
  | misc hm => cases hm
  | null _ _ ho => rcases ho with ho | ho <;> cases ho
  | notify0 _ _ ho => simp [St.say]
  | notify _ r l hc ho =>
    have hsl := i.obs_ne (n := n) (r := r) (by rw [ho]; simp)
    simp [St.flat, ho, hsl] at he

/-- C114: when a callback returns, the notification goes on with the callback that comes next in the list as it is at that
time, whatever has been attached and detached meanwhile, and ends if there is none. -/
theorem C114_next {st s1 : St} (hr : Reach st) {f n r c : Nat} {fs : List Frame}
    (hs : st.stack = .slot f n r c false :: fs) (h : step st .ret = some s1) {A B : List Nat}
    (hAB : st.flat n = A ++ c :: B) : ∃ fs', fs = .node f n r :: fs' ∧ Proceeds s1 f n fs' B := by
  have i := hr.good.inv
  obtain ⟨hu, k⟩ := step_kind h
  have hs1 : s1 = { st with ctrl := .back } ∧ st.ctrl = .user := by
    cases k with
    | misc hm => cases hm
    | null _ _ ho => rcases ho with ho | ho <;> cases ho
    | retSlot _ _ _ _ _ _ hc => exact ⟨rfl, hc⟩
    | retBind _ _ _ _ h' => rw [hs] at h'; cases h'
    | retDead _ _ _ _ h' => rw [hs] at h'; cases h'
  obtain ⟨rfl, hc⟩ := hs1
  have hsh := hr.good.shape
  rw [hc, hs] at hsh
  have hr1 := hr.step _ h
  obtain ⟨fs', rfl⟩ : ∃ fs', fs = .node f n r :: fs' := by
    cases hsh with
    | node => exact ⟨_, rfl⟩
  refine ⟨fs', rfl, ?_⟩
  have hcmem : c ∈ st.flat n := by rw [hAB]; simp
  obtain ⟨q, hq1, hq2⟩ := mem_flat.1 hcmem
  have hqr := (hr.owned f n r c false (by rw [hs]; simp)).2.1 q hq2
  subst hqr
  have hl := (i.link q n).2 hq1
  have hA : c ∉ A := by
    intro hm
    have := flat_nodup i n
    rw [hAB, List.nodup_append] at this
    exact this.2.2 c hm c (by simp) rfl
  have hnext := next_flat (s := st.slots) (l := st.obs n) (fun x hx => i.obs_ne hx)
    (fun x hx => i.owner _ _ _ hx hq2) hq1 hq2
  change next c (st.flat n) = _ at hnext
  rw [hAB, next_split hA] at hnext
  have h1 := lib_step hu (st := { st with ctrl := .back }) (by simp)
  cases hn : next c (st.slots q) with
  | some c' =>
    rw [hn] at hnext
    obtain ⟨B', rfl⟩ : ∃ B', B = c' :: B' := by
      cases B with
      | nil => cases hnext
      | cons x B => cases hnext; exact ⟨B, rfl⟩
    refine ⟨{ st.say (.called f n q c' (st.val n)) with stack := .slot f n q c' false :: .node f n q :: fs', ctrl := .user },
      .one ?_, rfl, hu, rfl, rfl, q, next_mem hn, rfl, [], by simp, by simp [St.say]⟩
    rw [h1]
    simp [St.lib, hs, hq2, hn, St.say]
  | none =>
    rw [hn] at hnext
    have h2 : step { st with ctrl := .back } .lib = some { st with ctrl := .back, stack := .node f n q :: fs' } := by
      rw [h1]
      simp [St.lib, hs, hq2, hn]
    obtain ⟨st', l1, l2⟩ := node_proceeds (hr1.step _ h2) (st := { st with ctrl := .back, stack := .node f n q :: fs' })
      (B := B) hu rfl rfl hl hnext
    exact ⟨st', .cons h2 l1, l2⟩

/-- C114: attaching a callback inserts it into the list of the source: behind those of its reader, or at the end if it is
the first of its reader.  (A reader without a source keeps it for later, see C18.) -/
theorem C114_attach {st s1 : St} (hr : Reach st) {r : Nat} (h : step st (.watch r) = some s1) :
    (s1.flat = st.flat ∧ st.node r = none) ∨
    ∃ n A B, st.flat n = A ++ B ∧ s1.flat n = A ++ st.nc :: B ∧ (∀ m, m ≠ n → s1.flat m = st.flat m) ∧
      (∀ m, st.node r = some m → m = n) ∧
      ((st.slots r = [] ∧ B = []) ∨ ∃ A', A = A' ++ st.slots r ∧ st.slots r ≠ []) := by
  have i := hr.good.inv
  obtain ⟨hu, _⟩ := user_of (op := .watch r) rfl h
  simp only [St.user] at hu
  split at hu
  · cases hu
    obtain ⟨-, -, -, -, e5, -⟩ := watch_eq i (r := r) (c := st.nc)
    have hf : ∀ m, ({ st.watch r st.nc with nc := st.nc + 1 } : St).flat m = (st.watch r st.nc).flat m := fun _ => rfl
    rcases watch_flat i r st.nc with ⟨h1, h2, h3⟩ | ⟨n, A, B, h1, h2, h3, h4, h5⟩
    · left
      refine ⟨funext fun m => by rw [hf, h1], ?_⟩
      by_cases hs : st.slots r = []
      · exact h3 hs
      · cases hn : st.node r with
        | none => rfl
        | some n => rw [i.watched r n hn hs] at h2; cases h2
    · right
      refine ⟨n, A, B, h1, h2, h3, ?_, h5⟩
      intro m hm
      have := (hr.step _ h).good.inv.node r n m h4 (by show (st.watch r st.nc).node r = _; rw [e5]; exact hm)
      exact this
  · cases hu

/-- C114: so does `bind`, once the callback has returned. -/
theorem C114_bind {st s1 : St} (hr : Reach st) {r c : Nat} {fs : List Frame} (hs : st.stack = .bind r c :: fs)
    (h : step st .ret = some s1) (hu : s1.ub = false) : s1.flat = st.flat ∨
    ∃ n A B, st.flat n = A ++ B ∧ s1.flat n = A ++ c :: B ∧ (∀ m, m ≠ n → s1.flat m = st.flat m) ∧
      ((st.slots r = [] ∧ B = []) ∨ ∃ A', A = A' ++ st.slots r ∧ st.slots r ≠ []) := by
  obtain ⟨-, k⟩ := step_kind h
  cases k with
  | misc hm => cases hm
  | null _ _ ho => rcases ho with ho | ho <;> cases ho
  | retSlot _ _ _ _ _ _ _ h' => rw [hs] at h'; cases h'
  | retDead => cases hu
  | retBind r' c' fs' _ h' =>
    rw [hs] at h'
    cases h'
    have hi : Inv ({ st with stack := fs } : St) := hr.good.inv.same ⟨rfl, rfl, rfl, rfl, rfl, rfl⟩ (Nat.le_refl _)
    rcases watch_flat hi r c with ⟨h1, -, -⟩ | ⟨n, A, B, h1, h2, h3, -, h5⟩
    · exact .inl h1
    · exact .inr ⟨n, A, B, h1, h2, h3, h5⟩

/-- C114: `unbind` and the destruction of a reader take its callbacks out of the list. -/
theorem C114_detach {st s1 : St} (hr : Reach st) {op : Op} {r : Nat} (ho : op = .unbind r ∨ op = .destroy r)
    (h : step st op = some s1) (n : Nat) : s1.flat n = (st.flat n).filter fun c => c ∉ st.slots r := by
  have i := hr.good.inv
  have hm : op.misc = true := by rcases ho with rfl | rfl <;> rfl
  obtain ⟨hu, _⟩ := user_of hm h
  rcases ho with rfl | rfl <;> simp only [St.user] at hu <;> split at hu <;> cases hu
  · exact drop_flat (s := { st with slots := upd st.slots r [] }) i r rfl rfl rfl n
  · exact drop_flat (s := { st with slots := upd st.slots r [], node := upd st.node r none }) i r rfl rfl rfl n

/-- C114: assigning to a reader takes its callbacks out of the list of the old source and puts them, in order, at the end
of that of the new one. -/
theorem C114_assign {st s1 : St} (hr : Reach st) {op : Op} {r r2 : Nat}
    (ho : op = .assign r r2 ∨ op = .moveAssign r r2) (h : step st op = some s1) (n : Nat) :
    s1.flat n = ((st.flat n).filter fun c => c ∉ st.slots r) ++ if st.node r2 = some n then st.slots r else [] := by
  have i := hr.good.inv
  have e := assign_effect hr.good ho h
  have hobs : s1.obs n = if st.slots r ≠ [] ∧ st.node r2 = some n then (st.obs n).erase r ++ [r]
      else (st.obs n).erase r := by
    have hm : op.misc = true := by rcases ho with rfl | rfl <;> rfl
    obtain ⟨hu, _⟩ := user_of hm h
    obtain ⟨-, -, -, -, -, -, u7, u8, -⟩ := unlink_stack st r
    obtain ⟨ul, uo, -⟩ := unlink_linked i.link i.nodup r
    have hl : (st.unlink r).linked r = none := by rw [ul]; simp
    rcases ho with rfl | rfl <;> simp only [St.user] at hu <;> split at hu
    · cases hu
      rw [relink_at (t := { st.unlink r with node := upd (st.unlink r).node r ((st.unlink r).node r2) }) hl]
      simp [u7, u8, uo]
    · cases hu
    · cases hu
      rw [relink_at (t := { st.unlink r with node := (if r = r2 then (st.unlink r).node
        else upd (upd (st.unlink r).node r ((st.unlink r).node r2)) r2 none) }) hl]
      have hn : (if r = r2 then (st.unlink r).node
          else upd (upd (st.unlink r).node r ((st.unlink r).node r2)) r2 none) r = st.node r2 := by
        by_cases hr : r = r2
        · subst hr; simp [u8]
        · simp [hr, u8]
      simp only [hn, u7, uo]
    · cases hu
  unfold St.flat
  rw [hobs, e.2.2.1]
  have hf := flat_filter i n r
  unfold St.flat at hf
  by_cases hs : st.slots r = []
  · rw [if_neg (fun h => h.1 hs), hf]
    simp [hs]
  · by_cases hn : st.node r2 = some n
    · rw [if_pos ⟨hs, hn⟩, List.flatMap_append, hf, if_pos hn]
      simp
    · rw [if_neg (fun h => hn h.2), hf, if_neg hn]
      simp

/-- C114: nothing else changes the lists. -/
theorem C114_others {st s1 : St} (hr : Reach st) {op : Op} (h : step st op = some s1)
    (ho : ∀ r, op ≠ .watch r ∧ op ≠ .unbind r ∧ op ≠ .destroy r) (ha : ∀ r r2, op ≠ .assign r r2 ∧ op ≠ .moveAssign r r2)
    (hb : op = .ret → ∀ r c fs, st.stack ≠ .bind r c :: fs) : s1.flat = st.flat := by
  have i := hr.good.inv
  have hnr : st.slots st.nr = [] := by
    refine (i.dead _ ?_).1
    cases h : st.alive st.nr
    · rfl
    · exact absurd (i.old _ h) (Nat.lt_irrefl _)
  have hnew : ∀ n, (st.new n).flat = st.flat := by
    intro n
    funext m
    show (st.obs m).flatMap (upd st.slots st.nr []) = _
    exact flatMap_upd_not fun h => i.obs_ne h hnr
  obtain ⟨-, k⟩ := step_kind h
  cases k with
  | misc hm _ hu =>
    cases op <;> simp only [Op.misc, reduceCtorEq] at hm
    case mk n => simp only [St.user] at hu; cases hu; exact hnew _
    case copy r => simp only [St.user] at hu; split at hu <;> cases hu; exact hnew _
    case move r => simp only [St.user] at hu; split at hu <;> cases hu; exact hnew (st.node r)
    case assign r r2 => exact absurd rfl (ha r r2).1
    case moveAssign r r2 => exact absurd rfl (ha r r2).2
    case destroy r => exact absurd rfl (ho r).2.2
    case unbind r => exact absurd rfl (ho r).2.1
    case watch r => exact absurd rfl (ho r).1
    case get r =>
      simp only [St.user] at hu
      split at hu
      · split at hu <;> cases hu <;> rfl
      · cases hu
    case set r v =>
      simp only [St.user] at hu
      split at hu
      · split at hu <;> cases hu <;> rfl
      · cases hu
    case change n v => simp only [St.user] at hu; cases hu; rfl
  | retBind r c fs _ hs => exact absurd hs (hb rfl r c fs)
  | _ => rfl

/-! ### Examples -/

/-- Callbacks 0 and 3 are attached to reader 1, callbacks 1 and 2 to reader 0, in this order. -/
example : (after exOrder).flat 1 = [0, 3, 1, 2] := by decide +kernel

example : Reach (after (exOrder ++ [.notify 1, .lib, .watch 1, .watch 2])) ∧
    (after (exOrder ++ [.notify 1, .lib, .watch 1, .watch 2])).stack = [.slot 0 1 1 0 false, .node 0 1 1] ∧
    (after (exOrder ++ [.notify 1, .lib, .watch 1, .watch 2])).flat 1 = [] ++ 0 :: [3, 4, 1, 2, 5] ∧
    (step (after (exOrder ++ [.notify 1, .lib, .watch 1, .watch 2])) .ret).isSome = true :=
  ⟨reach_after (by decide +kernel), by decide +kernel, by decide +kernel, by decide +kernel⟩

/-- Assigning reader 2 to reader 1 moves its callbacks to the end. -/
example : (after (exOrder ++ [.assign 1 2])).flat 1 = [1, 2, 0, 3] ∧ (after (exOrder ++ [.unbind 1])).flat 1 = [1, 2] ∧
    (after (exOrder ++ [.watch 2])).flat 1 = [0, 3, 1, 2, 4] := by
  decide +kernel

example : (after (exOrder ++ [.bind 1])).stack = [.bind 1 4] ∧
    (after (exOrder ++ [.bind 1, .ret])).flat 1 = [0, 3, 4, 1, 2] := by
  decide +kernel

/-- C114: this is what the model of the graph says about its one list of callbacks for each node: the loop goes on behind
the callback that has returned. -/
theorem C114_graph {st : St} (hr : Reach st) {n c : Nat} {A B : List Nat} (h : st.flat n = A ++ c :: B) :
    Graph.remaining (some c) (st.flat n) = some B ∧ Graph.remaining none (st.flat n) = some (st.flat n) ∧
    (∀ x, Graph.remaining (some x) (st.flat n) = none ↔ x ∉ st.flat n) := by
  have hnd := flat_nodup hr.good.inv n
  rw [h, List.nodup_append] at hnd
  have hA : c ∉ A := fun hm => hnd.2.2 c hm c (by simp) rfl
  refine ⟨?_, rfl, fun x => ?_⟩
  · rw [h]
    clear h hnd
    induction A with
    | nil => simp [Graph.remaining, Graph.after]
    | cons a A ih =>
      simp only [List.mem_cons, not_or] at hA
      simp only [Graph.remaining, List.cons_append, Graph.after] at ih ⊢
      rw [if_neg (fun e => hA.1 e.symm), ih hA.2]
  · generalize st.flat n = l
    simp only [Graph.remaining]
    induction l with
    | nil => simp [Graph.after]
    | cons y l ih =>
      simp only [Graph.after, List.mem_cons, not_or]
      split
      · rename_i e; subst e; simp
      · rename_i e; rw [ih]
        exact ⟨fun h => ⟨fun e' => e e'.symm, h⟩, fun h => h.2⟩

end Verif.Watch
