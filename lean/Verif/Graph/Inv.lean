import Verif.Graph.Heap

/-
The invariant of the machine, and its preservation by every step of library and user code.
-/

set_option linter.unusedSectionVars false

namespace Verif.Graph

variable {V S : Type} [DecidableEq V]

/-! ### Stacks -/

/-- The nodes that a frame is still going to notify. -/
def pend (g : Graph V S) : Frame V → Nat → Prop
  | .notify n, m => m = n
  | .obs n _ _, m => m ∈ (g.node n).children
  | .kids n i size _ _, m => m ∈ ((g.node n).children.take size).drop i
  | .roots rs, m => m ∈ rs
  | _, _ => False

/-- Frames other than the two loops of `notify`. -/
def Frame.light : Frame V → Bool
  | .obs _ _ _ => false
  | .kids _ _ _ _ _ => false
  | _ => true

/-- The saved flags of the guards agree with the stack. -/
def Guards : List (Frame V) → Prop
  | [] => True
  | .obs n _ prev :: st => prev = active n st ∧ Guards st
  | .kids n _ _ prev _ :: st => prev = active n st ∧ Guards st
  | _ :: st => Guards st

theorem guards_light {f : Frame V} (h : f.light = true) (st : List (Frame V)) :
    Guards (f :: st) ↔ Guards st := by
  cases f <;> simp_all [Frame.light, Guards]

theorem guards_append {fs : List (Frame V)} (h : ∀ f ∈ fs, f.light = true) (st : List (Frame V)) :
    Guards (fs ++ st) ↔ Guards st := by
  induction fs with
  | nil => rfl
  | cons f fs ih =>
    rw [List.cons_append, guards_light (h f (List.mem_cons_self ..)),
      ih fun f hf => h f (List.mem_cons_of_mem _ hf)]

theorem inNotify_light {f : Frame V} (h : f.light = true) (n : Nat) : f.inNotify n = false := by
  cases f <;> simp_all [Frame.light, Frame.inNotify]

theorem active_append {fs : List (Frame V)} (h : ∀ f ∈ fs, f.light = true) (st : List (Frame V))
    (n : Nat) : active n (fs ++ st) = active n st := by
  unfold active
  rw [List.any_append]
  have : fs.any (Frame.inNotify n) = false := by
    rw [List.any_eq_false]
    intro f hf
    simp [inNotify_light (h f hf)]
  rw [this, Bool.false_or]

/-- The stack part of the invariant. -/
structure StackOK (g : Graph V S) (st : List (Frame V)) : Prop where
  holds : ∀ f ∈ st, ∀ n ∈ f.holds, (g.node n).alive = true
  kids : ∀ n i size prev garbage, Frame.kids n i size prev garbage ∈ st →
    i ≤ size ∧ size ≤ (g.node n).children.length
  guards : Guards st
  notifying : ∀ n, (g.node n).notifying = active n st
  setters : ∀ n v, Frame.setterRest n v ∈ st → ∃ a, (g.node n).kind = .setter a
  base : st.getLast? = some .user

/-- The part about callbacks. -/
structure ObsOK (m : M V S) : Prop where
  nodup : ∀ n, (m.g.node n).obs.Nodup
  lt : ∀ n w, w ∈ (m.g.node n).obs → w < m.nextW
  uniq : ∀ n n' w, w ∈ (m.g.node n).obs → w ∈ (m.g.node n').obs → n = n'
  seen : ∀ n w, w ∈ (m.g.node n).obs →
    m.seen w = some (m.g.node n).last ∨ (m.g.node n).needsNotify = true ∨
    ∃ cur prev, Frame.obs n cur prev ∈ m.stack ∧ (∀ c, cur = some c → c < m.nextW) ∧
      ∀ rest, remaining cur (m.g.node n).obs = some rest → w ∈ rest

/-- The nodes that are going to be notified. -/
def pending (g : Graph V S) (st : List (Frame V)) (n : Nat) : Prop := ∃ f ∈ st, pend g f n

/-- The invariant. -/
structure Inv (m : M V S) : Prop where
  wf : WF m.g
  fresh : Fresh m.g
  just : Justified [] m.g
  cov : Covered (pending m.g m.stack) m.g
  stack : StackOK m.g m.stack
  obs : ObsOK m

theorem pend_same {g g' : Graph V S} (h : ∀ n, (g'.node n).children = (g.node n).children)
    (f : Frame V) (n : Nat) : pend g' f n ↔ pend g f n := by
  cases f <;> simp [pend, h]

theorem pending_same {g g' : Graph V S} (h : ∀ n, (g'.node n).children = (g.node n).children)
    (st : List (Frame V)) (n : Nat) : pending g' st n ↔ pending g st n := by
  unfold pending
  constructor <;> rintro ⟨f, hf, hp⟩
  · exact ⟨f, hf, (pend_same h f n).1 hp⟩
  · exact ⟨f, hf, (pend_same h f n).2 hp⟩

theorem Covered.mono {N N' : Nat → Prop} {g : Graph V S} (h : Covered N g)
    (hn : ∀ n, N n → N' n) : Covered N' g := by
  intro m ha hm
  rcases h m ha hm with h1 | h1
  · exact .inl (hn m h1)
  · exact .inr h1

theorem base_tail {f0 : Frame V} {st : List (Frame V)} (h : (f0 :: st).getLast? = some .user)
    (hf : f0 ≠ .user) (fs : List (Frame V)) : (fs ++ st).getLast? = some .user := by
  cases st with
  | nil => simp at h; exact absurd h hf
  | cons f st =>
    rw [List.getLast?_append]
    rw [List.getLast?_cons_cons] at h
    rw [h]; rfl

/-- Replacing a light top frame by light frames, in a heap with the same shape. -/
theorem Inv.light {m m' : M V S} (h : Inv m) {f0 : Frame V} {st fs : List (Frame V)}
    (hst : m.stack = f0 :: st) (hl0 : f0.light = true) (hst' : m'.stack = fs ++ st)
    (hfs : ∀ f ∈ fs, f.light = true ∧ (∀ n ∈ f.holds, (m.g.node n).alive = true) ∧
      ∀ n v, f = .setterRest n v → ∃ a, (m.g.node n).kind = .setter a)
    (hb : (fs ++ st).getLast? = some .user)
    (hs : Same m.g m'.g) (hf : Fresh m'.g) (hj : Justified [] m'.g)
    (hc : Covered (pending m'.g m'.stack) m'.g)
    (hlast : ∀ n, ((m'.g.node n).last = (m.g.node n).last ∧
      ((m.g.node n).needsNotify = true → (m'.g.node n).needsNotify = true)) ∨
      (m'.g.node n).needsNotify = true)
    (hw : m'.nextW = m.nextW) (hseen : m'.seen = m.seen) : Inv m' := by
  have hll : ∀ f ∈ fs, f.light = true := fun f hf => (hfs f hf).1
  refine ⟨hs.wf h.wf, hf, hj, hc, ?_, ?_⟩
  · have ho := h.stack
    rw [hst] at ho
    rw [hst']
    refine ⟨?_, ?_, ?_, ?_, ?_, hb⟩
    · intro f hf n hn
      rw [hs.alive]
      rcases List.mem_append.1 hf with h1 | h1
      · exact (hfs f h1).2.1 n hn
      · exact ho.holds f (List.mem_cons_of_mem _ h1) n hn
    · intro n i size prev garbage hm
      rw [hs.children]
      rcases List.mem_append.1 hm with h1 | h1
      · have := hll _ h1; simp [Frame.light] at this
      · exact ho.kids n i size prev garbage (List.mem_cons_of_mem _ h1)
    · rw [guards_append hll]
      exact (guards_light hl0 st).1 ho.guards
    · intro n
      rw [hs.notifying, active_append hll, ho.notifying]
      show active n ([f0] ++ st) = active n st
      exact active_append (by simpa using hl0) st n
    · intro n v hm
      rw [hs.kind]
      rcases List.mem_append.1 hm with h1 | h1
      · exact (hfs _ h1).2.2 n v rfl
      · exact ho.setters n v (List.mem_cons_of_mem _ h1)
  · refine ⟨?_, ?_, ?_, ?_⟩
    · intro n; rw [hs.obs]; exact h.obs.nodup n
    · intro n w hwm; rw [hs.obs] at hwm; rw [hw]; exact h.obs.lt n w hwm
    · intro n n' w h1 h2; rw [hs.obs] at h1 h2; exact h.obs.uniq n n' w h1 h2
    · intro n w hwm
      rw [hs.obs] at hwm ⊢
      rw [hseen]
      rcases hlast n with ⟨hl, hn⟩ | hn
      · rcases h.obs.seen n w hwm with h1 | h1 | ⟨cur, prev, h1, h2⟩
        · left; rw [hl]; exact h1
        · exact .inr (.inl (hn h1))
        · refine .inr (.inr ⟨cur, prev, ?_, by rw [hw]; exact h2⟩)
          rw [hst] at h1
          rw [hst']
          rcases List.mem_cons.1 h1 with h3 | h3
          · subst h3; simp [Frame.light] at hl0
          · exact List.mem_append.2 (.inr h3)
      · exact .inr (.inl hn)

/-! ### Library steps -/

theorem pend_light_none {g : Graph V S} {f : Frame V} {n : Nat} (h : pend g f n) :
    f ≠ .user ∧ (∀ k v, f ≠ .up k v) ∧ (∀ l, f ≠ .ups l) ∧ (∀ k v, f ≠ .setterRest k v) := by
  cases f <;> simp_all [pend]

/-- Nothing pending is lost when a frame with nothing pending is replaced. -/
theorem Covered.replace {g g' : Graph V S} {f0 : Frame V} {st fs : List (Frame V)}
    (hs : ∀ n, (g'.node n).children = (g.node n).children) {N : Nat → Prop}
    (hc : Covered (fun n => N n ∨ pending g (f0 :: st) n) g')
    (h0 : ∀ n, pend g f0 n → pending g fs n) (hN : ∀ n, N n → pending g (fs ++ st) n) :
    Covered (pending g' (fs ++ st)) g' := by
  apply hc.mono
  intro n hn
  rw [pending_same hs]
  rcases hn with hn | ⟨f, hf, hp⟩
  · exact hN n hn
  · rcases List.mem_cons.1 hf with h1 | h1
    · subst h1
      obtain ⟨f', hf', hp'⟩ := h0 n hp
      exact ⟨f', List.mem_append.2 (.inl hf'), hp'⟩
    · exact ⟨f, List.mem_append.2 (.inr h1), hp⟩

theorem Covered.weaken {N N' : Nat → Prop} {g : Graph V S} (h : Covered N g) :
    Covered (fun n => N' n ∨ N n) g := h.mono fun _ => .inr

theorem sendDown_covered {g : Graph V S} (w : WF g) {N : Nat → Prop} (n : Nat)
    (h : Covered N g) : Covered (fun m => m = n ∨ N m) (g.sendDown n) :=
  sendDownN_covered g.size g n N w h

theorem sendDown_moves (g : Graph V S) (n : Nat) : Moves g (g.sendDown n) :=
  sendDownN_moves g.size g n

theorem Touch.last_all {n : Nat} {g g' : Graph V S} (h : Touch n g g') (m : Nat) :
    (g'.node m).last = (g.node m).last ∧ (g'.node m).needsNotify = (g.node m).needsNotify := by
  by_cases hm : m = n
  · subst hm; exact ⟨h.last, h.needsNotify⟩
  · rw [h.other m hm]; exact ⟨rfl, rfl⟩

/-- Writing a value to a source. -/
theorem pushDown_inv {m : M V S} (h : Inv m) {n : Nat} (v : V)
    (hk : ∀ view put r, (m.g.node n).kind ≠ .calc view put r)
    (hx : ∀ down up, (m.g.node n).kind ≠ .xform down up) :
    Same m.g (m.g.pushDown n v) ∧ WF (m.g.pushDown n v) ∧ Fresh (m.g.pushDown n v) ∧
    Justified [] (m.g.pushDown n v) ∧ Covered (pending m.g m.stack) (m.g.pushDown n v) :=
  have ht := pushDown_touch m.g n v
  ⟨ht.same, ht.same.wf h.wf, ht.fresh h.fresh, pushDown_justified n v hk hx h.just, ht.covered h.cov⟩

/-- The changes of a heap that propagate: everything the invariant says about heaps is kept. -/
structure Prop' (N : Nat → Prop) (g g' : Graph V S) : Prop where
  same : Same g g'
  fresh : Fresh g'
  just : Justified [] g'
  cov : Covered N g'
  last : ∀ n, ((g'.node n).last = (g.node n).last ∧
    ((g.node n).needsNotify = true → (g'.node n).needsNotify = true)) ∨
    (g'.node n).needsNotify = true

theorem Prop'.refl {N : Nat → Prop} {g : Graph V S} (hf : Fresh g) (hj : Justified [] g)
    (hc : Covered N g) : Prop' N g g :=
  ⟨.refl g, hf, hj, hc, fun _ => .inl ⟨rfl, id⟩⟩

theorem Prop'.touch {N : Nat → Prop} {g g' g'' : Graph V S} (h : Prop' N g g') {n : Nat}
    (ht : Touch n g' g'') (hj : Justified [] g'') : Prop' N g g'' := by
  refine ⟨h.same.trans ht.same, ht.fresh h.fresh, hj, ht.covered h.cov, fun m => ?_⟩
  have := ht.last_all m
  rw [this.1, this.2]
  exact h.last m

theorem Prop'.recomputes {N : Nat → Prop} {g g' g'' : Graph V S} (w : WF g) (h : Prop' N g g')
    (ht : Recomputes g' g'') : Prop' N g g'' := by
  refine ⟨h.same.trans ht.same, ht.fresh h.fresh, ht.justified (h.same.wf w) h.just,
    ht.covered h.cov, fun m => ?_⟩
  have := ht.last m
  rw [this.1, this.2]
  exact h.last m

theorem Prop'.sendDown {N : Nat → Prop} {g g' : Graph V S} (w : WF g) (h : Prop' N g g') {n : Nat}
    (hn : n < g.size) : Prop' (fun m => m = n ∨ N m) g (g'.sendDown n) := by
  have hm := sendDown_moves g' n
  refine ⟨h.same.trans hm.same, hm.fresh h.fresh,
    sendDown_justified (h.same.wf w) h.fresh (by rw [h.same.size]; exact hn) h.just,
    sendDown_covered (h.same.wf w) n h.cov, fun k => ?_⟩
  rcases hm.last k with h1 | h1
  · rw [h1]
    rcases h.last k with ⟨h2, h3⟩ | h2
    · exact .inl ⟨h2, fun hh => hm.needsNotify (h3 hh)⟩
    · exact .inr (hm.needsNotify h2)
  · exact .inr h1

theorem Prop'.mono {N N' : Nat → Prop} {g g' : Graph V S} (h : Prop' N g g')
    (hn : ∀ n, N n → N' n) : Prop' N' g g' :=
  ⟨h.same, h.fresh, h.just, h.cov.mono hn, h.last⟩

theorem Prop'.sendAll {g g' : Graph V S} (w : WF g) (rs : List Nat) {N : Nat → Prop}
    (h : Prop' N g g') (hr : ∀ r ∈ rs, r < g.size) :
    Prop' (fun m => m ∈ rs ∨ N m) g (rs.foldl (fun g r => g.sendDown r) g') := by
  induction rs generalizing g' N with
  | nil => exact h.mono fun _ hn => .inr hn
  | cons r rs ih =>
    have h1 := h.sendDown w (hr r (List.mem_cons_self ..))
    refine (ih h1 fun r' hr' => hr r' (List.mem_cons_of_mem _ hr')).mono ?_
    rintro m (hm | hm | hm)
    · exact .inl (List.mem_cons_of_mem _ hm)
    · exact .inl (by rw [hm]; exact List.mem_cons_self ..)
    · exact .inr hm

/-- Replacing a light top frame while the heap changes by propagation. -/
theorem Inv.lightProp {m m' : M V S} (h : Inv m) {f0 : Frame V} {st fs : List (Frame V)}
    (hst : m.stack = f0 :: st) (hl0 : f0.light = true) (hst' : m'.stack = fs ++ st)
    (hfs : ∀ f ∈ fs, f.light = true ∧ (∀ n ∈ f.holds, (m.g.node n).alive = true) ∧
      ∀ n v, f = .setterRest n v → ∃ a, (m.g.node n).kind = .setter a)
    (hb : (fs ++ st).getLast? = some .user) {N : Nat → Prop}
    (hp : Prop' (fun n => N n ∨ pending m.g (f0 :: st) n) m.g m'.g)
    (h0 : ∀ n, pend m.g f0 n → pending m.g fs n) (hN : ∀ n, N n → pending m.g (fs ++ st) n)
    (hw : m'.nextW = m.nextW) (hseen : m'.seen = m.seen) : Inv m' := by
  refine h.light hst hl0 hst' hfs hb hp.same hp.fresh hp.just ?_ hp.last hw hseen
  rw [hst']
  exact Covered.replace (fun n => hp.same.children n) hp.cov h0 hN

theorem Inv.prop0 {m : M V S} (h : Inv m) {N : Nat → Prop} :
    Prop' (fun n => N n ∨ pending m.g m.stack n) m.g m.g :=
  Prop'.refl h.fresh h.just h.cov.weaken

theorem after_mem {w : Nat} {l rest : List Nat} (h : after w l = some rest) {x : Nat}
    (hx : x ∈ rest) : x ∈ l := by
  induction l with
  | nil => cases h
  | cons y l ih =>
    simp only [after] at h
    split at h
    · cases h; exact List.mem_cons_of_mem _ hx
    · exact List.mem_cons_of_mem _ (ih h)

theorem remaining_mem {cur : Option Nat} {l rest : List Nat} (h : remaining cur l = some rest)
    {x : Nat} (hx : x ∈ rest) : x ∈ l := by
  cases cur with
  | none => cases h; exact hx
  | some w => exact after_mem h hx

/-- After calling the first of the remaining callbacks, the others remain. -/
theorem after_step {w x : Nat} {l rest : List Nat} (hn : l.Nodup)
    (h : after w l = some (x :: rest)) : after x l = some rest := by
  induction l with
  | nil => cases h
  | cons y l ih =>
    have hn' := List.nodup_cons.1 hn
    simp only [after] at h ⊢
    split at h
    · cases h
      have hne : y ≠ x := fun e => hn'.1 (by rw [e]; exact List.mem_cons_self ..)
      rw [if_neg hne]
      simp [after]
    · have hne : y ≠ x := fun e => hn'.1 (by rw [e]; exact after_mem h (List.mem_cons_self ..))
      rw [if_neg hne]
      exact ih hn'.2 h

theorem remaining_step {cur : Option Nat} {x : Nat} {l rest : List Nat} (hn : l.Nodup)
    (h : remaining cur l = some (x :: rest)) : remaining (some x) l = some rest := by
  cases cur with
  | none => cases h; simp [remaining, after]
  | some w => exact after_step hn h

theorem drop_take_step {l : List Nat} {i size : Nat} {c : Nat} (hi : i < size)
    (hc : l[i]? = some c) : (l.take size).drop i = c :: (l.take size).drop (i + 1) := by
  have hlt : i < (l.take size).length := by
    have := (List.getElem?_eq_some_iff.1 hc).1
    simp; omega
  rw [List.drop_eq_getElem_cons hlt]
  congr 1
  have := (List.getElem?_eq_some_iff.1 hc).2
  simpa using this

/-- The graph changes made by `notify` touch neither values nor pending writes. -/
structure Quiet (g g' : Graph V S) : Prop where
  size : g'.size = g.size
  kind : ∀ n, (g'.node n).kind = (g.node n).kind
  parents : ∀ n, (g'.node n).parents = (g.node n).parents
  alive : ∀ n, (g'.node n).alive = (g.node n).alive
  cmp : ∀ n, (g'.node n).cmp = (g.node n).cmp
  current : ∀ n, (g'.node n).current = (g.node n).current
  last : ∀ n, (g'.node n).last = (g.node n).last
  dirty : ∀ n, (g'.node n).dirty = (g.node n).dirty
  chg : ∀ n, (g'.node n).chg = (g.node n).chg
  input : ∀ n, (g'.node n).input = (g.node n).input

theorem Quiet.refl (g : Graph V S) : Quiet g g :=
  ⟨rfl, fun _ => rfl, fun _ => rfl, fun _ => rfl, fun _ => rfl, fun _ => rfl, fun _ => rfl,
    fun _ => rfl, fun _ => rfl, fun _ => rfl⟩

theorem Quiet.trans {a b c : Graph V S} (h : Quiet a b) (k : Quiet b c) : Quiet a c :=
  ⟨k.size.trans h.size, fun n => (k.kind n).trans (h.kind n),
    fun n => (k.parents n).trans (h.parents n), fun n => (k.alive n).trans (h.alive n),
    fun n => (k.cmp n).trans (h.cmp n), fun n => (k.current n).trans (h.current n),
    fun n => (k.last n).trans (h.last n), fun n => (k.dirty n).trans (h.dirty n),
    fun n => (k.chg n).trans (h.chg n), fun n => (k.input n).trans (h.input n)⟩

theorem quiet_mod {g : Graph V S} {n : Nat} {f : Node V S → Node V S}
    (h1 : (f (g.node n)).kind = (g.node n).kind)
    (h2 : (f (g.node n)).parents = (g.node n).parents)
    (h3 : (f (g.node n)).alive = (g.node n).alive)
    (h4 : (f (g.node n)).cmp = (g.node n).cmp)
    (h5 : (f (g.node n)).current = (g.node n).current)
    (h6 : (f (g.node n)).last = (g.node n).last)
    (h7 : (f (g.node n)).dirty = (g.node n).dirty)
    (h8 : (f (g.node n)).chg = (g.node n).chg)
    (h9 : (f (g.node n)).input = (g.node n).input) : Quiet g (g.mod n f) := by
  refine ⟨rfl, ?_, ?_, ?_, ?_, ?_, ?_, ?_, ?_, ?_⟩ <;>
  · intro m
    by_cases h : m = n
    · subst h; rw [Graph.mod_self]; assumption
    · rw [Graph.mod_ne _ _ h]

theorem Quiet.fresh {g g' : Graph V S} (h : Quiet g g') (hf : Fresh g) : Fresh g' := by
  intro n
  rw [h.dirty, h.cmp, h.chg, h.last, h.current]
  exact hf n

theorem Quiet.currents {g g' : Graph V S} (h : Quiet g g') (ps : List Nat) :
    g'.currents ps = g.currents ps := List.map_congr_left fun p _ => h.current p

theorem Quiet.settled {g g' : Graph V S} (h : Quiet g g') (n : Nat) : Settled g' n ↔ Settled g n := by
  unfold Settled
  rw [h.kind, h.parents, h.currents, h.current, h.input]

theorem Quiet.loose {g g' : Graph V S} (h : Quiet g g') (n : Nat) :
    (g'.node n).loose = (g.node n).loose := by
  unfold Node.loose
  rw [h.kind]

theorem Quiet.justified {g g' : Graph V S} (h : Quiet g g') {W : List Nat} (hj : Justified W g) :
    Justified W g' := by
  intro n ha hb
  rw [h.alive] at ha
  rw [h.chg, h.loose, h.settled] at hb
  rw [h.parents]
  rcases hj n ha hb with h1 | ⟨p, hp, hd⟩
  · exact .inl h1
  · exact .inr ⟨p, hp, by rw [h.chg]; exact hd⟩

theorem Quiet.wf {g g' : Graph V S} (h : Quiet g g') (w : WF g)
    (hc : ∀ n c, c ∈ (g'.node n).children → c ∈ (g.node n).children)
    (hl : ∀ n c, (g.node c).alive = true → c ∈ (g.node n).children → c ∈ (g'.node n).children) :
    WF g' := by
  constructor
  · intro n hn
    rw [h.size] at hn
    obtain ⟨h1, h2, h3⟩ := w.unused n hn
    rw [h.alive, h.parents]
    refine ⟨h1, ?_, h3⟩
    cases he : (g'.node n).children with
    | nil => rfl
    | cons c l =>
      have := hc n c (by rw [he]; exact List.mem_cons_self ..)
      rw [h2] at this; cases this
  · intro n p hp; rw [h.parents] at hp; exact w.lt n p hp
  · intro n ha p hp
    rw [h.alive] at ha ⊢
    rw [h.parents] at hp
    exact w.parentAlive n ha p hp
  · intro n ha p hp
    rw [h.alive] at ha
    rw [h.parents] at hp
    exact hl p n ha (w.linked n ha p hp)
  · intro p c hcm
    rw [h.parents, h.size]
    exact w.child p c (hc p c hcm)

theorem active_cons (f : Frame V) (st : List (Frame V)) (n : Nat) :
    active n (f :: st) = (f.inNotify n || active n st) := rfl

theorem no_frames_of_inactive {n : Nat} {st : List (Frame V)} (h : active n st = false)
    {f : Frame V} (hf : f ∈ st) : f.inNotify n = false := by
  unfold active at h
  rw [List.any_eq_false] at h
  simpa using h f hf

/-- One step of library code keeps the invariant. -/
theorem istep_inv {m m' : M V S} (h : Inv m) (he : istep m = some m') (hub : m'.ub = false) :
    Inv m' := by
  unfold istep at he
  split at he
  · cases he
  · have hbase := h.stack.base
    split at he
    · -- notify
      rename_i n st hst
      rw [hst] at hbase
      split at he
      · rename_i hcond
        have hcond' : (m.g.node n).needsNotify = true ∧ (m.g.node n).dirty = false := by
          simpa using hcond
        cases he
        have hq : Quiet m.g (m.g.mod n fun x => { x with needsNotify := false, notifying := true }) :=
          quiet_mod rfl rfl rfl rfl rfl rfl rfl rfl rfl
        have hch : ∀ k, ((m.g.mod n fun x =>
            { x with needsNotify := false, notifying := true }).node k).children =
            (m.g.node k).children := by
          intro k; rw [Graph.mod_node]; split <;> rfl
        have hob : ∀ k, ((m.g.mod n fun x =>
            { x with needsNotify := false, notifying := true }).node k).obs =
            (m.g.node k).obs := by
          intro k; rw [Graph.mod_node]; split <;> rfl
        have ho := h.stack
        rw [hst] at ho
        refine ⟨hq.wf h.wf (fun k c hc => by rw [hch] at hc; exact hc)
          (fun k c _ hc => by rw [hch]; exact hc), hq.fresh h.fresh, hq.justified h.just, ?_, ?_, ?_⟩
        · -- covered
          intro k ha hn
          simp only [Graph.mod_node] at hn
          by_cases hk : k = n
          · rw [if_pos hk] at hn; cases hn
          · rw [if_neg hk] at hn
            rw [hq.alive] at ha
            rw [hq.dirty, hq.parents]
            rcases h.cov k ha hn with ⟨f, hf, hp⟩ | h1 | ⟨p, hp, h1⟩
            · left
              rw [hst] at hf
              rcases List.mem_cons.1 hf with h2 | h2
              · subst h2; exact absurd hp hk
              · exact ⟨f, List.mem_cons_of_mem _ h2, (pend_same hch f k).2 hp⟩
            · exact .inr (.inl h1)
            · by_cases hpn : p = n
              · subst hpn
                left
                refine ⟨.obs p none (m.g.node p).notifying, List.mem_cons_self .., ?_⟩
                show k ∈ _
                rw [hch]
                exact h.wf.linked k ha p hp
              · refine .inr (.inr ⟨p, hp, ?_⟩)
                rw [Graph.mod_ne _ _ hpn]; exact h1
        · -- stack
          refine ⟨?_, ?_, ?_, ?_, ?_, base_tail hbase (by simp) [_]⟩
          · intro f hf k hk
            rw [hq.alive]
            rcases List.mem_cons.1 hf with h1 | h1
            · subst h1
              exact ho.holds (.notify n) (List.mem_cons_self ..) k hk
            · exact ho.holds f (List.mem_cons_of_mem _ h1) k hk
          · intro k i size prev garbage hm
            rw [hch]
            rcases List.mem_cons.1 hm with h1 | h1
            · cases h1
            · exact ho.kids k i size prev garbage (List.mem_cons_of_mem _ h1)
          · refine ⟨?_, ho.guards⟩
            rw [ho.notifying]; rfl
          · intro k
            simp only [Graph.mod_node, active_cons, Frame.inNotify]
            by_cases hk : k = n
            · simp [hk]
            · have : (n == k) = false := by simp [Ne.symm hk]
              rw [if_neg hk, ho.notifying, this]
              rfl
          · intro k v hm
            rw [hq.kind]
            rcases List.mem_cons.1 hm with h1 | h1
            · cases h1
            · exact ho.setters k v (List.mem_cons_of_mem _ h1)
        · refine ⟨?_, ?_, ?_, ?_⟩
          · intro k; rw [hob]; exact h.obs.nodup k
          · intro k w hw; rw [hob] at hw; exact h.obs.lt k w hw
          · intro k k' w h1 h2; rw [hob] at h1 h2; exact h.obs.uniq k k' w h1 h2
          · intro k w hw
            rw [hob] at hw ⊢
            rw [hq.last]
            by_cases hk : k = n
            · subst hk
              refine .inr (.inr ⟨none, (m.g.node k).notifying, List.mem_cons_self ..,
                (by simp), ?_⟩)
              intro rest hr
              cases hr; exact hw
            · rcases h.obs.seen k w hw with h1 | h1 | ⟨cur, prev, h1, h2⟩
              · exact .inl h1
              · refine .inr (.inl ?_); rw [Graph.mod_ne _ _ hk]; exact h1
              · refine .inr (.inr ⟨cur, prev, ?_, h2⟩)
                rw [hst] at h1
                rcases List.mem_cons.1 h1 with h3 | h3
                · cases h3
                · exact List.mem_cons_of_mem _ h3
      · rename_i hcond
        cases he
        -- nothing to notify
        refine ⟨h.wf, h.fresh, h.just, ?_, ?_, ?_⟩
        · intro k ha hn
          rcases h.cov k ha hn with ⟨f, hf, hp⟩ | h1
          · rw [hst] at hf
            rcases List.mem_cons.1 hf with h2 | h2
            · subst h2
              have hk : k = n := hp
              subst hk
              right; left
              cases hd : (m.g.node k).dirty with
              | true => rfl
              | false => rw [hn, hd] at hcond; simp at hcond
            · exact .inl ⟨f, h2, hp⟩
          · exact .inr h1
        · have ho := h.stack
          rw [hst] at ho
          exact ⟨fun f hf => ho.holds f (List.mem_cons_of_mem _ hf),
            fun k i size prev garbage hm => ho.kids k i size prev garbage (List.mem_cons_of_mem _ hm),
            ho.guards, ho.notifying, fun k v hm => ho.setters k v (List.mem_cons_of_mem _ hm),
            base_tail hbase (by simp) []⟩
        · refine ⟨h.obs.nodup, h.obs.lt, h.obs.uniq, ?_⟩
          intro k w hw
          rcases h.obs.seen k w hw with h1 | h1 | ⟨cur, prev, h1, h2⟩
          · exact .inl h1
          · exact .inr (.inl h1)
          · refine .inr (.inr ⟨cur, prev, ?_, h2⟩)
            rw [hst] at h1
            rcases List.mem_cons.1 h1 with h3 | h3
            · cases h3
            · exact h3
    · -- observers loop
      rename_i n cur prev st hst
      rw [hst] at hbase
      have ho := h.stack
      rw [hst] at ho
      split at he
      · cases he; simp at hub
      · rename_i hrem
        cases he
        refine ⟨h.wf, h.fresh, h.just, ?_, ?_, ?_⟩
        · apply h.cov.mono
          rintro k ⟨f, hf, hp⟩
          rw [hst] at hf
          rcases List.mem_cons.1 hf with h1 | h1
          · subst h1
            refine ⟨_, List.mem_cons_self .., ?_⟩
            have hp' : k ∈ (m.g.node n).children := hp
            show k ∈ _
            simpa using hp'
          · exact ⟨f, List.mem_cons_of_mem _ h1, hp⟩
        · refine ⟨?_, ?_, ?_, ?_, ?_, base_tail hbase (by simp) [_]⟩
          · intro f hf k hk
            rcases List.mem_cons.1 hf with h1 | h1
            · subst h1
              exact ho.holds (.obs n cur prev) (List.mem_cons_self ..) k hk
            · exact ho.holds f (List.mem_cons_of_mem _ h1) k hk
          · intro k i size prev' garbage hm
            rcases List.mem_cons.1 hm with h1 | h1
            · cases h1; exact ⟨Nat.zero_le _, Nat.le_refl _⟩
            · exact ho.kids k i size prev' garbage (List.mem_cons_of_mem _ h1)
          · exact ho.guards
          · exact ho.notifying
          · intro k v hm
            rcases List.mem_cons.1 hm with h1 | h1
            · cases h1
            · exact ho.setters k v (List.mem_cons_of_mem _ h1)
        · refine ⟨h.obs.nodup, h.obs.lt, h.obs.uniq, ?_⟩
          intro k w hw
          rcases h.obs.seen k w hw with h1 | h1 | ⟨cur', prev', h1, h2⟩
          · exact .inl h1
          · exact .inr (.inl h1)
          · rw [hst] at h1
            rcases List.mem_cons.1 h1 with h3 | h3
            · cases h3
              have := h2.2 _ hrem
              cases this
            · exact .inr (.inr ⟨cur', prev', List.mem_cons_of_mem _ h3, h2⟩)
      · rename_i w rest hrem
        cases he
        refine ⟨h.wf, h.fresh, h.just, ?_, ?_, ?_⟩
        · apply h.cov.mono
          rintro k ⟨f, hf, hp⟩
          rw [hst] at hf
          rcases List.mem_cons.1 hf with h1 | h1
          · subst h1
            exact ⟨.obs n (some w) prev, by simp, hp⟩
          · exact ⟨f, by simp [h1], hp⟩
        · refine ⟨?_, ?_, ?_, ?_, ?_, ?_⟩
          · intro f hf k hk
            rcases List.mem_cons.1 hf with h1 | h1
            · subst h1; cases hk
            · rcases List.mem_cons.1 h1 with h2 | h2
              · subst h2
                exact ho.holds (.obs n cur prev) (List.mem_cons_self ..) k hk
              · exact ho.holds f (List.mem_cons_of_mem _ h2) k hk
          · intro k i size prev' garbage hm
            have : Frame.kids k i size prev' garbage ∈ st := by simpa using hm
            exact ho.kids k i size prev' garbage (List.mem_cons_of_mem _ this)
          · exact ho.guards
          · exact ho.notifying
          · intro k v hm
            have : Frame.setterRest k v ∈ st := by simpa using hm
            exact ho.setters k v (List.mem_cons_of_mem _ this)
          · exact base_tail hbase (by simp) [_, _]
        · refine ⟨h.obs.nodup, h.obs.lt, h.obs.uniq, ?_⟩
          intro k w' hw'
          by_cases hww : w' = w
          · left
            have hwn : w ∈ (m.g.node n).obs := remaining_mem hrem (List.mem_cons_self ..)
            have hkn : k = n := h.obs.uniq k n w' hw' (by rw [hww]; exact hwn)
            subst hkn
            simp [hww]
          · simp only [if_neg hww]
            rcases h.obs.seen k w' hw' with h1 | h1 | ⟨cur', prev', h1, h2⟩
            · exact .inl h1
            · exact .inr (.inl h1)
            · rw [hst] at h1
              rcases List.mem_cons.1 h1 with h3 | h3
              · cases h3
                refine .inr (.inr ⟨some w, prev, by simp, ?_, ?_⟩)
                · intro c hc
                  cases hc
                  exact h.obs.lt n w (remaining_mem hrem (List.mem_cons_self ..))
                intro rest' hr'
                have hstep := remaining_step (h.obs.nodup n) hrem
                rw [hstep] at hr'
                cases hr'
                have := h2.2 _ hrem
                rcases List.mem_cons.1 this with h4 | h4
                · exact absurd h4 hww
                · exact h4
              · exact .inr (.inr ⟨cur', prev', by simp [h3], h2⟩)
    · -- children loop
      rename_i n i size prev garbage st hst
      rw [hst] at hbase
      have ho := h.stack
      rw [hst] at ho
      have hk := ho.kids n i size prev garbage (List.mem_cons_self ..)
      split at he
      · rename_i hlt
        split at he
        · cases he; simp at hub
        · rename_i c hc
          have hdrop := drop_take_step hlt hc
          split at he
          · rename_i halive
            cases he
            refine ⟨h.wf, h.fresh, h.just, ?_, ?_, ?_⟩
            · apply h.cov.mono
              rintro k ⟨f, hf, hp⟩
              rw [hst] at hf
              rcases List.mem_cons.1 hf with h1 | h1
              · subst h1
                have hp' : k ∈ ((m.g.node n).children.take size).drop i := hp
                rw [hdrop] at hp'
                rcases List.mem_cons.1 hp' with h2 | h2
                · exact ⟨.notify c, by simp, h2⟩
                · exact ⟨.kids n (i + 1) size prev garbage, by simp, h2⟩
              · exact ⟨f, by simp [h1], hp⟩
            · refine ⟨?_, ?_, ?_, ?_, ?_, ?_⟩
              · intro f hf k hk
                rcases List.mem_cons.1 hf with h1 | h1
                · subst h1
                  have : k = c := by simpa [Frame.holds] using hk
                  rw [this]; exact halive
                · rcases List.mem_cons.1 h1 with h2 | h2
                  · subst h2
                    exact ho.holds (.kids n i size prev garbage) (List.mem_cons_self ..) k hk
                  · exact ho.holds f (List.mem_cons_of_mem _ h2) k hk
              · intro k i' size' prev' garbage' hm
                rcases List.mem_cons.1 hm with h1 | h1
                · cases h1
                · rcases List.mem_cons.1 h1 with h2 | h2
                  · cases h2; exact ⟨hlt, hk.2⟩
                  · exact ho.kids k i' size' prev' garbage' (List.mem_cons_of_mem _ h2)
              · exact ho.guards
              · exact ho.notifying
              · intro k v hm
                have : Frame.setterRest k v ∈ st := by simpa using hm
                exact ho.setters k v (List.mem_cons_of_mem _ this)
              · exact base_tail hbase (by simp) [_, _]
            · refine ⟨h.obs.nodup, h.obs.lt, h.obs.uniq, ?_⟩
              intro k w hw
              rcases h.obs.seen k w hw with h1 | h1 | ⟨cur', prev', h1, h2⟩
              · exact .inl h1
              · exact .inr (.inl h1)
              · rw [hst] at h1
                have h3 : Frame.obs k cur' prev' ∈ st := by simpa using h1
                exact .inr (.inr ⟨cur', prev', by simp [h3], h2⟩)
          · rename_i hdead
            cases he
            refine ⟨h.wf, h.fresh, h.just, ?_, ?_, ?_⟩
            · intro k ha hn
              rcases h.cov k ha hn with ⟨f, hf, hp⟩ | h1
              · left
                rw [hst] at hf
                rcases List.mem_cons.1 hf with h1 | h1
                · subst h1
                  have hp' : k ∈ ((m.g.node n).children.take size).drop i := hp
                  rw [hdrop] at hp'
                  rcases List.mem_cons.1 hp' with h2 | h2
                  · subst h2; exact absurd ha hdead
                  · exact ⟨.kids n (i + 1) size prev true, by simp, h2⟩
                · exact ⟨f, by simp [h1], hp⟩
              · exact .inr h1
            · refine ⟨?_, ?_, ?_, ?_, ?_, ?_⟩
              · intro f hf k hk
                rcases List.mem_cons.1 hf with h1 | h1
                · subst h1
                  exact ho.holds (.kids n i size prev garbage) (List.mem_cons_self ..) k hk
                · exact ho.holds f (List.mem_cons_of_mem _ h1) k hk
              · intro k i' size' prev' garbage' hm
                rcases List.mem_cons.1 hm with h1 | h1
                · cases h1; exact ⟨hlt, hk.2⟩
                · exact ho.kids k i' size' prev' garbage' (List.mem_cons_of_mem _ h1)
              · exact ho.guards
              · exact ho.notifying
              · intro k v hm
                have : Frame.setterRest k v ∈ st := by simpa using hm
                exact ho.setters k v (List.mem_cons_of_mem _ this)
              · exact base_tail hbase (by simp) [_]
            · refine ⟨h.obs.nodup, h.obs.lt, h.obs.uniq, ?_⟩
              intro k w hw
              rcases h.obs.seen k w hw with h1 | h1 | ⟨cur', prev', h1, h2⟩
              · exact .inl h1
              · exact .inr (.inl h1)
              · rw [hst] at h1
                have h3 : Frame.obs k cur' prev' ∈ st := by simpa using h1
                exact .inr (.inr ⟨cur', prev', by simp [h3], h2⟩)
      · rename_i hge
        cases he
        have hsz : i = size := by omega
        -- the end of `notify`: maybe collect, restore the flag
        have hg := ho.guards
        simp only [Guards] at hg
        have key : ∀ g' : Graph V S, Quiet m.g g' →
            (∀ k c, c ∈ (g'.node k).children → c ∈ (m.g.node k).children) →
            (∀ k c, (m.g.node c).alive = true → c ∈ (m.g.node k).children →
              c ∈ (g'.node k).children) →
            (∀ k, (g'.node k).needsNotify = (m.g.node k).needsNotify) →
            (∀ k, (g'.node k).obs = (m.g.node k).obs) →
            (∀ k, (g'.node k).notifying = if k = n then prev else (m.g.node k).notifying) →
            (∀ k, active k st = true → (g'.node k).children = (m.g.node k).children) →
            Inv { m with g := g', stack := st } := by
          intro g' hq hc1 hc2 hnn hob hnf hch
          refine ⟨hq.wf h.wf hc1 hc2, hq.fresh h.fresh, hq.justified h.just, ?_, ?_, ?_⟩
          · intro k ha hn
            rw [hq.alive] at ha
            rw [hnn] at hn
            rw [hq.dirty, hq.parents]
            rcases h.cov k ha hn with ⟨f, hf, hp⟩ | h1 | ⟨p, hp, h1⟩
            · left
              rw [hst] at hf
              rcases List.mem_cons.1 hf with h2 | h2
              · subst h2
                have hp' : k ∈ ((m.g.node n).children.take size).drop i := hp
                rw [hsz] at hp'
                simp at hp'
              · refine ⟨f, h2, ?_⟩
                cases f with
                | obs k' _ _ =>
                  have hact : active k' st = true := by
                    unfold active; rw [List.any_eq_true]
                    exact ⟨_, h2, by simp [Frame.inNotify]⟩
                  show k ∈ _
                  rw [hch k' hact]; exact hp
                | kids k' _ _ _ _ =>
                  have hact : active k' st = true := by
                    unfold active; rw [List.any_eq_true]
                    exact ⟨_, h2, by simp [Frame.inNotify]⟩
                  show k ∈ _
                  rw [hch k' hact]; exact hp
                | notify _ => exact hp
                | roots _ => exact hp
                | user => exact hp
                | up _ _ => exact hp
                | ups _ => exact hp
                | setterRest _ _ => exact hp
            · exact .inr (.inl h1)
            · refine .inr (.inr ⟨p, hp, ?_⟩)
              rw [hnn, hq.dirty]; exact h1
          · refine ⟨?_, ?_, hg.2, ?_, ?_, base_tail hbase (by simp) []⟩
            · intro f hf k hk'
              rw [hq.alive]
              exact ho.holds f (List.mem_cons_of_mem _ hf) k hk'
            · intro k i' size' prev' garbage' hm
              have hact : active k st = true := by
                unfold active; rw [List.any_eq_true]
                exact ⟨_, hm, by simp [Frame.inNotify]⟩
              rw [hch k hact]
              exact ho.kids k i' size' prev' garbage' (List.mem_cons_of_mem _ hm)
            · intro k
              show (g'.node k).notifying = active k st
              rw [hnf]
              by_cases hkn : k = n
              · rw [if_pos hkn, hkn]; exact hg.1
              · rw [if_neg hkn, ho.notifying, active_cons]
                have : (n == k) = false := by simp [Ne.symm hkn]
                simp [Frame.inNotify, this]
            · intro k v hm
              rw [hq.kind]
              exact ho.setters k v (List.mem_cons_of_mem _ hm)
          · refine ⟨fun k => by rw [hob]; exact h.obs.nodup k,
              fun k w hw => by rw [hob] at hw; exact h.obs.lt k w hw,
              fun k k' w h1 h2 => by rw [hob] at h1 h2; exact h.obs.uniq k k' w h1 h2, ?_⟩
            intro k w hw
            rw [hob] at hw ⊢
            rw [hq.last, hnn]
            rcases h.obs.seen k w hw with h1 | h1 | ⟨cur', prev', h1, h2⟩
            · exact .inl h1
            · exact .inr (.inl h1)
            · rw [hst] at h1
              have h3 : Frame.obs k cur' prev' ∈ st := by simpa using h1
              exact .inr (.inr ⟨cur', prev', h3, h2⟩)
        by_cases hgc : (garbage && !prev) = true
        · simp only [hgc, if_true]
          have hprev : prev = false := by
            cases prev with
            | false => rfl
            | true => simp at hgc
          have hnode : ∀ k, ((m.g.collect n).mod n fun x => { x with notifying := prev }).node k =
              if k = n then { m.g.node n with
                children := (m.g.node n).children.filter (fun c => (m.g.node c).alive)
                notifying := prev } else m.g.node k := by
            intro k
            simp only [Graph.collect, Graph.mod_node]
            by_cases hkn : k = n
            · subst hkn; simp
            · simp [hkn]
          apply key
          · refine Quiet.trans (b := m.g.collect n) (quiet_mod rfl rfl rfl rfl rfl rfl rfl rfl rfl)
              (quiet_mod rfl rfl rfl rfl rfl rfl rfl rfl rfl)
          · intro k c hc
            rw [hnode] at hc
            by_cases hkn : k = n
            · rw [if_pos hkn] at hc
              rw [hkn]; exact (List.mem_filter.1 hc).1
            · rw [if_neg hkn] at hc; exact hc
          · intro k c ha hc
            rw [hnode]
            by_cases hkn : k = n
            · rw [if_pos hkn]
              rw [hkn] at hc
              exact List.mem_filter.2 ⟨hc, ha⟩
            · rw [if_neg hkn]; exact hc
          · intro k; rw [hnode]; split <;> simp_all
          · intro k; rw [hnode]; split <;> simp_all
          · intro k; rw [hnode]; split <;> simp_all
          · intro k hact
            rw [hnode]
            by_cases hkn : k = n
            · subst hkn
              rw [← hg.1, hprev] at hact; cases hact
            · rw [if_neg hkn]
        · simp only [hgc]
          have hnode : ∀ k, (m.g.mod n fun x => { x with notifying := prev }).node k =
              if k = n then { m.g.node n with notifying := prev } else m.g.node k := by
            intro k
            simp only [Graph.mod_node]
            by_cases hkn : k = n
            · subst hkn; simp
            · simp [hkn]
          apply key
          · exact quiet_mod rfl rfl rfl rfl rfl rfl rfl rfl rfl
          · intro k c hc; simp only [Bool.false_eq_true, if_false] at hc; rw [hnode] at hc
            split at hc <;> simp_all
          · intro k c _ hc; simp only [Bool.false_eq_true, if_false]; rw [hnode]
            split <;> simp_all
          · intro k; simp only [Bool.false_eq_true, if_false]; rw [hnode]; split <;> simp_all
          · intro k; simp only [Bool.false_eq_true, if_false]; rw [hnode]; split <;> simp_all
          · intro k; simp only [Bool.false_eq_true, if_false]; rw [hnode]; split <;> simp_all
          · intro k _; simp only [Bool.false_eq_true, if_false]; rw [hnode]; split <;> simp_all
    · -- roots []
      rename_i st hst
      rw [hst] at hbase
      cases he
      refine h.lightProp (fs := []) (N := fun _ => False) hst rfl rfl (by simp)
        (base_tail hbase (by simp) []) ?_ ?_ (by simp) rfl rfl
      · rw [← hst]; exact h.prop0
      · intro n hn; cases hn
    · -- roots (r :: rs)
      rename_i r rs st hst
      rw [hst] at hbase
      cases he
      have ho := h.stack
      rw [hst] at ho
      refine h.lightProp (fs := [.notify r, .roots rs]) (N := fun _ => False) hst rfl rfl ?_
        (base_tail hbase (by simp) _) ?_ ?_ (by simp) rfl rfl
      · intro f hf
        have hr := ho.holds (.roots (r :: rs)) (List.mem_cons_self ..)
        rcases List.mem_cons.1 hf with h1 | h1
        · subst h1
          refine ⟨rfl, ?_, by simp⟩
          intro n hn
          have : n = r := by simpa [Frame.holds] using hn
          exact hr n (by rw [this]; exact List.mem_cons_self ..)
        · have : f = .roots rs := by simpa using h1
          subst this
          exact ⟨rfl, fun n hn => hr n (List.mem_cons_of_mem _ hn), by simp⟩
      · rw [← hst]; exact h.prop0
      · intro n hn
        have hn' : n ∈ r :: rs := hn
        rcases List.mem_cons.1 hn' with h1 | h1
        · exact ⟨.notify r, by simp, h1⟩
        · exact ⟨.roots rs, by simp, h1⟩
    · -- up
      rename_i n v st hst
      rw [hst] at hbase
      have ho := h.stack
      rw [hst] at ho
      have hal : (m.g.node n).alive = true :=
        ho.holds (.up n v) (List.mem_cons_self ..) n (by simp [Frame.holds])
      have hlt := h.wf.alive_lt hal
      split at he
      · rename_i auto hk
        have hkc : ∀ view put r, (m.g.node n).kind ≠ .calc view put r := by
          intro view put r hh; rw [hk] at hh; cases hh
        have hxc : ∀ down up, (m.g.node n).kind ≠ .xform down up := by
          intro down up hh; rw [hk] at hh; cases hh
        split at he
        · cases he
          refine h.lightProp (fs := [.notify n]) (N := fun k => k = n) hst rfl rfl ?_
            (base_tail hbase (by simp) _) ?_ (by intro k hk; cases hk) ?_ rfl rfl
          · intro f hf
            have : f = .notify n := by simpa using hf
            subst this
            exact ⟨rfl, fun k hk => by
              have : k = n := by simpa [Frame.holds] using hk
              rw [this]; exact hal, by simp⟩
          · rw [← hst]
            exact (((Prop'.refl h.fresh h.just h.cov).touch (pushDown_touch _ n v)
              (pushDown_justified n v hkc hxc h.just)).sendDown h.wf hlt)
          · intro k hk; exact ⟨.notify n, by simp, hk⟩
        · cases he
          refine h.lightProp (fs := []) (N := fun _ => False) hst rfl rfl (by simp)
            (base_tail hbase (by simp) _) ?_ (by intro k hk; cases hk) (by simp) rfl rfl
          rw [← hst]
          exact h.prop0.touch (pushDown_touch _ n v) (pushDown_justified n v hkc hxc h.just)
      · rename_i view put r hk
        cases he
        have hpr : Prop' (fun k => False ∨ pending m.g m.stack k) m.g
            (if r = true then m.g.refresh n else m.g) := by
          split
          · exact h.prop0.recomputes h.wf (refresh_recomputes m.g n)
          · exact h.prop0
        refine h.lightProp (fs := [_]) (N := fun _ => False) hst rfl rfl ?_
          (base_tail hbase (by simp) _) ?_ (by intro k hk; cases hk) (by simp) rfl rfl
        · intro f hf
          have hf' := List.mem_singleton.1 hf
          subst hf'
          refine ⟨rfl, ?_, by simp⟩
          intro k hk'
          simp only [Frame.holds, List.mem_map] at hk'
          obtain ⟨⟨p, x⟩, hpx, rfl⟩ := hk'
          have hzip : (p, x) ∈ ((if r = true then m.g.refresh n else m.g).node n).parents.zip
              (put ((if r = true then m.g.refresh n else m.g).currents
                ((if r = true then m.g.refresh n else m.g).node n).parents) v) := by
            unfold Graph.order at hpx
            by_cases hltr : (if r = true then m.g.refresh n else m.g).ltr = true
            · rw [if_pos hltr] at hpx; exact hpx
            · rw [if_neg hltr] at hpx; exact List.mem_reverse.1 hpx
          have hp := (List.of_mem_zip hzip).1
          rw [hpr.same.parents] at hp
          exact h.wf.parentAlive n hal p hp
        · rw [← hst]; exact hpr
      · rename_i down up hk
        cases he
        have ht : Touch n m.g (m.g.mod n fun x => { x with upSt := (up (m.g.node n).upSt v).1 }) :=
          touch_mod (same_mod rfl rfl rfl rfl rfl rfl rfl) rfl rfl rfl rfl rfl
        refine h.lightProp (fs := [_]) (N := fun _ => False) hst rfl rfl ?_
          (base_tail hbase (by simp) _) ?_ (by intro k hk; cases hk) (by simp) rfl rfl
        · intro f hf
          have hf' := List.mem_singleton.1 hf
          subst hf'
          refine ⟨rfl, ?_, by simp⟩
          intro k hk'
          simp only [Frame.holds, List.mem_map, List.mem_flatMap] at hk'
          obtain ⟨⟨p, x⟩, ⟨vs, _, hpx⟩, rfl⟩ := hk'
          have hzip : (p, x) ∈ ((m.g.mod n fun x =>
              { x with upSt := (up (m.g.node n).upSt v).1 }).node n).parents.zip vs := by
            unfold Graph.order at hpx
            split at hpx
            · exact hpx
            · exact List.mem_reverse.1 hpx
          have hp := (List.of_mem_zip hzip).1
          rw [ht.same.parents] at hp
          exact h.wf.parentAlive n hal p hp
        · rw [← hst]
          refine h.prop0.touch ht (ht.justified h.just ?_)
          intro _ hbad
          rcases hbad with ⟨_, h2⟩ | h1
          · unfold Node.loose at h2
            rw [hk] at h2; cases h2
          · exact .inr fun hs => h1
              (((quiet_mod rfl rfl rfl rfl rfl rfl rfl rfl rfl : Quiet m.g _).settled n).2 hs)
      · rename_i auto hk
        cases he
        refine h.lightProp (fs := [.user, .setterRest n v]) (N := fun _ => False) hst rfl rfl ?_
          (base_tail hbase (by simp) _) ?_ (by intro k hk; cases hk) (by simp) rfl rfl
        · intro f hf
          rcases List.mem_cons.1 hf with h1 | h1
          · subst h1; exact ⟨rfl, by simp [Frame.holds], by simp⟩
          · have hf' := List.mem_singleton.1 h1
            subst hf'
            refine ⟨rfl, fun k hk => by
              have : k = n := by simpa [Frame.holds] using hk
              rw [this]; exact hal, ?_⟩
            intro k x he
            cases he
            exact ⟨auto, hk⟩
        · rw [← hst]; exact h.prop0
      · cases he
        refine h.lightProp (fs := []) (N := fun _ => False) hst rfl rfl (by simp)
          (base_tail hbase (by simp) _) ?_ (by intro k hk; cases hk) (by simp) rfl rfl
        rw [← hst]; exact h.prop0
    · -- ups []
      rename_i st hst
      rw [hst] at hbase
      cases he
      refine h.lightProp (fs := []) (N := fun _ => False) hst rfl rfl (by simp)
        (base_tail hbase (by simp) []) ?_ (by intro k hk; cases hk) (by simp) rfl rfl
      rw [← hst]; exact h.prop0
    · -- ups (x :: l)
      rename_i p v l st hst
      rw [hst] at hbase
      cases he
      have ho := h.stack
      rw [hst] at ho
      have hal := ho.holds (.ups ((p, v) :: l)) (List.mem_cons_self ..)
      refine h.lightProp (fs := [.up p v, .ups l]) (N := fun _ => False) hst rfl rfl ?_
        (base_tail hbase (by simp) _) ?_ (by intro k hk; cases hk) (by simp) rfl rfl
      · intro f hf
        rcases List.mem_cons.1 hf with h1 | h1
        · subst h1
          exact ⟨rfl, fun k hk => hal k (by
            have : k = p := by simpa [Frame.holds] using hk
            rw [this]; simp [Frame.holds]), by simp⟩
        · have hf' := List.mem_singleton.1 h1
          subst hf'
          exact ⟨rfl, fun k hk => hal k (by
            simp only [Frame.holds, List.map_cons] at hk ⊢
            exact List.mem_cons_of_mem _ hk), by simp⟩
      · rw [← hst]; exact h.prop0
    · -- setterRest
      rename_i n v st hst
      rw [hst] at hbase
      have ho := h.stack
      rw [hst] at ho
      have hal : (m.g.node n).alive = true :=
        ho.holds (.setterRest n v) (List.mem_cons_self ..) n (by simp [Frame.holds])
      have hlt := h.wf.alive_lt hal
      obtain ⟨a, hk⟩ := ho.setters n v (List.mem_cons_self ..)
      have hkc : ∀ view put r, (m.g.node n).kind ≠ .calc view put r := by
        intro view put r hh; rw [hk] at hh; cases hh
      have hxc : ∀ down up, (m.g.node n).kind ≠ .xform down up := by
        intro down up hh; rw [hk] at hh; cases hh
      have hp1 := (Prop'.refl h.fresh h.just h.cov).touch (pushDown_touch _ n v)
              (pushDown_justified n v hkc hxc h.just)
      split at he
      · cases he
        have ht : Touch n (m.g.pushDown n v)
            ((m.g.pushDown n v).mod n fun x => { x with recomputed := true }) :=
          touch_mod (same_mod rfl rfl rfl rfl rfl rfl rfl) rfl rfl rfl rfl rfl
        have hp2 := hp1.touch ht (ht.justified hp1.just (by
          intro _ hbad
          rcases hbad with ⟨_, h2⟩ | h1
          · rw [hp1.same.loose] at h2
            unfold Node.loose at h2
            rw [hk] at h2; cases h2
          · exfalso; apply h1
            refine ⟨fun view put r hh => ?_, fun down up hh => ?_⟩
            · rw [ht.same.kind, hp1.same.kind] at hh
              exact absurd hh (hkc view put r)
            · rw [ht.same.kind, hp1.same.kind] at hh
              exact absurd hh (hxc down up)))
        refine h.lightProp (fs := [.notify n]) (N := fun k => k = n) hst rfl rfl ?_
          (base_tail hbase (by simp) _) ?_ (by intro k hk; cases hk) ?_ rfl rfl
        · intro f hf
          have : f = .notify n := by simpa using hf
          subst this
          exact ⟨rfl, fun k hk => by
            have : k = n := by simpa [Frame.holds] using hk
            rw [this]; exact hal, by simp⟩
        · rw [← hst]; exact hp2.sendDown h.wf hlt
        · intro k hk; exact ⟨.notify n, by simp, hk⟩
      · cases he
        refine h.lightProp (fs := []) (N := fun _ => False) hst rfl rfl (by simp)
          (base_tail hbase (by simp) _) ?_ (by intro k hk; cases hk) (by simp) rfl rfl
        rw [← hst]
        exact hp1.mono fun k hk => .inr hk
    · cases he
    · cases he

end Verif.Graph
