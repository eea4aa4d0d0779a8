import Verif.Graph.Spec

/-
Heap-level lemmas: what `push_down`, `recompute`, `refresh` and `send_down` do to a graph.
-/

set_option linter.unusedSectionVars false

namespace Verif.Graph

variable {V S : Type} [DecidableEq V]

namespace Graph

/-! ### Access -/

@[simp] theorem mod_self (g : Graph V S) (n : Nat) (f) : (g.mod n f).node n = f (g.node n) := by
  simp [mod]

theorem mod_ne (g : Graph V S) {n m : Nat} (f) (h : m ≠ n) : (g.mod n f).node m = g.node m := by
  simp [mod, h]

@[simp] theorem mod_size (g : Graph V S) (n : Nat) (f) : (g.mod n f).size = g.size := rfl

@[simp] theorem mod_ltr (g : Graph V S) (n : Nat) (f) : (g.mod n f).ltr = g.ltr := rfl

theorem mod_node (g : Graph V S) (n m : Nat) (f) :
    (g.mod n f).node m = if m = n then f (g.node m) else g.node m := rfl

end Graph

/-! ### Well-formed heaps -/

/-- Is the node written to from outside, so that it may hold a value not yet propagated?  Nodes
with stateful transducers count as such, because `refresh` can change them although nothing above
them has changed. -/
def Node.loose (x : Node V S) : Bool :=
  match x.kind with
  | .calc _ _ _ => false
  | _ => true

/-- A calculated node's current value is what the view function gives for the current values of the
parents, and a transducer has processed these. -/
def Settled (g : Graph V S) (n : Nat) : Prop :=
  (∀ view put r, (g.node n).kind = .calc view put r →
    ∀ v, view (g.currents (g.node n).parents) = some v → (g.node n).current = v) ∧
  ∀ down up, (g.node n).kind = .xform down up → (g.node n).input = g.currents (g.node n).parents

/-- Of the proof: what links between nodes are like. -/
structure WF (g : Graph V S) : Prop where
  unused : ∀ n, g.size ≤ n →
    (g.node n).alive = false ∧ (g.node n).children = [] ∧ (g.node n).parents = []
  lt : ∀ n p, p ∈ (g.node n).parents → p < n
  parentAlive : ∀ n, (g.node n).alive = true → ∀ p ∈ (g.node n).parents, (g.node p).alive = true
  linked : ∀ n, (g.node n).alive = true → ∀ p ∈ (g.node n).parents, n ∈ (g.node p).children
  child : ∀ p c, c ∈ (g.node p).children → p ∈ (g.node c).parents ∧ c < g.size

theorem WF.alive_lt {g : Graph V S} (h : WF g) {n : Nat} (ha : (g.node n).alive = true) :
    n < g.size := by
  apply Nat.lt_of_not_le
  intro hn
  rw [(h.unused n hn).1] at ha
  cases ha

theorem WF.child_lt {g : Graph V S} (h : WF g) {p c : Nat} (hc : c ∈ (g.node p).children) :
    p < c ∧ c < g.size := ⟨h.lt c p (h.child p c hc).1, (h.child p c hc).2⟩

/-! ### Elementary changes -/

/-- The parts of the heap that propagation leaves alone. -/
structure Same (g g' : Graph V S) : Prop where
  size : g'.size = g.size
  ltr : g'.ltr = g.ltr
  kind : ∀ n, (g'.node n).kind = (g.node n).kind
  parents : ∀ n, (g'.node n).parents = (g.node n).parents
  children : ∀ n, (g'.node n).children = (g.node n).children
  alive : ∀ n, (g'.node n).alive = (g.node n).alive
  cmp : ∀ n, (g'.node n).cmp = (g.node n).cmp
  obs : ∀ n, (g'.node n).obs = (g.node n).obs
  notifying : ∀ n, (g'.node n).notifying = (g.node n).notifying

theorem Same.refl (g : Graph V S) : Same g g :=
  ⟨rfl, rfl, fun _ => rfl, fun _ => rfl, fun _ => rfl, fun _ => rfl, fun _ => rfl, fun _ => rfl,
    fun _ => rfl⟩

theorem Same.trans {a b c : Graph V S} (h : Same a b) (k : Same b c) : Same a c :=
  ⟨k.size.trans h.size, k.ltr.trans h.ltr, fun n => (k.kind n).trans (h.kind n),
    fun n => (k.parents n).trans (h.parents n), fun n => (k.children n).trans (h.children n),
    fun n => (k.alive n).trans (h.alive n), fun n => (k.cmp n).trans (h.cmp n),
    fun n => (k.obs n).trans (h.obs n), fun n => (k.notifying n).trans (h.notifying n)⟩

theorem Same.wf {g g' : Graph V S} (h : Same g g') (w : WF g) : WF g' := by
  constructor
  · intro n hn
    rw [h.size] at hn
    rw [h.alive, h.children, h.parents]
    exact w.unused n hn
  · intro n p hp
    rw [h.parents] at hp
    exact w.lt n p hp
  · intro n ha p hp
    rw [h.alive] at ha
    rw [h.parents] at hp
    rw [h.alive]
    exact w.parentAlive n ha p hp
  · intro n ha p hp
    rw [h.alive] at ha
    rw [h.parents] at hp
    rw [h.children]
    exact w.linked n ha p hp
  · intro p c hc
    rw [h.children] at hc
    rw [h.parents, h.size]
    exact w.child p c hc

theorem Same.loose {g g' : Graph V S} (h : Same g g') (n : Nat) :
    (g'.node n).loose = (g.node n).loose := by
  unfold Node.loose
  rw [h.kind]

/-- `push_down` and `recompute` on `n`: only `n` changes; its value may change, but then it is
dirty; `last_` and the notification flag do not change. -/
structure Touch (n : Nat) (g g' : Graph V S) : Prop where
  same : Same g g'
  other : ∀ m, m ≠ n → g'.node m = g.node m
  last : (g'.node n).last = (g.node n).last
  needsNotify : (g'.node n).needsNotify = (g.node n).needsNotify
  dirty : (g.node n).dirty = true → (g'.node n).dirty = true
  chg : (g.node n).chg = true → (g'.node n).chg = true
  chgDirty : ((g.node n).chg = true → (g.node n).dirty = true) →
    (g'.node n).chg = true → (g'.node n).dirty = true
  dirtyChg : (g.node n).cmp = true → ((g.node n).dirty = true → (g.node n).chg = true) →
    (g'.node n).dirty = true → (g'.node n).chg = true
  changed : (g'.node n).current ≠ (g.node n).current → (g'.node n).chg = true

theorem Touch.refl (n : Nat) (g : Graph V S) : Touch n g g :=
  ⟨.refl g, fun _ _ => rfl, rfl, rfl, id, id, id, fun _ h => h, fun h => absurd rfl h⟩

theorem Touch.trans {n : Nat} {a b c : Graph V S} (h : Touch n a b) (k : Touch n b c) :
    Touch n a c := by
  refine ⟨h.same.trans k.same, fun m hm => (k.other m hm).trans (h.other m hm),
    k.last.trans h.last, k.needsNotify.trans h.needsNotify, fun hd => k.dirty (h.dirty hd),
    fun hd => k.chg (h.chg hd), fun hd => k.chgDirty (h.chgDirty hd),
    fun hc hd => k.dirtyChg (by rw [h.same.cmp]; exact hc) (h.dirtyChg hc hd), ?_⟩
  intro hc
  by_cases he : (c.node n).current = (b.node n).current
  · apply k.chg
    apply h.changed
    rw [← he]; exact hc
  · exact k.changed he

theorem same_mod {g : Graph V S} {n : Nat} {f : Node V S → Node V S}
    (hk : (f (g.node n)).kind = (g.node n).kind)
    (hp : (f (g.node n)).parents = (g.node n).parents)
    (hc : (f (g.node n)).children = (g.node n).children)
    (ha : (f (g.node n)).alive = (g.node n).alive)
    (hm : (f (g.node n)).cmp = (g.node n).cmp)
    (ho : (f (g.node n)).obs = (g.node n).obs)
    (hn : (f (g.node n)).notifying = (g.node n).notifying) : Same g (g.mod n f) := by
  refine ⟨rfl, rfl, ?_, ?_, ?_, ?_, ?_, ?_, ?_⟩ <;>
  · intro m
    by_cases h : m = n
    · subst h; rw [Graph.mod_self]; assumption
    · rw [Graph.mod_ne _ _ h]

theorem pushDown_cases (g : Graph V S) (n : Nat) (v : V) :
    (g.pushDown n v = g ∧ (g.node n).cmp = true ∧ v = (g.node n).current) ∨
    (g.pushDown n v = g.mod n (fun x =>
        { x with current := v, dirty := true, chg := x.chg || decide (v ≠ x.current) }) ∧
      ((g.node n).cmp = true → v ≠ (g.node n).current)) := by
  unfold Graph.pushDown
  by_cases h : (g.node n).cmp = false ∨ v ≠ (g.node n).current
  · rw [if_pos h]
    right
    refine ⟨rfl, fun hc => ?_⟩
    rcases h with h | h
    · rw [h] at hc; cases hc
    · exact h
  · rw [if_neg h]
    left
    simp only [not_or, Decidable.not_not] at h
    exact ⟨rfl, by simpa using h.1, h.2⟩

theorem pushDown_touch (g : Graph V S) (n : Nat) (v : V) : Touch n g (g.pushDown n v) := by
  rcases pushDown_cases g n v with ⟨h, _, _⟩ | ⟨h, hne⟩ <;> rw [h]
  · exact .refl n g
  · exact ⟨same_mod rfl rfl rfl rfl rfl rfl rfl, fun m hm => Graph.mod_ne _ _ hm, by simp, by simp,
      fun _ => by simp, fun h => by simp [h], fun _ _ => by simp, fun hc _ _ => by simp [hne hc], fun h => by
        simp only [Graph.mod_self] at h ⊢
        simp [h]⟩

@[simp] theorem pushDown_current (g : Graph V S) (n : Nat) (v : V) :
    ((g.pushDown n v).node n).current = v := by
  rcases pushDown_cases g n v with ⟨h, _, hv⟩ | ⟨h, _⟩ <;> rw [h]
  · exact hv.symm
  · simp

theorem touch_mod {g : Graph V S} {n : Nat} {f : Node V S → Node V S}
    (hs : Same g (g.mod n f)) (h1 : (f (g.node n)).last = (g.node n).last)
    (h2 : (f (g.node n)).needsNotify = (g.node n).needsNotify)
    (h3 : (f (g.node n)).dirty = (g.node n).dirty)
    (h5 : (f (g.node n)).chg = (g.node n).chg)
    (h4 : (f (g.node n)).current = (g.node n).current) : Touch n g (g.mod n f) :=
  ⟨hs, fun m hm => Graph.mod_ne _ _ hm, by simpa using h1, by simpa using h2,
    fun h => by simpa [h3] using h, fun h => by simpa [h5] using h,
    fun h => by simpa [h3, h5] using h, fun _ h => by simpa [h3, h5] using h, fun h => absurd (by simpa using h4) h⟩

theorem foldl_pushDown_touch (n : Nat) (l : List V) (g : Graph V S) :
    Touch n g (l.foldl (fun g v => g.pushDown n v) g) := by
  induction l generalizing g with
  | nil => exact .refl n g
  | cons v l ih => exact (pushDown_touch g n v).trans (ih _)

theorem pushDown_input (g : Graph V S) (n : Nat) (v : V) (m : Nat) :
    ((g.pushDown n v).node m).input = (g.node m).input := by
  unfold Graph.pushDown
  split
  · by_cases h : m = n
    · subst h; simp
    · rw [Graph.mod_ne _ _ h]
  · rfl

theorem foldl_pushDown_input (n : Nat) (l : List V) (g : Graph V S) (m : Nat) :
    ((l.foldl (fun g v => g.pushDown n v) g).node m).input = (g.node m).input := by
  induction l generalizing g with
  | nil => rfl
  | cons v l ih => simp only [List.foldl_cons]; rw [ih, pushDown_input]

theorem recompute_touch (g : Graph V S) (n : Nat) : Touch n g (g.recompute n) := by
  unfold Graph.recompute
  split
  · exact .refl n g
  · exact .refl n g
  · exact (touch_mod (same_mod rfl rfl rfl rfl rfl rfl rfl) rfl rfl rfl rfl rfl).trans
      (pushDown_touch _ n _)
  · split
    · exact .refl n g
    · exact pushDown_touch g n _
  · exact (touch_mod (same_mod rfl rfl rfl rfl rfl rfl rfl) rfl rfl rfl rfl rfl).trans
      (foldl_pushDown_touch n _ _)
  · split
    · exact touch_mod (same_mod rfl rfl rfl rfl rfl rfl rfl) rfl rfl rfl rfl rfl
    · split
      · exact pushDown_touch g n _
      · exact .refl n g

theorem Touch.currents {n : Nat} {g g' : Graph V S} (h : Touch n g g') {ps : List Nat}
    (hn : n ∉ ps ∨ (g'.node n).current = (g.node n).current) : g'.currents ps = g.currents ps := by
  unfold Graph.currents
  apply List.map_congr_left
  intro p hp
  by_cases hpn : p = n
  · subst hpn
    rcases hn with hn | hn
    · exact absurd hp hn
    · exact hn
  · rw [h.other p hpn]

/-- A calculated node just recomputed is settled. -/
theorem recompute_settled {g : Graph V S} (w : WF g) (n : Nat) : Settled (g.recompute n) n := by
  have ht := recompute_touch g n
  have hn : n ∉ (g.node n).parents := fun h => Nat.lt_irrefl _ (w.lt n n h)
  constructor
  · intro view put r hk v hv
    rw [ht.same.kind] at hk
    rw [ht.same.parents, ht.currents (.inl hn)] at hv
    unfold Graph.recompute
    rw [hk]
    simp only [hv]
    exact pushDown_current g n v
  · intro down up hk
    rw [ht.same.kind] at hk
    rw [ht.same.parents, ht.currents (.inl hn)]
    unfold Graph.recompute
    rw [hk]
    simp only
    rw [foldl_pushDown_input, Graph.mod_self]

/-- A tight node becomes dirty by `recompute` only if it was not settled. -/
theorem recompute_tight {g : Graph V S} {n : Nat} (hl : (g.node n).loose = false)
    (hd : ((g.recompute n).node n).chg = true) :
    (g.node n).chg = true ∨ ¬ Settled g n := by
  by_cases hs : Settled g n
  · left
    unfold Node.loose at hl
    unfold Graph.recompute at hd
    split at hl
    · rename_i view put r hk
      rw [hk] at hd
      simp only at hd
      split at hd
      · exact hd
      · rename_i v hv
        rcases pushDown_cases g n v with ⟨h, _⟩ | ⟨h, _⟩
        · rw [h] at hd; exact hd
        · rw [h] at hd
          simpa [hs.1 view put r hk v hv] using hd
    · cases hl
  · exact .inr hs

/-! ### The invariants of propagation -/

/-- `get()` shows the current value unless a write is pending. -/
def Fresh (g : Graph V S) : Prop := ∀ n, ((g.node n).chg = true → (g.node n).dirty = true) ∧
  ((g.node n).cmp = true → (g.node n).dirty = true → (g.node n).chg = true) ∧
  ((g.node n).chg = false → (g.node n).last = (g.node n).current)

/-- A living node that is dirty without being a source, or not settled, is in `W` or has a dirty
parent. -/
def Justified (W : List Nat) (g : Graph V S) : Prop :=
  ∀ n, (g.node n).alive = true →
    (((g.node n).chg = true ∧ (g.node n).loose = false) ∨ ¬ Settled g n) →
    n ∈ W ∨ ∃ p ∈ (g.node n).parents, (g.node p).chg = true

theorem Touch.fresh {n : Nat} {g g' : Graph V S} (h : Touch n g g') (hf : Fresh g) : Fresh g' := by
  intro m
  by_cases hm : m = n
  · subst hm
    refine ⟨h.chgDirty (hf m).1, fun hc => h.dirtyChg (by rw [← h.same.cmp]; exact hc)
      ((hf m).2.1 (by rw [← h.same.cmp]; exact hc)), fun hd => ?_⟩
    have hc : (g'.node m).current = (g.node m).current := by
      refine Classical.byContradiction fun hc => ?_
      rw [h.changed hc] at hd
      cases hd
    have hd' : (g.node m).chg = false := by
      cases hdd : (g.node m).chg with
      | false => rfl
      | true => rw [h.chg hdd] at hd; cases hd
    rw [h.last, hc]
    exact (hf m).2.2 hd'
  · rw [h.other m hm]
    exact hf m

theorem Touch.chg_mono {n : Nat} {g g' : Graph V S} (h : Touch n g g') {m : Nat}
    (hd : (g.node m).chg = true) : (g'.node m).chg = true := by
  by_cases hm : m = n
  · subst hm; exact h.chg hd
  · rw [h.other m hm]; exact hd

theorem Touch.dirty_mono {n : Nat} {g g' : Graph V S} (h : Touch n g g') {m : Nat}
    (hd : (g.node m).dirty = true) : (g'.node m).dirty = true := by
  by_cases hm : m = n
  · subst hm; exact h.dirty hd
  · rw [h.other m hm]; exact hd

theorem Touch.settled_other {n m : Nat} {g g' : Graph V S} (h : Touch n g g') (hm : m ≠ n)
    (hs : Settled g m) : Settled g' m ∨ (n ∈ (g.node m).parents ∧ (g'.node n).chg = true) := by
  by_cases hn : n ∈ (g.node m).parents ∧ (g'.node n).current ≠ (g.node n).current
  · exact .inr ⟨hn.1, h.changed hn.2⟩
  · left
    have hcur : g'.currents (g.node m).parents = g.currents (g.node m).parents := by
      apply h.currents
      by_cases h1 : n ∈ (g.node m).parents
      · right
        exact Classical.byContradiction fun h2 => hn ⟨h1, h2⟩
      · exact .inl h1
    unfold Settled
    rw [h.other m hm, hcur]
    exact hs

/-- A change of `n` keeps the other nodes justified. -/
theorem Touch.justified {n : Nat} {g g' : Graph V S} (h : Touch n g g') {W : List Nat}
    (hj : Justified W g)
    (hn : (g.node n).alive = true → (((g'.node n).chg = true ∧ (g.node n).loose = false) ∨
      ¬ Settled g' n) → ((g.node n).chg = true ∧ (g.node n).loose = false) ∨ ¬ Settled g n) :
    Justified W g' := by
  intro m ha hbad
  rw [h.same.alive] at ha
  rw [h.same.loose] at hbad
  rw [h.same.parents]
  have fin : (((g.node m).chg = true ∧ (g.node m).loose = false) ∨ ¬ Settled g m) →
      m ∈ W ∨ ∃ p ∈ (g.node m).parents, (g'.node p).chg = true := by
    intro hb
    rcases hj m ha hb with h1 | ⟨p, hp, hd⟩
    · exact .inl h1
    · exact .inr ⟨p, hp, h.chg_mono hd⟩
  by_cases hm : m = n
  · subst hm
    exact fin (hn ha hbad)
  · rcases hbad with ⟨h1, h2⟩ | h1
    · rw [h.other m hm] at h1
      exact fin (.inl ⟨h1, h2⟩)
    · by_cases hs : Settled g m
      · rcases h.settled_other hm hs with h3 | ⟨h3, h4⟩
        · exact absurd h3 h1
        · exact .inr ⟨n, h3, h4⟩
      · exact fin (.inr hs)

theorem recompute_justified {g : Graph V S} (w : WF g) {W : List Nat} (n : Nat)
    (hj : Justified W g) : Justified W (g.recompute n) := by
  apply (recompute_touch g n).justified hj
  intro _ hbad
  rcases hbad with ⟨h1, h2⟩ | h1
  · rcases recompute_tight h2 h1 with h3 | h3
    · exact .inl ⟨h3, h2⟩
    · exact .inr h3
  · exact absurd (recompute_settled w n) h1

/-- `push_down` on a source. -/
theorem pushDown_justified {g : Graph V S} {W : List Nat} (n : Nat) (v : V)
    (hk : ∀ view put r, (g.node n).kind ≠ .calc view put r)
    (hx : ∀ down up, (g.node n).kind ≠ .xform down up) (hj : Justified W g) :
    Justified W (g.pushDown n v) := by
  have ht := pushDown_touch g n v
  apply ht.justified hj
  intro _ hbad
  rcases hbad with ⟨_, h2⟩ | h1
  · unfold Node.loose at h2
    split at h2
    · rename_i view put r h; exact absurd h (hk view put r)
    · cases h2
  · exfalso
    apply h1
    refine ⟨fun view put r h => ?_, fun down up h => ?_⟩
    · rw [ht.same.kind] at h
      exact absurd h (hk view put r)
    · rw [ht.same.kind] at h
      exact absurd h (hx down up)

/-! ### `send_down` -/

theorem publish_same (g : Graph V S) (n : Nat) : Same g (g.publish n) :=
  same_mod rfl rfl rfl rfl rfl rfl rfl

theorem publish_other (g : Graph V S) {n m : Nat} (h : m ≠ n) :
    (g.publish n).node m = g.node m := Graph.mod_ne _ _ h

theorem publish_current (g : Graph V S) (n m : Nat) :
    ((g.publish n).node m).current = (g.node m).current := by
  by_cases h : m = n
  · subst h; simp [Graph.publish]
  · rw [publish_other _ h]

theorem publish_currents (g : Graph V S) (n : Nat) (ps : List Nat) :
    (g.publish n).currents ps = g.currents ps :=
  List.map_congr_left fun p _ => publish_current g n p

theorem publish_settled (g : Graph V S) (n m : Nat) : Settled (g.publish n) m ↔ Settled g m := by
  unfold Settled
  have hi : ((g.publish n).node m).input = (g.node m).input := by
    by_cases h : m = n
    · subst h; simp [Graph.publish]
    · rw [publish_other _ h]
  rw [(publish_same g n).kind, (publish_same g n).parents, publish_currents, publish_current, hi]

/-- Elementary moves of `send_down`. -/
inductive Moves : Graph V S → Graph V S → Prop where
  | refl (g) : Moves g g
  | recompute {g g'} (n : Nat) : Moves g g' → Moves g (g'.recompute n)
  | publish {g g'} (n : Nat) : Moves g g' → (g'.node n).dirty = true → Moves g (g'.publish n)

theorem Moves.trans {a b c : Graph V S} (h : Moves a b) (k : Moves b c) : Moves a c := by
  induction k with
  | refl => exact h
  | recompute n _ ih => exact .recompute n ih
  | publish n _ hd ih => exact .publish n ih hd

theorem foldl_moves {f : Graph V S → Nat → Graph V S} (hf : ∀ g c, Moves g (f g c))
    (l : List Nat) (g : Graph V S) : Moves g (l.foldl f g) := by
  induction l generalizing g with
  | nil => exact .refl g
  | cons c l ih => exact (hf g c).trans (ih _)

theorem sendDownN_moves (k : Nat) (g : Graph V S) (n : Nat) : Moves g (g.sendDownN k n) := by
  induction k generalizing g n with
  | zero => exact .refl g
  | succ k ih =>
    simp only [Graph.sendDownN]
    split
    · rename_i hd
      refine Moves.trans (.publish n (.recompute n (.refl g)) hd) (foldl_moves ?_ _ _)
      intro g' c
      split
      · exact ih g' c
      · exact .refl g'
    · exact .recompute n (.refl g)

theorem Moves.same {g g' : Graph V S} (h : Moves g g') : Same g g' := by
  induction h with
  | refl => exact .refl g
  | recompute n _ ih => exact ih.trans (recompute_touch _ n).same
  | publish n _ _ ih => exact ih.trans (publish_same _ n)

theorem Moves.fresh {g g' : Graph V S} (h : Moves g g') (hf : Fresh g) : Fresh g' := by
  induction h with
  | refl => exact hf
  | recompute n _ ih => exact (recompute_touch _ n).fresh ih
  | publish n _ _ ih =>
    intro m
    by_cases hm : m = n
    · subst hm; simp [Graph.publish]
    · rw [publish_other _ hm]; exact ih m

/-- `send_down` sets notification flags and never clears them. -/
theorem Moves.needsNotify {g g' : Graph V S} (h : Moves g g') {n : Nat}
    (hn : (g.node n).needsNotify = true) : (g'.node n).needsNotify = true := by
  induction h with
  | refl => exact hn
  | @recompute g' m _ ih =>
    by_cases hm : n = m
    · subst hm; rw [(recompute_touch g' n).needsNotify]; exact ih
    · rw [(recompute_touch g' m).other n hm]; exact ih
  | @publish g' m _ _ ih =>
    by_cases hm : n = m
    · subst hm; simp [Graph.publish]
    · rw [publish_other _ hm]; exact ih

/-- What `get()` shows changes only together with the notification flag. -/
theorem Moves.last {g g' : Graph V S} (h : Moves g g') (n : Nat) :
    (g'.node n).last = (g.node n).last ∨ (g'.node n).needsNotify = true := by
  induction h with
  | refl => exact .inl rfl
  | @recompute g' m _ ih =>
    by_cases hm : n = m
    · subst hm
      rw [(recompute_touch g' n).last, (recompute_touch g' n).needsNotify]; exact ih
    · rw [(recompute_touch g' m).other n hm]; exact ih
  | @publish g' m _ _ ih =>
    by_cases hm : n = m
    · subst hm; right; simp [Graph.publish]
    · rw [publish_other _ hm]; exact ih

theorem sendDownN_same (k : Nat) (g : Graph V S) (n : Nat) : Same g (g.sendDownN k n) :=
  (sendDownN_moves k g n).same

/-- After the children of a published node are added to the work list, everything is justified. -/
theorem publish_justified {g : Graph V S} (w : WF g) {W : List Nat} {n : Nat}
    (hs : Settled g n) (hj : Justified (n :: W) g) :
    Justified ((g.node n).children ++ W) (g.publish n) := by
  intro m ha hbad
  rw [(publish_same g n).alive] at ha
  rw [(publish_same g n).loose, publish_settled] at hbad
  rw [(publish_same g n).parents]
  by_cases hm : m = n
  · subst hm
    rcases hbad with ⟨h1, _⟩ | h1
    · simp [Graph.publish] at h1
    · exact absurd hs h1
  · rw [publish_other _ hm] at hbad
    rcases hj m ha hbad with h1 | ⟨p, hp, hd⟩
    · rcases List.mem_cons.1 h1 with h2 | h2
      · exact absurd h2 hm
      · exact .inl (List.mem_append.2 (.inr h2))
    · by_cases hpn : p = n
      · subst hpn
        exact .inl (List.mem_append.2 (.inl (w.linked m ha p hp)))
      · exact .inr ⟨p, hp, by rw [publish_other _ hpn]; exact hd⟩

/-- The main fact about `send_down`: it removes its node from the work list. -/
theorem sendDownN_justified (k : Nat) (g : Graph V S) (n : Nat) (W : List Nat) (w : WF g)
    (hf : Fresh g) (hn : n < g.size) (hk : g.size - n ≤ k) (hj : Justified (n :: W) g) :
    Justified W (g.sendDownN k n) := by
  induction k generalizing g n W with
  | zero => omega
  | succ k ih =>
    simp only [Graph.sendDownN]
    have ht := recompute_touch g n
    have w1 := ht.same.wf w
    have hj1 := recompute_justified w n hj
    have hs1 := recompute_settled w n
    split
    · rename_i hd
      have w2 := (publish_same (g.recompute n) n).wf w1
      have hj2 := publish_justified w1 hs1 hj1
      have hkids : (((g.recompute n).publish n).node n).children =
          ((g.recompute n).node n).children := (publish_same _ n).children n
      have hsz : ((g.recompute n).publish n).size = g.size := by
        rw [(publish_same _ n).size, ht.same.size]
      -- walk over the children
      have walk : ∀ (l : List Nat) (g' : Graph V S), WF g' → Fresh g' → g'.size = g.size →
          (∀ c ∈ l, n < c ∧ c < g.size) → Justified (l ++ W) g' →
          Justified W (l.foldl (fun g c => if (g.node c).alive then g.sendDownN k c else g) g') := by
        intro l
        induction l with
        | nil => intro g' _ _ _ _ hj'; exact hj'
        | cons c l ihl =>
          intro g' w' hf' hs' hl hj'
          simp only [List.foldl_cons]
          have hc := hl c (List.mem_cons_self ..)
          apply ihl
          · split
            · exact (sendDownN_same k g' c).wf w'
            · exact w'
          · split
            · exact (sendDownN_moves k g' c).fresh hf'
            · exact hf'
          · split
            · rw [(sendDownN_same k g' c).size, hs']
            · exact hs'
          · exact fun c' h' => hl c' (List.mem_cons_of_mem _ h')
          · split
            · exact ih g' c (l ++ W) w' hf' (by omega) (by omega) hj'
            · rename_i hdead
              intro m ha hbad
              rcases hj' m ha hbad with h1 | h1
              · rcases List.mem_cons.1 h1 with h2 | h2
                · subst h2; exact absurd ha hdead
                · exact .inl h2
              · exact .inr h1
      apply walk _ _ w2 (Moves.fresh (.publish n (.recompute n (.refl g)) hd) hf) hsz
      · intro c hc
        rw [(publish_same _ n).children, ht.same.children] at hc
        exact w.child_lt hc
      · rw [hkids]; exact hj2
    · rename_i hd
      intro m ha hbad
      rcases hj1 m ha hbad with h1 | h1
      · rcases List.mem_cons.1 h1 with h2 | h2
        · subst h2
          rcases hbad with ⟨h3, _⟩ | h3
          · exact absurd ((ht.fresh hf m).1 h3) hd
          · exact absurd hs1 h3
        · exact .inl h2
      · exact .inr h1

theorem sendDown_justified {g : Graph V S} (w : WF g) (hf : Fresh g) {n : Nat} (hn : n < g.size)
    (hj : Justified [] g) : Justified [] (g.sendDown n) := by
  apply sendDownN_justified g.size g n [] w hf hn (by omega)
  intro m ha hb
  rcases hj m ha hb with h | h
  · cases h
  · exact .inr h

/-! ### `refresh` -/

theorem refreshN_ind (P : Graph V S → Prop)
    (hstep : ∀ g n, P g → P (g.recompute n)) (k : Nat) (g : Graph V S) (n : Nat) (h : P g) :
    P (g.refreshN k n) := by
  induction k generalizing g n with
  | zero => exact h
  | succ k ih =>
    simp only [Graph.refreshN]
    have walk : ∀ (l : List Nat) (g' : Graph V S), P g' →
        P (l.foldl (fun g p => g.refreshN k p) g') := by
      intro l
      induction l with
      | nil => intro g' h'; exact h'
      | cons p l ihl => intro g' h'; exact ihl _ (ih g' p h')
    split
    · exact hstep _ _ (walk _ _ h)
    · exact hstep _ _ (walk _ _ h)
    · exact h

/-- A sequence of `recompute`s. -/
inductive Recomputes : Graph V S → Graph V S → Prop where
  | refl (g) : Recomputes g g
  | step {g g'} (n : Nat) : Recomputes g g' → Recomputes g (g'.recompute n)

theorem refresh_recomputes (g : Graph V S) (n : Nat) : Recomputes g (g.refresh n) :=
  refreshN_ind (Recomputes g) (fun _ m h => .step m h) (n + 1) g n (.refl g)

theorem Recomputes.same {g g' : Graph V S} (h : Recomputes g g') : Same g g' := by
  induction h with
  | refl => exact .refl g
  | step n _ ih => exact ih.trans (recompute_touch _ n).same

theorem Recomputes.fresh {g g' : Graph V S} (h : Recomputes g g') (hf : Fresh g) : Fresh g' := by
  induction h with
  | refl => exact hf
  | step n _ ih => exact (recompute_touch _ n).fresh ih

theorem Recomputes.justified {g g' : Graph V S} (h : Recomputes g g') {W : List Nat} (w : WF g)
    (hj : Justified W g) : Justified W g' := by
  induction h with
  | refl => exact hj
  | step n hr ih => exact recompute_justified (hr.same.wf w) n ih

theorem Recomputes.last {g g' : Graph V S} (h : Recomputes g g') (n : Nat) :
    (g'.node n).last = (g.node n).last ∧ (g'.node n).needsNotify = (g.node n).needsNotify := by
  induction h with
  | refl => exact ⟨rfl, rfl⟩
  | @step g' m _ ih =>
    have ht := recompute_touch g' m
    by_cases hm : n = m
    · subst hm; rw [ht.last, ht.needsNotify]; exact ih
    · rw [ht.other n hm]; exact ih

theorem Recomputes.dirty {g g' : Graph V S} (h : Recomputes g g') {n : Nat}
    (hd : (g.node n).dirty = true) : (g'.node n).dirty = true := by
  induction h with
  | refl => exact hd
  | @step g' m _ ih => exact (recompute_touch g' m).dirty_mono ih

/-! ### Notification flags -/

/-- A living node that needs to be notified is in `N`, or held back by a pending write, or below a
node that needs to be notified or is held back. -/
def Covered (N : Nat → Prop) (g : Graph V S) : Prop :=
  ∀ n, (g.node n).alive = true → (g.node n).needsNotify = true →
    N n ∨ (g.node n).dirty = true ∨
      ∃ p ∈ (g.node n).parents, (g.node p).needsNotify = true ∨ (g.node p).dirty = true

theorem Touch.covered {n : Nat} {g g' : Graph V S} (h : Touch n g g') {N : Nat → Prop}
    (hc : Covered N g) : Covered N g' := by
  intro m ha hn
  have hnn : ∀ m, (g'.node m).needsNotify = (g.node m).needsNotify := by
    intro m
    by_cases hm : m = n
    · subst hm; exact h.needsNotify
    · rw [h.other m hm]
  rw [h.same.alive] at ha
  rw [hnn] at hn
  rw [h.same.parents]
  rcases hc m ha hn with h1 | h1 | ⟨p, hp, h1⟩
  · exact .inl h1
  · exact .inr (.inl (h.dirty_mono h1))
  · refine .inr (.inr ⟨p, hp, ?_⟩)
    rcases h1 with h1 | h1
    · left; rw [hnn]; exact h1
    · exact .inr (h.dirty_mono h1)

theorem Recomputes.covered {g g' : Graph V S} (h : Recomputes g g') {N : Nat → Prop}
    (hc : Covered N g) : Covered N g' := by
  induction h with
  | refl => exact hc
  | step n _ ih => exact (recompute_touch _ n).covered ih

theorem sendDownN_covered (k : Nat) (g : Graph V S) (n : Nat) (N : Nat → Prop) (w : WF g)
    (hc : Covered N g) : Covered (fun m => m = n ∨ N m) (g.sendDownN k n) := by
  induction k generalizing g n N with
  | zero =>
    intro m ha hn
    rcases hc m ha hn with h | h
    · exact .inl (.inr h)
    · exact .inr h
  | succ k ih =>
    simp only [Graph.sendDownN]
    have ht := recompute_touch g n
    have hc1 := ht.covered hc
    have w1 := ht.same.wf w
    split
    · rename_i hd
      have w2 := (publish_same (g.recompute n) n).wf w1
      have hc2 : Covered (fun m => m = n ∨ N m) ((g.recompute n).publish n) := by
        intro m ha hn
        by_cases hm : m = n
        · exact .inl (.inl hm)
        · rw [(publish_same _ n).alive] at ha
          rw [publish_other _ hm] at hn ⊢
          rcases hc1 m ha hn with h1 | h1 | ⟨p, hp, h1⟩
          · exact .inl (.inr h1)
          · exact .inr (.inl h1)
          · refine .inr (.inr ⟨p, hp, ?_⟩)
            by_cases hpn : p = n
            · subst hpn; left; simp [Graph.publish]
            · rw [publish_other _ hpn]; exact h1
      have hn2 : (((g.recompute n).publish n).node n).needsNotify = true := by simp [Graph.publish]
      have walk : ∀ (l : List Nat) (g' : Graph V S), WF g' →
          (g'.node n).needsNotify = true → (∀ c ∈ l, n ∈ (g'.node c).parents) →
          Covered (fun m => m = n ∨ N m) g' →
          Covered (fun m => m = n ∨ N m)
            (l.foldl (fun g c => if (g.node c).alive then g.sendDownN k c else g) g') := by
        intro l
        induction l with
        | nil => intro g' _ _ _ hc'; exact hc'
        | cons c l ihl =>
          intro g' w' hn' hl hc'
          simp only [List.foldl_cons]
          split
          · have hmv := sendDownN_moves k g' c
            apply ihl _ (hmv.same.wf w') (hmv.needsNotify hn')
            · intro c' h'
              rw [hmv.same.parents]
              exact hl c' (List.mem_cons_of_mem _ h')
            · intro m ha hnm
              rcases ih g' c _ w' hc' m ha hnm with (h1 | h1) | h1
              · subst h1
                refine .inr (.inr ⟨n, ?_, .inl (hmv.needsNotify hn')⟩)
                rw [hmv.same.parents]
                exact hl m (List.mem_cons_self ..)
              · exact .inl h1
              · exact .inr h1
          · exact ihl _ w' hn' (fun c' h' => hl c' (List.mem_cons_of_mem _ h')) hc'
      apply walk _ _ w2 hn2 _ hc2
      intro c hcm
      exact (w2.child n c hcm).1
    · intro m ha hn
      rcases hc1 m ha hn with h | h
      · exact .inl (.inr h)
      · exact .inr h

end Verif.Graph
