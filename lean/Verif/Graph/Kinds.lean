import Verif.Graph.Write

/-
What can happen to constants, sensors, stateful transducers and destroyed nodes.
-/

set_option linter.unusedSectionVars false

namespace Verif.Graph

variable {V S : Type} [DecidableEq V]

/-! ### Parts of the heap that propagation does not reach -/

theorem refreshN_frame (m : Nat) (Q : Nat → Prop) (k : Nat) (g : Graph V S) (n : Nat)
    (hq : Q n) (hpar : ∀ a, Q a → ∀ p ∈ (g.node a).parents, Q p)
    (hne : ∀ a, Q a → ((∃ v pt r, (g.node a).kind = .calc v pt r) ∨
      ∃ d u, (g.node a).kind = .xform d u) → m ≠ a) :
    (g.refreshN k n).node m = g.node m := by
  have gen : ∀ (k : Nat) (g' : Graph V S) (n : Nat), Same g g' → Q n →
      (g'.refreshN k n).node m = g'.node m ∧ Same g' (g'.refreshN k n) := by
    intro k
    induction k with
    | zero => intro g' n hs hq; exact ⟨rfl, .refl g'⟩
    | succ k ih =>
      intro g' n hs hq
      have walk : ∀ (l : List Nat) (g' : Graph V S), Same g g' → (∀ p ∈ l, Q p) →
          (l.foldl (fun g p => g.refreshN k p) g').node m = g'.node m ∧
          Same g' (l.foldl (fun g p => g.refreshN k p) g') := by
        intro l
        induction l with
        | nil => intro g' _ _; exact ⟨rfl, .refl g'⟩
        | cons p l ihl =>
          intro g' hs' hl
          simp only [List.foldl_cons]
          obtain ⟨h1, h2⟩ := ih g' p hs' (hl p (List.mem_cons_self ..))
          obtain ⟨h3, h4⟩ := ihl _ (hs'.trans h2) (fun q hq => hl q (List.mem_cons_of_mem _ hq))
          exact ⟨h3.trans h1, h2.trans h4⟩
      have go : ((∃ v pt r, (g'.node n).kind = .calc v pt r) ∨
            ∃ d u, (g'.node n).kind = .xform d u) →
          (((g'.order (g'.node n).parents).foldl (fun g p => g.refreshN k p) g').recompute n).node m
            = g'.node m ∧
          Same g' (((g'.order (g'.node n).parents).foldl
            (fun g p => g.refreshN k p) g').recompute n) := by
        intro hk
        obtain ⟨h1, h2⟩ := walk (g'.order (g'.node n).parents) g' hs (fun p hp => by
          have hp' := mem_order.1 hp
          rw [hs.parents] at hp'
          exact hpar n hq p hp')
        have hmn : m ≠ n := hne n hq (by rw [← hs.kind]; exact hk)
        exact ⟨(recompute_other _ hmn).trans h1, h2.trans (recompute_touch _ n).same⟩
      simp only [Graph.refreshN]
      split
      · rename_i hk; exact go (.inl ⟨_, _, _, hk⟩)
      · rename_i hk; exact go (.inr ⟨_, _, hk⟩)
      · exact ⟨rfl, .refl g'⟩
  exact (gen k g n (.refl g) hq).1

theorem sendDownN_dead (k : Nat) (g : Graph V S) (n : Nat) (ha : (g.node n).alive = true) {m : Nat}
    (hm : (g.node m).alive = false) : (g.sendDownN k n).node m = g.node m := by
  induction k generalizing g n with
  | zero => rfl
  | succ k ih =>
    have hne : m ≠ n := fun e => by rw [e, ha] at hm; cases hm
    simp only [Graph.sendDownN]
    split
    · have walk : ∀ (l : List Nat) (g' : Graph V S), (g'.node m).alive = false →
          (l.foldl (fun g c => if (g.node c).alive then g.sendDownN k c else g) g').node m =
            g'.node m := by
        intro l
        induction l with
        | nil => intro g' _; rfl
        | cons c l ihl =>
          intro g' hd
          simp only [List.foldl_cons]
          split
          · rename_i hc
            have h1 := ih g' c hc hd
            rw [ihl _ (by rw [h1]; exact hd), h1]
          · exact ihl g' hd
      have h1 : ((g.recompute n).publish n).node m = g.node m := by
        rw [publish_other _ hne, recompute_other _ hne]
      rw [walk _ _ (by rw [h1]; exact hm), h1]
    · exact recompute_other _ hne

/-- The parts of a node that only propagation and writing change. -/
structure Frozen (x y : Node V S) : Prop where
  kind : y.kind = x.kind
  current : y.current = x.current
  last : y.last = x.last
  dirty : y.dirty = x.dirty
  samples : y.samples = x.samples

theorem Frozen.refl (x : Node V S) : Frozen x x := ⟨rfl, rfl, rfl, rfl, rfl⟩

theorem Frozen.trans {x y z : Node V S} (h : Frozen x y) (k : Frozen y z) : Frozen x z :=
  ⟨k.kind.trans h.kind, k.current.trans h.current, k.last.trans h.last, k.dirty.trans h.dirty,
    k.samples.trans h.samples⟩

theorem Frozen.of_eq {x y : Node V S} (h : y = x) : Frozen x y := by subst h; exact .refl _

theorem frozen_mod {g : Graph V S} {n : Nat} {f : Node V S → Node V S}
    (h : Frozen (g.node n) (f (g.node n))) (m : Nat) : Frozen (g.node m) ((g.mod n f).node m) := by
  by_cases hm : m = n
  · subst hm; rw [Graph.mod_self]; exact h
  · rw [Graph.mod_ne _ _ hm]; exact .refl _

/-- Destroyed nodes, sensors and constants. -/
def Apart (g : Graph V S) (n : Nat) : Prop :=
  (g.node n).alive = false ∨ ((g.node n).parents = [] ∧
    ((∃ e, (g.node n).kind = .sensor e) ∨ (g.node n).kind = .constant))

theorem Apart.same {g g' : Graph V S} (h : Same g g') {n : Nat} (ha : Apart g n) : Apart g' n := by
  unfold Apart
  rw [h.alive, h.parents, h.kind]
  exact ha

theorem Apart.sendDown {g : Graph V S} (w : WF g) {n k : Nat} (h : Apart g n)
    (hk : (g.node k).alive = true) (hkind : (∃ a, (g.node k).kind = .state a) ∨
      ∃ a, (g.node k).kind = .setter a) : (g.sendDown k).node n = g.node n := by
  rcases h with h | ⟨h, h2⟩
  · exact sendDownN_dead _ _ _ hk h
  · refine sendDown_root g k w (fun e => ?_) h
    subst e
    rcases h2 with ⟨e, h2⟩ | h2 <;> rcases hkind with ⟨a, h3⟩ | ⟨a, h3⟩ <;>
      (rw [h2] at h3; cases h3)

theorem Apart.ne {g : Graph V S} {n k : Nat} (h : Apart g n) (hk : (g.node k).alive = true)
    (hkind : (∃ a, (g.node k).kind = .state a) ∨ ∃ a, (g.node k).kind = .setter a) : n ≠ k := by
  intro e
  subst e
  rcases h with h | ⟨_, h2⟩
  · rw [hk] at h; cases h
  · rcases h2 with ⟨e, h2⟩ | h2 <;> rcases hkind with ⟨a, h3⟩ | ⟨a, h3⟩ <;>
      (rw [h2] at h3; cases h3)

theorem istep_frozen {m m' : M V S} (h : Inv m) (he : istep m = some m') {n : Nat}
    (ha : Apart m.g n) : Frozen (m.g.node n) (m'.g.node n) := by
  unfold istep at he
  split at he
  · cases he
  · split at he
    · split at he
      · cases he
        dsimp only
        refine frozen_mod ?_ n
        exact ⟨rfl, rfl, rfl, rfl, rfl⟩
      · cases he; exact .refl _
    · split at he <;> (cases he; exact .refl _)
    · rename_i k i size prev garbage st hst
      split at he
      · split at he
        · cases he; exact .refl _
        · split at he <;> (cases he; exact .refl _)
      · cases he
        dsimp only
        refine Frozen.trans (y := (if (garbage && !prev) = true then m.g.collect k else m.g).node n)
          ?_ ?_
        rotate_left
        · refine frozen_mod ?_ n
          exact ⟨rfl, rfl, rfl, rfl, rfl⟩
        split
        · refine frozen_mod ?_ n
          exact ⟨rfl, rfl, rfl, rfl, rfl⟩
        · exact .refl _
    · cases he; exact .refl _
    · cases he; exact .refl _
    · rename_i k v st hst
      have hal : (m.g.node k).alive = true :=
        h.stack.holds (.up k v) (by rw [hst]; exact List.mem_cons_self ..) k (List.mem_cons_self ..)
      split at he
      · rename_i auto hk
        have ht := pushDown_touch m.g k v
        have hne := ha.ne hal (.inl ⟨auto, hk⟩)
        split at he
        · cases he
          refine .of_eq ?_
          rw [(ha.same ht.same).sendDown (ht.same.wf h.wf) (by rw [ht.same.alive]; exact hal)
            (.inl ⟨auto, by rw [ht.same.kind]; exact hk⟩), ht.other n hne]
        · cases he; exact .of_eq (ht.other n hne)
      · cases he
        simp only
        split
        · refine .of_eq ?_
          refine refreshN_frame n (fun a => (m.g.node a).alive = true) _ _ _ hal
            (fun a hA p hp => h.wf.parentAlive a hA p hp) ?_
          intro a hA hkk e
          subst e
          rcases ha with ha | ⟨_, ha⟩
          · rw [hA] at ha; cases ha
          · rcases ha with ⟨e, ha⟩ | ha <;> rcases hkk with ⟨_, _, _, hkk⟩ | ⟨_, _, hkk⟩ <;>
              (rw [ha] at hkk; cases hkk)
        · exact .refl _
      · cases he
        dsimp only
        refine frozen_mod ?_ n
        exact ⟨rfl, rfl, rfl, rfl, rfl⟩
      · cases he; exact .refl _
      · cases he; exact .refl _
    · cases he; exact .refl _
    · cases he; exact .refl _
    · rename_i k v st hst
      have hmem : Frame.setterRest k v ∈ m.stack := by rw [hst]; exact List.mem_cons_self ..
      obtain ⟨a, hk⟩ := h.stack.setters k v hmem
      have hal : (m.g.node k).alive = true := h.stack.holds _ hmem k (List.mem_cons_self ..)
      have ht := pushDown_touch m.g k v
      have hne := ha.ne hal (.inr ⟨a, hk⟩)
      split at he
      · cases he
        have hs : Same (m.g.pushDown k v)
            ((m.g.pushDown k v).mod k fun x => { x with recomputed := true }) :=
          same_mod rfl rfl rfl rfl rfl rfl rfl
        have hs2 := ht.same.trans hs
        refine .of_eq ?_
        dsimp only
        rw [(ha.same hs2).sendDown (hs2.wf h.wf) (by rw [hs2.alive]; exact hal)
          (.inr ⟨a, by rw [hs2.kind]; exact hk⟩), Graph.mod_ne _ _ hne, ht.other n hne]
      · cases he; exact .of_eq (ht.other n hne)
    · cases he
    · cases he

/-- What an API call does to such a node, or to any root, apart from commits that list it. -/
theorem ustep_frozen [Inhabited S] {m m' : M V S} {op : Op V S} (h : Inv m)
    (he : ustep m op = some m') {n : Nat} (hn : n < m.g.size)
    (ha : (m.g.node n).alive = false ∨ (m.g.node n).parents = [])
    (hop : ∀ rs, op = .commit rs → n ∉ rs) : Frozen (m.g.node n) (m'.g.node n) := by
  have hadd : ∀ x : Node V S, Frozen (m.g.node n) ((m.g.add x).node n) := by
    intro x
    obtain ⟨k, hk, _⟩ := add_old m.g x (by omega : n ≠ m.g.size)
    rw [hk]
    exact ⟨rfl, rfl, rfl, rfl, rfl⟩
  unfold ustep at he
  split at he
  · cases he
  · split at he
    case h_2 => cases he
    cases op with
    | newState auto cmp v => cases he; exact hadd _
    | newSensor cmp ext => cases he; exact hadd _
    | newConstant cmp v => cases he; exact hadd _
    | newCalc cmp ps view put refreshes dflt =>
      simp only at he
      split at he
      · cases he; exact hadd _
      · cases he
    | newXform cmp ps s0 u0 down up dflt =>
      simp only at he
      split at he
      · cases he; exact hadd _
      · cases he
    | newSetter cmp p auto =>
      simp only at he
      split at he
      · cases he; exact hadd _
      · cases he
    | set k v =>
      simp only at he
      split at he
      · cases he; exact .refl _
      · cases he
    | update k f =>
      simp only at he
      split at he
      · cases he; exact .refl _
      · cases he
    | commit rs =>
      simp only at he
      split at he
      · rename_i hc
        cases he
        rw [Bool.and_eq_true] at hc
        refine .of_eq ?_
        rcases ha with ha | ha
        · have walk : ∀ (l : List Nat) (g : Graph V S), Same m.g g →
              (∀ r ∈ l, (m.g.node r).alive = true) →
              (l.foldl (fun g r => g.sendDown r) g).node n = g.node n := by
            intro l
            induction l with
            | nil => intro g _ _; rfl
            | cons r l ih =>
              intro g hs hl
              simp only [List.foldl_cons]
              rw [ih _ (hs.trans (sendDown_moves g r).same)
                (fun q hq => hl q (List.mem_cons_of_mem _ hq))]
              exact sendDownN_dead _ _ _ (by rw [hs.alive]; exact hl r (List.mem_cons_self ..))
                (by rw [hs.alive]; exact ha)
          exact walk rs m.g (.refl _) (all_valid hc.1)
        · exact sendAll_root rs m.g h.wf ha (hop rs rfl)
      · cases he
    | attach k i =>
      simp only at he
      split at he
      · cases he
        dsimp only
        refine frozen_mod ?_ n
        exact ⟨rfl, rfl, rfl, rfl, rfl⟩
      · cases he
    | detach k w =>
      cases he
      dsimp only
      refine frozen_mod ?_ n
      exact ⟨rfl, rfl, rfl, rfl, rfl⟩
    | kill k =>
      simp only at he
      split at he
      · cases he
        dsimp only
        refine frozen_mod ?_ n
        exact ⟨rfl, rfl, rfl, rfl, rfl⟩
      · cases he
    | ret =>
      simp only at he
      split at he
      · cases he
      · cases he; exact .refl _

/-! ### Sensors -/

theorem sendDown_sensor (g : Graph V S) (n : Nat) (w : WF g) (hn : n < g.size) {ext : Nat → V}
    (hk : (g.node n).kind = .sensor ext) :
    ((g.sendDown n).node n).samples = (g.node n).samples + 1 ∧
    ((g.sendDown n).node n).dirty = false := by
  have hr : (g.recompute n).node n =
      Node.push { g.node n with samples := (g.node n).samples + 1 } (ext (g.node n).samples) := by
    unfold Graph.recompute
    rw [hk]
    simp only
    rw [pushDown_node, Graph.mod_self]
  have hs : ((g.recompute n).node n).samples = (g.node n).samples + 1 := by
    rw [hr]; unfold Node.push; split <;> rfl
  rw [sendDown_self g n w hn]
  split
  · exact ⟨by simpa [Graph.publish] using hs, by simp [Graph.publish]⟩
  · rename_i h; exact ⟨hs, by simpa using h⟩

theorem sendAll_sensor (rs : List Nat) (g : Graph V S) (w : WF g) (hr : ∀ r ∈ rs, r < g.size)
    {n : Nat} {ext : Nat → V} (hk : (g.node n).kind = .sensor ext) (hp : (g.node n).parents = [])
    (hd : (g.node n).dirty = false) :
    ((rs.foldl (fun g r => g.sendDown r) g).node n).samples = (g.node n).samples + rs.count n ∧
    ((rs.foldl (fun g r => g.sendDown r) g).node n).dirty = false := by
  induction rs generalizing g with
  | nil => exact ⟨by simp, hd⟩
  | cons r rs ih =>
    simp only [List.foldl_cons]
    have hs := (sendDown_moves g r).same
    have hrl := hr r (List.mem_cons_self ..)
    have h1 : ((g.sendDown r).node n).samples = (g.node n).samples + (if r == n then 1 else 0) ∧
        ((g.sendDown r).node n).dirty = false := by
      by_cases hne : r = n
      · subst hne
        simpa using sendDown_sensor g r w hrl hk
      · rw [sendDown_root g r w (fun e => hne e.symm) hp]
        simp [hne, hd]
    obtain ⟨h2, h3⟩ := ih (g.sendDown r) (hs.wf w)
      (fun r' hr' => by rw [hs.size]; exact hr r' (List.mem_cons_of_mem _ hr'))
      (by rw [hs.kind]; exact hk) (by rw [hs.parents]; exact hp) h1.2
    refine ⟨?_, h3⟩
    rw [h2, h1.1, List.count_cons]
    omega

/-- Sensors at every point of every history: never dirty; sampled by commits only. -/
theorem step_sensor [Inhabited S] {m m' : M V S} (hr : Reach m) (hub : m.ub = false)
    (hs : Step m m') {n : Nat} (hn : n < m.g.size) {ext : Nat → V}
    (hk : (m.g.node n).kind = .sensor ext) (hd : (m.g.node n).dirty = false) :
    (m'.g.node n).dirty = false ∧
    ((istep m = some m' ∧ (m'.g.node n).samples = (m.g.node n).samples) ∨
     ∃ op, ustep m op = some m' ∧
      (m'.g.node n).samples = (m.g.node n).samples + op.samples n) := by
  have h := reach_inv hr hub
  have hp := roots_no_parents hr hub hn (.inr (.inl ⟨ext, hk⟩))
  have ha : Apart m.g n := .inr ⟨hp, .inl ⟨ext, hk⟩⟩
  cases hs with
  | lib he =>
    have := istep_frozen h he ha
    exact ⟨by rw [this.dirty]; exact hd, .inl ⟨he, this.samples⟩⟩
  | user op he =>
    cases op with
    | commit rs =>
      have he' := he
      unfold ustep at he
      split at he
      · cases he
      · split at he
        case h_2 => cases he
        simp only at he
        split at he
        · rename_i hc
          cases he
          rw [Bool.and_eq_true] at hc
          obtain ⟨h1, h2⟩ := sendAll_sensor rs m.g h.wf (fun r hr =>
            (valid_alive (List.all_eq_true.1 hc.1 r hr)).1) hk hp hd
          exact ⟨h2, .inr ⟨_, he', h1⟩⟩
        · cases he
    | newState | newSensor | newConstant | newCalc | newXform | newSetter | set | update | attach
    | detach | kill | ret =>
      have := ustep_frozen h he hn (.inr hp) (by intro rs e; cases e)
      exact ⟨by rw [this.dirty]; exact hd, .inr ⟨_, he, by rw [this.samples]; rfl⟩⟩

theorem created_parents {m m' : M V S} [Inhabited S] {x : Node V S} (h : Created m m' x) :
    x.dirty = false := by
  rcases h.2.2 with ⟨_, _, _, rfl⟩ | ⟨_, _, rfl⟩ | ⟨_, _, rfl⟩ | ⟨_, _, _, _, _, _, rfl⟩ |
    ⟨_, _, _, _, _, _, _, rfl⟩ | ⟨_, _, _, rfl⟩ <;> rfl

theorem sensor_clean [Inhabited S] {m : M V S} (hr : Reach m) (hub : m.ub = false) {n : Nat}
    (hn : n < m.g.size) {ext : Nat → V} (hk : (m.g.node n).kind = .sensor ext) :
    (m.g.node n).dirty = false := by
  induction hr with
  | start ltr dummy hd => simp [start] at hn
  | @step m m' hr hs ih =>
    have hub' := step_ub hs
    by_cases hlt : n < m.g.size
    · have hi := reach_inv hr hub'
      have hk' := (step_evolves hi hs hlt).const.1
      rw [hk] at hk'
      exact (step_sensor hr hub' hs hlt hk'.symm (ih hub' hlt hk'.symm)).1
    · rcases step_size hs with h1 | ⟨x, hx⟩
      · omega
      · have hne : n = m.g.size := by
          have := hx.1 ▸ add_size m.g x
          omega
        subst hne
        rw [hx.1, add_new m.g x hx.2.1]
        exact created_parents hx

theorem push_current (x : Node V S) (v : V) : (x.push v).current = v := by
  unfold Node.push
  split
  · rfl
  · rename_i h
    exact Classical.byContradiction fun hne => h (.inr fun e => hne e.symm)

theorem push_rest (x : Node V S) (v : V) : (x.push v).samples = x.samples ∧
    (x.push v).downSt = x.downSt ∧ (x.push v).fed = x.fed ∧ (x.push v).input = x.input := by
  unfold Node.push
  split <;> exact ⟨rfl, rfl, rfl, rfl⟩

theorem sensor_value [Inhabited S] {m : M V S} (hr : Reach m) (hub : m.ub = false) {n : Nat}
    (hn : n < m.g.size) {ext : Nat → V} (hk : (m.g.node n).kind = .sensor ext) :
    1 ≤ (m.g.node n).samples ∧ (m.g.node n).current = ext ((m.g.node n).samples - 1) := by
  revert ext
  have := node_inv (P := fun x => ∀ ext, x.kind = .sensor ext →
    1 ≤ x.samples ∧ x.current = ext (x.samples - 1)) ?_ ?_ hr hub n hn
  · intro ext; exact this ext
  · intro m m' x _ hx
    rcases hx.2.2 with ⟨_, _, _, rfl⟩ | ⟨_, _, rfl⟩ | ⟨_, _, rfl⟩ | ⟨_, _, _, _, _, _, rfl⟩ |
      ⟨_, _, _, _, _, _, _, rfl⟩ | ⟨_, _, _, rfl⟩ <;> intro ext hk
    case inr.inl => cases hk; exact ⟨Nat.le_refl _, rfl⟩
    all_goals cases hk
  · intro x y hx he ext hk
    have hk' := he.const.1
    rw [hk] at hk'
    obtain ⟨h1, h2⟩ := hx ext hk'.symm
    cases he with
    | sample e he =>
      rw [he] at hk'; cases hk'
      rw [push_current, (push_rest _ _).1]
      exact ⟨by simp, by simp⟩
    | view _ _ _ _ h => rw [h] at hk'; cases hk'
    | feed _ _ _ h => rw [h] at hk'; cases hk'
    | write _ h => rcases h with ⟨_, h⟩ | ⟨_, h⟩ <;> (rw [h] at hk'; cases hk')
    | other => exact ⟨h1, h2⟩
    | flag => exact ⟨h1, h2⟩
    | upSt => exact ⟨h1, h2⟩
    | publish => exact ⟨h1, h2⟩

/-! ### Constants -/

theorem constant_inv [Inhabited S] {m : M V S} (hr : Reach m) (hub : m.ub = false) {n : Nat}
    (hn : n < m.g.size) (hk : (m.g.node n).kind = .constant) :
    (m.g.node n).dirty = false ∧ (m.g.node n).needsNotify = false ∧
    (m.g.node n).current = (m.g.node n).init ∧ (m.g.node n).last = (m.g.node n).init := by
  revert hk
  refine node_inv (P := fun x => x.kind = .constant → x.dirty = false ∧ x.needsNotify = false ∧
    x.current = x.init ∧ x.last = x.init) ?_ ?_ hr hub n hn
  · intro m m' x _ hx
    rcases hx.2.2 with ⟨_, _, _, rfl⟩ | ⟨_, _, rfl⟩ | ⟨_, _, rfl⟩ | ⟨_, _, _, _, _, _, rfl⟩ |
      ⟨_, _, _, _, _, _, _, rfl⟩ | ⟨_, _, _, rfl⟩ <;> intro hk <;> exact ⟨rfl, rfl, rfl, rfl⟩
  · intro x y hx he hk
    have hk' := he.const.1
    rw [hk] at hk'
    obtain ⟨h1, h2, h3, h4⟩ := hx hk'.symm
    cases he with
    | sample e h => rw [h] at hk'; cases hk'
    | view _ _ _ _ h => rw [h] at hk'; cases hk'
    | feed _ _ _ h => rw [h] at hk'; cases hk'
    | write _ h => rcases h with ⟨_, h⟩ | ⟨_, h⟩ <;> (rw [h] at hk'; cases hk')
    | other c o nf al nn hnn hal =>
      refine ⟨h1, ?_, h3, h4⟩
      cases nn with
      | false => rfl
      | true => rw [hnn rfl] at h2; cases h2
    | flag => exact ⟨h1, h2, h3, h4⟩
    | upSt => exact ⟨h1, h2, h3, h4⟩
    | publish h => rw [h1] at h; cases h

/-- Observer loops start only on nodes that are flagged. -/
theorem step_obs [Inhabited S] {m m' : M V S} (hs : Step m m') {n : Nat} {cur : Option Nat}
    {prev : Bool} (hf : Frame.obs n cur prev ∈ m'.stack) :
    (∃ cur' , Frame.obs n cur' prev ∈ m.stack) ∨ (m.g.node n).needsNotify = true := by
  cases hs with
  | user op he =>
    left
    unfold ustep at he
    split at he
    · cases he
    · split at he
      case h_2 => cases he
      rename_i st hst
      cases op with
      | newState | newSensor | newConstant | detach => cases he; exact ⟨cur, hf⟩
      | newCalc | newXform | newSetter | attach | kill =>
        simp only at he
        split at he
        · cases he; exact ⟨cur, hf⟩
        · cases he
      | set | update | commit =>
        simp only at he
        split at he
        · cases he
          rcases List.mem_cons.1 hf with h1 | h1
          · cases h1
          · exact ⟨cur, h1⟩
        · cases he
      | ret =>
        simp only at he
        split at he
        · cases he
        · cases he; exact ⟨cur, by rw [hst]; exact List.mem_cons_of_mem _ hf⟩
  | lib he =>
    unfold istep at he
    split at he
    · cases he
    · split at he
      · rename_i k st hst
        split at he
        · rename_i hc
          cases he
          rcases List.mem_cons.1 hf with h1 | h1
          · cases h1
            rw [Bool.and_eq_true] at hc
            exact .inr hc.1
          · exact .inl ⟨cur, by rw [hst]; exact List.mem_cons_of_mem _ h1⟩
        · cases he; exact .inl ⟨cur, by rw [hst]; exact List.mem_cons_of_mem _ hf⟩
      · rename_i k cur' prev' st hst
        left
        split at he
        · cases he; exact ⟨cur, hf⟩
        · cases he
          rcases List.mem_cons.1 hf with h1 | h1
          · cases h1
          · exact ⟨cur, by rw [hst]; exact List.mem_cons_of_mem _ h1⟩
        · cases he
          rcases List.mem_cons.1 hf with h1 | h1
          · cases h1
          · rcases List.mem_cons.1 h1 with h2 | h2
            · cases h2; exact ⟨cur', by rw [hst]; exact List.mem_cons_self ..⟩
            · exact ⟨cur, by rw [hst]; exact List.mem_cons_of_mem _ h2⟩
      · rename_i k i size prev' garbage st hst
        left
        have tl : Frame.obs n cur prev ∈ st → ∃ cur', Frame.obs n cur' prev ∈ m.stack :=
          fun h => ⟨cur, by rw [hst]; exact List.mem_cons_of_mem _ h⟩
        split at he
        · split at he
          · cases he; exact ⟨cur, hf⟩
          · split at he
            · cases he
              rcases List.mem_cons.1 hf with h1 | h1
              · cases h1
              · rcases List.mem_cons.1 h1 with h2 | h2
                · cases h2
                · exact tl h2
            · cases he
              rcases List.mem_cons.1 hf with h1 | h1
              · cases h1
              · exact tl h1
        · cases he; exact tl hf
      · rename_i st hst
        cases he; exact .inl ⟨cur, by rw [hst]; exact List.mem_cons_of_mem _ hf⟩
      · rename_i r rs st hst
        cases he
        rcases List.mem_cons.1 hf with h1 | h1
        · cases h1
        · rcases List.mem_cons.1 h1 with h2 | h2
          · cases h2
          · exact .inl ⟨cur, by rw [hst]; exact List.mem_cons_of_mem _ h2⟩
      · rename_i k v st hst
        left
        have tl : Frame.obs n cur prev ∈ st → ∃ cur', Frame.obs n cur' prev ∈ m.stack :=
          fun h => ⟨cur, by rw [hst]; exact List.mem_cons_of_mem _ h⟩
        split at he
        · split at he
          · cases he
            rcases List.mem_cons.1 hf with h1 | h1
            · cases h1
            · exact tl h1
          · cases he; exact tl hf
        · cases he
          rcases List.mem_cons.1 hf with h1 | h1
          · cases h1
          · exact tl h1
        · cases he
          rcases List.mem_cons.1 hf with h1 | h1
          · cases h1
          · exact tl h1
        · cases he
          rcases List.mem_cons.1 hf with h1 | h1
          · cases h1
          · rcases List.mem_cons.1 h1 with h2 | h2
            · cases h2
            · exact tl h2
        · cases he; exact tl hf
      · rename_i st hst
        cases he; exact .inl ⟨cur, by rw [hst]; exact List.mem_cons_of_mem _ hf⟩
      · rename_i p v l st hst
        cases he
        rcases List.mem_cons.1 hf with h1 | h1
        · cases h1
        · rcases List.mem_cons.1 h1 with h2 | h2
          · cases h2
          · exact .inl ⟨cur, by rw [hst]; exact List.mem_cons_of_mem _ h2⟩
      · rename_i k v st hst
        left
        have tl : Frame.obs n cur prev ∈ st → ∃ cur', Frame.obs n cur' prev ∈ m.stack :=
          fun h => ⟨cur, by rw [hst]; exact List.mem_cons_of_mem _ h⟩
        split at he
        · cases he
          rcases List.mem_cons.1 hf with h1 | h1
          · cases h1
          · exact tl h1
        · cases he; exact tl hf
      · cases he
      · cases he

theorem constant_no_obs [Inhabited S] {m : M V S} (hr : Reach m) (hub : m.ub = false) {n : Nat}
    (hk : (m.g.node n).kind = .constant) (hn : n < m.g.size) (cur : Option Nat) (prev : Bool) :
    Frame.obs n cur prev ∉ m.stack := by
  induction hr generalizing cur with
  | start ltr dummy hd => simp [start] at hn
  | @step m m' hr hs ih =>
    have hub' := step_ub hs
    have hi := reach_inv hr hub'
    intro hf
    by_cases hlt : n < m.g.size
    · have hk' := (step_evolves hi hs hlt).const.1
      rw [hk] at hk'
      rcases step_obs hs hf with ⟨cur', h1⟩ | h1
      · exact ih hub' hk'.symm hlt cur' h1
      · rw [(constant_inv hr hub' hlt hk'.symm).2.1] at h1; cases h1
    · rcases step_obs hs hf with ⟨cur', h1⟩ | h1
      · have := hi.stack.holds _ h1 n (List.mem_cons_self ..)
        exact hlt (hi.wf.alive_lt this)
      · -- a node that does not exist yet is not flagged
        rcases step_size hs with h2 | ⟨x, hx⟩
        · omega
        · have halive := (reach_inv (.step hr hs) hub).stack.holds _ hf n (List.mem_cons_self ..)
          have hst : m'.stack = m.stack := by
            cases hs with
            | lib he =>
              have := istep_size he
              have h3 := hx.1 ▸ add_size m.g x
              omega
            | user op he =>
              unfold ustep at he
              split at he
              · cases he
              · split at he
                case h_2 => cases he
                cases op with
                | newState | newSensor | newConstant | detach => cases he; rfl
                | newCalc | newXform | newSetter | attach | kill =>
                  simp only at he
                  split at he
                  · cases he; rfl
                  · cases he
                | set | update =>
                  simp only at he
                  split at he
                  · cases he
                    exact absurd hn hlt
                  · cases he
                | commit rs =>
                  simp only at he
                  split at he
                  · cases he
                    have h3 := hx.1 ▸ add_size m.g x
                    have h4 := (sendAll_same rs m.g).size
                    simp only at h3
                    omega
                  · cases he
                | ret =>
                  simp only at he
                  split at he
                  · cases he
                  · cases he
                    exact absurd hn hlt
          rw [hst] at hf
          have := hi.stack.holds _ hf n (List.mem_cons_self ..)
          exact hlt (hi.wf.alive_lt this)

/-! ### Transducers -/

theorem runX_append (down : S → List V → S × List V) (s : S) (l : List (List V)) (i : List V) :
    runX down s (l ++ [i]) =
      ((down (runX down s l).1 i).1, (runX down s l).2 ++ (down (runX down s l).1 i).2) := by
  induction l generalizing s with
  | nil => simp [runX]
  | cons j l ih => simp only [List.cons_append, runX, ih, List.append_assoc]

theorem lastOr_append (d : V) (l l' : List V) : lastOr d (l ++ l') = lastOr (lastOr d l) l' := by
  induction l generalizing d with
  | nil => rfl
  | cons v l ih => exact ih v

theorem foldl_push (l : List V) (x : Node V S) :
    (l.foldl Node.push x).current = lastOr x.current l ∧
    (l.foldl Node.push x).downSt = x.downSt ∧ (l.foldl Node.push x).fed = x.fed ∧
    (l.foldl Node.push x).input = x.input := by
  induction l generalizing x with
  | nil => exact ⟨rfl, rfl, rfl, rfl⟩
  | cons v l ih =>
    simp only [List.foldl_cons, lastOr]
    obtain ⟨h1, h2, h3, h4⟩ := ih (x.push v)
    obtain ⟨_, k2, k3, k4⟩ := push_rest x v
    rw [push_current] at h1
    exact ⟨h1, h2.trans k2, h3.trans k3, h4.trans k4⟩

theorem xform_inv [Inhabited S] {m : M V S} (hr : Reach m) (hub : m.ub = false) {n : Nat}
    (hn : n < m.g.size) {down up} (hk : (m.g.node n).kind = .xform down up) :
    (m.g.node n).downSt = (runX down (m.g.node n).start (m.g.node n).fed).1 ∧
    (m.g.node n).current =
      lastOr (m.g.node n).init (runX down (m.g.node n).start (m.g.node n).fed).2 ∧
    ((m.g.node n).fed ≠ [] → (m.g.node n).fed.getLast? = some (m.g.node n).input) := by
  revert down up
  have := node_inv (P := fun x => ∀ down up, x.kind = .xform down up →
    x.downSt = (runX down x.start x.fed).1 ∧
    x.current = lastOr x.init (runX down x.start x.fed).2 ∧
    (x.fed ≠ [] → x.fed.getLast? = some x.input)) ?_ ?_ hr hub n hn
  · intro down up; exact this down up
  · intro m m' x _ hx
    rcases hx.2.2 with ⟨_, _, _, rfl⟩ | ⟨_, _, rfl⟩ | ⟨_, _, rfl⟩ | ⟨_, _, _, _, _, _, rfl⟩ |
      ⟨_, _, _, _, _, _, _, rfl⟩ | ⟨_, _, _, rfl⟩ <;> intro down up hk <;>
      exact ⟨rfl, rfl, fun h => absurd rfl h⟩
  · intro x y hx he down up hk
    have hk' := he.const.1
    rw [hk] at hk'
    obtain ⟨h1, h2, h3⟩ := hx down up hk'.symm
    cases he with
    | sample e h => rw [h] at hk'; cases hk'
    | view _ _ _ _ h => rw [h] at hk'; cases hk'
    | write _ h => rcases h with ⟨_, h⟩ | ⟨_, h⟩ <;> (rw [h] at hk'; cases hk')
    | feed d u ins h =>
      rw [h] at hk'; cases hk'
      obtain ⟨k1, k2, k3, k4⟩ := foldl_push (down x.downSt ins).2
        { x with downSt := (down x.downSt ins).1, fed := x.fed ++ [ins], input := ins }
      have hc := (Elem.feed x down up ins h).const
      rw [k1, k2, k3, k4, hc.2.2.2.1, hc.2.2.2.2, runX_append]
      refine ⟨by rw [← h1], ?_, fun _ => by simp⟩
      simp only
      rw [lastOr_append, ← h1, ← h2]
    | other => exact ⟨h1, h2, h3⟩
    | flag => exact ⟨h1, h2, h3⟩
    | upSt => exact ⟨h1, h2, h3⟩
    | publish => exact ⟨h1, h2, h3⟩

end Verif.Graph
