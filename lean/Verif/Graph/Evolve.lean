import Verif.Graph.Rest

/-
How a single node can change in one step of the machine.
-/

set_option linter.unusedSectionVars false

namespace Verif.Graph

variable {V S : Type} [DecidableEq V]

/-- `push_down` seen from the node. -/
def Node.push (x : Node V S) (v : V) : Node V S :=
  if x.cmp = false ∨ v ≠ x.current then
    { x with current := v, dirty := true, chg := x.chg || decide (v ≠ x.current) }
  else x

theorem pushDown_node (g : Graph V S) (n : Nat) (v : V) :
    (g.pushDown n v).node n = (g.node n).push v := by
  unfold Graph.pushDown Node.push
  split
  · simp
  · rfl

/-- The elementary changes of a node. -/
inductive Elem : Node V S → Node V S → Prop where
  /-- links, callbacks, flags of `notify`, destruction -/
  | other (x) (children obs : List Nat) (notifying alive needsNotify : Bool) :
      (needsNotify = true → x.needsNotify = true) → (alive = true → x.alive = true) →
      Elem x { x with children := children, obs := obs, notifying := notifying, alive := alive,
                      needsNotify := needsNotify }
  | sample (x) (ext) : x.kind = .sensor ext →
      Elem x (Node.push { x with samples := x.samples + 1 } (ext x.samples))
  | view (x) (f put r v) : x.kind = .calc f put r → Elem x (x.push v)
  | feed (x) (down up ins) : x.kind = .xform down up →
      Elem x ((down x.downSt ins).2.foldl Node.push
        { x with downSt := (down x.downSt ins).1, fed := x.fed ++ [ins], input := ins })
  | write (x) (v) : (∃ a, x.kind = .state a) ∨ (∃ a, x.kind = .setter a) → Elem x (x.push v)
  | flag (x) (b) : Elem x { x with recomputed := b }
  | upSt (x) (s) : Elem x { x with upSt := s }
  | publish (x) : x.dirty = true →
      Elem x { x with last := x.current, dirty := false, chg := false, needsNotify := true }

/-- Any number of elementary changes. -/
inductive Evolves : Node V S → Node V S → Prop where
  | refl (x) : Evolves x x
  | tail {x y z} : Evolves x y → Elem y z → Evolves x z

theorem Evolves.trans {x y z : Node V S} (h : Evolves x y) (k : Evolves y z) : Evolves x z := by
  induction k with
  | refl => exact h
  | tail _ he ih => exact .tail ih he

theorem Elem.evolves {x y : Node V S} (h : Elem x y) : Evolves x y := .tail (.refl x) h

theorem pushDown_evolves (g : Graph V S) (n : Nat) (v : V)
    (hk : (∃ a, (g.node n).kind = .state a) ∨ (∃ a, (g.node n).kind = .setter a)) (m : Nat) :
    Evolves (g.node m) ((g.pushDown n v).node m) := by
  by_cases hm : m = n
  · subst hm; rw [pushDown_node]; exact (Elem.write _ v hk).evolves
  · rw [(pushDown_touch g n v).other m hm]; exact .refl _

theorem mod_evolves (g : Graph V S) (n : Nat) (f : Node V S → Node V S)
    (h : Evolves (g.node n) (f (g.node n))) (m : Nat) :
    Evolves (g.node m) ((g.mod n f).node m) := by
  by_cases hm : m = n
  · subst hm; rw [Graph.mod_self]; exact h
  · rw [Graph.mod_ne _ _ hm]; exact .refl _

theorem foldl_pushDown_node (n : Nat) (l : List V) (g : Graph V S) :
    (l.foldl (fun g v => g.pushDown n v) g).node n = l.foldl Node.push (g.node n) := by
  induction l generalizing g with
  | nil => rfl
  | cons v l ih => simp only [List.foldl_cons]; rw [ih, pushDown_node]

theorem recompute_evolves (g : Graph V S) (n m : Nat) :
    Evolves (g.node m) ((g.recompute n).node m) := by
  by_cases hm : m = n
  · subst hm
    unfold Graph.recompute
    cases hk : (g.node m).kind with
    | state _ => exact .refl _
    | constant => exact .refl _
    | sensor ext =>
      simp only
      rw [pushDown_node, Graph.mod_self]
      exact (Elem.sample _ ext hk).evolves
    | «calc» view put r =>
      simp only
      split
      · exact .refl _
      · rw [pushDown_node]; exact (Elem.view _ _ _ _ _ hk).evolves
    | xform down up =>
      simp only
      rw [foldl_pushDown_node, Graph.mod_self]
      exact (Elem.feed _ down up (g.currents (g.node m).parents) hk).evolves
    | setter a =>
      simp only
      split
      · rw [Graph.mod_self]; exact (Elem.flag _ false).evolves
      · split
        · rw [pushDown_node]; exact (Elem.write _ _ (.inr ⟨a, hk⟩)).evolves
        · exact .refl _
  · rw [recompute_other _ hm]; exact .refl _

theorem publish_evolves (g : Graph V S) (n : Nat) (hd : (g.node n).dirty = true) (m : Nat) :
    Evolves (g.node m) ((g.publish n).node m) :=
  mod_evolves g n _ (Elem.publish _ hd).evolves m

theorem Moves.evolves {g g' : Graph V S} (h : Moves g g') (m : Nat) :
    Evolves (g.node m) (g'.node m) := by
  induction h with
  | refl => exact .refl _
  | recompute n _ ih => exact ih.trans (recompute_evolves _ n m)
  | publish n _ hd ih => exact ih.trans (publish_evolves _ n hd m)

theorem Recomputes.evolves {g g' : Graph V S} (h : Recomputes g g') (m : Nat) :
    Evolves (g.node m) (g'.node m) := by
  induction h with
  | refl => exact .refl _
  | step n _ ih => exact ih.trans (recompute_evolves _ n m)

theorem sendAll_moves (rs : List Nat) (g : Graph V S) :
    Moves g (rs.foldl (fun g r => g.sendDown r) g) :=
  foldl_moves (fun g r => sendDown_moves g r) rs g

theorem other_children (x : Node V S) (l : List Nat) : Evolves x { x with children := l } :=
  (Elem.other x l x.obs x.notifying x.alive x.needsNotify id id).evolves

theorem istep_evolves {m m' : M V S} (h : Inv m) (he : istep m = some m') (n : Nat) :
    Evolves (m.g.node n) (m'.g.node n) := by
  unfold istep at he
  split at he
  · cases he
  · split at he
    · rename_i k st hst
      split at he
      · cases he
        dsimp only
        refine mod_evolves _ _ _ ?_ n
        exact (Elem.other _ _ _ true _ false (by simp) id).evolves
      · cases he; exact .refl _
    · split at he
      · cases he; exact .refl _
      · cases he; exact .refl _
      · cases he; exact .refl _
    · rename_i k i size prev garbage st hst
      split at he
      · split at he
        · cases he; exact .refl _
        · split at he
          · cases he; exact .refl _
          · cases he; exact .refl _
      · cases he
        refine Evolves.trans (y := (if (garbage && !prev) = true then m.g.collect k else m.g).node n)
          ?_ ?_
        rotate_left
        · dsimp only
          refine mod_evolves _ _ _ ?_ n
          exact (Elem.other _ _ _ prev _ _ id id).evolves
        split
        · exact mod_evolves _ _ _ (other_children _ _) n
        · exact .refl _
    · cases he; exact .refl _
    · cases he; exact .refl _
    · rename_i k v st hst
      split at he
      · rename_i auto hk
        have h1 := pushDown_evolves m.g k v (.inl ⟨auto, hk⟩) n
        split at he
        · cases he
          exact h1.trans ((sendDown_moves _ k).evolves n)
        · cases he; exact h1
      · cases he
        simp only
        split
        · exact (refresh_recomputes m.g k).evolves n
        · exact .refl _
      · cases he
        dsimp only
        refine mod_evolves _ _ _ ?_ n
        exact (Elem.upSt _ _).evolves
      · cases he; exact .refl _
      · cases he; exact .refl _
    · cases he; exact .refl _
    · cases he; exact .refl _
    · rename_i k v st hst
      obtain ⟨a, hk⟩ := h.stack.setters k v (by rw [hst]; exact List.mem_cons_self ..)
      have h1 := pushDown_evolves m.g k v (.inr ⟨a, hk⟩) n
      split at he
      · cases he
        exact h1.trans ((mod_evolves _ _ _ (Elem.flag _ true).evolves n).trans
          ((sendDown_moves _ k).evolves n))
      · cases he; exact h1
    · cases he
    · cases he

theorem add_evolves (g : Graph V S) (x : Node V S) {n : Nat} (hn : n < g.size) :
    Evolves (g.node n) ((g.add x).node n) := by
  obtain ⟨k, hk, _⟩ := add_old g x (by omega : n ≠ g.size)
  rw [hk]
  exact other_children _ _

theorem ustep_evolves [Inhabited S] {m m' : M V S} (op : Op V S) (he : ustep m op = some m')
    {n : Nat} (hn : n < m.g.size) : Evolves (m.g.node n) (m'.g.node n) := by
  unfold ustep at he
  split at he
  · cases he
  · split at he
    case h_2 => cases he
    cases op with
    | newState auto cmp v => cases he; exact add_evolves _ _ hn
    | newSensor cmp ext => cases he; exact add_evolves _ _ hn
    | newConstant cmp v => cases he; exact add_evolves _ _ hn
    | newCalc cmp ps view put refreshes dflt =>
      simp only at he
      split at he
      · cases he; exact add_evolves _ _ hn
      · cases he
    | newXform cmp ps s0 u0 down up dflt =>
      simp only at he
      split at he
      · cases he; exact add_evolves _ _ hn
      · cases he
    | newSetter cmp p auto =>
      simp only at he
      split at he
      · cases he; exact add_evolves _ _ hn
      · cases he
    | set k v =>
      simp only at he
      split at he
      · cases he; exact .refl _
      · cases he
    | update k f =>
      simp only at he
      split at he
      · cases he; exact .refl _
      · cases he
    | commit rs =>
      simp only at he
      split at he
      · cases he; exact (sendAll_moves rs m.g).evolves n
      · cases he
    | attach k i =>
      simp only at he
      split at he
      · cases he
        dsimp only
        refine mod_evolves _ _ _ ?_ n
        exact (Elem.other (m.g.node k) (m.g.node k).children _
          (m.g.node k).notifying (m.g.node k).alive (m.g.node k).needsNotify id id).evolves
      · cases he
    | detach k w =>
      cases he
      dsimp only
      refine mod_evolves _ _ _ ?_ n
      exact (Elem.other (m.g.node k) (m.g.node k).children _
          (m.g.node k).notifying (m.g.node k).alive (m.g.node k).needsNotify id id).evolves
    | kill k =>
      simp only at he
      split at he
      · cases he
        dsimp only
        refine mod_evolves _ _ _ ?_ n
        exact (Elem.other (m.g.node k) (m.g.node k).children _
          (m.g.node k).notifying false (m.g.node k).needsNotify id (by simp)).evolves
      · cases he
    | ret =>
      simp only at he
      split at he
      · cases he
      · cases he; exact .refl _

theorem istep_size {m m' : M V S} (he : istep m = some m') : m'.g.size = m.g.size := by
  unfold istep at he
  split at he
  · cases he
  · split at he
    · split at he <;> (cases he; rfl)
    · split at he <;> (cases he; rfl)
    · split at he
      · split at he
        · cases he; rfl
        · split at he <;> (cases he; rfl)
      · cases he
        simp only [Graph.mod_size]
        split <;> rfl
    · cases he; rfl
    · cases he; rfl
    · split at he
      · split at he
        · cases he
          rw [(sendDown_moves _ _).same.size, (pushDown_touch _ _ _).same.size]
        · cases he; exact (pushDown_touch _ _ _).same.size
      · cases he
        simp only
        split
        · exact (refresh_recomputes _ _).same.size
        · rfl
      · cases he; rfl
      · cases he; rfl
      · cases he; rfl
    · cases he; rfl
    · cases he; rfl
    · split at he
      · cases he
        rw [(sendDown_moves _ _).same.size]
        exact (pushDown_touch _ _ _).same.size
      · cases he; exact (pushDown_touch _ _ _).same.size
    · cases he
    · cases he

/-- The new node of a creating operation, if any. -/
def Created [Inhabited S] (m m' : M V S) (x : Node V S) : Prop := m'.g = m.g.add x ∧
  (∀ p ∈ x.parents, p < m.g.size) ∧
  ((∃ auto cmp v, x = freshNode (.state auto) [] v cmp default default) ∨
   (∃ cmp ext, x = { freshNode (.sensor ext) [] (ext 0) cmp default default with samples := 1 }) ∨
   (∃ cmp v, x = freshNode .constant [] v cmp default default) ∨
   (∃ cmp ps view put r d, x = freshNode (.calc view put r) ps
      ((view (m.g.currents ps)).getD d) cmp default default) ∨
   (∃ cmp ps s0 u0 down up d, x = { freshNode (.xform down up) ps
      (lastOr d (down s0 (m.g.currents ps)).2) cmp s0 u0 with input := m.g.currents ps }) ∨
   (∃ cmp p auto, x = freshNode (.setter auto) [p] (m.g.node p).current cmp default default))

/-- A step either changes existing nodes or creates one node. -/
theorem step_size [Inhabited S] {m m' : M V S} (hs : Step m m') :
    m'.g.size = m.g.size ∨ ∃ x, Created m m' x := by
  cases hs with
  | lib he => exact .inl (istep_size he)
  | user op he =>
    unfold ustep at he
    split at he
    · cases he
    · split at he
      case h_2 => cases he
      have hpl : ∀ {ps : List Nat}, ps.all m.g.valid = true → ∀ p ∈ ps, p < m.g.size :=
        fun hv p hp => (valid_alive (List.all_eq_true.1 hv p hp)).1
      cases op with
      | newState auto cmp v =>
        cases he; exact .inr ⟨_, rfl, by simp [freshNode], .inl ⟨auto, cmp, v, rfl⟩⟩
      | newSensor cmp ext =>
        cases he; exact .inr ⟨_, rfl, by simp [freshNode], .inr (.inl ⟨cmp, ext, rfl⟩)⟩
      | newConstant cmp v =>
        cases he; exact .inr ⟨_, rfl, by simp [freshNode], .inr (.inr (.inl ⟨cmp, v, rfl⟩))⟩
      | newCalc cmp ps view put r d =>
        simp only at he
        split at he
        · rename_i hc
          cases he
          exact .inr ⟨_, rfl, hpl hc.2.1,
            .inr (.inr (.inr (.inl ⟨cmp, ps, view, put, r, d, rfl⟩)))⟩
        · cases he
      | newXform cmp ps s0 u0 down up d =>
        simp only at he
        split at he
        · rename_i hc
          cases he
          exact .inr ⟨_, rfl, hpl hc.2.1,
            .inr (.inr (.inr (.inr (.inl ⟨cmp, ps, s0, u0, down, up, d, rfl⟩))))⟩
        · cases he
      | newSetter cmp p auto =>
        simp only at he
        split at he
        · rename_i hc
          cases he
          refine .inr ⟨_, rfl, ?_, .inr (.inr (.inr (.inr (.inr ⟨cmp, p, auto, rfl⟩))))⟩
          intro q hq
          have : q = p := by simpa [freshNode] using hq
          rw [this]; exact (valid_alive hc).1
        · cases he
      | set k v =>
        simp only at he
        split at he
        · cases he; exact .inl rfl
        · cases he
      | update k f =>
        simp only at he
        split at he
        · cases he; exact .inl rfl
        · cases he
      | commit rs =>
        simp only at he
        split at he
        · cases he; exact .inl (sendAll_same rs m.g).size
        · cases he
      | attach k i =>
        simp only at he
        split at he
        · cases he; exact .inl rfl
        · cases he
      | detach k w => cases he; exact .inl rfl
      | kill k =>
        simp only at he
        split at he
        · cases he; exact .inl rfl
        · cases he
      | ret =>
        simp only at he
        split at he
        · cases he
        · cases he; exact .inl rfl

theorem step_evolves [Inhabited S] {m m' : M V S} (h : Inv m) (hs : Step m m') {n : Nat}
    (hn : n < m.g.size) : Evolves (m.g.node n) (m'.g.node n) := by
  cases hs with
  | lib he => exact istep_evolves h he n
  | user op he => exact ustep_evolves op he hn

theorem step_size_le [Inhabited S] {m m' : M V S} (hs : Step m m') :
    m.g.size ≤ m'.g.size := by
  rcases step_size hs with h1 | ⟨x, h1, _⟩
  · omega
  · rw [h1, add_size]; omega

/-- A property of single nodes that holds for new nodes and is kept by elementary changes holds for
all nodes of all reachable states. -/
theorem node_inv [Inhabited S] {P : Node V S → Prop}
    (hnew : ∀ (m m' : M V S) x, Inv m → Created m m' x → P x)
    (helem : ∀ x y, P x → Elem x y → P y) {m : M V S} (h : Reach m) (hub : m.ub = false) :
    ∀ n, n < m.g.size → P (m.g.node n) := by
  have hev : ∀ x y, P x → Evolves x y → P y := by
    intro x y hx he
    induction he with
    | refl => exact hx
    | tail _ he ih => exact helem _ _ ih he
  induction h with
  | start ltr dummy hd => intro n hn; simp [start] at hn
  | @step m m' hr hs ih =>
    have hub' := step_ub hs
    have hi := reach_inv hr hub'
    intro n hn
    by_cases hlt : n < m.g.size
    · exact hev _ _ (ih hub' n hlt) (step_evolves hi hs hlt)
    · rcases step_size hs with h1 | ⟨x, hx⟩
      · omega
      · have hne : n = m.g.size := by
          have := hx.1 ▸ add_size m.g x
          omega
        subst hne
        rw [hx.1, add_new m.g x hx.2.1]
        exact hnew m m' x hi hx

theorem Elem.const {x y : Node V S} (h : Elem x y) :
    y.kind = x.kind ∧ y.parents = x.parents ∧ y.cmp = x.cmp ∧ y.init = x.init ∧
      y.start = x.start := by
  have hp : ∀ (z : Node V S) v, (z.push v).kind = z.kind ∧ (z.push v).parents = z.parents ∧
      (z.push v).cmp = z.cmp ∧ (z.push v).init = z.init ∧ (z.push v).start = z.start := by
    intro z v; unfold Node.push; split <;> exact ⟨rfl, rfl, rfl, rfl, rfl⟩
  cases h with
  | sample ext _ => exact hp _ _
  | view f put r v _ => exact hp _ _
  | write v _ => exact hp _ _
  | feed down up ins _ =>
    have : ∀ (l : List V) (z : Node V S), (l.foldl Node.push z).kind = z.kind ∧
        (l.foldl Node.push z).parents = z.parents ∧ (l.foldl Node.push z).cmp = z.cmp ∧
        (l.foldl Node.push z).init = z.init ∧ (l.foldl Node.push z).start = z.start := by
      intro l
      induction l with
      | nil => intro z; exact ⟨rfl, rfl, rfl, rfl, rfl⟩
      | cons v l ih =>
        intro z
        obtain ⟨h1, h2, h3, h4, h5⟩ := ih (z.push v)
        obtain ⟨k1, k2, k3, k4, k5⟩ := hp z v
        exact ⟨h1.trans k1, h2.trans k2, h3.trans k3, h4.trans k4, h5.trans k5⟩
    exact this _ _
  | other _ _ _ _ _ _ _ => exact ⟨rfl, rfl, rfl, rfl, rfl⟩
  | flag _ => exact ⟨rfl, rfl, rfl, rfl, rfl⟩
  | upSt _ => exact ⟨rfl, rfl, rfl, rfl, rfl⟩
  | publish _ => exact ⟨rfl, rfl, rfl, rfl, rfl⟩

theorem Evolves.const {x y : Node V S} (h : Evolves x y) :
    y.kind = x.kind ∧ y.parents = x.parents ∧ y.cmp = x.cmp ∧ y.init = x.init ∧
      y.start = x.start := by
  induction h with
  | refl => exact ⟨rfl, rfl, rfl, rfl, rfl⟩
  | tail _ he ih =>
    obtain ⟨h1, h2, h3, h4, h5⟩ := he.const
    obtain ⟨k1, k2, k3, k4, k5⟩ := ih
    exact ⟨h1.trans k1, h2.trans k2, h3.trans k3, h4.trans k4, h5.trans k5⟩

/-- Kinds and parents are fixed when a node is created. -/
theorem Runs.const [Inhabited S] {m m' : M V S} (h : Runs m m') (hi : Inv m)
    (hub : m'.ub = false) {n : Nat} (hn : n < m.g.size) :
    (m'.g.node n).kind = (m.g.node n).kind ∧ (m'.g.node n).parents = (m.g.node n).parents ∧
    (m'.g.node n).cmp = (m.g.node n).cmp ∧ n < m'.g.size := by
  induction h with
  | refl => exact ⟨rfl, rfl, rfl, hn⟩
  | step hs hr ih =>
    have h1 := (step_evolves hi hs hn).const
    have hle := step_size_le hs
    obtain ⟨h2, h3, h4, h5⟩ := ih (step_inv hi hs (hr.ub hub)) hub (by omega)
    exact ⟨h2.trans h1.1, h3.trans h1.2.1, h4.trans h1.2.2.1, h5⟩

/-- States, sensors and constants have no parents. -/
theorem roots_no_parents [Inhabited S] {m : M V S} (h : Reach m) (hub : m.ub = false) {n : Nat}
    (hn : n < m.g.size) (hk : (∃ a, (m.g.node n).kind = .state a) ∨
      (∃ e, (m.g.node n).kind = .sensor e) ∨ (m.g.node n).kind = .constant) :
    (m.g.node n).parents = [] := by
  revert hk
  refine node_inv (P := fun x => ((∃ a, x.kind = .state a) ∨ (∃ e, x.kind = .sensor e) ∨
    x.kind = .constant) → x.parents = []) ?_ ?_ h hub n hn
  · intro m m' x _ hx
    rcases hx.2.2 with ⟨_, _, _, rfl⟩ | ⟨_, _, rfl⟩ | ⟨_, _, rfl⟩ | ⟨_, _, _, _, _, _, rfl⟩ |
      ⟨_, _, _, _, _, _, _, rfl⟩ | ⟨_, _, _, rfl⟩ <;> simp [freshNode]
  · intro x y hx he
    have := he.const
    rw [this.1, this.2.1]
    exact hx

end Verif.Graph
