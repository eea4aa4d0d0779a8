import Verif.Graph.Props
import Verif.Graph.Silent

/-
A store as the root of a node graph (`lager/store.hpp:101-199`).  The node of a store is not written
through cursors: it gets new values by evaluating actions, `push_down(reducer(current(), action))`
(`store.hpp:160-164`), which is what `update` does to a transactional state, and it publishes them
by `send_down(); notify();` (`store.hpp:170-171, 190-191`), which is what `commit` does to it.
Without `transactional_tag` the store posts that publication to its loop, with the tag the program
commits.  So both are a state whose actions are evaluated at some moments at which no library code is
on top of the stack, and published at others.
-/

set_option linter.unusedSectionVars false

namespace Verif.Graph

variable {V S A : Type} [DecidableEq V]

/-! ### Vocabulary -/

/-- What happens in a program with a store: an action is evaluated, or anything else. -/
inductive SOp (A V S : Type) where
  /-- the task posted by `dispatch` evaluates the action, `store.hpp:157-164` -/
  | evaluate (a : A)
  | other (op : Op V S)

/-- What that is to the node `n` of the store. -/
def SOp.op (n : Nat) (red : V → A → V) : SOp A V S → Op V S
  | .evaluate a => .update n fun x => red x a
  | .other op => op

/-- The store is not a cursor: nothing writes to it, and no cursor is derived from it. -/
def SOp.readsOnly (n : Nat) : SOp A V S → Prop
  | .other (.set k _) => k ≠ n
  | .other (.update k _) => k ≠ n
  | .other (.newCalc _ ps _ put _ _) => put.isSome = true → n ∉ ps
  | .other (.newXform _ ps _ _ _ up _) => up.isSome = true → n ∉ ps
  | _ => True

/-- Does this publish the model? -/
def SOp.publishes (n : Nat) : SOp A V S → Bool
  | .other (.commit rs) => rs.contains n
  | _ => false

/-- The actions evaluated during a history. -/
def evaluated (l : List (SOp A V S)) : List A :=
  l.filterMap fun | .evaluate a => some a | _ => none

/-- The actions evaluated before the last publication. -/
def published (n : Nat) (l : List (SOp A V S)) : List A :=
  evaluated (l.reverse.dropWhile fun o => !o.publishes n).reverse

/-- `m.Shows n k F`: `k` is the store `n` itself, or a reader derived from it and nothing else,
directly or through other readers, and what it shows is `F` of the model. -/
inductive M.Shows (m : M V S) (n : Nat) : Nat → (V → V) → Prop where
  | store : M.Shows m n n fun x => x
  | reader {k : Nat} {view : List V → Option V} {put : Option (List V → V → List V)} {r : Bool}
      (F : Nat → V → V) (G : V → V) : (m.g.node k).kind = .calc view put r →
      (m.g.node k).parents ≠ [] → (∀ p ∈ (m.g.node k).parents, M.Shows m n p (F p)) →
      (∀ x, view ((m.g.node k).parents.map fun p => F p x) = some (G x)) → M.Shows m n k G

theorem evaluated_append (l l' : List (SOp A V S)) :
    evaluated (l ++ l') = evaluated l ++ evaluated l' := List.filterMap_append ..

theorem published_snoc (n : Nat) (l : List (SOp A V S)) (o : SOp A V S) :
    published n (l ++ [o]) = if o.publishes n then evaluated (l ++ [o]) else published n l := by
  unfold published
  rw [List.reverse_append, List.reverse_singleton, List.singleton_append, List.dropWhile_cons]
  cases h : o.publishes n <;> simp

theorem publishes_evaluated {n : Nat} {o : SOp A V S} (h : o.publishes n = true) :
    evaluated [o] = [] := by
  cases o with
  | evaluate a => cases h
  | other op => rfl

theorem published_length (n : Nat) (l : List (SOp A V S)) :
    (published n l).length ≤ (evaluated l).length := by
  have : l = (l.reverse.dropWhile fun o => !o.publishes n).reverse ++
      (l.reverse.takeWhile fun o => !o.publishes n).reverse := by
    rw [← List.reverse_append, List.takeWhile_append_dropWhile, List.reverse_reverse]
  conv => rhs; rw [this]
  rw [evaluated_append, List.length_append]
  exact Nat.le_add_right _ _

/-! ### What does not reach a set of nodes -/

/-- `send_down` of a node outside a set that contains the sources of its members changes nothing in
the set. -/
theorem sendDownN_outside (Q : Nat → Prop) (k : Nat) : ∀ (g : Graph V S) (n : Nat), WF g →
    (∀ a, Q a → ∀ p ∈ (g.node a).parents, Q p) → ¬ Q n → ∀ a, Q a →
    (g.sendDownN k n).node a = g.node a := by
  induction k with
  | zero => intro g n _ _ _ a _; rfl
  | succ k ih =>
    intro g n w hup hn a ha
    have hne : ∀ a, Q a → a ≠ n := fun a ha e => hn (e ▸ ha)
    simp only [Graph.sendDownN]
    split
    · have hs : Same g ((g.recompute n).publish n) :=
        (recompute_touch g n).same.trans (publish_same _ n)
      have h0 : ((g.recompute n).publish n).node a = g.node a := by
        rw [publish_other _ (hne a ha), recompute_other _ (hne a ha)]
      have walk : ∀ (l : List Nat) (g' : Graph V S), Same g g' → (∀ c ∈ l, ¬ Q c) →
          g'.node a = g.node a →
          (l.foldl (fun g c => if (g.node c).alive then g.sendDownN k c else g) g').node a =
            g.node a := by
        intro l
        induction l with
        | nil => intro g' _ _ h; exact h
        | cons c l ihl =>
          intro g' hs' hl hm'
          simp only [List.foldl_cons]
          have hc := hl c (List.mem_cons_self ..)
          apply ihl
          · split
            · exact hs'.trans (sendDownN_same k g' c)
            · exact hs'
          · exact fun c' hc' => hl c' (List.mem_cons_of_mem _ hc')
          · split
            · rw [ih g' c (hs'.wf w) (fun b hb p hp => hup b hb p (by rwa [hs'.parents] at hp)) hc a
                ha, hm']
            · exact hm'
      refine walk _ _ hs ?_ h0
      intro c hc hq
      rw [hs.children] at hc
      exact hn (hup c hq n (w.child n c hc).1)
    · exact recompute_other _ (hne a ha)

theorem sendAll_outside (Q : Nat → Prop) (rs : List Nat) : ∀ (g : Graph V S), WF g →
    (∀ a, Q a → ∀ p ∈ (g.node a).parents, Q p) → (∀ r ∈ rs, ¬ Q r) → ∀ a, Q a →
    (rs.foldl (fun g r => g.sendDown r) g).node a = g.node a := by
  induction rs with
  | nil => intro g _ _ _ a _; rfl
  | cons r rs ih =>
    intro g w hup hr a ha
    have hs := (sendDown_moves g r).same
    rw [List.foldl_cons, ih _ (hs.wf w) (fun b hb p hp => hup b hb p (by rwa [hs.parents] at hp))
      (fun q hq => hr q (List.mem_cons_of_mem _ hq)) a ha]
    exact sendDownN_outside Q _ g r w hup (hr r (List.mem_cons_self ..)) a ha

/-- Nodes that only compute, and transactional states, publish only when they are committed: library
code does not change what a set of them shows. -/
theorem istep_last {m m' : M V S} (h : Inv m) (he : istep m = some m') (Q : Nat → Prop)
    (hup : ∀ a, Q a → ∀ p ∈ (m.g.node a).parents, Q p)
    (hQ : ∀ a, Q a → (∃ v pt r, (m.g.node a).kind = .calc v pt r) ∨ (m.g.node a).kind = .state false)
    (a : Nat) (ha : Q a) : (m'.g.node a).last = (m.g.node a).last := by
  unfold istep at he
  split at he
  · cases he
  · split at he
    · split at he
      · cases he
        exact (frozen_mod (f := fun x => { x with needsNotify := false, notifying := true })
          ⟨rfl, rfl, rfl, rfl, rfl⟩ a).last
      · cases he; rfl
    · split at he <;> (cases he; rfl)
    · rename_i k i size prev garbage st hst
      split at he
      · split at he
        · cases he; rfl
        · split at he <;> (cases he; rfl)
      · cases he
        refine (frozen_mod (f := fun x => { x with notifying := prev })
          ⟨rfl, rfl, rfl, rfl, rfl⟩ a).last.trans ?_
        split
        · refine (frozen_mod ?_ a).last
          exact ⟨rfl, rfl, rfl, rfl, rfl⟩
        · rfl
    · cases he; rfl
    · cases he; rfl
    · rename_i k v st hst
      split at he
      · rename_i auto hk
        have ht := pushDown_touch m.g k v
        have hl : ((m.g.pushDown k v).node a).last = (m.g.node a).last := by
          by_cases e : a = k
          · subst e; exact ht.last
          · rw [ht.other a e]
        split at he
        · cases he
          have hn : ¬ Q k := by
            intro hq
            rename_i hauto
            rcases hQ k hq with ⟨_, _, _, h1⟩ | h1
            · rw [hk] at h1; cases h1
            · rw [hk] at h1
              cases h1
              cases hauto
          dsimp only [Graph.sendDown]
          rw [sendDownN_outside Q _ _ k (ht.same.wf h.wf) (fun b hb p hp => hup b hb p
            (by rwa [ht.same.parents] at hp)) hn a ha, hl]
        · cases he; exact hl
      · cases he
        simp only
        split
        · exact ((refresh_recomputes m.g k).last a).1
        · rfl
      · cases he
        dsimp only
        refine (frozen_mod ?_ a).last
        exact ⟨rfl, rfl, rfl, rfl, rfl⟩
      · cases he; rfl
      · cases he; rfl
    · cases he; rfl
    · cases he; rfl
    · rename_i k v st hst
      have hmem : Frame.setterRest k v ∈ m.stack := by rw [hst]; exact List.mem_cons_self ..
      obtain ⟨b, hk⟩ := h.stack.setters k v hmem
      have hn : ¬ Q k := by
        intro hq
        rcases hQ k hq with ⟨_, _, _, h1⟩ | h1 <;> (rw [hk] at h1; cases h1)
      have hne : a ≠ k := fun e => hn (e ▸ ha)
      have ht := pushDown_touch m.g k v
      split at he
      · cases he
        have hs : Same (m.g.pushDown k v)
            ((m.g.pushDown k v).mod k fun x => { x with recomputed := true }) :=
          same_mod rfl rfl rfl rfl rfl rfl rfl
        have hs2 := ht.same.trans hs
        dsimp only [Graph.sendDown]
        rw [sendDownN_outside Q _ _ k (hs2.wf h.wf) (fun b hb p hp => hup b hb p
            (by rwa [hs2.parents] at hp)) hn a ha, Graph.mod_ne _ _ hne, ht.other a hne]
      · cases he
        dsimp only
        rw [ht.other a hne]
    · cases he
    · cases he

theorem ustep_last [Inhabited S] {m m' : M V S} {op : Op V S} (h : Inv m)
    (he : ustep m op = some m') (Q : Nat → Prop)
    (hup : ∀ a, Q a → ∀ p ∈ (m.g.node a).parents, Q p)
    (hop : ∀ rs, op = .commit rs → ∀ r ∈ rs, ¬ Q r)
    (a : Nat) (hlt : a < m.g.size) (ha : Q a) : (m'.g.node a).last = (m.g.node a).last := by
  have hadd : ∀ x : Node V S, ((m.g.add x).node a).last = (m.g.node a).last := by
    intro x
    obtain ⟨k, hk, _⟩ := add_old m.g x (by omega : a ≠ m.g.size)
    rw [hk]
  unfold ustep at he
  split at he
  · cases he
  · split at he
    case h_2 => cases he
    cases op with
    | newState auto cmp v => cases he; exact hadd _
    | newSensor cmp ext => cases he; exact hadd _
    | newConstant cmp v => cases he; exact hadd _
    | newCalc cmp ps view put refreshes dflt =>
      simp only at he
      split at he
      · cases he; exact hadd _
      · cases he
    | newXform cmp ps s0 u0 down up dflt =>
      simp only at he
      split at he
      · cases he; exact hadd _
      · cases he
    | newSetter cmp p auto =>
      simp only at he
      split at he
      · cases he; exact hadd _
      · cases he
    | set k v =>
      simp only at he
      split at he
      · cases he; rfl
      · cases he
    | update k f =>
      simp only at he
      split at he
      · cases he; rfl
      · cases he
    | commit rs =>
      simp only at he
      split at he
      · cases he
        dsimp only
        rw [sendAll_outside Q rs m.g h.wf hup (hop rs rfl) a ha]
      · cases he
    | attach k i =>
      simp only at he
      split at he
      · cases he
        dsimp only
        refine (frozen_mod ?_ a).last
        exact ⟨rfl, rfl, rfl, rfl, rfl⟩
      · cases he
    | detach k w =>
      cases he
      dsimp only
      refine (frozen_mod ?_ a).last
      exact ⟨rfl, rfl, rfl, rfl, rfl⟩
    | kill k =>
      simp only at he
      split at he
      · cases he
        dsimp only
        refine (frozen_mod ?_ a).last
        exact ⟨rfl, rfl, rfl, rfl, rfl⟩
      · cases he
    | ret =>
      simp only at he
      split at he
      · cases he
      · cases he; rfl

/-! ### The node of the store -/

/-- A frame that is going to write to `n`. -/
def Frame.writes (n : Nat) : Frame V → Prop
  | .up k _ => k = n
  | .ups l => ∃ v, (n, v) ∈ l
  | _ => False

/-- No frame of the stack is going to write to `n`. -/
def Clear (n : Nat) (st : List (Frame V)) : Prop := ∀ f ∈ st, ¬ f.writes n

/-- No cursor is derived from `n`. -/
def NoCursor (g : Graph V S) (n : Nat) : Prop := ∀ c, n ∈ (g.node c).parents →
  (∀ view put r, (g.node c).kind ≠ .calc view (some put) r) ∧
  ∀ down up, (g.node c).kind ≠ .xform down (some up)

theorem Clear.tail {n : Nat} {f : Frame V} {st : List (Frame V)} (h : Clear n (f :: st)) :
    Clear n st := fun x hx => h x (List.mem_cons_of_mem _ hx)

theorem Clear.cons {n : Nat} {f : Frame V} {st : List (Frame V)} (h : ¬ f.writes n)
    (k : Clear n st) : Clear n (f :: st) := by
  intro x hx
  rcases List.mem_cons.1 hx with rfl | hx
  · exact h
  · exact k x hx

theorem not_writes_zip {n : Nat} {ps : List Nat} {vs : List V} (h : n ∉ ps) :
    ∀ v, (n, v) ∉ ps.zip vs := fun _ hv => h (List.of_mem_zip hv).1

/-- Library code that is not writing to the store leaves it alone. -/
theorem istep_clear {m m' : M V S} (h : Inv m) (he : istep m = some m') {n : Nat}
    (hk : (m.g.node n).kind = .state false) (hp : (m.g.node n).parents = [])
    (hcur : NoCursor m.g n) (hc : Clear n m.stack) :
    Frozen (m.g.node n) (m'.g.node n) ∧ Clear n m'.stack := by
  unfold istep at he
  split at he
  · cases he
  · split at he
    · rename_i k st hst
      rw [hst] at hc
      split at he
      · cases he
        refine ⟨?_, hc.tail.cons (by exact fun h => h)⟩
        dsimp only
        refine frozen_mod ?_ n
        exact ⟨rfl, rfl, rfl, rfl, rfl⟩
      · cases he; exact ⟨.refl _, hc.tail⟩
    · rename_i k cur prev st hst
      rw [hst] at hc
      split at he
      · cases he; exact ⟨.refl _, by dsimp only; rw [hst]; exact hc⟩
      · cases he; exact ⟨.refl _, hc.tail.cons (by exact fun h => h)⟩
      · cases he; exact ⟨.refl _, (hc.tail.cons (by exact fun h => h)).cons (by exact fun h => h)⟩
    · rename_i k i size prev garbage st hst
      rw [hst] at hc
      split at he
      · split at he
        · cases he; exact ⟨.refl _, by dsimp only; rw [hst]; exact hc⟩
        · split at he <;> cases he
          · exact ⟨.refl _, (hc.tail.cons (by exact fun h => h)).cons (by exact fun h => h)⟩
          · exact ⟨.refl _, hc.tail.cons (by exact fun h => h)⟩
      · cases he
        refine ⟨?_, hc.tail⟩
        dsimp only
        refine Frozen.trans (y := (if (garbage && !prev) = true then m.g.collect k else m.g).node n)
          ?_ ?_
        rotate_left
        · refine frozen_mod ?_ n
          exact ⟨rfl, rfl, rfl, rfl, rfl⟩
        split
        · refine frozen_mod ?_ n
          exact ⟨rfl, rfl, rfl, rfl, rfl⟩
        · exact .refl _
    · rename_i st hst
      rw [hst] at hc
      cases he; exact ⟨.refl _, hc.tail⟩
    · rename_i r rs st hst
      rw [hst] at hc
      cases he; exact ⟨.refl _, (hc.tail.cons (by exact fun h => h)).cons (by exact fun h => h)⟩
    · rename_i k v st hst
      rw [hst] at hc
      have hne : n ≠ k := fun e => hc _ (List.mem_cons_self ..) e.symm
      split at he
      · rename_i auto hk'
        have ht := pushDown_touch m.g k v
        split at he
        · cases he
          refine ⟨.of_eq ?_, hc.tail.cons (by exact fun h => h)⟩
          rw [sendDown_root _ k (ht.same.wf h.wf) hne (by rw [ht.same.parents]; exact hp),
            ht.other n hne]
        · cases he; exact ⟨.of_eq (ht.other n hne), hc.tail⟩
      · rename_i view put refreshes hk'
        cases he
        have hnp : n ∉ (m.g.node k).parents := fun hin => (hcur k hin).1 _ _ _ hk'
        have hpar : ∀ g' : Graph V S, (g' = m.g.refresh k ∨ g' = m.g) →
            (g'.node k).parents = (m.g.node k).parents := by
          rintro g' (rfl | rfl)
          · exact (refresh_recomputes m.g k).same.parents k
          · rfl
        have hg : (if refreshes = true then m.g.refresh k else m.g) = m.g.refresh k ∨
            (if refreshes = true then m.g.refresh k else m.g) = m.g := by
          split
          · exact .inl rfl
          · exact .inr rfl
        refine ⟨?_, hc.tail.cons ?_⟩
        · simp only
          split
          · refine .of_eq ?_
            refine refreshN_frame n (fun _ => True) _ _ _ trivial (fun _ _ _ _ => trivial) ?_
            intro a _ hkk e
            subst e
            rcases hkk with ⟨_, _, _, hkk⟩ | ⟨_, _, hkk⟩ <;> (rw [hk] at hkk; cases hkk)
          · exact .refl _
        · rintro ⟨x, hx⟩
          rw [mem_order] at hx
          rw [hpar _ hg] at hx
          exact not_writes_zip hnp _ hx
      · rename_i down up hk'
        cases he
        have hnp : n ∉ (m.g.node k).parents := fun hin => (hcur k hin).2 _ _ hk'
        refine ⟨?_, hc.tail.cons ?_⟩
        · dsimp only
          refine frozen_mod ?_ n
          exact ⟨rfl, rfl, rfl, rfl, rfl⟩
        · rintro ⟨x, hx⟩
          obtain ⟨vs, _, hx⟩ := List.mem_flatMap.1 hx
          rw [mem_order, Graph.mod_self] at hx
          exact not_writes_zip hnp _ hx
      · cases he; exact ⟨.refl _, (hc.tail.cons (by exact fun h => h)).cons (by exact fun h => h)⟩
      · cases he; exact ⟨.refl _, hc.tail⟩
    · rename_i st hst
      rw [hst] at hc
      cases he; exact ⟨.refl _, hc.tail⟩
    · rename_i p v l st hst
      rw [hst] at hc
      cases he
      have h0 := hc _ (List.mem_cons_self ..)
      refine ⟨.refl _, (hc.tail.cons ?_).cons ?_⟩
      · rintro ⟨x, hx⟩
        exact h0 ⟨x, List.mem_cons_of_mem _ hx⟩
      · rintro rfl
        exact h0 ⟨v, List.mem_cons_self ..⟩
    · rename_i k v st hst
      have hmem : Frame.setterRest k v ∈ m.stack := by rw [hst]; exact List.mem_cons_self ..
      obtain ⟨a, hk'⟩ := h.stack.setters k v hmem
      rw [hst] at hc
      have ht := pushDown_touch m.g k v
      have hne : n ≠ k := by
        intro e
        subst e
        rw [hk] at hk'; cases hk'
      split at he
      · cases he
        have hs : Same (m.g.pushDown k v)
            ((m.g.pushDown k v).mod k fun x => { x with recomputed := true }) :=
          same_mod rfl rfl rfl rfl rfl rfl rfl
        have hs2 := ht.same.trans hs
        refine ⟨.of_eq ?_, hc.tail.cons (by exact fun h => h)⟩
        dsimp only
        rw [sendDown_root _ k (hs2.wf h.wf) hne (by rw [hs2.parents]; exact hp),
          Graph.mod_ne _ _ hne, ht.other n hne]
      · cases he; exact ⟨.of_eq (ht.other n hne), hc.tail⟩
    · cases he
    · cases he

theorem NoCursor.same {g g' : Graph V S} (h : Same g g') {n : Nat} (k : NoCursor g n) :
    NoCursor g' n := by
  intro c hc
  rw [h.parents] at hc
  rw [h.kind]
  exact k c hc

theorem NoCursor.add {g : Graph V S} {x : Node V S} {n : Nat} (k : NoCursor g n)
    (hx : ∀ p ∈ x.parents, p < g.size)
    (hn : n ∈ x.parents → (∀ view put r, x.kind ≠ .calc view (some put) r) ∧
      ∀ down up, x.kind ≠ .xform down (some up)) : NoCursor (g.add x) n := by
  intro c hc
  by_cases e : c = g.size
  · subst e
    rw [add_new g x hx] at hc ⊢
    exact hn hc
  · obtain ⟨j, hj, _⟩ := add_old g x e
    rw [hj] at hc ⊢
    exact k c hc

theorem NoCursor.mod {g : Graph V S} {n k : Nat} {f : Node V S → Node V S}
    (h : NoCursor g n) (h1 : (f (g.node k)).parents = (g.node k).parents)
    (h2 : (f (g.node k)).kind = (g.node k).kind) : NoCursor (g.mod k f) n := by
  intro c hc
  by_cases e : c = k
  · subst e
    rw [Graph.mod_self] at hc ⊢
    rw [h1] at hc
    rw [h2]
    exact h c hc
  · rw [Graph.mod_ne _ _ e] at hc ⊢
    exact h c hc

theorem all_lt {g : Graph V S} {ps : List Nat} (h : ps.all g.valid = true) :
    ∀ p ∈ ps, p < g.size := fun p hp => (valid_alive (List.all_eq_true.1 h p hp)).1

/-- What user code that respects the store does to the rest of the machine. -/
theorem ustep_clear [Inhabited S] {m m' : M V S} {op : Op V S} {n : Nat}
    (hop : SOp.readsOnly (A := A) n (.other op)) (he : ustep m op = some m')
    (hcur : NoCursor m.g n) (hc : Clear n m.stack) : NoCursor m'.g n ∧ Clear n m'.stack := by
  unfold ustep at he
  split at he
  · cases he
  · split at he
    case h_2 => cases he
    rename_i st hst
    cases op with
    | newState auto cmp v =>
      cases he; exact ⟨hcur.add (fun p hp => nomatch hp) (fun hp => nomatch hp), hc⟩
    | newSensor cmp ext =>
      cases he; exact ⟨hcur.add (fun p hp => nomatch hp) (fun hp => nomatch hp), hc⟩
    | newConstant cmp v =>
      cases he; exact ⟨hcur.add (fun p hp => nomatch hp) (fun hp => nomatch hp), hc⟩
    | newCalc cmp ps view put refreshes dflt =>
      simp only at he
      split at he
      · rename_i hv
        cases he
        refine ⟨hcur.add (all_lt hv.2.1) (fun hp => ?_), hc⟩
        refine ⟨fun v p r e => ?_, fun d u e => (nomatch e)⟩
        cases e
        exact hop rfl hp
      · cases he
    | newXform cmp ps s0 u0 down up dflt =>
      simp only at he
      split at he
      · rename_i hv
        cases he
        refine ⟨hcur.add (all_lt hv.2.1) (fun hp => ?_), hc⟩
        refine ⟨fun v p r e => (nomatch e), fun d u e => ?_⟩
        cases e
        exact hop rfl hp
      · cases he
    | newSetter cmp p auto =>
      simp only at he
      split at he
      · rename_i hv
        cases he
        refine ⟨hcur.add (fun q hq => ?_) (fun hp => ⟨fun v p r e => (nomatch e), fun d u e => (nomatch e)⟩),
          hc⟩
        cases List.mem_singleton.1 hq
        exact (valid_alive hv).1
      · cases he
    | set k v =>
      simp only at he
      split at he
      · cases he; exact ⟨hcur, hc.cons hop⟩
      · cases he
    | update k f =>
      simp only at he
      split at he
      · cases he; exact ⟨hcur, hc.cons hop⟩
      · cases he
    | commit rs =>
      simp only at he
      split at he
      · cases he; exact ⟨hcur.same (sendAll_same rs m.g), hc.cons (by exact fun h => h)⟩
      · cases he
    | attach k i =>
      simp only at he
      split at he
      · cases he
        refine ⟨?_, hc⟩
        dsimp only
        refine hcur.mod ?_ ?_ <;> rfl
      · cases he
    | detach k w =>
      cases he
      refine ⟨?_, hc⟩
      dsimp only
      refine hcur.mod ?_ ?_ <;> rfl
    | kill k =>
      simp only at he
      split at he
      · cases he
        refine ⟨?_, hc⟩
        dsimp only
        refine hcur.mod ?_ ?_ <;> rfl
      · cases he
    | ret =>
      rw [hst] at hc
      simp only at he
      split at he
      · cases he
      · cases he; exact ⟨hcur, hc.tail⟩

/-- What is known of the store after the history `pre`. -/
structure Stored (n : Nat) (red : V → A → V) (v0 : V) (m : M V S) (pre : List (SOp A V S)) :
    Prop where
  lt : n < m.g.size
  kind : (m.g.node n).kind = .state false
  cursors : NoCursor m.g n
  shown : m.get n = (published n pre).foldl red v0
  run : (Clear n m.stack ∧ m.pending n = (evaluated pre).foldl red v0 ∧
      (evaluated pre = published n pre → (m.g.node n).dirty = false)) ∨
    ∃ st, m.stack = .up n ((evaluated pre).foldl red v0) :: st ∧ Clear n st ∧
      evaluated pre ≠ published n pre

theorem Stored.lib [Inhabited S] {n : Nat} {red : V → A → V} {v0 : V} {m m' : M V S}
    {pre : List (SOp A V S)} (hr : Reach m) (h : Stored n red v0 m pre) (he : istep m = some m') :
    Stored n red v0 m' pre := by
  have hs : Step m m' := .lib he
  have hub := step_ub hs
  have hi := reach_inv hr hub
  have hp := roots_no_parents hr hub h.lt (.inl ⟨_, h.kind⟩)
  have hco := (step_evolves hi hs h.lt).const
  have hlast : m'.get n = m.get n := istep_last hi he (· = n)
    (fun a e p hpp => by subst e; rw [hp] at hpp; cases hpp) (fun a e => by subst e; exact .inr h.kind) n rfl
  have hsz := istep_size he
  have hi2 : NoCursor m'.g n := by
    intro c hc
    by_cases hlt : c < m.g.size
    · have := (step_evolves hi hs hlt).const
      rw [this.2.1] at hc
      rw [this.1]
      exact h.cursors c hc
    · exfalso
      by_cases hu : m'.ub = false
      · rw [((step_inv hi hs hu).wf.unused c (by omega)).2.2] at hc; cases hc
      · have he' := istep_evolves hi he c
        rw [he'.const.2.1, (hi.wf.unused c (by omega)).2.2] at hc
        cases hc
  refine ⟨by rw [hsz]; exact h.lt, hco.1.trans h.kind, hi2, hlast.trans h.shown, ?_⟩
  rcases h.run with ⟨h1, h2, h3⟩ | ⟨st, h1, h2, h3⟩
  · obtain ⟨hf, hc⟩ := istep_clear hi he h.kind hp h.cursors h1
    exact .inl ⟨hc, hf.current.trans h2, fun e => hf.dirty.trans (h3 e)⟩
  · left
    unfold istep at he
    rw [if_neg (by simp [hub]), h1] at he
    simp only [h.kind] at he
    cases he
    exact ⟨h2, pushDown_pending _ _ _, fun e => absurd e h3⟩

theorem Stored.user [Inhabited S] {n : Nat} {red : V → A → V} {v0 : V} {m m' : M V S}
    {pre : List (SOp A V S)} (hr : Reach m) (h : Stored n red v0 m pre) {o : SOp A V S}
    (ho : o.readsOnly n) (he : ustep m (o.op n red) = some m') :
    Stored n red v0 m' (pre ++ [o]) := by
  have hs : Step m m' := .user _ he
  have hub := step_ub hs
  have hi := reach_inv hr hub
  have hp := roots_no_parents hr hub h.lt (.inl ⟨_, h.kind⟩)
  have hco := (step_evolves hi hs h.lt).const
  have hlt : n < m'.g.size := Nat.lt_of_lt_of_le h.lt (step_size_le hs)
  obtain ⟨h1, h2, h3⟩ : Clear n m.stack ∧ m.pending n = (evaluated pre).foldl red v0 ∧
      (evaluated pre = published n pre → (m.g.node n).dirty = false) := by
    rcases h.run with h | ⟨st, h1, _⟩
    · exact h
    · obtain ⟨st', hst⟩ := ustep_user he
      rw [hst] at h1; cases h1
  cases o with
  | evaluate a =>
    have he' := he
    unfold ustep at he'
    rw [if_neg (by simp [hub])] at he'
    split at he'
    case h_2 => cases he'
    simp only [SOp.op] at he'
    split at he'
    case isFalse => cases he'
    cases he'
    refine ⟨h.lt, h.kind, h.cursors, ?_, .inr ⟨m.stack, ?_, h1, ?_⟩⟩
    · rw [published_snoc]; exact h.shown
    · rw [evaluated_append, List.foldl_append, ← h2]; rfl
    · intro e
      rw [published_snoc, evaluated_append] at e
      have := congrArg List.length e
      have hl := published_length n pre
      simp [evaluated, SOp.publishes] at this hl
      omega
  | other op =>
    obtain ⟨k1, k2⟩ := ustep_clear (A := A) ho he h.cursors h1
    refine ⟨hlt, hco.1.trans h.kind, k1, ?_, .inl ⟨k2, ?_⟩⟩
    all_goals
      have hev : evaluated (pre ++ [SOp.other op]) = evaluated pre := by
        rw [evaluated_append]; exact List.append_nil _
      rw [published_snoc, hev]
      by_cases hpub : (SOp.other (A := A) op).publishes n = true
    · rw [if_pos hpub]
      cases op with
      | commit rs =>
        have hmem : n ∈ rs := by simpa [SOp.publishes] using hpub
        unfold ustep at he
        rw [if_neg (by simp [hub])] at he
        split at he
        case h_2 => cases he
        simp only [SOp.op] at he
        split at he
        case isFalse => cases he
        rename_i hv
        cases he
        rw [Bool.and_eq_true] at hv
        have := sendAll_state rs m.g hi.wf hi.fresh (all_lt hv.1) h.kind hp
        exact (this.2 hmem).1.trans h2
      | _ => cases hpub
    · rw [if_neg hpub]
      have hf := ustep_frozen hi he h.lt (.inr hp) (by
        intro rs e hmem
        cases e
        exact hpub (by simpa [SOp.publishes] using hmem))
      exact hf.last.trans h.shown
    · rw [if_pos hpub]
      cases op with
      | commit rs =>
        have hmem : n ∈ rs := by simpa [SOp.publishes] using hpub
        unfold ustep at he
        rw [if_neg (by simp [hub])] at he
        split at he
        case h_2 => cases he
        simp only [SOp.op] at he
        split at he
        case isFalse => cases he
        rename_i hv
        cases he
        rw [Bool.and_eq_true] at hv
        have := sendAll_state rs m.g hi.wf hi.fresh (all_lt hv.1) h.kind hp
        exact ⟨this.1.trans h2, fun _ => (this.2 hmem).2⟩
      | _ => cases hpub
    · rw [if_neg hpub]
      have hf := ustep_frozen hi he h.lt (.inr hp) (by
        intro rs e hmem
        cases e
        exact hpub (by simpa [SOp.publishes] using hmem))
      exact ⟨hf.current.trans h2, fun e => hf.dirty.trans (h3 e)⟩

/-- Induction over histories. -/
theorem strace_ind [Inhabited S] {n : Nat} {red : V → A → V} {P : M V S → List (SOp A V S) → Prop}
    (hlib : ∀ m m' pre, Reach m → P m pre → istep m = some m' → P m' pre)
    (huser : ∀ m m' pre (o : SOp A V S), Reach m → P m pre → o.readsOnly n →
      ustep m (o.op n red) = some m' → P m' (pre ++ [o]))
    {m m' : M V S} {ops : List (SOp A V S)} (ht : Trace m (ops.map (SOp.op n red)) m')
    (hops : ∀ o ∈ ops, o.readsOnly n) {pre : List (SOp A V S)} (hr : Reach m) (h : P m pre) :
    P m' (pre ++ ops) ∧ Reach m' := by
  generalize hl : ops.map (SOp.op n red) = l at ht
  induction ht generalizing ops pre with
  | refl m =>
    cases ops with
    | nil => rw [List.append_nil]; exact ⟨h, hr⟩
    | cons o ops => cases hl
  | lib he ht ih => exact ih hops (.step hr (.lib he)) (hlib _ _ _ hr h he) hl
  | user he ht ih =>
    cases ops with
    | nil => cases hl
    | cons o ops =>
      rw [List.map_cons] at hl
      obtain ⟨e1, e2⟩ := List.cons.inj hl
      subst e1
      have := ih (fun o' ho' => hops o' (List.mem_cons_of_mem _ ho')) (.step hr (.user _ he))
        (huser _ _ _ _ hr h (hops o (List.mem_cons_self ..)) he) e2
      rwa [List.append_assoc, List.singleton_append] at this

/-- A new store. -/
theorem Stored.new [Inhabited S] {m m1 : M V S} (h : Reach m) {cmp : Bool} {v0 : V}
    (hnew : ustep m (.newState false cmp v0) = some m1) (red : V → A → V) :
    Stored m.g.size red v0 m1 [] := by
  have hub := (ustep_ub hnew).1
  have hi := reach_inv h hub
  unfold ustep at hnew
  rw [if_neg (by simp [hub])] at hnew
  split at hnew
  case h_2 => cases hnew
  cases hnew
  have hx := add_new m.g (freshNode (.state false) [] v0 cmp (default : S) default)
    (fun p hp => nomatch hp)
  refine ⟨by dsimp only; rw [add_size]; omega, by dsimp only; rw [hx]; rfl, ?_, ?_, .inl ⟨?_, ?_, ?_⟩⟩
  · intro c hc
    exfalso
    dsimp only at hc
    by_cases e : c = m.g.size
    · subst e
      rw [hx] at hc; cases hc
    · obtain ⟨k, hk, _⟩ := add_old m.g (freshNode (.state false) [] v0 cmp (default : S) default) e
      rw [hk] at hc
      have hlt := hi.wf.lt c _ hc
      rw [(hi.wf.unused c (by omega)).2.2] at hc
      cases hc
  · unfold M.get; dsimp only; rw [hx]; rfl
  · intro f hf hw
    cases f with
    | up k v =>
      have e : k = m.g.size := hw
      subst e
      have := hi.stack.holds _ hf m.g.size (List.mem_cons_self ..)
      rw [(hi.wf.unused _ (Nat.le_refl _)).1] at this; cases this
    | ups l =>
      obtain ⟨v, hv⟩ := hw
      have := hi.stack.holds _ hf m.g.size (List.mem_map.2 ⟨_, hv, rfl⟩)
      rw [(hi.wf.unused _ (Nat.le_refl _)).1] at this; cases this
    | _ => exact hw
  · unfold M.pending; dsimp only; rw [hx]; rfl
  · intro _; dsimp only; rw [hx]; rfl

/-! ### Readers derived from the store -/

theorem M.Shows.lt {m : M V S} (w : WF m.g) {n : Nat} (hn : n < m.g.size) {k : Nat} {F : V → V}
    (h : m.Shows n k F) : k < m.g.size := by
  cases h with
  | store => exact hn
  | reader F _ _ hp _ _ =>
    apply Nat.lt_of_not_le
    intro hle
    exact hp (w.unused k hle).2.2

theorem M.Shows.mono {m m' : M V S} (w : WF m.g) {n : Nat} (hn : n < m.g.size)
    (hc : ∀ a, a < m.g.size → (m'.g.node a).kind = (m.g.node a).kind ∧
      (m'.g.node a).parents = (m.g.node a).parents) {k : Nat} {F : V → V}
    (h : m.Shows n k F) : m'.Shows n k F := by
  induction h with
  | store => exact .store
  | @reader k view put r F G hk hp hs hv ih =>
    have hlt := M.Shows.lt w hn (.reader F G hk hp hs hv)
    obtain ⟨c1, c2⟩ := hc k hlt
    refine .reader F G (c1.trans hk) (by rw [c2]; exact hp) ?_ (by rw [c2]; exact hv)
    rw [c2]
    exact ih

theorem M.Shows.above {m : M V S} {n : Nat} (hn : (m.g.node n).parents = []) {k : Nat} {F : V → V}
    (h : m.Shows n k F) {a : Nat} (ha : m.Above a k) : ∃ F', m.Shows n a F' := by
  induction ha generalizing F with
  | refl => exact ⟨F, h⟩
  | step hp _ ih =>
    cases h with
    | store => rw [hn] at hp; cases hp
    | reader F G hk _ hs hv => exact ih (hs _ hp)

theorem M.Shows.kind {m : M V S} {n : Nat} {k : Nat} {F : V → V} (h : m.Shows n k F) :
    k = n ∨ ∃ v pt r, (m.g.node k).kind = .calc v pt r := by
  cases h with
  | store => exact .inl rfl
  | reader F G hk _ _ _ => exact .inr ⟨_, _, _, hk⟩

theorem M.Shows.clean {m : M V S} {n : Nat} (hn : (m.g.node n).parents = [])
    (hd : ¬ m.Uncommitted n) {k : Nat} {F : V → V} (h : m.Shows n k F) :
    ∀ a, m.Above a k → ¬ m.Uncommitted a := by
  intro a ha hu
  obtain ⟨F', h'⟩ := h.above hn ha
  rcases h'.kind with e | ⟨_, _, _, hk⟩
  · subst e; exact hd hu
  · exact hu.1 _ _ _ hk

/-- If the store has nothing to publish, its readers are up to date. -/
theorem M.Shows.get [Inhabited S] {m : M V S} (hr : Reach m) (hub : m.ub = false) {n : Nat}
    (hn : (m.g.node n).parents = [])
    (hd : ¬ m.Uncommitted n) {k : Nat} {F : V → V} (h : m.Shows n k F) (hl : m.Live k) :
    m.get k = F (m.get n) := by
  induction h with
  | store => rfl
  | @reader k view put r F G hk hp hs hv ih =>
    have hc := M.Shows.clean hn hd (.reader F G hk hp hs hv)
    refine C01_consistent hr hub hl hk hc ?_
    rw [← hv (m.get n)]
    refine congrArg view (List.map_congr_left fun p hp => ?_)
    exact ih p hp ((reach_inv hr hub).wf.parentAlive k hl p hp)

/-- The readers of the store show functions of what the store shows. -/
structure Held (n : Nat) (red : V → A → V) (v0 : V) (m : M V S) (pre : List (SOp A V S))
    (k : Nat) (F : V → V) : Prop where
  sound : Stored n red v0 m pre
  shows : m.Shows n k F
  all : ∀ a G, m.Above a k → m.Shows n a G → m.Live a → m.get a = G (m.get n)

theorem Held.next [Inhabited S] {n : Nat} {red : V → A → V} {v0 : V} {m m' : M V S}
    {pre pre' : List (SOp A V S)} {k : Nat} {F : V → V} (hr : Reach m)
    (h : Held n red v0 m pre k F) (hs : Step m m') (h' : Stored n red v0 m' pre')
    (hop : m'.ub = false ∧ ¬ m'.Uncommitted n ∨
      ∀ a, (∃ G, m.Shows n a G) → (m'.g.node a).last = (m.g.node a).last)
    (hal : ∀ a, a < m.g.size → m'.Live a → m.Live a) :
    Held n red v0 m' pre' k F := by
  have hub := step_ub hs
  have hi := reach_inv hr hub
  have hp := roots_no_parents hr hub h.sound.lt (.inl ⟨_, h.sound.kind⟩)
  have hco := (step_evolves hi hs h.sound.lt).const
  have hp' : (m'.g.node n).parents = [] := hco.2.1.trans hp
  have hmono : ∀ a, a < m.g.size → (m'.g.node a).kind = (m.g.node a).kind ∧
      (m'.g.node a).parents = (m.g.node a).parents := fun a ha =>
    ⟨(step_evolves hi hs ha).const.1, (step_evolves hi hs ha).const.2.1⟩
  refine ⟨h', h.shows.mono hi.wf h.sound.lt hmono, ?_⟩
  rcases hop with ⟨hu, hd⟩ | hlast
  · intro a G _ ha hl
    exact ha.get (.step hr hs) hu hp' hd hl
  · -- nothing was published: go back to the state before
    have back : ∀ a, m'.Above a k → m.Above a k ∧ a < m.g.size := by
      have gen : ∀ b, b < m.g.size → ∀ a, m'.Above a b → m.Above a b ∧ a < m.g.size := by
        intro b hb a ha
        induction ha with
        | refl => exact ⟨.refl, hb⟩
        | @step p q hpq _ ih =>
          rw [(hmono q hb).2] at hpq
          have := hi.wf.lt q p hpq
          obtain ⟨k1, k2⟩ := ih (by omega)
          exact ⟨.step hpq k1, k2⟩
      exact gen k (h.shows.lt hi.wf h.sound.lt)
    intro a G ha hG hl
    obtain ⟨b1, b2⟩ := back a ha
    have hG0 : m.Shows n a G := by
      have gen : ∀ a G, m'.Shows n a G → a < m.g.size → m.Shows n a G := by
        intro a G hG
        induction hG with
        | store => intro _; exact .store
        | @reader k view put r F G hk hp hs hv ih =>
          intro hlt
          obtain ⟨c1, c2⟩ := hmono k hlt
          refine .reader F G (c1 ▸ hk) (c2 ▸ hp) ?_ (c2 ▸ hv)
          intro p hpp
          exact ih p (c2 ▸ hpp) (by have := hi.wf.lt k p hpp; omega)
      exact gen a G hG b2
    have e1 : m'.get a = m.get a := hlast a ⟨G, hG0⟩
    have e2 : m'.get n = m.get n := hlast n ⟨_, .store⟩
    rw [e1, e2]
    exact h.all a G b1 hG0 (hal a b2 hl)

theorem Held.lib [Inhabited S] {n : Nat} {red : V → A → V} {v0 : V} {m m' : M V S}
    {pre : List (SOp A V S)} {k : Nat} {F : V → V} (hr : Reach m)
    (h : Held n red v0 m pre k F) (he : istep m = some m') : Held n red v0 m' pre k F := by
  have hs : Step m m' := .lib he
  have hub := step_ub hs
  have hi := reach_inv hr hub
  have hp := roots_no_parents hr hub h.sound.lt (.inl ⟨_, h.sound.kind⟩)
  refine h.next hr hs (h.sound.lib hr he) (.inr fun a ha => ?_)
    (fun a hlt hl => (step_evolves hi hs hlt).alive hl)
  refine istep_last hi he (fun a => ∃ G, m.Shows n a G) ?_ ?_ a ha
  · rintro b ⟨G, hG⟩ p hpp
    cases hG with
    | store => rw [hp] at hpp; cases hpp
    | reader F' _ _ _ hs' _ => exact ⟨_, hs' p hpp⟩
  · rintro b ⟨G, hG⟩
    rcases hG.kind with e | h
    · subst e; exact .inr h.sound.kind
    · exact .inl h

theorem Held.user [Inhabited S] {n : Nat} {red : V → A → V} {v0 : V} {m m' : M V S}
    {pre : List (SOp A V S)} {k : Nat} {F : V → V} (hr : Reach m)
    (h : Held n red v0 m pre k F) {o : SOp A V S}
    (ho : o.readsOnly n) (he : ustep m (o.op n red) = some m') :
    Held n red v0 m' (pre ++ [o]) k F := by
  have hs : Step m m' := .user _ he
  have hub := step_ub hs
  have hi := reach_inv hr hub
  have hp := roots_no_parents hr hub h.sound.lt (.inl ⟨_, h.sound.kind⟩)
  have h' := h.sound.user hr ho he
  refine h.next hr hs h' ?_ (fun a hlt hl => (step_evolves hi hs hlt).alive hl)
  have hup : ∀ b, (∃ G, m.Shows n b G) → ∀ p ∈ (m.g.node b).parents, ∃ G, m.Shows n p G := by
    rintro b ⟨G, hG⟩ p hpp
    cases hG with
    | store => rw [hp] at hpp; cases hpp
    | reader F' _ _ _ hs' _ => exact ⟨_, hs' p hpp⟩
  by_cases hpub : o.publishes n = true
  · left
    refine ⟨(ustep_ub he).2, fun hu => ?_⟩
    rcases h'.run with ⟨_, _, h3⟩ | ⟨st, h1, _, h3⟩
    · have := h3 (by rw [published_snoc, if_pos hpub])
      rw [hu.2] at this
      cases this
    · exact h3 (by rw [published_snoc, if_pos hpub])
  · right
    intro a ha
    have hlt : a < m.g.size := by
      obtain ⟨G, hG⟩ := ha
      exact hG.lt hi.wf h.sound.lt
    refine ustep_last hi he (fun a => ∃ G, m.Shows n a G) hup ?_ a hlt ha
    intro rs e r hrs hq
    cases o with
    | evaluate a => cases e
    | other op =>
      have e' : op = .commit rs := e
      subst e'
      obtain ⟨G, hG⟩ := hq
      have hpr : (m.g.node r).parents = [] := by
        unfold ustep at he
        rw [if_neg (by simp [hub])] at he
        split at he
        case h_2 => cases he
        simp only [SOp.op] at he
        split at he
        case isFalse => cases he
        rename_i hv
        rw [Bool.and_eq_true] at hv
        have := List.all_eq_true.1 hv.2 r hrs
        exact List.isEmpty_iff.1 this
      cases hG with
      | store => exact hpub (by simpa [SOp.publishes] using hrs)
      | reader _ _ _ hne _ _ => exact hne hpr

/-! ### What callbacks are given -/

/-- The values that the callbacks of `k` are called with, in order. -/
def callValues (k : Nat) (l : List (Ev V)) : List V :=
  l.filterMap fun | .call _ k' v => if k' = k then some v else none | _ => none

theorem published_prefix (n : Nat) (l : List (SOp A V S)) : published n l <+: evaluated l := by
  have : l = (l.reverse.dropWhile fun o => !o.publishes n).reverse ++
      (l.reverse.takeWhile fun o => !o.publishes n).reverse := by
    rw [← List.reverse_append, List.takeWhile_append_dropWhile, List.reverse_reverse]
  conv => rhs; rw [this]
  rw [evaluated_append]
  exact List.prefix_append _ _

theorem published_mono (n : Nat) (l : List (SOp A V S)) (o : SOp A V S) :
    (published n l).length ≤ (published n (l ++ [o])).length := by
  rw [published_snoc]
  split
  · have := published_length n l
    rw [evaluated_append, List.length_append]
    omega
  · exact Nat.le_refl _

/-- The calls so far were made with models of growing histories. -/
def Genuine (n : Nat) (red : V → A → V) (v0 : V) (k : Nat) (F : V → V) (log0 : List (Ev V))
    (m : M V S) (pre : List (SOp A V S)) : Prop :=
  ∃ (l : List (Ev V)) (is : List Nat), m.log = log0 ++ l ∧
    callValues k l = is.map (fun i => F (((evaluated pre).take i).foldl red v0)) ∧
    is.Pairwise (· ≤ ·) ∧ ∀ i ∈ is, i ≤ (published n pre).length

theorem Genuine.lib [Inhabited S] {n : Nat} {red : V → A → V} {v0 : V} {m m' : M V S}
    {pre : List (SOp A V S)} {k : Nat} {F : V → V} {log0 : List (Ev V)} (hr : Reach m)
    (h : Held n red v0 m pre k F) (hg : Genuine n red v0 k F log0 m pre)
    (he : istep m = some m') : Genuine n red v0 k F log0 m' pre := by
  obtain ⟨l, is, h1, h2, h3, h4⟩ := hg
  have hub := step_ub (.lib he : Step m m')
  rcases (istep_log he).2 with ⟨e, _⟩ | ⟨j, w, prev, st, cur, rest, hst, _, e⟩ |
    ⟨j, v, st, a, _, _, e⟩
  · exact ⟨l, is, e.trans h1, h2, h3, h4⟩
  · subst e
    by_cases hj : j = k
    · subst hj
      refine ⟨l ++ [.call w j (m.get j)], is ++ [(published n pre).length], ?_, ?_, ?_, ?_⟩
      · show m.log ++ _ = _
        rw [h1, List.append_assoc]; rfl
      · have hl : m.Live j := (reach_inv hr hub).stack.holds _ (by rw [hst]; exact .head _) j
          (List.mem_cons_self ..)
        have : m.get j = F (((evaluated pre).take (published n pre).length).foldl red v0) := by
          rw [h.all j F .refl h.shows hl, h.sound.shown]
          congr 2
          obtain ⟨t, ht⟩ := published_prefix n pre
          rw [← ht, List.take_left]
        rw [List.map_append, ← h2]
        unfold callValues
        rw [List.filterMap_append]
        simp [this]
      · rw [List.pairwise_append]
        refine ⟨h3, List.pairwise_singleton .., ?_⟩
        intro a ha b hb
        cases List.mem_singleton.1 hb
        exact h4 a ha
      · intro i hi
        rcases List.mem_append.1 hi with hi | hi
        · exact h4 i hi
        · cases List.mem_singleton.1 hi
          exact Nat.le_refl _
    · refine ⟨l ++ [.call w j (m.get j)], is, ?_, ?_, h3, h4⟩
      · show m.log ++ _ = _
        rw [h1, List.append_assoc]; rfl
      · rw [← h2]
        unfold callValues
        rw [List.filterMap_append]
        simp [hj]
  · subst e
    refine ⟨l ++ [.setterCall j v], is, ?_, ?_, h3, h4⟩
    · show m.log ++ _ = _
      rw [h1, List.append_assoc]
    · rw [← h2]
      unfold callValues
      rw [List.filterMap_append]
      simp

theorem Genuine.user [Inhabited S] {n : Nat} {red : V → A → V} {v0 : V} {m m' : M V S}
    {pre : List (SOp A V S)} {k : Nat} {F : V → V} {log0 : List (Ev V)}
    (hg : Genuine n red v0 k F log0 m pre) {o : SOp A V S}
    (he : ustep m (o.op n red) = some m') : Genuine n red v0 k F log0 m' (pre ++ [o]) := by
  obtain ⟨l, is, h1, h2, h3, h4⟩ := hg
  have hlen := published_length n pre
  refine ⟨l, is, (ustep_log he).1.trans h1, ?_, h3, fun i hi => Nat.le_trans (h4 i hi)
    (published_mono n pre o)⟩
  rw [h2]
  refine List.map_congr_left fun i hi => ?_
  rw [evaluated_append, List.take_append_of_le_length (Nat.le_trans (h4 i hi) hlen)]

end Verif.Graph
