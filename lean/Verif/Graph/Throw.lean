import Verif.Graph.RaiseInv
import Verif.Graph.Once
import Verif.Graph.Zoom

/-
Exceptions thrown by the functions of derived readers (mapping functions, the getters of lenses,
transducers) and of sensors, and by values when they are compared or copied, while a change is propagated.

`send_down` (`lager/detail/nodes.hpp:213-226`) and `refresh` (`nodes.hpp:296-301`) catch nothing, so the
propagation stops where the exception is thrown and the call that started it is left.  What the
functions throw for is an arbitrary predicate, chosen anew for every call.  A function that throws has
not changed the node (`push_down` is called with its result), nor has an assignment that throws changed the value.
Simplification: a transducer that throws has not changed its state and has emitted nothing; so a value that it
emits is compared and assigned without exception.
-/

set_option linter.unusedSectionVars false

namespace Verif.Graph

variable {V S : Type} [DecidableEq V]

/-- What throws: the function of a node for these values of its parents, or comparing or assigning its result; and
copying the new value of a node when it is published. -/
structure Faults (V : Type) where
  fn : Nat → List V → Bool
  copy : Nat → V → Bool

/-- Why a call is left. -/
inductive Cause where
  /-- a function throws -/
  | fn
  /-- a function, or a value that is compared or copied -/
  | any
deriving DecidableEq

/-- Values do not throw unless this is the cause. -/
def Faults.ok (f : Faults V) (c : Cause) : Prop := c = .fn → ∀ n v, f.copy n v = false

namespace Graph

/-- Does the function of node `n` throw, given the present values of its parents?  States and
constants do nothing in `recompute`; setters take the value of their parent, unless they have been written to. -/
def throwsAt (f : Faults V) (g : Graph V S) (n : Nat) : Bool :=
  match (g.node n).kind with
  | .calc _ _ _ | .xform _ _ | .sensor _ => f.fn n (g.currents (g.node n).parents)
  | .setter _ => !(g.node n).recomputed && f.fn n (g.currents (g.node n).parents)
  | _ => false

/-- `send_down`, `nodes.hpp:213-226`, with functions that may throw.  The second component says
whether it came to its end. -/
def sendDownT (f : Faults V) : Nat → Graph V S → Nat → Graph V S × Bool
  | 0, g, _ => (g, true)
  | k + 1, g, n =>
    if g.throwsAt f n then (g, false)
    else
      let g1 := g.recompute n
      if (g1.node n).dirty then
        if f.copy n (g1.node n).current then (g1, false) else
        let g2 := g1.publish n
        (g2.node n).children.foldl
          (fun r c => if r.2 && (r.1.node c).alive then sendDownT f k r.1 c else r) (g2, true)
      else (g1, true)

/-- `send_down` of the roots, one after the other, in `commit`, `commit.hpp:42`. -/
def sendAllT (f : Faults V) (g : Graph V S) (rs : List Nat) : Graph V S × Bool :=
  rs.foldl (fun r n => if r.2 then sendDownT f r.1.size r.1 n else r) (g, true)

/-- `refresh`, `nodes.hpp:296-301`, with functions that may throw. -/
def refreshT (f : Faults V) : Nat → Graph V S → Nat → Graph V S × Bool
  | 0, g, _ => (g, true)
  | k + 1, g, n =>
    match (g.node n).kind with
    | .calc _ _ _ | .xform _ _ =>
      let r := (g.order (g.node n).parents).foldl
        (fun r p => if r.2 then refreshT f k r.1 p else r) (g, true)
      if r.2 then (if r.1.throwsAt f n then (r.1, false) else (r.1.recompute n, true)) else r
    | _ => (g, true)

end Graph

/-- Leave the library call, with heap `g`: the exception reaches the user code that made it. -/
def M.leave (m : M V S) (g : Graph V S) (st : List (Frame V)) : M V S :=
  { m with g := (unwind g st).1, stack := (unwind g st).2 }

/-- A library call is left because a function of a reader throws, or a value. -/
inductive Fails (c : Cause) (m : M V S) : M V S → Prop where
  /-- `send_up` on an automatic state, `state.hpp:50-58` -/
  | state (f) {n v st g} : m.ub = false → m.stack = .up n v :: st →
      (m.g.node n).kind = .state true →
      (m.g.pushDown n v).sendDownT f m.g.size n = (g, false) → f.ok c → Fails c m (m.leave g st)
  /-- `send_up` on an automatic setter, `setter.hpp:62-73` -/
  | setter (f) {n v st g} : m.ub = false → m.stack = .setterRest n v :: st →
      (m.g.node n).kind = .setter true →
      ((m.g.pushDown n v).mod n fun x => { x with recomputed := true }).sendDownT f m.g.size n =
        (g, false) → f.ok c → Fails c m (m.leave g st)
  /-- `refresh` in `send_up` of a lens cursor, `lens_nodes.hpp:87-98` -/
  | refresh (f) {n v st view put g} : m.ub = false → m.stack = .up n v :: st →
      (m.g.node n).kind = .calc view (some put) true →
      m.g.refreshT f (n + 1) n = (g, false) → Fails c m (m.leave g st)
  /-- the setter of a lens, or the transducer of a cursor, in `send_up`: `lens_nodes.hpp:87-98`,
  `xform_nodes.hpp:109-117` -/
  | put {n v st view put refreshes} : m.ub = false → m.stack = .up n v :: st →
      (m.g.node n).kind = .calc view (some put) refreshes →
      Fails c m (m.leave (if refreshes then m.g.refresh n else m.g) st)
  | xput {n v st down up} : m.ub = false → m.stack = .up n v :: st →
      (m.g.node n).kind = .xform down (some up) → Fails c m (m.leave m.g st)
  /-- `commit`, `commit.hpp:40-45` -/
  | commit (f) {rs st g} : m.ub = false → m.stack = .user :: st →
      (rs.all m.g.valid && rs.all fun r => (m.g.node r).parents.isEmpty) = true →
      m.g.sendAllT f rs = (g, false) → f.ok c → Fails c m { m with g := g }
  /-- comparing or assigning the value that is written, in `push_down` of a state, `state.hpp:50-58`, or a setter,
  `setter.hpp:53-73` -/
  | write {n v st} : c = .any → m.ub = false → ((m.stack = .up n v :: st ∧ ∃ a, (m.g.node n).kind = .state a) ∨
      (m.stack = .setterRest n v :: st ∧ ∃ a, (m.g.node n).kind = .setter a)) → Fails c m (m.leave m.g st)

/-- The value of `n` is what its function gives for the values of its sources. -/
def M.Agrees (m : M V S) (n : Nat) : Prop :=
  ∀ view put r, (m.g.node n).kind = .calc view put r →
    ∀ v, view ((m.g.node n).parents.map m.get) = some v → m.get n = v

/-- `n` and its direct sources have no changes that have not been published. -/
def M.Tidy (m : M V S) (n : Nat) : Prop :=
  m.pending n = m.get n ∧ ∀ p ∈ (m.g.node n).parents, m.pending p = m.get p

/-- One step, all exceptions included. -/
inductive VStep [Inhabited S] (m : M V S) : M V S → Prop where
  | step {m'} : XStep m m' → VStep m m'
  | fails {c m'} : Fails c m m' → VStep m m'

/-- Everything that can happen, all exceptions included. -/
inductive VReach [Inhabited S] : M V S → Prop where
  | start (ltr : Bool) (dummy : Node V S) : Dummy dummy → VReach (start ltr dummy)
  | step {m m'} : VReach m → VStep m m' → VReach m'

/-! ### Without exceptions it is the same -/

theorem sendDownT_never (f : Faults V) (hf : ∀ n l, f.fn n l = false) (hc : ∀ n v, f.copy n v = false) (k : Nat)
    (g : Graph V S) (n : Nat) : g.sendDownT f k n = (g.sendDownN k n, true) := by
  induction k generalizing g n with
  | zero => rfl
  | succ k ih =>
    have ht : g.throwsAt f n = false := by
      unfold Graph.throwsAt
      split <;> simp [hf]
    simp only [Graph.sendDownT, Graph.sendDownN, ht, hc]
    have walk : ∀ (l : List Nat) (g' : Graph V S),
        l.foldl (fun r c => if r.2 && (r.1.node c).alive then Graph.sendDownT f k r.1 c else r)
          (g', true) =
        (l.foldl (fun g c => if (g.node c).alive then Graph.sendDownN k g c else g) g', true) := by
      intro l
      induction l with
      | nil => intro g'; rfl
      | cons c l ihl =>
        intro g'
        simp only [List.foldl_cons, Bool.true_and]
        split
        · rw [ih]; exact ihl _
        · exact ihl _
    simp only [Bool.false_eq_true, if_false]
    split
    · exact walk _ _
    · rfl

/-- If the propagation comes to its end, it has done what it does without exceptions. -/
theorem sendDownT_done (f : Faults V) (k : Nat) (g : Graph V S) (n : Nat)
    (h : (g.sendDownT f k n).2 = true) : (g.sendDownT f k n).1 = g.sendDownN k n := by
  induction k generalizing g n with
  | zero => rfl
  | succ k ih =>
    simp only [Graph.sendDownT, Graph.sendDownN] at h ⊢
    split at h
    · cases h
    · rename_i ht
      rw [if_neg ht]
      have stuck : ∀ (l : List Nat) (g' : Graph V S),
          (l.foldl (fun r c => if r.2 && (r.1.node c).alive then Graph.sendDownT f k r.1 c else r)
            (g', false)) = (g', false) := by
        intro l
        induction l with
        | nil => intro g'; rfl
        | cons c l ihl => intro g'; simp only [List.foldl_cons, Bool.false_and]; exact ihl g'
      have walk : ∀ (l : List Nat) (g' : Graph V S),
          (l.foldl (fun r c => if r.2 && (r.1.node c).alive then Graph.sendDownT f k r.1 c else r)
            (g', true)).2 = true →
          (l.foldl (fun r c => if r.2 && (r.1.node c).alive then Graph.sendDownT f k r.1 c else r)
            (g', true)).1 =
          l.foldl (fun g c => if (g.node c).alive then Graph.sendDownN k g c else g) g' := by
        intro l
        induction l with
        | nil => intro g' _; rfl
        | cons c l ihl =>
          intro g' hd
          simp only [List.foldl_cons, Bool.true_and] at hd ⊢
          by_cases ha : (g'.node c).alive = true
          · rw [if_pos ha] at hd ⊢
            rw [if_pos ha]
            cases hr : Graph.sendDownT f k g' c with
            | mk g'' b =>
              cases b with
              | false => rw [hr, stuck] at hd; cases hd
              | true =>
                rw [hr] at hd
                rw [ihl _ hd]
                have := ih g' c (by rw [hr])
                rw [hr] at this
                rw [← this]
          · rw [if_neg ha] at hd ⊢
            rw [if_neg ha]
            exact ihl _ hd
      by_cases hd : ((g.recompute n).node n).dirty = true
      · rw [if_pos hd] at h ⊢
        rw [if_pos hd]
        by_cases hcp : f.copy n ((g.recompute n).node n).current = true
        · rw [if_pos hcp] at h; cases h
        · rw [if_neg hcp] at h ⊢
          exact walk _ _ h
      · rw [if_neg hd, if_neg hd]

/-! ### What is done before the exception -/

theorem sendDownT_moves (f : Faults V) (k : Nat) (g : Graph V S) (n : Nat) :
    Moves g (g.sendDownT f k n).1 := by
  induction k generalizing g n with
  | zero => exact .refl g
  | succ k ih =>
    simp only [Graph.sendDownT]
    split
    · exact .refl g
    · split
      · rename_i hd
        have walk : ∀ (l : List Nat) (r : Graph V S × Bool), Moves g r.1 →
            Moves g (l.foldl (fun r c => if r.2 && (r.1.node c).alive then
              Graph.sendDownT f k r.1 c else r) r).1 := by
          intro l
          induction l with
          | nil => intro r hr; exact hr
          | cons c l ihl =>
            intro r hr
            simp only [List.foldl_cons]
            apply ihl
            split
            · exact hr.trans (ih r.1 c)
            · exact hr
        split
        · exact .recompute n (.refl g)
        exact walk _ _ (.publish n (.recompute n (.refl g)) hd)
      · exact .recompute n (.refl g)

theorem sendAllT_moves (f : Faults V) (rs : List Nat) (g : Graph V S) :
    Moves g (g.sendAllT f rs).1 := by
  have walk : ∀ (l : List Nat) (r : Graph V S × Bool), Moves g r.1 →
      Moves g (l.foldl (fun r n => if r.2 then Graph.sendDownT f r.1.size r.1 n else r) r).1 := by
    intro l
    induction l with
    | nil => intro r hr; exact hr
    | cons c l ihl =>
      intro r hr
      simp only [List.foldl_cons]
      apply ihl
      split
      · exact hr.trans (sendDownT_moves f _ r.1 c)
      · exact hr
  exact walk _ _ (.refl g)

theorem refreshT_recomputes (f : Faults V) (k : Nat) (g : Graph V S) (n : Nat) :
    Recomputes g (g.refreshT f k n).1 := by
  induction k generalizing g n with
  | zero => exact .refl g
  | succ k ih =>
    have walk : ∀ (l : List Nat) (r : Graph V S × Bool), Recomputes g r.1 →
        Recomputes g (l.foldl (fun r p => if r.2 then Graph.refreshT f k r.1 p else r) r).1 := by
      intro l
      induction l with
      | nil => intro r hr; exact hr
      | cons c l ihl =>
        intro r hr
        simp only [List.foldl_cons]
        apply ihl
        split
        · exact hr.trans (ih r.1 c)
        · exact hr
    have fin : ∀ r : Graph V S × Bool, Recomputes g r.1 →
        Recomputes g (if r.2 then (if r.1.throwsAt f n then (r.1, false) else (r.1.recompute n, true))
          else r).1 := by
      intro r hr
      split
      · split
        · exact hr
        · exact .step n hr
      · exact hr
    simp only [Graph.refreshT]
    split
    · exact fin _ (walk _ _ (.refl g))
    · exact fin _ (walk _ _ (.refl g))
    · exact .refl g

/-! ### Well-formedness -/

theorem unwind_wf {g : Graph V S} (w : WF g) (st : List (Frame V)) : WF (unwind g st).1 := by
  have hn := unwind_node (S := S) st g
  have hsz := (unwind_size st g).1
  have hf : ∀ k, ((unwind g st).1.node k).alive = (g.node k).alive ∧
      ((unwind g st).1.node k).children = (g.node k).children ∧
      ((unwind g st).1.node k).parents = (g.node k).parents := by
    intro k
    obtain ⟨b, hb⟩ := hn k
    rw [hb]
    exact ⟨rfl, rfl, rfl⟩
  constructor
  · intro n h
    rw [hsz] at h
    rw [(hf n).1, (hf n).2.1, (hf n).2.2]
    exact w.unused n h
  · intro n p hp
    rw [(hf n).2.2] at hp
    exact w.lt n p hp
  · intro n ha p hp
    rw [(hf n).1] at ha
    rw [(hf n).2.2] at hp
    rw [(hf p).1]
    exact w.parentAlive n ha p hp
  · intro n ha p hp
    rw [(hf n).1] at ha
    rw [(hf n).2.2] at hp
    rw [(hf p).2.1]
    exact w.linked n ha p hp
  · intro p c hc
    rw [(hf p).2.1] at hc
    rw [(hf c).2.2, hsz]
    exact w.child p c hc

end Verif.Graph
