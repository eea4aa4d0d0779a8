import Verif.Example.TodoQml
import Verif.Lens.Lemmas

/-!
C132: cursors at positions of a list, `example/todo/qml`.
-/

namespace Verif.TodoQml

open Verif.Lens Verif.Graph Verif.Todo

/-! ### Specification -/

/-- What a command means for the list. -/
def Cmd.apply (d : Doc) : Cmd → Doc
  | .add s => if s = "" then d else ⟨false, s⟩ :: d
  | .remove i => d.take i ++ d.drop (i + 1)
  | .load none => d
  | .load (some d') => d'
  | .done _ i b => d.modify i fun x => { x with done := b }
  | .text _ i s => d.modify i fun x => { x with text := s }

/-- `k` is the `done` of an item made by `todo(i)`, and still there. -/
def IsDone {S : Type} (m : M Val S) (r k i : Nat) : Prop :=
  Zoomed m k r (fun x => doneGt (itemGt i x)) (fun x v => itemSt i x (doneSt (itemGt i x) v))

/-- `k` is the `text` of an item made by `todo(i)`, and still there. -/
def IsText {S : Type} (m : M Val S) (r k i : Nat) : Prop :=
  Zoomed m k r (fun x => textGt (itemGt i x)) (fun x v => itemSt i x (textSt (itemGt i x) v))

/-- The item that a command writes to is there. -/
def Cmd.ok {S : Type} (m : M Val S) (r : Nat) : Cmd → Prop
  | .done k i _ => IsDone m r k i
  | .text k i _ => IsText m r k i
  | _ => True

/-- The program, between two events: the automatic state `r` has the list `d`. -/
def Ready {S : Type} [Inhabited S] (m : M Val S) (r : Nat) (d : Doc) : Prop := Automatic m r ∧ m.get r = .doc d

/-! ### The lenses -/

theorem view_item (d : Doc) (i : Nat) : view (atItem i) d = (d[i]?).getD blank := by
  show view (valueOr blank) d[i]? = _
  cases d[i]? <;> rfl

theorem show_done (d : Doc) (i : Nat) : doneGt (itemGt i (.doc d)) = .bool ((d[i]?).getD blank).done := by
  rw [← view_item]; rfl

theorem show_text (d : Doc) (i : Nat) : textGt (itemGt i (.doc d)) = .str ((d[i]?).getD blank).text := by
  rw [← view_item]; rfl

theorem modify_some {d : Doc} {i : Nat} {x : Item} (h : d[i]? = some x) (f : Item → Item) :
    d.modify i f = d.set i (f x) := by
  apply List.ext_getElem?
  intro j
  rw [List.getElem?_modify, List.getElem?_set]
  split
  · subst_vars
    obtain ⟨h1, h2⟩ := List.getElem?_eq_some_iff.mp h
    simp [h1, h2]
  · simp

theorem modify_none {d : Doc} {i : Nat} (h : d[i]? = none) (f : Item → Item) : d.modify i f = d := by
  rw [List.modify_eq_self]
  exact List.getElem?_eq_none_iff.mp h

theorem set_item (d : Doc) (i : Nat) (f : Item → Item) :
    set (atItem i) d (f (view (atItem i) d)) = d.modify i f := by
  rw [view_item]
  show atSetter (seqCont Item .persistent) d (Lens.set (valueOr blank) d[i]? (f (d[i]?.getD blank))) i = _
  cases h : d[i]? with
  | none => rw [modify_none h]; show atSetter _ d (some _) i = _; simp [atSetter, seqCont, h]
  | some x => rw [modify_some h]; show atSetter _ d (some _) i = _; simp [atSetter, seqCont, h]

/-! ### The calls as writes -/

def Cmd.writes (r : Nat) : Cmd → List (Write Val)
  | .add s => if !s.isEmpty then [⟨r, fun x => x, fun _ v => v, .inr (pushed s)⟩] else []
  | .remove i => [⟨r, fun x => x, fun _ v => v, .inr (erased i)⟩]
  | .load none => []
  | .load (some d) => [⟨r, fun x => x, fun _ v => v, .inl (.doc d)⟩]
  | .done k i b => [⟨k, fun x => doneGt (itemGt i x), fun x v => itemSt i x (doneSt (itemGt i x) v), .inl (.bool b)⟩]
  | .text k i s => [⟨k, fun x => textGt (itemGt i x), fun x v => itemSt i x (textSt (itemGt i x) v), .inl (.str s)⟩]

theorem writes_calls {S : Type} (r : Nat) (c : Cmd) :
    (c.writes r).map (Write.op (S := S)) = c.calls r := by
  cases c with
  | add s => by_cases h : (!s.isEmpty) = true <;> simp [Cmd.writes, Cmd.calls, h, Write.op]
  | load d => cases d <;> rfl
  | _ => rfl

theorem writes_apply (r : Nat) (c : Cmd) (d : Doc) :
    (c.writes r).foldl (fun x w => w.apply x) (.doc d) = .doc (c.apply d) := by
  cases c with
  | add s =>
    by_cases h : s = ""
    · subst h; rfl
    · have : s.isEmpty = false := by
        cases h1 : s.isEmpty with
        | false => rfl
        | true => exact absurd (String.isEmpty_iff.mp h1) h
      simp [Cmd.writes, Cmd.apply, this, h, Write.apply, pushed]
  | remove i =>
    show Val.doc (d.eraseIdx i) = _
    rw [List.eraseIdx_eq_take_drop_succ]; rfl
  | load d' => cases d' <;> rfl
  | done k i b => exact congrArg Val.doc (set_item d i fun x => { x with done := b })
  | text k i s => exact congrArg Val.doc (set_item d i fun x => { x with text := s })

theorem writes_all (r : Nat) (cs : List Cmd) (d : Doc) :
    (cs.flatMap (Cmd.writes r)).foldl (fun x w => w.apply x) (.doc d) = .doc (cs.foldl Cmd.apply d) := by
  induction cs generalizing d with
  | nil => rfl
  | cons c cs ih => rw [List.flatMap_cons, List.foldl_append, writes_apply, ih]; rfl

/-! ### C132 -/

variable {S : Type} [Inhabited S]

/-- Any history of the program: all the calls can be made; the state then has what the commands make of the list, one after
the other; and every item made by `todo(i)` shows the members of what is at position `i` then, or those of a default-constructed
item if nothing is. -/
theorem C132_history {m : M Val S} {r : Nat} {d : Doc} (h : Ready m r d) (cs : List Cmd) (hc : ∀ c ∈ cs, c.ok m r) :
    (∃ m1, PCalls m (cs.flatMap (Cmd.calls r)) m1) ∧
    ∀ m1, PCalls m (cs.flatMap (Cmd.calls r)) m1 → Ready m1 r (cs.foldl Cmd.apply d) ∧
      (∀ k i, IsDone m r k i →
        IsDone m1 r k i ∧ m1.get k = .bool (((cs.foldl Cmd.apply d)[i]?).getD ⟨false, ""⟩).done) ∧
      (∀ k i, IsText m r k i →
        IsText m1 r k i ∧ m1.get k = .str (((cs.foldl Cmd.apply d)[i]?).getD ⟨false, ""⟩).text) := by
  have hmap : (cs.flatMap (Cmd.writes r)).map (Write.op (S := S)) = cs.flatMap (Cmd.calls r) := by
    induction cs with
    | nil => rfl
    | cons c cs ih =>
      rw [List.flatMap_cons, List.flatMap_cons, List.map_append, writes_calls,
        ih fun x hx => hc x (List.mem_cons_of_mem _ hx)]
  have key := C11_automatic_sequence h.1 (cs.flatMap (Cmd.writes r)) (by
    intro w hw
    obtain ⟨c, hcs, hw⟩ := List.mem_flatMap.mp hw
    have hok := hc c hcs
    cases c with
    | add s =>
      simp [Cmd.writes] at hw
      obtain ⟨_, rfl⟩ := hw; exact ⟨.state h.1.kind, h.1.live⟩
    | remove i => simp [Cmd.writes] at hw; subst hw; exact ⟨.state h.1.kind, h.1.live⟩
    | load d' => cases d' <;> simp [Cmd.writes] at hw; subst hw; exact ⟨.state h.1.kind, h.1.live⟩
    | done k i b => simp [Cmd.writes] at hw; subst hw; exact hok
    | text k i s => simp [Cmd.writes] at hw; subst hw; exact hok)
  rw [hmap, h.2, writes_all] at key
  refine ⟨key.1, fun m1 h1 => ?_⟩
  obtain ⟨j1, j2, j3⟩ := key.2 m1 h1
  exact ⟨⟨j1, j2⟩, fun k i hk => ⟨(j3 k _ _ hk).1, (j3 k _ _ hk).2.trans (show_done ..)⟩,
    fun k i hk => ⟨(j3 k _ _ hk).1, (j3 k _ _ hk).2.trans (show_text ..)⟩⟩

/-- `todo(i)`, at any time: the calls can be made; they change nothing that is there, and make the two members of an item of
position `i`. -/
theorem C132_todo {m : M Val S} {r : Nat} {d : Doc} (h : Ready m r d) (i : Nat) :
    ∃ n, (∃ m1, PCalls m (todoCalls r n i) m1) ∧ ∀ m1, PCalls m (todoCalls r n i) m1 → Ready m1 r d ∧
      (∀ k, m.Live k → m1.get k = m.get k) ∧
      (∀ k j, IsDone m r k j → IsDone m1 r k j) ∧ (∀ k j, IsText m r k j → IsText m1 r k j) ∧
      ∃ kd kt, ¬ m.Live kd ∧ ¬ m.Live kt ∧ kd ≠ kt ∧ IsDone m1 r kd i ∧ IsText m1 r kt i := by
  have hi := h.1.facts.1
  have z0 : Zoomed m r r (fun x => x) (fun _ v => v) := ⟨.state h.1.kind, h.1.live⟩
  obtain ⟨⟨ma, pa⟩, fa⟩ := C11_automatic_zoom h.1 z0 true (itemGt i) (itemSt i) (.doc [])
  refine ⟨m.g.size, ?_, ?_⟩
  · obtain ⟨a1, ⟨_, _, rfl, as, az, _⟩, a3, a4⟩ := fa ma pa
    obtain ⟨⟨mb, pb⟩, fb⟩ := C11_automatic_zoom a1 az true doneGt doneSt (.doc [])
    obtain ⟨b1, _, b3, b4⟩ := fb mb pb
    obtain ⟨⟨mc, pc⟩, _⟩ := C11_automatic_zoom b1 (b3 _ _ _ az) true textGt textSt (.doc [])
    exact ⟨mc, .cons pa (.cons pb (.cons pc (.nil _)))⟩
  · intro m1 h1
    cases h1 with
    | cons pa h1 =>
      cases h1 with
      | cons pb h1 =>
        cases h1 with
        | cons pc h1 =>
          cases h1
          obtain ⟨a1, ⟨_, _, rfl, as, az, _⟩, a3, a4⟩ := fa _ pa
          obtain ⟨b1, ⟨_, _, rfl, bs, bz, _⟩, b3, b4⟩ := (C11_automatic_zoom a1 az true doneGt doneSt (.doc [])).2 _ pb
          obtain ⟨c1, ⟨_, _, rfl, cs, cz, _⟩, c3, c4⟩ :=
            (C11_automatic_zoom b1 (b3 _ _ _ az) true textGt textSt (.doc [])).2 _ pc
          have hget : ∀ k, m.Live k → m1.get k = m.get k := by
            intro k hk
            obtain ⟨l1, g1⟩ := a4 k hk
            obtain ⟨l2, g2⟩ := b4 k l1
            rw [(c4 k l2).2, g2, g1]
          refine ⟨⟨c1, (hget r h.1.live).trans h.2⟩, hget, fun k j hk => c3 _ _ _ (b3 _ _ _ (a3 _ _ _ hk)),
            fun k j hk => c3 _ _ _ (b3 _ _ _ (a3 _ _ _ hk)), _, _, ?_, ?_, ?_, c3 _ _ _ bz, cz⟩
          · intro hl; have := hi.wf.alive_lt hl; omega
          · intro hl; have := hi.wf.alive_lt hl; omega
          · omega

/-- After `add`, the item of position 0 shows the new one, and every other item shows what the one of the position before it
has shown. -/
theorem C132_add {m m1 : M Val S} {r : Nat} {d : Doc} (h : Ready m r d) {s : String} (hs : s ≠ "")
    (hc : PCalls m (Cmd.calls r (.add s)) m1) :
    (∀ k, IsText m r k 0 → m1.get k = .str s) ∧ (∀ k, IsDone m r k 0 → m1.get k = .bool false) ∧
    (∀ k k' i, IsText m r k i → IsText m r k' (i + 1) → m1.get k' = m.get k) ∧
    (∀ k k' i, IsDone m r k i → IsDone m r k' (i + 1) → m1.get k' = m.get k) := by
  obtain ⟨_, h1⟩ := C132_history h [.add s] (by simp [Cmd.ok])
  obtain ⟨_, h2, h3⟩ := h1 m1 (by simpa using hc)
  obtain ⟨_, h0⟩ := C132_history h [] (by simp)
  obtain ⟨_, h4, h5⟩ := h0 m (.nil m)
  simp only [List.foldl_cons, List.foldl_nil, Cmd.apply, if_neg hs] at h2 h3 h4 h5
  refine ⟨fun k hk => by rw [(h3 k 0 hk).2]; rfl, fun k hk => by rw [(h2 k 0 hk).2]; rfl,
    fun k k' i hk hk' => by rw [(h3 k' _ hk').2, (h5 k i hk).2]; simp,
    fun k k' i hk hk' => by rw [(h2 k' _ hk').2, (h4 k i hk).2]; simp⟩

/-- After `remove(j)`, the items of the positions before `j` show what they have shown, and every other one shows what the one
of the position after it has shown. -/
theorem C132_remove {m m1 : M Val S} {r : Nat} {d : Doc} (h : Ready m r d) {j : Nat} (hj : j < d.length)
    (hc : PCalls m (Cmd.calls r (.remove j)) m1) :
    (∀ k i, i < j → IsText m r k i → m1.get k = m.get k) ∧ (∀ k i, i < j → IsDone m r k i → m1.get k = m.get k) ∧
    (∀ k k' i, j ≤ i → IsText m r k i → IsText m r k' (i + 1) → m1.get k = m.get k') ∧
    (∀ k k' i, j ≤ i → IsDone m r k i → IsDone m r k' (i + 1) → m1.get k = m.get k') := by
  obtain ⟨_, h1⟩ := C132_history h [.remove j] (by simp [Cmd.ok])
  obtain ⟨_, h2, h3⟩ := h1 m1 (by simpa using hc)
  obtain ⟨_, h0⟩ := C132_history h [] (by simp)
  obtain ⟨_, h4, h5⟩ := h0 m (.nil m)
  simp only [List.foldl_cons, List.foldl_nil, Cmd.apply] at h2 h3 h4 h5
  have lt : ∀ i, i < j → (d.take j ++ d.drop (j + 1))[i]? = d[i]? := by
    intro i hi
    rw [List.getElem?_append_left (by simp; omega), List.getElem?_take_of_lt hi]
  have ge : ∀ i, j ≤ i → (d.take j ++ d.drop (j + 1))[i]? = d[i + 1]? := by
    intro i hi
    rw [List.getElem?_append_right (by simp; omega), List.getElem?_drop]
    congr 1
    simp; omega
  exact ⟨fun k i hi hk => by rw [(h3 k i hk).2, (h5 k i hk).2, lt i hi], fun k i hi hk => by rw [(h2 k i hk).2, (h4 k i hk).2, lt i hi],
    fun k k' i hi hk hk' => by rw [(h3 k i hk).2, (h5 k' _ hk').2, ge i hi],
    fun k k' i hi hk hk' => by rw [(h2 k i hk).2, (h4 k' _ hk').2, ge i hi]⟩

/-- A write by the item of position `i`: if the list has that position the item shows what was written, its other member and
the members of all other positions are as before; if not, nothing changes. -/
theorem C132_write {m m1 : M Val S} {r : Nat} {d : Doc} (h : Ready m r d) {k i : Nat} (hk : IsDone m r k i) {b : Bool}
    (hc : PCalls m (Cmd.calls r (.done k i b)) m1) :
    (i < d.length → m1.get k = .bool b) ∧ (d.length ≤ i → m1.get r = m.get r ∧ m1.get k = m.get k) ∧
    (∀ k' j, IsDone m r k' j → j ≠ i → m1.get k' = m.get k') ∧ (∀ k' j, IsText m r k' j → m1.get k' = m.get k') := by
  obtain ⟨_, h1⟩ := C132_history h [.done k i b] (by simpa [Cmd.ok] using hk)
  obtain ⟨hr, h2, h3⟩ := h1 m1 (by simpa using hc)
  obtain ⟨_, h0⟩ := C132_history h [] (by simp)
  obtain ⟨hr0, h4, h5⟩ := h0 m (.nil m)
  simp only [List.foldl_cons, List.foldl_nil, Cmd.apply] at hr h2 h3 h4 h5 hr0
  refine ⟨fun hi => ?_, fun hi => ?_, fun k' j hk' hj => ?_, fun k' j hk' => ?_⟩
  · rw [(h2 k i hk).2, List.getElem?_modify, List.getElem?_eq_getElem hi]
    simp
  · rw [hr.2, hr0.2, (h2 k i hk).2, (h4 k i hk).2, modify_none (List.getElem?_eq_none_iff.mpr hi)]
    exact ⟨rfl, rfl⟩
  · rw [(h2 k' j hk').2, (h4 k' j hk').2, List.getElem?_modify]
    simp [Ne.symm hj]
  · rw [(h3 k' j hk').2, (h5 k' j hk').2, List.getElem?_modify]
    cases d[j]? with
    | none => rfl
    | some x => split <;> rfl

/-! ### What is not so, and an example -/

/-- What is at addresses never used. -/
def exNode : Node Val Nat :=
  { freshNode .constant [] (.bool false) true 0 0 with alive := false }

/-- A list of two items, and the items of positions 0 and 1: cursors 1 to 6. -/
def exItems : M Val Nat :=
  exec (.newState true true (.doc [⟨false, "milk"⟩, ⟨true, "eggs"⟩]) :: todoCalls 0 1 0 ++ todoCalls 0 4 1) (start true exNode)

theorem exItems_done0 : IsDone exItems 0 2 0 :=
  ⟨.zoom (p := 1) (gt := itemGt 0) (st := itemSt 0) doneGt doneSt rfl rfl (fun _ => rfl) (fun _ _ => rfl)
    (.zoom (p := 0) (gt := fun x => x) (st := fun _ v => v) (itemGt 0) (itemSt 0) rfl rfl (fun _ => rfl) (fun _ _ => rfl)
      (.state (a := true) rfl)), by unfold M.Live; decide +kernel⟩

theorem exItems_text0 : IsText exItems 0 3 0 :=
  ⟨.zoom (p := 1) (gt := itemGt 0) (st := itemSt 0) textGt textSt rfl rfl (fun _ => rfl) (fun _ _ => rfl)
    (.zoom (p := 0) (gt := fun x => x) (st := fun _ v => v) (itemGt 0) (itemSt 0) rfl rfl (fun _ => rfl) (fun _ _ => rfl)
      (.state (a := true) rfl)), by unfold M.Live; decide +kernel⟩

theorem exItems_done1 : IsDone exItems 0 5 1 :=
  ⟨.zoom (p := 4) (gt := itemGt 1) (st := itemSt 1) doneGt doneSt rfl rfl (fun _ => rfl) (fun _ _ => rfl)
    (.zoom (p := 0) (gt := fun x => x) (st := fun _ v => v) (itemGt 1) (itemSt 1) rfl rfl (fun _ => rfl) (fun _ _ => rfl)
      (.state (a := true) rfl)), by unfold M.Live; decide +kernel⟩

theorem exItems_text1 : IsText exItems 0 6 1 :=
  ⟨.zoom (p := 4) (gt := itemGt 1) (st := itemSt 1) textGt textSt rfl rfl (fun _ => rfl) (fun _ _ => rfl)
    (.zoom (p := 0) (gt := fun x => x) (st := fun _ v => v) (itemGt 1) (itemSt 1) rfl rfl (fun _ => rfl) (fun _ _ => rfl)
      (.state (a := true) rfl)), by unfold M.Live; decide +kernel⟩

theorem exItems_ready : Ready exItems 0 [⟨false, "milk"⟩, ⟨true, "eggs"⟩] :=
  ⟨⟨(exec_runs _ _).reach (.start true exNode ⟨rfl, rfl, rfl, rfl, rfl, rfl, rfl, rfl⟩), by decide +kernel,
    ⟨[], by decide +kernel⟩, by unfold M.Live; decide +kernel, rfl,
    fun h => by have := h.2; revert this; decide +kernel⟩, by decide +kernel⟩

/-- The hypotheses of `C132_history`, `C132_add`, `C132_remove` and `C132_write`, and what the items show then: after an
`add`, after a `remove`, after a write to a position, and after all of these. -/
example : (∃ m1, PCalls exItems (Cmd.calls 0 (.add "salt")) m1 ∧ m1.get 3 = .str "salt" ∧ m1.get 6 = .str "milk" ∧
      m1.get 5 = .bool false) ∧
    (∃ m1, PCalls exItems (Cmd.calls 0 (.remove 0)) m1 ∧ m1.get 3 = .str "eggs" ∧ m1.get 2 = .bool true) ∧
    (∃ m1, PCalls exItems (Cmd.calls 0 (.done 2 0 true)) m1 ∧ m1.get 2 = .bool true) ∧
    (∀ c ∈ [Cmd.add "salt", .remove 2, .done 5 1 true, .text 3 0 "rice"], c.ok exItems 0) ∧
    [Cmd.add "salt", .remove 2, .done 5 1 true, .text 3 0 "rice"].foldl Cmd.apply [⟨false, "milk"⟩, ⟨true, "eggs"⟩] =
      [⟨false, "rice"⟩, ⟨true, "milk"⟩] := by
  refine ⟨⟨_, .cons (pcall_call (by decide +kernel) (by decide +kernel)) (.nil _), by decide +kernel, by decide +kernel,
      by decide +kernel⟩,
    ⟨_, .cons (pcall_call (by decide +kernel) (by decide +kernel)) (.nil _), by decide +kernel, by decide +kernel⟩,
    ⟨_, .cons (pcall_call (by decide +kernel) (by decide +kernel)) (.nil _), by decide +kernel⟩, ?_, by decide +kernel⟩
  intro c hc
  simp only [List.mem_cons, List.not_mem_nil, or_false] at hc
  rcases hc with rfl | rfl | rfl | rfl
  · trivial
  · trivial
  · exact exItems_done1
  · exact exItems_text0

/-- An item does not stay with what it has shown: the item of position 0 shows another text after an `add`, although what it
has shown is still in the list. -/
theorem C132_follows_false : ∃ (m m1 : M Val Nat) (d d1 : Doc) (x : Item) (k : Nat), Ready m 0 d ∧ IsText m 0 k 0 ∧
    d[0]? = some x ∧ m.get k = .str x.text ∧ PCalls m (Cmd.calls 0 (.add "salt")) m1 ∧ m1.get 0 = .doc d1 ∧ x ∈ d1 ∧
    m1.get k ≠ .str x.text :=
  ⟨exItems, _, _, [⟨false, "salt"⟩, ⟨false, "milk"⟩, ⟨true, "eggs"⟩], ⟨false, "milk"⟩, 3, exItems_ready, exItems_text0, rfl,
    by decide +kernel, .cons (pcall_call (by decide +kernel) (by decide +kernel)) (.nil _), by decide +kernel, by decide,
    by decide +kernel⟩

/-- What was written by an item cannot always be read from it: after its position is gone, writes are lost. -/
theorem C132_put_false : ∃ (m m1 m2 : M Val Nat) (d : Doc), Ready m 0 d ∧ IsDone m 0 5 1 ∧
    PCalls m (Cmd.calls 0 (.remove 1)) m1 ∧ PCalls m1 (Cmd.calls 0 (.done 5 1 true)) m2 ∧ m2.get 5 = .bool false ∧
    m2.get 0 = m1.get 0 :=
  ⟨exItems, (exItems.pcall (.update 0 (erased 1))), ((exItems.pcall (.update 0 (erased 1))).pcall (.set 5 (.bool true))),
    _, exItems_ready, exItems_done1, .cons (pcall_call (by decide +kernel) (by decide +kernel)) (.nil _),
    .cons (pcall_call (by decide +kernel) (by decide +kernel)) (.nil _), by decide +kernel, by decide +kernel⟩

end Verif.TodoQml
