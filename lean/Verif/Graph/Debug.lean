import Verif.Graph.Reach
import Verif.Graph.Exec

/-
Debug builds: the assertion of `link`.

C100: it fails exactly if an expression names the same reader twice.
-/

set_option linter.unusedSectionVars false

namespace Verif.Graph

variable {V S : Type} [DecidableEq V]

/-- `link` with its assertion, `nodes.hpp:145-154`, for every parent (`link_to_parents`,
`nodes.hpp:350-355`); `none`: the assertion "Child node must not be linked twice" has failed.
`owner_equals` compares the identities of the children, whether they still exist or not. -/
def Graph.linkChecked (g : Graph V S) (ps : List Nat) (c : Nat) : Option (Graph V S) :=
  ps.foldlM (fun g p =>
    if c ∈ (g.node p).children then none
    else some (g.mod p fun x => { x with children := x.children ++ [c] })) g

/-- The readers that an expression names when a reader is made from it. -/
def Op.sources : Op V S → List Nat
  | .newCalc _ ps _ _ _ _ => ps
  | .newXform _ ps _ _ _ _ _ => ps
  | .newSetter _ p _ => [p]
  | _ => []

/-- What a call does in a debug build: `none` if it is not possible, `some none` if it ends the
program.  The new node gets the number `m.g.size`. -/
def dstep [Inhabited S] (m : M V S) (op : Op V S) : Option (Option (M V S)) :=
  match ustep m op with
  | none => none
  | some m' =>
    match m.g.linkChecked op.sources m.g.size with
    | none => some none
    | some _ => some (some m')

theorem linkChecked_iff (c : Nat) : ∀ (ps : List Nat) (g : Graph V S),
    (g.linkChecked ps c).isSome ↔ ps.Nodup ∧ ∀ p, p ∈ ps → c ∉ (g.node p).children := by
  intro ps
  induction ps with
  | nil => intro g; simp [Graph.linkChecked]
  | cons p ps ih =>
    intro g
    have e : g.linkChecked (p :: ps) c = (if c ∈ (g.node p).children then none
        else Graph.linkChecked (g.mod p fun x => { x with children := x.children ++ [c] }) ps c) := by
      unfold Graph.linkChecked
      rw [List.foldlM_cons]
      by_cases h : c ∈ (g.node p).children
      · simp [h]
      · simp [h]
    rw [e]
    by_cases h : c ∈ (g.node p).children
    · rw [if_pos h]
      constructor
      · intro h'; cases h'
      · intro h'; exact absurd h (h'.2 p (by simp))
    · rw [if_neg h, ih, List.nodup_cons]
      constructor
      · rintro ⟨h1, h2⟩
        refine ⟨⟨?_, h1⟩, ?_⟩
        · intro hp
          refine h2 p hp ?_
          simp [Graph.mod]
        · intro q hq
          rcases List.mem_cons.mp hq with rfl | hq
          · exact h
          · have := h2 q hq
            by_cases hqp : q = p
            · rw [hqp]; exact h
            · simpa [Graph.mod, hqp] using this
      · rintro ⟨⟨h1, h2⟩, h3⟩
        refine ⟨h2, ?_⟩
        intro q hq
        have hqp : q ≠ p := fun e => h1 (e ▸ hq)
        simpa [Graph.mod, hqp] using h3 q (by simp [hq])

/-- C100: in a debug build, making a reader ends the program with a failed assertion exactly if the
expression names the same reader twice; otherwise, and for all other calls, debug builds do what
release builds do. -/
theorem C100_assertion [Inhabited S] {m : M V S} (h : Reach m) (hub : m.ub = false) (op : Op V S)
    {m' : M V S} (ho : ustep m op = some m') :
    (dstep m op = some none ↔ ¬ op.sources.Nodup) ∧
    (dstep m op = some (some m') ↔ op.sources.Nodup) := by
  have w := (reach_inv h hub).wf
  have hc : ∀ p, p ∈ op.sources → m.g.size ∉ (m.g.node p).children :=
    fun p _ hin => absurd (w.child p _ hin).2 (Nat.lt_irrefl _)
  have hi := linkChecked_iff m.g.size op.sources m.g
  have hiff : (m.g.linkChecked op.sources m.g.size).isSome ↔ op.sources.Nodup :=
    hi.trans ⟨fun h => h.1, fun h => ⟨h, hc⟩⟩
  cases hl : m.g.linkChecked op.sources m.g.size with
  | none =>
    have hn : ¬ op.sources.Nodup := by
      intro hn
      have := hiff.mpr hn
      rw [hl] at this
      cases this
    have e : dstep m op = some none := by simp [dstep, ho, hl]
    rw [e]
    exact ⟨⟨fun _ => hn, fun _ => rfl⟩, ⟨fun h => (nomatch h), fun h => absurd h hn⟩⟩
  | some g =>
    have hn : op.sources.Nodup := hiff.mp (by rw [hl]; rfl)
    have e : dstep m op = some (some m') := by simp [dstep, ho, hl]
    rw [e]
    exact ⟨⟨fun h => (nomatch h), fun h => absurd hn h⟩, ⟨fun _ => hn, fun _ => rfl⟩⟩

/-- C100: the readers that an expression names are the parents of the reader made from it, in this order. -/
theorem C100_sources [Inhabited S] {m : M V S} (hub : m.ub = false) (op : Op V S)
    {m' : M V S} (ho : ustep m op = some m') :
    (m'.g.size = m.g.size ∧ op.sources = []) ∨
    (m'.g.size = m.g.size + 1 ∧ (m'.g.node m.g.size).parents = op.sources) := by
  have hadd : ∀ x : Node V S, (∀ p ∈ x.parents, p < m.g.size) →
      (m.g.add x).size = m.g.size + 1 ∧ ((m.g.add x).node m.g.size).parents = x.parents :=
    fun x hx => ⟨add_size _ _, by rw [add_new _ _ hx]⟩
  have hval : ∀ ps : List Nat, ps.all m.g.valid = true → ∀ p ∈ ps, p < m.g.size := by
    intro ps hps p hp
    have := List.all_eq_true.mp hps p hp
    simp only [Graph.valid, Bool.and_eq_true, decide_eq_true_eq] at this
    exact this.1
  have hsd : ∀ (rs : List Nat) (g : Graph V S), (rs.foldl (fun g r => g.sendDown r) g).size = g.size := by
    intro rs
    induction rs with
    | nil => intro g; rfl
    | cons r rs ih => intro g; rw [List.foldl_cons, ih, (sendDown_moves _ _).same.size]
  unfold ustep at ho
  rw [if_neg (by rw [hub]; simp)] at ho
  split at ho
  · cases op with
    | newCalc cmp ps view put refreshes dflt =>
      dsimp only at ho
      split at ho
      · rename_i hc
        cases ho
        exact Or.inr (hadd _ (hval ps hc.2.1))
      · cases ho
    | newXform cmp ps s0 u0 down up dflt =>
      dsimp only at ho
      split at ho
      · rename_i hc
        cases ho
        exact Or.inr (hadd _ (hval ps hc.2.1))
      · cases ho
    | newSetter cmp p auto =>
      dsimp only at ho
      split at ho
      · rename_i hc
        cases ho
        refine Or.inr (hadd _ (hval [p] ?_))
        simpa using hc
      · cases ho
    | newState auto cmp v => cases ho; exact Or.inr (hadd _ (fun p hp => by cases hp))
    | newSensor cmp ext => cases ho; exact Or.inr (hadd _ (fun p hp => by cases hp))
    | newConstant cmp v => cases ho; exact Or.inr (hadd _ (fun p hp => by cases hp))
    | commit rs =>
      dsimp only at ho
      split at ho
      · cases ho; exact Or.inl ⟨hsd rs m.g, rfl⟩
      · cases ho
    | detach n w => cases ho; exact Or.inl ⟨rfl, rfl⟩
    | ret =>
      dsimp only at ho
      split at ho
      · cases ho
      · cases ho; exact Or.inl ⟨rfl, rfl⟩
    | _ =>
      dsimp only at ho
      split at ho
      · cases ho; exact Or.inl ⟨rfl, rfl⟩
      · cases ho
  · cases ho

/-- `with(x, x)` and `with(x, y)` for two states. -/
def exStates : List (Op Nat Nat) := [.newState true true 1, .newState true true 2]
/-- The merged reader of two readers; adds them up. -/
def exMerge (p q : Nat) : Op Nat Nat := .newCalc true [p, q] (fun l => some l.sum) none false 0

/-- C100: `with(x, x)` is such an expression, also when a copy of `x` is named; `with(x, y)` is not. -/
theorem C100_merge_false : Reach (exec exStates boot) ∧ (exec exStates boot).ub = false ∧
    (ustep (exec exStates boot) (exMerge 0 0)).isSome ∧
    dstep (exec exStates boot) (exMerge 0 0) = some none ∧
    (∃ m', dstep (exec exStates boot) (exMerge 0 1) = some (some m')) := by
  have hr := exec_reach exStates
  have h0 : (exec exStates boot).ub = false := by decide +kernel
  have h1 : (ustep (exec exStates boot) (exMerge 0 0)).isSome := by decide +kernel
  have h2 : (ustep (exec exStates boot) (exMerge 0 1)).isSome := by decide +kernel
  refine ⟨hr, h0, h1, ?_, ?_⟩
  · cases h : ustep (exec exStates boot) (exMerge 0 0) with
    | none => rw [h] at h1; cases h1
    | some m' => exact (C100_assertion hr h0 _ h).1.mpr (by decide)
  · cases h : ustep (exec exStates boot) (exMerge 0 1) with
    | none => rw [h] at h2; cases h2
    | some m' => exact ⟨m', (C100_assertion hr h0 _ h).2.mpr (by decide)⟩

/-- In release builds `with(x, x)` works, see C01 and C09, which do not exclude it: after `x.set(5)`
it shows 10 and its watcher has been called once. -/
example : let m := exec (exStates ++ [exMerge 0 0, .attach 2 0, .set 0 5, .ret]) boot
    (m.g.node 2).last = 10 ∧ (m.g.node 0).children = [2, 2] := by
  decide +kernel

end Verif.Graph
