import Verif.Tree.Lemmas

/-!
The summary of a tree of histories, `lager/debug/tree_debugger.hpp:91-101, 202-222`, which the
debug server sends with the status (`debug/http_server.hpp:273`).
-/

namespace Verif.Tree

variable {A M : Type}

/-- `summary_step_t`, `tree_debugger.hpp:91-101`; `summary_history_t` is `List Sum` and `summary_t` is
`List (List Sum)`. -/
inductive Sum where
  | mk (steps : Nat) (branches : List (List Sum))

/-- `summary_step_t::steps`. -/
def Sum.steps : Sum → Nat
  | .mk n _ => n

/-- `summary_step_t::branches`. -/
def Sum.branches : Sum → List (List Sum)
  | .mk _ b => b

mutual
/-- `do_summary`, `tree_debugger.hpp:202-220`: the outer loop. -/
def doSummary : List (List (Step A M)) → List (List Sum)
  | [] => []
  | history :: rest => sumHistory 0 [] history :: doSummary rest

/-- The inner loop, with its local variables `steps` and `current`, `tree_debugger.hpp:206-217`. -/
def sumHistory (steps : Nat) (current : List Sum) : List (Step A M) → List Sum
  | [] => current ++ [.mk steps []]
  | .mk _ _ b :: rest =>
    if b.isEmpty then sumHistory (steps + 1) current rest
    else sumHistory 0 (current ++ [.mk steps (doSummary b)]) rest
end

/-- `summary`, `tree_debugger.hpp:222`. -/
def Model.summary (m : Model A M) : List (List Sum) := doSummary m.branches

/-! ## Specification -/

/-- What a summary of a history says about the step with the given number: nothing, if there is no such
step, or which branches it has.  An entry stands for `steps` steps without branches, and, unless it is the
last, for one more step with its `branches`. -/
def Sum.kids : List Sum → Nat → Option (List (List Sum))
  | [], _ => none
  | [e], i => if i < e.steps then some [] else none
  | e :: f :: rest, i =>
    if i < e.steps then some []
    else if i = e.steps then some e.branches
    else Sum.kids (f :: rest) (i - e.steps - 1)

/-- The summary says that there is a step at this position. -/
def Sum.has (b : List (List Sum)) : Cursor → Bool
  | [] => true
  | pos :: rest =>
    match b[pos.branch]? with
    | none => false
    | some h =>
      match Sum.kids h pos.step with
      | none => false
      | some k => Sum.has k rest

mutual
/-- Number of steps in a tree. -/
def countBranches : List (List (Step A M)) → Nat
  | [] => 0
  | h :: rest => countHistory h + countBranches rest

/-- … in a history. -/
def countHistory : List (Step A M) → Nat
  | [] => 0
  | .mk _ _ b :: rest => 1 + countBranches b + countHistory rest
end

mutual
/-- Number of steps that a summary stands for. -/
def Sum.countBranches : List (List Sum) → Nat
  | [] => 0
  | h :: rest => Sum.countHistory h + Sum.countBranches rest

/-- … of a history; each entry but the last stands for one more step than `steps`. -/
def Sum.countHistory : List Sum → Nat
  | [] => 0
  | .mk n b :: rest => n + (if rest.isEmpty then 0 else 1 + Sum.countBranches b) + Sum.countHistory rest
end

/-! ## Lemmas -/

theorem doSummary_nil : doSummary ([] : List (List (Step A M))) = [] := by rw [doSummary]

theorem doSummary_eq (b : List (List (Step A M))) : doSummary b = b.map (sumHistory 0 []) := by
  induction b with
  | nil => rw [doSummary]; rfl
  | cons h b ih => rw [doSummary, ih]; rfl

theorem doSummary_empty (b : List (List (Step A M))) : (doSummary b).isEmpty = b.isEmpty := by
  rw [doSummary_eq]; simp

/-- The inner loop as a function of the summaries of the branches of each step. -/
def enc (steps : Nat) (current : List Sum) : List (List (List Sum)) → List Sum
  | [] => current ++ [.mk steps []]
  | b :: rest => if b.isEmpty then enc (steps + 1) current rest else enc 0 (current ++ [.mk steps b]) rest

theorem sumHistory_enc (h : List (Step A M)) : ∀ (n : Nat) (cur : List Sum),
    sumHistory n cur h = enc n cur (h.map fun s => doSummary s.branches) := by
  induction h with
  | nil => intro n cur; rw [sumHistory]; rfl
  | cons s h ih =>
    intro n cur
    obtain ⟨a, m, b⟩ := s
    rw [sumHistory, List.map_cons, enc]
    show _ = if (doSummary b).isEmpty then _ else _
    rw [doSummary_empty]
    split
    · exact ih _ _
    · exact ih _ _

theorem enc_acc (l : List (List (List Sum))) : ∀ (n : Nat) (cur : List Sum), enc n cur l = cur ++ enc n [] l := by
  induction l with
  | nil => intro n cur; rfl
  | cons b l ih =>
    intro n cur
    rw [enc, enc]
    split
    · exact ih _ _
    · rw [ih 0 (cur ++ _), ih 0 ([] ++ _)]; simp

theorem enc_ne (l : List (List (List Sum))) (n : Nat) (cur : List Sum) : ∃ f r, enc n cur l = f :: r := by
  have : ∀ (n : Nat) (cur : List Sum), enc n cur l ≠ [] := by
    induction l with
    | nil => intro n cur; rw [enc]; simp
    | cons b l ih => intro n cur; rw [enc]; split <;> exact ih _ _
  cases h : enc n cur l with
  | nil => exact absurd h (this n cur)
  | cons f r => exact ⟨f, r, rfl⟩

theorem kids_enc (l : List (List (List Sum))) : ∀ (n i : Nat),
    Sum.kids (enc n [] l) i = if i < n then some [] else l[i - n]? := by
  induction l with
  | nil =>
    intro n i
    show (if i < n then some [] else none) = _
    simp
  | cons b l ih =>
    intro n i
    rw [enc]
    split
    · rename_i hb
      rw [ih]
      by_cases h : i < n
      · rw [if_pos h, if_pos (by omega)]
      · rw [if_neg h]
        by_cases h2 : i = n
        · subst h2
          rw [if_pos (by omega)]
          cases b with
          | nil => simp
          | cons => simp at hb
        · rw [if_neg (by omega)]
          obtain ⟨k, hk⟩ : ∃ k, i - n = k + 1 := ⟨i - n - 1, by omega⟩
          have : i - (n + 1) = k := by omega
          rw [hk, this]; rfl
    · obtain ⟨f, r, hf⟩ := enc_ne l 0 []
      rw [enc_acc, List.nil_append, hf]
      show Sum.kids (Sum.mk n b :: f :: r) i = _
      rw [Sum.kids, ← hf]
      show (if i < n then _ else if i = n then some b else Sum.kids _ (i - n - 1)) = _
      by_cases h : i < n
      · rw [if_pos h, if_pos h]
      · rw [if_neg h, if_neg h]
        by_cases h2 : i = n
        · subst h2; rw [if_pos rfl]; simp
        · rw [if_neg h2, ih, if_neg (by omega)]
          obtain ⟨k, hk⟩ : ∃ k, i - n = k + 1 := ⟨i - n - 1, by omega⟩
          rw [hk]; simp

theorem has_summary : ∀ (c : Cursor) (b : List (List (Step A M))), c ≠ [] →
    Sum.has (doSummary b) c = (stepAt b c).isSome := by
  intro c
  induction c with
  | nil => intro b h; exact absurd rfl h
  | cons p rest ih =>
    intro b _
    rw [Sum.has, stepAt, doSummary_eq, List.getElem?_map]
    cases b[p.branch]? with
    | none => rfl
    | some h =>
      show (match Sum.kids (sumHistory 0 [] h) p.step with | none => false | some k => Sum.has k rest) = _
      rw [sumHistory_enc, kids_enc, if_neg (by omega), Nat.sub_zero, List.getElem?_map, Option.bind_some]
      cases h[p.step]? with
      | none => rfl
      | some s =>
        show Sum.has (doSummary s.branches) rest = _
        rw [Option.bind_some]
        by_cases hr : rest = []
        · rw [if_pos hr, hr]; rfl
        · rw [if_neg hr]; exact ih _ hr

theorem sumCount_enc (l : List (List (List Sum))) : ∀ n, Sum.countHistory (enc n [] l)
    = n + (l.map fun b => 1 + Sum.countBranches b).sum := by
  induction l with
  | nil => intro n; rw [enc]; simp [Sum.countHistory]
  | cons b l ih =>
    intro n
    rw [enc, List.map_cons, List.sum_cons]
    split
    · rename_i hb
      cases b with
      | nil => rw [ih, Sum.countBranches]; omega
      | cons => simp at hb
    · obtain ⟨f, r, hf⟩ := enc_ne l 0 []
      rw [enc_acc, List.nil_append, hf]
      show Sum.countHistory (Sum.mk n b :: f :: r) = _
      rw [Sum.countHistory, ← hf, ih]
      simp only [hf, List.isEmpty_cons, Bool.false_eq_true, if_false]
      omega

mutual
theorem count_summary : ∀ b : List (List (Step A M)), Sum.countBranches (doSummary b) = countBranches b
  | [] => by rw [doSummary, Sum.countBranches, countBranches]
  | h :: rest => by
    rw [doSummary, Sum.countBranches, countBranches, count_summary rest, sumHistory_enc, sumCount_enc, count_hist h]
    omega

theorem count_hist : ∀ h : List (Step A M),
    ((h.map fun s => doSummary s.branches).map fun b => 1 + Sum.countBranches b).sum = countHistory h
  | [] => by rw [countHistory]; rfl
  | .mk a m b :: rest => by
    rw [countHistory, List.map_cons, List.map_cons, List.sum_cons, count_hist rest]
    show 1 + Sum.countBranches (doSummary b) + _ = _
    rw [count_summary b]
end

theorem full_same {A' M' : Type} {b : List (List (Step A M))} {b' : List (List (Step A' M'))} (hb : Full b) (hb' : Full b')
    (h : ∀ c, c ≠ [] → (stepAt b c).isSome = (stepAt b' c).isSome) : doSummary b = doSummary b' := by
  induction hb generalizing b' with
  | @intro b h1 h2 ih =>
    rw [doSummary_eq, doSummary_eq]
    apply List.ext_getElem?
    intro i
    rw [List.getElem?_map, List.getElem?_map]
    have first : ∀ {A M : Type} (b : List (List (Step A M))), (∀ hist ∈ b, hist ≠ []) →
        (stepAt b [⟨i, 0⟩]).isSome = (b[i]?).isSome := by
      intro A M b hne
      rw [stepAt]
      cases e : b[i]? with
      | none => rfl
      | some hist =>
        cases hist with
        | nil => exact absurd rfl (hne _ (List.mem_of_getElem? e))
        | cons s hist => simp
    have hi := h [⟨i, 0⟩] (by simp)
    rw [first b h1, first b' (fun x hx => (hb'.out x hx).1)] at hi
    cases e : b[i]? with
    | none =>
      cases e' : b'[i]? with
      | none => rfl
      | some hist' => rw [e, e'] at hi; cases hi
    | some hist =>
      cases e' : b'[i]? with
      | none => rw [e, e'] at hi; cases hi
      | some hist' =>
        show some (sumHistory 0 [] hist) = some (sumHistory 0 [] hist')
        rw [sumHistory_enc, sumHistory_enc]
        congr 2
        apply List.ext_getElem?
        intro j
        rw [List.getElem?_map, List.getElem?_map]
        have at_ : ∀ rest, (stepAt b (⟨i, j⟩ :: rest)).isSome = (stepAt b' (⟨i, j⟩ :: rest)).isSome :=
          fun rest => h _ (by simp)
        have hj := at_ []
        simp only [stepAt, e, e', Option.bind_some, if_true] at hj
        cases f : hist[j]? with
        | none =>
          cases f' : hist'[j]? with
          | none => rfl
          | some s' => rw [f, f'] at hj; simp at hj
        | some s =>
          cases f' : hist'[j]? with
          | none => rw [f, f'] at hj; simp at hj
          | some s' =>
            show some (doSummary s.branches) = some (doSummary s'.branches)
            congr 1
            refine ih hist (List.mem_of_getElem? e) s (List.mem_of_getElem? f)
              ((hb'.out hist' (List.mem_of_getElem? e')).2 s' (List.mem_of_getElem? f')) ?_
            intro c hc
            have := at_ c
            simpa only [stepAt, e, e', f, f', Option.bind_some, hc, if_false] using this

end Verif.Tree
