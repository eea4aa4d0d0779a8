import Verif.Doc.Intent

/-!
C129: the actions on the list of todos, and the numbers in commands.
-/

namespace Verif.Doc

/-- C129: adding puts an open todo at the end; removing takes out the todo with the index, and toggling flips it; both leave
all other todos as they are, and are undefined if, and only if, there is no todo with the index. -/
theorem C129_update (m : List Todo) :
    (∀ c, updateTodos m (.add c) = some (m ++ [{ content := c, completed := false }])) ∧
    (∀ l t r, m = l ++ t :: r → updateTodos m (.remove l.length) = some (l ++ r) ∧
      updateTodos m (.toggle l.length) = some (l ++ { content := t.content, completed := !t.completed } :: r)) ∧
    (∀ i, (updateTodos m (.remove i) = none ↔ m.length ≤ i) ∧ (updateTodos m (.toggle i) = none ↔ m.length ≤ i)) := by
  refine ⟨fun c => rfl, ?_, ?_⟩
  · rintro l t r rfl
    constructor
    · simp [updateTodos]
    · simp [updateTodos]
  · intro i
    constructor
    · simp [updateTodos]
    · by_cases h : i < m.length
      · have : m[i]? = some m[i] := by simp [h]
        simp only [updateTodos, this]
        simp only [reduceCtorEq, false_iff]
        omega
      · have : m[i]? = none := by simp; omega
        simp only [updateTodos, this, true_iff]
        omega

/-- Specification: the number that a decimal numeral means. -/
def decimal : List Char → Nat
  | [] => 0
  | c :: s => (c.toNat - 48) * 10 ^ s.length + decimal s

/-- Specification: white space. -/
def Blank (c : Char) : Prop := c ∈ [' ', '\t', '\n', '\x0b', '\x0c', '\r']

/-- Specification: how a text is read. -/
def Reads (s : List Char) (n : Int) : Prop :=
  ∃ blanks sign ds rest, s = blanks ++ sign ++ ds ++ rest ∧ (∀ c ∈ blanks, Blank c) ∧
    (sign = [] ∨ sign = ['+'] ∨ sign = ['-']) ∧ ds ≠ [] ∧ (∀ c ∈ ds, '0' ≤ c ∧ c ≤ '9') ∧
    (∀ c, rest.head? = some c → ¬ ('0' ≤ c ∧ c ≤ '9')) ∧
    n = if sign = ['-'] then - (decimal ds : Int) else decimal ds

theorem number_go (s : List Char) (k : Nat) :
    s.foldl (fun n c => 10 * n + (c.toNat - '0'.toNat)) k = k * 10 ^ s.length + decimal s := by
  induction s generalizing k with
  | nil => simp [decimal]
  | cons c s ih =>
    simp only [List.foldl_cons, ih, decimal, List.length_cons, Nat.pow_succ]
    have : '0'.toNat = 48 := rfl
    rw [this, Nat.add_mul, Nat.mul_comm 10 k, Nat.mul_assoc, Nat.mul_comm 10 (10 ^ s.length)]
    omega

theorem number_eq (s : List Char) : number s = decimal s := by
  rw [number, number_go]
  omega

theorem isDigit_iff (c : Char) : c.isDigit = true ↔ '0' ≤ c ∧ c ≤ '9' := by
  simp [Char.isDigit, Char.le_def]

theorem digits_spec (s : List Char) : ∃ rest, s = digits s ++ rest ∧ (∀ c ∈ digits s, '0' ≤ c ∧ c ≤ '9') ∧
    (∀ c, rest.head? = some c → ¬ ('0' ≤ c ∧ c ≤ '9')) := by
  induction s with
  | nil => exact ⟨[], by simp [digits]⟩
  | cons c s ih =>
    obtain ⟨rest, h1, h2, h3⟩ := ih
    by_cases h : c.isDigit
    · refine ⟨rest, by simp only [digits, h, if_true, List.cons_append, ← h1], ?_, h3⟩
      simp only [digits, h, if_true, List.mem_cons]
      rintro x (rfl | hx)
      · exact (isDigit_iff _).1 h
      · exact h2 x hx
    · refine ⟨c :: s, by simp [digits, h], by simp [digits, h], ?_⟩
      intro x hx
      simp only [List.head?_cons, Option.some.injEq] at hx
      subst hx
      rw [← isDigit_iff]; exact h

theorem digits_append (ds rest : List Char) (h : ∀ c ∈ ds, '0' ≤ c ∧ c ≤ '9')
    (hr : ∀ c, rest.head? = some c → ¬ ('0' ≤ c ∧ c ≤ '9')) : digits (ds ++ rest) = ds := by
  induction ds with
  | nil =>
    cases rest with
    | nil => rfl
    | cons c s =>
      have := hr c rfl
      rw [← isDigit_iff] at this
      simp [digits, this]
  | cons c s ih =>
    have := (isDigit_iff c).2 (h c (by simp))
    simp only [List.cons_append, digits, this, if_true, List.cons.injEq, true_and]
    exact ih fun x hx => h x (List.mem_cons_of_mem _ hx)

/-- What `stoi` skips. -/
def skips (c : Char) : Bool := c = ' ' || c = '\t' || c = '\n' || c = '\r' || c = '\x0b' || c = '\x0c'

theorem skips_iff (c : Char) : skips c = true ↔ Blank c := by
  simp only [skips, Blank, Bool.or_eq_true, decide_eq_true_eq, List.mem_cons, List.not_mem_nil, or_false]
  constructor
  · rintro (((((h | h) | h) | h) | h) | h) <;> simp [h]
  · rintro (h | h | h | h | h | h) <;> simp [h]

theorem dropWhile_blanks (l s : List Char) (h : ∀ c ∈ l, skips c = true) (hs : ∀ c, s.head? = some c → skips c = false) :
    (l ++ s).dropWhile skips = s := by
  induction l with
  | nil =>
    cases s with
    | nil => rfl
    | cons c s => simp [hs c rfl]
  | cons c l ih =>
    simp only [List.cons_append, List.dropWhile, h c (by simp)]
    exact ih fun x hx => h x (List.mem_cons_of_mem _ hx)

theorem digit_not_blank {c : Char} (h : '0' ≤ c ∧ c ≤ '9') : skips c = false := by
  cases hs : skips c with
  | false => rfl
  | true =>
    rw [skips_iff] at hs
    simp only [Blank, List.mem_cons, List.not_mem_nil, or_false] at hs
    rcases hs with h' | h' | h' | h' | h' | h' <;> subst h' <;> revert h <;> decide

/-- The sign and what follows it. -/
def signed : List Char → Bool × List Char
  | '-' :: s => (true, s)
  | '+' :: s => (false, s)
  | s => (false, s)

theorem stoi_eq (s : String) : stoi s = (let p := signed (s.toList.dropWhile skips)
    match digits p.2 with
    | [] => none
    | d =>
      let n : Int := if p.1 then - (number d : Int) else number d
      if - 2 ^ 31 ≤ n ∧ n < 2 ^ 31 then some n else none) := by
  rfl

/-- C129: a command's number is read as `std::stoi` reads it: white space, a sign and the longest numeral that follows;
if there is no numeral, or the number does not fit, it throws. -/
theorem C129_number (s : String) (n : Int) :
    stoi s = some n ↔ Reads s.toList n ∧ - 2 ^ 31 ≤ n ∧ n < 2 ^ 31 := by
  rw [stoi_eq]
  constructor
  · intro h
    obtain ⟨b, hb1, hb2⟩ : ∃ b, s.toList = b ++ s.toList.dropWhile skips ∧ ∀ c ∈ b, skips c = true :=
      ⟨s.toList.takeWhile skips, (List.takeWhile_append_dropWhile).symm, fun c hc => by
        have := List.all_takeWhile (p := skips) (l := s.toList)
        exact List.all_eq_true.1 this c hc⟩
    generalize s.toList.dropWhile skips = t at *
    obtain ⟨sg, hs1, hs2⟩ : ∃ sg, t = sg ++ (signed t).2 ∧
        ((sg = [] ∨ sg = ['+']) ∧ (signed t).1 = false ∨ sg = ['-'] ∧ (signed t).1 = true) := by
      unfold signed
      split
      · exact ⟨['-'], by simp⟩
      · exact ⟨['+'], by simp⟩
      · exact ⟨[], by simp⟩
    obtain ⟨rest, hd1, hd2, hd3⟩ := digits_spec (signed t).2
    generalize signed t = p at *
    simp only at h
    have hne : digits p.2 ≠ [] := by
      intro h0
      rw [h0] at h
      simp at h
    have hr : (if - 2 ^ 31 ≤ (if p.1 then - (number (digits p.2) : Int) else number (digits p.2)) ∧
        (if p.1 then - (number (digits p.2) : Int) else number (digits p.2)) < 2 ^ 31
        then some (if p.1 then - (number (digits p.2) : Int) else number (digits p.2)) else none) = some n := by
      cases hd : digits p.2 with
      | nil => exact absurd hd hne
      | cons a b => rw [hd] at h; exact h
    rw [number_eq] at hr
    generalize hv : (if p.1 then - (decimal (digits p.2) : Int) else decimal (digits p.2)) = v at hr
    split at hr
    · next hin =>
      simp only [Option.some.injEq] at hr
      rw [hr] at hin
      refine ⟨⟨b, sg, digits p.2, rest, ?_, fun c hc => (skips_iff c).1 (hb2 c hc), ?_, hne, hd2, hd3, ?_⟩, hin⟩
      · rw [hb1, List.append_assoc, List.append_assoc, ← hd1, ← hs1]
      · rcases hs2 with ⟨h | h, _⟩ | ⟨h, _⟩ <;> simp [h]
      · rw [← hr, ← hv]
        rcases hs2 with ⟨h | h, h'⟩ | ⟨h, h'⟩ <;> simp [h, h']
    · simp at hr
  · rintro ⟨⟨b, sg, ds, rest, h1, h2, h3, h4, h5, h6, h7⟩, hin⟩
    have hdr : s.toList.dropWhile skips = sg ++ (ds ++ rest) := by
      rw [h1, List.append_assoc, List.append_assoc]
      refine dropWhile_blanks _ _ (fun c hc => (skips_iff c).2 (h2 c hc)) ?_
      intro c hc
      rcases h3 with h | h | h
      · subst h
        cases ds with
        | nil => exact absurd rfl h4
        | cons d ds =>
          simp only [List.nil_append, List.cons_append, List.head?_cons, Option.some.injEq] at hc
          exact digit_not_blank (hc ▸ h5 d (by simp))
      · subst h
        simp only [List.cons_append, List.head?_cons, Option.some.injEq] at hc
        subst hc; rfl
      · subst h
        simp only [List.cons_append, List.head?_cons, Option.some.injEq] at hc
        subst hc; rfl
    have hsg : signed (sg ++ (ds ++ rest)) = (decide (sg = ['-']), ds ++ rest) := by
      rcases h3 with h | h | h
      · subst h
        cases ds with
        | nil => exact absurd rfl h4
        | cons d ds =>
          have hd := h5 d (by simp)
          have n1 : d ≠ '-' := by rintro rfl; revert hd; decide
          have n2 : d ≠ '+' := by rintro rfl; revert hd; decide
          simp only [List.nil_append, List.cons_append]
          unfold signed
          split
          · next heq => simp only [List.cons.injEq] at heq; exact absurd heq.1 n1
          · next heq => simp only [List.cons.injEq] at heq; exact absurd heq.1 n2
          · simp
      · subst h; simp [signed]
      · subst h; simp [signed]
    rw [hdr, hsg]
    simp only [digits_append ds rest h5 h6]
    cases ds with
    | nil => exact absurd rfl h4
    | cons d ds =>
      simp only [number_eq, decide_eq_true_eq]
      rw [← h7, if_pos hin]

/-- The hypotheses can be met, and the bounds are sharp. -/
example : stoi " -12 apples" = some (-12) ∧ stoi "-2147483648" = some (-2147483648) ∧ stoi "2147483648" = none ∧
    stoi "apples" = none ∧ stoi "- 3" = none := by decide +kernel

example : updateTodos [⟨"milk", false⟩, ⟨"eggs", false⟩] (.toggle 1) = some [⟨"milk", false⟩, ⟨"eggs", true⟩] ∧
    updateTodos [⟨"milk", false⟩, ⟨"eggs", false⟩] (.remove 2) = none := by decide +kernel

/-- C129: the indices of commands: a number from zero is the index, and a negative one is an index that no list has. -/
theorem C129_index (n : Int) (h : - 2 ^ 31 ≤ n ∧ n < 2 ^ 31) :
    (0 ≤ n → (index n : Int) = n) ∧ (n < 0 → (index n : Int) = n + 2 ^ 64) := by
  unfold index
  constructor <;> intro h0 <;> omega

example : index 7 = 7 ∧ index (-1) = 18446744073709551615 := by decide

end Verif.Doc
