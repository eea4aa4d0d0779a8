import Verif.Extra.Camel

/-!
C79: names of fields in camel case.
-/

namespace Verif.Extra.Camel

/-- Letters and digits. -/
def isAlnum (c : Char) : Bool := isDigit c || isAlpha c

/-- After the last letter of `a`, if any, there is a character that is neither a letter nor a digit. -/
def SepPending (a : List Char) : Prop :=
  ∃ x d y, a = x ++ d :: y ∧ isAlnum d = false ∧ ∀ e ∈ y, isAlpha e = false

/-- The loop, without the buffer; `w` is `new_word`. -/
def words : Bool → List Char → List Char
  | _, [] => []
  | w, c :: s =>
    if isDigit c then c :: words w s
    else if !isAlpha c then words true s
    else (if w then toUpper c else toLower c) :: words false s

theorem loop_spec : ∀ n (str : List Char) i out w, n = str.length - i → out ≤ i → i ≤ str.length →
    (loop n str i out w).1.take (loop n str i out w).2 = str.take out ++ words w (str.drop i) := by
  intro n
  induction n with
  | zero =>
    intro str i out w hn _ hi
    have : i = str.length := by omega
    subst this
    rw [List.drop_length]
    simp [loop, words]
  | succ n ih =>
    intro str i out w hn ho hi
    have hlt : i < str.length := by omega
    have hd : str.drop i = str[i] :: str.drop (i + 1) := List.drop_eq_getElem_cons hlt
    have hset : ∀ c, (str.set out c).take (out + 1) = str.take out ++ [c] := by
      intro c
      rw [List.take_add_one, List.take_set_of_le (Nat.le_refl _), List.getElem?_set_self (by omega)]
      rfl
    have hdrop : ∀ c, (str.set out c).drop (i + 1) = str.drop (i + 1) := by
      intro c; rw [List.drop_set_of_lt (by omega)]
    rw [hd]
    have hg : str[i]? = some str[i] := List.getElem?_eq_getElem hlt
    simp only [loop, hg, words]
    split
    · rw [ih _ _ _ _ (by simp; omega) (by omega) (by simp; omega), hset, hdrop, List.append_assoc]; rfl
    · split
      · rw [ih _ _ _ _ (by omega) (by omega) (by omega)]
      · cases w
        · simp only [Bool.false_eq_true, if_false]
          rw [ih _ _ _ _ (by simp; omega) (by omega) (by simp; omega), hset, hdrop, List.append_assoc]; rfl
        · simp only [if_true]
          rw [ih _ _ _ _ (by simp; omega) (by omega) (by simp; omega), hset, hdrop, List.append_assoc]; rfl

theorem toCamelCase_words (s : List Char) : toCamelCase s = words false s := by
  have h := loop_spec s.length s 0 0 false (by omega) (by omega) (by omega)
  rw [List.take_zero, List.drop_zero, List.nil_append] at h
  exact h

theorem lt_of_alpha {c : Char} (h : isAlpha c = true) : c.toNat < 128 := by
  have h : (('A' ≤ c ∧ c ≤ 'Z') ∨ ('a' ≤ c ∧ c ≤ 'z')) := by simpa [isAlpha, isUpper, isLower] using h
  have k : ∀ d : Char, c ≤ d → c.toNat ≤ d.toNat := fun d h => h
  rcases h with h | h
  · have := k _ h.2; have : 'Z'.toNat = 90 := rfl; omega
  · have := k _ h.2; have : 'z'.toNat = 122 := rfl; omega

/-- Every fact about letters can be checked for all of them. -/
theorem alpha_all {P : Char → Prop} (hp : ∀ n < 128, isAlpha (Char.ofNat n) = true → P (Char.ofNat n)) {c : Char}
    (h : isAlpha c = true) : P c := by
  have := hp c.toNat (lt_of_alpha h)
  rw [Char.ofNat_toNat] at this
  exact this h

theorem toUpper_alpha {c : Char} (h : isAlpha c = true) : isUpper (toUpper c) = true :=
  alpha_all (P := fun c => isUpper (toUpper c) = true) (by decide +kernel) h

theorem toLower_alpha {c : Char} (h : isAlpha c = true) : isLower (toLower c) = true :=
  alpha_all (P := fun c => isLower (toLower c) = true) (by decide +kernel) h

theorem toLower_upper {c : Char} (h : isAlpha c = true) : toLower (toUpper c) = toLower c :=
  alpha_all (P := fun c => toLower (toUpper c) = toLower c) (by decide +kernel) h

theorem toLower_lower {c : Char} (h : isAlpha c = true) : toLower (toLower c) = toLower c :=
  alpha_all (P := fun c => toLower (toLower c) = toLower c) (by decide +kernel) h

/-- C79: the name consists of letters and digits only. -/
theorem C79_alnum (s : List Char) : ∀ c ∈ toCamelCase s, isAlnum c = true := by
  rw [toCamelCase_words]
  generalize false = w
  induction s generalizing w with
  | nil => intro c h; cases h
  | cons d s ih =>
    intro c h
    simp only [words] at h
    split at h
    · next hd =>
      cases h with
      | head => simp [isAlnum, hd]
      | tail _ h => exact ih _ c h
    · split at h
      · exact ih _ c h
      · next hd ha =>
        have ha : isAlpha d = true := by simpa using ha
        cases h with
        | head =>
          cases w
          · simp [isAlnum, isAlpha, toLower_alpha ha]
          · simp [isAlnum, isAlpha, toUpper_alpha ha]
        | tail _ h => exact ih _ c h

/-- C79: up to case, the name is the letters and digits of the original one, in order. -/
theorem C79_letters (s : List Char) : (toCamelCase s).map toLower = (s.filter isAlnum).map toLower := by
  rw [toCamelCase_words]
  generalize false = w
  induction s generalizing w with
  | nil => rfl
  | cons d s ih =>
    simp only [words]
    split
    · next hd => rw [List.filter_cons_of_pos (by simp [isAlnum, hd])]; simp [ih]
    · split
      · next hd ha => rw [List.filter_cons_of_neg (by simp_all [isAlnum])]; exact ih _
      · next hd ha =>
        have ha : isAlpha d = true := by simpa using ha
        rw [List.filter_cons_of_pos (by simp [isAlnum, ha])]
        simp only [List.map_cons, ih]
        cases w
        · simp [toLower_lower ha]
        · simp [toLower_upper ha]

theorem words_append (w : Bool) (a b : List Char) :
    ∃ w', words w (a ++ b) = words w a ++ words w' b ∧ (words w a).length = (a.filter isAlnum).length ∧
      (w' = true ↔ SepPending a ∨ (w = true ∧ ∀ e ∈ a, isAlpha e = false)) := by
  induction a generalizing w with
  | nil =>
    refine ⟨w, rfl, rfl, ?_⟩
    constructor
    · intro h; exact .inr ⟨h, by simp⟩
    · rintro (⟨x, d, y, h, _⟩ | ⟨h, _⟩)
      · cases x <;> cases h
      · exact h
  | cons c a ih =>
    have hsep : SepPending (c :: a) ↔ SepPending a ∨ (isAlnum c = false ∧ ∀ e ∈ a, isAlpha e = false) := by
      constructor
      · rintro ⟨x, d, y, h, hd, hy⟩
        cases x with
        | nil => cases h; exact .inr ⟨hd, hy⟩
        | cons e x => cases h; exact .inl ⟨x, d, y, rfl, hd, hy⟩
      · rintro (⟨x, d, y, rfl, hd, hy⟩ | ⟨hd, hy⟩)
        · exact ⟨c :: x, d, y, rfl, hd, hy⟩
        · exact ⟨[], c, a, rfl, hd, hy⟩
    rw [List.cons_append]
    simp only [words]
    by_cases hc : isDigit c = true
    · have hnum : isAlpha c = false := by
        have h1 : '0' ≤ c ∧ c ≤ '9' := by simpa [isDigit] using hc
        have k : c.toNat ≤ '9'.toNat := h1.2
        have k9 : '9'.toNat = 57 := rfl
        cases ha : isAlpha c with
        | false => rfl
        | true =>
          have : (('A' ≤ c ∧ c ≤ 'Z') ∨ ('a' ≤ c ∧ c ≤ 'z')) := by simpa [isAlpha, isUpper, isLower] using ha
          rcases this with h | h
          · have : 'A'.toNat ≤ c.toNat := h.1; have : 'A'.toNat = 65 := rfl; omega
          · have : 'a'.toNat ≤ c.toNat := h.1; have : 'a'.toNat = 97 := rfl; omega
      obtain ⟨w', h1, h2, h3⟩ := ih w
      rw [if_pos hc, if_pos hc, List.filter_cons_of_pos (by simp [isAlnum, hc])]
      refine ⟨w', by rw [h1]; rfl, by simp [h2], ?_⟩
      rw [h3, hsep]
      simp [isAlnum, hc, hnum]
    · rw [if_neg hc, if_neg hc]
      by_cases ha : isAlpha c = true
      · obtain ⟨w', h1, h2, h3⟩ := ih false
        have hn : ¬ (!isAlpha c) = true := by simp [ha]
        rw [if_neg hn, if_neg hn, List.filter_cons_of_pos (by simp [isAlnum, ha])]
        refine ⟨w', by rw [h1]; rfl, by simp [h2], ?_⟩
        rw [h3, hsep]
        simp [isAlnum, ha]
      · obtain ⟨w', h1, h2, h3⟩ := ih true
        have ha : isAlpha c = false := by simpa using ha
        rw [if_pos (by simp [ha]), if_pos (by simp [ha]), List.filter_cons_of_neg (by simp [isAlnum, ha, hc])]
        refine ⟨w', h1, h2, ?_⟩
        rw [h3, hsep]
        simp [isAlnum, ha, hc]
        exact fun _ h => .inr h

/-- C79: the letter `c` of the original name is a capital one in the name if there is a separator between it and the
letter before it (or the beginning), and a small one otherwise. -/
theorem C79_case (a b : List Char) (c : Char) (hc : isAlpha c = true) :
    (SepPending a → (toCamelCase (a ++ c :: b))[(a.filter isAlnum).length]? = some (toUpper c)) ∧
    (¬ SepPending a → (toCamelCase (a ++ c :: b))[(a.filter isAlnum).length]? = some (toLower c)) := by
  obtain ⟨w', h1, h2, h3⟩ := words_append false a (c :: b)
  have hd : isDigit c = false := by
    cases hd : isDigit c with
    | false => rfl
    | true =>
      have := alpha_all (P := fun c => isDigit c = false) (by decide +kernel) hc
      rw [hd] at this; cases this
  have hw : words w' (c :: b) = (if w' then toUpper c else toLower c) :: words false b := by
    simp [words, hd, hc]
  rw [toCamelCase_words, h1, hw, ← h2, List.getElem?_append_right (Nat.le_refl _), Nat.sub_self,
    List.getElem?_cons_zero]
  simp only [Bool.false_eq_true, false_and, or_false] at h3
  constructor
  · intro h; rw [if_pos (h3.mpr h)]
  · intro h; rw [if_neg (fun e => h (h3.mp e))]

/-- C79: digits stay as they are. -/
theorem C79_digits (a b : List Char) (c : Char) (hc : isDigit c = true) :
    (toCamelCase (a ++ c :: b))[(a.filter isAlnum).length]? = some c := by
  obtain ⟨w', h1, h2, _⟩ := words_append false a (c :: b)
  have hw : words w' (c :: b) = c :: words w' b := by simp [words, hc]
  rw [toCamelCase_words, h1, hw, ← h2, List.getElem?_append_right (Nat.le_refl _), Nat.sub_self,
    List.getElem?_cons_zero]

/-- C79 is false in that distinct names of members are made equal, and names that are in camel case already are
changed. -/
theorem C79_distinct_false :
    toCamelCase "item_id".toList = "itemId".toList ∧ toCamelCase "item__id".toList = "itemId".toList ∧
    toCamelCase "itemId".toList = "itemid".toList := by decide +kernel

example : toCamelCase "SCREAMING_CASE".toList = "screamingCase".toList ∧
    toCamelCase "kebap-case-2x".toList = "kebapCase2X".toList ∧ toCamelCase "_x".toList = "X".toList ∧
    SepPending "kebap-".toList ∧ isAlpha 'c' = true ∧ isDigit '2' = true :=
  ⟨by decide +kernel, by decide +kernel, by decide +kernel, ⟨"kebap".toList, '-', [], rfl, rfl, by simp⟩, rfl, rfl⟩

end Verif.Extra.Camel
