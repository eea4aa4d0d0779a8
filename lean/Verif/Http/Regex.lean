/-
Regular expressions, as far as the routes of `lager/debug/http_server.hpp` use them: what `std::regex_match` accepts.
-/

namespace Verif.Http

/-- Regular expressions; `cls p` is a single character in a class. -/
inductive Re where
  | none
  | eps
  | cls (p : Char → Bool)
  | seq (a b : Re)
  | alt (a b : Re)
  | star (a : Re)

/-- The words a regular expression stands for. -/
inductive Lang : Re → List Char → Prop
  | eps : Lang .eps []
  | cls {p : Char → Bool} {c : Char} : p c = true → Lang (.cls p) [c]
  | seq {a b : Re} {u v : List Char} : Lang a u → Lang b v → Lang (.seq a b) (u ++ v)
  | left {a b : Re} {u : List Char} : Lang a u → Lang (.alt a b) u
  | right {a b : Re} {u : List Char} : Lang b u → Lang (.alt a b) u
  | nil {a : Re} : Lang (.star a) []
  | cons {a : Re} {u v : List Char} : Lang a u → Lang (.star a) v → Lang (.star a) (u ++ v)

/-- Whether the empty word is accepted. -/
def Re.nullable : Re → Bool
  | .none => false
  | .eps => true
  | .cls _ => false
  | .seq a b => a.nullable && b.nullable
  | .alt a b => a.nullable || b.nullable
  | .star _ => true

/-- What is left after a character. -/
def Re.deriv (c : Char) : Re → Re
  | .none => .none
  | .eps => .none
  | .cls p => if p c then .eps else .none
  | .seq a b => if a.nullable then .alt (.seq (a.deriv c) b) (b.deriv c) else .seq (a.deriv c) b
  | .alt a b => .alt (a.deriv c) (b.deriv c)
  | .star a => .seq (a.deriv c) (.star a)

/-- `std::regex_match`: the whole word is accepted. -/
def Re.accepts (r : Re) : List Char → Bool
  | [] => r.nullable
  | c :: w => (r.deriv c).accepts w

theorem lang_seq (a b : Re) (w : List Char) : Lang (.seq a b) w ↔ ∃ u v, w = u ++ v ∧ Lang a u ∧ Lang b v := by
  constructor
  · intro h
    cases h with
    | @seq _ _ u v h h' => exact ⟨u, v, rfl, h, h'⟩
  · rintro ⟨u, v, rfl, h, h'⟩
    exact .seq h h'

theorem nullable_iff (r : Re) : r.nullable = true ↔ Lang r [] := by
  induction r with
  | none => exact ⟨fun h => by simp [Re.nullable] at h, fun h => nomatch h⟩
  | eps => exact ⟨fun _ => .eps, fun _ => rfl⟩
  | cls p => exact ⟨fun h => by simp [Re.nullable] at h, fun h => nomatch h⟩
  | seq a b iha ihb =>
    rw [Re.nullable, Bool.and_eq_true, iha, ihb]
    constructor
    · exact fun ⟨h, h'⟩ => .seq h h'
    · intro h
      obtain ⟨u, v, hw, h, h'⟩ := (lang_seq a b []).mp h
      have := List.append_eq_nil_iff.mp hw.symm
      rw [this.1] at h
      rw [this.2] at h'
      exact ⟨h, h'⟩
  | alt a b iha ihb =>
    rw [Re.nullable, Bool.or_eq_true, iha, ihb]
    constructor
    · exact fun h => h.elim .left .right
    · intro h
      cases h with
      | left h => exact .inl h
      | right h => exact .inr h
  | star a => exact ⟨fun _ => .nil, fun _ => rfl⟩

theorem star_cons {a : Re} {c : Char} {w : List Char} (h : Lang (.star a) (c :: w)) :
    ∃ u v, w = u ++ v ∧ Lang a (c :: u) ∧ Lang (.star a) v := by
  generalize hr : Re.star a = r at h
  generalize hx : c :: w = x at h
  induction h with
  | eps => cases hr
  | cls => cases hr
  | seq => cases hr
  | left => cases hr
  | right => cases hr
  | nil => cases hx
  | @cons a' u v h h' _ ih =>
    cases hr
    cases u with
    | nil => exact ih rfl hx
    | cons d u =>
      rw [List.cons_append] at hx
      cases hx
      exact ⟨u, v, rfl, h, h'⟩

theorem deriv_iff (r : Re) (c : Char) (w : List Char) : Lang (r.deriv c) w ↔ Lang r (c :: w) := by
  induction r generalizing w with
  | none => exact ⟨fun h => (nomatch h), fun h => (nomatch h)⟩
  | eps => exact ⟨fun h => (nomatch h), fun h => (nomatch h)⟩
  | cls p =>
    rw [Re.deriv]
    constructor
    · intro h
      split at h
      · next hp => cases h; exact .cls hp
      · cases h
    · intro h
      cases h with
      | cls hp => rw [if_pos hp]; exact .eps
  | seq a b iha ihb =>
    have key : Lang (.seq (a.deriv c) b) w ↔ ∃ u v, w = u ++ v ∧ Lang a (c :: u) ∧ Lang b v := by
      constructor
      · intro h
        cases h with
        | @seq _ _ u v h h' => exact ⟨u, v, rfl, (iha u).mp h, h'⟩
      · rintro ⟨u, v, rfl, h, h'⟩
        exact .seq ((iha u).mpr h) h'
    have hcons : Lang (.seq a b) (c :: w) ↔
        (∃ u v, w = u ++ v ∧ Lang a (c :: u) ∧ Lang b v) ∨ (Lang a [] ∧ Lang b (c :: w)) := by
      constructor
      · intro h
        generalize hx : c :: w = x at h
        cases h with
        | @seq _ _ u v h h' =>
          cases u with
          | nil => rw [List.nil_append] at hx; exact .inr ⟨h, hx ▸ h'⟩
          | cons d u => rw [List.cons_append] at hx; cases hx; exact .inl ⟨u, v, rfl, h, h'⟩
      · rintro (⟨u, v, rfl, h, h'⟩ | ⟨h, h'⟩)
        · exact .seq h h'
        · exact .seq h h'
    rw [hcons, Re.deriv]
    split
    · next hn =>
      constructor
      · intro h
        cases h with
        | left h => exact .inl (key.mp h)
        | right h => exact .inr ⟨(nullable_iff a).mp hn, (ihb w).mp h⟩
      · rintro (h | h)
        · exact .left (key.mpr h)
        · exact .right ((ihb w).mpr h.2)
    · next hn =>
      rw [key]
      exact ⟨.inl, fun h => h.elim (fun h => h) fun h => absurd ((nullable_iff a).mpr h.1) hn⟩
  | alt a b iha ihb =>
    constructor
    · intro h
      cases h with
      | left h => exact .left ((iha w).mp h)
      | right h => exact .right ((ihb w).mp h)
    · intro h
      cases h with
      | left h => exact .left ((iha w).mpr h)
      | right h => exact .right ((ihb w).mpr h)
  | star a iha =>
    constructor
    · intro h
      cases h with
      | @seq _ _ u v h h' => exact Lang.cons (u := c :: u) ((iha u).mp h) h'
    · intro h
      obtain ⟨u, v, rfl, h, h'⟩ := star_cons h
      exact .seq ((iha u).mpr h) h'

/-- Exactly the words of the language are accepted. -/
theorem accepts_iff (r : Re) (w : List Char) : r.accepts w = true ↔ Lang r w := by
  induction w generalizing r with
  | nil => exact nullable_iff r
  | cons c w ih => rw [Re.accepts, ih, deriv_iff]

/-- A text that matches itself only. -/
def lit : List Char → Re
  | [] => .eps
  | c :: cs => .seq (.cls (· == c)) (lit cs)

/-- `r?`. -/
def opt (r : Re) : Re := .alt r .eps

/-- `r+`. -/
def plus (r : Re) : Re := .seq r (.star r)

/-- `[0-9]`. -/
def isDigit (c : Char) : Bool := '0' ≤ c && c ≤ '9'

/-- `.`: anything but the end of a line. -/
def isDot (c : Char) : Bool := c != '\n' && c != '\r'

theorem lang_lit (l w : List Char) : Lang (lit l) w ↔ w = l := by
  induction l generalizing w with
  | nil =>
    constructor
    · intro h; cases h; rfl
    · rintro rfl; exact .eps
  | cons c cs ih =>
    constructor
    · intro h
      cases h with
      | seq h h' =>
        cases h with
        | cls hp => rw [(ih _).mp h']; simpa using hp
    · rintro rfl
      exact .seq (u := [c]) (.cls (by simp)) ((ih cs).mpr rfl)

theorem lang_opt (r : Re) (w : List Char) : Lang (opt r) w ↔ Lang r w ∨ w = [] := by
  constructor
  · intro h
    cases h with
    | left h => exact .inl h
    | right h => cases h; exact .inr rfl
  · rintro (h | rfl)
    · exact .left h
    · exact .right .eps

theorem lang_star_cls (p : Char → Bool) (w : List Char) : Lang (.star (.cls p)) w ↔ ∀ c ∈ w, p c = true := by
  constructor
  · intro h
    generalize hr : Re.star (.cls p) = r at h
    induction h with
    | eps => cases hr
    | cls => cases hr
    | seq => cases hr
    | left => cases hr
    | right => cases hr
    | nil => exact fun _ h => nomatch h
    | cons h _ _ ih =>
      cases hr
      cases h with
      | cls hp =>
        intro c hc
        rcases List.mem_cons.mp hc with rfl | hc
        · exact hp
        · exact ih rfl c hc
  · intro h
    induction w with
    | nil => exact .nil
    | cons c w ih => exact Lang.cons (u := [c]) (.cls (h c (by simp))) (ih fun d hd => h d (by simp [hd]))

theorem lang_plus_cls (p : Char → Bool) (w : List Char) :
    Lang (plus (.cls p)) w ↔ w ≠ [] ∧ ∀ c ∈ w, p c = true := by
  constructor
  · intro h
    obtain ⟨u, v, rfl, h, h'⟩ := (lang_seq _ _ _).mp h
    cases h with
    | cls hp =>
      refine ⟨by simp, fun c hc => ?_⟩
      rcases List.mem_cons.mp hc with rfl | hc
      · exact hp
      · exact (lang_star_cls p v).mp h' c hc
  · rintro ⟨hne, h⟩
    cases w with
    | nil => exact absurd rfl hne
    | cons c w =>
      exact .seq (u := [c]) (.cls (h c (by simp))) ((lang_star_cls p w).mpr fun d hd => h d (by simp [hd]))

end Verif.Http
