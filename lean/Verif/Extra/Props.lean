import Verif.Extra.Enum
import Verif.Extra.Derive

/-!
Properties of enumerations with names and of derived operations: C69, C70.
-/

namespace Verif.Extra

variable {T S : Type}

/-- C69: a listed value has a name, and converting it to its name and back gives the value, if the names are distinct. -/
theorem C69_round_trip [DecidableEq T] {l : Meta T} (hd : (l.map (·.2)).Nodup) {v : T} (hv : ∃ s, (v, s) ∈ l) :
    ∃ s, toString l v = .ok s ∧ (v, s) ∈ l ∧ toEnum l s = .ok v := by
  obtain ⟨s, hs⟩ := hv
  obtain ⟨x, hx⟩ := Option.isSome_iff_exists.mp
    (List.find?_isSome.mpr ⟨_, hs, by simp⟩ : (l.find? (fun x => decide (x.1 = v))).isSome = true)
  have hm := List.mem_of_find?_eq_some hx
  have he : x.1 = v := by simpa using List.find?_some hx
  subst he
  refine ⟨x.2, by rw [toString_find, hx], hm, ?_⟩
  rw [toEnum_find, find_name hd hm]

/-- Four colours, two of which have the same value. -/
def exColours : Meta Nat := [(0, "red"), (1, "green"), (1, "lime"), (5, "blue")]

example : (exColours.map (·.2)).Nodup ∧ (∃ s, (1, s) ∈ exColours) ∧ toString exColours 1 = .ok "green" ∧
    toEnum exColours "green" = .ok 1 ∧ toEnum exColours "lime" = .ok 1 :=
  ⟨by decide, ⟨"green", by decide⟩, rfl, rfl, rfl⟩

/-- C69: every name is converted to the value it was listed with, if the names are distinct. -/
theorem C69_name {l : Meta T} (hd : (l.map (·.2)).Nodup) {v : T} {s : String} (h : (v, s) ∈ l) : toEnum l s = .ok v := by
  rw [toEnum_find, find_name hd h]

/-- C69: a name, converted to its value and back, is the same name if no other name has that value. -/
theorem C69_name_back [DecidableEq T] {l : Meta T} (hd : (l.map (·.1)).Nodup) (hd' : (l.map (·.2)).Nodup) {s : String}
    {v : T} (h : toEnum l s = .ok v) : toString l v = .ok s := by
  rw [toEnum_find] at h
  split at h
  · next x hx =>
    have hm := List.mem_of_find?_eq_some hx
    have he : x.2 = s := by simpa using List.find?_some hx
    cases h
    have : (x.1, x.2) ∈ l := hm
    obtain ⟨s', h1, h2, _⟩ := C69_round_trip hd' ⟨_, this⟩
    rw [h1, ← he]
    have : ∀ {l : Meta T}, (l.map (·.1)).Nodup → (x.1, s') ∈ l → (x.1, x.2) ∈ l → s' = x.2 := by
      intro l hd h h'
      induction l with
      | nil => cases h
      | cons y ys ih =>
        rw [List.map_cons, List.nodup_cons] at hd
        cases h with
        | head =>
          cases h' with
          | head => rfl
          | tail _ h' => exact absurd (List.mem_map.mpr ⟨_, h', rfl⟩) hd.1
        | tail _ h =>
          cases h' with
          | head => exact absurd (List.mem_map.mpr ⟨_, h, rfl⟩) hd.1
          | tail _ h' => exact ih hd.2 h h'
    rw [this hd h2 hm]
  · cases h

example : (([(0, "a"), (1, "b")] : Meta Nat).map (·.1)).Nodup ∧ (([(0, "a"), (1, "b")] : Meta Nat).map (·.2)).Nodup ∧
    toEnum ([(0, "a"), (1, "b")] : Meta Nat) "b" = .ok 1 := ⟨by decide, by decide, rfl⟩

/-- C69: strings that are no names are rejected, and so are values that are not listed. -/
theorem C69_unknown [DecidableEq T] (l : Meta T) (s : String) (v : T) :
    ((∀ v, (v, s) ∉ l) → toEnum l s = .error (.runtime "unknown enum name")) ∧
    ((∀ s, (v, s) ∉ l) → toString l v = .error (.runtime "unknown enum value")) := by
  constructor
  · intro h
    rw [toEnum_find]
    have : l.find? (fun x => decide (x.2 = s)) = none := by
      rw [List.find?_eq_none]
      intro x hx he
      have he : x.2 = s := by simpa using he
      exact h x.1 (by rw [← he]; exact hx)
    rw [this]
  · intro h
    rw [toString_find]
    have : l.find? (fun x => decide (x.1 = v)) = none := by
      rw [List.find?_eq_none]
      intro x hx he
      have he : x.1 = v := by simpa using he
      exact h x.2 (by rw [← he]; exact hx)
    rw [this]

example : (∀ v, (v, "pink") ∉ exColours) ∧ (∀ s, (7, s) ∉ exColours) := by
  constructor
  · intro v h; simp [exColours] at h
  · intro s h; simp [exColours] at h

/-- C69: a saved value loads back, whatever the target holds; a string that is no name leaves the target as it was and
throws. -/
theorem C69_saved [DecidableEq T] {l : Meta T} (hd : (l.map (·.2)).Nodup) (old : T) :
    (∀ v, (∃ s, (v, s) ∈ l) → ∃ s, saveEnum l v = .ok s ∧ loadEnum l old s = (v, none)) ∧
    ∀ s, (∀ v, (v, s) ∉ l) → ∃ e, loadEnum l old s = (old, some e) := by
  constructor
  · intro v hv
    obtain ⟨s, h1, _, h2⟩ := C69_round_trip hd hv
    exact ⟨s, h1, by rw [loadEnum, h2]⟩
  · intro s hs
    have he : toEnum l s = .error (.runtime "unknown enum name") := (C69_unknown l s old).1 hs
    exact ⟨_, by rw [loadEnum, he]⟩

example : saveEnum exColours 5 = .ok "blue" ∧ loadEnum exColours 0 "blue" = (5, none) := ⟨rfl, rfl⟩

/-- C70: derived equality holds exactly if all members are equal; derived inequality is its negation. -/
theorem C70_eq (ms : List (Member S)) (a b : S) :
    (derivedEq ms a b = true ↔ ∀ m ∈ ms, m.eq (m.get a) (m.get b) = true) ∧
    (derivedNe ms a b = true ↔ ∃ m ∈ ms, m.eq (m.get a) (m.get b) = false) := by
  rw [derivedNe, derivedEq_all]
  constructor
  · exact List.all_eq_true
  · rw [Bool.not_eq_true', List.all_eq_false]
    simp

/-- C70: equal values have equal hashes, if this is so for the members. -/
theorem C70_hash (seed : UInt64) (ms : List (Member S))
    (hm : ∀ m ∈ ms, ∀ x y, m.eq x y = true → m.hash x = m.hash y) {a b : S} (h : derivedEq ms a b = true) :
    derivedHash seed ms a = derivedHash seed ms b := by
  have h := (C70_eq ms a b).1.mp h
  unfold derivedHash
  induction ms generalizing seed with
  | nil => rw [List.foldl_nil, List.foldl_nil]
  | cons m ms ih =>
    rw [List.foldl_cons, List.foldl_cons, hashStep_congr seed (hm m (by simp) _ _ (h m (by simp)))]
    exact ih _ (fun m hx => hm m (by simp [hx])) (by rw [derivedEq_all, List.all_eq_true]; exact fun m hx => h m (by simp [hx]))
      (fun m hx => h m (by simp [hx]))

/-- C70: values that differ, by hash, in the last member only have different hashes. -/
theorem C70_hash_last (seed : UInt64) (ms : List (Member S)) (m : Member S) {a b : S}
    (h : ∀ m ∈ ms, m.get a = m.get b) (hne : m.hash (m.get a) ≠ m.hash (m.get b)) :
    derivedHash seed (ms ++ [m]) a ≠ derivedHash seed (ms ++ [m]) b := by
  have he : derivedHash seed ms a = derivedHash seed ms b := by
    unfold derivedHash
    induction ms generalizing seed with
    | nil => rw [List.foldl_nil, List.foldl_nil]
    | cons m ms ih =>
      rw [List.foldl_cons, List.foldl_cons, hashStep_congr (a := a) (b := b) (m := m) seed (congrArg m.hash (h m (by simp)))]
      exact ih _ (fun m hx => h m (by simp [hx]))
  intro hc
  apply hne
  unfold derivedHash at hc he
  rw [List.foldl_append, List.foldl_append, List.foldl_cons, List.foldl_cons, List.foldl_nil, List.foldl_nil] at hc
  rw [he] at hc
  exact hashStep_inj hc

/-- C70: derived equality is an equivalence if the equality of each member is. -/
theorem C70_equivalence (ms : List (Member S)) (hm : ∀ m ∈ ms, Equivalence fun x y => m.eq x y = true) :
    Equivalence fun a b => derivedEq ms a b = true where
  refl a := (C70_eq ms a a).1.mpr fun m hx => (hm m hx).refl _
  symm h := (C70_eq ms _ _).1.mpr fun m hx => (hm m hx).symm ((C70_eq ms _ _).1.mp h m hx)
  trans h h' := (C70_eq ms _ _).1.mpr fun m hx =>
    (hm m hx).trans ((C70_eq ms _ _).1.mp h m hx) ((C70_eq ms _ _).1.mp h' m hx)

/-- A pair of numbers and a string, where the first number is compared modulo 10. -/
def exMembers : List (Member (Nat × String × Nat)) :=
  [⟨Nat, (·.1), fun x y => x % 10 == y % 10, fun x => (x % 10).toUInt64⟩,
   ⟨String, (·.2.1), (· == ·), fun s => s.length.toUInt64⟩]

example : derivedEq exMembers (3, "a", 1) (13, "a", 2) = true ∧ derivedEq exMembers (3, "a", 1) (3, "b", 1) = false ∧
    derivedHash 0 exMembers (3, "a", 1) = derivedHash 0 exMembers (13, "a", 2) ∧
    derivedHash 0 exMembers (3, "a", 1) ≠ derivedHash 0 exMembers (3, "ab", 1) ∧
    (∀ m ∈ exMembers, ∀ x y, m.eq x y = true → m.hash x = m.hash y) ∧
    (∀ m ∈ exMembers, Equivalence fun x y => m.eq x y = true) := by
  refine ⟨by decide, by decide, by decide, by decide, ?_, ?_⟩
  · intro m hm
    simp only [exMembers, List.mem_cons, List.not_mem_nil, or_false] at hm
    rcases hm with rfl | rfl <;> intro x y h <;> simp at h <;> simp [h]
  · intro m hm
    simp only [exMembers, List.mem_cons, List.not_mem_nil, or_false] at hm
    rcases hm with rfl | rfl
    · exact ⟨fun _ => by simp, fun h => by simp at h ⊢; omega, fun h h' => by simp at h h' ⊢; omega⟩
    · exact ⟨fun _ => by simp, fun h => by simp at h ⊢; exact h.symm, fun h h' => by simp at h h' ⊢; rw [h, h']⟩

end Verif.Extra
