import Verif.Doc.Tail
import Verif.Lens.Props

/-
C130: dynamic lenses into a recursive type.
-/

namespace Verif.Doc

open Verif.Lens (VL Box view set LibLens)

/-- Specification: the positions of a tail, from its first node to its last. -/
def positions : Tail → List Int
  | .mk p none => [p]
  | .mk p (some ⟨t⟩) => p :: positions t

theorem positions_ne (t : Tail) : positions t ≠ [] := by
  rcases t with ⟨p, _ | ⟨⟨t⟩⟩⟩ <;> simp [positions]

/-- C130: the positions are all there is to a tail. -/
theorem C130_positions : ∀ {t u : Tail}, positions t = positions u → t = u
  | .mk p none, .mk q none, h => by simp [positions] at h; simp [h]
  | .mk p none, .mk q (some ⟨u⟩), h => by
    simp only [positions, List.cons.injEq] at h
    exact absurd h.2.symm (positions_ne u)
  | .mk p (some ⟨t⟩), .mk q none, h => by
    simp only [positions, List.cons.injEq] at h
    exact absurd h.2 (positions_ne t)
  | .mk p (some ⟨t⟩), .mk q (some ⟨u⟩), h => by
    simp only [positions, List.cons.injEq] at h
    rw [h.1, C130_positions h.2]

/-- C130: the lens of the first version shows the position with the index, or zero if the tail is shorter.  It sets
this position, and to do so makes the tail longer, with nodes at zero. -/
theorem C130_default (n : Nat) (t : Tail) :
    view (tailPositionAt n) t = (positions t)[n]?.getD 0 ∧
    ∀ x, positions (set (tailPositionAt n) t x) =
      if n < (positions t).length then (positions t).set n x
      else positions t ++ List.replicate (n - (positions t).length) 0 ++ [x] := by
  suffices h : ∀ n t, view (tailPositions n) t = (positions t)[n]?.getD 0 ∧
      ∀ x, positions (set (tailPositions n) t x) =
        if n < (positions t).length then (positions t).set n x
        else positions t ++ List.replicate (n - (positions t).length) 0 ++ [x] by
    simpa [tailPositionAt] using h n t
  clear n t
  intro n
  induction n with
  | zero =>
    rintro ⟨p, _ | ⟨⟨t⟩⟩⟩
    · exact ⟨rfl, fun x => rfl⟩
    · exact ⟨rfl, fun x => rfl⟩
  | succ n ih =>
    rintro ⟨p, _ | ⟨⟨t⟩⟩⟩
    · obtain ⟨h1, h2⟩ := ih (.mk 0 none)
      refine ⟨?_, fun x => ?_⟩
      · show view (tailPositions n) (.mk 0 none) = _
        rw [h1]
        cases n <;> simp [positions]
      · show p :: positions (set (tailPositions n) (.mk 0 none) x) = _
        rw [h2]
        cases n <;> simp [positions, List.replicate_succ]
    · obtain ⟨h1, h2⟩ := ih t
      refine ⟨?_, fun x => ?_⟩
      · show view (tailPositions n) t = _
        rw [h1]
        simp [positions]
      · show p :: positions (set (tailPositions n) t x) = _
        rw [h2]
        simp only [positions, List.length_cons, Nat.add_lt_add_iff_right]
        split
        · rfl
        · simp

/-- C130: the lens of the second version shows the position with the index, or nothing if the tail is shorter.  It sets
this position if it is there, and is inert otherwise and when nothing is set. -/
theorem C130_optional (n : Nat) (t : Tail) :
    view (tailPositionAtOpt n) t = (positions t)[n]? ∧
    (∀ x, positions (set (tailPositionAtOpt n) t (some x)) = (positions t).set n x) ∧
    set (tailPositionAtOpt n) t none = t := by
  suffices h : ∀ n t, view (tailPositionsOpt n) t = (positions t)[n]? ∧
      (∀ x, positions (set (tailPositionsOpt n) t (some x)) = (positions t).set n x) ∧
      set (tailPositionsOpt n) t none = t by
    simpa [tailPositionAtOpt] using h n t
  clear n t
  intro n
  induction n with
  | zero =>
    rintro ⟨p, _ | ⟨⟨t⟩⟩⟩
    · exact ⟨rfl, fun x => rfl, rfl⟩
    · exact ⟨rfl, fun x => rfl, rfl⟩
  | succ n ih =>
    rintro ⟨p, _ | ⟨⟨t⟩⟩⟩
    · exact ⟨rfl, fun x => rfl, rfl⟩
    · obtain ⟨h1, h2, h3⟩ := ih t
      refine ⟨?_, fun x => ?_, rfl⟩
      · show view (tailPositionsOpt n) t = _
        rw [h1]
        simp [positions]
      · show p :: positions (set (tailPositionsOpt n) t (some x)) = _
        rw [h2]
        rfl

/-- C130: indices below zero mean the first node. -/
theorem C130_negative (index : Int) (h : index ≤ 0) :
    tailPositionAt index = tailPositionAt 0 ∧ tailPositionAtOpt index = tailPositionAtOpt 0 := by
  simp [tailPositionAt, tailPositionAtOpt, Int.toNat_of_nonpos h]

/-- C130: the laws of lenses.  Both show what was set, the second one if there is such a node; to set what is shown
changes nothing, with the first one exactly if there is such a node; and the last value that is set counts. -/
theorem C130_laws (n : Nat) (t : Tail) :
    (∀ x, view (tailPositionAt n) (set (tailPositionAt n) t x) = x) ∧
    (set (tailPositionAt n) t (view (tailPositionAt n) t) = t ↔ n < (positions t).length) ∧
    (∀ x y, set (tailPositionAt n) (set (tailPositionAt n) t x) y = set (tailPositionAt n) t y) ∧
    (∀ x, view (tailPositionAtOpt n) (set (tailPositionAtOpt n) t (some x)) = some x ↔ n < (positions t).length) ∧
    (set (tailPositionAtOpt n) t (view (tailPositionAtOpt n) t) = t) ∧
    (∀ x y, set (tailPositionAtOpt n) (set (tailPositionAtOpt n) t (some x)) (some y) =
      set (tailPositionAtOpt n) t (some y)) := by
  have hd := C130_default n
  have ho := C130_optional n
  refine ⟨fun x => ?_, ⟨fun h => ?_, fun h => ?_⟩, fun x y => ?_, fun x => ?_, ?_, fun x y => ?_⟩
  · rw [(hd _).1, (hd t).2]
    split
    · rename_i h; simp [h]
    · rename_i h
      rw [List.getElem?_append_right (by simp; omega)]
      simp
      rw [show n - ((positions t).length + (n - (positions t).length)) = 0 by omega]
      rfl
  · have := congrArg positions h
    rw [(hd t).2] at this
    split at this
    · assumption
    · rw [List.append_assoc] at this
      have := congrArg List.length this
      simp at this
  · refine C130_positions ?_
    rw [(hd t).2, if_pos h, (hd t).1]
    simp [h]
  · refine C130_positions ?_
    rw [(hd _).2, (hd t).2, (hd t).2]
    by_cases h : n < (positions t).length
    · simp [h]
    · rw [if_neg h, if_neg h, if_pos (by simp; omega)]
      rw [List.set_append_right _ _ (by simp; omega)]
      congr 1
      simp
      rw [show n - ((positions t).length + (n - (positions t).length)) = 0 by omega]
      rfl
  · rw [(ho _).1, (ho t).2.1]
    by_cases h : n < (positions t).length <;> simp [h]
  · cases hv : view (tailPositionAtOpt n) t with
    | none => exact (ho t).2.2
    | some p =>
      refine C130_positions ?_
      rw [(ho t).2.1]
      rw [(ho t).1] at hv
      obtain ⟨h, rfl⟩ := List.getElem?_eq_some_iff.1 hv
      simp
  · refine C130_positions ?_
    rw [(ho _).2.1, (ho t).2.1, (ho t).2.1]
    simp

/-- C130: setting one position does not change what the lens of another index shows. -/
theorem C130_frame {n k : Nat} (h : n ≠ k) (t : Tail) :
    (∀ x, view (tailPositionAt k) (set (tailPositionAt n) t x) = view (tailPositionAt k) t) ∧
    (∀ q, view (tailPositionAtOpt k) (set (tailPositionAtOpt n) t q) = view (tailPositionAtOpt k) t) := by
  constructor
  · intro x
    rw [(C130_default k _).1, (C130_default n t).2, (C130_default k t).1]
    split
    · rw [List.getElem?_set_ne h]
    · rename_i hn
      by_cases hk : k < (positions t).length
      · rw [List.append_assoc, List.getElem?_append_left hk]
      · rw [List.append_assoc, List.getElem?_append_right (by omega), List.getElem?_eq_none (by omega : (positions t).length ≤ k)]
        by_cases hk2 : k < n
        · rw [List.getElem?_append_left (by simp; omega), List.getElem?_replicate]
          split <;> rfl
        · rw [List.getElem?_eq_none (by simp; omega)]
  · intro q
    cases q with
    | none => rw [(C130_optional n t).2.2]
    | some x =>
      rw [(C130_optional k _).1, (C130_optional n t).2.1, (C130_optional k t).1, List.getElem?_set_ne h]

/-- C130: the same with moves: for wholes that are lvalues (`set`) and for wholes that are moved in (`rset`) the lenses
write what is said above; nothing is lost. -/
theorem C130_moves (n : Nat) (t : Tail) :
    (tailPositionsM n).view t = view (tailPositionAt n) t ∧
    (∀ x, (tailPositionsM n).set t x = set (tailPositionAt n) t x ∧
      (tailPositionsM n).rset t x = set (tailPositionAt n) t x) ∧
    (tailPositionsOptM n).view t = view (tailPositionAtOpt n) t ∧
    (∀ q, (tailPositionsOptM n).set t q = set (tailPositionAtOpt n) t q ∧
      (tailPositionsOptM n).rset t q = set (tailPositionAtOpt n) t q) := by
  suffices h : ∀ n t, (tailPositionsM n).view t = view (tailPositions n) t ∧
      (∀ x, (tailPositionsM n).set t x = set (tailPositions n) t x ∧
        (tailPositionsM n).rset t x = set (tailPositions n) t x) ∧
      (tailPositionsOptM n).view t = view (tailPositionsOpt n) t ∧
      (∀ q, (tailPositionsOptM n).set t q = set (tailPositionsOpt n) t q ∧
        (tailPositionsOptM n).rset t q = set (tailPositionsOpt n) t q) by
    simpa [tailPositionAtOpt, tailPositionAt] using h n t
  clear n t
  intro n
  induction n with
  | zero =>
    rintro ⟨p, t⟩
    refine ⟨rfl, fun x => ⟨rfl, rfl⟩, rfl, fun q => ?_⟩
    cases q <;> exact ⟨rfl, rfl⟩
  | succ n ih =>
    have hs : ∀ p t, (∀ x, (tailPositionsM (n + 1)).set (.mk p t) x = set (tailPositions (n + 1)) (.mk p t) x) ∧
        (∀ q, (tailPositionsOptM (n + 1)).set (.mk p t) q = set (tailPositionsOpt (n + 1)) (.mk p t) q) := by
      intro p t
      rcases t with _ | ⟨⟨t⟩⟩
      · refine ⟨fun x => ?_, fun q => ?_⟩
        · exact congrArg (fun u => Tail.mk p (some ⟨u⟩)) ((ih (.mk 0 none)).2.1 x).1
        · cases q <;> rfl
      · refine ⟨fun x => ?_, fun q => ?_⟩
        · exact congrArg (fun u => Tail.mk p (some ⟨u⟩)) ((ih t).2.1 x).1
        · cases q with
          | none =>
            cases n <;> rfl
          | some x =>
            have := ((ih t).2.2.2 (some x)).2
            cases n with
            | zero => rfl
            | succ n => exact congrArg (fun u => Tail.mk p (some ⟨u⟩)) this
    rintro ⟨p, t⟩
    refine ⟨?_, fun x => ⟨(hs p t).1 x, (hs p t).1 x⟩, ?_, fun q => ⟨(hs p t).2 q, (hs p t).2 q⟩⟩
    · rcases t with _ | ⟨⟨t⟩⟩
      · exact (ih (.mk 0 none)).1
      · exact (ih t).1
    · rcases t with _ | ⟨⟨t⟩⟩
      · rfl
      · exact (ih t).2.2.1

/-- A tail with three nodes. -/
def tail3 : Tail := .mk 4 (some ⟨.mk 5 (some ⟨.mk 6 none⟩)⟩)

example : positions tail3 = [4, 5, 6] ∧ view (tailPositionAt 2) tail3 = 6 ∧ view (tailPositionAt 5) tail3 = 0 ∧
    positions (set (tailPositionAt 4) tail3 9) = [4, 5, 6, 0, 9] ∧
    positions (set (tailPositionAtOpt 1) tail3 (some 9)) = [4, 9, 6] ∧
    positions (set (tailPositionAtOpt 4) tail3 (some 9)) = [4, 5, 6] ∧
    view (tailPositionAtOpt 3) tail3 = none ∧ positions ((tailPositionsOptM 1).set tail3 none) = [4, 5, 6] := by
  decide +kernel

end Verif.Doc
