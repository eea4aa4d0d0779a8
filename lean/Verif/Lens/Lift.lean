import Verif.Lens.Props

/-
C33: the ways of going through several optionals that `doc/lenses.rst:291-405` offers, and when they are the same.
-/

namespace Verif.Lens

/-- C33: `bind_opt(l | m)` is `map_opt(l) | bind_opt(m)`, if setting what `l` shows changes nothing. -/
theorem C33_bind_opt_comp {W P Q : Type} {l : VL W P} {m : VL P (Option Q)} (hl : LibLens l) (hm : LibLens m)
    (hl' : ∀ w, set l w (view l w) = w) :
    (∀ w, view (bindOpt (comp l m)) w = view (comp (mapOpt l) (bindOpt m)) w) ∧
    (∀ w q, set (bindOpt (comp l m)) w q = set (comp (mapOpt l) (bindOpt m)) w q) := by
  obtain ⟨hv, hs⟩ := C28_comp hl hm
  obtain ⟨hv', hs'⟩ := C28_comp (.mapOpt hl) (.bindOpt hm)
  constructor
  · intro w
    rw [hv']
    cases w with
    | none => rfl
    | some w => exact hv w
  · intro w q
    rw [hs']
    cases w with
    | none => rfl
    | some w =>
      cases q with
      | none => exact congrArg some (hl' w).symm
      | some q => exact congrArg some (hs w (some q))

/-- C33: `bind_opt(l | bind_opt(m))` shows what `bind_opt(l) | bind_opt(m)` shows; they set the same if setting what `l`
shows changes nothing. -/
theorem C33_bind_opt_assoc {W P Q : Type} {l : VL W (Option P)} {m : VL P (Option Q)} (hl : LibLens l) (hm : LibLens m)
    (hl' : ∀ w, set l w (view l w) = w) :
    (∀ w, view (bindOpt (comp l (bindOpt m))) w = view (comp (bindOpt l) (bindOpt m)) w) ∧
    (∀ w q, set (bindOpt (comp l (bindOpt m))) w q = set (comp (bindOpt l) (bindOpt m)) w q) := by
  obtain ⟨hv, hs⟩ := C28_comp hl (.bindOpt hm)
  obtain ⟨hv', hs'⟩ := C28_comp (.bindOpt hl) (.bindOpt hm)
  constructor
  · intro w
    rw [hv']
    cases w with
    | none => rfl
    | some w => exact hv w
  · intro w q
    rw [hs']
    cases w with
    | none => rfl
    | some w =>
      have hw := hl' w
      cases q with
      | none =>
        show some w = set (bindOpt l) (some w) (set (bindOpt m) (view l w) none)
        rw [C33_bind_opt.2.2.2.1]
        cases hview : view l w with
        | none => rfl
        | some p => rw [hview] at hw; exact congrArg some hw.symm
      | some q =>
        show some (set (comp l (bindOpt m)) w (some q)) = set (bindOpt l) (some w) (set (bindOpt m) (view l w) (some q))
        rw [hs]
        cases hview : view l w with
        | none =>
          rw [hview] at hw
          show some (set l w none) = some w
          rw [hw]
        | some p => rfl

/-- C33: `bind_opt(l | force_opt)` is `map_opt(l)`. -/
theorem C33_bind_force {W P : Type} {l : VL W P} (hl : LibLens l) :
    (∀ w, view (bindOpt (comp l forceOpt)) w = view (mapOpt l) w) ∧
    (∀ w q, set (bindOpt (comp l forceOpt)) w q = set (mapOpt l) w q) := by
  obtain ⟨hv, hs⟩ := C28_comp hl (.forceOpt)
  constructor
  · intro w
    cases w with
    | none => rfl
    | some w => exact hv w
  · intro w q
    cases w with
    | none => rfl
    | some w =>
      cases q with
      | none => rfl
      | some q => exact congrArg some (hs w (some q))

/-- C33: FALSE of lenses that change something when what they show is set again: here setting nothing through
`map_opt(l) | bind_opt(at(0))` changes the whole, and through `bind_opt(l | at(0))` it does not. -/
theorem C33_bind_opt_comp_false : ∃ (l : VL (List Nat) (List Nat)) (m : VL (List Nat) (Option Nat)) (w : List Nat),
    LibLens l ∧ LibLens m ∧ set (bindOpt (comp l m)) (some w) none = some w ∧
    set (comp (mapOpt l) (bindOpt m)) (some w) none ≠ some w :=
  ⟨getset id fun w p => w ++ p, at' (seqCont Nat .inPlace) 0, [3], .getset _ _, .at' _ _, by decide, by decide⟩

/- The digits of the legs of the mouse, `doc/lenses.rst:341-372`: a leg is a pair of a position and of its digits. -/
example : let digits : VL (Nat × List Nat) (List Nat) := getset (·.2) fun w p => (w.1, p)
    let first := at' (seqCont Nat .inPlace) 0
    (∀ w, set digits w (view digits w) = w) ∧
    set (bindOpt (comp digits first)) (some (7, [1, 2])) (some 5) = some (7, [5, 2]) ∧
    set (comp (mapOpt digits) (bindOpt first)) (some (7, [1, 2])) (some 5) = some (7, [5, 2]) ∧
    view (bindOpt (comp digits forceOpt)) (some (7, [1, 2])) = some [1, 2] ∧
    set (bindOpt (comp digits first)) (some (7, [])) (some 5) = some (7, []) :=
  ⟨fun _ => rfl, by decide, by decide, by decide, by decide⟩

example : let first : VL (List (List Nat)) (Option (List Nat)) := at' (seqCont (List Nat) .inPlace) 0
    let second := at' (seqCont Nat .inPlace) 1
    set (comp (bindOpt first) (bindOpt second)) (some [[1, 2], [3]]) (some 5) = some [[1, 5], [3]] ∧
    set (bindOpt (comp first (bindOpt second))) (some [[1, 2], [3]]) (some 5) = some [[1, 5], [3]] := by
  decide

end Verif.Lens
