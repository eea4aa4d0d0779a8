import Verif.Example.PongWindow
import Verif.Example.PongProps
import Verif.Store.Props19

/-!
C140 for the game `autopong`.
-/

namespace Verif.Pong

open Verif.Store

variable {F : Type}

/-- The motions of the mouse. -/
def motions (l : List (Event F)) : List F := l.filterMap fun | .motion d => some d | _ => none

theorem fold_paddle (f : Floats F) (w : Walls F) (s : F × F) (l : List (Call (Event F) (Act F))) (g : Model F)
    (h : ∀ as, .tick as ∈ l → ∀ a ∈ as, ∃ d p, a = .tick d p) :
    ((made (handler F).intent l).foldl (cfg f w s).next g).paddle = (motions (heard l)).foldl
      (fun x d => f.max f.zero (f.min f.right (f.add x (f.mul d f.paddleSens)))) g.paddle := by
  induction l generalizing g with
  | nil => rfl
  | cons c l ih =>
    have ih := fun g => ih g fun as ha => h as (List.mem_cons_of_mem _ ha)
    cases c with
    | handler e =>
      cases e with
      | motion d => exact ih _
      | quit => exact ih _
      | other => exact ih _
    | tick as =>
      simp only [made, List.foldl_append, ih, heard]
      congr 1
      have h' := h as (List.mem_cons_self ..)
      clear ih h
      induction as generalizing g with
      | nil => rfl
      | cons a as ih =>
        obtain ⟨d, p, rfl⟩ := h' a (List.mem_cons_self ..)
        refine (ih _ fun a ha => h' a (List.mem_cons_of_mem _ ha)).trans ?_
        exact tick_paddle f w g d p

/-- C140: in `autopong`, when `tick` is called for a frame, the paddle is drawn where all motions of the mouse so far have put it,
each of them stopped by the walls, and no matter which of them came between the same two frames. -/
theorem C140_paddle {f : Floats F} {w : Walls F} {s : F × F} {cap : Nat} {p p' : Pump (Event F) (Act F) (Model F)}
    (r : Pump.Reach (cfg f w s) cap (handler F) p) (ht : ∀ as, .tick as ∈ p.calls → ∀ a ∈ as, ∃ d p, a = .tick d p)
    {as : List (Act F)} (hs : p.step (cfg f w s) cap (handler F) (.tick as) = some p') :
    (lastShown (new f s) p.st.log).paddle = (p.arrived.filterMap fun | .motion d => some d | _ => none).foldl
      (fun x d => f.max f.zero (f.min f.right (f.add x (f.mul d f.paddleSens)))) f.middle := by
  obtain ⟨h1, h2⟩ := C140_tick (c := cfg f w s) (fun _ _ h => by cases h) (fun _ _ => rfl) rfl rfl r hs
  rw [← h1]
  exact (congrArg Model.paddle h2).trans (fold_paddle f w s p.calls (new f s) ht)

/-! ### Example -/

deriving instance DecidableEq for Act, Event

abbrev W := Pump (Event Int) (Act Int) (Model Int)

theorem reach_exec {p p' : W} {cap : Nat} (r : Pump.Reach (cfg exFloats exWalls (5, 5)) cap (handler Int) p)
    {os : List (PumpOp (Event Int) (Act Int))} (ho : ∀ as, .tick as ∈ os → as.length ≤ cap)
    (hx : p.exec (cfg exFloats exWalls (5, 5)) cap (handler Int) os = some p') :
    Pump.Reach (cfg exFloats exWalls (5, 5)) cap (handler Int) p' := by
  induction os generalizing p with
  | nil => cases hx; exact r
  | cons o os ih =>
    simp only [Pump.exec, Option.bind_eq_some_iff] at hx
    obtain ⟨q, h1, h2⟩ := hx
    refine ih ?_ (fun as ha => ho as (List.mem_cons_of_mem _ ha)) h2
    cases o with
    | arrive e => exact .arrive e r h1
    | next => exact .next r h1
    | tick as => exact .tick as (ho as (List.mem_cons_self ..)) r h1

/-- The mouse is moved far to the left, there is a frame, and it is moved to the right in two steps. -/
def exMoves : List (PumpOp (Event Int) (Act Int)) :=
  [.arrive (.motion (-900)), .next, .next, .next, .tick [.tick 5 (0, 1)], .next, .next, .arrive (.motion 10), .arrive (.motion 20),
    .next, .next, .next, .next, .next, .next]

def exPump : W := ((Pump.start (cfg exFloats exWalls (5, 5)) : W).exec (cfg exFloats exWalls (5, 5)) 4 (handler Int) exMoves).getD
  (.start (cfg exFloats exWalls (5, 5)))

example : Pump.Reach (cfg exFloats exWalls (5, 5)) 4 (handler Int) exPump ∧
    (∀ as, .tick as ∈ exPump.calls → ∀ a ∈ as, ∃ d p, a = .tick d p) ∧
    (exPump.step (cfg exFloats exWalls (5, 5)) 4 (handler Int) (.tick [.tick 5 (0, 1)])).isSome = true ∧
    exPump.arrived = [.motion (-900), .motion 10, .motion 20] ∧
    (lastShown (new exFloats (5, 5)) exPump.st.log).paddle = 60 := by
  have hc : exPump.calls = [.handler (.motion (-900)), .tick [.tick 5 (0, 1)], .handler (.motion 10), .handler (.motion 20)] := by
    decide +kernel
  refine ⟨reach_exec (os := exMoves) .start ?_ ?_, ?_, by decide +kernel, by decide +kernel, by decide +kernel⟩
  · intro as h
    simp [exMoves] at h
    subst h; decide
  · unfold exPump
    cases hx : (Pump.start (cfg exFloats exWalls (5, 5)) : W).exec (cfg exFloats exWalls (5, 5)) 4 (handler Int) exMoves with
    | none => exact absurd hx (by
        have : ((Pump.start (cfg exFloats exWalls (5, 5)) : W).exec (cfg exFloats exWalls (5, 5)) 4 (handler Int) exMoves).isSome =
          true := by decide +kernel
        intro h; rw [h] at this; cases this)
    | some p => rfl
  · intro as h
    rw [hc] at h
    simp at h
    subst h
    exact fun a ha => ⟨_, _, List.mem_singleton.1 ha⟩

end Verif.Pong
