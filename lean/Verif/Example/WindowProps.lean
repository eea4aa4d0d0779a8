import Verif.Store.Props19
import Verif.Example.TerminalProps

/-!
C140 for the counter in a window, `example/counter/sdl2/main.cpp`.
-/

namespace Verif.Window

open Verif.Store

/-! ### Spec -/

/-- The keys: up counts up, down counts down, and the space bar begins anew. -/
def count (c : Int) : List Event → Int
  | [] => c
  | .up :: es => count (c + 1) es
  | .down :: es => count (c - 1) es
  | .space :: es => count 0 es
  | _ :: es => count c es

/-! ### Proofs -/

theorem counterCfg_sound : counterCfg.sound := fun _ _ h => by cases h

theorem counterCfg_plain : counterCfg.plain := fun _ _ => rfl

/-- The same key in a terminal. -/
def Event.key : Event → Terminal.Key
  | .up => .up
  | .down => .down
  | .space => .space
  | .quit => .other 0
  | .other n => .other n

theorem count_key (c : Int) (es : List Event) : Terminal.count c (es.map Event.key) = count c es := by
  induction es generalizing c with
  | nil => rfl
  | cons e es ih => cases e <;> exact ih _

theorem intent_key (es : List Event) : es.filterMap counter.intent = (es.map Event.key).filterMap Terminal.Key.action := by
  have : counter.intent = Terminal.Key.action ∘ Event.key := by funext e; cases e <;> rfl
  rw [List.filterMap_map, this]

theorem made_handler {E A : Type} (f : E → Option A) {l : List (Call E A)} (h : ∀ as, .tick as ∉ l) :
    made f l = (heard l).filterMap f := by
  induction l with
  | nil => rfl
  | cons x l ih =>
    have ih := ih fun as ha => h as (List.mem_cons_of_mem _ ha)
    cases x with
    | handler e => simp only [made, heard, ih, List.filterMap_cons]; cases f e <;> rfl
    | tick as => exact absurd (List.mem_cons_self ..) (h as)

/-! ### C140 -/

/-- C140: when nothing waits, the window shows the number of ups less the number of downs since the space bar was pressed last, of
all keys for which SDL had room; unless, and only unless, that was too large or too small for an `int` at some point. -/
theorem C140_counter {cap : Nat} {w : Pump Event Counter.Act (Option Int)} (r : Pump.Reach counterCfg cap counter w)
    (ht : ∀ as, .tick as ∉ w.calls) (he : w.events = []) :
    (∀ v, lastShown (some 0) w.st.log = some v → v = count 0 w.arrived) ∧
    (lastShown (some 0) w.st.log = none ↔
      ∃ ks ls, w.arrived = ks ++ ls ∧ ¬ (-2 ^ 31 ≤ count 0 ks ∧ count 0 ks < 2 ^ 31)) := by
  have hd := C140_drawn counterCfg_sound counterCfg_plain rfl rfl r (by rw [he]; nofun)
  have ho := (C140_order counterCfg_plain rfl rfl r).1
  rw [he, show users ([] : List (SdlEv Event)) = [] from rfl, List.append_nil] at ho
  have hg : lastShown (some 0) w.st.log = Counter.run 0 ((w.arrived.map Event.key).filterMap Terminal.Key.action) := by
    rw [show lastShown (some 0) w.st.log = w.st.get from hd.2, hd.1, made_handler _ ht, ← ho, intent_key]
    exact Terminal.fold_run (some 0) _
  rw [hg]
  have := Terminal.run_count (w.arrived.map Event.key)
  rw [count_key] at this
  refine ⟨this.1, this.2.trans ⟨?_, ?_⟩⟩
  · rintro ⟨ks, ls, h1, h2⟩
    obtain ⟨l1, l2, h3, h4, _⟩ := List.map_eq_append_iff.1 h1
    exact ⟨l1, l2, h3, by rw [← count_key, h4]; exact h2⟩
  · rintro ⟨ks, ls, h1, h2⟩
    exact ⟨ks.map Event.key, ls.map Event.key, by rw [h1, List.map_append], by rw [count_key]; exact h2⟩

/-! ### Examples -/

abbrev W := Pump Event Counter.Act (Option Int)

def ex (cap : Nat) (os : List (PumpOp Event Counter.Act)) : W := (Pump.exec counterCfg cap counter (.start counterCfg) os).getD (.start counterCfg)

theorem ex_reach {cap : Nat} (os : List (PumpOp Event Counter.Act))
    (h : (Pump.exec counterCfg cap counter (.start counterCfg) os).isSome = true) (ho : ∀ as, .tick as ∉ os) :
    Pump.Reach counterCfg cap counter (ex cap os) := by
  refine Pump.Reach.start.nexts ho (os := os) ?_
  unfold ex
  cases hx : Pump.exec counterCfg cap counter (Pump.start counterCfg) os with
  | none => rw [hx] at h; cases h
  | some w => rfl

/-- Three keys, of which the second comes while the first one is handled, in a queue with room for two events. -/
def exKeys : List (PumpOp Event Counter.Act) :=
  [.arrive .up, .arrive .up, .next, .next, .next, .next, .next, .next, .arrive (.other 3), .arrive .down, .next, .next, .next, .next]

example : Pump.Reach counterCfg 2 counter (ex 2 exKeys) ∧ (ex 2 exKeys).events = [] ∧
    (∀ as, .tick as ∉ (ex 2 exKeys).calls) ∧ (ex 2 exKeys).arrived = [.up, .up, .other 3, .down] ∧
    lastShown (some 0) (ex 2 exKeys).st.log = some 1 ∧ (ex 2 exKeys).lost = 0 := by
  refine ⟨ex_reach _ (by decide +kernel) ?_, by decide +kernel, ?_, by decide +kernel, by decide +kernel, by decide +kernel⟩
  · intro as h; simp [exKeys] at h
  · intro as h
    have : (ex 2 exKeys).calls = [.handler .up, .handler .up, .handler (.other 3), .handler .down] := by decide +kernel
    rw [this] at h
    simp at h

/-- C140 is FALSE for the last keys: what is typed before the window is closed may not be evaluated, although the handler was
called with it. -/
theorem C140_quit_false : ∃ w : W, Pump.Reach counterCfg 65535 counter w ∧ heard w.calls = [.up, .quit] ∧
    w.running = false ∧ w.st.get = some 0 ∧ reductions w.st.log = [] := by
  refine ⟨ex 65535 [.arrive .up, .arrive .quit, .next, .next], ex_reach _ (by decide +kernel) ?_, by decide +kernel,
    by decide +kernel, by decide +kernel, by decide +kernel⟩
  intro as h; simp at h

/-- C140 is FALSE for all keys: those for which SDL has no room are lost. -/
theorem C140_full_false : ∃ w : W, Pump.Reach counterCfg 2 counter w ∧ w.arrived = [.up, .up] ∧ w.refused = [.up] ∧
    w.events = [] ∧ lastShown (some 0) w.st.log = some 2 := by
  refine ⟨ex 2 ([.arrive .up, .arrive .up, .arrive .up] ++ List.replicate 6 .next), ex_reach _ (by decide +kernel) ?_,
    by decide +kernel, by decide +kernel, by decide +kernel, by decide +kernel⟩
  intro as h; simp at h

/-- A `tick` that dispatches, and an event. -/
example : ∃ w w' : W, Pump.Reach counterCfg 2 counter w ∧ w.step counterCfg 2 counter (.tick [.increment]) = some w' ∧
    w.arrived = [.down] ∧ w.calls = [.tick [.increment, .increment], .handler .down] ∧ w.st.get = some 1 := by
  have h1 : (Pump.step counterCfg 2 counter (.start counterCfg) (.tick [.increment, .increment])).isSome = true := by
    decide +kernel
  obtain ⟨w1, h1⟩ := Option.isSome_iff_exists.1 h1
  have r1 : Pump.Reach counterCfg 2 counter w1 := .tick _ (Nat.le_refl _) .start h1
  have h2 : ((Pump.exec counterCfg 2 counter (.start counterCfg) [.tick [.increment, .increment], .next, .next, .next, .next,
      .arrive .down, .next, .next, .next]).map fun w => (w.arrived, w.calls, w.st.get,
        (w.step counterCfg 2 counter (.tick [.increment])).isSome)) =
      some ([.down], [.tick [.increment, .increment], .handler .down], some 1, true) := by decide +kernel
  simp only [Option.map_eq_some_iff, Prod.mk.injEq] at h2
  obtain ⟨w, h3, h4, h5, h6, h7⟩ := h2
  obtain ⟨w', h7⟩ := Option.isSome_iff_exists.1 h7
  have h8 : Pump.exec counterCfg 2 counter w1 [.next, .next, .next, .next, .arrive .down, .next, .next, .next] = some w := by
    have h3' : (Pump.step counterCfg 2 counter (Pump.start counterCfg) (.tick [.increment, .increment])).bind
        (fun w' => Pump.exec counterCfg 2 counter w' [.next, .next, .next, .next, .arrive .down, .next, .next, .next]) =
        some w := h3
    rw [h1] at h3'
    exact h3'
  exact ⟨w, w', r1.nexts (fun as h => by simp at h) h8, h7, h4, h5, h6⟩

/-- The hypotheses of `C140_frames_false`. -/
example : counterCfg.plain ∧ (∀ m a, counterCfg.throws m a = false) ∧ (counter.intent .up).isSome ∧
    counter.stops .up = false := ⟨counterCfg_plain, fun _ _ => rfl, rfl, rfl⟩

end Verif.Window
