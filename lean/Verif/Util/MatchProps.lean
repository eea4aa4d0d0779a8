import Verif.Util.Match

/-!
Property C121: `match` on variants.
-/

namespace Verif.Match

set_option linter.unusedSectionVars false

variable {T V L U : Type} [DecidableEq T] [DecidableEq U]

/-! ### Specification -/

/-- The variants have values of these alternatives. -/
def Fits (alts : List (List T)) (xs : List (T × V)) : Prop :=
  xs.length = alts.length ∧ ∀ x ∈ (xs.map (·.1)).zip alts, x.1 ∈ x.2

/-- `h` is the best of the handlers: it can be called with arguments of these types, and is better than each of the
others that can. -/
def Chosen (g : Lang T V) (hs : List (Handler T V L U)) (ts : List T) (h : Handler T V L U) : Prop :=
  ∃ l r, hs = l ++ h :: r ∧ (g.costs ts h.params).isSome = true ∧
    ∀ k ∈ l ++ r, (g.costs ts k.params).isSome = true → g.beats ts h.params k.params = true

theorem chosen_iff {g : Lang T V} {hs : List (Handler T V L U)} {ts : List T} {h : Handler T V L U} :
    g.pick hs ts = some h ↔ Chosen g hs ts h := by
  have self : g.viable ts h = true → (g.viable ts h && !g.beats ts h.params h.params) = true := by
    intro hv; rw [hv, beats_irrefl]; rfl
  constructor
  · intro hp
    have b := pick_best hp
    obtain ⟨l, r, e⟩ := List.mem_iff_append.1 b.mem
    refine ⟨l, r, e, b.viable, ?_⟩
    intro k hk hv
    have h1 := b.one
    rw [e, List.countP_append, List.countP_cons, if_pos (self b.viable)] at h1
    have h2 : (l ++ r).countP (fun k => g.viable ts k && !g.beats ts h.params k.params) = 0 := by
      rw [List.countP_append]; omega
    have h3 := List.countP_eq_zero.1 h2 k hk
    simpa [Lang.viable, hv] using h3
  · rintro ⟨l, r, rfl, hv, hb⟩
    refine pick_eq ⟨by simp, hv, ?_⟩
    have h2 : (l ++ r).countP (fun k => g.viable ts k && !g.beats ts h.params k.params) = 0 := by
      rw [List.countP_eq_zero]
      intro k hk
      cases hkv : g.viable ts k with
      | false => simp
      | true => simp [hb k hk hkv]
    rw [List.countP_append] at h2
    rw [List.countP_append, List.countP_cons, if_pos (self hv)]
    omega

/-- What a parameter gets for a value: the value itself, or, if it has another type, the value converted to that. -/
def Given (g : Lang T V) (x : T × V) : Param T → T × V
  | .any => x
  | .type p => if x.1 = p then x else (p, g.cast x.1 p x.2)

theorem pass_eq (g : Lang T V) {xs : List (T × V)} {ps : List (Param T)} (h : ps.length = xs.length) :
    g.pass xs ps = List.zipWith (Given g) xs ps := by
  induction xs generalizing ps with
  | nil => cases ps <;> rfl
  | cons x xs ih =>
    cases ps with
    | nil => cases h
    | cons p ps =>
      have := ih (Nat.succ.inj h)
      obtain ⟨t, v⟩ := x
      cases p with
      | any => simp [Lang.pass, this, Given]
      | type p =>
        simp only [Lang.pass, this, Given, List.zipWith_cons_cons]
        split
        · rename_i h; rw [h]
        · rfl

/-! ### An example: `int`, `float` and `string` -/

inductive Ty where
  | int
  | float
  | string
deriving DecidableEq

/-- Numbers are converted; a float, here in tenths, is truncated. -/
def exLang : Lang Ty Int where
  conv t p := if t = p then some 0 else if t = .string ∨ p = .string then none else some 3
  cast t p v := if t = .float ∧ p = .int then v / 10 else v * 10

theorem exLang_ok : exLang.ok := by
  intro t p
  cases t <;> cases p <;> decide

/-- `[](t x) { return x + n; }`. -/
def exH (ps : List (Param Ty)) (n : Int) : Handler Ty Int Nat Unit where
  params := ps
  ret := fun _ => ()
  body := fun xs => .val ((xs.map (·.2)).sum + n)

/-! ### C121 -/

/-- C121: if the program compiles, then `match` calls, whatever alternatives the variants have, the handler that is the
best one for their types, with the values in the variants, converted where its parameter has another type. -/
theorem C121_calls {g : Lang T V} {mem : L → V} {alts : List (List T)} {hs : List (Handler T V L U)}
    (hc : g.compiles alts hs = true) {xs : List (T × V)} (hx : Fits alts xs) :
    ∃ h, Chosen g hs (xs.map (·.1)) h ∧ (∀ k, Chosen g hs (xs.map (·.1)) k → k = h) ∧
      h.params.length = xs.length ∧
      g.doMatch mem alts hs (xs.map some) = decay mem (.returned (h.body (List.zipWith (Given g) xs h.params))) := by
  have hm : xs.map (·.1) ∈ combos alts := mem_combos.2 ⟨by rw [List.length_map]; exact hx.1, hx.2⟩
  have h1 := List.all_eq_true.1 (List.all_eq_true.1 hc _ hm) _ hm
  cases hp : g.pick hs (xs.map (·.1)) with
  | none => rw [hp] at h1; cases h1
  | some h =>
    have hl : h.params.length = xs.length := by
      obtain ⟨ys, hy⟩ := Option.isSome_iff_exists.1 (pick_best hp).viable
      simpa using (costs_length hy).1
    refine ⟨h, chosen_iff.1 hp, fun k hk => ?_, hl, ?_⟩
    · rw [← chosen_iff, hp] at hk
      exact (Option.some.inj hk).symm
    · have hh : held (xs.map some) = some xs := by
        clear hx hm h1 hp hl
        induction xs with
        | nil => rfl
        | cons x xs ih => simp [held, ih]
      unfold Lang.doMatch Lang.visit
      rw [if_pos hc, hh]
      dsimp only
      rw [hp, ← pass_eq g hl]

/-- C121: the order in which the handlers are given makes no difference. -/
theorem C121_order (g : Lang T V) (mem : L → V) (alts : List (List T)) {hs ks : List (Handler T V L U)} (h : hs.Perm ks)
    (vs : List (Option (T × V))) : g.doMatch mem alts hs vs = g.doMatch mem alts ks vs := by
  have hp : ∀ ts, g.pick hs ts = g.pick ks ts := pick_perm g h
  have hc : g.compiles alts hs = g.compiles alts ks := by unfold Lang.compiles; simp only [hp]
  unfold Lang.doMatch Lang.visit
  rw [hc]
  simp only [hp]

/-- C121: a handler for exactly the types that the variants have is the one that is called, with the values as they
are, if it is the only one for them, whatever others there are. -/
theorem C121_exact {g : Lang T V} (hg : g.ok) {ts : List T} {l r : List (Handler T V L U)} {h : Handler T V L U}
    (he : h.params = ts.map .type) (h1 : ∀ k ∈ l ++ r, k.params ≠ ts.map .type) :
    g.pick (l ++ h :: r) ts = some h ∧ ∀ xs : List (T × V), xs.map (·.1) = ts → g.pass xs h.params = xs := by
  have hz := costs_exact (V := V) hg ts
  refine ⟨chosen_iff.2 ⟨l, r, rfl, by rw [he, hz]; rfl, ?_⟩, ?_⟩
  · intro k hk hv
    unfold Lang.beats
    rw [he, hz]
    cases hk2 : g.costs ts k.params with
    | none => rw [hk2] at hv; cases hv
    | some ys =>
      dsimp only
      rw [leAll_zero, generic_types]
      cases hle : leAll ys (List.replicate ts.length 0) with
      | false => rfl
      | true =>
        have e := leAll_zeros (costs_length hk2).2 hle
        subst e
        cases hgk : generic k.params with
        | true => rfl
        | false => exact absurd (costs_zero hg hk2 hgk) (h1 k hk)
  · intro xs hx
    rw [he, ← hx]
    clear he hx h1 hz
    induction xs with
    | nil => rfl
    | cons x xs ih => simp [Lang.pass]; simpa using ih

/-- C121: for an alternative of a variant that has no handler of its own, the one that takes `auto` is called, also if
there are handlers for types to which it could be converted. -/
theorem C121_auto {g : Lang T V} (hg : g.ok) {t : T} {l r : List (Handler T V L U)} {h : Handler T V L U}
    (he : h.params = [.any]) (h1 : ∀ k ∈ l ++ r, k.params ≠ [.any] ∧ k.params ≠ [.type t]) :
    g.pick (l ++ h :: r) [t] = some h ∧ ∀ v : V, g.pass [(t, v)] h.params = [(t, v)] := by
  refine ⟨chosen_iff.2 ⟨l, r, rfl, by rw [he]; rfl, ?_⟩, by intro v; rw [he]; rfl⟩
  intro k hk hv
  obtain ⟨h2, h3⟩ := h1 k hk
  cases hk2 : g.costs [t] k.params with
  | none => rw [hk2] at hv; cases hv
  | some ys =>
    have hl := costs_length hk2
    obtain ⟨p, hp⟩ := List.length_eq_one_iff.1 hl.1
    rw [hp] at h2 h3 hk2
    cases p with
    | any => exact absurd rfl h2
    | type p =>
      simp only [Lang.costs, Lang.cost, Option.bind_eq_some_iff, Option.map_eq_some_iff] at hk2
      obtain ⟨n, h4, zs, h5, rfl⟩ := hk2
      cases h5
      have hn : n ≠ 0 := by
        rintro rfl
        exact h3 (by rw [(hg t p).1 h4])
      unfold Lang.beats
      rw [he, hp]
      have e1 : g.costs [t] [Param.any] = some [0] := rfl
      have e2 : g.costs [t] [Param.type p] = some [n] := by simp [Lang.costs, Lang.cost, h4]
      rw [e1, e2]
      simp [leAll, hn]

/-- C121: all alternatives must be dealt with: if one, or a combination, has no handler that can be called, the program
does not compile. -/
theorem C121_exhaustive {g : Lang T V} {alts : List (List T)} {hs : List (Handler T V L U)} {ts : List T}
    (ht : ts.length = alts.length ∧ ∀ x ∈ ts.zip alts, x.1 ∈ x.2) (hn : ∀ h ∈ hs, g.costs ts h.params = none) (mem : L → V)
    (vs : List (Option (T × V))) : g.doMatch mem alts hs vs = .rejected := by
  rw [← mem_combos] at ht
  have hp : g.pick hs ts = none := by
    cases h : g.pick hs ts with
    | none => rfl
    | some k =>
      have b := pick_best h
      have := b.viable
      rw [Lang.viable, hn k b.mem] at this
      cases this
  have hc : g.compiles alts hs = false := by
    cases hc : g.compiles alts hs with
    | false => rfl
    | true =>
      have h1 := List.all_eq_true.1 (List.all_eq_true.1 hc _ ht) _ ht
      rw [hp] at h1
      cases h1
  unfold Lang.doMatch Lang.visit
  rw [hc]
  rfl

/-- C121: a variant that has no value, after an exception, makes it throw; no handler is called. -/
theorem C121_valueless {g : Lang T V} {mem : L → V} {alts : List (List T)} {hs : List (Handler T V L U)}
    (hc : g.compiles alts hs = true) {vs : List (Option (T × V))} (hv : none ∈ vs) :
    g.doMatch mem alts hs vs = .bad := by
  have hh : held vs = none := by
    induction vs with
    | nil => cases hv
    | cons x vs ih =>
      cases x with
      | none => rfl
      | some x =>
        have : held vs = none := ih (by simpa using hv)
        simp [held, this]
  unfold Lang.doMatch Lang.visit
  rw [if_pos hc, hh]
  rfl

/-- `match(v)([](int x) { return x; }, [](auto) { return 0; })`, and one with two variants. -/
example : exLang.compiles [[.int, .float, .string]] [exH [.type .int] 1, exH [.any] 2] = true ∧
    exLang.doMatch (fun _ => 0) [[.int, .float, .string]] [exH [.type .int] 1, exH [.any] 2] [some (.int, 42)] =
      .returned (.val 43) ∧
    exLang.doMatch (fun _ => 0) [[.int, .float, .string]] [exH [.type .int] 1, exH [.any] 2] [some (.float, 42)] =
      .returned (.val 44) ∧
    exLang.doMatch (fun _ => 0) [[.int, .float, .string]] [exH [.type .int] 1, exH [.any] 2] [none] = .bad ∧
    exLang.doMatch (fun _ => 0) [[.int, .string], [.int, .string]]
      [exH [.any, .any] 1, exH [.type .int, .any] 2, exH [.type .int, .type .int] 3] [some (.int, 1), some (.string, 5)] =
      .returned (.val 8) ∧
    exLang.doMatch (fun _ => 0) [[.int, .string], [.int, .string]]
      [exH [.any, .any] 1, exH [.type .int, .any] 2, exH [.any, .type .int] 3] [some (.int, 1), some (.string, 5)] =
      .rejected ∧
    exLang.doMatch (fun _ => 0) [[.int, .float, .string]] [exH [.type .int] 1] [some (.int, 42)] = .rejected := by
  decide +kernel

/-- C121 is FALSE for alternatives that can be converted: one that has no handler is not rejected, but converted for that
of another one, here a `float` for one that takes an `int`. -/
theorem C121_converted_false : ∃ (g : Lang Ty Int) (hs : List (Handler Ty Int Nat Unit)), g.ok ∧
    (∀ h ∈ hs, h.params = [.type .int]) ∧ g.compiles [[.int, .float]] hs = true ∧
    g.doMatch (fun _ => 0) [[.int, .float]] hs [some (.float, 42)] = .returned (.val 4) :=
  ⟨exLang, [exH [.type .int] 0], exLang_ok, by decide, by decide +kernel, by decide +kernel⟩

/-- C121: a reference that a handler returns is not what `match` returns, other than `std::visit`: it is always a copy
of the value. -/
theorem C121_copies (g : Lang T V) (mem : L → V) (alts : List (List T)) (hs : List (Handler T V L U))
    (vs : List (Option (T × V))) :
    (∀ l, g.doMatch mem alts hs vs ≠ .returned (.ref l)) ∧
    (∀ v, g.visit alts hs vs = .returned (.val v) → g.doMatch mem alts hs vs = .returned (.val v)) ∧
    ∀ l, g.visit alts hs vs = .returned (.ref l) → g.doMatch mem alts hs vs = .returned (.val (mem l)) := by
  unfold Lang.doMatch
  refine ⟨?_, ?_, ?_⟩
  · intro l
    cases g.visit alts hs vs with
    | rejected => simp [decay]
    | bad => simp [decay]
    | returned r => cases r <;> simp [decay]
  · intro v h; rw [h]; rfl
  · intro l h; rw [h]; rfl

example : exLang.visit [[.int]] [{ exH [.type .int] 0 with body := fun _ => Res.ref 7 }] [some (.int, 42)] =
      .returned (.ref 7) ∧
    exLang.doMatch (fun l => l + 1) [[.int]] [{ exH [.type .int] 0 with body := fun _ => Res.ref 7 }] [some (.int, 42)] =
      .returned (.val 8) := by decide +kernel

end Verif.Match
